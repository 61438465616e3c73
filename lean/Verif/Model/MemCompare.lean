import Verif.Model.Memory

/-!
# Comparing sets in memory

`Equal` and `SubsetOf` of `Model/Node.lean` and `Model/Tree.lean` as code that reads the memory of `Model/Memory.lean`. As in `getP`, a
search through a twig reads all of its elements; the code stops at the element it looks for.
-/

namespace Frozen

variable {T : Type}

/-- A loop over elements that ends with `false` at the first that fails. -/
def allP (f : T → MM T Bool) : List T → MM T Bool
  | [] => pure true
  | e :: es => do
    if ← f e then allP f es else pure false

/-- `Equal`: leaf1.go:101-104, leaf2.go:134-138, twig.go:172-189, branch.go:159-171. The inner loop of a twig (twig.go:179-183) reads the
other twig again for each element. -/
def equalP (eq : T → T → Bool) : Nat → Ptr → Ptr → MM T Bool
  | 0, _, _ => raise (.msg "out of fuel")
  | _ + 1, none, _ => raise .nilDeref
  | fuel + 1, some a, q => do
    match ← readCell a with
    | .leaf1 x => do
      match ← readPtr q with
      | some (.leaf1 y) => pure (eq x y)
      | _ => pure false
    | .leaf2 x y => do
      match ← readPtr q with
      | some (.leaf2 x' y') => pure ((eq x x' && eq y y') || (eq x y' && eq y x'))
      | _ => pure false
    | .twig s => do
      match ← readPtr q with
      | some (.twig s') =>
        if s.len ≠ s'.len then pure false
        else do
          let l ← readSlice s
          allP (fun e => do
            let l' ← readSlice s'
            pure (l'.any (fun f => eq e f))) l
      | _ => pure false
    | .branch m k => do
      match ← readPtr q with
      | some (.branch m' k') =>
        if m ≠ m' then pure false
        else do
          let (ok, _) ← parallelM m (fun i => do
            let r ← equalP eq fuel (k i) (k' i)
            pure (r, 0))
          pure ok
      | _ => pure false

variable [GoKey T]

/-- `SubsetOf`: leaf1.go:137-139, leaf2.go:184-187, twig.go:239-247, branch.go:242-259. -/
def subsetOfP : Nat → Ptr → Ptr → Nat → MM T Bool
  | 0, _, _, _ => raise (.msg "out of fuel")
  | _ + 1, none, _, _ => raise .nilDeref
  | fuel + 1, some a, q, d => do
    match ← readCell a with
    | .leaf1 x => do
      let g ← getP memFuel q x (newHasher x d)
      pure g.isSome
    | .leaf2 x y => do
      let gx ← getP memFuel q x (newHasher x d)
      if gx.isSome then do
        let gy ← getP memFuel q y (newHasher y d)
        pure gy.isSome
      else pure false
    | .twig s => do
      let l ← readSlice s
      allP (fun e => do
        let g ← getP memFuel q e (newHasher e d)
        pure g.isSome) l
    | .branch m k => do
      match ← readPtr q with
      | some (.branch m' k') => do
        let (ok, _) ← parallelM (m ||| m') (fun i =>
          if (k i).isNone then pure (true, 0)
          else if (k' i).isNone then pure (false, 0)
          else do
            let r ← subsetOfP fuel (k i) (k' i) (d + 1)
            pure (r, 0))
        pure ok
      | _ => pure false

omit [GoKey T] in
/-- tree.go:73-82 `Equal` -/
def MTree.equalP (eq : T → T → Bool) (t u : MTree) : MM T Bool :=
  if t.count ≠ u.count then pure false
  else if t.count = 0 ∧ u.count = 0 then pure true
  else Frozen.equalP eq memFuel t.root u.root

/-- tree.go:133-141 `SubsetOf` -/
def MTree.subsetOfP (t u : MTree) : MM T Bool :=
  if t.root.isNone then pure true
  else if u.root.isNone then pure false
  else Frozen.subsetOfP memFuel t.root u.root 0

end Frozen
