import Verif.Model.SetExtra
import Verif.Model.IntSet

/-!
# Functions that call the user back

In the other models the functions passed by the user are pure. Here a library function that takes one is the protocol of its calls:
it returns, or panics by itself, or calls the user with some arguments and goes on with the answer. What the user's function does in
between (keep state, answer differently the next time, panic, call the library) is thereby left open. `CB.eval` puts a pure function
in, which gives back the other models (Proof/Calls.lean).

The goroutine path of `Gauge.Parallel` is modelled in `Model/CallsPar.lean`.
-/

namespace Frozen

/-- A library function that calls the user with arguments in `Q` and gets answers in `A`. -/
inductive CB (Q A R : Type) where
  | done (r : R)
  | panic (p : Panic)
  | call (q : Q) (next : A → CB Q A R)

variable {Q A R S : Type}

/-- Sequencing. -/
def CB.bind (x : CB Q A R) (f : R → CB Q A S) : CB Q A S :=
  match x with
  | .done r => f r
  | .panic p => .panic p
  | .call q next => .call q (fun a => (next a).bind f)

instance : Monad (CB Q A) where
  pure := .done
  bind := CB.bind

/-- A part that does not call the user. -/
def CB.lib : Go R → CB Q A R
  | .ok r => .done r
  | .error p => .panic p

/-- One call of the user's function. -/
def CB.ask (q : Q) : CB Q A A := .call q .done

/-- `f` is the user's function: a pure one. -/
def CB.eval (f : Q → A) : CB Q A R → Go R
  | .done r => .ok r
  | .panic p => .error p
  | .call q next => (next (f q)).eval f

/-- `f` is the user's function: any program, in any monad. -/
def CB.perform {m : Type → Type} [Monad m] (f : Q → m A) : CB Q A R → m (Go R)
  | .done r => pure (.ok r)
  | .panic p => pure (.error p)
  | .call q next => do
    let a ← f q
    (next a).perform f

/-- The user's function is wrapped in a closure before it is passed on: each call of the closure is `h`, which may call the user any
number of times. -/
def CB.wrap {Q' A' : Type} (h : Q → CB Q' A' A) : CB Q A R → CB Q' A' R
  | .done r => .done r
  | .panic p => .panic p
  | .call q next => (h q).bind (fun a => (next a).wrap h)

/-- gauge.go:72-81, the sequential path, as `parallelLoop`. -/
def parallelLoopE {σ : Type} (f : Fin 8 → σ → CB Q A (σ × Bool × Int)) : List Nat → σ → Int → CB Q A (σ × Bool × Int)
  | [], s, ms => .done (s, true, ms)
  | i :: is, s, ms =>
    if h : i < 8 then do
      let (s', ok, m) ← f ⟨i, h⟩ s
      if !ok then pure (s', false, ms) else parallelLoopE f is s' (ms + m)
    else .panic (.msg "index out of range")

/-- gauge.go:51-84 `Parallel`. -/
def parallelE {σ : Type} (mask : Masker) (s : σ) (f : Fin 8 → σ → CB Q A (σ × Bool × Int)) : CB Q A (σ × Bool × Int) :=
  parallelLoopE f (bitLoop mask) s 0

variable {T : Type} [GoKey T]

/-! ## Where -/

omit [GoKey T] in
/-- twig.go:273-278, the loop of `Where`. -/
def twigWhereE : List T → CB T Bool (List T)
  | [] => pure []
  | e :: l => do
    let p ← CB.ask e
    let r ← twigWhereE l
    pure (if p then e :: r else r)

/-- `Where`: leaf1.go:149-154, leaf2.go:201-214, twig.go:271-280, branch.go:287-301, as `Frozen.where`. -/
def whereE : Node T → Nat → CB T Bool (Node T × Int × Bool)
  | .nil, _ => .panic .nilDeref
  | .leaf1 a, _ => do
    let p ← CB.ask a
    pure (if p then (.leaf1 a, 1, true) else (.nil, 0, false))
  | .leaf2 a b, _ => do
    let p0 ← CB.ask a
    let p1 ← CB.ask b
    pure (if p0 && p1 then (.leaf2 a b, 2, true)
      else if p0 then (.leaf1 a, 1, false)
      else if p1 then (.leaf1 b, 1, false)
      else (.nil, 0, false))
  | .twig l, d => do
    let ret ← twigWhereE l
    let r ← CB.lib (twigCanonical ret d)
    pure (r, ret.length, false)
  | .branch m k, d => do
    let ((nodes, same), _, ms) ← parallelE m ((Packer.zero : Packer T), (fun i => (k i).isNil : Fin 8 → Bool)) (fun i st => do
      let (n, ms', s) ← whereE (k i) (d + 1)
      pure ((⟨st.1.mask, setSlot st.1.data i n⟩, setSlot st.2 i s), true, ms'))
    let nodes := nodes.updateMask
    if nodes.mask = m ∧ (List.finRange 8).all same then pure (.branch m k, ms, true)
    else do
      let r ← CB.lib (branchCanonical nodes)
      pure (r, ms, false)

/-- tree.go:177-185 `Where` -/
def Tree.whereE (t : Tree T) : CB T Bool (Tree T) :=
  if t.root.isNil then .done t
  else do
    let (root, ms, _) ← Frozen.whereE t.root 0
    pure ⟨root, ms⟩

/-- set.go:207-214 `Where` -/
def FSet.whereE (s : FSet T) : CB T Bool (FSet T) := do
  let t ← s.tree.whereE
  pure ⟨t⟩

/-! ## Reduce -/

omit [GoKey T] in
/-- `Reduce`: leaf1.go:125-127, leaf2.go:168-170, twig.go:216-218, branch.go:207-220, as `Frozen.reduce`. The slices passed to the user
alias the set's own storage in Go (`l.data[:]`, `l.data`); here the
user's function does not write to them (see Model/MemReduce.lean). -/
def reduceE [Inhabited T] : Node T → CB (List T) T T
  | .nil => .panic .nilDeref
  | .leaf1 a => CB.ask [a]
  | .leaf2 a b => CB.ask [a, b]
  | .twig l => CB.ask l
  | .branch m k => do
    let (results, _, _) ← parallelE m (fun _ => (default : T) : Fin 8 → T) (fun i res => do
      let x ← reduceE (k i)
      pure (setSlot res i x, true, 0))
    let results2 ← CB.lib ((bitLoop m).mapM (fun i =>
      if h : i < 8 then (.ok (results ⟨i, h⟩) : Go T) else .error (.msg "index out of range")))
    CB.ask results2

omit [GoKey T] in
/-- tree.go:157-162 `Reduce` -/
def Tree.reduceE [Inhabited T] (t : Tree T) : CB (List T) T (Option T) :=
  if t.root.isNil then .done none
  else do
    let x ← Frozen.reduceE t.root
    pure (some x)

omit [GoKey T] in
/-- set.go:233-235 `Reduce` -/
def FSet.reduceE [Inhabited T] (s : FSet T) : CB (List T) T (Option T) := s.tree.reduceE

omit [GoKey T] in
/-- set.go:240-248 `Reduce2`; `elems[0]` panics on an empty slice. -/
def FSet.reduce2E [Inhabited T] (s : FSet T) : CB (T × T) T (Option T) :=
  s.reduceE.wrap (fun elems =>
    match elems with
    | [] => .panic (.msg "index out of range")
    | a :: as => as.foldlM (fun acc e => CB.ask (acc, e)) a)

/-! ## Loops over all elements -/

variable {U K V : Type}

/-- tree.go:143-155 `Map` -/
def Tree.mapE [GoKey U] (t : Tree T) : CB T U (Tree U) :=
  if t.root.isNil then .done Tree.zero
  else do
    let vs ← CB.lib t.rangeList
    let b ← vs.foldlM (fun b v => do
      let u ← CB.ask v
      CB.lib (Builder.add b u)) (Tree.zero : Builder U)
    pure b.finish.1

omit [GoKey T] in
/-- set.go:217-219 `SetMap` -/
def setMapE [GoKey U] (s : FSet T) : CB T U (FSet U) := do
  let t ← s.tree.mapE
  pure ⟨t⟩

variable [GoKey K]

/-- set.go:337-357 `SetGroupBy` -/
def setGroupByE (s : FSet T) : CB T K (FMap K (FSet T)) := do
  let vs ← CB.lib s.rangeList
  let g ← vs.foldlM (fun g v => do
    let k ← CB.ask v
    CB.lib (groupStep (fun _ => k) g v)) (⟨(Tree.zero : MapBuilder K Nat), []⟩ : Groups K T)
  let fb := (MapBuilder.finish g.builders).1
  let es ← CB.lib fb.rangeList
  let st ← CB.lib (es.foldlM groupFinish ((Tree.zero : MapBuilder K (FSet T)), g.heap))
  pure (MapBuilder.finish st.1).1

/-- map.go:33-40 `NewMapFromKeys` -/
def newMapFromKeysE (keys : FSet K) : CB K V (FMap K V) := do
  let ks ← CB.lib keys.rangeList
  let b ← ks.foldlM (fun b k => do
    let v ← CB.ask k
    CB.lib (MapBuilder.put b k v)) (Tree.zero : MapBuilder K V)
  pure (MapBuilder.finish b).1

/-- map.go:154-162 `Where`: the user is called with a key and its value. -/
def FMap.whereE (m : FMap K V) : CB (K × V) Bool (FMap K V) := do
  let es ← CB.lib m.rangeList
  let b ← es.foldlM (fun b e => do
    let p ← CB.ask (e.key, e.value)
    if p then CB.lib (MapBuilder.put b e.key e.value) else pure b) (Tree.zero : MapBuilder K V)
  pure (MapBuilder.finish b).1

/-- map.go:166-173 `MapMap` -/
def mapMapE (m : FMap K V) : CB (K × V) U (FMap K U) := do
  let es ← CB.lib m.rangeList
  let b ← es.foldlM (fun b e => do
    let u ← CB.ask (e.key, e.value)
    CB.lib (MapBuilder.put b e.key u)) (Tree.zero : MapBuilder K U)
  pure (MapBuilder.finish b).1

/-! ## Combine and Merge -/

/-- nodeArgs.go:28-50 `CombineArgs`: `eq` does not call the user's function; `f` does. The flag says whether the arguments of `f` are
swapped (`Flip`). -/
def askPair {X Y : Type} (flipped : Bool) (a b : X) : CB (X × X) Y Y := CB.ask (if flipped then (b, a) else (a, b))

/-- `With(args, …)`: leaf1.go:156-161, leaf2.go:216-225, twig.go:282-292, branch.go:330-345, as `withArgs`. -/
def withArgsE (eq : T → T → Bool) (fl : Bool) : Node T → T → Nat → Hasher → CB (T × T) T (Node T × Int)
  | .nil, _, _, _ => .panic .nilDeref
  | .leaf1 a, v, _, _ =>
    if eq a v then do
      let r ← askPair fl a v
      pure (.leaf1 r, 1)
    else pure (.leaf2 a v, 0)
  | .leaf2 a b, v, d, _ =>
    if eq a v then do
      let r ← askPair fl a v
      pure (.leaf2 r b, 1)
    else if eq b v then do
      let r ← askPair fl b v
      pure (.leaf2 a r, 1)
    else do
      let n ← CB.lib (newBranchFrom d [a, b, v])
      pure (n, 0)
  | .twig l, v, d, _ =>
    match l.findIdx? (fun e => eq e v) with
    | some i =>
      match l[i]? with
      | some e => do
        let r ← askPair fl e v
        pure (.twig (l.set i r), 1)
      | none => .panic (.msg "index out of range")
    | none => do
      let n ← CB.lib (twigCanonical (l ++ [v]) d)
      pure (n, 0)
  | .branch m k, v, d, h =>
    if (k h.idx).isNil then pure ((Packer.withChild ⟨m, k⟩ h.idx (.leaf1 v)).toNode, 0)
    else do
      let (n, ms) ← withArgsE eq fl (k h.idx) v (d + 1) h.next
      pure ((Packer.withChild ⟨m, k⟩ h.idx n).toNode, ms)

/-- branch.go:113-114: `branch.Combine` with a leaf1. -/
def branchCombineLeaf1E (eq : T → T → Bool) (fl : Bool) (m : Masker) (k : Fin 8 → Node T) (a : T) (d : Nat) :
    CB (T × T) T (Node T × Int) :=
  withArgsE eq fl (.branch m k) a d (newHasher a d)

/-- branch.go:115-119: `branch.Combine` with a leaf2. -/
def branchCombineLeaf2E (eq : T → T → Bool) (fl : Bool) (m : Masker) (k : Fin 8 → Node T) (a b : T) (d : Nat) :
    CB (T × T) T (Node T × Int) := do
  let (n1, m1) ← withArgsE eq fl (.branch m k) a d (newHasher a d)
  let (n2, m2) ← withArgsE eq fl n1 b d (newHasher b d)
  pure (n2, m1 + m2)

/-- leaf2.go:92-102: `leaf2.Combine` with a leaf1. -/
def leaf2CombineLeaf1E (eq : T → T → Bool) (fl : Bool) (l0 l1 nd : T) (d : Nat) : CB (T × T) T (Node T × Int) :=
  if eq l0 nd then do
    let r ← askPair fl l0 nd
    pure (.leaf2 r l1, 1)
  else if eq l1 nd then do
    let r ← askPair fl l1 nd
    pure (.leaf2 l0 r, 1)
  else do
    let n ← CB.lib (newBranchFrom d [l0, l1, nd])
    pure (n, 0)

/-- leaf2.go:72-91: `leaf2.Combine` with a leaf2. -/
def leaf2CombineLeaf2E (eq : T → T → Bool) (fl : Bool) (l0 l1 n0 n1 : T) (d : Nat) : CB (T × T) T (Node T × Int) :=
  if eq l0 n0 then do
    let r0 ← askPair fl l0 n0
    if eq l1 n1 then do
      let r1 ← askPair fl l1 n1
      pure (.leaf2 r0 r1, 2)
    else do
      let n ← CB.lib (newBranchFrom d [r0, l1, n1])
      pure (n, 1)
  else if eq l1 n1 then do
    let r1 ← askPair fl l1 n1
    let n ← CB.lib (newBranchFrom d [l0, n0, r1])
    pure (n, 1)
  else if eq l0 n1 then do
    let r0 ← askPair fl l0 n1
    if eq l1 n0 then do
      let r1 ← askPair fl l1 n0
      pure (.leaf2 r0 r1, 2)
    else do
      let n ← CB.lib (newBranchFrom d [r0, l1, n0])
      pure (n, 1)
  else if eq l1 n0 then do
    let r1 ← askPair fl l1 n0
    let n ← CB.lib (newBranchFrom d [l0, n1, r1])
    pure (n, 1)
  else do
    let n ← CB.lib (newBranchFrom d [l0, l1, n0, n1])
    pure (n, 0)

omit [GoKey T] in
/-- The scanning loop of `twig.Combine` (twig.go:114-141), as `twigScan`; the calls made for the branch that is dropped (131-139) are
left out. `Combine` on two twigs always panics in the end. -/
def twigScanE (eq : T → T → Bool) (fl : Bool) : List T → List T → Int → CB (T × T) T (List T × Int)
  | l, [], ms => pure (l, ms)
  | l, e :: es, ms =>
    match l.findIdx? (fun f => eq f e) with
    | some j =>
      match l[j]? with
      | some f => do
        let r ← askPair fl f e
        twigScanE eq fl (l.set j r) es (ms + 1)
      | none => .panic (.msg "index out of range")
    | none => if l.length < maxLeafLen then twigScanE eq fl (l ++ [e]) es ms else twigScanE eq fl l es ms

/-- twig.go:105-146 `twig.Combine` with a twig. -/
def twigCombineE (eq : T → T → Bool) (fl : Bool) (l ndata : List T) (d : Nat) : CB (T × T) T (Node T × Int) := do
  let r ← twigScanE eq fl l ndata 0
  if r.1.length > maxLeafLen then .panic .wtf
  else do
    let n ← CB.lib (twigCanonical r.1 d)
    pure (n, r.2)

/-- `Combine`: leaf1.go:67-81, leaf2.go:68-106, twig.go:105-146, branch.go:94-123, as `combine`. -/
def combineE (eq : T → T → Bool) : Node T → Bool → Node T → Nat → CB (T × T) T (Node T × Int)
  | .nil, _, _, _ => .panic .nilDeref
  | .leaf1 a, fl, n, d =>
    match n with
    | .branch m k => branchCombineLeaf1E eq (!fl) m k a d
    | .leaf2 x y => leaf2CombineLeaf1E eq (!fl) x y a d
    | .leaf1 b =>
      if eq a b then do
        let r ← askPair fl a b
        pure (.leaf1 r, 1)
      else pure (.leaf2 a b, 0)
    | .twig _ => .panic .wtf
    | .nil => .panic .wtf
  | .leaf2 a b, fl, n, d =>
    match n with
    | .branch m k => branchCombineLeaf2E eq (!fl) m k a b d
    | .leaf2 x y => leaf2CombineLeaf2E eq fl a b x y d
    | .leaf1 x => leaf2CombineLeaf1E eq fl a b x d
    | .twig _ => .panic .wtf
    | .nil => .panic .wtf
  | .twig l, fl, n, d =>
    match n with
    | .twig l2 => twigCombineE eq fl l l2 d
    | _ => .panic .wtf
  | .branch m k, fl, n, d =>
    match n with
    | .branch m2 k2 => do
      let (ret, _, ms) ← parallelE (m ||| m2) Packer.zero (fun i ret =>
        if (k i).isNil then pure (ret.setNonNilChild i (k2 i), true, 0)
        else if (k2 i).isNil then pure (ret.setNonNilChild i (k i), true, 0)
        else do
          let (n', ms') ← combineE eq (k i) fl (k2 i) (d + 1)
          pure (⟨ret.mask, setSlot ret.data i n'⟩, true, ms'))
      pure (ret.updateMask.toNode, ms)
    | .leaf1 a => branchCombineLeaf1E eq fl m k a d
    | .leaf2 a b => branchCombineLeaf2E eq fl m k a b d
    | .twig _ => .panic .wtf
    | .nil => .panic .wtf

/-- tree.go:48-60 `Combine` -/
def Tree.combineE (eq : T → T → Bool) (t u : Tree T) : CB (T × T) T (Tree T) :=
  if t.root.isNil then .done u
  else if u.root.isNil then .done t
  else do
    let (root, ms) ← Frozen.combineE eq t.root false u.root 0
    pure ⟨root, t.count + u.count - ms⟩

/-- map.go:194-200 `Merge`: the user is called with a key and its two values. -/
def FMap.mergeE (m n : FMap K V) : CB (K × V × V) V (FMap K V) := do
  let t ← (m.tree.combineE mapEntryKeyEqual n.tree).wrap (fun p => do
    let v ← CB.ask (p.1.key, p.1.value, p.2.value)
    pure (⟨p.1.key, v⟩ : Entry K V))
  pure ⟨t⟩

end Frozen
