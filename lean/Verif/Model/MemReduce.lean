import Verif.Model.Memory
import Verif.Model.Bits

/-!
# `Reduce` in memory

`Reduce` hands the user's function slices of the set's own storage: `l.data[:]` of a leaf2 and `l.data` of a twig, passed on with
`...`, are not copied. What the function writes to them is written to the nodes. The elements of a leaf1 are copied, and a branch
passes an array of its own.

Simplifications: the children are visited sequentially (see `Model/CallsPar.lean`), and the results of the children are collected
directly instead of through an array indexed by slot.
-/

namespace Frozen

variable {T : Type}

/-- A function passed to `Reduce`: what it returns, and the assignments it makes to the slice it was given, in order, as functions of
the elements in the slice. An index from the length on stands for an element appended to the slice: `append` writes it in place if the
capacity suffices. -/
structure Reducer (T : Type) where
  result : List T → T
  edits : List T → List (Nat × T)

/-- The assignments to the slice of a twig. -/
def scribble (s : Slice) : List (Nat × T) → MM T Unit
  | [] => pure ()
  | (i, v) :: es => if i < s.cap then do writeArr s.arr i v; scribble s es else scribble s es

/-- One assignment to the two elements of a leaf2; its slice has length and capacity 2. -/
def edit2 (p : T × T) (e : Nat × T) : T × T := if e.1 = 0 then (e.2, p.2) else if e.1 = 1 then (p.1, e.2) else p

/-- `Reduce`: leaf1.go:125-127, leaf2.go:168-170, twig.go:216-218, branch.go:207-220. -/
def reduceM (R : Reducer T) : Nat → Ptr → MM T T
  | 0, _ => raise (.msg "out of fuel")
  | _ + 1, none => raise .nilDeref
  | fuel + 1, some a => do
    match ← readCell a with
    | .leaf1 x => pure (R.result [x])
    | .leaf2 x y =>
      match R.edits [x, y] with
      | [] => pure (R.result [x, y])
      | e :: es => do
        writeCell a (.leaf2 ((e :: es).foldl edit2 (x, y)).1 ((e :: es).foldl edit2 (x, y)).2)
        pure (R.result [x, y])
    | .twig s => do
      let l ← readSlice s
      scribble s (R.edits l)
      pure (R.result l)
    | .branch m k => do
      let rs ← (bitLoop m).mapM (fun i => if h : i < 8 then reduceM R fuel (k ⟨i, h⟩) else raise (.msg "index out of range"))
      pure (R.result rs)

/-- tree.go:157-162 `Reduce`, set.go:233-235 `Reduce`; `none` is the result `(zero, false)`. -/
def MTree.reduce (t : MTree) (R : Reducer T) : MM T (Option T) :=
  if t.root.isNone then pure none
  else do
    let x ← reduceM R memFuel t.root
    pure (some x)

end Frozen
