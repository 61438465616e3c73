import Verif.Model.Node

/-!
# Trees, iterators and builders

Models `internal/pkg/tree/{tree,builder,packer_iter,empty,generic}.go`, `internal/pkg/iterator/slice.go`.

`vetting` (internal/pkg/vetctl/vetctl.go, tree/vet.go) is a build-time constant that is off, so the vetting code is left out.
-/

namespace Frozen

variable {T : Type}

/-- tree.go:17-20 `Tree`. The count is unbounded: `int` overflow of counts is not modelled. -/
structure Tree (T : Type) where
  root : Node T
  count : Int

/-- The zero `Tree`. -/
def Tree.zero : Tree T := ⟨.nil, 0⟩

variable [GoKey T]

/-- tree.go:48-60 `Combine` -/
def Tree.combine (t : Tree T) (args : CombineArgs T) (u : Tree T) : Go (Tree T) :=
  if t.root.isNil then .ok u
  else if u.root.isNil then .ok t
  else do
    let (root, ms) ← Frozen.combine t.root args u.root 0
    pure ⟨root, t.count + u.count - ms⟩

/-- tree.go:62-71 `Difference` -/
def Tree.difference (t u : Tree T) : Go (Tree T) :=
  if t.root.isNil || u.root.isNil then .ok t
  else do
    let (root, ms) ← Frozen.difference t.root u.root 0
    pure ⟨root, t.count - ms⟩

/-- tree.go:73-82 `Equal` -/
def Tree.equal (eq : T → T → Bool) (t u : Tree T) : Go Bool :=
  if t.count ≠ u.count then .ok false
  else if t.count = 0 ∧ u.count = 0 then .ok true
  else Frozen.equal eq t.root u.root

/-- tree.go:84-90 `Get` -/
def Tree.get (t : Tree T) (v : T) : Go (Option T) :=
  if t.root.isNil then .ok none else Frozen.get t.root v (newHasher v 0)

/-- tree.go:92-104 `Intersection` -/
def Tree.intersection (t u : Tree T) : Go (Tree T) :=
  if t.root.isNil || u.root.isNil then .ok Tree.zero
  else
    let (t, u) := if t.count > u.count then (u, t) else (t, u)
    do
      let (root, ms) ← Frozen.intersection t.root u.root 0
      pure ⟨root, ms⟩

/-- tree.go:133-141 `SubsetOf` -/
def Tree.subsetOf (t u : Tree T) : Go Bool :=
  if t.root.isNil then .ok true
  else if u.root.isNil then .ok false
  else Frozen.subsetOf t.root u.root 0

/-- tree.go:157-162 `Reduce`; `none` is the result `(zero, false)`. -/
def Tree.reduce [Inhabited T] (t : Tree T) (r : List T → T) : Go (Option T) :=
  if t.root.isNil then .ok none
  else do
    let x ← Frozen.reduce r t.root
    pure (some x)

/-- tree.go:177-185 `Where` -/
def Tree.where (t : Tree T) (pred : T → Bool) : Go (Tree T) :=
  if t.root.isNil then .ok t
  else do
    let (root, ms, _) ← Frozen.where pred t.root 0
    pure ⟨root, ms⟩

/-- tree.go:187-197 `With` -/
def Tree.with (t : Tree T) (v : T) : Go (Tree T) :=
  if t.root.isNil then .ok ⟨.leaf1 v, 1⟩
  else do
    let (root, ms) ← withFast t.root v 0 (newHasher v 0)
    pure ⟨root, t.count + 1 - ms⟩

/-- tree.go:199-209 `Without` -/
def Tree.without (t : Tree T) (v : T) : Go (Tree T) :=
  if t.root.isNil then .ok t
  else do
    let (root, ms, _) ← Frozen.without t.root v 0 (newHasher v 0)
    pure ⟨root, t.count - ms⟩

/-! ## Builder -/

/-- builder.go:22-24 `Builder`: the tree under construction. `NewBuilder` (26-28) ignores its argument. -/
abbrev Builder (T : Type) := Tree T

/-- builder.go:50-64 `Add` -/
def Builder.add (b : Builder T) (v : T) : Go (Builder T) :=
  if b.root.isNil then .ok ⟨.leaf1 v, 1⟩
  else do
    let (root, ms) ← addFast b.root v 0 (newHasher v 0)
    pure ⟨root, b.count + (1 - ms)⟩

/-- builder.go:66-77 `Remove` -/
def Builder.remove (b : Builder T) (v : T) : Go (Builder T) :=
  if b.root.isNil then .ok b
  else do
    let (root, ms) ← Frozen.remove b.root v 0 (newHasher v 0)
    pure ⟨root, b.count - ms⟩

/-- builder.go:83-87 `Finish` (and `Borrow`): the tree, and the emptied builder. -/
def Builder.finish (b : Builder T) : Tree T × Builder T := (b, Tree.zero)

/-! ## Iterators -/

omit [GoKey T]

/-- The iterators behind `Range`: empty.go:10-18, iterator/slice.go:3-19 (`index` starts at -1), packer_iter.go:10-13. Of a
`packerIterator` only `stack[0]`, its unvisited children, and the current child iterator matter: the children's iterators write to
`stack[1:]`, which is otherwise unused. -/
inductive Iter (T : Type) where
  | empty
  | slice (l : List T) (index : Int)
  | packer (rest : List (Node T)) (i : Iter T)

/-- `Empty()`: leaf1.go:97-99, leaf2.go:130-132, twig.go:168-170, branch.go:155-157 -/
def Node.isEmptyNode : Node T → Bool
  | .twig l => l.isEmpty
  | _ => false

/-- `Iterator(buf)`: leaf1.go:120-123, leaf2.go:164-166, twig.go:212-214, branch.go:203-205 with packer.go:24-26 and
packer_iter.go:15-19. -/
def Node.iter : Node T → Go (Iter T)
  | .nil => .error .nilDeref
  | .leaf1 a => .ok (.slice [a] (-1))
  | .leaf2 a b => .ok (.slice [a, b] (-1))
  | .twig l => .ok (.slice l (-1))
  | .branch _ k => .ok (.packer ((List.finRange 8).map k) .empty)

/-- slice.go:12-15 `Next` -/
def sliceNext (l : List T) (index : Int) : Iter T × Bool := (.slice l (index + 1), decide (index + 1 < l.length))

/-- The loop of packer_iter.go:26-34 over the children `k i`, `i` in the list; `start i` is `c.Iterator(…)` followed by its `Next`. -/
def slotLoop (k : Fin 8 → Node T) (start : Fin 8 → Go (Iter T × Bool)) (cur : Iter T) : List (Fin 8) → Go (Iter T × Bool)
  | [] => .ok (.packer [] cur, false)
  | i :: is =>
    if (k i).isNil || (k i).isEmptyNode then slotLoop k start cur is
    else do
      let (it, ok) ← start i
      pure (.packer (is.map k) it, ok)

/-- `c.Iterator(…)` followed by one `Next()` (packer_iter.go:30-31). A separate definition because it recurses on the node:
`startNext_eq` shows that it is `Node.iter` followed by `Iter.next`. -/
def startNext : Node T → Go (Iter T × Bool)
  | .nil => .error .nilDeref
  | .leaf1 a => .ok (sliceNext [a] (-1))
  | .leaf2 a b => .ok (sliceNext [a, b] (-1))
  | .twig l => .ok (sliceNext l (-1))
  | .branch _ k => slotLoop k (fun i => startNext (k i)) .empty (List.finRange 8)

/-- The loop of packer_iter.go:26-34. -/
def packLoop (cur : Iter T) : List (Node T) → Go (Iter T × Bool)
  | [] => .ok (.packer [] cur, false)
  | c :: cs =>
    if c.isNil || c.isEmptyNode then packLoop cur cs
    else do
      let (it, ok) ← startNext c
      pure (.packer cs it, ok)

/-- `Next()`: empty.go:12-14, slice.go:12-15, packer_iter.go:21-36. -/
def Iter.next : Iter T → Go (Iter T × Bool)
  | .empty => .ok (.empty, false)
  | .slice l index => .ok (sliceNext l index)
  | .packer rest i => do
    let (i', ok) ← Iter.next i
    if ok then pure (.packer rest i', true) else packLoop i' rest

/-- `Value()`: empty.go:16-18, slice.go:17-19, packer_iter.go:38-40. -/
def Iter.value : Iter T → Go T
  | .empty => .error .wtf
  | .slice l index =>
    if index < 0 then .error (.msg "index out of range")
    else match l[index.toNat]? with
      | some x => .ok x
      | none => .error (.msg "index out of range")
  | .packer _ i => i.value

/-- tree.go:106-112 `Iterator` -/
def Tree.iterator (t : Tree T) : Go (Iter T) :=
  if t.root.isNil then .ok .empty else t.root.iter

/-- The loop `for i := …; i.Next(); { … i.Value() … }`: the list of the values seen by the body. The loop is bounded by fuel;
`drain_enough` shows that it stops by itself. -/
def Iter.drain : Nat → Iter T → Go (List T)
  | 0, _ => .error (.msg "out of fuel")
  | fuel + 1, it => do
    let (it', ok) ← it.next
    if ok then do
      let v ← it'.value
      let vs ← Iter.drain fuel it'
      pure (v :: vs)
    else pure []

/-- Number of elements in a node; used as loop fuel only. -/
def Node.size : Node T → Nat
  | .nil => 0
  | .leaf1 _ => 1
  | .leaf2 _ _ => 2
  | .twig l => l.length
  | .branch _ k => ((List.finRange 8).map fun i => (k i).size).sum

/-- `for i := t.Iterator(); i.Next(); { … i.Value() … }`: the values visited. -/
def Tree.rangeList (t : Tree T) : Go (List T) := do
  let it ← t.iterator
  it.drain (t.root.size + 1)

/-- tree.go:143-155 `Map`: build a tree from the images. -/
def Tree.map {U : Type} [GoKey U] (t : Tree T) (f : T → U) : Go (Tree U) :=
  if t.root.isNil then .ok Tree.zero
  else do
    let vs ← t.rangeList
    let b ← vs.foldlM (fun b v => Builder.add b (f v)) (Tree.zero : Builder U)
    pure b.finish.1

end Frozen
