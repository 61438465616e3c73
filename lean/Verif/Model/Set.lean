import Verif.Model.Tree

/-! # The `Set` API: `set.go`, `set_ops.go`, `set_builder.go` (ordered access, `Powerset` and `SetGroupBy` are in other files) -/

namespace Frozen

/-- `hash.Uintptr` of github.com/arr-ai/hash (not in the repo), a parameter of the model. -/
class GoHash where
  uintptr : (v seed : BitVec 64) → BitVec 64

/-- set.go:16-18 `Set` -/
structure FSet (T : Type) where
  tree : Tree T

variable {T : Type}

/-- The zero `Set`, the empty set. -/
def FSet.zero : FSet T := ⟨Tree.zero⟩

/-- set_builder.go:10-12 `SetBuilder` -/
abbrev SetBuilder (T : Type) := Builder T

/-- set_builder.go:19-21 `Count` -/
def SetBuilder.count (b : SetBuilder T) : Int := Tree.count b

/-- set.go:59-61 `Count` -/
def FSet.count (s : FSet T) : Int := s.tree.count

/-- set.go:54-56 `IsEmpty` -/
def FSet.isEmpty (s : FSet T) : Bool := s.tree.count == 0

/-- set.go:64-66 `Range` -/
def FSet.range (s : FSet T) : Go (Iter T) := s.tree.iterator

/-- The values visited by `for i := s.Range(); i.Next(); { … i.Value() … }`. -/
def FSet.rangeList (s : FSet T) : Go (List T) := s.tree.rangeList

/-- set.go:68-74 `Elements`: a fresh slice with the values visited by `Range`. -/
def FSet.elements (s : FSet T) : Go (List T) := s.rangeList

/-- set.go:86-91 `Any` -/
def FSet.any (s : FSet T) : Go T := do
  let it ← s.range
  let (it', ok) ← it.next
  if ok then it'.value else .error (.msg "Set[T].Any(): empty set")

variable [GoKey T]

/-- set_builder.go:24-26 `Add` -/
def SetBuilder.add (b : SetBuilder T) (v : T) : Go (SetBuilder T) := Builder.add b v

/-- set_builder.go:29-31 `Remove` -/
def SetBuilder.remove (b : SetBuilder T) (v : T) : Go (SetBuilder T) := Builder.remove b v

/-- set_builder.go:33-35 `Has` with builder.go:79-81 `Get` -/
def SetBuilder.has (b : SetBuilder T) (v : T) : Go Bool := do
  let g ← Tree.get b v
  pure g.isSome

/-- set_builder.go:39-41 `Finish`: the set, and the emptied builder. -/
def SetBuilder.finish (b : SetBuilder T) : FSet T × SetBuilder T := (⟨(Builder.finish b).1⟩, (Builder.finish b).2)

/-- `var b SetBuilder[T]; for … { b.Add(v) }; return b.Finish()` -/
def buildSet (values : List T) : Go (FSet T) := do
  let b ← values.foldlM (fun b v => SetBuilder.add b v) (Tree.zero : SetBuilder T)
  pure (SetBuilder.finish b).1

/-- set.go:33-39 `NewSet` -/
def newSet (values : List T) : Go (FSet T) := buildSet values

/-- set.go:94-103 `AnyN`. The condition `i.Next() && n > 0` visits one element more than it adds, which changes nothing here. -/
def FSet.anyN (s : FSet T) (n : Int) : Go (FSet T) :=
  if n > s.count then .ok s
  else do
    let vs ← s.rangeList
    buildSet (vs.take n.toNat)

/-- set.go:164-170 `Hash` -/
def FSet.hash [GoHash] (s : FSet T) (seed : BitVec 64) : Go (BitVec 64) := do
  let vs ← s.rangeList
  pure (vs.foldl (fun h v => h ^^^ GoKey.hash seed v) (GoHash.uintptr 10538386443025343807#64 seed))

/-- set.go:173-176 `Equal` (with `Same`, set.go:179-182, for an argument of the same type) -/
def FSet.equal (s t : FSet T) : Go Bool := s.tree.equal GoKey.eq t.tree

/-- set.go:185-187 `IsSubsetOf` -/
def FSet.isSubsetOf (s t : FSet T) : Go Bool := s.tree.subsetOf t.tree

/-- set.go:190-192 `Has` -/
def FSet.has (s : FSet T) (v : T) : Go Bool := do
  let g ← s.tree.get v
  pure g.isSome

/-- The element stored in the set that is `Equal` to `v`; what `Has` finds (set.go:190-192 before the nil test). -/
def FSet.find (s : FSet T) (v : T) : Go (Option T) := s.tree.get v

/-- set.go:195-198 `With` -/
def FSet.with (s : FSet T) (v : T) : Go (FSet T) := do
  let t ← s.tree.with v
  pure ⟨t⟩

/-- set.go:201-204 `Without` -/
def FSet.without (s : FSet T) (v : T) : Go (FSet T) := do
  let t ← s.tree.without v
  pure ⟨t⟩

/-- set.go:207-214 `Where` -/
def FSet.where (s : FSet T) (pred : T → Bool) : Go (FSet T) := do
  let t ← s.tree.where pred
  pure ⟨t⟩

omit [GoKey T] in
/-- set.go:217-219 `SetMap` -/
def setMap {U : Type} [GoKey U] (s : FSet T) (f : T → U) : Go (FSet U) := do
  let t ← s.tree.map f
  pure ⟨t⟩

/-- set.go:233-235 `Reduce` -/
def FSet.reduce [Inhabited T] (s : FSet T) (r : List T → T) : Go (Option T) := s.tree.reduce r

/-- The function `Reduce2` passes to `Reduce` (set.go:241-247): `elems[0]` panics on an empty slice, which `Reduce` never passes
(`C18_nonempty`); the model returns the zero value there. -/
def reduce2Fn [Inhabited T] (f : T → T → T) : List T → T
  | [] => default
  | a :: as => as.foldl f a

/-- set.go:240-248 `Reduce2` -/
def FSet.reduce2 [Inhabited T] (s : FSet T) (f : T → T → T) : Go (Option T) := s.reduce (reduce2Fn f)

/-- set.go:251-253 `Intersection` -/
def FSet.intersection (s t : FSet T) : Go (FSet T) := do
  let r ← s.tree.intersection t.tree
  pure ⟨r⟩

/-- tree/branch.go:18 `UseRHS` -/
def useRHS (_ b : T) : T := b

/-- tree/branch.go:21 `UseLHS` -/
def useLHS (a _ : T) : T := a

/-- set.go:256-259 `Union` -/
def FSet.union (s t : FSet T) : Go (FSet T) := do
  let r ← s.tree.combine ⟨GoKey.eq, useRHS⟩ t.tree
  pure ⟨r⟩

/-- set.go:262-264 `Difference` -/
def FSet.difference (s t : FSet T) : Go (FSet T) := do
  let r ← s.tree.difference t.tree
  pure ⟨r⟩

/-- set.go:268-272 `SymmetricDifference` -/
def FSet.symmetricDifference (s t : FSet T) : Go (FSet T) := do
  let st ← s.difference t
  let ts ← t.difference s
  st.union ts

omit [GoKey T] in
/-- set.go:276-279, the loop body of `SetAs`; `cast` is the type assertion `e.(U)`, which panics when it fails. -/
def setAsStep {U : Type} [GoKey U] (cast : T → Option U) (b : SetBuilder U) (v : T) : Go (SetBuilder U) :=
  match cast v with
  | some u => SetBuilder.add b u
  | none => .error (.msg "interface conversion")

omit [GoKey T] in
/-- set.go:274-281 `SetAs` -/
def setAs {U : Type} [GoKey U] (cast : T → Option U) (s : FSet T) : Go (FSet U) := do
  let vs ← s.rangeList
  let b ← vs.foldlM (setAsStep cast) (Tree.zero : SetBuilder U)
  pure (SetBuilder.finish b).1

omit [GoKey T] in
/-- set.go:283-289 `AsSetAny`; `inj` is the conversion to `any`. -/
def asSetAny {U : Type} [GoKey U] (inj : T → U) (s : FSet T) : Go (FSet U) := do
  let vs ← s.rangeList
  buildSet (vs.map inj)

/-- set_ops.go:4-13 `Intersection` -/
def nIntersection (sets : List (FSet T)) : Go (FSet T) :=
  match sets with
  | [] => .error (.msg "must have at least one set to intersect")
  | s :: _ => sets.foldlM (fun r s => r.intersection s) s

/-- set_ops.go:16-22 `Union` -/
def nUnion (sets : List (FSet T)) : Go (FSet T) := sets.foldlM (fun r s => r.union s) FSet.zero

end Frozen
