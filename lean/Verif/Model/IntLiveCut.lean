import Verif.Model.IntLive
import Verif.Model.IntCrash

/-!
# Abandoned calls of `Where` on integer sets with the iterator under way: `intset.go`

Model/IntCrash.lean reads the entries of the map when the loop starts. Here `Next` is called between the puts, as in the code.
-/

namespace Frozen

variable {w : Nat} [GoKey (BitVec w)]

/-- intset.go:176: the loop `for i := m.Range(); i.Next(); { body }`, from an iterator, when the client's function panics in the body after
`n` rounds. -/
def liveCut {β : Type} (G : Growth) (body : β → Entry (BitVec w) CellMask → IM w β) : Nat → MMapIter (BitVec w) CellMask → β → IM w Unit
  | 0, it, _ => fun W => .ok ((), ⟨(it.next G W.mem).2, W.sets, W.builders⟩)
  | n + 1, it, b => fun W =>
    match it.next G W.mem with
    | (.ok (it', true), H) =>
      match body b ⟨it'.entry.1, it'.entry.2⟩ ⟨H, W.sets, W.builders⟩ with
      | .ok (b', W') => liveCut G body n it' b' W'
      | .error e => .error e
    | (.ok (_, false), H) => .ok ((), ⟨H, W.sets, W.builders⟩)
    | (.error e, _) => .error e

/-- The same from the start of the loop, over the map at `i`. -/
def liveRangeCut {β : Type} (G : Growth) (n : Nat) (i : Nat) (body : β → Entry (BitVec w) CellMask → IM w β) (b : β) : IM w Unit := fun W =>
  match W.sets[i]? with
  | some m =>
    match m.mapIterator G W.mem with
    | (.ok it, H) => liveCut G body n it b ⟨H, W.sets, W.builders⟩
    | (.error e, _) => .error e
  | none => .error (.msg "no such map")

/-- intset.go:172-193: a call of `Where` whose predicate panics after `n` blocks of integers have been done. -/
def MInt.whereLiveCut (G : Growth) (s : MInt) (pred : BitVec w → Bool) (n : Nat) : IM w Unit := do
  let b ← IM.newBuilder G
  liveRangeCut G n s.data (mWhereStep G pred b) 0

end Frozen
