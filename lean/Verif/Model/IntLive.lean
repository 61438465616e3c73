import Verif.Model.IntIter

/-!
# The loops of `Union` and `Intersection` with the iterator under way: `intset.go`

Model/IntMem.lean reads the entries of a map when a loop starts. Here `Next` is called between the calls of the loop body, as in the code.
-/

namespace Frozen

variable {w : Nat} [GoKey (BitVec w)]

/-- The loop `for i := m.Range(); i.Next(); { body }`, from an iterator; fuel bounds the number of calls of `Next`. -/
def liveLoop {β : Type} (G : Growth) (body : β → Entry (BitVec w) CellMask → IM w β) : Nat → MMapIter (BitVec w) CellMask → β → IM w β
  | 0, _, _ => fun _ => .error (.msg "out of fuel")
  | fuel + 1, it, b => fun W =>
    match it.next G W.mem with
    | (.ok (it', true), H) =>
      match body b ⟨it'.entry.1, it'.entry.2⟩ ⟨H, W.sets, W.builders⟩ with
      | .ok (b', W') => liveLoop G body fuel it' b' W'
      | .error e => .error e
    | (.ok (_, false), H) => .ok (b, ⟨H, W.sets, W.builders⟩)
    | (.error e, _) => .error e

/-- The whole loop, over the map at `i`. -/
def liveRange {β : Type} (G : Growth) (fuel : Nat) (i : Nat) (body : β → Entry (BitVec w) CellMask → IM w β) (b : β) : IM w β := fun W =>
  match W.sets[i]? with
  | some m =>
    match m.mapIterator G W.mem with
    | (.ok it, H) => liveLoop G body fuel it b ⟨H, W.sets, W.builders⟩
    | (.error e, _) => .error e
  | none => .error (.msg "no such map")

/-- intset.go:205-217 `Intersection` -/
def MInt.intersectionLive (G : Growth) (fuel : Nat) (s t : MInt) : IM w MInt := do
  let b ← IM.newBuilder G
  let n ← liveRange G fuel t.data (mInterStep G s b) 0
  let data ← IM.call G (.finish b)
  pure ⟨data, n⟩

/-- intset.go:220-235 `Union` -/
def MInt.unionLive (G : Growth) (fuel : Nat) (s t : MInt) : IM w MInt := liveRange G fuel t.data (mUnionStep G s) s

/-- intset.go:177-189: the loop body of `Where`, with the count so far. -/
def mWhereStep (G : Growth) (pred : BitVec w → Bool) (b : Nat) (n : Int) (e : Entry (BitVec w) CellMask) : IM w Int :=
  if whereCell pred e.key e.value.bits ≠ 0#64 then do
    IM.put G b e.key ⟨whereCell pred e.key e.value.bits⟩
    pure (n + ones (whereCell pred e.key e.value.bits))
  else pure n

/-- intset.go:172-193 `Where` -/
def MInt.whereLive (G : Growth) (fuel : Nat) (s : MInt) (pred : BitVec w → Bool) : IM w MInt := do
  let b ← IM.newBuilder G
  let n ← liveRange G fuel s.data (mWhereStep G pred b) 0
  let data ← IM.call G (.finish b)
  pure ⟨data, n⟩

end Frozen
