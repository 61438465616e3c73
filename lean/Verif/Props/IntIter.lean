import Verif.Proof.IntIter

/-!
# C54 for integer sets: an iterator is not disturbed by what happens while it is used

Histories in which calls on integer sets are interleaved with `Range`, `Next` and `Value` on any number of iterators over one memory
(Spec/IntIter.lean).
-/

set_option linter.unusedSectionVars false

namespace Frozen

section
variable {w : Nat} [GoKey (BitVec w)] [PrimKey (BitVec w)]

/-- C54 for integer sets, the part that holds: in a history that never adds a cell (a block of 64 integers) to a set that has three others
with the same 64-bit hash, every iterator delivers what `Elements` returned at the time of `Range`, one integer after the other, and then
`Next` returns false for ever, whatever calls come in between. `Next` never panics. Missing: the other histories; they break the property
(`C54_intset_iterators_refuted`). -/
theorem C54_intset_iterators_partial (G : Growth) (sg : Bool) (ops : List (IIOp w)) (hr : RoomyFrom sg [] (IIOp.calls ops)) :
    (IIWorld.init.run G sg ops).seen = (LIWorld.init.run sg ops).seen := by
  obtain ⟨_, h⟩ := IIInv.run G sg ops IIInv.init hr
  exact h.seen

/-- C54 for integer types of which no four values share a 64-bit hash: every history. -/
theorem C54_intset_few_collisions_partial (hK : FewCollisions (BitVec w)) (G : Growth) (sg : Bool) (ops : List (IIOp w)) :
    (IIWorld.init.run G sg ops).seen = (LIWorld.init.run sg ops).seen :=
  C54_intset_iterators_partial G sg ops (roomy_of_few hK sg _ _)

/-- C54 for integer sets, the other direction, in any history whatsoever: iterating changes nothing. The memory and the sets are those of
the calls alone. -/
theorem C54_intset_iterating_changes_nothing (G : Growth) (sg : Bool) (ops : List (IIOp w)) :
    (IIWorld.init.run G sg ops).world = IntWorld.init.run G sg (IIOp.calls ops) :=
  IIWorld.run_any G sg ops IIWorld.init MIAny.init

end

/-! ## The property fails for crowded hashes -/

section
attribute [local instance] sameIntKey

/-- C54 is false of integer sets too: an iterator over `t = s.With(256)`, with `s.With(320)` computed before it gets to the fifth block of
integers, delivers 320, which was never in `t`. -/
theorem C54_intset_iterators_refuted : ∃ ops : List (IIOp 16),
    (IIWorld.init.run goGrowth true ops).seen ≠ (LIWorld.init.run true ops).seen ∧
    (0, some (some 320#16)) ∈ (IIWorld.init.run goGrowth true ops).seen := by
  have h1 : (0, some (some 320#16)) ∈ ((IIWorld.init : IIWorld 16).run goGrowth true (crowdedIntHistory.map .call ++
      [.range 4, .next 0, .call (.with 3 320#16), .next 0, .next 0, .next 0, .next 0])).seen := by decide +kernel
  have h2 : (0, some (some 320#16)) ∉ ((LIWorld.init : LIWorld 16).run true (crowdedIntHistory.map .call ++
      [.range 4, .next 0, .call (.with 3 320#16), .next 0, .next 0, .next 0, .next 0])).seen := by decide +kernel
  exact ⟨_, fun h => h2 (h ▸ h1), h1⟩

end

/-! ## The hypotheses can be met -/

section
attribute [local instance] exampleIntKey

/-- Two iterators over sets with integers in two blocks; in between, integers are added and removed. The first delivers the three integers
that its set had. -/
example :
    let ops : List (IIOp 16) := [.call (.new id [1#16, 2#16, 200#16]), .range 0, .next 0, .call (.with 0 3#16), .next 0,
      .call (.without 1 200#16), .range 2, .next 0, .next 1, .next 0]
    let x := (IIWorld.init : IIWorld 16).run goGrowth true ops
    x.seen.length = 5 ∧ (0, some (some 1#16)) ∈ x.seen ∧ (0, some (some 2#16)) ∈ x.seen ∧ (0, some (some 200#16)) ∈ x.seen ∧
      x.seen[4]? = some (0, some none) := by
  decide +kernel

/-- The hypotheses are met: this hash has no collisions. -/
example : FewCollisions (BitVec 16) ∧ RoomyFrom true [] (IIOp.calls ([.call (.new id [1#16, 2#16, 200#16]), .range 0, .next 0,
    .call (.with 0 3#16), .next 0, .call (.without 1 200#16), .range 2, .next 0, .next 1, .next 0] : List (IIOp 16))) :=
  ⟨exampleIntKey_few (by decide), roomy_of_few (exampleIntKey_few (by decide)) true _ _⟩

end

end Frozen
