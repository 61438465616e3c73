import Verif.Proof.MapIter

/-!
# C54 for maps: an iterator is not disturbed by what happens while it is used

Histories in which calls on maps and map builders are interleaved with `Range`, `Next`, `Key`, `Value` and `Entry` on any number of map
iterators over one memory (Spec/MapIter.lean).
-/

set_option linter.unusedSectionVars false

namespace Frozen

section
variable {K V : Type} [GoKey K] [LawfulGoKey K] [Inhabited K] [Inhabited V]

/-- C54 for maps, the part that holds: in a history that never adds a key to a map having three others with the same 64-bit hash, every
iterator answers as a list of the entries of its map at the time of `Range` would, whatever calls come in between: `Next` returns true once
for each entry, and `Entry` returns the entry that was delivered last as often as it is asked for, and the zero key and value before the
first one. No call panics. Missing: the other histories; they break the property (`C54_map_iterators_refuted`). -/
theorem C54_map_iterators_partial (G : Growth) (ops : List (MIOp K V)) (hu : UncrowdedMapRun G World.init (MIOp.calls ops)) :
    (MIWorld.init.run G ops).seen = (LMWorld.init.run ops).seen := by
  obtain ⟨_, _, _, _, _, _, h⟩ := (MIInv.run G ops MIInv.init hu).1
  exact h

/-- C54 for maps with keys whose hash has few collisions: every history. -/
theorem C54_map_few_collisions_partial (hK : FewCollisions K) (G : Growth) (ops : List (MIOp K V)) :
    (MIWorld.init.run G ops).seen = (LMWorld.init.run ops).seen :=
  C54_map_iterators_partial G ops (uncrowdedMap_of_few hK G _ _)

/-- C54 for maps, the other direction, in any history whatsoever: iterating changes nothing. The memory, the maps and the builders are those of the calls alone. -/
theorem C54_map_iterating_changes_nothing (G : Growth) (ops : List (MIOp K V)) :
    (MIWorld.init.run G ops).world = World.init.runMap G (MIOp.calls ops) :=
  MIAny.run G ops MIAny.init

end

/-! ## The property fails when keys are added to a crowded map -/

instance : Inhabited Coll := ⟨⟨0⟩⟩

/-- C54 is false of maps too: an iterator over `t = m.With(5, 5)`, with `m.With(6, 6)` computed before it gets to the fifth entry, delivers
key 6, which was never in `t`. -/
theorem C54_map_iterators_refuted : ∃ ops : List (MIOp Coll Nat),
    (MIWorld.init.run goGrowth ops).seen ≠ (LMWorld.init.run ops).seen ∧
    (0, MIAnswer.entry (⟨6⟩, 6)) ∈ (MIWorld.init.run goGrowth ops).seen := by
  refine ⟨[.call .empty, .call (.with 0 ⟨1⟩ 1), .call (.with 1 ⟨2⟩ 2), .call (.with 2 ⟨3⟩ 3), .call (.with 3 ⟨4⟩ 4), .call (.with 4 ⟨5⟩ 5),
    .range 5, .next 0, .call (.with 4 ⟨6⟩ 6), .next 0, .next 0, .next 0, .next 0, .entry 0], ?_⟩
  decide +kernel

/-! ## The hypotheses can be met -/

/-- Two iterators over one map; in between, keys are added and removed and a value is changed. The first delivers the three entries that the
map had, then stays at the last one. -/
example :
    let ops : List (MIOp Mod100 Nat) := [.call .newBuilder, .call (.put 0 ⟨1⟩ 10), .call (.put 0 ⟨2⟩ 20), .call (.put 0 ⟨3⟩ 30),
      .call (.finish 0), .range 0, .entry 0, .next 0, .call (.with 0 ⟨2⟩ 21), .next 0, .call (.without 0 ⟨3⟩), .range 1, .entry 0, .next 1,
      .entry 1, .next 0, .call (.update 1 2), .entry 0, .next 0, .entry 0, .next 0]
    let x := (MIWorld.init : MIWorld Mod100 Nat).run goGrowth ops
    x.seen.length = 11 ∧ x.seen[0]? = some (0, .entry (default, 0)) ∧
      x.seen[10]? = some (0, .next (some false)) ∧ (x.seen.filter (fun a => a.1 == 0 && a.2 == .next (some true))).length = 3 := by
  decide +kernel

end Frozen
