import Verif.Proof.IterHist
import Verif.Props.Persist

/-!
# Iterators while other calls go on

Property C54 (Spec/MemIter.lean). The iterators read the memory when `Next` and `Value` are called; between two such calls the client
may make any calls on sets, builders and other iterators, the set that is iterated over included. `G` is any way of growing arrays.
-/

set_option linter.unusedSectionVars false

namespace Frozen

variable {T : Type} [GoKey T] [LawfulGoKey T]

/-- C54, the part that holds: in a history that never adds an element to a set having three others with the same 64-bit hash, every
iterator answers as a list of the elements of its set at the time of `Range` would, whatever calls come in between: `Next` returns true
once for each element, `Value` returns the current element as often as it is asked for, and panics before the first `Next` and after
the last. Missing: the other histories; they break the property (`C54_iterators_refuted`). -/
theorem C54_iterators_partial (G : Growth) (ops : List (IOp T)) (hu : UncrowdedRun G World.init (IOp.calls ops)) :
    (IWorld.init.run G ops).seen = (LWorld.run ⟨⟨[], []⟩, [], []⟩ ops).seen := by
  obtain ⟨⟨S, B, h⟩, _⟩ := irun_inv G ops (IInv.init true) (fun _ => hu)
  exact h.seen rfl

/-- C54 for element types whose hash has few collisions: every history. -/
theorem C54_few_collisions_partial (hT : FewCollisions T) (G : Growth) (ops : List (IOp T)) (hm : ∀ op ∈ IOp.calls ops, op.MergesOk) :
    (IWorld.init.run G ops).seen = (LWorld.run ⟨⟨[], []⟩, [], []⟩ ops).seen :=
  C54_iterators_partial G ops (uncrowded_of_few hT G _ _ hm)

/-- C54, the other direction: iterating changes nothing. In any history the memory, the sets and the builders are those of the calls
alone. -/
theorem C54_iterating_changes_nothing (G : Growth) (ops : List (IOp T)) :
    (IWorld.init.run G ops).world = World.init.run G (IOp.calls ops) :=
  (irun_inv G ops (IInv.init false) (nomatch ·)).2

/-- C54 in any history whatsoever: `Next` never panics. -/
theorem C54_next_total (G : Growth) (ops : List (IOp T)) (j : Nat) (r : Option Bool)
    (hr : (j, IAnswer.next r) ∈ (IWorld.init.run G ops).seen) : ∃ b, r = some b := by
  obtain ⟨⟨S, B, h⟩, _⟩ := irun_inv G ops (IInv.init false) (nomatch ·)
  exact h.nexts j r hr

/-- C54 after any history whatsoever: from then on calls other than `With` and the merges, and other iterators, have no influence on an
iterator: it gives the answers it would give if it were used alone. -/
theorem C54_other_calls_undisturbed (G : Growth) (ops ops' : List (IOp T)) (ho : ∀ op ∈ IOp.calls ops', op.mayAppend = false) (j : Nat)
    (it : MIter T) (hj : (IWorld.init.run G ops).iters[j]? = some it) :
    (IWorld.init.run G (ops ++ ops')).seen.filter (fun x => x.1 == j) =
      (IWorld.init.run G (ops ++ ops'.filter (IOp.isOn j))).seen.filter (fun x => x.1 == j) := by
  obtain ⟨⟨S, B, h⟩, _⟩ := irun_inv G ops (IInv.init false) (nomatch ·)
  obtain ⟨v, hv, _⟩ := h.iters j it hj
  rw [irun_append, irun_append]
  exact irun_undisturbed G j ops' h h ho hj hv hj hv rfl

/-! ## The property fails when elements are added to a crowded set -/

/-- C54 is false of the code: an iterator over `t = s.With(5)`, with `s.With(6)` computed before it gets to the fifth element, delivers 6,
which was never in `t`, and not 5. -/
theorem C54_iterators_refuted : ∃ (ops : List (IOp Coll)), (IWorld.init.run goGrowth ops).seen ≠ (LWorld.run ⟨⟨[], []⟩, [], []⟩ ops).seen ∧
    (0, IAnswer.value (some ⟨6⟩)) ∈ (IWorld.init.run goGrowth ops).seen := by
  refine ⟨crowdedHistory.map IOp.call ++ [.range 5, .next 0, .call (.with 4 ⟨6⟩), .next 0, .next 0, .next 0, .next 0, .value 0], ?_⟩
  decide +kernel

/-! ## The hypotheses can be met -/

/-- Two iterators over one set; while they go on, the set is extended with elements that depend on what they delivered, and builders
work. -/
def iterHistory : List (IOp Mod100) :=
  [.call .newBuilder, .call (.add 0 ⟨1⟩), .call (.add 0 ⟨2⟩), .call (.add 0 ⟨3⟩), .call (.add 0 ⟨40⟩), .call (.finish 0),
    .range 0, .value 0, .next 0, .call (.with 0 ⟨11⟩), .value 0, .next 0, .value 0, .call (.without 0 ⟨3⟩), .range 2, .next 1, .value 1,
    .call (HOp.union 1 2), .call (.add 0 ⟨2⟩), .next 0, .value 0, .value 0, .next 0, .value 0, .call (.difference 0 1), .next 0, .value 0,
    .next 0, .next 1, .next 1, .value 1, .next 1]

theorem iterHistory_mergesOk : ∀ op ∈ IOp.calls iterHistory, op.MergesOk := by
  intro op h
  simp only [iterHistory, IOp.calls, List.filterMap_cons, List.filterMap_nil, List.mem_cons, List.not_mem_nil, or_false] at h
  rcases h with rfl | rfl | rfl | rfl | rfl | rfl | rfl | rfl | rfl | rfl | rfl <;>
    first
    | exact trivial
    | exact fun a b h => PerGoKey.symm h

example : UncrowdedRun goGrowth World.init (IOp.calls iterHistory) := uncrowded_of_few mod100_few _ _ _ iterHistory_mergesOk

/-- What the client sees: the four and the three elements in order, panics of `Value` before and after, and false at the end. -/
example : (IWorld.init.run goGrowth iterHistory).seen =
    [(0, .value none), (0, .next (some true)), (0, .value (some ⟨1⟩)), (0, .next (some true)), (0, .value (some ⟨2⟩)),
      (1, .next (some true)), (1, .value (some ⟨1⟩)), (0, .next (some true)), (0, .value (some ⟨3⟩)), (0, .value (some ⟨3⟩)),
      (0, .next (some true)), (0, .value (some ⟨40⟩)), (0, .next (some false)), (0, .value none), (0, .next (some false)),
      (1, .next (some true)), (1, .next (some true)), (1, .value (some ⟨40⟩)), (1, .next (some false))] := by
  decide +kernel

/-- In a history that has damaged a set there is an iterator over it that goes on. -/
example : ((IWorld.init.run goGrowth (damagedHistory.map IOp.call ++ [.range 5, .next 0])).iters[0]?).isSome = true ∧
    ∀ op ∈ IOp.calls ([.call (.without 5 ⟨1⟩), .next 0, .range 4, .call (.difference 5 3), .next 1, .value 0] : List (IOp Coll)),
      op.mayAppend = false := by decide +kernel

end Frozen
