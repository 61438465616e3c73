import Verif.Spec.MapIterCrash
import Verif.Props.IterCrash
import Verif.Props.MapCrash
import Verif.Props.MapIter

/-! # C54 and C50 for maps: iterators, and calls that are abandoned -/

set_option linter.unusedSectionVars false

namespace Frozen

section
variable {K V : Type} [GoKey K] [LawfulGoKey K] [Inhabited K] [Inhabited V]

theorem MIInv.cut (G : Growth) {w : MIWorld K V} {lw : LMWorld K V} (h : MIInv w lw) (o : MOp K V) (n : Nat)
    (hu : UncrowdedMap w.world o) : MIInv (w.event G (.cut o n)) (lw.event (.cut o n)) := by
  obtain ⟨vw, S, B, hI, hM, hE, hS⟩ := h
  obtain ⟨S', B', h'⟩ := hI.cut G (o.call w.world) n (fun _ => uncrowded_call o hu)
  refine ⟨vw.event (.cut (o.call w.world) n), S', B', ?_, ?_, hE, hS⟩
  · have e := mapEvent_eq G w.world (.cut o n)
    show IInv true ⟨w.world.mapEvent G (.cut o n), w.iters.map (·.i), []⟩ _ S' B'
    rw [e]; exact h'
  · refine ⟨hM.sets, ?_⟩
    show dropBuilder Tree.zero vw.builders (o.call w.world).builder = dropBuilder Tree.zero lw.maps.builders o.builder
    rw [call_builder, hM.builders]

theorem MIInv.events (G : Growth) : ∀ (es : List (MIEvent K V)) {w : MIWorld K V} {lw : LMWorld K V}, MIInv w lw →
    UncrowdedMapEvents G w.world (MIEvent.calls es) → MIInv (w.events G es) (lw.events es)
  | [], _, _, h, _ => h
  | .op (.call o) :: es, _, _, h, hu => MIInv.events G es (h.step G (.call o) (fun _ e => by cases e; exact hu.1)).1 hu.2
  | .op (.range i) :: es, _, _, h, hu => by
    obtain ⟨h', hw⟩ := h.step G (.range i) (fun _ e => by cases e)
    exact MIInv.events G es h' (by show UncrowdedMapEvents G (MIWorld.step G _ _).world _; rw [hw]; exact hu)
  | .op (.next j) :: es, _, _, h, hu => by
    obtain ⟨h', hw⟩ := h.step G (.next j) (fun _ e => by cases e)
    exact MIInv.events G es h' (by show UncrowdedMapEvents G (MIWorld.step G _ _).world _; rw [hw]; exact hu)
  | .op (.entry j) :: es, _, _, h, hu => by
    obtain ⟨h', hw⟩ := h.step G (.entry j) (fun _ e => by cases e)
    exact MIInv.events G es h' (by show UncrowdedMapEvents G (MIWorld.step G _ _).world _; rw [hw]; exact hu)
  | .cut o n :: es, _, _, h, hu => MIInv.events G es (h.cut G o n hu.1) hu.2

/-- C54 and C50 for maps: also when calls between `Range` and `Next` are abandoned at any point because the client's code panicked, every
iterator answers as a list of the entries of its map at the time of `Range` would. Missing: histories with calls, abandoned or not, that
are to add a key to a map having three others with the same 64-bit hash. -/
theorem C54_map_abandoned_calls_partial (G : Growth) (es : List (MIEvent K V)) (hu : UncrowdedMapEvents G World.init (MIEvent.calls es)) :
    (MIWorld.init.events G es).seen = (LMWorld.init.events es).seen := by
  obtain ⟨_, _, _, _, _, _, h⟩ := MIInv.events G es MIInv.init hu
  exact h

/-- C54 and C50 for maps with keys whose hash has few collisions: every history, with calls abandoned anywhere. -/
theorem C54_map_abandoned_calls_few_collisions_partial (hK : FewCollisions K) (G : Growth) (es : List (MIEvent K V)) :
    (MIWorld.init.events G es).seen = (LMWorld.init.events es).seen :=
  C54_map_abandoned_calls_partial G es (uncrowdedMapEvents_of_few hK G _ _)

end

/-! ## The hypotheses can be met -/

/-- Two iterators; calls of several kinds are abandoned while they go on. -/
def brokenMapIterHistory : List (MIEvent Mod100 Nat) :=
  [.op (.call .newBuilder), .op (.call (.put 0 ⟨1⟩ 10)), .op (.call (.put 0 ⟨2⟩ 20)), .op (.call (.put 0 ⟨3⟩ 30)), .op (.call (.finish 0)),
    .op (.range 0), .op (.next 0), .cut (.with 0 ⟨11⟩ 110) 5, .op (.entry 0), .op (.call (.with 0 ⟨1⟩ 11)), .cut (.update 0 1) 9,
    .op (.range 1), .op (.next 0), .op (.entry 0), .cut (.without 1 ⟨2⟩) 4, .op (.next 1), .op (.entry 1), .op (.next 0), .op (.entry 0),
    .op (.next 0)]

example : UncrowdedMapEvents goGrowth World.init (MIEvent.calls brokenMapIterHistory) := uncrowdedMapEvents_of_few mod100_few _ _ _

/-- The first iterator delivers the three entries its map has. -/
example : let x := (MIWorld.init : MIWorld Mod100 Nat).events goGrowth brokenMapIterHistory
    (x.seen.filter (fun a => a.1 == 0)).length = 7 ∧ (0, MIAnswer.entry (⟨1⟩, 10)) ∈ x.seen ∧ (0, MIAnswer.entry (⟨2⟩, 20)) ∈ x.seen ∧
      (0, MIAnswer.entry (⟨3⟩, 30)) ∈ x.seen ∧ (0, MIAnswer.next (some false)) ∈ x.seen ∧ x.world.sets.length = 2 := by
  decide +kernel

end Frozen
