import Verif.Spec.IterCrash
import Verif.Props.Crash
import Verif.Props.MemIter

/-!
# C54 and C50: iterators, and calls that are abandoned

Between `Range` and `Next` the client may make calls that end in a panic of its own code, at any point, and recover.
-/

set_option linter.unusedSectionVars false

namespace Frozen

section
variable {T : Type} [GoKey T] [LawfulGoKey T]

theorem IInv.cut (G : Growth) {strict : Bool} {w : IWorld T} {lw : LWorld T} {S : Set Loc} {B : Nat → Set Loc} (h : IInv strict w lw S B)
    (o : HOp T) (n : Nat) (hu : strict = true → Uncrowded w.world o) :
    ∃ S' B', IInv strict (w.event G (.cut o n)) (lw.event (.cut o n)) S' B' := by
  have hst := event_ok G h.inv (.cut o n) hu
  obtain ⟨S', B', ⟨hsub, _, _⟩, hi⟩ := hst.inv
  obtain ⟨W, hc, hW, _, hcell⟩ := hst.chg
  refine ⟨S', B', hi, ?_, h.ilen, h.seen, h.nexts⟩
  intro j it hj
  obtain ⟨v, hv, ht⟩ := h.iters j it hj
  cases strict with
  | true => exact ⟨v, (RepIt.frame hv hc (hW (.inr rfl))).mono hsub, ht⟩
  | false =>
    obtain ⟨v', hv'⟩ := RepIt.shape hv hc hcell
    exact ⟨v', hv'.mono hsub, (nomatch ·)⟩

theorem ievents_inv (G : Growth) {strict : Bool} : ∀ (es : List (IEvent T)) {w : IWorld T} {lw : LWorld T} {S : Set Loc} {B : Nat → Set Loc},
    IInv strict w lw S B → (strict = true → UncrowdedEvents G w.world (IEvent.calls es)) →
      (∃ S' B', IInv strict (w.events G es) (lw.events es) S' B') ∧ (w.events G es).world = w.world.events G (IEvent.calls es)
  | [], _, _, S, B, h, _ => ⟨⟨S, B, h⟩, rfl⟩
  | .op (.call o) :: es, _, _, _, _, h, hu => by
    obtain ⟨⟨S', B', _, h'⟩, _⟩ := istep_ok G h (.call o) (fun hs o' e => by cases e; exact (hu hs).1)
    exact ievents_inv G es h' (fun hs => (hu hs).2)
  | .op (.range i) :: es, w, lw, _, _, h, hu => by
    obtain ⟨⟨S', B', _, h'⟩, hw⟩ := istep_ok G h (.range i) (fun _ o e => by cases e)
    have := ievents_inv G es h' (fun hs => by rw [hw]; exact hu hs)
    rw [hw] at this; exact this
  | .op (.next j) :: es, w, lw, _, _, h, hu => by
    obtain ⟨⟨S', B', _, h'⟩, hw⟩ := istep_ok G h (.next j) (fun _ o e => by cases e)
    have := ievents_inv G es h' (fun hs => by rw [hw]; exact hu hs)
    rw [hw] at this; exact this
  | .op (.value j) :: es, w, lw, _, _, h, hu => by
    obtain ⟨⟨S', B', _, h'⟩, hw⟩ := istep_ok G h (.value j) (fun _ o e => by cases e)
    have := ievents_inv G es h' (fun hs => by rw [hw]; exact hu hs)
    rw [hw] at this; exact this
  | .cut o n :: es, _, _, _, _, h, hu => by
    obtain ⟨S', B', h'⟩ := h.cut G o n (fun hs => (hu hs).1)
    exact ievents_inv G es h' (fun hs => (hu hs).2)

/-- C54 and C50: also when calls between `Range`, `Next` and `Value` are abandoned at any point because the client's code panicked, every
iterator answers as a list of the elements of its set at the time of `Range` would. Missing: histories with calls, abandoned or not, that
are to add an element to a set having three others with the same 64-bit hash. -/
theorem C54_abandoned_calls_partial (G : Growth) (es : List (IEvent T)) (hu : UncrowdedEvents G World.init (IEvent.calls es)) :
    (IWorld.init.events G es).seen = (LWorld.events ⟨⟨[], []⟩, [], []⟩ es).seen := by
  obtain ⟨⟨S, B, h⟩, _⟩ := ievents_inv G es (IInv.init true) (fun _ => hu)
  exact h.seen rfl

/-- C54 and C50 for element types whose hash has few collisions: every history, with calls abandoned anywhere. -/
theorem C54_abandoned_calls_few_collisions_partial (hT : FewCollisions T) (G : Growth) (es : List (IEvent T))
    (hm : ∀ e ∈ IEvent.calls es, e.op.MergesOk) :
    (IWorld.init.events G es).seen = (LWorld.events ⟨⟨[], []⟩, [], []⟩ es).seen :=
  C54_abandoned_calls_partial G es (uncrowdedEvents_of_few hT G _ _ hm)

/-- C54 and C50 in any history whatsoever: `Next` never panics, and iterating changes nothing: the memory, the sets and the builders are
those of the calls alone, abandoned ones included. -/
theorem C54_abandoned_calls_next_total (G : Growth) (es : List (IEvent T)) :
    (∀ j r, (j, IAnswer.next r) ∈ (IWorld.init.events G es).seen → ∃ b, r = some b) ∧
    (IWorld.init.events G es).world = World.init.events G (IEvent.calls es) := by
  obtain ⟨⟨S, B, h⟩, hw⟩ := ievents_inv G es (IInv.init false) (nomatch ·)
  exact ⟨h.nexts, hw⟩

end

/-! ## The hypotheses can be met -/

/-- Two iterators; calls of several kinds are abandoned while they go on. -/
def brokenIterHistory : List (IEvent Mod100) :=
  [.op (.call .newBuilder), .op (.call (.add 0 ⟨1⟩)), .op (.call (.add 0 ⟨2⟩)), .op (.call (.add 0 ⟨3⟩)), .op (.call (.finish 0)),
    .op (.range 0), .op (.next 0), .cut (.with 0 ⟨11⟩) 5, .op (.value 0), .op (.call (.with 0 ⟨40⟩)), .cut (HOp.union 0 1) 9, .op (.range 1),
    .op (.next 0), .op (.value 0), .cut (.without 1 ⟨2⟩) 4, .op (.next 1), .op (.value 1), .op (.next 0), .op (.next 0), .op (.value 0)]

example : UncrowdedEvents goGrowth World.init (IEvent.calls brokenIterHistory) := by
  refine uncrowdedEvents_of_few mod100_few _ _ _ (fun e h => ?_)
  simp only [brokenIterHistory, IEvent.calls, List.mem_cons, List.not_mem_nil, or_false] at h
  rcases h with rfl | rfl | rfl | rfl | rfl | rfl | rfl | rfl | rfl <;>
    first
    | exact trivial
    | exact fun a b h => PerGoKey.symm h

/-- The answers of the first iterator, which has three elements: `Next` returns true three times, then false, and then `Value` panics. -/
example : let x := (IWorld.init : IWorld Mod100).events goGrowth brokenIterHistory
    (x.seen.filter (fun a => a.1 == 0)).length = 7 ∧ (0, IAnswer.next (some false)) ∈ x.seen ∧ (0, IAnswer.value none) ∈ x.seen ∧
      x.world.sets.length = 2 := by
  decide +kernel

end Frozen
