import Verif.Proof.Crash
import Verif.Props.Persist

/-!
# Calls cut short by a panic

Property C50. Any call may be abandoned after any number of accesses to the memory (Spec/Crash.lean); the program recovers and goes on
with the sets and builders it holds. `G` is any way of growing arrays.
-/

set_option linter.unusedSectionVars false

namespace Frozen

variable {T : Type} [GoKey T] [LawfulGoKey T]

/-- C50: calls abandoned anywhere, and calls that follow them, leave every set the client holds with the same answers and the same
iteration, in histories that do not add to a crowded set (`C10_persistence_fails` shows what completed calls do otherwise). -/
theorem C50_abandoned_calls_keep_sets (G : Growth) (es es' : List (Event T)) (hu : UncrowdedEvents G World.init (es ++ es'))
    (i : Nat) (s : MTree) (hs : (World.init.events G es).sets[i]? = some s) :
    (World.init.events G (es ++ es')).sets[i]? = some s ∧
      SameView (World.init.events G es).mem (World.init.events G (es ++ es')).mem s := by
  obtain ⟨h1, h2⟩ := uncrowdedEvents_append G es es' _ hu
  obtain ⟨S, B, h⟩ := events_inv G es (HistInv.init true) (fun _ => h1)
  rw [events_append]
  exact events_view G es' h (fun _ => h2) (.inl rfl) hs

/-- C50: abandoned calls are as if they had not been made: every set in memory has the answers, the iteration and the count it has in
the world of values, where an abandoned call does nothing; and every later call returns a set there exactly if it does here. -/
theorem C50_as_if_not_made (G : Growth) (es : List (Event T)) (hu : UncrowdedEvents G World.init es) :
    (World.init.events G es).sets.length = (VWorld.events ⟨[], []⟩ es).sets.length ∧
    ∀ (i : Nat) (s : MTree), (World.init.events G es).sets[i]? = some s →
      ∃ t : Tree T, (VWorld.events ⟨[], []⟩ es).sets[i]? = some t ∧ s.count = t.count ∧
        (∀ v, s.get (World.init.events G es).mem v = t.get v) ∧
        ∃ l, s.elems (World.init.events G es).mem = .ok l ∧ t.rangeList = .ok l := by
  obtain ⟨S, B, h⟩ := events_inv G es (HistInv.init true) (fun _ => hu)
  refine ⟨h.setsLen rfl, fun i s hs => ?_⟩
  obtain ⟨n, hn, hv⟩ := h.sets i s hs
  refine ⟨s.val n, (hv rfl).1, rfl, fun v => MTree.get_eq hn v, _, elemsM_eq hn memFuel (fuelOk_mem 0), ?_⟩
  exact rangeList_spec (hv rfl).2.nodeOk

/-- C50 in any history whatsoever: calls other than `With` and the merges, abandoned or not, leave every set as it is. -/
theorem C50_other_calls_keep_sets (G : Growth) (es es' : List (Event T)) (ho : ∀ e ∈ es', e.op.mayAppend = false)
    (i : Nat) (s : MTree) (hs : (World.init.events G es).sets[i]? = some s) :
    (World.init.events G (es ++ es')).sets[i]? = some s ∧
      SameView (World.init.events G es).mem (World.init.events G (es ++ es')).mem s := by
  obtain ⟨S, B, h⟩ := events_inv G es (HistInv.init false) (nomatch ·)
  rw [events_append]
  exact events_view G es' h (nomatch ·) (.inr ho) hs

/-- C50, builders: what a builder contains is decided by the last completed call about each value since it was new, finished or given
up; calls on other builders and on sets, abandoned or not, have no influence. In any history. -/
theorem C50_builder_contents (G : Growth) (es es' : List (Event T)) (k : Nat) (b : MTree)
    (hb : (World.init.events G es).builders[k]? = some b) :
    ∃ b', (World.init.events G (es ++ es')).builders[k]? = some b' ∧
      ∀ v, ∃ r, b.get (World.init.events G es).mem v = .ok r ∧
        b'.get (World.init.events G (es ++ es')).mem v = .ok (lastCall k v (es'.flatMap Event.effect) r) := by
  obtain ⟨S, B, h⟩ := events_inv G es (HistInv.init false) (nomatch ·)
  obtain ⟨S', B', h'⟩ := events_inv G es' h (nomatch ·)
  rw [events_append]
  obtain ⟨n, ho, h1, h2⟩ := h.blds k b hb
  obtain ⟨t', h3, h4⟩ := vrun_builder (es'.flatMap Event.effect) h.bvalid h1
  rw [← VWorld.events_builders es' _ _ rfl] at h3
  have hlt : k < ((World.init.events G es).events G es').builders.length := by rw [h'.blen]; exact getElem?_lt h3
  obtain ⟨n', ho', h1', h2'⟩ := h'.blds k _ (List.getElem?_eq_getElem hlt)
  refine ⟨_, List.getElem?_eq_getElem hlt, fun v => ⟨_, (MTree.get_eq ho.rep v).trans (Tree.get_spec h2 v), ?_⟩⟩
  rw [h1'] at h3
  cases h3
  rw [MTree.get_eq ho'.rep, Tree.get_spec h2', h4]

/-- C50, a builder that is not given up: if the abandoned call has not yet written to anything that existed before it, the builder it
was on, like every other builder and set, answers and iterates as before the call. In any history. -/
theorem C50_nothing_written_nothing_changed (G : Growth) (es : List (Event T)) (op : HOp T) (n : Nat) (L : List Loc)
    (hL : ((World.init.events G es).cutMem G op n).log = L ++ (World.init.events G es).mem.log)
    (hw : ∀ l ∈ L, ¬ (World.init.events G es).mem.HasLoc l) (b : MTree)
    (hb : b ∈ (World.init.events G es).builders ∨ b ∈ (World.init.events G es).sets) :
    SameView (World.init.events G es).mem ((World.init.events G es).cutMem G op n) b := by
  obtain ⟨S, B, h⟩ := events_inv G es (HistInv.init false) (nomatch ·)
  have hc := cut_untouched G op n L hL hw
  rcases hb with hb | hb
  · obtain ⟨k, hk⟩ := List.getElem?_of_mem hb
    obtain ⟨m, ho, _⟩ := h.blds k b hk
    exact sameView_of ho.rep (ho.rep.frame hc (fun _ _ h => h))
  · obtain ⟨k, hk⟩ := List.getElem?_of_mem hb
    obtain ⟨m, ho, _⟩ := h.sets k b hk
    exact sameView_of ho (ho.frame hc (fun _ _ h => h))

theorem uncrowdedEvents_of_few (hT : FewCollisions T) (G : Growth) : ∀ (es : List (Event T)) (w : World T), (∀ e ∈ es, e.op.MergesOk) →
    UncrowdedEvents G w es
  | [], _, _ => trivial
  | e :: es, w, h => by
    have := uncrowded_of_few hT G [e.op] w (by simpa using h e (by simp))
    exact ⟨this.1, uncrowdedEvents_of_few hT G es _ (fun o ho => h o (by simp [ho]))⟩

/-- C50 for element types whose hash has few collisions: every history, with calls abandoned anywhere. -/
theorem C50_abandoned_calls_keep_sets_few_collisions (hT : FewCollisions T) (G : Growth) (es es' : List (Event T))
    (hm : ∀ e ∈ es ++ es', e.op.MergesOk) (i : Nat) (s : MTree) (hs : (World.init.events G es).sets[i]? = some s) :
    (World.init.events G (es ++ es')).sets[i]? = some s ∧
      SameView (World.init.events G es).mem (World.init.events G (es ++ es')).mem s :=
  C50_abandoned_calls_keep_sets G es es' (uncrowdedEvents_of_few hT G _ _ hm) i s hs

/-! ## The hypotheses can be met -/

/-- A history with calls of many kinds abandoned after a few accesses. -/
def brokenHistory : List (Event Mod100) :=
  [.call .newBuilder, .call .newBuilder, .call (.add 0 ⟨1⟩), .call (.add 0 ⟨2⟩), .call (.add 0 ⟨3⟩), .call (.add 1 ⟨3⟩), .call (.add 1 ⟨4⟩),
    .call (.add 1 ⟨5⟩), .call (.finish 0), .cut (.add 1 ⟨6⟩) 13, .call (.add 1 ⟨8⟩), .call (.finish 1), .cut (HOp.union 0 1) 10,
    .call (HOp.union 0 1), .cut (.with 0 ⟨50⟩) 5, .cut (.without 2 ⟨2⟩) 3, .call (.with 2 ⟨50⟩)]

theorem broken_mergesOk : ∀ e ∈ brokenHistory, e.op.MergesOk := by
  intro e h
  simp only [brokenHistory, List.mem_cons, List.not_mem_nil, or_false] at h
  rcases h with rfl | rfl | rfl | rfl | rfl | rfl | rfl | rfl | rfl | rfl | rfl | rfl | rfl | rfl | rfl | rfl | rfl <;>
    first
    | exact trivial
    | exact fun a b h => PerGoKey.symm h

example : UncrowdedEvents goGrowth World.init brokenHistory := uncrowdedEvents_of_few mod100_few _ _ _ broken_mergesOk

/-- The code has come to its end. -/
def MM.isDone {α : Type} : MM T α → Bool
  | .done _ => true
  | _ => false

/-- The calls are cut in the middle: the union has allocated nodes and has further accesses to perform. -/
example : ∃ w : World Mod100, w = World.init.events goGrowth (brokenHistory.take 12) ∧
    ((Client.call goGrowth ⟨w.sets, w.builders, []⟩ (HOp.union 0 1)).steps w.mem 10).1.isDone = false ∧
    (w.cutMem goGrowth (HOp.union 0 1) 10).cells.length > w.mem.cells.length ∧ w.sets.length = 2 ∧
    w.sets.map MTree.count = [3, 1] := ⟨_, rfl, by decide +kernel, by decide +kernel, by decide +kernel, by decide +kernel⟩

/-- And the addition to the builder has written three times, with more to do. -/
example : ∃ w : World Mod100, w = World.init.events goGrowth (brokenHistory.take 9) ∧
    ((Client.call goGrowth ⟨w.sets, w.builders, []⟩ (.add 1 ⟨6⟩)).steps w.mem 13).1.isDone = false ∧
    (w.cutMem goGrowth (.add 1 ⟨6⟩) 13).log.length = w.mem.log.length + 3 := ⟨_, rfl, by decide +kernel, by decide +kernel⟩

/-- The sets and their counts at the end: nothing came of the abandoned calls, and the builder that was given up started anew. -/
example : (World.init.events goGrowth brokenHistory).sets.map MTree.count = [3, 1, 4, 5] := by decide +kernel

/-- A call on a builder abandoned before its first write to an existing node: the builder may be kept. -/
example : ((World.init.events goGrowth (brokenHistory.take 8)).cutMem goGrowth (.add 1 ⟨6⟩) 7).log =
    [] ++ (World.init.events goGrowth (brokenHistory.take 8)).mem.log := by decide +kernel

/-- Also in a history that has damaged sets: crowded elements, abandoned builder calls, and a builder with all its elements. -/
def brokenDamagedHistory : List (Event Coll) :=
  damagedHistory.map Event.call ++ [.cut (.add 0 ⟨2⟩) 2, .call .newBuilder, .call (.add 1 ⟨7⟩), .cut (.difference 5 3) 4]

example : ((World.init.events goGrowth brokenDamagedHistory).sets[5]?).isSome = true ∧
    ((World.init.events goGrowth brokenDamagedHistory).builders[1]?).isSome = true := by decide +kernel

end Frozen
