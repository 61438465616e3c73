import Verif.Spec.MapCrash
import Verif.Props.Crash
import Verif.Props.MapValues

/-!
# Abandoned map calls

C50 for maps: a map call abandoned anywhere is as if it had not been made.
-/

set_option linter.unusedSectionVars false

namespace Frozen

variable {K V : Type} [GoKey K] [LawfulGoKey K] [Inhabited V]

/-! ### Map events as events on trees -/

/-- The event on trees that a map event is. -/
def MapEvent.tree (w : World (Entry K V)) : MapEvent K V → Event (Entry K V)
  | .call op => .call (op.call w)
  | .cut op n => .cut (op.call w) n

theorem call_builder (op : MOp K V) (w : World (Entry K V)) : (op.call w).builder = op.builder := by
  cases op with
  | update i j =>
    simp only [MOp.call]
    split
    · split <;> rfl
    · rfl
  | _ => rfl

theorem tree_op (e : MapEvent K V) (w : World (Entry K V)) : (e.tree w).op = e.op.call w := by cases e <;> rfl

theorem mapEvent_eq (G : Growth) (w : World (Entry K V)) (e : MapEvent K V) : w.mapEvent G e = w.event G (e.tree w) := by
  cases e with
  | call op => rfl
  | cut op n => simp only [World.mapEvent, MapEvent.tree, World.event, call_builder]

/-- The events on trees that a history of map events is. -/
def mapTrees (G : Growth) (w : World (Entry K V)) : List (MapEvent K V) → List (Event (Entry K V))
  | [] => []
  | e :: es => e.tree w :: mapTrees G (w.mapEvent G e) es

theorem mapEvents_eq (G : Growth) : ∀ (es : List (MapEvent K V)) (w : World (Entry K V)), w.mapEvents G es = w.events G (mapTrees G w es)
  | [], _ => rfl
  | e :: es, w => by
    show (w.mapEvent G e).mapEvents G es = (w.event G (e.tree w)).events G (mapTrees G (w.mapEvent G e) es)
    rw [← mapEvent_eq]
    exact mapEvents_eq G es _

theorem mapTrees_append (G : Growth) : ∀ (es es' : List (MapEvent K V)) (w : World (Entry K V)),
    mapTrees G w (es ++ es') = mapTrees G w es ++ mapTrees G (w.mapEvents G es) es'
  | [], _, _ => rfl
  | e :: es, es', w => by
    show e.tree w :: mapTrees G _ (es ++ es') = e.tree w :: (mapTrees G _ es ++ mapTrees G _ es')
    rw [mapTrees_append G es es']
    rfl

theorem mapTrees_uncrowded (G : Growth) : ∀ (es : List (MapEvent K V)) (w : World (Entry K V)), UncrowdedMapEvents G w es →
    UncrowdedEvents G w (mapTrees G w es)
  | [], _, _ => trivial
  | e :: es, w, h => by
    refine ⟨?_, ?_⟩
    · rw [tree_op]; exact uncrowded_call e.op h.1
    · rw [← mapEvent_eq]; exact mapTrees_uncrowded G es _ h.2

theorem mapTrees_mayAppend (G : Growth) : ∀ (es : List (MapEvent K V)) (w : World (Entry K V)), (∀ e ∈ es, e.op.mayAppend = false) →
    ∀ e ∈ mapTrees G w es, e.op.mayAppend = false
  | [], _, _, e, he => by cases he
  | e :: es, w, h, e', he => by
    rcases List.mem_cons.1 he with rfl | he
    · rw [tree_op]
      have := h e (by simp)
      cases hop : e.op <;> rw [hop] at this <;> first | rfl | cases this
    · exact mapTrees_mayAppend G es _ (fun e he => h e (by simp [he])) e' he

theorem mapEvents_inv (G : Growth) : ∀ (es : List (MapEvent K V)) {w : World (Entry K V)} {vw : VWorld (Entry K V)} {m : VMaps K V}
    {S : Set Loc} {B : Nat → Set Loc}, HistInv true w vw S B → MapsAre m vw → UncrowdedMapEvents G w es →
    ∃ vw' S' B', HistInv true (w.mapEvents G es) vw' S' B' ∧ MapsAre (m.events es) vw'
  | [], w, vw, m, S, B, h, hm, _ => ⟨vw, S, B, h, hm⟩
  | e :: es, w, vw, m, S, B, h, hm, hu => by
    obtain ⟨⟨S', B', _, h'⟩, _⟩ := event_ok G h (e.tree w) (fun _ => by rw [tree_op]; exact uncrowded_call e.op hu.1)
    rw [← mapEvent_eq] at h'
    refine mapEvents_inv G es (m := m.event e) h' ?_ hu.2
    cases e with
    | call op =>
      show MapsAre (m.step op) (vw.step (op.call w))
      rw [← callAt_eq, view_eq h, hm.counts]
      exact hm.step op
    | cut op n =>
      refine ⟨hm.sets, ?_⟩
      show dropBuilder Tree.zero vw.builders (op.call w).builder = dropBuilder Tree.zero m.builders op.builder
      rw [call_builder, hm.builders]

/-! ### The properties -/

/-- C50 for maps: calls abandoned anywhere, and calls that follow them, leave every map the client holds with the same values and the same
entries, in histories that add no key to a map that has three other keys with the same hash. -/
theorem C50_abandoned_calls_keep_maps (G : Growth) (es es' : List (MapEvent K V)) (hu : UncrowdedMapEvents G World.init (es ++ es'))
    (i : Nat) (m : MTree) (hm : (World.init.mapEvents G es).sets[i]? = some m) :
    (World.init.mapEvents G (es ++ es')).sets[i]? = some m ∧
      SameMapView (World.init.mapEvents G es).mem (World.init.mapEvents G (es ++ es')).mem m := by
  have hu' := mapTrees_uncrowded G _ _ hu
  rw [mapTrees_append] at hu'
  rw [mapEvents_eq] at hm
  rw [mapEvents_eq, mapEvents_eq, mapTrees_append]
  have h := C50_abandoned_calls_keep_sets G _ _ hu' i m hm
  exact ⟨h.1, h.2.map⟩

/-- C50 for maps: abandoned calls are as if they had not been made: every map in memory has the count, the values and the entries it has
with the map API on values, where an abandoned call does nothing; and every later call returns a map there exactly if it does here. -/
theorem C50_map_as_if_not_made (G : Growth) (es : List (MapEvent K V)) (hu : UncrowdedMapEvents G World.init es) :
    (World.init.mapEvents G es).sets.length = (VMaps.events ⟨[], []⟩ es).maps.length ∧
    ∀ (i : Nat) (s : MTree), (World.init.mapEvents G es).sets[i]? = some s →
      ∃ m : FMap K V, (VMaps.events ⟨[], []⟩ es).maps[i]? = some m ∧ s.count = m.count ∧
        (∀ k, s.mapGet (World.init.mapEvents G es).mem k = m.get k) ∧
        ∃ l, s.elems (World.init.mapEvents G es).mem = .ok l ∧ m.rangeList = .ok l := by
  obtain ⟨vw, S, B, h, hm⟩ := mapEvents_inv G es (m := ⟨[], []⟩) (HistInv.init true) ⟨rfl, rfl⟩ hu
  refine ⟨by rw [h.setsLen rfl, hm.sets, List.length_map], fun i s hs => ?_⟩
  obtain ⟨n, hn, hv⟩ := h.sets i s hs
  have h1 := (hv rfl).1
  rw [hm.at, Option.map_eq_some_iff] at h1
  obtain ⟨m, h2, h3⟩ := h1
  obtain ⟨h4, h5⟩ := asMap s m hn h3.symm
  refine ⟨m, h2, h4, h5, _, elemsM_eq hn memFuel (fuelOk_mem 0), ?_⟩
  unfold FMap.rangeList
  rw [h3]
  exact rangeList_spec (hv rfl).2.nodeOk

/-- C50 for maps in any history whatsoever: calls other than `With`, `Merge` and `Update`, abandoned or not, leave every map as it is. -/
theorem C50_other_calls_keep_maps (G : Growth) (es es' : List (MapEvent K V)) (ho : ∀ e ∈ es', e.op.mayAppend = false)
    (i : Nat) (m : MTree) (hm : (World.init.mapEvents G es).sets[i]? = some m) :
    (World.init.mapEvents G (es ++ es')).sets[i]? = some m ∧
      SameMapView (World.init.mapEvents G es).mem (World.init.mapEvents G (es ++ es')).mem m := by
  rw [mapEvents_eq] at hm
  rw [mapEvents_eq, mapEvents_eq, mapTrees_append]
  have h := C50_other_calls_keep_sets G _ (mapTrees G (World.init.mapEvents G es) es') (mapTrees_mayAppend G _ _ ho) i m hm
  exact ⟨h.1, h.2.map⟩

theorem uncrowdedMapEvents_of_few (hK : FewCollisions K) (G : Growth) : ∀ (es : List (MapEvent K V)) (w : World (Entry K V)),
    UncrowdedMapEvents G w es
  | [], _ => trivial
  | e :: es, w => ⟨(uncrowdedMap_of_few hK G [e.op] w).1, uncrowdedMapEvents_of_few hK G es _⟩

/-- C50 for key types whose hash has few collisions: every history, with calls abandoned anywhere. -/
theorem C50_abandoned_calls_keep_maps_few_collisions (hK : FewCollisions K) (G : Growth) (es es' : List (MapEvent K V)) (i : Nat)
    (m : MTree) (hm : (World.init.mapEvents G es).sets[i]? = some m) :
    (World.init.mapEvents G (es ++ es')).sets[i]? = some m ∧
      SameMapView (World.init.mapEvents G es).mem (World.init.mapEvents G (es ++ es')).mem m :=
  C50_abandoned_calls_keep_maps G es es' (uncrowdedMapEvents_of_few hK G _ _) i m hm

/-! ## The hypotheses can be met -/

/-- A history with map calls of many kinds abandoned after a few accesses. -/
def brokenMapHistory : List (MapEvent Mod100 Nat) :=
  [.call .newBuilder, .call .newBuilder, .call (.put 0 ⟨1⟩ 10), .call (.put 0 ⟨2⟩ 20), .call (.put 0 ⟨3⟩ 30), .call (.put 1 ⟨3⟩ 31),
    .call (.put 1 ⟨4⟩ 41), .call (.put 1 ⟨5⟩ 51), .call (.finish 0), .cut (.put 1 ⟨6⟩ 61) 13, .call (.put 1 ⟨8⟩ 81), .call (.finish 1),
    .cut (.update 0 1) 10, .call (.merge 0 1 (fun _ a b => a + b)), .cut (.with 0 ⟨50⟩ 0) 5, .cut (.without 2 ⟨2⟩) 3, .call (.with 2 ⟨1⟩ 11)]

example : UncrowdedMapEvents goGrowth World.init brokenMapHistory := uncrowdedMapEvents_of_few mod100_few _ _ _

/-- The maps at the end, and the values of key 1. The second builder was given up, so only the entry added later is in its map. -/
example : ((World.init.mapEvents goGrowth brokenMapHistory).sets.map MTree.count = [3, 1, 4, 4]) ∧
    ((World.init.mapEvents goGrowth brokenMapHistory).sets.map (fun s =>
      (s.mapGet (World.init.mapEvents goGrowth brokenMapHistory).mem (⟨1⟩ : Mod100)).toOption)) =
      [some (some 10), some none, some (some 10), some (some 11)] := by decide +kernel

/-- Something was really cut: the abandoned merge had 10 of its accesses done, and some nodes were allocated. -/
example : (World.init.mapEvents goGrowth (brokenMapHistory.take 12)).mem.cells.length <
    (World.init.mapEvents goGrowth (brokenMapHistory.take 13)).mem.cells.length := by decide +kernel

end Frozen
