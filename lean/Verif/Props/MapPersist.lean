import Verif.Props.Persist
import Verif.Spec.MapHistory
import Verif.Proof.Map

/-!
# Maps and map builders over a shared memory

Property C43.
-/

set_option linter.unusedSectionVars false

namespace Frozen

variable {K V : Type} [GoKey K] [LawfulGoKey K] [Inhabited V]

/-- The tree calls a map history makes. -/
def mapCalls (G : Growth) (w : World (Entry K V)) : List (MOp K V) → List (HOp (Entry K V))
  | [] => []
  | op :: ops => op.call w :: mapCalls G (w.step G (op.call w)) ops

theorem runMap_eq (G : Growth) : ∀ (ops : List (MOp K V)) (w : World (Entry K V)), w.runMap G ops = w.run G (mapCalls G w ops)
  | [], _ => rfl
  | op :: ops, w => by
    show (w.step G (op.call w)).runMap G ops = (w.step G (op.call w)).run G (mapCalls G _ ops)
    exact runMap_eq G ops _

theorem mapCalls_append (G : Growth) : ∀ (ops ops' : List (MOp K V)) (w : World (Entry K V)),
    mapCalls G w (ops ++ ops') = mapCalls G w ops ++ mapCalls G (w.runMap G ops) ops'
  | [], _, _ => rfl
  | op :: ops, ops', w => by
    show op.call w :: mapCalls G _ (ops ++ ops') = op.call w :: (mapCalls G _ ops ++ mapCalls G _ ops')
    rw [mapCalls_append G ops ops']
    rfl

theorem mapCalls_all (G : Growth) {P : HOp (Entry K V) → Prop} : ∀ (ops : List (MOp K V)) (w : World (Entry K V)),
    (∀ op ∈ ops, ∀ w, P (op.call w)) → ∀ o ∈ mapCalls G w ops, P o
  | [], _, _, o, ho => by cases ho
  | op :: ops, w, h, o, ho => by
    rcases List.mem_cons.1 ho with rfl | ho
    · exact h op (by simp) w
    · exact mapCalls_all G ops _ (fun op hop => h op (by simp [hop])) o ho

theorem entry_few (hK : FewCollisions K) : FewCollisions (Entry K V) := by
  rintro v ⟨l, h1, h2, h3⟩
  refine hK v.key ⟨l.map (·.key), by rw [List.length_map]; exact h1, ?_, ?_⟩
  · exact List.pairwise_map.2 h2
  · intro x hx
    obtain ⟨e, he, rfl⟩ := List.mem_map.1 hx
    exact h3 e he

theorem call_mergesOk (op : MOp K V) (w : World (Entry K V)) : (op.call w).MergesOk := by
  have hl : ∀ i j : Nat, (HOp.merge i j (fun a _ => a) : HOp (Entry K V)).MergesOk := fun _ _ a _ _ => LawfulGoKey.refl a.key
  have hr : ∀ i j : Nat, (HOp.merge i j (fun _ b => b) : HOp (Entry K V)).MergesOk := fun _ _ (a b : Entry K V) h =>
    PerGoKey.symm (a := a.key) (b := b.key) h
  cases op with
  | merge i j r => exact fun a b _ => LawfulGoKey.refl a.key
  | update i j =>
    simp only [MOp.call]
    split
    · split
      · exact hl _ _
      · exact hr _ _
    · exact hr _ _
  | _ => trivial

/-- What a client sees of a map is the same in two memories. -/
structure SameMapView (H H' : Mem (Entry K V)) (m : MTree) : Prop where
  get : ∀ k, m.mapGet H' k = m.mapGet H k
  ok : ∀ k, ∃ r, m.mapGet H k = .ok r
  entries : m.elems H' = m.elems H
  entriesOk : ∃ l, m.elems H = .ok l

theorem SameView.map {H H' : Mem (Entry K V)} {m : MTree} (h : SameView H H' m) : SameMapView H H' m := by
  refine ⟨fun k => ?_, fun k => ?_, h.elems, h.elemsOk⟩
  · unfold MTree.mapGet; rw [h.get]
  · obtain ⟨r, hr⟩ := h.ok (newMapKey k)
    exact ⟨r.map (·.value), by unfold MTree.mapGet; rw [hr]; rfl⟩

/-- C43, the part that holds: if no four different keys share a 64-bit hash, no call changes an existing map. Missing: keys with more
collisions, for which it is false (`C43_map_persistence_fails`). -/
theorem C43_map_persistence_few_collisions_partial (hK : FewCollisions K) (G : Growth) (ops ops' : List (MOp K V)) (i : Nat) (m : MTree)
    (hm : (World.init.runMap G ops).sets[i]? = some m) :
    (World.init.runMap G (ops ++ ops')).sets[i]? = some m ∧
      SameMapView (World.init.runMap G ops).mem (World.init.runMap G (ops ++ ops')).mem m := by
  rw [runMap_eq] at hm
  rw [runMap_eq, runMap_eq, mapCalls_append]
  have h := C10_persistence_few_collisions_partial (entry_few hK) G (mapCalls G World.init ops)
    (mapCalls G (World.init.runMap G ops) ops') (by
      rw [← mapCalls_append]
      exact mapCalls_all G _ _ (fun op _ w => call_mergesOk op w)) i m hm
  exact ⟨h.1, h.2.map⟩

/-- C43: in every history, calls other than `With`, `Merge` and `Update` (in particular all calls on builders, `Finish` included)
leave every map as it is. -/
theorem C43_other_calls_keep_maps_partial (G : Growth) (ops ops' : List (MOp K V)) (ho : ∀ op ∈ ops', op.mayAppend = false) (i : Nat)
    (m : MTree) (hm : (World.init.runMap G ops).sets[i]? = some m) :
    (World.init.runMap G (ops ++ ops')).sets[i]? = some m ∧
      SameMapView (World.init.runMap G ops).mem (World.init.runMap G (ops ++ ops')).mem m := by
  rw [runMap_eq] at hm
  rw [runMap_eq, runMap_eq, mapCalls_append]
  have h := C10_other_calls_keep_sets_partial G (mapCalls G World.init ops) (mapCalls G (World.init.runMap G ops) ops') (by
      refine mapCalls_all G _ _ (fun op hop w => ?_)
      have := ho op hop
      cases op <;> first | rfl | cases this) i m hm
  exact ⟨h.1, h.2.map⟩

/-- C40 for maps: the map returned by `Finish` has exactly the builder's entries, now and after any further builder calls. -/
theorem C40_map_finish_isolates (G : Growth) (ops ops' : List (MOp K V)) (ho : ∀ op ∈ ops', op.isBuilderCall = true)
    (k : Nat) (b : MTree) (hb : (World.init.runMap G ops).builders[k]? = some b) :
    (World.init.runMap G (ops ++ .finish k :: ops')).sets[(World.init.runMap G ops).sets.length]? = some b ∧
      SameMapView (World.init.runMap G ops).mem (World.init.runMap G (ops ++ .finish k :: ops')).mem b := by
  rw [runMap_eq] at hb
  have h := C40_finish_isolates G (mapCalls G World.init ops)
    (mapCalls G ((World.init.runMap G ops).step G (.finish k)) ops') (by
      refine mapCalls_all G _ _ (fun op hop w => ?_)
      have := ho op hop
      cases op <;> first | rfl | cases this) k b hb
  rw [runMap_eq, runMap_eq, mapCalls_append]
  exact ⟨h.1, h.2.map⟩

/-- Five entries whose keys share a hash, then two different extensions of the map with four. -/
def crowdedMapHistory : List (MOp Coll Nat) :=
  [.empty, .with 0 ⟨1⟩ 10, .with 1 ⟨2⟩ 20, .with 2 ⟨3⟩ 30, .with 3 ⟨4⟩ 40, .with 4 ⟨5⟩ 50]

/-- C43 is false of the code: `m.With(5, 50)` loses key 5 when `m.With(6, 60)` is computed. -/
theorem C43_map_persistence_fails : ∃ (ops : List (MOp Coll Nat)) (op : MOp Coll Nat) (i : Nat) (m : MTree),
    (World.init.runMap goGrowth ops).sets[i]? = some m ∧
    m.mapGet (World.init.runMap goGrowth ops).mem ⟨5⟩ = .ok (some 50) ∧
    m.mapGet (World.init.runMap goGrowth (ops ++ [op])).mem ⟨5⟩ = .ok none := by
  refine ⟨crowdedMapHistory, .with 4 ⟨6⟩ 60, 5, ?_⟩
  have h : ((World.init.runMap goGrowth crowdedMapHistory).sets[5]?).any (fun s =>
      isOk (s.mapGet (World.init.runMap goGrowth crowdedMapHistory).mem ⟨5⟩) (some 50) &&
      isOk (s.mapGet (World.init.runMap goGrowth (crowdedMapHistory ++ [.with 4 ⟨6⟩ 60])).mem ⟨5⟩) none) = true := by decide +kernel
  cases hs : (World.init.runMap goGrowth crowdedMapHistory).sets[5]? with
  | none => rw [hs] at h; cases h
  | some s =>
    rw [hs] at h
    simp only [Option.any_some, Bool.and_eq_true] at h
    exact ⟨s, rfl, of_isOk h.1, of_isOk h.2⟩

/-- A history with every kind of map call. -/
def mixedMapHistory : List (MOp Mod100 Nat) :=
  [.newBuilder, .put 0 ⟨1⟩ 10, .put 0 ⟨2⟩ 20, .put 0 ⟨3⟩ 30, .remove 0 ⟨2⟩, .finish 0, .with 0 ⟨50⟩ 500, .put 0 ⟨7⟩ 70, .without 1 ⟨1⟩,
    .update 0 2, .merge 1 2 (fun _ a b => a + b)]

/-- It makes five maps and a builder, so the hypotheses about positions can be met. -/
example : (World.init.runMap goGrowth mixedMapHistory).sets.length = 5 ∧
    ((World.init.runMap goGrowth mixedMapHistory).builders[0]?).isSome = true := by decide +kernel

example : FewCollisions Mod100 := mod100_few

end Frozen
