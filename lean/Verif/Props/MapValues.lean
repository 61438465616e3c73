import Verif.Props.Adaptive

/-!
# Maps in memory and maps as values

C43: sharing is unobservable for maps too. The values are those of the map API (Spec/MapValues.lean).
-/

set_option linter.unusedSectionVars false

namespace Frozen

variable {K V : Type} [GoKey K] [LawfulGoKey K] [Inhabited V]

theorem asMap (s : MTree) {H : Mem (Entry K V)} {S : Set Loc} {n : Node (Entry K V)} (m : FMap K V) (hr : Rep H S 0 s.root n)
    (hm : s.val n = m.tree) : s.count = m.count ∧ ∀ k, s.mapGet H k = m.get k := by
  refine ⟨congrArg Tree.count hm, fun k => ?_⟩
  unfold MTree.mapGet FMap.get
  rw [MTree.get_eq hr, hm]

/-- C43: sharing is unobservable. In a history that adds no key to a map having three other keys with the same hash, every map in memory
has the count, gives the values and visits the entries that it does when every map is a value of its own, and the same calls panic. With the
theorems about values (C12-C14), this says what each map contains. Missing: the other additions (`C43_map_persistence_fails`). -/
theorem C43_sharing_unobservable_partial (G : Growth) (ops : List (MOp K V)) (hu : UncrowdedMapRun G World.init ops) :
    (World.init.runMap G ops).sets.length = (VMaps.run ⟨[], []⟩ ops).maps.length ∧
    ∀ (i : Nat) (s : MTree), (World.init.runMap G ops).sets[i]? = some s →
      ∃ m : FMap K V, (VMaps.run ⟨[], []⟩ ops).maps[i]? = some m ∧ s.count = m.count ∧
        (∀ k, s.mapGet (World.init.runMap G ops).mem k = m.get k) ∧
        ∃ l, s.elems (World.init.runMap G ops).mem = .ok l ∧ m.rangeList = .ok l := by
  obtain ⟨S, B, h⟩ := runMap_inv G ops (HistInv.init true) hu
  have hm : MapsAre (VMaps.run ⟨[], []⟩ ops) (VWorld.runMap ⟨[], []⟩ ops) := MapsAre.run ops ⟨rfl, rfl⟩
  refine ⟨by rw [h.setsLen rfl, hm.sets, List.length_map], fun i s hs => ?_⟩
  obtain ⟨n, hn, hv⟩ := h.sets i s hs
  have h1 := (hv rfl).1
  rw [hm.at, Option.map_eq_some_iff] at h1
  obtain ⟨m, h2, h3⟩ := h1
  obtain ⟨h4, h5⟩ := asMap s m hn h3.symm
  refine ⟨m, h2, h4, h5, _, elemsM_eq hn memFuel (fuelOk_mem 0), ?_⟩
  unfold FMap.rangeList
  rw [h3]
  exact rangeList_spec (hv rfl).2.nodeOk

/-- C43 for key types whose hash has few collisions: this holds in every history. -/
theorem C43_sharing_unobservable_few_collisions_partial (hK : FewCollisions K) (G : Growth) (ops : List (MOp K V)) (i : Nat) (s : MTree)
    (hs : (World.init.runMap G ops).sets[i]? = some s) :
    ∃ m : FMap K V, (VMaps.run ⟨[], []⟩ ops).maps[i]? = some m ∧ s.count = m.count ∧
      (∀ k, s.mapGet (World.init.runMap G ops).mem k = m.get k) ∧
      ∃ l, s.elems (World.init.runMap G ops).mem = .ok l ∧ m.rangeList = .ok l :=
  (C43_sharing_unobservable_partial G ops (uncrowdedMap_of_few hK G ops _)).2 i s hs

/-- A history with every kind of call, and what `Get` gives for key 1 in each of its maps. -/
example : FewCollisions Mod100 ∧
    (VMaps.run ⟨[], []⟩ mixedMapHistory).maps.map (fun m => (m.get ⟨1⟩).toOption) =
      ((World.init.runMap goGrowth mixedMapHistory).sets.map (fun s => (s.mapGet (World.init.runMap goGrowth mixedMapHistory).mem
        (⟨1⟩ : Mod100)).toOption)) ∧
    (VMaps.run ⟨[], []⟩ mixedMapHistory).maps.length = 5 := ⟨mod100_few, by decide +kernel, by decide +kernel⟩

end Frozen
