import Verif.Proof.CompareWork
import Verif.Props.MapValues

/-!
# Comparing sets and maps in memory

C10 and C43: `Equal` and `IsSubsetOf` answer what they answer when every collection is a value of its own. C59: what they cost.
-/

set_option linter.unusedSectionVars false

namespace Frozen

section Sets

variable {T : Type} [GoKey T] [LawfulGoKey T]

/-- C10: sharing is unobservable to comparisons. In a history that adds no element to a set having three others with the same hash,
`Equal` and `IsSubsetOf` of two sets in memory answer what they answer when every set is a value of its own, and write nothing. With the theorems
about values (C05, C06) this says when they are true. Missing: the other additions (`C10_persistence_fails`). -/
theorem C10_comparisons_partial (G : Growth) (ops : List (HOp T)) (hu : UncrowdedRun G World.init ops) (i j : Nat) (s t : MTree)
    (hs : (World.init.run G ops).sets[i]? = some s) (ht : (World.init.run G ops).sets[j]? = some t) :
    ∃ x y : Tree T, (VWorld.run ⟨[], []⟩ ops).sets[i]? = some x ∧ (VWorld.run ⟨[], []⟩ ops).sets[j]? = some y ∧
      (∀ eq, s.equalP eq t (World.init.run G ops).mem = (x.equal eq y, (World.init.run G ops).mem)) ∧
      s.subsetOfP t (World.init.run G ops).mem = (x.subsetOf y, (World.init.run G ops).mem) := by
  obtain ⟨S, B, h⟩ := run_inv G ops (HistInv.init true) (fun _ => hu)
  obtain ⟨n, hn, hv⟩ := h.sets i s hs
  obtain ⟨n', hn', hv'⟩ := h.sets j t ht
  exact ⟨_, _, (hv rfl).1, (hv' rfl).1, fun eq => MTree.equalP_eq eq hn hn', MTree.subsetOfP_eq hn hn'⟩

/-- C10, the part that holds of every history whatsoever: comparisons write nothing. -/
theorem C10_comparisons_write_nothing_partial (G : Growth) (ops : List (HOp T)) (i j : Nat) (s t : MTree)
    (hs : (World.init.run G ops).sets[i]? = some s) (ht : (World.init.run G ops).sets[j]? = some t) :
    (∀ eq, (s.equalP eq t (World.init.run G ops).mem).2 = (World.init.run G ops).mem) ∧
      (s.subsetOfP t (World.init.run G ops).mem).2 = (World.init.run G ops).mem := by
  obtain ⟨S, B, h⟩ := run_inv G ops (HistInv.init false) (nomatch ·)
  obtain ⟨n, hn, _⟩ := h.sets i s hs
  obtain ⟨n', hn', _⟩ := h.sets j t ht
  exact ⟨fun eq => by rw [MTree.equalP_eq eq hn hn'], by rw [MTree.subsetOfP_eq hn hn']⟩

/-- C59: `Equal` takes no access at all if the sets have different numbers of elements, otherwise at most 46 + c + c² accesses for each
element. -/
theorem C59_equal_work (G : Growth) (ops : List (HOp T)) (hu : UncrowdedRun G World.init ops) (i j : Nat) (s t : MTree)
    (hs : (World.init.run G ops).sets[i]? = some s) (ht : (World.init.run G ops).sets[j]? = some t) (eq : T → T → Bool) :
    ∃ l l', s.elems (World.init.run G ops).mem = .ok l ∧ t.elems (World.init.run G ops).mem = .ok l' ∧
      ∀ c, Collide c l → Collide c l' → (s.equalP eq t).accesses (World.init.run G ops).mem ≤
        if l.length = l'.length then (46 + c + c * c) * l.length else 0 := by
  obtain ⟨S, hl, hrep⟩ := sets_rep hu
  obtain ⟨n, hr, hV, he⟩ := hrep i s hs
  obtain ⟨n2, hr2, hV2, he2⟩ := hrep j t ht
  exact ⟨_, _, he, he2, fun c hc hc' => acc_tree_equal eq hr hr2 hV hV2 hc.few hc'.few⟩

/-- C59: `IsSubsetOf` takes at most 91 + 2·c + c² accesses for each element of the smaller set. -/
theorem C59_subset_work (G : Growth) (ops : List (HOp T)) (hu : UncrowdedRun G World.init ops) (i j : Nat) (s t : MTree)
    (hs : (World.init.run G ops).sets[i]? = some s) (ht : (World.init.run G ops).sets[j]? = some t) :
    ∃ l l', s.elems (World.init.run G ops).mem = .ok l ∧ t.elems (World.init.run G ops).mem = .ok l' ∧
      ∀ c, Collide c l → Collide c l' →
        (s.subsetOfP t).accesses (World.init.run G ops).mem ≤ (91 + 2 * c + c * c) * min l.length l'.length := by
  obtain ⟨S, hl, hrep⟩ := sets_rep hu
  obtain ⟨n, hr, hV, he⟩ := hrep i s hs
  obtain ⟨n2, hr2, hV2, he2⟩ := hrep j t ht
  exact ⟨_, _, he, he2, fun c hc hc' => acc_tree_subset hr hr2 hV.wf hV2.wf hc.few hc'.few⟩

/-- Sets made by every kind of call, and what the comparisons of some pairs answer. -/
example : UncrowdedRun goGrowth World.init mixedHistory ∧
    [(0, 4), (4, 0), (2, 5), (3, 2)].map (fun p => (((World.init.run goGrowth mixedHistory).sets[p.1]?).bind (fun s =>
      ((World.init.run goGrowth mixedHistory).sets[p.2]?).map (fun t =>
        ((s.equalP GoKey.eq t (World.init.run goGrowth mixedHistory).mem).1.toOption,
          (s.subsetOfP t (World.init.run goGrowth mixedHistory).mem).1.toOption))))) =
      [some (some false, some true), some (some false, some false), some (some true, some true), some (some false, some false)] :=
  ⟨uncrowded_of_few mod100_few _ _ _ mixed_mergesOk, by decide +kernel⟩

/-- The 60 elements of `bigSmall` in another order, and a part of them. -/
def bigAgain : List (HOp Mod100) :=
  bigSmall ++ [.newBuilder] ++ (List.range 60).map (fun k => .add 2 ⟨59 - k⟩) ++ [.finish 2, .where 0 (fun e => decide (e.n < 5))]

/-- What comparisons take: 152 accesses for a set of 60 elements and an equal one made in another order, none for sets of different
sizes; 22 and 12 to see whether 5 and 2 elements are a subset of the 60. -/
example : ((World.init.run goGrowth bigAgain).sets[0]?).any (fun s => ((World.init.run goGrowth bigAgain).sets[1]?).any (fun t =>
    ((World.init.run goGrowth bigAgain).sets[2]?).any (fun u => ((World.init.run goGrowth bigAgain).sets[3]?).any (fun v =>
    decide (s.count = 60 ∧ t.count = 2 ∧ u.count = 60 ∧ v.count = 5 ∧
      (s.equalP GoKey.eq u).accesses (World.init.run goGrowth bigAgain).mem = 152 ∧
      (s.equalP GoKey.eq t).accesses (World.init.run goGrowth bigAgain).mem = 0 ∧
      (v.subsetOfP s).accesses (World.init.run goGrowth bigAgain).mem = 22 ∧
      (t.subsetOfP s).accesses (World.init.run goGrowth bigAgain).mem = 12))))) = true := by decide +kernel

end Sets

section Maps

variable {K V : Type} [GoKey K] [LawfulGoKey K] [Inhabited V] [GoKey V]

/-- C43: `Equal` of two maps in memory answers what it answers when every map is a value of its own. -/
theorem C43_equal_partial (G : Growth) (ops : List (MOp K V)) (hu : UncrowdedMapRun G World.init ops) (i j : Nat) (s t : MTree)
    (hs : (World.init.runMap G ops).sets[i]? = some s) (ht : (World.init.runMap G ops).sets[j]? = some t) :
    ∃ m n : FMap K V, (VMaps.run ⟨[], []⟩ ops).maps[i]? = some m ∧ (VMaps.run ⟨[], []⟩ ops).maps[j]? = some n ∧
      s.equalP mapEntryEqual t (World.init.runMap G ops).mem = (m.equal n, (World.init.runMap G ops).mem) := by
  obtain ⟨S, B, h⟩ := runMap_inv G ops (HistInv.init true) hu
  have hm : MapsAre (VMaps.run ⟨[], []⟩ ops) (VWorld.runMap ⟨[], []⟩ ops) := MapsAre.run ops ⟨rfl, rfl⟩
  obtain ⟨n, hn, hv⟩ := h.sets i s hs
  obtain ⟨n', hn', hv'⟩ := h.sets j t ht
  have h1 := (hv rfl).1
  have h2 := (hv' rfl).1
  rw [hm.at, Option.map_eq_some_iff] at h1 h2
  obtain ⟨m, h3, h4⟩ := h1
  obtain ⟨m', h5, h6⟩ := h2
  refine ⟨m, m', h3, h5, ?_⟩
  rw [MTree.equalP_eq mapEntryEqual hn hn', ← h4, ← h6]
  rfl

/-- C59 for maps: `Equal` takes no access if the maps have different numbers of keys, otherwise at most 46 + c + c² for each key. -/
theorem C59_map_equal_work (G : Growth) (ops : List (MOp K V)) (hu : UncrowdedMapRun G World.init ops) (i j : Nat) (m m' : MTree)
    (hm : (World.init.runMap G ops).sets[i]? = some m) (hm' : (World.init.runMap G ops).sets[j]? = some m') :
    ∃ l l' : List (Entry K V), m.elems (World.init.runMap G ops).mem = .ok l ∧ m'.elems (World.init.runMap G ops).mem = .ok l' ∧
      ∀ c, Collide c (l.map (·.key)) → Collide c (l'.map (·.key)) →
        (m.equalP mapEntryEqual m').accesses (World.init.runMap G ops).mem ≤
          if l.length = l'.length then (46 + c + c * c) * l.length else 0 := by
  have hu' := uncrowded_calls G _ _ hu
  rw [runMap_eq] at hm hm' ⊢
  obtain ⟨l, l', h1, h2, h3⟩ := C59_equal_work G _ hu' i j m m' hm hm' mapEntryEqual
  exact ⟨l, l', h1, h2, fun c hl hl' => h3 c (collide_key hl) (collide_key hl')⟩

/-- Map 1 of `mixedMapHistory` and all its maps: map 3 has come to be equal to it in another way. -/
example : UncrowdedMapRun goGrowth World.init mixedMapHistory ∧
    [0, 1, 2, 3, 4].map (fun i => ((World.init.runMap goGrowth mixedMapHistory).sets[1]?).bind (fun s =>
      ((World.init.runMap goGrowth mixedMapHistory).sets[i]?).map (fun t =>
        (s.equalP mapEntryEqual t (World.init.runMap goGrowth mixedMapHistory).mem).1.toOption))) =
      [some (some false), some (some true), some (some false), some (some true), some (some false)] :=
  ⟨uncrowdedMap_of_few mod100_few _ _ _, by decide +kernel⟩

end Maps

end Frozen
