import Verif.Proof.Goroutines
import Verif.Props.Parallel
import Verif.Props.SetBasic

/-! # C61: a call's goroutines have ended when it returns, and C62: a call contains no data race

Spec/Goroutines.lean says when a call `Ended` its goroutines and when it is `RaceFree`. Both hold for every gauge and every schedule for
the operations named below, and both fail for others; those are refuted by reachable sets. -/

set_option linter.unusedSectionVars false

namespace Frozen

section
variable {T : Type} [GoKey T]

/-! ## C61 -/

theorem Tree.combineC_ended (g : Int) (t u : Tree T) (args : CombineArgs T) : (t.combineC g args u).Ended := by
  unfold Tree.combineC
  split
  · trivial
  · split
    · trivial
    · exact ended_run (allTrue_combineC g _ _ _ _) _

/-- C61 for `Union` -/
theorem C61_union (s t : FSet T) (g : Int) : (s.unionC g t).Ended :=
  Call.map_endedIf (Tree.combineC_ended g _ _ _) (fun _ _ => trivial)

/-- C61 for `Intersection` -/
theorem C61_intersection (s t : FSet T) (g : Int) : (s.intersectionC g t).Ended := by
  refine Call.map_endedIf (P := fun _ => True) ?_ (fun _ _ => trivial)
  unfold Tree.intersectionC
  split
  · trivial
  · exact ended_run (allTrue_intersectionC g _ _ _).1 _

/-- C61 for `Difference` -/
theorem C61_difference (s t : FSet T) (g : Int) : (s.differenceC g t).Ended := by
  refine Call.map_endedIf (P := fun _ => True) ?_ (fun _ _ => trivial)
  unfold Tree.differenceC
  split
  · trivial
  · exact ended_run (allTrue_differenceC g _ _ _).1 _

/-- C61 for `Where`: the predicate is not called any more. -/
theorem C61_where (s : FSet T) (pred : T → Bool) (g : Int) : (s.whereC g pred).Ended := by
  refine Call.map_endedIf (P := fun _ => True) ?_ (fun _ _ => trivial)
  unfold Tree.whereC
  split
  · trivial
  · exact ended_run (allTrue_whereC g _ _ _).1 _

/-- C61 for `Reduce` -/
theorem C61_reduce [Inhabited T] (s : FSet T) (r : List T → T) (g : Int) : (s.reduceC g r).Ended := by
  unfold FSet.reduceC Tree.reduceC
  split
  · trivial
  · exact ended_run (allTrue_reduceC g _ _ _).1 _

/-- Part of C61 for `Equal`: when the answer is true. Missing: the answer false, see `C61_equal_refuted`. -/
theorem C61_equal_partial (s t : FSet T) (g : Int) : (s.equalC g t).EndedIf (· = true) := by
  unfold FSet.equalC Tree.equalC
  split
  · trivial
  · split
    · trivial
    · intro st r a h1 h2 h3 h4
      cases h3
      exact finished_of_result h1.inv h1.why (honest_equalC g _ _ _ _) h2 h4

/-- Part of C61 for `IsSubsetOf`: when the answer is true. -/
theorem C61_isSubsetOf_partial (s t : FSet T) (g : Int) : (s.isSubsetOfC g t).EndedIf (· = true) := by
  unfold FSet.isSubsetOfC Tree.subsetOfC
  split
  · trivial
  · split
    · trivial
    · intro st r a h1 h2 h3 h4
      cases h3
      exact finished_of_result h1.inv h1.why (honest_subsetOfC g _ _ _) h2 h4

end

section
variable {K V : Type} [GoKey K]

/-- C61 for `Merge`: `resolve` is not called any more. -/
theorem C61_merge (m n : FMap K V) (resolve : K → V → V → V) (g : Int) : (m.mergeC g n resolve).Ended :=
  Call.map_endedIf (Tree.combineC_ended g _ _ _) (fun _ _ => trivial)

/-- C61 for `Update` -/
theorem C61_update (m n : FMap K V) (g : Int) : (m.updateC g n).Ended := by
  unfold FMap.updateC
  split
  · exact Call.map_endedIf (Tree.combineC_ended g _ _ _) (fun _ _ => trivial)
  · exact Call.map_endedIf (Tree.combineC_ended g _ _ _) (fun _ _ => trivial)

/-- Part of C61 for `Equal` of maps: when the answer is true. -/
theorem C61_mapEqual_partial [GoKey V] (m n : FMap K V) (g : Int) : (m.equalC g n).EndedIf (· = true) := by
  unfold FMap.equalC Tree.equalC
  split
  · trivial
  · split
    · trivial
    · intro st r a h1 h2 h3 h4
      cases h3
      exact finished_of_result h1.inv h1.why (honest_equalC g _ _ _ _) h2 h4

end

section
variable {T : Type} [GoKey T] [LawfulGoKey T]

/-! ## C62 -/

/-- C62 for `Intersection` -/
theorem C62_intersection_partial (s t : FSet T) (g : Int) : (s.intersectionC g t).RaceFree := by
  refine Call.map_raceFree ?_ _
  unfold Tree.intersectionC
  split
  · trivial
  · exact raceFree_run (allTrue_intersectionC g _ _ _).2

/-- C62 for `Difference` -/
theorem C62_difference_partial (s t : FSet T) (g : Int) : (s.differenceC g t).RaceFree := by
  refine Call.map_raceFree ?_ _
  unfold Tree.differenceC
  split
  · trivial
  · exact raceFree_run (allTrue_differenceC g _ _ _).2

/-- C62 for `Where` -/
theorem C62_where_partial (s : FSet T) (pred : T → Bool) (g : Int) : (s.whereC g pred).RaceFree := by
  refine Call.map_raceFree ?_ _
  unfold Tree.whereC
  split
  · trivial
  · exact raceFree_run (allTrue_whereC g _ _ _).2

/-- C62 for `Reduce` -/
theorem C62_reduce_partial [Inhabited T] (s : FSet T) (r : List T → T) (g : Int) : (s.reduceC g r).RaceFree := by
  unfold FSet.reduceC Tree.reduceC
  split
  · trivial
  · exact raceFree_run (allTrue_reduceC g _ _ _).2

/-- C62 fails for `Union`, and not only for special sets: the goroutines race whenever the call starts goroutines at all, both sets have
at least three elements, and there are two different beginnings of a hash (three bits) that occur in only one of the sets. -/
theorem C62_union_races {s t : FSet T} (hs : s.Reachable) (ht : t.Reachable) {g : Int} (hg : 1 ≤ g) (h3 : 3 ≤ s.count) (h3' : 3 ≤ t.count)
    {h h' : BitVec 64} (hh : h ≠ h') (ha : s.Alone t h) (ha' : s.Alone t h') : ¬ (s.unionC g t).RaceFree := by
  have := combineC_races (args := ⟨GoKey.eq, useRHS⟩) hg hs.valid ht.valid h3 h3' hh ha ha'
  intro hf
  apply this
  unfold FSet.unionC at hf
  revert hf
  cases s.tree.combineC g ⟨GoKey.eq, useRHS⟩ t.tree <;> exact id

end

/-! ### Concrete cases -/

/-- `Equal` returns false while a goroutine it started has not yet made a step. -/
theorem C61_equal_refuted : ∃ s t : FSet Spread, s.Reachable ∧ t.Reachable ∧ ¬ (s.equalC 1 t).Ended := by
  obtain ⟨s, h1, h2⟩ := of_okAnd (r := newSet ([1, 2, 3, 4, 5, 6].map Spread.mk)) (test := fun s =>
    okAnd (newSet ([1, 2, 3, 4, 5, 19].map Spread.mk)) (fun t =>
      match s.tree.root, t.tree.root with
      | .branch m k, .branch m2 k2 => decide (s.count = 6 ∧ t.count = 6 ∧ m = m2) && (m.indices.any (fun i =>
          (match equalC 1 GoKey.eq (k i) (k2 i) 1 with | .seq (.ok ((), false, 0)) => true | _ => false) &&
          m.indices.any (fun j => decide (j ≠ i))))
      | _, _ => false)) (by decide +kernel)
  obtain ⟨t, h3, h4⟩ := of_okAnd h2
  refine ⟨s, t, ⟨.newSet _, h1⟩, ⟨.newSet _, h3⟩, fun hf => ?_⟩
  revert h4
  rcases hr : s.tree.root with _ | _ | _ | _ | ⟨m, k⟩ <;> rcases hr2 : t.tree.root with _ | _ | _ | _ | ⟨m2, k2⟩ <;>
    try (intro h4; cases h4)
  intro h4
  dsimp only at h4
  rw [Bool.and_eq_true, List.any_eq_true] at h4
  obtain ⟨e1, i, hi, e2⟩ := h4
  rw [Bool.and_eq_true, List.any_eq_true] at e2
  obtain ⟨e2, j, hj, hij⟩ := e2
  obtain ⟨c1, c2, rfl⟩ := of_decide_eq_true e1
  have hb : equalC 1 GoKey.eq (k i) (k2 i) 1 = .seq (.ok ((), false, 0)) := by
    revert e2; split
    · intro _; assumption
    · intro h; cases h
  have c1' : s.tree.count = 6 := c1
  have c2' : t.tree.count = 6 := c2
  simp only [FSet.equalC, Tree.equalC, c1', c2', hr, hr2] at hf
  unfold Frozen.equalC at hf
  simp at hf
  obtain ⟨st, g1, g2, _, g3⟩ := early_return (body := fun i => equalC 1 GoKey.eq (k i) (k2 i) 1) (sets := fun _ => false)
    (k := fun _ _ ok _ => .ok ((), ok, 0)) hi hj (of_decide_eq_true hij) hb rfl rfl (fun _ _ _ => rfl)
  exact g3 (hf st _ _ g1 g2 rfl trivial)

/-- `IsSubsetOf` returns false while a goroutine it started has not yet made a step. -/
theorem C61_isSubsetOf_refuted : ∃ s t : FSet Spread, s.Reachable ∧ t.Reachable ∧ ¬ (s.isSubsetOfC 1 t).Ended := by
  obtain ⟨s, h1, h2⟩ := of_okAnd (r := newSet ([1, 2, 3, 4, 5, 6].map Spread.mk)) (test := fun s =>
    okAnd (newSet ([4, 5, 6, 7, 8, 9].map Spread.mk)) (fun t =>
      match s.tree.root, t.tree.root with
      | .branch m k, .branch m2 k2 => (m ||| m2).indices.any (fun i => !(k i).isNil && (k2 i).isNil &&
          (m ||| m2).indices.any (fun j => decide (j ≠ i)))
      | _, _ => false)) (by decide +kernel)
  obtain ⟨t, h3, h4⟩ := of_okAnd h2
  refine ⟨s, t, ⟨.newSet _, h1⟩, ⟨.newSet _, h3⟩, fun hf => ?_⟩
  revert h4
  rcases hr : s.tree.root with _ | _ | _ | _ | ⟨m, k⟩ <;> rcases hr2 : t.tree.root with _ | _ | _ | _ | ⟨m2, k2⟩ <;>
    try (intro h4; cases h4)
  intro h4
  dsimp only at h4
  rw [List.any_eq_true] at h4
  obtain ⟨i, hi, e2⟩ := h4
  rw [Bool.and_eq_true, Bool.and_eq_true, List.any_eq_true] at e2
  obtain ⟨⟨e1, e2⟩, j, hj, hij⟩ := e2
  simp only [FSet.isSubsetOfC, Tree.subsetOfC, hr, hr2, Node.isNil] at hf
  unfold Frozen.subsetOfC at hf
  simp at hf
  obtain ⟨st, g1, g2, _, g3⟩ := early_return (body := fun i => if (k i).isNil then seqBool (.ok true)
      else if (k2 i).isNil then seqBool (.ok false) else subsetOfC 1 (k i) (k2 i) 1) (sets := fun _ => false)
    (k := fun _ _ ok _ => .ok ((), ok, 0)) (q := ((), false, 0)) hi hj (of_decide_eq_true hij)
    (by rw [if_neg (by simpa using e1), if_pos e2]; rfl) rfl rfl (fun _ _ _ => rfl)
  exact g3 (hf st _ _ g1 g2 rfl trivial)

/-- Two sets whose `Union` races: they meet the hypotheses of `C62_union_races`. -/
theorem C62_union_refuted : ∃ s t : FSet Spread, s.Reachable ∧ t.Reachable ∧ ¬ (s.unionC 1 t).RaceFree := by
  obtain ⟨s, h1, h2⟩ := of_okAnd (r := newSet ([1, 2, 3].map Spread.mk)) (test := fun s =>
    okAnd (newSet ([5, 6, 7].map Spread.mk)) (fun t => decide (s.count = 3 ∧ t.count = 3))) (by decide +kernel)
  obtain ⟨t, h3, h4⟩ := of_okAnd h2
  obtain ⟨c1, c2⟩ := of_decide_eq_true h4
  have hs : s.Reachable := ⟨.newSet _, h1⟩
  have ht : t.Reachable := ⟨.newSet _, h3⟩
  have ms := (C01_set_histories (.newSet _) s h1).1
  have mt := (C01_set_histories (.newSet _) t h3).1
  have alone : ∀ v ∈ [1, 2, 3].map Spread.mk, (∀ w ∈ [5, 6, 7].map Spread.mk, hash0 w >>> 61 ≠ hash0 v >>> 61) →
      s.Alone t (hash0 v >>> 61) := by
    intro v hv hw
    refine .inl ⟨⟨v, (ms v).2 ⟨v, hv, LawfulGoKey.refl v⟩, rfl⟩, ?_⟩
    rintro ⟨a, ha, he⟩
    obtain ⟨w, hw1, hw2⟩ := (mt a).1 ha
    refine hw w hw1 ?_
    rw [← he]
    unfold hash0
    rw [PerGoKey.hash_congr 0#64 hw2]
  exact ⟨s, t, hs, ht, C62_union_races hs ht (by omega) (by omega) (by omega)
    (h := hash0 (Spread.mk 1) >>> 61) (h' := hash0 (Spread.mk 2) >>> 61) (by decide +kernel)
    (alone _ (by decide) (by decide +kernel)) (alone _ (by decide) (by decide +kernel))⟩

end Frozen
