import Verif.Proof.Flip
import Verif.Props.Goroutines
import Verif.Props.Map

/-! # C62, exactly: which merges contain a data race

Props/Goroutines.lean proves that the other operations contain no data race and that some calls of `Union` do. Here the calls of
`Union`, `Merge` and `Update` that do are described exactly, in terms of the elements and their hashes (Spec/Races.lean). There are two
variables that can race: the mask of a branch (`MaskClash`) and the cached `flipped` of the arguments (`FlipClash`).

That is not C62, which says that there are no races; hence the suffix. -/

set_option linter.unusedSectionVars false

namespace Frozen

section
variable {T : Type} [GoKey T] [LawfulGoKey T]

/-- C62. `Union` races on a mask if and only if the sets have the pattern `MaskClash`. -/
theorem C62_union_mask_partial {s t : FSet T} (hs : s.Reachable) (ht : t.Reachable) (g : Int) :
    (s.unionC g t).RaceFree ↔ ¬ MaskClash g s.Mem t.Mem := by
  unfold FSet.unionC
  rw [Call.map_raceFree_iff, Tree.combineC_raceFree_iff g hs.valid ht.valid,
    MaskClash.congr (FSet.memL_iff hs.valid) (FSet.memL_iff ht.valid)]

/-- C62. `Union` contains no data race if and only if the sets have neither pattern. The sets on which it panics whatever the schedule
(C26) are left aside. -/
theorem C62_union_partial {s t : FSet T} (hs : s.Reachable) (ht : t.Reachable) (g : Int) (hc : ¬ TripleClash s.Mem t.Mem) :
    s.UnionRaceFree g t ↔ ¬ MaskClash g s.Mem t.Mem ∧ ¬ FlipClash g s.Mem t.Mem := by
  unfold FSet.UnionRaceFree
  rw [C62_union_mask_partial hs ht, Tree.flipFree_iff (args := ⟨GoKey.eq, useRHS⟩) g hs.valid ht.valid rfl ClassPres.rhs,
    FlipClash.congr (FSet.memL_iff hs.valid) (FSet.memL_iff ht.valid)]
  rw [Tree.clash_iff hs.valid ht.valid, TripleClash.congr (fun w => (FSet.mem_iff hs.valid w).symm) (fun w => (FSet.mem_iff ht.valid w).symm)]
  exact hc

theorem noMaskClash_small {g : Int} {P Q : T → Prop} (h : ¬ AtLeast 3 P ∨ ¬ AtLeast 3 Q) : ¬ MaskClash g P Q := by
  rintro ⟨d, x, y, _, _, _, _, _, ⟨l, h1, h2, h3⟩, ⟨l', h1', h2', h3'⟩⟩
  rcases h with h | h
  · exact h ⟨l, h1, h2, fun e he => (h3 e he).1⟩
  · exact h ⟨l', h1', h2', fun e he => (h3' e he).1⟩

/-- C62. `Union` contains no data race if one of the sets has fewer than three elements. -/
theorem C62_union_small_partial {s t : FSet T} (hs : s.Reachable) (ht : t.Reachable) (g : Int) (hc : ¬ TripleClash s.Mem t.Mem)
    (h : ¬ AtLeast 3 s.Mem ∨ ¬ AtLeast 3 t.Mem) : s.UnionRaceFree g t := by
  rw [C62_union_partial hs ht g hc]
  refine ⟨noMaskClash_small h, ?_⟩
  have key : ∀ n x, FlipAt n s.Mem t.Mem x → n = 0 := by
    rintro n x ⟨_, _, _, _, _, h6⟩
    by_contra hn
    obtain ⟨⟨l, h1, h2, h3⟩, ⟨l', h1', h2', h3'⟩⟩ := h6 (by omega)
    rcases h with h | h
    · exact h ⟨l, h1, h2, fun e he => (h3 e he).1⟩
    · exact h ⟨l', h1', h2', fun e he => (h3' e he).1⟩
  rintro ⟨n, m, x, y, hx, hy, hn⟩
  apply hn
  rw [key n x hx]
  rw [← agree_start]
  exact agree_ge (by omega) x y

/-- C62. `Union` of two sets with the same elements contains no data race. -/
theorem C62_union_same_partial {s t : FSet T} (hs : s.Reachable) (ht : t.Reachable) (g : Int) (hc : ¬ TripleClash s.Mem t.Mem)
    (h : ∀ x, s.Mem x ↔ t.Mem x) : s.UnionRaceFree g t := by
  rw [C62_union_partial hs ht g hc]
  have e : s.Mem = t.Mem := funext fun x => propext (h x)
  rw [e]
  constructor
  · rintro ⟨d, x, y, _, _, _, (⟨h1, h2⟩ | ⟨h1, h2⟩), _⟩ <;> exact h2 x h1 rfl
  · rintro ⟨n, m, x, y, ⟨_, h2, h3, h4, _⟩, _⟩
    exact h2 (h4 h3)

/-- C62. With a gauge that starts no goroutines, `Union` contains no data race. -/
theorem C62_union_gauge_partial {s t : FSet T} (hs : s.Reachable) (ht : t.Reachable) {g : Int} (hg : g ≤ 0) (hc : ¬ TripleClash s.Mem t.Mem) :
    s.UnionRaceFree g t := by
  rw [C62_union_partial hs ht g hc]
  constructor
  · rintro ⟨d, x, y, h, _⟩; omega
  · rintro ⟨n, m, x, y, _, _, h⟩
    apply h
    rw [← agree_start]
    exact agree_ge (by omega) x y

end

section
variable {K V : Type} [GoKey K] [LawfulGoKey K] [Inhabited V]

/-- C62. `Merge` contains no data race if and only if the sets of keys have neither pattern. -/
theorem C62_merge_partial {m n : FMap K V} (hm : m.Reachable) (hn : n.Reachable) (g : Int) (resolve : K → V → V → V)
    (hc : ¬ TripleClash m.HasKey n.HasKey) :
    m.MergeRaceFree g n resolve ↔ ¬ MaskClash g m.HasKey n.HasKey ∧ ¬ FlipClash g m.HasKey n.HasKey := by
  unfold FMap.MergeRaceFree FMap.mergeC
  rw [Call.map_raceFree_iff, FMap.combineC_raceFree_iff g _ hm.valid hn.valid,
    FMap.flipFree_iff g (f := fun a b => ⟨a.key, resolve a.key a.value b.value⟩) (fun a b _ => LawfulGoKey.refl a.key) hm.valid hn.valid hc]

/-- C62. `Update` contains no data race if and only if the sets of keys have neither pattern, where the map with fewer entries takes the
first place in `FlipClash`. -/
theorem C62_update_partial {m n : FMap K V} (hm : m.Reachable) (hn : n.Reachable) (g : Int) (hc : ¬ TripleClash m.HasKey n.HasKey) :
    m.UpdateRaceFree g n ↔ ¬ MaskClash g m.HasKey n.HasKey ∧ (m.count ≤ n.count → ¬ FlipClash g m.HasKey n.HasKey) ∧
      (n.count < m.count → ¬ FlipClash g n.HasKey m.HasKey) := by
  unfold FMap.UpdateRaceFree FMap.updateC
  by_cases h : m.count > n.count
  · rw [if_pos h, if_pos h, Call.map_raceFree_iff, FMap.combineC_raceFree_iff g _ hn.valid hm.valid,
      FMap.flipFree_iff g (f := useLHS) (fun a b _ => LawfulGoKey.refl a.key) hn.valid hm.valid (fun h => hc h.symm)]
    exact ⟨fun ⟨h1, h2⟩ => ⟨fun h => h1 h.symm, fun h3 => by omega, fun _ => h2⟩, fun ⟨h1, _, h3⟩ => ⟨fun h => h1 h.symm, h3 h⟩⟩
  · rw [if_neg h, if_neg h, Call.map_raceFree_iff, FMap.combineC_raceFree_iff g _ hm.valid hn.valid,
      FMap.flipFree_iff g (f := useRHS) ClassPres.rhs hm.valid hn.valid hc]
    exact ⟨fun ⟨h1, h2⟩ => ⟨h1, fun _ => h2, fun h3 => absurd h3 h⟩, fun ⟨h1, h2, _⟩ => ⟨h1, h2 (by omega)⟩⟩

end

/-! ### Concrete cases -/

/-- Two sets whose `Union` races on `flipped` only: their elements have the same hash beginnings, and at two of them the first set has
one element and the second has two. -/
theorem C62_flip_refuted : ∃ s t : FSet Spread, s.Reachable ∧ t.Reachable ∧ ¬ TripleClash s.Mem t.Mem ∧ (s.unionC 1 t).RaceFree ∧
    ¬ s.UnionRaceFree 1 t ∧ FlipClash 1 s.Mem t.Mem := by
  obtain ⟨s, h1, h2⟩ := of_okAnd (r := newSet ([5, 2, 4].map Spread.mk)) (test := fun s =>
    okAnd (newSet ([13, 18, 10, 23, 12].map Spread.mk)) (fun t => !s.tree.root.isNil && !t.tree.root.isNil && okAnd (s.union t) (fun _ => true) &&
      flipper 1 s.tree.root ⟨GoKey.eq, useRHS⟩ t.tree.root 0 [0] && flipper 1 s.tree.root ⟨GoKey.eq, useRHS⟩ t.tree.root 0 [1]))
    (by decide +kernel)
  obtain ⟨t, h3, h4⟩ := of_okAnd h2
  simp only [Bool.and_eq_true, Bool.not_eq_true'] at h4
  obtain ⟨⟨⟨⟨n1, n2⟩, ho⟩, f1⟩, f2⟩ := h4
  have hs : s.Reachable := ⟨.newSet _, h1⟩
  have ht : t.Reachable := ⟨.newSet _, h3⟩
  have hc : ¬ TripleClash s.Mem t.Mem := by
    intro hc
    obtain ⟨u, hu, _⟩ := of_okAnd ho
    rw [(FSet.union_spec hs.valid ht.valid).1 hc] at hu
    cases hu
  have ms := (C01_set_histories (.newSet _) s h1).1
  have mt := (C01_set_histories (.newSet _) t h3).1
  have start : ∀ {a b c : Spread}, GoKey.eq a b = true → SameStart 1 c a → SameStart 1 c b := by
    intro a b c hab h
    exact (SameStart.congr (eq_refl c) hab).1 h
  have hm : (s.unionC 1 t).RaceFree := by
    rw [C62_union_mask_partial hs ht]
    have d1 : ∀ v ∈ [5, 2, 4].map Spread.mk, ∃ w ∈ [13, 18, 10, 23, 12].map Spread.mk, SameStart 1 w v := by decide +kernel
    have d2 : ∀ v ∈ [13, 18, 10, 23, 12].map Spread.mk, ∃ w ∈ [5, 2, 4].map Spread.mk, SameStart 1 w v := by decide +kernel
    rintro ⟨d, x, y, hd, _, _, (⟨hx, hn⟩ | ⟨hx, hn⟩), _⟩
    · obtain rfl : d = 0 := by omega
      obtain ⟨v, hv, hvx⟩ := (ms x).1 hx
      obtain ⟨w, hw, hwv⟩ := d1 v hv
      exact hn w ((mt w).2 ⟨w, hw, eq_refl w⟩) (start hvx hwv)
    · obtain rfl : d = 0 := by omega
      obtain ⟨v, hv, hvx⟩ := (mt x).1 hx
      obtain ⟨w, hw, hwv⟩ := d2 v hv
      exact hn w ((ms w).2 ⟨w, hw, eq_refl w⟩) (start hvx hwv)
  have hr : ¬ s.UnionRaceFree 1 t := by
    rintro ⟨_, hff⟩
    obtain ⟨st, hst, hrace⟩ := (flipRace_iff (fun p => flipper_leafAt 1 ⟨GoKey.eq, useRHS⟩ s.tree.root t.tree.root 0 p hs.valid.1 ht.valid.1)).2
      ⟨[0], [1], by decide, f1, f2⟩
    exact hff n1 n2 st hst hrace
  refine ⟨s, t, hs, ht, hc, hm, hr, ?_⟩
  by_contra hfc
  exact hr ((C62_union_partial hs ht 1 hc).2 ⟨(C62_union_mask_partial hs ht 1).1 hm, hfc⟩)

/-- Two sets of six elements, merged by goroutines without a race. -/
example : ∃ s t : FSet Spread, s.Reachable ∧ t.Reachable ∧ s.count = 6 ∧ t.count = 6 ∧ ¬ TripleClash s.Mem t.Mem ∧ s.UnionRaceFree 1 t := by
  obtain ⟨s, h1, h2⟩ := of_okAnd (r := newSet ([1, 2, 3, 4, 5, 6].map Spread.mk)) (test := fun s =>
    okAnd (newSet ([6, 5, 4, 3, 2, 1].map Spread.mk)) (fun t => decide (s.count = 6 ∧ t.count = 6) && okAnd (s.union t) (fun _ => true)))
    (by decide +kernel)
  obtain ⟨t, h3, h4⟩ := of_okAnd h2
  rw [Bool.and_eq_true] at h4
  obtain ⟨c1, c2⟩ := of_decide_eq_true h4.1
  have hs : s.Reachable := ⟨.newSet _, h1⟩
  have ht : t.Reachable := ⟨.newSet _, h3⟩
  have hc : ¬ TripleClash s.Mem t.Mem := by
    intro hc
    obtain ⟨u, hu, _⟩ := of_okAnd h4.2
    rw [(FSet.union_spec hs.valid ht.valid).1 hc] at hu
    cases hu
  refine ⟨s, t, hs, ht, c1, c2, hc, C62_union_same_partial hs ht 1 hc (fun x => ?_)⟩
  rw [(C01_set_histories (.newSet _) s h1).1 x, (C01_set_histories (.newSet _) t h3).1 x]
  show (∃ e ∈ _, _) ↔ ∃ e ∈ _, _
  simp only [List.map, List.mem_cons, List.not_mem_nil, or_false]
  constructor <;> (rintro ⟨e, he, hx⟩; exact ⟨e, by tauto, hx⟩)

/-- Two maps whose `Update` races in both directions, since the smaller map always comes first. -/
theorem C62_update_refuted : ∃ m n : FMap Spread Nat, m.Reachable ∧ n.Reachable ∧ m.count < n.count ∧ ¬ TripleClash m.HasKey n.HasKey ∧
    ¬ m.UpdateRaceFree 1 n ∧ ¬ n.UpdateRaceFree 1 m ∧ FlipClash 1 m.HasKey n.HasKey := by
  obtain ⟨m, h1, h2⟩ := of_okAnd (r := newMap ([5, 2, 4].map (fun i => (⟨⟨i⟩, i⟩ : KeyValue Spread Nat)))) (test := fun m =>
    okAnd (newMap ([13, 18, 10, 23, 12].map (fun i => (⟨⟨i⟩, i⟩ : KeyValue Spread Nat)))) (fun n => !m.tree.root.isNil && !n.tree.root.isNil &&
      okAnd (m.update n) (fun _ => decide (m.count < n.count)) &&
      flipper 1 m.tree.root ⟨mapEntryKeyEqual, useRHS⟩ n.tree.root 0 [0] && flipper 1 m.tree.root ⟨mapEntryKeyEqual, useRHS⟩ n.tree.root 0 [1]))
    (by decide +kernel)
  obtain ⟨n, h3, h4⟩ := of_okAnd h2
  simp only [Bool.and_eq_true, Bool.not_eq_true'] at h4
  obtain ⟨⟨⟨⟨n1, n2⟩, ho⟩, f1⟩, f2⟩ := h4
  obtain ⟨u, hu, hlt⟩ := of_okAnd ho
  have hlt := of_decide_eq_true hlt
  have hm : m.Reachable := ⟨.newMap _, h1⟩
  have hn : n.Reachable := ⟨.newMap _, h3⟩
  have hc : ¬ TripleClash m.HasKey n.HasKey := by
    rw [← (C13_panics m n hm hn (fun _ a _ => a)).2, hu]
    exact fun h => nomatch h
  have hr : ¬ m.UpdateRaceFree 1 n := by
    rintro ⟨_, hff⟩
    rw [if_neg (by omega)] at hff
    obtain ⟨st, hst, hrace⟩ := (flipRace_iff (fun p => flipper_leafAt 1 ⟨mapEntryKeyEqual, useRHS⟩ m.tree.root n.tree.root 0 p
      hm.valid.1 hn.valid.1)).2 ⟨[0], [1], by decide, f1, f2⟩
    exact hff n1 n2 st hst hrace
  have hfc : FlipClash 1 m.HasKey n.HasKey := by
    by_contra hfc
    have ff := (FMap.flipFree_iff 1 (f := useRHS) ClassPres.rhs hm.valid hn.valid hc).2 hfc
    obtain ⟨st, hst, hrace⟩ := (flipRace_iff (fun p => flipper_leafAt 1 ⟨mapEntryKeyEqual, useRHS⟩ m.tree.root n.tree.root 0 p
      hm.valid.1 hn.valid.1)).2 ⟨[0], [1], by decide, f1, f2⟩
    exact ff n1 n2 st hst hrace
  refine ⟨m, n, hm, hn, hlt, hc, hr, ?_, hfc⟩
  rw [C62_update_partial hn hm 1 (fun h => hc h.symm)]
  exact fun ⟨_, _, h⟩ => h hlt hfc

/-- A map of six entries, merged with itself by goroutines without a race. -/
example : ∃ m : FMap Spread Nat, m.Reachable ∧ m.count = 6 ∧ m.MergeRaceFree 1 m (fun _ a b => a + b) ∧ m.UpdateRaceFree 1 m := by
  obtain ⟨m, h1, h2⟩ := of_okAnd (r := newMap ([1, 2, 3, 4, 5, 6].map (fun i => (⟨⟨i⟩, i⟩ : KeyValue Spread Nat)))) (test := fun m =>
    okAnd (m.update m) (fun _ => decide (m.count = 6))) (by decide +kernel)
  obtain ⟨u, hu, hcnt⟩ := of_okAnd h2
  have hm : m.Reachable := ⟨.newMap _, h1⟩
  have hc : ¬ TripleClash m.HasKey m.HasKey := by
    rw [← (C13_panics m m hm hm (fun _ a _ => a)).2, hu]
    exact fun h => nomatch h
  have m1 : ¬ MaskClash 1 m.HasKey m.HasKey := by
    rintro ⟨d, x, y, _, _, _, (⟨h1, h2⟩ | ⟨h1, h2⟩), _⟩ <;> exact h2 x h1 rfl
  have m2 : ¬ FlipClash 1 m.HasKey m.HasKey := by
    rintro ⟨n, m, x, y, ⟨_, h2, h3, h4, _⟩, _⟩
    exact h2 (h4 h3)
  exact ⟨m, hm, of_decide_eq_true hcnt, (C62_merge_partial hm hm 1 _ hc).2 ⟨m1, m2⟩,
    (C62_update_partial hm hm 1 hc).2 ⟨m1, fun _ => m2, fun _ => m2⟩⟩

end Frozen
