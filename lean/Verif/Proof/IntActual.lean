import Verif.Proof.IntPhantom
import Verif.Spec.IntActual

/-! # Integer sets that may have empty cells -/

set_option linter.unusedSectionVars false

namespace Frozen

variable {w : Nat} [GoKey (BitVec w)] [PrimKey (BitVec w)] {sg : Bool} {F G : BitVec w → BitVec 64} {K J : BitVec w → Prop}
  {d : FMap (BitVec w) CellMask} {s t : IntSet w}

/-- The map `d` stores the cells `F` under the keys `K`. -/
structure Cells0 (sg : Bool) (d : FMap (BitVec w) CellMask) (F : BitVec w → BitVec 64) (K : BitVec w → Prop) : Prop where
  valid : d.Valid
  bits : ∀ c, ((d.tree.lk c).getD default).bits = F c
  key : ∀ c, (d.tree.lk c).isSome = true ↔ K c
  loc : ∀ c b, (F c).getLsbD b = true → CellLoc sg c b

/-- Invariant of integer sets that may have empty cells. -/
structure IntInv0 (sg : Bool) (s : IntSet w) (F : BitVec w → BitVec 64) (K : BitVec w → Prop) (x : Int) : Prop where
  cells : Cells0 sg s.data F K
  count : s.count = total F + x

/-- The two ways a lookup can end. -/
theorem Cells0.lk (h : Cells0 sg d F K) (c : BitVec w) :
    (d.tree.lk c = none ∧ ¬ K c ∧ F c = 0#64) ∨ (d.tree.lk c = some ⟨F c⟩ ∧ K c) := by
  have h1 := h.bits c
  have h2 := h.key c
  cases hl : d.tree.lk c with
  | none => rw [hl] at h1 h2; exact .inl ⟨rfl, fun g => by simpa using h2.2 g, h1.symm⟩
  | some v => rw [hl] at h1 h2; exact .inr ⟨by rw [← h1]; rfl, h2.1 rfl⟩

theorem Cells0.key_of_ne (h : Cells0 sg d F K) {c : BitVec w} (hc : F c ≠ 0#64) : K c := by
  rcases h.lk c with ⟨_, _, g⟩ | ⟨_, g⟩
  · exact absurd g hc
  · exact g

theorem Cells.cells0 (h : Cells sg d F) : Cells0 sg d F (fun c => F c ≠ 0#64) :=
  ⟨h.valid, h.getD, fun c => by rw [h.lk]; by_cases h0 : F c = 0#64 <;> simp [h0], h.loc⟩

theorem Cells0.congr (h : Cells0 sg d F K) (hK : ∀ c, K c ↔ J c) : Cells0 sg d F J :=
  ⟨h.valid, h.bits, fun c => (h.key c).trans (hK c), h.loc⟩

theorem ne_zero_iff_mem (hw : 8 ≤ w) (hw2 : w ≤ 64) (hl : ∀ c b, (F c).getLsbD b = true → CellLoc sg c b) (c : BitVec w) :
    F c ≠ 0#64 ↔ ∃ n, memF sg F n ∧ cellOf sg n = c := by
  rw [ne_zero_iff_bit]
  constructor
  · rintro ⟨b, hb⟩
    exact ⟨cellVal c b, memF_val hl hb, (hl c b hb).1⟩
  · rintro ⟨n, hn, rfl⟩
    exact ⟨_, hn⟩

theorem Cells0.mem_list (h : Cells0 sg d F K) {e : Entry (BitVec w) CellMask} : e ∈ d.tree.list ↔ K e.key ∧ F e.key = e.value.bits := by
  rw [mem_list_lk h.valid]
  rcases h.lk e.key with ⟨g1, g2, _⟩ | ⟨g1, g2⟩
  · rw [g1]; simp [g2]
  · rw [g1]
    simp only [Option.some.injEq, g2, true_and]
    cases e with
    | mk k v => cases v; simp

theorem Cells0.keys_nodup (h : Cells0 sg d F K) : (d.tree.list.map (·.key)).Nodup := distinct_keys.1 h.valid.distinct

theorem Cells0.FL_list (h : Cells0 sg d F K) : FL d.tree.list = F := by
  funext c
  rcases h.lk c with ⟨_, g2, g3⟩ | ⟨_, g2⟩
  · rw [g3]
    exact FL_not_mem (fun e he hc => g2 (hc ▸ (h.mem_list.1 he).1))
  · exact FL_mem h.keys_nodup (e := ⟨c, ⟨F c⟩⟩) (h.mem_list.2 ⟨g2, rfl⟩)

theorem Cells0.total_list (h : Cells0 sg d F K) : total F = (d.tree.list.map (fun e => (ones e.value.bits : Int))).sum := by
  rw [← total_FL h.keys_nodup, h.FL_list]

theorem Cells0.with (h : Cells0 sg d F K) (c : BitVec w) {m : BitVec 64} (hl : ∀ b, m.getLsbD b = true → CellLoc sg c b) :
    ∃ d', d.with c ⟨m⟩ = .ok d' ∧ Cells0 sg d' (updF F c m) (fun c' => c' = c ∨ K c') := by
  obtain ⟨d', h1, h2, h3⟩ := FMap.with_spec h.valid c ⟨m⟩
  refine ⟨d', h1, h2, fun c' => ?_, fun c' => ?_, loc_upd h.loc hl⟩
  · rw [h3, setKey_prim]
    unfold updF
    by_cases hc : c = c'
    · simp [hc]
    · rw [if_neg hc, if_neg hc]; exact h.bits c'
  · rw [h3, setKey_prim]
    by_cases hc : c = c'
    · simp [hc]
    · rw [if_neg hc, h.key]; simp [Ne.symm hc]

theorem Cells0.without (h : Cells0 sg d F K) (c : BitVec w) :
    ∃ d', d.without c = .ok d' ∧ Cells0 sg d' (updF F c 0#64) (fun c' => K c' ∧ c' ≠ c) := by
  obtain ⟨d', h1, h2, h3⟩ := FMap.without_spec h.valid c
  refine ⟨d', h1, h2, fun c' => ?_, fun c' => ?_, loc_upd h.loc (fun b hb => by simp at hb)⟩
  · rw [h3, setKey_prim]
    unfold updF
    by_cases hc : c = c'
    · rw [if_pos hc, if_pos hc]; rfl
    · rw [if_neg hc, if_neg hc]; exact h.bits c'
  · rw [h3, setKey_prim]
    by_cases hc : c = c'
    · simp [hc]
    · rw [if_neg hc, h.key]; simp [Ne.symm hc]

theorem Cells0.locate (h : Cells0 sg s.data F K) (i : BitVec w) :
    s.locate sg i = .ok (F (cellOf sg i), cellOf sg i, 1#64 <<< bitOf sg i) := by
  unfold IntSet.locate
  rw [FMap.get_spec h.valid]
  simp only [bind, Except.bind, pure, Except.pure, locateCell_eq]
  rw [h.bits]

theorem Cells0.has (h : Cells0 sg s.data F K) (i : BitVec w) : ∃ b, s.has sg i = .ok b ∧ (b = true ↔ memF sg F i) := by
  refine ⟨_, by unfold IntSet.has; rw [h.locate]; rfl, ?_⟩
  rw [bne_iff_ne, and_one_shl]; rfl

/-! ### With, Without -/

theorem IntInv0.with (hw : 8 ≤ w) (hw2 : w ≤ 64) {x : Int} (h : IntInv0 sg s F K x) (i : BitVec w) :
    ∃ s' F', s.with sg i = .ok s' ∧ IntInv0 sg s' F' (fun c => c = cellOf sg i ∨ K c) (x + if Storable sg i then 0 else 1) ∧
      ∀ j, memF sg F' j ↔ (j = i ∧ Storable sg i) ∨ memF sg F j := by
  unfold IntSet.with
  rw [h.cells.locate]
  simp only [bind, Except.bind]
  by_cases hi : Storable sg i
  · have hlt := (bitOf_lt_iff hw hw2 sg i).2 hi
    simp only [hi, and_true, if_true, Int.add_zero]
    by_cases hm : F (cellOf sg i) &&& 1#64 <<< bitOf sg i = 0#64
    · rw [if_pos hm]
      have hb : ∀ b, (F (cellOf sg i) ||| 1#64 <<< bitOf sg i).getLsbD b = true ↔ b = bitOf sg i ∨ (F (cellOf sg i)).getLsbD b = true := by
        intro b
        rw [BitVec.getLsbD_or, one_shl_getLsbD]
        simp only [Bool.or_eq_true, Bool.and_eq_true, decide_eq_true_eq, hlt, and_true]
        exact or_comm
      obtain ⟨d', h1, h2⟩ := h.cells.with (cellOf sg i) (m := F (cellOf sg i) ||| 1#64 <<< bitOf sg i) (by
          intro b h3
          rcases (hb b).1 h3 with rfl | h3
          · exact loc_storable hw hw2 hi
          · exact h.cells.loc _ _ h3)
      refine ⟨⟨d', s.count + 1⟩, _, by rw [h1]; rfl, ⟨h2, ?_⟩, memF_setBit hw hw2 hi hb⟩
      have hdis : (F (cellOf sg i)).getLsbD (bitOf sg i) ≠ true := by
        rw [Ne, ← and_one_shl]; exact fun g => g hm
      show s.count + 1 = _
      rw [total_upd, h.count, ones_or_disjoint (x := F (cellOf sg i)) (y := 1#64 <<< bitOf sg i)
        (z := F (cellOf sg i) ||| 1#64 <<< bitOf sg i), ones_one_shl hlt]
      · push_cast; ring
      · intro b; rw [BitVec.getLsbD_or]
      · rintro b ⟨g1, g2⟩
        rw [one_shl_getLsbD] at g2
        simp only [Bool.and_eq_true, decide_eq_true_eq] at g2
        exact hdis (g2.1 ▸ g1)
    · rw [if_neg hm]
      have hmem : memF sg F i := and_one_shl.1 hm
      have hne : F (cellOf sg i) ≠ 0#64 := ne_zero_iff_bit.2 ⟨_, hmem⟩
      refine ⟨s, F, rfl, ⟨h.cells.congr (fun c => ⟨.inr, ?_⟩), h.count⟩, fun j => ⟨.inr, ?_⟩⟩
      · rintro (rfl | g)
        · exact h.cells.key_of_ne hne
        · exact g
      · rintro (rfl | g)
        · exact hmem
        · exact g
  · have hlt : ¬ bitOf sg i < 64 := fun g => hi ((bitOf_lt_iff hw hw2 sg i).1 g)
    have hz : 1#64 <<< bitOf sg i = 0#64 := by
      by_contra hc
      obtain ⟨b, hb⟩ := ne_zero_iff_bit.1 hc
      rw [one_shl_getLsbD] at hb
      simp [hlt] at hb
    simp only [hi, and_false, false_or, if_false, hz, BitVec.and_zero, if_true, BitVec.or_zero]
    obtain ⟨d', h1, h2⟩ := h.cells.with (cellOf sg i) (m := F (cellOf sg i)) (h.cells.loc _)
    have hF : updF F (cellOf sg i) (F (cellOf sg i)) = F := by
      funext c; unfold updF; by_cases hc : cellOf sg i = c
      · rw [if_pos hc, hc]
      · rw [if_neg hc]
    rw [hF] at h2
    refine ⟨⟨d', s.count + 1⟩, F, by rw [h1]; rfl, ⟨h2, ?_⟩, fun j => Iff.rfl⟩
    show s.count + 1 = _
    rw [h.count]; ring

theorem IntInv0.without (hw : 8 ≤ w) (hw2 : w ≤ 64) {x : Int} (h : IntInv0 sg s F K x) (i : BitVec w) :
    ∃ s' F', s.without sg i = .ok s' ∧
      IntInv0 sg s' F' (fun c => K c ∧ (memF sg F i → c = cellOf sg i → ∃ n, (memF sg F n ∧ n ≠ i) ∧ cellOf sg n = c)) x ∧
      ∀ j, memF sg F' j ↔ memF sg F j ∧ j ≠ i := by
  unfold IntSet.without
  rw [h.cells.locate]
  simp only [bind, Except.bind]
  by_cases hm : F (cellOf sg i) &&& 1#64 <<< bitOf sg i ≠ 0#64
  · rw [if_pos hm]
    have hmem : (F (cellOf sg i)).getLsbD (bitOf sg i) = true := and_one_shl.1 hm
    have hi : Storable sg i := storable_of_memF hw hw2 hmem
    have hlt := (bitOf_lt_iff hw hw2 sg i).2 hi
    have hb : ∀ b, (F (cellOf sg i) &&& ~~~(1#64 <<< bitOf sg i)).getLsbD b = true ↔
        (F (cellOf sg i)).getLsbD b = true ∧ b ≠ bitOf sg i := by
      intro b
      rw [BitVec.getLsbD_and, BitVec.getLsbD_not, one_shl_getLsbD]
      by_cases hb64 : b < 64
      · simp [hb64, hlt]
      · rw [BitVec.getLsbD_of_ge _ _ (by omega)]; simp
    have hcnt : total (updF F (cellOf sg i) (F (cellOf sg i) &&& ~~~(1#64 <<< bitOf sg i))) + x = s.count - 1 := by
      have : ones (F (cellOf sg i)) = ones (F (cellOf sg i) &&& ~~~(1#64 <<< bitOf sg i)) + ones (1#64 <<< bitOf sg i) := by
        apply ones_or_disjoint
        · intro b
          rw [Bool.eq_iff_iff, Bool.or_eq_true, hb, one_shl_getLsbD]
          simp only [Bool.and_eq_true, decide_eq_true_eq, hlt, and_true]
          constructor
          · intro g
            by_cases hbi : b = bitOf sg i
            · exact .inr hbi
            · exact .inl ⟨g, hbi⟩
          · rintro (g | rfl)
            · exact g.1
            · exact hmem
        · rintro b ⟨g1, g2⟩
          rw [one_shl_getLsbD] at g2
          simp only [Bool.and_eq_true, decide_eq_true_eq] at g2
          exact ((hb b).1 g1).2 g2.1
      rw [ones_one_shl hlt] at this
      rw [total_upd, h.count]
      omega
    have hcl := memF_clearBit hw hw2 hi hb
    have hloc := loc_upd h.cells.loc (c := cellOf sg i) (m := F (cellOf sg i) &&& ~~~(1#64 <<< bitOf sg i))
      (fun b g => h.cells.loc _ _ ((hb b).1 g).1)
    have hupd : updF F (cellOf sg i) (F (cellOf sg i) &&& ~~~(1#64 <<< bitOf sg i)) (cellOf sg i) =
        F (cellOf sg i) &&& ~~~(1#64 <<< bitOf sg i) := by unfold updF; rw [if_pos rfl]
    have hne : F (cellOf sg i) &&& ~~~(1#64 <<< bitOf sg i) ≠ 0#64 ↔
        ∃ n, (memF sg F n ∧ n ≠ i) ∧ cellOf sg n = cellOf sg i := by
      rw [← hupd, ne_zero_iff_mem hw hw2 hloc]
      simp only [hcl]
    have hK : K (cellOf sg i) := h.cells.key_of_ne (ne_zero_iff_bit.2 ⟨_, hmem⟩)
    by_cases h0 : F (cellOf sg i) &&& ~~~(1#64 <<< bitOf sg i) ≠ 0#64
    · rw [if_pos h0]
      obtain ⟨d', h1, h2⟩ := h.cells.with (cellOf sg i) (fun b g => h.cells.loc _ _ ((hb b).1 g).1)
      refine ⟨⟨d', s.count - 1⟩, _, by rw [h1]; rfl, ⟨h2.congr (fun c => ?_), hcnt.symm⟩, hcl⟩
      constructor
      · rintro (rfl | g)
        · exact ⟨hK, fun _ _ => hne.1 h0⟩
        · refine ⟨g, ?_⟩
          rintro _ rfl
          exact hne.1 h0
      · exact fun g => .inr g.1
    · rw [if_neg h0]
      obtain ⟨d', h1, h2⟩ := h.cells.without (cellOf sg i)
      have h0' := h0
      rw [not_not] at h0'
      rw [h0'] at hcnt hcl
      refine ⟨⟨d', s.count - 1⟩, _, by rw [h1]; rfl, ⟨h2.congr (fun c => ?_), hcnt.symm⟩, hcl⟩
      constructor
      · exact fun g => ⟨g.1, fun _ e => absurd e g.2⟩
      · refine fun g => ⟨g.1, ?_⟩
        rintro rfl
        exact h0 (hne.2 (g.2 hmem rfl))
  · rw [if_neg hm]
    have hn : ¬ memF sg F i := fun g => hm (and_one_shl.2 g)
    exact ⟨s, F, rfl, ⟨h.cells.congr (fun c => ⟨fun g => ⟨g, fun e => absurd e hn⟩, fun g => g.1⟩), h.count⟩,
      fun j => ⟨fun g => ⟨g, fun e => hn (e ▸ g)⟩, fun g => g.1⟩⟩

/-! ### NewIntSet -/

/-- Building a map from cells that may be empty. -/
theorem Cells0.build {l : List (Entry (BitVec w) CellMask)} (hn : (l.map (·.key)).Nodup)
    (hl : ∀ e ∈ l, ∀ b, e.value.bits.getLsbD b = true → CellLoc sg e.key b) :
    ∃ d, buildMap (l.map (fun e => (⟨e.key, e.value⟩ : KeyValue (BitVec w) CellMask))) = .ok d ∧
      Cells0 sg d (FL l) (fun c => ∃ e ∈ l, e.key = c) := by
  obtain ⟨d, h1, h2, h3⟩ := buildMap_distinct (distinct_keys.2 hn)
  refine ⟨d, h1, h2, fun c => ?_, fun c => ?_, fun c b hb => ?_⟩
  · rw [h3]
    unfold FL
    cases l.find? (fun e => GoKey.eq e.key c) <;> rfl
  · rw [h3, Option.isSome_map, List.find?_isSome]
    constructor
    · rintro ⟨e, he, g⟩; exact ⟨e, he, (PrimKey.eq_iff _ _).1 g⟩
    · rintro ⟨e, he, g⟩; exact ⟨e, he, (PrimKey.eq_iff _ _).2 g⟩
  · unfold FL at hb
    cases hf : l.find? (fun e => GoKey.eq e.key c) with
    | none => rw [hf] at hb; simp at hb
    | some e =>
      rw [hf] at hb
      have he : GoKey.eq e.key c = true := by simpa using List.find?_some hf
      rw [← (PrimKey.eq_iff _ _).1 he]
      exact hl e (List.mem_of_find?_eq_some hf) b hb

/-- Invariant of the loop of `NewIntSet` for all integers. -/
structure GoCells0 (sg : Bool) (m : List (BitVec w × CellMask)) (P : BitVec w → Prop) : Prop where
  nodup : (m.map (·.1)).Nodup
  keys : ∀ c, (∃ e ∈ m, e.1 = c) ↔ ∃ i, P i ∧ cellOf sg i = c
  bits : ∀ c b, (goLk m c).getLsbD b = true ↔ ∃ i, (P i ∧ Storable sg i) ∧ cellOf sg i = c ∧ bitOf sg i = b

theorem goMapSet_key_mem (m : List (BitVec w × CellMask)) (k : BitVec w) (v : CellMask) (c : BitVec w) :
    (∃ e ∈ goMapSet m k v, e.1 = c) ↔ c = k ∨ ∃ e ∈ m, e.1 = c := by
  unfold goMapSet
  by_cases hk : m.any (fun e => e.1 == k) = true
  · rw [if_pos hk]
    rw [List.any_eq_true] at hk
    obtain ⟨x, hx, hxk⟩ := hk
    rw [beq_iff_eq] at hxk
    constructor
    · rintro ⟨e, he, rfl⟩
      obtain ⟨y, hy, rfl⟩ := List.mem_map.1 he
      right
      refine ⟨y, hy, ?_⟩
      split <;> rfl
    · rintro (rfl | ⟨e, he, rfl⟩)
      · exact ⟨_, List.mem_map_of_mem hx, by rw [if_pos hxk]; exact hxk⟩
      · refine ⟨_, List.mem_map_of_mem he, ?_⟩
        split <;> rfl
  · rw [if_neg hk]
    constructor
    · rintro ⟨e, he, rfl⟩
      rcases List.mem_append.1 he with he | he
      · exact .inr ⟨e, he, rfl⟩
      · left; rw [List.mem_singleton] at he; rw [he]
    · rintro (rfl | ⟨e, he, rfl⟩)
      · exact ⟨(c, v), by simp, rfl⟩
      · exact ⟨e, by simp [he], rfl⟩

theorem intSetCell_spec0 (hw : 8 ≤ w) (hw2 : w ≤ 64) : ∀ (is : List (BitVec w)) (m : List (BitVec w × CellMask)) (P : BitVec w → Prop),
    GoCells0 sg m P → GoCells0 sg (is.foldl (intSetCell sg) m) (fun i => P i ∨ i ∈ is)
  | [], m, P, h => by simpa using h
  | i :: is, m, P, h => by
    have hb : ∀ b, (goLk m (cellOf sg i) ||| 1#64 <<< bitOf sg i).getLsbD b = true ↔
        (goLk m (cellOf sg i)).getLsbD b = true ∨ (b = bitOf sg i ∧ Storable sg i) := by
      intro b
      rw [BitVec.getLsbD_or, one_shl_getLsbD, ← bitOf_lt_iff hw hw2 sg i]
      simp
    have hstep : GoCells0 sg (intSetCell sg m i) (fun j => P j ∨ j = i) := by
      have hdef : intSetCell sg m i = goMapSet m (cellOf sg i) ⟨goLk m (cellOf sg i) ||| 1#64 <<< bitOf sg i⟩ := by
        unfold intSetCell; rw [locateCell_eq]; rfl
      rw [hdef]
      refine ⟨goMapSet_keys _ _ _ h.nodup, ?_, ?_⟩
      · intro c
        rw [goMapSet_key_mem, h.keys]
        constructor
        · rintro (rfl | ⟨j, g1, g2⟩)
          · exact ⟨i, .inr rfl, rfl⟩
          · exact ⟨j, .inl g1, g2⟩
        · rintro ⟨j, g1 | rfl, g2⟩
          · exact .inr ⟨j, g1, g2⟩
          · exact .inl g2.symm
      · intro c b
        rw [goMapSet_lk]
        by_cases hc : cellOf sg i = c
        · rw [if_pos hc, hb, hc, h.bits]
          constructor
          · rintro (⟨j, g1, g2, g3⟩ | ⟨rfl, hs⟩)
            · exact ⟨j, ⟨.inl g1.1, g1.2⟩, g2, g3⟩
            · exact ⟨i, ⟨.inr rfl, hs⟩, hc, rfl⟩
          · rintro ⟨j, ⟨g1 | rfl, gs⟩, g2, g3⟩
            · exact .inl ⟨j, ⟨g1, gs⟩, g2, g3⟩
            · exact .inr ⟨g3.symm, gs⟩
        · rw [if_neg hc, h.bits]
          constructor
          · rintro ⟨j, g1, g2, g3⟩
            exact ⟨j, ⟨.inl g1.1, g1.2⟩, g2, g3⟩
          · rintro ⟨j, ⟨g1 | rfl, gs⟩, g2, g3⟩
            · exact ⟨j, ⟨g1, gs⟩, g2, g3⟩
            · exact absurd g2 hc
    have := intSetCell_spec0 hw hw2 is _ _ hstep
    rw [List.foldl_cons]
    have he : (fun j => P j ∨ j ∈ i :: is) = (fun j => (P j ∨ j = i) ∨ j ∈ is) := by
      funext j
      simp only [List.mem_cons, eq_iff_iff]
      exact or_assoc.symm
    rw [he]
    exact this

theorem newIntSet_spec0 (hw : 8 ≤ w) (hw2 : w ≤ 64) (order : List (BitVec w × CellMask) → List (BitVec w × CellMask))
    (ho : ∀ l, (order l).Perm l) (is : List (BitVec w)) :
    ∃ s F, newIntSet sg order is = .ok s ∧ IntInv0 sg s F (fun c => ∃ i, i ∈ is ∧ cellOf sg i = c) 0 ∧
      ∀ j, memF sg F j ↔ j ∈ is ∧ Storable sg j := by
  have h := intSetCell_spec0 hw hw2 (sg := sg) is [] (fun _ => False)
    ⟨List.nodup_nil, by simp, fun c b => by
      have : goLk ([] : List (BitVec w × CellMask)) c = 0#64 := rfl
      simp [this]⟩
  generalize hm : is.foldl (intSetCell sg) [] = m at h
  let toE : BitVec w × CellMask → Entry (BitVec w) CellMask := fun e => ⟨e.1, e.2⟩
  have hn0 : ((m.map toE).map (·.key)).Nodup := by rw [List.map_map]; exact h.nodup
  have hp : ((order m).map toE).Perm (m.map toE) := (ho m).map toE
  have hn : (((order m).map toE).map (·.key)).Nodup := ((hp.map (·.key)).nodup_iff).2 hn0
  have hFL : FL ((order m).map toE) = goLk m := by
    rw [FL_perm hn hp]
    funext c
    unfold FL goLk
    rw [List.find?_map]
    have : (fun e : Entry (BitVec w) CellMask => GoKey.eq e.key c) ∘ toE = (fun e : BitVec w × CellMask => e.1 == c) := by
      funext e
      rw [Function.comp, Bool.eq_iff_iff, beq_iff_eq]
      exact PrimKey.eq_iff e.1 c
    rw [this]
    cases m.find? (fun e => e.1 == c) <;> rfl
  have hmem : ∀ e ∈ (order m).map toE, goLk m e.key = e.value.bits := by
    intro e he
    rw [← hFL]
    exact FL_mem hn he
  obtain ⟨d, h1, h2⟩ := Cells0.build (sg := sg) hn
    (by
      intro e he b hb
      rw [← hmem e he, h.bits] at hb
      obtain ⟨i, g1, g2, g3⟩ := hb
      rw [← g2, ← g3]
      exact loc_storable hw hw2 g1.2)
  rw [hFL] at h2
  refine ⟨⟨d, ((order m).map (fun e => (ones e.2.bits : Int))).sum⟩, goLk m, ?_, ⟨h2.congr (fun c => ?_), ?_⟩, ?_⟩
  · unfold newIntSet
    rw [hm]
    rw [List.map_map] at h1
    have h1' : buildMap ((order m).map (fun e => (⟨e.1, e.2⟩ : KeyValue (BitVec w) CellMask))) = .ok d := h1
    simp only [h1', bind, Except.bind, pure, Except.pure]
  · have hk := h.keys c
    simp only [false_or] at hk
    rw [← hk]
    constructor
    · rintro ⟨e, he, rfl⟩
      obtain ⟨x, hx, rfl⟩ := List.mem_map.1 he
      exact ⟨x, (ho m).mem_iff.1 hx, rfl⟩
    · rintro ⟨x, hx, rfl⟩
      exact ⟨toE x, List.mem_map_of_mem ((ho m).mem_iff.2 hx), rfl⟩
  · show _ = total (goLk m) + 0
    rw [← hFL, total_FL hn, List.map_map, Int.add_zero]; rfl
  · intro j
    unfold memF
    rw [h.bits]
    simp only [false_or]
    constructor
    · rintro ⟨i, g1, g2, g3⟩
      have hj : Storable sg j := by
        rw [← bitOf_lt_iff hw hw2, ← g3, bitOf_lt_iff hw hw2]; exact g1.2
      have : i = j := by
        rw [← cellVal_locate hw hw2 g1.2, ← cellVal_locate hw hw2 hj, g2, g3]
      rw [← this]; exact g1
    · intro hj
      exact ⟨j, hj, rfl, rfl⟩

/-! ### Where, Intersection -/

theorem Cells0.FL_filterMap (h : Cells0 sg s.data F K) (g : BitVec w → BitVec 64 → BitVec 64) (hg : ∀ c, g c 0#64 = 0#64) (c : BitVec w) :
    FL ((s.data.tree.list.map (fun e => (⟨e.key, ⟨g e.key e.value.bits⟩⟩ : Entry (BitVec w) CellMask))).filter
      (fun e => decide (e.value.bits ≠ 0#64))) c = g c (F c) := by
  have hn : ((((s.data.tree.list.map (fun e => (⟨e.key, ⟨g e.key e.value.bits⟩⟩ : Entry (BitVec w) CellMask))).filter
      (fun e => decide (e.value.bits ≠ 0#64)))).map (·.key)).Nodup := by
    have h1 : ((s.data.tree.list.map (fun e => (⟨e.key, ⟨g e.key e.value.bits⟩⟩ : Entry (BitVec w) CellMask))).map (·.key)).Nodup := by
      rw [List.map_map]; exact h.keys_nodup
    exact List.Nodup.sublist (List.filter_sublist.map _) h1
  by_cases h0 : g c (F c) = 0#64
  · rw [h0]
    apply FL_not_mem
    intro e he hc
    rw [List.mem_filter] at he
    obtain ⟨x, hx, rfl⟩ := List.mem_map.1 he.1
    have := h.mem_list.1 hx
    simp only at hc
    apply of_decide_eq_true he.2
    show g x.key x.value.bits = 0#64
    rw [← this.2, hc, h0]
  · have hF : F c ≠ 0#64 := fun hz => h0 (by rw [hz, hg])
    have hmem : (⟨c, ⟨g c (F c)⟩⟩ : Entry (BitVec w) CellMask) ∈
        ((s.data.tree.list.map (fun e => (⟨e.key, ⟨g e.key e.value.bits⟩⟩ : Entry (BitVec w) CellMask))).filter
          (fun e => decide (e.value.bits ≠ 0#64))) := by
      rw [List.mem_filter]
      refine ⟨List.mem_map.2 ⟨⟨c, ⟨F c⟩⟩, h.mem_list.2 ⟨h.key_of_ne hF, rfl⟩, rfl⟩, decide_eq_true h0⟩
    exact FL_mem hn hmem

theorem IntInv.ofFilterMap0 (h : Cells0 sg s.data F K) (g : BitVec w → BitVec 64 → BitVec 64) (hg : ∀ c, g c 0#64 = 0#64)
    (hb : ∀ c x b, (g c x).getLsbD b = true → x.getLsbD b = true) :
    ∃ d, buildMap (((s.data.tree.list.map (fun e => (⟨e.key, ⟨g e.key e.value.bits⟩⟩ : KeyValue (BitVec w) CellMask))).filter
      (fun e => decide (e.value.bits ≠ 0#64)))) = .ok d ∧
      IntInv sg ⟨d, (((s.data.tree.list.map (fun e => (⟨e.key, ⟨g e.key e.value.bits⟩⟩ : KeyValue (BitVec w) CellMask))).filter
      (fun e => decide (e.value.bits ≠ 0#64))).map (fun e => (ones e.value.bits : Int))).sum⟩ (fun c => g c (F c)) := by
  let l := ((s.data.tree.list.map (fun e => (⟨e.key, ⟨g e.key e.value.bits⟩⟩ : Entry (BitVec w) CellMask))).filter
          (fun e => decide (e.value.bits ≠ 0#64)))
  have hl : ((s.data.tree.list.map (fun e => (⟨e.key, ⟨g e.key e.value.bits⟩⟩ : KeyValue (BitVec w) CellMask))).filter
      (fun e => decide (e.value.bits ≠ 0#64))) = l.map (fun e => (⟨e.key, e.value⟩ : KeyValue (BitVec w) CellMask)) := by
    simp only [l, List.filter_map, List.map_map]
    rfl
  have hFL : FL l = fun c => g c (F c) := funext (h.FL_filterMap g hg)
  have hn : (l.map (·.key)).Nodup := by
    have h1 : ((s.data.tree.list.map (fun e => (⟨e.key, ⟨g e.key e.value.bits⟩⟩ : Entry (BitVec w) CellMask))).map (·.key)).Nodup := by
      rw [List.map_map]; exact h.keys_nodup
    exact List.Nodup.sublist (List.filter_sublist.map _) h1
  obtain ⟨d, h1, h2⟩ := IntInv.ofList (sg := sg) hn
    (fun e he => of_decide_eq_true (List.mem_filter.1 he).2)
    (by
      intro e he b hbb
      obtain ⟨x, hx, rfl⟩ := List.mem_map.1 (List.mem_filter.1 he).1
      apply h.loc
      rw [(h.mem_list.1 hx).2]
      exact hb _ _ _ hbb)
  refine ⟨d, by rw [hl]; exact h1, ?_⟩
  rw [hl, List.map_map, ← hFL]
  exact h2

theorem IntInv.inv0 (hw : 8 ≤ w) (hw2 : w ≤ 64) (h : IntInv sg s F) : IntInv0 sg s F (fun c => ∃ n, memF sg F n ∧ cellOf sg n = c) 0 :=
  ⟨h.cells.cells0.congr (fun c => ne_zero_iff_mem hw hw2 h.cells.loc c), by rw [h.count, Int.add_zero]⟩

theorem IntInv0.where (hw : 8 ≤ w) (hw2 : w ≤ 64) {x : Int} (h : IntInv0 sg s F K x) (pred : BitVec w → Bool) :
    ∃ s' F', s.where pred = .ok s' ∧ IntInv0 sg s' F' (fun c => ∃ n, memF sg F' n ∧ cellOf sg n = c) 0 ∧
      ∀ j, memF sg F' j ↔ memF sg F j ∧ pred j = true := by
  obtain ⟨d, h1, h2⟩ := IntInv.ofFilterMap0 h.cells (whereCell pred)
    (by intro c; by_contra hc; obtain ⟨b, hb⟩ := ne_zero_iff_bit.1 hc; rw [whereCell_spec hw] at hb; simp at hb)
    (fun c x b hb => ((whereCell_spec hw pred c x b).1 hb).1)
  refine ⟨_, _, ?_, h2.inv0 hw hw2, fun j => ?_⟩
  · unfold IntSet.where
    rw [FMap.rangeList_spec h.cells.valid]
    simp only [bind, Except.bind, pure, Except.pure]
    rw [h1]
  · unfold memF
    rw [whereCell_spec hw]
    constructor
    · rintro ⟨g1, g2⟩
      have hs := storable_of_memF hw hw2 g1
      rw [cellVal_locate hw hw2 hs] at g2
      exact ⟨g1, g2⟩
    · rintro ⟨g1, g2⟩
      have hs := storable_of_memF hw hw2 g1
      rw [cellVal_locate hw hw2 hs]
      exact ⟨g1, g2⟩

theorem interFold0 (hs : Cells0 sg s.data F K) : ∀ (es : List (Entry (BitVec w) CellMask)) (b : MapBuilder (BitVec w) CellMask) (n : Int),
    es.foldlM (interStep s) (b, n) = (do
      let l := (es.map (fun e => (⟨e.key, ⟨F e.key &&& e.value.bits⟩⟩ : KeyValue (BitVec w) CellMask))).filter
        (fun e => decide (e.value.bits ≠ 0#64))
      let b' ← l.foldlM (fun b kv => MapBuilder.put b kv.key kv.value) b
      pure (b', n + (l.map (fun e => (ones e.value.bits : Int))).sum))
  | [], b, n => by simp [pure, Except.pure, bind, Except.bind]
  | e :: es, b, n => by
    rw [List.foldlM_cons]
    have hstep : interStep s (b, n) e = if F e.key &&& e.value.bits ≠ 0#64 then (do
        let b' ← MapBuilder.put b e.key ⟨F e.key &&& e.value.bits⟩
        pure (b', n + ones (F e.key &&& e.value.bits))) else pure (b, n) := by
      unfold interStep
      rw [FMap.get_spec hs.valid]
      rcases hs.lk e.key with ⟨g1, _, g3⟩ | ⟨g1, _⟩
      · simp [g1, g3, bind, Except.bind]
      · simp only [g1, bind, Except.bind]
    rw [hstep]
    by_cases h0 : F e.key &&& e.value.bits ≠ 0#64
    · rw [if_pos h0]
      simp only [List.map_cons]
      rw [List.filter_cons_of_pos (by exact decide_eq_true h0), List.foldlM_cons]
      cases hp : MapBuilder.put b e.key (⟨F e.key &&& e.value.bits⟩ : CellMask) with
      | error err => simp [bind, Except.bind]
      | ok b1 =>
        simp only [bind, Except.bind, pure, Except.pure]
        rw [interFold0 hs es b1]
        simp only [bind, Except.bind, pure, Except.pure, List.map_cons, List.sum_cons, Int.add_assoc]
    · rw [if_neg h0]
      simp only [List.map_cons]
      rw [List.filter_cons_of_neg (by simpa using h0)]
      exact interFold0 hs es b n

theorem IntInv0.intersection (hw : 8 ≤ w) (hw2 : w ≤ 64) {x y : Int} (h : IntInv0 sg s F K x) (ht : IntInv0 sg t G J y) :
    ∃ s' F', s.intersection t = .ok s' ∧ IntInv0 sg s' F' (fun c => ∃ n, memF sg F' n ∧ cellOf sg n = c) 0 ∧
      ∀ j, memF sg F' j ↔ memF sg F j ∧ memF sg G j := by
  obtain ⟨d, h1, h2⟩ := IntInv.ofFilterMap0 ht.cells (fun c x => F c &&& x) (by intro c; simp)
    (fun c x b hb => by rw [BitVec.getLsbD_and, Bool.and_eq_true] at hb; exact hb.2)
  refine ⟨_, _, ?_, h2.inv0 hw hw2, fun j => ?_⟩
  · unfold IntSet.intersection
    rw [FMap.rangeList_spec ht.cells.valid]
    simp only [bind, Except.bind, pure, Except.pure]
    rw [interFold0 h.cells]
    unfold buildMap at h1
    simp only [bind, Except.bind, pure, Except.pure] at h1 ⊢
    cases hf : List.foldlM (fun b kv => MapBuilder.put b kv.key kv.value) (Tree.zero : MapBuilder (BitVec w) CellMask)
      ((t.data.tree.list.map (fun e => (⟨e.key, ⟨F e.key &&& e.value.bits⟩⟩ : KeyValue (BitVec w) CellMask))).filter
        (fun e => decide (e.value.bits ≠ 0#64))) with
    | error e => rw [hf] at h1; cases h1
    | ok b => rw [hf] at h1; simp only at h1; injection h1 with h1; subst h1; simp
  · unfold memF
    rw [BitVec.getLsbD_and, Bool.and_eq_true]

/-! ### Union -/

theorem unionFold0 (hs : Cells0 sg s.data F K) : ∀ (es : List (Entry (BitVec w) CellMask)) (st : IntSet w) (H : BitVec w → BitVec 64)
    (L : BitVec w → Prop) (x : Int),
    (es.map (·.key)).Nodup → (∀ e ∈ es, ∀ b, e.value.bits.getLsbD b = true → CellLoc sg e.key b) →
    IntInv0 sg st H L x → (∀ e ∈ es, H e.key = F e.key) →
    ∃ s' , es.foldlM (unionStep s) st = .ok s' ∧ IntInv0 sg s' (fun c => H c ||| FL es c) (fun c => L c ∨ ∃ e ∈ es, e.key = c) x
  | [], st, H, L, x, _, _, h, _ => ⟨st, rfl, by
      have : (fun c => H c ||| FL [] c) = H := by funext c; simp [FL]
      rw [this]; exact ⟨h.cells.congr (fun c => by simp), h.count⟩⟩
  | e :: es, st, H, L, x, hn, hl, h, hH => by
    rw [List.map_cons, List.nodup_cons] at hn
    have hkey : ∀ x ∈ es, x.key ≠ e.key := fun x hx he => hn.1 (he ▸ List.mem_map_of_mem hx)
    have hHe := hH e (by simp)
    have hstep : ∃ s1, unionStep s st e = .ok s1 ∧
        IntInv0 sg s1 (updF H e.key (F e.key ||| e.value.bits)) (fun c => c = e.key ∨ L c) x := by
      obtain ⟨d', g1, g2⟩ := h.cells.with e.key (m := F e.key ||| e.value.bits) (by
        intro b hb
        rw [BitVec.getLsbD_or, Bool.or_eq_true] at hb
        rcases hb with hb | hb
        · exact hs.loc _ _ hb
        · exact hl e (by simp) b hb)
      unfold unionStep
      rw [FMap.get_spec hs.valid]
      rcases hs.lk e.key with ⟨k1, _, hF⟩ | ⟨k1, _⟩
      · have hz : F e.key ||| e.value.bits = e.value.bits := by rw [hF]; simp
        rw [hz] at g1 g2 ⊢
        refine ⟨⟨d', st.count + ones e.value.bits⟩, ?_, g2, ?_⟩
        · simp only [k1, bind, Except.bind, pure, Except.pure]
          have hv : (⟨e.value.bits⟩ : CellMask) = e.value := rfl
          rw [hv] at g1
          rw [g1]
        · show st.count + _ = _
          rw [total_upd, h.count, hHe, hF, ones_zero]; push_cast; ring
      · refine ⟨⟨d', st.count + ones ((F e.key ||| e.value.bits) ^^^ F e.key)⟩, ?_, g2, ?_⟩
        · simp only [k1, bind, Except.bind, pure, Except.pure]
          rw [g1]
        · show st.count + _ = _
          rw [total_upd, h.count, hHe, ones_xor_sub]; ring
    obtain ⟨s1, g1, g2⟩ := hstep
    obtain ⟨s', k1, k2⟩ := unionFold0 hs es s1 _ _ x hn.2 (fun x hx => hl x (by simp [hx])) g2 (by
      intro x hx
      unfold updF
      rw [if_neg (fun g => hkey x hx g.symm)]
      exact hH x (by simp [hx]))
    refine ⟨s', by rw [List.foldlM_cons, g1]; exact k1, ?_⟩
    have : (fun c => H c ||| FL (e :: es) c) = (fun c => updF H e.key (F e.key ||| e.value.bits) c ||| FL es c) := by
      funext c
      rw [FL_cons]
      unfold updF
      by_cases hc : e.key = c
      · subst hc
        rw [if_pos rfl, if_pos rfl, FL_not_mem hkey, hHe]; simp
      · rw [if_neg hc, if_neg hc]
    rw [this]
    refine ⟨k2.cells.congr (fun c => ?_), k2.count⟩
    constructor
    · rintro ((rfl | g) | ⟨y, hy, rfl⟩)
      · exact .inr ⟨e, by simp, rfl⟩
      · exact .inl g
      · exact .inr ⟨y, by simp [hy], rfl⟩
    · rintro (g | ⟨y, hy, rfl⟩)
      · exact .inl (.inr g)
      · rcases List.mem_cons.1 hy with rfl | hy
        · exact .inl (.inl rfl)
        · exact .inr ⟨y, hy, rfl⟩

theorem Cells0.mem_keys (h : Cells0 sg d F K) (c : BitVec w) : (∃ e ∈ d.tree.list, e.key = c) ↔ K c := by
  constructor
  · rintro ⟨e, he, rfl⟩; exact (h.mem_list.1 he).1
  · intro hc; exact ⟨⟨c, ⟨F c⟩⟩, h.mem_list.2 ⟨hc, rfl⟩, rfl⟩

theorem IntInv0.union {x y : Int} (h : IntInv0 sg s F K x) (ht : IntInv0 sg t G J y) :
    ∃ s' F', s.union t = .ok s' ∧ IntInv0 sg s' F' (fun c => K c ∨ J c) x ∧ ∀ j, memF sg F' j ↔ memF sg F j ∨ memF sg G j := by
  obtain ⟨s', h1, h2⟩ := unionFold0 h.cells t.data.tree.list s F K x ht.cells.keys_nodup
    (fun e he b hb => ht.cells.loc _ _ (by rw [(ht.cells.mem_list.1 he).2]; exact hb)) h (fun _ _ => rfl)
  refine ⟨s', _, ?_, ⟨h2.cells.congr (fun c => ?_), h2.count⟩, fun j => ?_⟩
  · unfold IntSet.union
    rw [FMap.rangeList_spec ht.cells.valid]
    exact h1
  · rw [ht.cells.mem_keys]
  · unfold memF
    rw [ht.cells.FL_list, BitVec.getLsbD_or, Bool.or_eq_true]

/-! ### Comparing -/

theorem Cells0.equal (h : Cells0 sg s.data F K) (ht : Cells0 sg t.data G J) :
    ∃ b, s.equal t = .ok b ∧ (b = true ↔ (∀ i, memF sg F i ↔ memF sg G i) ∧ ∀ c, K c ↔ J c) := by
  obtain ⟨b, h1, h2⟩ := FMap.equal_spec h.valid ht.valid
  refine ⟨b, h1, h2.trans ?_⟩
  have hs : ∀ c, SameVal (s.data.tree.lk c) (t.data.tree.lk c) ↔ F c = G c ∧ (K c ↔ J c) := by
    intro c
    rcases h.lk c with ⟨g1, g2, g3⟩ | ⟨g1, g2⟩ <;> rcases ht.lk c with ⟨k1, k2, k3⟩ | ⟨k1, k2⟩
    · simp [g1, k1, g2, k2, g3, k3, SameVal]
    · simp [g1, k1, g2, k2, SameVal]
    · simp [g1, k1, g2, k2, SameVal]
    · simp [g1, k1, g2, k2, SameVal, GoKey.eq]
  constructor
  · intro g
    refine ⟨fun i => ?_, fun c => ((hs c).1 (g c)).2⟩
    unfold memF
    rw [((hs _).1 (g _)).1]
  · intro g c
    rw [hs, memF_ext h.loc ht.loc g.1]
    exact ⟨rfl, g.2 c⟩

theorem subsetLoop_spec0 (ht : Cells0 sg t.data G J) : ∀ (es : List (Entry (BitVec w) CellMask)),
    ∃ b, intSubsetLoop t es = .ok b ∧
      (b = true ↔ ∀ e ∈ es, J e.key ∧ ∀ i, e.value.bits.getLsbD i = true → (G e.key).getLsbD i = true)
  | [] => ⟨true, rfl, by simp⟩
  | e :: es => by
    obtain ⟨b, h1, h2⟩ := subsetLoop_spec0 ht es
    rw [intSubsetLoop, FMap.get_spec ht.valid]
    simp only [bind, Except.bind]
    rcases ht.lk e.key with ⟨g1, g2, _⟩ | ⟨g1, g2⟩
    · rw [g1]
      refine ⟨false, rfl, ?_⟩
      simp only [Bool.false_eq_true, false_iff]
      exact fun hc => g2 (hc e (by simp)).1
    · rw [g1]
      simp only
      have hsub : e.value.bits &&& ~~~G e.key ≠ 0#64 ↔ ¬ ∀ i, e.value.bits.getLsbD i = true → (G e.key).getLsbD i = true := by
        rw [ne_zero_iff_bit]
        constructor
        · rintro ⟨i, hi⟩ hc
          rw [BitVec.getLsbD_and, BitVec.getLsbD_not, Bool.and_eq_true, Bool.and_eq_true] at hi
          rw [hc i hi.1] at hi
          simp at hi
        · intro hc
          obtain ⟨i, hi⟩ := Classical.not_forall.1 hc
          rw [Classical.not_imp] at hi
          have hlt : i < 64 := by
            by_contra hc
            rw [BitVec.getLsbD_of_ge _ _ (by omega)] at hi
            cases hi.1
          refine ⟨i, ?_⟩
          rw [BitVec.getLsbD_and, BitVec.getLsbD_not]
          have h2 : (G e.key).getLsbD i = false := by simpa using hi.2
          rw [hi.1, h2]
          simp [hlt]
      by_cases hs : e.value.bits &&& ~~~G e.key ≠ 0#64
      · refine ⟨false, if_pos hs, ?_⟩
        simp only [Bool.false_eq_true, false_iff]
        exact fun hc => hsub.1 hs (hc e (by simp)).2
      · refine ⟨b, by simp only [if_neg hs]; exact h1, h2.trans ?_⟩
        rw [hsub, not_not] at hs
        constructor
        · intro g x hx
          rcases List.mem_cons.1 hx with rfl | hx
          · exact ⟨g2, hs⟩
          · exact g x hx
        · exact fun g x hx => g x (by simp [hx])

theorem Cells0.isSubsetOf (h : Cells0 sg s.data F K) (ht : Cells0 sg t.data G J) :
    ∃ b, s.isSubsetOf t = .ok b ∧ (b = true ↔ (∀ i, memF sg F i → memF sg G i) ∧ ∀ c, K c → J c) := by
  obtain ⟨b, h1, h2⟩ := subsetLoop_spec0 ht s.data.tree.list
  refine ⟨b, ?_, h2.trans ?_⟩
  · unfold IntSet.isSubsetOf
    rw [FMap.rangeList_spec h.valid]
    exact h1
  · constructor
    · intro g
      refine ⟨fun i hi => ?_, fun c hc => ?_⟩
      · exact (g ⟨cellOf sg i, ⟨F (cellOf sg i)⟩⟩ (h.mem_list.2 ⟨h.key_of_ne (ne_zero_iff_bit.2 ⟨_, hi⟩), rfl⟩)).2 (bitOf sg i) hi
      · exact (g ⟨c, ⟨F c⟩⟩ (h.mem_list.2 ⟨hc, rfl⟩)).1
    · intro g e he
      have hm := h.mem_list.1 he
      refine ⟨g.2 _ hm.1, fun i hi => ?_⟩
      rw [← hm.2] at hi
      have := g.1 _ (memF_val h.loc hi)
      unfold memF at this
      rwa [(h.loc _ _ hi).1, (h.loc _ _ hi).2] at this

/-! ### Elements -/

theorem Cells0.mem_elems (hw : 8 ≤ w) (hw2 : w ≤ 64) (h : Cells0 sg d F K) (i : BitVec w) : i ∈ cellElems d.tree.list ↔ memF sg F i := by
  unfold cellElems
  rw [List.mem_flatMap]
  constructor
  · rintro ⟨e, he, hi⟩
    obtain ⟨b, hb, rfl⟩ := List.mem_map.1 hi
    have := h.mem_list.1 he
    apply memF_val h.loc
    rw [this.2]
    exact mem_bitsOf.1 hb
  · intro hi
    have hs := storable_of_memF hw hw2 hi
    refine ⟨⟨cellOf sg i, ⟨F (cellOf sg i)⟩⟩, h.mem_list.2 ⟨h.key_of_ne (ne_zero_iff_bit.2 ⟨_, hi⟩), rfl⟩, ?_⟩
    exact List.mem_map.2 ⟨bitOf sg i, mem_bitsOf.2 hi, cellVal_locate hw hw2 hs⟩

theorem Cells0.nodup_elems (h : Cells0 sg d F K) : (cellElems d.tree.list).Nodup := by
  unfold cellElems
  rw [List.nodup_flatMap]
  have hbits : ∀ e ∈ d.tree.list, ∀ b ∈ bitsOf e.value.bits, CellLoc sg e.key b := by
    intro e he b hb
    apply h.loc
    rw [(h.mem_list.1 he).2]
    exact mem_bitsOf.1 hb
  constructor
  · intro e he
    apply List.Nodup.map_on
    · intro a ha b hb hab
      rw [← (hbits e he a ha).2, ← (hbits e he b hb).2, hab]
    · exact List.nodup_range.filter _
  · have hn := h.keys_nodup
    unfold List.Nodup at hn
    rw [List.pairwise_map] at hn
    refine List.Pairwise.imp_of_mem (fun {a b} ha hb hab => ?_) hn
    rw [Function.onFun, List.disjoint_left]
    intro x hx hx'
    obtain ⟨p, hp, rfl⟩ := List.mem_map.1 hx
    obtain ⟨q, hq, hv⟩ := List.mem_map.1 hx'
    apply hab
    rw [← (hbits a ha p hp).1, ← (hbits b hb q hq).1, hv]

omit [GoKey (BitVec w)] [PrimKey (BitVec w)] in
/-- The blocks of the empty cells of a list. -/
def hollowKeys (l : List (Entry (BitVec w) CellMask)) : List (BitVec w) :=
  (l.filter (fun e => decide (e.value.bits = 0#64))).map (·.key)

omit [GoKey (BitVec w)] [PrimKey (BitVec w)] in
theorem cellOut_perm (l : List (Entry (BitVec w) CellMask)) :
    (l.flatMap cellOut).Perm (cellElems l ++ (hollowKeys l).map (fun c => cellVal c 64)) := by
  induction l with
  | nil => exact List.Perm.refl _
  | cons e l ih =>
    unfold cellElems hollowKeys at *
    rw [List.flatMap_cons, List.flatMap_cons]
    by_cases he : e.value.bits = 0#64
    · rw [List.filter_cons_of_pos (by simpa using he)]
      have h1 : cellOut e = [cellVal e.key 64] := by simp [cellOut, he]
      rw [h1, he, bitsOf_zero]
      simp only [List.map_nil, List.nil_append, List.map_cons, List.singleton_append]
      exact (List.Perm.cons _ ih).trans List.perm_middle.symm
    · rw [List.filter_cons_of_neg (by simpa using he)]
      have h1 : cellOut e = (bitsOf e.value.bits).map (cellVal e.key) := by simp [cellOut, he]
      rw [h1, List.append_assoc]
      exact List.Perm.append_left _ ih

theorem Cells0.mem_hollow (h : Cells0 sg d F K) (c : BitVec w) : c ∈ hollowKeys d.tree.list ↔ K c ∧ F c = 0#64 := by
  unfold hollowKeys
  rw [List.mem_map]
  constructor
  · rintro ⟨e, he, rfl⟩
    rw [List.mem_filter] at he
    have := h.mem_list.1 he.1
    exact ⟨this.1, this.2.trans (of_decide_eq_true he.2)⟩
  · rintro ⟨h1, h2⟩
    exact ⟨⟨c, ⟨F c⟩⟩, List.mem_filter.2 ⟨h.mem_list.2 ⟨h1, rfl⟩, decide_eq_true h2⟩, rfl⟩

theorem Cells0.nodup_hollow (h : Cells0 sg d F K) : (hollowKeys d.tree.list).Nodup :=
  List.Nodup.sublist (List.filter_sublist.map _) h.keys_nodup

omit [GoKey (BitVec w)] [PrimKey (BitVec w)] in
theorem afterBlock_eq (c : BitVec w) : cellVal c 64 = afterBlock c := by
  unfold cellVal afterBlock cellShift
  rw [Int.add_mul, BitVec.ofInt_add, BitVec.ofInt_mul, BitVec.ofInt_toInt, BitVec.shiftLeft_eq_mul_twoPow]
  congr 1
  congr 1
  apply BitVec.eq_of_toNat_eq
  rw [BitVec.toNat_twoPow]
  exact (BitVec.toNat_ofNat 64 w).symm

omit [GoKey (BitVec w)] [PrimKey (BitVec w)] in
theorem cellOf_block (sg : Bool) (n : BitVec w) : cellOf sg n = block sg n := cellOf_eq sg n

/-! ### Programs -/

/-- The hollow blocks are those of the empty cells. -/
theorem hollow_iff (hw : 8 ≤ w) (hw2 : w ≤ 64) {S : IntState w} (h : Cells0 sg d F S.blocks) (hm : ∀ j, memF sg F j ↔ S.has j)
    (c : BitVec w) : S.blocks c ∧ F c = 0#64 ↔ S.Hollow sg c := by
  have h1 := ne_zero_iff_mem hw hw2 h.loc c
  unfold IntState.Hollow
  refine and_congr_right (fun _ => ?_)
  rw [← not_not (a := F c = 0#64), ← Ne, h1]
  simp only [hm, not_exists, not_and]
  refine forall_congr' (fun n => ?_)
  rw [cellOf_block sg n]

/-- What `Elements` reports. -/
theorem reported_spec (hw : 8 ≤ w) (hw2 : w ≤ 64) {S : IntState w} (h : Cells0 sg s.data F S.blocks) (hm : ∀ j, memF sg F j ↔ S.has j) :
    ∃ e l : List (BitVec w), ∃ z : List (BitVec w), s.elements = .ok e ∧ l.Nodup ∧ (∀ n, n ∈ l ↔ S.has n) ∧ z.Nodup ∧ (∀ c, c ∈ z ↔ S.Hollow sg c) ∧
      e.Perm (l ++ z.map afterBlock) ∧ total F = l.length := by
  refine ⟨_, _, _, elements_spec0 h.valid, h.nodup_elems, fun n => (h.mem_elems hw hw2 n).trans (hm n), h.nodup_hollow,
    fun c => (h.mem_hollow c).trans (hollow_iff hw hw2 h hm c), ?_, ?_⟩
  · have := cellOut_perm s.data.tree.list
    simp only [afterBlock_eq] at this
    exact this
  · rw [h.total_list, cellElems_length]

theorem IntProg.run_actual (hw : 8 ≤ w) (hw2 : w ≤ 64) : ∀ (p : IntProg w),
    ∃ s F, p.run sg = .ok s ∧ IntInv0 sg s F (p.actual sg).blocks (p.actual sg).extra ∧ ∀ j, memF sg F j ↔ (p.actual sg).has j
  | .new order ho is => by
    obtain ⟨s, F, h1, h2, h3⟩ := newIntSet_spec0 (sg := sg) hw hw2 order ho is
    exact ⟨s, F, h1, ⟨h2.cells.congr (fun c => by simp only [IntProg.actual, IntState.new, cellOf_block]), h2.count⟩, h3⟩
  | .with p i => by
    obtain ⟨s, F, h1, h2, h3⟩ := IntProg.run_actual hw hw2 p
    obtain ⟨s', F', g1, g2, g3⟩ := h2.with hw hw2 i
    exact ⟨s', F', by simp only [IntProg.run, h1, bind, Except.bind, g1],
      ⟨g2.cells.congr (fun c => by simp only [IntProg.actual, IntState.with, cellOf_block]), g2.count⟩, fun j => by rw [g3, h3]; rfl⟩
  | .without p i => by
    obtain ⟨s, F, h1, h2, h3⟩ := IntProg.run_actual hw hw2 p
    obtain ⟨s', F', g1, g2, g3⟩ := h2.without hw hw2 i
    exact ⟨s', F', by simp only [IntProg.run, h1, bind, Except.bind, g1],
      ⟨g2.cells.congr (fun c => by simp only [IntProg.actual, IntState.without, cellOf_block, h3]), g2.count⟩, fun j => by rw [g3, h3]; rfl⟩
  | .where p pred => by
    obtain ⟨s, F, h1, h2, h3⟩ := IntProg.run_actual hw hw2 p
    obtain ⟨s', F', g1, g2, g3⟩ := h2.where hw hw2 pred
    exact ⟨s', F', by simp only [IntProg.run, h1, bind, Except.bind, g1],
      ⟨g2.cells.congr (fun c => by simp only [IntProg.actual, IntState.where, IntState.exact, cellOf_block, g3, h3]), g2.count⟩,
      fun j => by rw [g3, h3]; rfl⟩
  | .map p order ho f => by
    obtain ⟨s, F, h1, h2, h3⟩ := IntProg.run_actual hw hw2 p
    obtain ⟨e, l, z, k1, _, k3, _, k5, k6, _⟩ := reported_spec hw hw2 h2.cells h3
    obtain ⟨s', F', g1, g2, g3⟩ := newIntSet_spec0 (sg := sg) hw hw2 order ho (e.map f)
    have hmem : ∀ n, n ∈ e ↔ (p.actual sg).Reported sg n := by
      intro n
      rw [k6.mem_iff, List.mem_append, k3, List.mem_map]
      unfold IntState.Reported
      simp only [k5]
      exact or_congr_right (exists_congr (fun c => and_congr_right (fun _ => ⟨Eq.symm, Eq.symm⟩)))
    refine ⟨s', F', ?_, ⟨g2.cells.congr (fun c => ?_), g2.count⟩, fun j => ?_⟩
    · simp only [IntProg.run, h1, bind, Except.bind, IntSet.map, k1, g1]
    · simp only [IntProg.actual, IntState.map, IntState.new, cellOf_block, List.mem_map, hmem]
    · rw [g3]
      simp only [IntProg.actual, IntState.map, IntState.new, List.mem_map, hmem]
  | .union p q => by
    obtain ⟨s, F, h1, h2, h3⟩ := IntProg.run_actual hw hw2 p
    obtain ⟨t, G, k1, k2, k3⟩ := IntProg.run_actual hw hw2 q
    obtain ⟨s', F', g1, g2, g3⟩ := h2.union k2
    exact ⟨s', F', by simp only [IntProg.run, h1, k1, bind, Except.bind, g1], g2, fun j => by rw [g3, h3, k3]; rfl⟩
  | .intersection p q => by
    obtain ⟨s, F, h1, h2, h3⟩ := IntProg.run_actual hw hw2 p
    obtain ⟨t, G, k1, k2, k3⟩ := IntProg.run_actual hw hw2 q
    obtain ⟨s', F', g1, g2, g3⟩ := h2.intersection hw hw2 k2
    exact ⟨s', F', by simp only [IntProg.run, h1, k1, bind, Except.bind, g1],
      ⟨g2.cells.congr (fun c => by simp only [IntProg.actual, IntState.intersection, IntState.exact, cellOf_block, g3, h3, k3]), g2.count⟩,
      fun j => by rw [g3, h3, k3]; rfl⟩

end Frozen
