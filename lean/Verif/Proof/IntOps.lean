import Verif.Proof.IntCells

/-! # Operations on integer sets -/

set_option linter.unusedSectionVars false

namespace Frozen

variable {w : Nat} [GoKey (BitVec w)] [PrimKey (BitVec w)] {sg : Bool} {F G : BitVec w → BitVec 64} {s t : IntSet w}

theorem and_one_shl {x : BitVec 64} {n : Nat} : x &&& (1#64 <<< n) ≠ 0#64 ↔ x.getLsbD n = true := by
  rw [ne_zero_iff_bit]
  constructor
  · rintro ⟨j, hj⟩
    rw [BitVec.getLsbD_and, one_shl_getLsbD] at hj
    simp only [Bool.and_eq_true, decide_eq_true_eq] at hj
    obtain ⟨h1, h2, _⟩ := hj
    exact h2 ▸ h1
  · intro h
    have : n < 64 := by
      by_contra hc
      rw [BitVec.getLsbD_of_ge _ _ (by omega)] at h
      cases h
    refine ⟨n, ?_⟩
    rw [BitVec.getLsbD_and, one_shl_getLsbD]
    simp [h, this]

theorem Cells.locate (h : Cells sg s.data F) (i : BitVec w) :
    s.locate sg i = .ok (F (cellOf sg i), cellOf sg i, 1#64 <<< bitOf sg i) := by
  unfold IntSet.locate
  rw [FMap.get_spec h.valid]
  simp only [bind, Except.bind, pure, Except.pure, locateCell_eq]
  rw [h.getD]

theorem Cells.has (h : Cells sg s.data F) (i : BitVec w) : ∃ b, s.has sg i = .ok b ∧ (b = true ↔ memF sg F i) := by
  refine ⟨_, by unfold IntSet.has; rw [h.locate]; rfl, ?_⟩
  rw [bne_iff_ne, and_one_shl]; rfl

/-! ### With, Without -/

theorem loc_storable (hw : 8 ≤ w) (hw2 : w ≤ 64) {i : BitVec w} (hi : Storable sg i) : CellLoc sg (cellOf sg i) (bitOf sg i) := by
  unfold CellLoc
  rw [cellVal_locate hw hw2 hi]
  exact ⟨rfl, rfl⟩

theorem memF_setBit (hw : 8 ≤ w) (hw2 : w ≤ 64) {i : BitVec w} (hi : Storable sg i) {m : BitVec 64}
    (hm : ∀ b, m.getLsbD b = true ↔ b = bitOf sg i ∨ (F (cellOf sg i)).getLsbD b = true) (j : BitVec w) :
    memF sg (updF F (cellOf sg i) m) j ↔ j = i ∨ memF sg F j := by
  unfold memF updF
  by_cases hc : cellOf sg i = cellOf sg j
  · rw [if_pos hc, hm]
    constructor
    · rintro (h | h)
      · left
        have hj : Storable sg j := by
          rw [← bitOf_lt_iff hw hw2, h, bitOf_lt_iff hw hw2]; exact hi
        rw [← cellVal_locate hw hw2 hj, ← cellVal_locate hw hw2 hi, hc, h]
      · right; rw [← hc]; exact h
    · rintro (rfl | h)
      · exact .inl rfl
      · right; rw [hc]; exact h
  · rw [if_neg hc]
    constructor
    · exact .inr
    · rintro (rfl | h)
      · exact absurd rfl hc
      · exact h

theorem IntInv.with (hw : 8 ≤ w) (hw2 : w ≤ 64) (h : IntInv sg s F) {i : BitVec w} (hi : Storable sg i) :
    ∃ s' F', s.with sg i = .ok s' ∧ IntInv sg s' F' ∧ ∀ j, memF sg F' j ↔ j = i ∨ memF sg F j := by
  unfold IntSet.with
  rw [h.cells.locate]
  simp only [bind, Except.bind]
  have hlt := (bitOf_lt_iff hw hw2 sg i).2 hi
  by_cases hm : F (cellOf sg i) &&& 1#64 <<< bitOf sg i = 0#64
  · rw [if_pos hm]
    have hb : ∀ b, (F (cellOf sg i) ||| 1#64 <<< bitOf sg i).getLsbD b = true ↔ b = bitOf sg i ∨ (F (cellOf sg i)).getLsbD b = true := by
      intro b
      rw [BitVec.getLsbD_or, one_shl_getLsbD]
      simp only [Bool.or_eq_true, Bool.and_eq_true, decide_eq_true_eq, hlt, and_true]
      exact or_comm
    obtain ⟨d', h1, h2⟩ := h.cells.with (cellOf sg i) (m := F (cellOf sg i) ||| 1#64 <<< bitOf sg i)
      (ne_zero_iff_bit.2 ⟨bitOf sg i, (hb _).2 (.inl rfl)⟩) (by
        intro b h3
        rcases (hb b).1 h3 with rfl | h3
        · exact loc_storable hw hw2 hi
        · exact h.cells.loc _ _ h3)
    refine ⟨⟨d', s.count + 1⟩, _, by rw [h1]; rfl, ⟨h2, ?_⟩, memF_setBit hw hw2 hi hb⟩
    have hdis : (F (cellOf sg i)).getLsbD (bitOf sg i) ≠ true := by
      rw [Ne, ← and_one_shl]; exact fun g => g hm
    show s.count + 1 = _
    rw [total_upd, h.count, ones_or_disjoint (x := F (cellOf sg i)) (y := 1#64 <<< bitOf sg i)
      (z := F (cellOf sg i) ||| 1#64 <<< bitOf sg i), ones_one_shl hlt]
    · push_cast; ring
    · intro b; rw [BitVec.getLsbD_or]
    · rintro b ⟨g1, g2⟩
      rw [one_shl_getLsbD] at g2
      simp only [Bool.and_eq_true, decide_eq_true_eq] at g2
      exact hdis (g2.1 ▸ g1)
  · rw [if_neg hm]
    refine ⟨s, F, rfl, h, fun j => ?_⟩
    have : memF sg F i := and_one_shl.1 hm
    constructor
    · exact .inr
    · rintro (rfl | g)
      · exact this
      · exact g

theorem memF_clearBit (hw : 8 ≤ w) (hw2 : w ≤ 64) {i : BitVec w} (hi : Storable sg i) {m : BitVec 64}
    (hm : ∀ b, m.getLsbD b = true ↔ (F (cellOf sg i)).getLsbD b = true ∧ b ≠ bitOf sg i) (j : BitVec w) :
    memF sg (updF F (cellOf sg i) m) j ↔ memF sg F j ∧ j ≠ i := by
  unfold memF updF
  by_cases hc : cellOf sg i = cellOf sg j
  · rw [if_pos hc, hm, hc]
    constructor
    · rintro ⟨h1, h2⟩
      exact ⟨h1, fun e => h2 (by rw [e])⟩
    · rintro ⟨h1, h2⟩
      refine ⟨h1, fun e => h2 ?_⟩
      have hj : Storable sg j := by
        rw [← bitOf_lt_iff hw hw2, e, bitOf_lt_iff hw hw2]; exact hi
      rw [← cellVal_locate hw hw2 hj, ← cellVal_locate hw hw2 hi, hc, e]
  · rw [if_neg hc]
    constructor
    · exact fun h => ⟨h, fun e => hc (by rw [e])⟩
    · exact fun h => h.1

theorem IntInv.without (hw : 8 ≤ w) (hw2 : w ≤ 64) (h : IntInv sg s F) (i : BitVec w) :
    ∃ s' F', s.without sg i = .ok s' ∧ IntInv sg s' F' ∧ ∀ j, memF sg F' j ↔ memF sg F j ∧ j ≠ i := by
  unfold IntSet.without
  rw [h.cells.locate]
  simp only [bind, Except.bind]
  by_cases hm : F (cellOf sg i) &&& 1#64 <<< bitOf sg i ≠ 0#64
  · rw [if_pos hm]
    have hmem : (F (cellOf sg i)).getLsbD (bitOf sg i) = true := and_one_shl.1 hm
    have hi : Storable sg i := storable_of_memF hw hw2 hmem
    have hlt := (bitOf_lt_iff hw hw2 sg i).2 hi
    have hb : ∀ b, (F (cellOf sg i) &&& ~~~(1#64 <<< bitOf sg i)).getLsbD b = true ↔
        (F (cellOf sg i)).getLsbD b = true ∧ b ≠ bitOf sg i := by
      intro b
      rw [BitVec.getLsbD_and, BitVec.getLsbD_not, one_shl_getLsbD]
      by_cases hb64 : b < 64
      · simp [hb64, hlt]
      · rw [BitVec.getLsbD_of_ge _ _ (by omega)]; simp
    have hcnt : total (updF F (cellOf sg i) (F (cellOf sg i) &&& ~~~(1#64 <<< bitOf sg i))) = s.count - 1 := by
      have : ones (F (cellOf sg i)) = ones (F (cellOf sg i) &&& ~~~(1#64 <<< bitOf sg i)) + ones (1#64 <<< bitOf sg i) := by
        apply ones_or_disjoint
        · intro b
          rw [Bool.eq_iff_iff, Bool.or_eq_true, hb, one_shl_getLsbD]
          simp only [Bool.and_eq_true, decide_eq_true_eq, hlt, and_true]
          constructor
          · intro g
            by_cases hbi : b = bitOf sg i
            · exact .inr hbi
            · exact .inl ⟨g, hbi⟩
          · rintro (g | rfl)
            · exact g.1
            · exact hmem
        · rintro b ⟨g1, g2⟩
          rw [one_shl_getLsbD] at g2
          simp only [Bool.and_eq_true, decide_eq_true_eq] at g2
          exact ((hb b).1 g1).2 g2.1
      rw [ones_one_shl hlt] at this
      rw [total_upd, h.count]
      omega
    by_cases h0 : F (cellOf sg i) &&& ~~~(1#64 <<< bitOf sg i) ≠ 0#64
    · rw [if_pos h0]
      obtain ⟨d', h1, h2⟩ := h.cells.with (cellOf sg i) h0 (fun b g => h.cells.loc _ _ ((hb b).1 g).1)
      exact ⟨⟨d', s.count - 1⟩, _, by rw [h1]; rfl, ⟨h2, hcnt.symm⟩, memF_clearBit hw hw2 hi hb⟩
    · rw [if_neg h0]
      obtain ⟨d', h1, h2⟩ := h.cells.without (cellOf sg i)
      rw [not_not] at h0
      rw [h0] at hcnt hb
      exact ⟨⟨d', s.count - 1⟩, _, by rw [h1]; rfl, ⟨h2, hcnt.symm⟩, memF_clearBit hw hw2 hi hb⟩
  · rw [if_neg hm]
    refine ⟨s, F, rfl, h, fun j => ?_⟩
    have : ¬ memF sg F i := fun g => hm (and_one_shl.2 g)
    exact ⟨fun g => ⟨g, fun e => this (e ▸ g)⟩, fun g => g.1⟩

/-! ### NewIntSet -/

/-- Lookup in a Go map. -/
def goLk (m : List (BitVec w × CellMask)) (c : BitVec w) : BitVec 64 :=
  (((m.find? (fun e : BitVec w × CellMask => e.1 == c)).map (fun e : BitVec w × CellMask => e.2)).getD default).bits

theorem goMapSet_lk (m : List (BitVec w × CellMask)) (k : BitVec w) (v : CellMask) (c : BitVec w) :
    goLk (goMapSet m k v) c = if k = c then v.bits else goLk m c := by
  unfold goLk goMapSet
  by_cases hk : m.any (fun e => e.1 == k) = true
  · rw [if_pos hk]
    induction m with
    | nil => simp at hk
    | cons e m ih =>
      rw [List.map_cons, List.find?_cons, List.find?_cons]
      by_cases he : e.1 = k
      · subst he
        rw [if_pos rfl]
        by_cases hc : e.1 = c
        · simp [hc]
        · have : (e.1 == c) = false := by simpa using hc
          simp only [this, if_neg hc]
          by_cases hany : m.any (fun x => x.1 == e.1) = true
          · have := ih hany
            rw [if_neg hc] at this
            exact this
          · have : m.map (fun x => if x.1 = e.1 then (x.1, v) else x) = m := by
              conv_rhs => rw [← List.map_id m]
              apply List.map_congr_left
              intro x hx
              rw [if_neg]; rfl
              intro hxe
              exact hany (List.any_eq_true.2 ⟨x, hx, by simpa using hxe⟩)
            rw [this]
      · rw [if_neg he]
        have hany : m.any (fun x => x.1 == k) = true := by
          rw [List.any_cons, Bool.or_eq_true] at hk
          rcases hk with hk | hk
          · exact absurd (by simpa using hk) he
          · exact hk
        by_cases hc : e.1 = c
        · have : k ≠ c := fun hkc => he (hc.trans hkc.symm)
          simp [hc, this]
        · have h1 : (e.1 == c) = false := by simpa using hc
          simp only [h1]
          exact ih hany
  · rw [if_neg hk, List.find?_append]
    by_cases hc : k = c
    · have hnone : m.find? (fun e => e.1 == c) = none := by
        rw [List.find?_eq_none]
        intro x hx hxc
        exact hk (List.any_eq_true.2 ⟨x, hx, by rw [hc]; exact hxc⟩)
      simp [hnone, hc]
    · cases hf : m.find? (fun e => e.1 == c) with
      | some e => simp [hc]
      | none => simp [hc]

theorem goMapSet_keys (m : List (BitVec w × CellMask)) (k : BitVec w) (v : CellMask) (hn : (m.map (·.1)).Nodup) :
    ((goMapSet m k v).map (·.1)).Nodup := by
  unfold goMapSet
  by_cases hk : m.any (fun e => e.1 == k) = true
  · rw [if_pos hk, List.map_map]
    have : (fun e : BitVec w × CellMask => e.1) ∘ (fun e => if e.1 = k then (e.1, v) else e) = (fun e => e.1) := by
      funext e
      simp only [Function.comp]
      split <;> rfl
    rw [this]; exact hn
  · rw [if_neg hk, List.map_append, List.nodup_append]
    refine ⟨hn, by simp, ?_⟩
    intro a ha b hb hab
    simp only [List.map_cons, List.map_nil, List.mem_singleton] at hb
    subst hb hab
    obtain ⟨e, he, hee⟩ := List.mem_map.1 ha
    exact hk (List.any_eq_true.2 ⟨e, he, by simpa using hee⟩)

theorem goMapSet_mem {m : List (BitVec w × CellMask)} {k : BitVec w} {v : CellMask} {e : BitVec w × CellMask}
    (he : e ∈ goMapSet m k v) : e = (k, v) ∨ e ∈ m := by
  unfold goMapSet at he
  by_cases hk : m.any (fun e => e.1 == k) = true
  · rw [if_pos hk] at he
    obtain ⟨x, hx, rfl⟩ := List.mem_map.1 he
    by_cases hxk : x.1 = k
    · rw [if_pos hxk]; left; rw [hxk]
    · rw [if_neg hxk]; exact .inr hx
  · rw [if_neg hk] at he
    rcases List.mem_append.1 he with he | he
    · exact .inr he
    · left; simpa using he

/-- Invariant of the loop of `NewIntSet`. -/
structure GoCells (sg : Bool) (m : List (BitVec w × CellMask)) (P : BitVec w → Prop) : Prop where
  nodup : (m.map (·.1)).Nodup
  nonzero : ∀ e ∈ m, e.2.bits ≠ 0#64
  bits : ∀ c b, (goLk m c).getLsbD b = true ↔ ∃ i, P i ∧ cellOf sg i = c ∧ bitOf sg i = b

theorem intSetCell_spec (hw : 8 ≤ w) (hw2 : w ≤ 64) : ∀ (is : List (BitVec w)) (m : List (BitVec w × CellMask)) (P : BitVec w → Prop),
    (∀ i ∈ is, Storable sg i) → GoCells sg m P → GoCells sg (is.foldl (intSetCell sg) m) (fun i => P i ∨ i ∈ is)
  | [], m, P, _, h => by simpa using h
  | i :: is, m, P, hs, h => by
    have hi : Storable sg i := hs i (by simp)
    have hlt := (bitOf_lt_iff hw hw2 sg i).2 hi
    have hb : ∀ b, (goLk m (cellOf sg i) ||| 1#64 <<< bitOf sg i).getLsbD b = true ↔
        (goLk m (cellOf sg i)).getLsbD b = true ∨ b = bitOf sg i := by
      intro b
      rw [BitVec.getLsbD_or, one_shl_getLsbD]
      simp [hlt]
    have hstep : GoCells sg (intSetCell sg m i) (fun j => P j ∨ j = i) := by
      have hdef : intSetCell sg m i = goMapSet m (cellOf sg i) ⟨goLk m (cellOf sg i) ||| 1#64 <<< bitOf sg i⟩ := by
        unfold intSetCell; rw [locateCell_eq]; rfl
      rw [hdef]
      refine ⟨goMapSet_keys _ _ _ h.nodup, ?_, ?_⟩
      · intro e he
        rcases goMapSet_mem he with rfl | he
        · exact ne_zero_iff_bit.2 ⟨bitOf sg i, (hb _).2 (.inr rfl)⟩
        · exact h.nonzero e he
      · intro c b
        rw [goMapSet_lk]
        by_cases hc : cellOf sg i = c
        · rw [if_pos hc, hb, hc, h.bits]
          constructor
          · rintro (⟨j, g1, g2, g3⟩ | rfl)
            · exact ⟨j, .inl g1, g2, g3⟩
            · exact ⟨i, .inr rfl, hc, rfl⟩
          · rintro ⟨j, g1 | rfl, g2, g3⟩
            · exact .inl ⟨j, g1, g2, g3⟩
            · exact .inr g3.symm
        · rw [if_neg hc, h.bits]
          constructor
          · rintro ⟨j, g1, g2, g3⟩
            exact ⟨j, .inl g1, g2, g3⟩
          · rintro ⟨j, g1 | rfl, g2, g3⟩
            · exact ⟨j, g1, g2, g3⟩
            · exact absurd g2 hc
    have := intSetCell_spec hw hw2 is _ _ (fun j hj => hs j (by simp [hj])) hstep
    rw [List.foldl_cons]
    have he : (fun j => P j ∨ j ∈ i :: is) = (fun j => (P j ∨ j = i) ∨ j ∈ is) := by
      funext j
      simp only [List.mem_cons, eq_iff_iff]
      exact or_assoc.symm
    rw [he]
    exact this

theorem newIntSet_spec (hw : 8 ≤ w) (hw2 : w ≤ 64) (order : List (BitVec w × CellMask) → List (BitVec w × CellMask))
    (ho : ∀ l, (order l).Perm l) (is : List (BitVec w)) (hs : ∀ i ∈ is, Storable sg i) :
    ∃ s F, newIntSet sg order is = .ok s ∧ IntInv sg s F ∧ ∀ j, memF sg F j ↔ j ∈ is := by
  have h := intSetCell_spec hw hw2 (sg := sg) is [] (fun _ => False) hs
    ⟨List.nodup_nil, by simp, fun c b => by
      have : goLk ([] : List (BitVec w × CellMask)) c = 0#64 := rfl
      simp [this]⟩
  generalize hm : is.foldl (intSetCell sg) [] = m at h
  let toE : BitVec w × CellMask → Entry (BitVec w) CellMask := fun e => ⟨e.1, e.2⟩
  have hn0 : ((m.map toE).map (·.key)).Nodup := by rw [List.map_map]; exact h.nodup
  have hp : ((order m).map toE).Perm (m.map toE) := (ho m).map toE
  have hn : (((order m).map toE).map (·.key)).Nodup := ((hp.map (·.key)).nodup_iff).2 hn0
  have hFL : FL ((order m).map toE) = goLk m := by
    rw [FL_perm hn hp]
    funext c
    unfold FL goLk
    rw [List.find?_map]
    have : (fun e : Entry (BitVec w) CellMask => GoKey.eq e.key c) ∘ toE = (fun e : BitVec w × CellMask => e.1 == c) := by
      funext e
      rw [Function.comp, Bool.eq_iff_iff, beq_iff_eq]
      exact PrimKey.eq_iff e.1 c
    rw [this]
    cases m.find? (fun e => e.1 == c) <;> rfl
  have hmem : ∀ e ∈ (order m).map toE, goLk m e.key = e.value.bits := by
    intro e he
    rw [← hFL]
    exact FL_mem hn he
  have hstor : ∀ i, False ∨ i ∈ is → Storable sg i := fun i hi => hs i (by simpa using hi)
  obtain ⟨d, h1, h2⟩ := Cells.build (sg := sg) hn
    (by
      intro e he
      obtain ⟨x, hx, rfl⟩ := List.mem_map.1 he
      exact h.nonzero x ((ho m).mem_iff.1 hx))
    (by
      intro e he b hb
      rw [← hmem e he, h.bits] at hb
      obtain ⟨i, g1, g2, g3⟩ := hb
      rw [← g2, ← g3]
      exact loc_storable hw hw2 (hstor i g1))
  refine ⟨⟨d, ((order m).map (fun e => (ones e.2.bits : Int))).sum⟩, goLk m, ?_, ⟨hFL ▸ h2, ?_⟩, ?_⟩
  · unfold newIntSet
    rw [hm]
    rw [List.map_map] at h1
    have h1' : buildMap ((order m).map (fun e => (⟨e.1, e.2⟩ : KeyValue (BitVec w) CellMask))) = .ok d := h1
    simp only [h1', bind, Except.bind, pure, Except.pure]
  · show _ = total (goLk m)
    rw [← hFL, total_FL hn, List.map_map]; rfl
  · intro j
    unfold memF
    rw [h.bits]
    constructor
    · rintro ⟨i, g1, g2, g3⟩
      have hi := hstor i g1
      have hj : Storable sg j := by
        rw [← bitOf_lt_iff hw hw2, ← g3, bitOf_lt_iff hw hw2]; exact hi
      have : i = j := by
        rw [← cellVal_locate hw hw2 hi, ← cellVal_locate hw hw2 hj, g2, g3]
      rw [← this]; simpa using g1
    · intro hj
      exact ⟨j, .inr hj, rfl, rfl⟩

/-! ### Where -/

theorem whereCell_aux (hw : 8 ≤ w) (pred : BitVec w → Bool) (c : BitVec w) : ∀ (l : List Nat) (n : BitVec 64), (∀ i ∈ l, i < 64) → ∀ b,
    (l.foldl (fun n i => if pred (cellVal c i) then n ||| (1#64 <<< (BitVec.ofNat w i).toNat) else n) n).getLsbD b = true ↔
      n.getLsbD b = true ∨ (b ∈ l ∧ pred (cellVal c b) = true)
  | [], n, _, b => by simp
  | i :: l, n, hl, b => by
    have hi : i < 64 := hl i (by simp)
    have hpow : 2 ^ 8 ≤ 2 ^ w := Nat.pow_le_pow_right (by omega) hw
    have hto : (BitVec.ofNat w i).toNat = i := by
      rw [BitVec.toNat_ofNat, Nat.mod_eq_of_lt (by omega)]
    rw [List.foldl_cons, whereCell_aux hw pred c l _ (fun j hj => hl j (by simp [hj]))]
    by_cases hp : pred (cellVal c i) = true
    · rw [if_pos hp, hto, BitVec.getLsbD_or, one_shl_getLsbD]
      simp only [Bool.or_eq_true, Bool.and_eq_true, decide_eq_true_eq, hi, and_true, List.mem_cons]
      constructor
      · rintro ((h | rfl) | h)
        · exact .inl h
        · exact .inr ⟨.inl rfl, hp⟩
        · exact .inr ⟨.inr h.1, h.2⟩
      · rintro (h | ⟨rfl | h, h2⟩)
        · exact .inl (.inl h)
        · exact .inl (.inr rfl)
        · exact .inr ⟨h, h2⟩
    · rw [if_neg hp]
      simp only [List.mem_cons]
      constructor
      · rintro (h | h)
        · exact .inl h
        · exact .inr ⟨.inr h.1, h.2⟩
      · rintro (h | ⟨rfl | h, h2⟩)
        · exact .inl h
        · exact absurd h2 hp
        · exact .inr ⟨h, h2⟩

theorem whereCell_spec (hw : 8 ≤ w) (pred : BitVec w → Bool) (c : BitVec w) (x : BitVec 64) (b : Nat) :
    (whereCell pred c x).getLsbD b = true ↔ x.getLsbD b = true ∧ pred (cellVal c b) = true := by
  unfold whereCell
  have hbl : bitLoop x = bitsOf x := bitLoop_eq x
  rw [hbl, whereCell_aux hw]
  · rw [mem_bitsOf]; simp
  · intro i hi
    have := mem_bitsOf.1 hi
    by_contra hc
    rw [BitVec.getLsbD_of_ge _ _ (by omega)] at this
    cases this

/-- Building a set from a list of cells that are part of the cells of a set. -/
theorem IntInv.ofList {l : List (Entry (BitVec w) CellMask)} (hn : (l.map (·.key)).Nodup) (h0 : ∀ e ∈ l, e.value.bits ≠ 0#64)
    (hl : ∀ e ∈ l, ∀ b, e.value.bits.getLsbD b = true → CellLoc sg e.key b) :
    ∃ d, buildMap (l.map (fun e => (⟨e.key, e.value⟩ : KeyValue (BitVec w) CellMask))) = .ok d ∧
      IntInv sg ⟨d, (l.map (fun e => (ones e.value.bits : Int))).sum⟩ (FL l) := by
  obtain ⟨d, h1, h2⟩ := Cells.build (sg := sg) hn h0 hl
  exact ⟨d, h1, h2, (total_FL hn).symm⟩

/-- Bits of a filtered cell list. -/
theorem FL_filterMap (h : Cells sg s.data F) (g : BitVec w → BitVec 64 → BitVec 64) (hg : ∀ c, g c 0#64 = 0#64) (c : BitVec w) :
    FL ((s.data.tree.list.map (fun e => (⟨e.key, ⟨g e.key e.value.bits⟩⟩ : Entry (BitVec w) CellMask))).filter
      (fun e => decide (e.value.bits ≠ 0#64))) c = g c (F c) := by
  have hn : ((((s.data.tree.list.map (fun e => (⟨e.key, ⟨g e.key e.value.bits⟩⟩ : Entry (BitVec w) CellMask))).filter
      (fun e => decide (e.value.bits ≠ 0#64)))).map (·.key)).Nodup := by
    have h1 : ((s.data.tree.list.map (fun e => (⟨e.key, ⟨g e.key e.value.bits⟩⟩ : Entry (BitVec w) CellMask))).map (·.key)).Nodup := by
      rw [List.map_map]; exact h.keys_nodup
    exact List.Nodup.sublist (List.filter_sublist.map _) h1
  by_cases h0 : g c (F c) = 0#64
  · rw [h0]
    apply FL_not_mem
    intro e he hc
    rw [List.mem_filter] at he
    obtain ⟨x, hx, rfl⟩ := List.mem_map.1 he.1
    have := h.mem_list.1 hx
    simp only at hc
    apply of_decide_eq_true he.2
    show g x.key x.value.bits = 0#64
    rw [← this.1, hc, h0]
  · have hF : F c ≠ 0#64 := fun hz => h0 (by rw [hz, hg])
    have hmem : (⟨c, ⟨g c (F c)⟩⟩ : Entry (BitVec w) CellMask) ∈
        ((s.data.tree.list.map (fun e => (⟨e.key, ⟨g e.key e.value.bits⟩⟩ : Entry (BitVec w) CellMask))).filter
          (fun e => decide (e.value.bits ≠ 0#64))) := by
      rw [List.mem_filter]
      refine ⟨List.mem_map.2 ⟨⟨c, ⟨F c⟩⟩, h.mem_list.2 ⟨rfl, hF⟩, rfl⟩, decide_eq_true h0⟩
    exact FL_mem hn hmem

/-- Building the set whose cells are `g c (F c)`. -/
theorem IntInv.ofFilterMap (h : Cells sg s.data F) (g : BitVec w → BitVec 64 → BitVec 64) (hg : ∀ c, g c 0#64 = 0#64)
    (hb : ∀ c x b, (g c x).getLsbD b = true → x.getLsbD b = true) :
    ∃ d, buildMap (((s.data.tree.list.map (fun e => (⟨e.key, ⟨g e.key e.value.bits⟩⟩ : KeyValue (BitVec w) CellMask))).filter
      (fun e => decide (e.value.bits ≠ 0#64)))) = .ok d ∧
      IntInv sg ⟨d, (((s.data.tree.list.map (fun e => (⟨e.key, ⟨g e.key e.value.bits⟩⟩ : KeyValue (BitVec w) CellMask))).filter
      (fun e => decide (e.value.bits ≠ 0#64))).map (fun e => (ones e.value.bits : Int))).sum⟩ (fun c => g c (F c)) := by
  let l := ((s.data.tree.list.map (fun e => (⟨e.key, ⟨g e.key e.value.bits⟩⟩ : Entry (BitVec w) CellMask))).filter
          (fun e => decide (e.value.bits ≠ 0#64)))
  have hl : ((s.data.tree.list.map (fun e => (⟨e.key, ⟨g e.key e.value.bits⟩⟩ : KeyValue (BitVec w) CellMask))).filter
      (fun e => decide (e.value.bits ≠ 0#64))) = l.map (fun e => (⟨e.key, e.value⟩ : KeyValue (BitVec w) CellMask)) := by
    simp only [l, List.filter_map, List.map_map]
    rfl
  have hFL : FL l = fun c => g c (F c) := funext (FL_filterMap h g hg)
  have hn : (l.map (·.key)).Nodup := by
    have h1 : ((s.data.tree.list.map (fun e => (⟨e.key, ⟨g e.key e.value.bits⟩⟩ : Entry (BitVec w) CellMask))).map (·.key)).Nodup := by
      rw [List.map_map]; exact h.keys_nodup
    exact List.Nodup.sublist (List.filter_sublist.map _) h1
  obtain ⟨d, h1, h2⟩ := IntInv.ofList (sg := sg) hn
    (fun e he => of_decide_eq_true (List.mem_filter.1 he).2)
    (by
      intro e he b hbb
      obtain ⟨x, hx, rfl⟩ := List.mem_map.1 (List.mem_filter.1 he).1
      apply h.loc
      rw [(h.mem_list.1 hx).1]
      exact hb _ _ _ hbb)
  refine ⟨d, by rw [hl]; exact h1, ?_⟩
  rw [hl, List.map_map, ← hFL]
  exact h2

theorem IntInv.where (hw : 8 ≤ w) (hw2 : w ≤ 64) (h : IntInv sg s F) (pred : BitVec w → Bool) :
    ∃ s' F', s.where pred = .ok s' ∧ IntInv sg s' F' ∧ ∀ j, memF sg F' j ↔ memF sg F j ∧ pred j = true := by
  obtain ⟨d, h1, h2⟩ := IntInv.ofFilterMap h.cells (whereCell pred)
    (by intro c; by_contra hc; obtain ⟨b, hb⟩ := ne_zero_iff_bit.1 hc; rw [whereCell_spec hw] at hb; simp at hb)
    (fun c x b hb => ((whereCell_spec hw pred c x b).1 hb).1)
  refine ⟨_, _, ?_, h2, fun j => ?_⟩
  · unfold IntSet.where
    rw [FMap.rangeList_spec h.cells.valid]
    simp only [bind, Except.bind, pure, Except.pure]
    rw [h1]
  · unfold memF
    rw [whereCell_spec hw]
    constructor
    · rintro ⟨g1, g2⟩
      have hs := storable_of_memF hw hw2 g1
      rw [cellVal_locate hw hw2 hs] at g2
      exact ⟨g1, g2⟩
    · rintro ⟨g1, g2⟩
      have hs := storable_of_memF hw hw2 g1
      rw [cellVal_locate hw hw2 hs]
      exact ⟨g1, g2⟩

/-! ### Intersection -/

theorem interFold (hs : Cells sg s.data F) : ∀ (es : List (Entry (BitVec w) CellMask)) (b : MapBuilder (BitVec w) CellMask) (n : Int),
    es.foldlM (interStep s) (b, n) = (do
      let l := (es.map (fun e => (⟨e.key, ⟨F e.key &&& e.value.bits⟩⟩ : KeyValue (BitVec w) CellMask))).filter
        (fun e => decide (e.value.bits ≠ 0#64))
      let b' ← l.foldlM (fun b kv => MapBuilder.put b kv.key kv.value) b
      pure (b', n + (l.map (fun e => (ones e.value.bits : Int))).sum))
  | [], b, n => by simp [pure, Except.pure, bind, Except.bind]
  | e :: es, b, n => by
    rw [List.foldlM_cons]
    have hstep : interStep s (b, n) e = if F e.key &&& e.value.bits ≠ 0#64 then (do
        let b' ← MapBuilder.put b e.key ⟨F e.key &&& e.value.bits⟩
        pure (b', n + ones (F e.key &&& e.value.bits))) else pure (b, n) := by
      unfold interStep
      rw [hs.get]
      by_cases h0 : F e.key = 0#64
      · simp [h0, bind, Except.bind]
      · simp only [if_neg h0, bind, Except.bind]
    rw [hstep]
    by_cases h0 : F e.key &&& e.value.bits ≠ 0#64
    · rw [if_pos h0]
      simp only [List.map_cons]
      rw [List.filter_cons_of_pos (by exact decide_eq_true h0), List.foldlM_cons]
      cases hp : MapBuilder.put b e.key (⟨F e.key &&& e.value.bits⟩ : CellMask) with
      | error err => simp [bind, Except.bind]
      | ok b1 =>
        simp only [bind, Except.bind, pure, Except.pure]
        rw [interFold hs es b1]
        simp only [bind, Except.bind, pure, Except.pure, List.map_cons, List.sum_cons, Int.add_assoc]
    · rw [if_neg h0]
      simp only [List.map_cons]
      rw [List.filter_cons_of_neg (by simpa using h0)]
      exact interFold hs es b n

theorem IntInv.intersection (h : IntInv sg s F) (ht : IntInv sg t G) :
    ∃ s' F', s.intersection t = .ok s' ∧ IntInv sg s' F' ∧ ∀ j, memF sg F' j ↔ memF sg F j ∧ memF sg G j := by
  obtain ⟨d, h1, h2⟩ := IntInv.ofFilterMap ht.cells (fun c x => F c &&& x) (by intro c; simp)
    (fun c x b hb => by rw [BitVec.getLsbD_and, Bool.and_eq_true] at hb; exact hb.2)
  refine ⟨_, _, ?_, h2, fun j => ?_⟩
  · unfold IntSet.intersection
    rw [FMap.rangeList_spec ht.cells.valid]
    simp only [bind, Except.bind, pure, Except.pure]
    rw [interFold h.cells]
    unfold buildMap at h1
    simp only [bind, Except.bind, pure, Except.pure] at h1 ⊢
    cases hf : List.foldlM (fun b kv => MapBuilder.put b kv.key kv.value) (Tree.zero : MapBuilder (BitVec w) CellMask)
      ((t.data.tree.list.map (fun e => (⟨e.key, ⟨F e.key &&& e.value.bits⟩⟩ : KeyValue (BitVec w) CellMask))).filter
        (fun e => decide (e.value.bits ≠ 0#64))) with
    | error e => rw [hf] at h1; cases h1
    | ok b => rw [hf] at h1; simp only at h1; injection h1 with h1; subst h1; simp
  · unfold memF
    rw [BitVec.getLsbD_and, Bool.and_eq_true]

/-! ### Union -/

theorem ones_xor_sub {x y : BitVec 64} : (ones ((x ||| y) ^^^ x) : Int) = ones (x ||| y) - ones x := by
  have : ones (x ||| y) = ones ((x ||| y) ^^^ x) + ones x := by
    apply ones_or_disjoint
    · intro i; rw [BitVec.getLsbD_xor, BitVec.getLsbD_or]; cases x.getLsbD i <;> cases y.getLsbD i <;> rfl
    · intro i; rw [BitVec.getLsbD_xor, BitVec.getLsbD_or]; cases x.getLsbD i <;> cases y.getLsbD i <;> simp
  omega

theorem unionFold (hs : Cells sg s.data F) : ∀ (es : List (Entry (BitVec w) CellMask)) (st : IntSet w) (H : BitVec w → BitVec 64),
    (es.map (·.key)).Nodup → (∀ e ∈ es, e.value.bits ≠ 0#64) → (∀ e ∈ es, ∀ b, e.value.bits.getLsbD b = true → CellLoc sg e.key b) →
    IntInv sg st H → (∀ e ∈ es, H e.key = F e.key) →
    ∃ s' , es.foldlM (unionStep s) st = .ok s' ∧ IntInv sg s' (fun c => H c ||| FL es c)
  | [], st, H, _, _, _, h, _ => ⟨st, rfl, by
      have : (fun c => H c ||| FL [] c) = H := by funext c; simp [FL]
      rw [this]; exact h⟩
  | e :: es, st, H, hn, h0, hl, h, hH => by
    rw [List.map_cons, List.nodup_cons] at hn
    have hkey : ∀ x ∈ es, x.key ≠ e.key := fun x hx he => hn.1 (he ▸ List.mem_map_of_mem hx)
    have he0 := h0 e (by simp)
    have hHe := hH e (by simp)
    have hstep : ∃ s1, unionStep s st e = .ok s1 ∧ IntInv sg s1 (updF H e.key (F e.key ||| e.value.bits)) := by
      have hu0 : F e.key ||| e.value.bits ≠ 0#64 := by
        obtain ⟨b, hb⟩ := ne_zero_iff_bit.1 he0
        exact ne_zero_iff_bit.2 ⟨b, by rw [BitVec.getLsbD_or, hb, Bool.or_true]⟩
      obtain ⟨d', g1, g2⟩ := h.cells.with e.key hu0 (by
        intro b hb
        rw [BitVec.getLsbD_or, Bool.or_eq_true] at hb
        rcases hb with hb | hb
        · exact hs.loc _ _ hb
        · exact hl e (by simp) b hb)
      unfold unionStep
      rw [hs.get]
      by_cases hF : F e.key = 0#64
      · have hz : F e.key ||| e.value.bits = e.value.bits := by rw [hF]; simp
        rw [hz] at g1 g2 ⊢
        refine ⟨⟨d', st.count + ones e.value.bits⟩, ?_, g2, ?_⟩
        · simp only [if_pos hF, bind, Except.bind, pure, Except.pure]
          have hv : (⟨e.value.bits⟩ : CellMask) = e.value := rfl
          rw [hv] at g1
          rw [g1]
        · show st.count + _ = _
          rw [total_upd, h.count, hHe, hF, ones_zero]; push_cast; ring
      · refine ⟨⟨d', st.count + ones ((F e.key ||| e.value.bits) ^^^ F e.key)⟩, ?_, g2, ?_⟩
        · simp only [if_neg hF, bind, Except.bind, pure, Except.pure]
          rw [g1]
        · show st.count + _ = _
          rw [total_upd, h.count, hHe, ones_xor_sub]; ring
    obtain ⟨s1, g1, g2⟩ := hstep
    obtain ⟨s', k1, k2⟩ := unionFold hs es s1 _ hn.2 (fun x hx => h0 x (by simp [hx])) (fun x hx => hl x (by simp [hx])) g2 (by
      intro x hx
      unfold updF
      rw [if_neg (fun g => hkey x hx g.symm)]
      exact hH x (by simp [hx]))
    refine ⟨s', by rw [List.foldlM_cons, g1]; exact k1, ?_⟩
    have : (fun c => H c ||| FL (e :: es) c) = (fun c => updF H e.key (F e.key ||| e.value.bits) c ||| FL es c) := by
      funext c
      rw [FL_cons]
      unfold updF
      by_cases hc : e.key = c
      · subst hc
        rw [if_pos rfl, if_pos rfl, FL_not_mem hkey, hHe]; simp
      · rw [if_neg hc, if_neg hc]
    rw [this]
    exact k2

theorem IntInv.union (h : IntInv sg s F) (ht : IntInv sg t G) :
    ∃ s' F', s.union t = .ok s' ∧ IntInv sg s' F' ∧ ∀ j, memF sg F' j ↔ memF sg F j ∨ memF sg G j := by
  obtain ⟨s', h1, h2⟩ := unionFold h.cells t.data.tree.list s F ht.cells.keys_nodup (fun e he => (ht.cells.mem_list.1 he).2)
    (fun e he b hb => ht.cells.loc _ _ (by rw [(ht.cells.mem_list.1 he).1]; exact hb)) h (fun _ _ => rfl)
  refine ⟨s', _, ?_, h2, fun j => ?_⟩
  · unfold IntSet.union
    rw [FMap.rangeList_spec ht.cells.valid]
    exact h1
  · unfold memF
    rw [ht.cells.FL_list, BitVec.getLsbD_or, Bool.or_eq_true]

/-! ### Comparing -/

theorem Cells.equal (h : Cells sg s.data F) (ht : Cells sg t.data G) : ∃ b, s.equal t = .ok b ∧ (b = true ↔ ∀ i, memF sg F i ↔ memF sg G i) := by
  obtain ⟨b, h1, h2⟩ := FMap.equal_spec h.valid ht.valid
  refine ⟨b, h1, h2.trans ?_⟩
  have hs : ∀ c, SameVal (s.data.tree.lk c) (t.data.tree.lk c) ↔ F c = G c := by
    intro c
    rw [h.lk, ht.lk]
    by_cases hF : F c = 0#64 <;> by_cases hG : G c = 0#64
    · simp [hF, hG, SameVal]
    · simp [hF, hG, SameVal, Ne.symm hG]
    · simp [hF, hG, SameVal]
    · simp [hF, hG, SameVal, GoKey.eq]
  constructor
  · intro g i
    unfold memF
    rw [(hs _).1 (g _)]
  · intro g c
    rw [hs, memF_ext h.loc ht.loc g]

theorem subsetLoop_spec (ht : Cells sg t.data G) : ∀ (es : List (Entry (BitVec w) CellMask)), (∀ e ∈ es, e.value.bits ≠ 0#64) →
    ∃ b, intSubsetLoop t es = .ok b ∧ (b = true ↔ ∀ e ∈ es, ∀ i, e.value.bits.getLsbD i = true → (G e.key).getLsbD i = true)
  | [], _ => ⟨true, rfl, by simp⟩
  | e :: es, h0 => by
    obtain ⟨b, h1, h2⟩ := subsetLoop_spec ht es (fun x hx => h0 x (by simp [hx]))
    have he0 := h0 e (by simp)
    rw [intSubsetLoop, ht.get]
    simp only [bind, Except.bind]
    by_cases hG : G e.key = 0#64
    · rw [if_pos hG]
      refine ⟨false, rfl, ?_⟩
      simp only [Bool.false_eq_true, false_iff]
      intro hc
      obtain ⟨i, hi⟩ := ne_zero_iff_bit.1 he0
      have := hc e (by simp) i hi
      rw [hG] at this
      simp at this
    · rw [if_neg hG]
      have hsub : e.value.bits &&& ~~~G e.key ≠ 0#64 ↔ ¬ ∀ i, e.value.bits.getLsbD i = true → (G e.key).getLsbD i = true := by
        rw [ne_zero_iff_bit]
        constructor
        · rintro ⟨i, hi⟩ hc
          rw [BitVec.getLsbD_and, BitVec.getLsbD_not, Bool.and_eq_true, Bool.and_eq_true] at hi
          rw [hc i hi.1] at hi
          simp at hi
        · intro hc
          obtain ⟨i, hi⟩ := Classical.not_forall.1 hc
          rw [Classical.not_imp] at hi
          have hlt : i < 64 := by
            by_contra hc
            rw [BitVec.getLsbD_of_ge _ _ (by omega)] at hi
            cases hi.1
          refine ⟨i, ?_⟩
          rw [BitVec.getLsbD_and, BitVec.getLsbD_not]
          have h2 : (G e.key).getLsbD i = false := by simpa using hi.2
          rw [hi.1, h2]
          simp [hlt]
      by_cases hs : e.value.bits &&& ~~~G e.key ≠ 0#64
      · refine ⟨false, if_pos hs, ?_⟩
        simp only [Bool.false_eq_true, false_iff]
        exact fun hc => hsub.1 hs (hc e (by simp))
      · refine ⟨b, by simp only [if_neg hs]; exact h1, h2.trans ?_⟩
        rw [hsub, not_not] at hs
        constructor
        · intro g x hx
          rcases List.mem_cons.1 hx with rfl | hx
          · exact hs
          · exact g x hx
        · exact fun g x hx => g x (by simp [hx])

theorem Cells.isSubsetOf (h : Cells sg s.data F) (ht : Cells sg t.data G) :
    ∃ b, s.isSubsetOf t = .ok b ∧ (b = true ↔ ∀ i, memF sg F i → memF sg G i) := by
  obtain ⟨b, h1, h2⟩ := subsetLoop_spec ht s.data.tree.list (fun e he => (h.mem_list.1 he).2)
  refine ⟨b, ?_, h2.trans ?_⟩
  · unfold IntSet.isSubsetOf
    rw [FMap.rangeList_spec h.valid]
    exact h1
  · constructor
    · intro g i hi
      have := g ⟨cellOf sg i, ⟨F (cellOf sg i)⟩⟩ (h.mem_list.2 ⟨rfl, ne_zero_iff_bit.2 ⟨_, hi⟩⟩) (bitOf sg i) hi
      exact this
    · intro g e he i hi
      rw [← (h.mem_list.1 he).1] at hi
      have := g _ (memF_val h.loc hi)
      unfold memF at this
      rwa [(h.loc _ _ hi).1, (h.loc _ _ hi).2] at this

/-! ### Programs -/

theorem IntProg.run_spec (hw : 8 ≤ w) (hw2 : w ≤ 64) : ∀ (p : IntProg w), p.AllStorable sg →
    ∃ s F, p.run sg = .ok s ∧ IntInv sg s F ∧ ∀ j, memF sg F j ↔ p.denote j
  | .new order ho is, h => newIntSet_spec hw hw2 order ho is h
  | .with p i, h => by
    obtain ⟨s, F, h1, h2, h3⟩ := IntProg.run_spec hw hw2 p h.1
    obtain ⟨s', F', g1, g2, g3⟩ := h2.with hw hw2 h.2
    exact ⟨s', F', by simp only [IntProg.run, h1, bind, Except.bind, g1], g2, fun j => by rw [g3, h3]; rfl⟩
  | .without p i, h => by
    obtain ⟨s, F, h1, h2, h3⟩ := IntProg.run_spec hw hw2 p h
    obtain ⟨s', F', g1, g2, g3⟩ := h2.without hw hw2 i
    exact ⟨s', F', by simp only [IntProg.run, h1, bind, Except.bind, g1], g2, fun j => by rw [g3, h3]; rfl⟩
  | .where p pred, h => by
    obtain ⟨s, F, h1, h2, h3⟩ := IntProg.run_spec hw hw2 p h
    obtain ⟨s', F', g1, g2, g3⟩ := h2.where hw hw2 pred
    exact ⟨s', F', by simp only [IntProg.run, h1, bind, Except.bind, g1], g2, fun j => by rw [g3, h3]; rfl⟩
  | .map p order ho f, h => by
    obtain ⟨s, F, h1, h2, h3⟩ := IntProg.run_spec hw hw2 p h.1
    obtain ⟨s', F', g1, g2, g3⟩ := newIntSet_spec hw hw2 (sg := sg) order ho ((cellElems s.data.tree.list).map f) (by
      intro i hi
      obtain ⟨j, hj, rfl⟩ := List.mem_map.1 hi
      exact h.2 j ((h3 j).1 ((h2.cells.mem_elems hw hw2 j).1 hj)))
    refine ⟨s', F', ?_, g2, fun j => ?_⟩
    · simp only [IntProg.run, h1, bind, Except.bind, IntSet.map, h2.cells.elements, g1]
    · rw [g3, List.mem_map]
      constructor
      · rintro ⟨i, hi, rfl⟩
        exact ⟨i, (h3 i).1 ((h2.cells.mem_elems hw hw2 i).1 hi), rfl⟩
      · rintro ⟨i, hi, rfl⟩
        exact ⟨i, (h2.cells.mem_elems hw hw2 i).2 ((h3 i).2 hi), rfl⟩
  | .union p q, h => by
    obtain ⟨s, F, h1, h2, h3⟩ := IntProg.run_spec hw hw2 p h.1
    obtain ⟨t, G, k1, k2, k3⟩ := IntProg.run_spec hw hw2 q h.2
    obtain ⟨s', F', g1, g2, g3⟩ := h2.union k2
    exact ⟨s', F', by simp only [IntProg.run, h1, k1, bind, Except.bind, g1], g2, fun j => by rw [g3, h3, k3]; rfl⟩
  | .intersection p q, h => by
    obtain ⟨s, F, h1, h2, h3⟩ := IntProg.run_spec hw hw2 p h.1
    obtain ⟨t, G, k1, k2, k3⟩ := IntProg.run_spec hw hw2 q h.2
    obtain ⟨s', F', g1, g2, g3⟩ := h2.intersection k2
    exact ⟨s', F', by simp only [IntProg.run, h1, k1, bind, Except.bind, g1], g2, fun j => by rw [g3, h3, k3]; rfl⟩

end Frozen
