import Verif.Proof.Powerset

/-! The sequence of subsets that the powerset iterators produce, for lists with or without repetitions. -/

set_option linter.unusedSectionVars false

namespace Frozen

variable {T : Type} [GoKey T] [LawfulGoKey T]

/-- One step: put in or take out the element at the lowest one-bit of `k`. -/
def pvStep (L : List T) (k : Nat) (P : T → Prop) (e : T) : Prop :=
  match L[tz (BitVec.ofNat 64 k)]? with
  | none => P e
  | some v => if k.testBit (tz (BitVec.ofNat 64 k) + 1) then P e ∧ ¬ GoKey.eq v e = true else P e ∨ GoKey.eq v e = true

/-- The subset number `i`. -/
def pv (L : List T) : Nat → T → Prop
  | 0, _ => False
  | i + 1, e => pvStep L (i + 1) (pv L i) e

omit [GoKey T] [LawfulGoKey T] in
theorem tz_ofNat64 {i : Nat} (hi0 : 0 < i) (hi : i < 2 ^ 64) : i.testBit (tz (BitVec.ofNat 64 i)) = true ∧
    ∀ j, j < tz (BitVec.ofNat 64 i) → i.testBit j = false := by
  have hne : BitVec.ofNat 64 i ≠ 0#64 := by
    intro h
    have := congrArg BitVec.toNat h
    rw [BitVec.toNat_ofNat, Nat.mod_eq_of_lt (by omega)] at this
    simp at this; omega
  have hb : ∀ j, (BitVec.ofNat 64 i).getLsbD j = i.testBit j := by
    intro j
    rw [BitVec.getLsbD_ofNat]
    by_cases hj : j < 64
    · simp [hj]
    · have : 2 ^ 64 ≤ 2 ^ j := Nat.pow_le_pow_right (by omega) (by omega)
      rw [Nat.testBit_lt_two_pow (by omega)]; simp
  obtain ⟨_, h1, h2⟩ := tz_spec hne
  rw [hb] at h1
  exact ⟨h1, fun j hj => by rw [← hb]; exact h2 j hj⟩

omit [GoKey T] [LawfulGoKey T] in
theorem tz_lt_of {i n : Nat} (hi0 : 0 < i) (hi : i < 2 ^ 64) (hn : i < 2 ^ n) : tz (BitVec.ofNat 64 i) < n := by
  by_contra hc
  have h1 := (tz_ofNat64 hi0 hi).1
  have hp : 2 ^ n ≤ 2 ^ tz (BitVec.ofNat 64 i) := Nat.pow_le_pow_right (by omega) (by omega)
  rw [Nat.testBit_lt_two_pow (by omega)] at h1
  cases h1

omit [GoKey T] [LawfulGoKey T] in
theorem tz_odd_mul {q m : Nat} (h : (2 * q + 1) * 2 ^ m < 2 ^ 64) : tz (BitVec.ofNat 64 ((2 * q + 1) * 2 ^ m)) = m := by
  have hpos : 0 < (2 * q + 1) * 2 ^ m := Nat.mul_pos (by omega) (Nat.two_pow_pos m)
  obtain ⟨h1, h2⟩ := tz_ofNat64 hpos h
  have hm : ((2 * q + 1) * 2 ^ m).testBit m = true := by
    rw [Nat.testBit_mul_two_pow]; simp
  have hl : ∀ j, j < m → ((2 * q + 1) * 2 ^ m).testBit j = false := by
    intro j hj
    rw [Nat.testBit_mul_two_pow]; simp [hj]
  rcases Nat.lt_trichotomy (tz (BitVec.ofNat 64 ((2 * q + 1) * 2 ^ m))) m with h | h | h
  · rw [hl _ h] at h1; cases h1
  · exact h
  · rw [h2 m h] at hm; cases hm

theorem pv_append {L L' : List T} : ∀ {i : Nat}, i < 2 ^ L.length → i < 2 ^ 64 → ∀ e, pv (L ++ L') i e ↔ pv L i e
  | 0, _, _, _ => Iff.rfl
  | i + 1, h, h64, e => by
    have ih := pv_append (L := L) (L' := L') (i := i) (by omega) (by omega)
    have htz := tz_lt_of (i := i + 1) (by omega) h64 h
    simp only [pv, pvStep, List.getElem?_append_left htz]
    split
    · exact ih e
    · split <;> simp only [ih e]

theorem pv_congr (L : List T) : ∀ (i : Nat) {a b : T}, GoKey.eq a b = true → (pv L i a ↔ pv L i b)
  | 0, _, _, _ => Iff.rfl
  | i + 1, a, b, h => by
    have ih := pv_congr L i h
    have hv : ∀ v, GoKey.eq v a = true ↔ GoKey.eq v b = true := fun v => ⟨fun g => PerGoKey.trans g h, fun g => PerGoKey.trans g (PerGoKey.symm h)⟩
    simp only [pv, pvStep]
    split
    · exact ih
    · split <;> simp only [ih, hv]

/-- Only listed elements are put in. -/
theorem pv_sub (L : List T) : ∀ (i : Nat) {e : T}, pv L i e → ∃ x ∈ L, GoKey.eq x e = true
  | 0, _, h => h.elim
  | i + 1, e, h => by
    simp only [pv, pvStep] at h
    split at h
    · exact pv_sub L i h
    · next v hv =>
      split at h
      · exact pv_sub L i h.1
      · rcases h with h | h
        · exact pv_sub L i h
        · exact ⟨v, List.mem_of_getElem? hv, h⟩

/-- `e` is among the first `m` elements. -/
def firstM (L : List T) (m : Nat) (e : T) : Prop := ∃ j, j < m ∧ ∃ x, L[j]? = some x ∧ GoKey.eq x e = true

/-- `e` is the element number `m - 1` and not before. -/
def newAt (L : List T) : Nat → T → Prop
  | 0, _ => False
  | m + 1, e => (∃ x, L[m]? = some x ∧ GoKey.eq x e = true) ∧ ¬ firstM L m e

theorem firstM_succ {L : List T} {m : Nat} {x : T} (hx : L[m]? = some x) (e : T) : firstM L (m + 1) e ↔ firstM L m e ∨ GoKey.eq x e = true := by
  constructor
  · rintro ⟨j, hj, y, hy, he⟩
    rcases Nat.lt_succ_iff_lt_or_eq.1 hj with h | h
    · exact .inl ⟨j, h, y, hy, he⟩
    · subst h; rw [hx] at hy; cases hy; exact .inr he
  · rintro (⟨j, hj, y, hy, he⟩ | he)
    · exact ⟨j, by omega, y, hy, he⟩
    · exact ⟨m, by omega, x, hx, he⟩

theorem newAt_succ {L : List T} {m : Nat} {x : T} (hx : L[m]? = some x) (e : T) : newAt L (m + 1) e ↔ GoKey.eq x e = true ∧ ¬ firstM L m e := by
  simp [newAt, hx]

theorem newAt_first {L : List T} : ∀ {m : Nat} {e : T}, newAt L m e → firstM L m e
  | m + 1, e, h => by
    obtain ⟨⟨x, hx, he⟩, _⟩ := h
    exact (firstM_succ hx e).2 (.inr he)

theorem firstM_congr {L : List T} {m : Nat} {a b : T} (h : GoKey.eq a b = true) : firstM L m a ↔ firstM L m b :=
  ⟨fun ⟨j, hj, x, hx, he⟩ => ⟨j, hj, x, hx, PerGoKey.trans he h⟩,
    fun ⟨j, hj, x, hx, he⟩ => ⟨j, hj, x, hx, PerGoKey.trans he (PerGoKey.symm h)⟩⟩

omit [GoKey T] [LawfulGoKey T] in
theorem mid_eq (q m : Nat) : (2 * q + 1) * 2 ^ m = q * 2 ^ (m + 1) + 2 ^ m := by
  rw [Nat.pow_succ, Nat.add_mul, Nat.one_mul]
  have : 2 * q * 2 ^ m = q * (2 ^ m * 2) := by rw [Nat.mul_comm 2 q, Nat.mul_assoc, Nat.mul_comm 2]
  omega

/-- The step in the middle of a block. -/
theorem pv_mid {L : List T} {m q : Nat} {x : T} (hx : L[m]? = some x) (h : q * 2 ^ (m + 1) + 2 ^ (m + 1) ≤ 2 ^ 64) (e : T) :
    pv L ((2 * q + 1) * 2 ^ m) e ↔ if q % 2 = 1 then pv L (2 * q * 2 ^ m + 2 ^ m - 1) e ∧ ¬ GoKey.eq x e = true
      else pv L (2 * q * 2 ^ m + 2 ^ m - 1) e ∨ GoKey.eq x e = true := by
  have hpos := Nat.two_pow_pos m
  have hmid := mid_eq q m
  have h2 : 2 ^ (m + 1) = 2 ^ m * 2 := Nat.pow_succ 2 m
  have h3 : 2 * q * 2 ^ m = q * 2 ^ (m + 1) := by rw [h2, Nat.mul_comm 2 q, Nat.mul_assoc, Nat.mul_comm 2]
  have hlt : (2 * q + 1) * 2 ^ m < 2 ^ 64 := by omega
  have htz := tz_odd_mul hlt
  have hbit : ((2 * q + 1) * 2 ^ m).testBit (m + 1) = decide (q % 2 = 1) := by
    rw [Nat.testBit_mul_two_pow]
    simp only [show m ≤ m + 1 by omega, decide_true, Bool.true_and, Nat.add_sub_cancel_left]
    rw [Nat.testBit_eq_decide_div_mod_eq]
    congr 1
    rw [show (2 * q + 1) / 2 ^ 1 = q by omega]
  obtain ⟨c, hc⟩ : ∃ c, (2 * q + 1) * 2 ^ m = c + 1 := ⟨(2 * q + 1) * 2 ^ m - 1, by omega⟩
  have hc' : 2 * q * 2 ^ m + 2 ^ m - 1 = c := by omega
  rw [hc', hc]
  rw [hc] at htz hbit
  simp only [pv, pvStep, htz, hx, hbit]
  by_cases hq : q % 2 = 1 <;> simp [hq]

/-- A block of `2 ^ m` subsets starting at a multiple of `2 ^ m`: what the last one is. -/
theorem pv_end (L : List T) : ∀ (m : Nat), m ≤ L.length → ∀ (q : Nat), q * 2 ^ m + 2 ^ m ≤ 2 ^ 64 → ∀ e,
    pv L (q * 2 ^ m + 2 ^ m - 1) e ↔ (pv L (q * 2 ^ m) e ∧ ¬ firstM L m e) ∨ (q % 2 = 0 ∧ newAt L m e) := by
  intro m
  induction m with
  | zero =>
    intro _ q _ e
    simp [firstM, newAt]
  | succ m ih =>
    intro hm q hb e
    obtain ⟨x, hx⟩ : ∃ x, L[m]? = some x := ⟨_, List.getElem?_eq_getElem (by omega)⟩
    have hpos := Nat.two_pow_pos m
    have h2 : 2 ^ (m + 1) = 2 ^ m * 2 := Nat.pow_succ 2 m
    have h3 : 2 * q * 2 ^ m = q * 2 ^ (m + 1) := by rw [h2, Nat.mul_comm 2 q, Nat.mul_assoc, Nat.mul_comm 2]
    have hmid := mid_eq q m
    have h1 := ih (by omega) (2 * q) (by omega) e
    have h4 := ih (by omega) (2 * q + 1) (by omega) e
    have h5 := pv_mid hx hb e
    rw [show q * 2 ^ (m + 1) + 2 ^ (m + 1) - 1 = (2 * q + 1) * 2 ^ m + 2 ^ m - 1 by omega, h4, h5, h1, h3, firstM_succ hx, newAt_succ hx]
    have h6 : (2 * q + 1) % 2 ≠ 0 := by omega
    have h7 : 2 * q % 2 = 0 := by omega
    have h8 : newAt L m e → firstM L m e := newAt_first
    rcases Nat.mod_two_eq_zero_or_one q with hq | hq
    · simp only [hq, h6, h7, false_and, or_false, if_neg (by omega : ¬ (0 = 1)), true_and]
      clear * - h8
      grind
    · simp only [hq, h6, h7, false_and, or_false, if_true, true_and, (by omega : ¬ (1 = 0))]
      clear * - h8
      grind

/-- A block meets every subset of the first `m` elements, if it starts with none of them (going forward) or with the newest of them
(going back). -/
theorem pv_cover (L : List T) : ∀ (m : Nat), m ≤ L.length → ∀ (q : Nat), q * 2 ^ m + 2 ^ m ≤ 2 ^ 64 →
    (∀ e, firstM L m e → (pv L (q * 2 ^ m) e ↔ q % 2 = 1 ∧ newAt L m e)) →
    ∀ Q : T → Prop, (∀ a b, GoKey.eq a b = true → (Q a ↔ Q b)) → (∀ e, Q e → firstM L m e) →
    ∃ i, q * 2 ^ m ≤ i ∧ i < q * 2 ^ m + 2 ^ m ∧ ∀ e, pv L i e ↔ Q e ∨ (pv L (q * 2 ^ m) e ∧ ¬ firstM L m e) := by
  intro m
  induction m with
  | zero =>
    intro _ q _ _ Q _ hQ
    refine ⟨q * 2 ^ 0, Nat.le_refl _, by simp, fun e => ?_⟩
    have hn : ¬ firstM L 0 e := fun ⟨j, hj, _⟩ => by omega
    have : ¬ Q e := fun h => hn (hQ e h)
    simp [hn, this]
  | succ m ih =>
    intro hm q hb hclean Q hQc hQ
    obtain ⟨x, hx⟩ : ∃ x, L[m]? = some x := ⟨_, List.getElem?_eq_getElem (by omega)⟩
    have hpos := Nat.two_pow_pos m
    have h2 : 2 ^ (m + 1) = 2 ^ m * 2 := Nat.pow_succ 2 m
    have h3 : 2 * q * 2 ^ m = q * 2 ^ (m + 1) := by rw [h2, Nat.mul_comm 2 q, Nat.mul_assoc, Nat.mul_comm 2]
    have hmid := mid_eq q m
    have hF := firstM_succ hx
    have hN := newAt_succ hx
    have hend := pv_end L m (by omega) (2 * q) (by omega)
    have hstep := pv_mid hx hb
    have h7 : 2 * q % 2 = 0 := by omega
    have h6 : (2 * q + 1) % 2 = 1 := by omega
    have hnf : ∀ e, newAt L m e → firstM L m e := fun e => newAt_first
    have hxe : ∀ e, GoKey.eq x e = true → (firstM L m e ↔ firstM L m x) := fun e he => firstM_congr (PerGoKey.symm he)
    have hQx : ∀ e, GoKey.eq x e = true → (Q e ↔ Q x) := fun e he => hQc e x (PerGoKey.symm he)
    -- the first half starts clean in every case
    have hclean1 : ∀ e, firstM L m e → (pv L (2 * q * 2 ^ m) e ↔ 2 * q % 2 = 1 ∧ newAt L m e) := by
      intro e he
      have := hclean e ((hF e).2 (.inl he))
      rw [h3, this, hN e]
      simp [he, h7]
    -- use the first half
    have first : ∀ Q' : T → Prop, (∀ a b, GoKey.eq a b = true → (Q' a ↔ Q' b)) → (∀ e, Q' e → firstM L m e) →
        (∀ e, (Q' e ∨ (pv L (q * 2 ^ (m + 1)) e ∧ ¬ firstM L m e)) ↔ Q e ∨ (pv L (q * 2 ^ (m + 1)) e ∧ ¬ firstM L (m + 1) e)) →
        ∃ i, q * 2 ^ (m + 1) ≤ i ∧ i < q * 2 ^ (m + 1) + 2 ^ (m + 1) ∧ ∀ e, pv L i e ↔ Q e ∨ (pv L (q * 2 ^ (m + 1)) e ∧ ¬ firstM L (m + 1) e) := by
      intro Q' g1 g2 g3
      obtain ⟨i, i1, i2, i3⟩ := ih (by omega) (2 * q) (by omega) hclean1 Q' g1 g2
      refine ⟨i, by omega, by omega, fun e => ?_⟩
      rw [i3 e, h3, g3 e]
    by_cases hdup : firstM L m x
    · -- a repetition: the first half has all
      have hFF : ∀ e, firstM L (m + 1) e ↔ firstM L m e := fun e => by
        rw [hF e]; exact ⟨fun h => h.elim id fun h => (hxe e h).2 hdup, .inl⟩
      exact first Q hQc (fun e he => (hFF e).1 (hQ e he)) fun e => by rw [hFF e]
    · have hxn : ∀ e, GoKey.eq x e = true → ¬ firstM L m e := fun e he h => hdup ((hxe e he).1 h)
      have hQ' : ∀ a b, GoKey.eq a b = true → ((Q a ∧ firstM L m a) ↔ (Q b ∧ firstM L m b)) := fun a b h => by rw [hQc a b h, firstM_congr h]
      -- the start of the second half
      have hV : ∀ e, pv L ((2 * q + 1) * 2 ^ m) e ↔ if q % 2 = 1 then ((pv L (q * 2 ^ (m + 1)) e ∧ ¬ firstM L m e) ∨ newAt L m e) ∧ ¬ GoKey.eq x e = true
          else ((pv L (q * 2 ^ (m + 1)) e ∧ ¬ firstM L m e) ∨ newAt L m e) ∨ GoKey.eq x e = true := by
        intro e
        rw [hstep e, hend e, h3]
        simp [h7]
      have hclean2 : ∀ e, firstM L m e → (pv L ((2 * q + 1) * 2 ^ m) e ↔ (2 * q + 1) % 2 = 1 ∧ newAt L m e) := by
        intro e he
        have hne : ¬ GoKey.eq x e = true := fun h => hxn e h he
        rw [hV e]
        split <;> simp [he, hne, h6]
      have second : (∀ e, ((Q e ∧ firstM L m e) ∨ (pv L ((2 * q + 1) * 2 ^ m) e ∧ ¬ firstM L m e)) ↔ Q e ∨ (pv L (q * 2 ^ (m + 1)) e ∧ ¬ firstM L (m + 1) e)) →
          ∃ i, q * 2 ^ (m + 1) ≤ i ∧ i < q * 2 ^ (m + 1) + 2 ^ (m + 1) ∧ ∀ e, pv L i e ↔ Q e ∨ (pv L (q * 2 ^ (m + 1)) e ∧ ¬ firstM L (m + 1) e) := by
        intro g
        obtain ⟨i, i1, i2, i3⟩ := ih (by omega) (2 * q + 1) (by omega) hclean2 _ hQ' (fun e he => he.2)
        exact ⟨i, by omega, by omega, fun e => by rw [i3 e, g e]⟩
      rcases Nat.mod_two_eq_zero_or_one q with hq | hq
      · -- forward
        have hV0 : ∀ e, firstM L (m + 1) e → ¬ pv L (q * 2 ^ (m + 1)) e := fun e he h => by
          have := (hclean e he).1 h; omega
        by_cases hqx : Q x
        · refine second fun e => ?_
          have a1 := hV0 e
          have a2 := hQ e
          have a3 := hnf e
          have a4 := hxn e
          have a5 := hQx e
          rw [hV e, if_neg (by omega)]
          rw [hF e] at *
          clear * - a1 a2 a3 a4 a5 hqx
          grind
        · refine first Q hQc (fun e he => ?_) fun e => ?_
          · rcases (hF e).1 (hQ e he) with h | h
            · exact h
            · exact (hqx ((hQx e h).1 he)).elim
          · have a1 := hV0 e
            rw [hF e] at *
            clear * - a1
            grind
      · have hV1 : ∀ e, firstM L (m + 1) e → (pv L (q * 2 ^ (m + 1)) e ↔ GoKey.eq x e = true) := fun e he => by
          rw [hclean e he, hN e]
          constructor
          · exact fun h => h.2.1
          · exact fun h => ⟨hq, h, hxn e h⟩
        by_cases hqx : Q x
        · refine first (fun e => Q e ∧ firstM L m e) hQ' (fun e he => he.2) fun e => ?_
          have a1 := hV1 e
          have a2 := hQ e
          have a4 := hxn e
          have a5 := hQx e
          rw [hF e] at *
          clear * - a1 a2 a4 a5 hqx
          grind
        · refine second fun e => ?_
          have a1 := hV1 e
          have a2 := hQ e
          have a3 := hnf e
          have a4 := hxn e
          have a5 := hQx e
          rw [hV e, if_pos hq]
          rw [hF e] at *
          clear * - a1 a2 a3 a4 a5 hqx
          grind

/-- Every subset of the listed elements has a number. -/
theorem pv_surj {L : List T} (hL : L.length ≤ 64) {Q : T → Prop} (hQc : ∀ a b, GoKey.eq a b = true → (Q a ↔ Q b))
    (hQ : ∀ e, Q e → ∃ x ∈ L, GoKey.eq x e = true) : ∃ i, i < 2 ^ L.length ∧ ∀ e, pv L i e ↔ Q e := by
  have h64 : 2 ^ L.length ≤ 2 ^ 64 := Nat.pow_le_pow_right (by omega) hL
  obtain ⟨i, _, h2, h3⟩ := pv_cover L L.length (Nat.le_refl _) 0 (by omega) (fun e _ => by simp [pv]) Q hQc (fun e he => by
    obtain ⟨x, hx, hxe⟩ := hQ e he
    obtain ⟨j, hj, rfl⟩ := List.mem_iff_getElem.1 hx
    exact ⟨j, hj, _, List.getElem?_eq_getElem hj, hxe⟩)
  refine ⟨i, by omega, fun e => ?_⟩
  rw [h3 e]
  simp [pv]

/-- Without repetitions the numbers are those of the Gray code. -/
theorem pv_gray {L : List T} (hd : Distinct L) (hL : L.length ≤ 64) : ∀ {i : Nat}, i < 2 ^ L.length → ∀ e, pv L i e ↔ maskSet L (gray i) e
  | 0, _, e => ⟨fun h => h.elim, fun ⟨j, x, h, _⟩ => by simp [gray] at h⟩
  | i + 1, h, e => by
    have h64 : 2 ^ L.length ≤ 2 ^ 64 := Nat.pow_le_pow_right (by omega) hL
    have hm := pv_gray hd hL (i := i) (by omega)
    obtain ⟨ht, hl⟩ := tz_ofNat64 (i := i + 1) (by omega) (by omega)
    have htl := tz_lt_of (i := i + 1) (by omega) (by omega) h
    simp only [pv, pvStep]
    generalize tz (BitVec.ofNat 64 (i + 1)) = t at ht hl htl
    have hx : L[t]? = some L[t] := List.getElem?_eq_getElem htl
    have hgs := gray_step (i := i + 1) ht hl
    rw [Nat.add_sub_cancel] at hgs
    simp only [hx]
    by_cases hb : (i + 1).testBit (t + 1) = true
    · rw [if_pos hb, hm]
      constructor
      · rintro ⟨⟨j, x, g1, g2, g3⟩, hne⟩
        refine ⟨j, x, ?_, g2, g3⟩
        rw [hgs, if_neg]; exact g1
        rintro rfl
        rw [hx] at g2; cases g2
        exact hne g3
      · rintro ⟨j, x, g1, g2, g3⟩
        have hj : j ≠ t := by
          rintro rfl
          rw [hgs, if_pos rfl, hb] at g1; cases g1
        rw [hgs, if_neg hj] at g1
        refine ⟨⟨j, x, g1, g2, g3⟩, fun hne => hj ?_⟩
        exact getElem?_distinct hd g2 hx (PerGoKey.trans g3 (PerGoKey.symm hne))
    · rw [if_neg hb, hm]
      constructor
      · rintro (⟨j, x, g1, g2, g3⟩ | hne)
        · by_cases hj : j = t
          · subst hj
            exact ⟨j, x, by rw [hgs, if_pos rfl]; simpa using hb, g2, g3⟩
          · exact ⟨j, x, by rw [hgs, if_neg hj]; exact g1, g2, g3⟩
        · exact ⟨t, L[t], by rw [hgs, if_pos rfl]; simpa using hb, hx, hne⟩
      · rintro ⟨j, x, g1, g2, g3⟩
        by_cases hj : j = t
        · subst hj
          rw [hx] at g2; cases g2
          exact .inr g3
        · rw [hgs, if_neg hj] at g1
          exact .inl ⟨j, x, g1, g2, g3⟩

/-- Without repetitions different numbers are different subsets. -/
theorem pv_inj {L : List T} (hd : Distinct L) (hL : L.length ≤ 64) {i j : Nat} (hi : i < 2 ^ L.length) (hj : j < 2 ^ L.length)
    (h : ∀ e, pv L i e ↔ pv L j e) : i = j :=
  gray_inj (maskSet_inj hd (gray_lt hi) (gray_lt hj) fun e => ((pv_gray hd hL hi e).symm.trans (h e)).trans (pv_gray hd hL hj e))

end Frozen
