import Verif.Model.Basic
import Mathlib.Data.Nat.Bitwise
import Mathlib.Data.List.Nodup
import Mathlib.Data.List.FinRange

/-! Lemmas about one-bit enumeration and masks. -/

namespace Frozen

theorem find?_range_some {w : Nat} {p : Nat → Bool} {t : Nat} (h : (List.range w).find? p = some t) :
    t < w ∧ p t = true ∧ ∀ j < t, p j = false := by
  have h1 := List.mem_of_find?_eq_some h
  have h2 := List.find?_some h
  refine ⟨List.mem_range.1 h1, h2, ?_⟩
  intro j hj
  rw [List.find?_eq_some_iff_append] at h
  obtain ⟨_, as, bs, hl, has⟩ := h
  have hlen : as.length = t := by
    have := congrArg (fun l => l[as.length]?) hl
    simp only [List.getElem?_append_right (Nat.le_refl _), Nat.sub_self, List.getElem?_cons_zero] at this
    rw [List.getElem?_eq_some_iff] at this
    obtain ⟨_, h⟩ := this
    simpa using h
  have hj' : j ∈ as := by
    have : as = List.range t := by
      have := congrArg (List.take t) hl
      have ht := List.mem_range.1 h1
      rw [List.take_append_of_le_length (by omega), List.take_of_length_le (l := as) (by omega), List.take_range] at this
      rw [← this]; congr 1; omega
    rw [this]; simpa using hj
  simpa using has j hj'

theorem tz_spec {w : Nat} {x : BitVec w} (hx : x ≠ 0#w) :
    tz x < w ∧ x.getLsbD (tz x) = true ∧ ∀ j < tz x, x.getLsbD j = false := by
  unfold tz
  cases h : (List.range w).find? (fun i => x.getLsbD i) with
  | some t => exact find?_range_some (p := fun i => x.getLsbD i) h
  | none =>
    exfalso; apply hx
    apply BitVec.eq_of_getLsbD_eq
    intro i hi
    rw [List.find?_eq_none] at h
    simpa using h i (List.mem_range.2 hi)

theorem tz_zero {w : Nat} : tz (0#w) = w := by
  unfold tz
  have : (List.range w).find? (fun i => (0#w).getLsbD i) = none := by
    rw [List.find?_eq_none]; intro i _; simp
  rw [this]; rfl

/-- `x & (x-1)` clears exactly the lowest one-bit. -/
theorem getLsbD_clearLow {w : Nat} {x : BitVec w} (hx : x ≠ 0#w) (i : Nat) :
    (clearLow x).getLsbD i = (x.getLsbD i && decide (i ≠ tz x)) := by
  obtain ⟨htw, hbit, hlow⟩ := tz_spec hx
  generalize tz x = t at *
  by_cases hi : i < w
  swap
  · simp [clearLow, BitVec.getLsbD_of_ge _ _ (Nat.le_of_not_lt hi)]
  set n := x.toNat with hn
  have hnw : n < 2 ^ w := x.isLt
  have hb : n.testBit t = true := by simpa [BitVec.getLsbD] using hbit
  have hl : ∀ j < t, n.testBit j = false := by
    intro j hj; simpa [BitVec.getLsbD] using hlow j hj
  -- decompose n
  have hmod : n % 2 ^ (t + 1) = 2 ^ t := by
    apply Nat.eq_of_testBit_eq
    intro j
    rw [Nat.testBit_mod_two_pow, Nat.testBit_two_pow]
    rcases Nat.lt_trichotomy j t with h | h | h
    · simp [hl j h]; omega
    · subst h; simp [hb]
    · have : ¬ j < t + 1 := by omega
      simp [this]; omega
  set q := n / 2 ^ (t + 1) with hq
  have hdec : n = 2 ^ (t + 1) * q + 2 ^ t := by
    have := Nat.div_add_mod n (2 ^ (t + 1)); rw [hmod, ← hq] at this; exact this.symm
  have h1w : 1 % 2 ^ w = 1 := by
    apply Nat.mod_eq_of_lt
    exact Nat.one_lt_two_pow (by omega)
  have hpos : 0 < 2 ^ t := Nat.two_pow_pos t
  have hpw : 2 ^ t < 2 ^ (t+1) := Nat.pow_lt_pow_right (by decide) (by omega)
  have hsub : (x - 1#w).toNat = 2 ^ (t + 1) * q + (2 ^ t - 1) := by
    rw [BitVec.toNat_sub]
    simp only [BitVec.toNat_ofNat, h1w, ← hn]
    have : 2 ^ w - 1 + n = (n - 1) + 2 ^ w := by omega
    rw [this, Nat.add_mod_right, Nat.mod_eq_of_lt (by omega)]
    omega
  have hs : (x - 1#w).getLsbD i = (2 ^ (t + 1) * q + (2 ^ t - 1)).testBit i := by
    rw [BitVec.getLsbD, hsub]
  have hx' : x.getLsbD i = (2 ^ (t + 1) * q + 2 ^ t).testBit i := by
    rw [BitVec.getLsbD, ← hn, ← hdec]
  unfold clearLow
  rw [BitVec.getLsbD_and, hs, hx', Nat.testBit_two_pow_mul_add q hpw,
    Nat.testBit_two_pow_mul_add q (show 2 ^ t - 1 < 2 ^ (t + 1) by omega)]
  by_cases h : i < t + 1
  · simp only [h, if_true, Nat.testBit_two_pow, Nat.testBit_two_pow_sub_one]
    by_cases h2 : i = t
    · subst h2; simp
    · have h3 : ¬ t = i := fun h => h2 h.symm
      simp [h3]
  · simp only [h, if_false, Bool.and_self]
    have : i ≠ t := by omega
    simp [this]

theorem filter_split {l : List Nat} {p : Nat → Bool} {t : Nat} (hn : l.Nodup) (h : l.find? p = some t) :
    l.filter p = t :: l.filter (fun i => p i && decide (i ≠ t)) := by
  induction l with
  | nil => simp at h
  | cons a l ih =>
    rw [List.nodup_cons] at hn
    by_cases hp : p a = true
    · rw [List.find?_cons_of_pos (h := hp)] at h
      obtain rfl : a = t := by simpa using h
      simp only [List.filter_cons, hp, if_true, ne_eq, not_true_eq_false, decide_false, Bool.and_false,
        Bool.false_eq_true, if_false]
      congr 1
      apply List.filter_congr
      intro x hx
      have : x ≠ a := fun he => hn.1 (he ▸ hx)
      simp [this]
    · rw [List.find?_cons_of_neg (h := hp)] at h
      have := ih hn.2 h
      simp only [List.filter_cons, hp, Bool.false_eq_true, if_false, Bool.false_and]
      exact this

theorem ones_clearLow {w : Nat} {x : BitVec w} (hx : x ≠ 0#w) : ones x = ones (clearLow x) + 1 := by
  unfold ones
  have hf : (List.range w).find? (fun i => x.getLsbD i) = some (tz x) := by
    cases h : (List.range w).find? (fun i => x.getLsbD i) with
    | some t => simp [tz, h]
    | none =>
      exfalso
      have := (tz_spec hx)
      rw [List.find?_eq_none] at h
      have h2 := h _ (List.mem_range.2 this.1)
      simp [this.2.1] at h2
  rw [filter_split List.nodup_range hf]
  simp only [List.length_cons]
  congr 2
  apply List.filter_congr
  intro i _
  rw [getLsbD_clearLow hx]

theorem ones_zero {w : Nat} : ones (0#w) = 0 := by simp [ones]

theorem bitLoopAux_eq {w : Nat} : ∀ (n : Nat) (x : BitVec w), ones x ≤ n →
    bitLoopAux n x = (List.range w).filter (fun i => x.getLsbD i)
  | 0, x, h => by
    have : ones x = 0 := by omega
    unfold ones at this
    rw [List.length_eq_zero_iff] at this
    rw [this]; rfl
  | n + 1, x, h => by
    unfold bitLoopAux
    by_cases hx : x = 0#w
    · subst hx; simp
    · rw [if_neg hx, bitLoopAux_eq n (clearLow x) (by have := ones_clearLow hx; omega)]
      have hf : (List.range w).find? (fun i => x.getLsbD i) = some (tz x) := by
        cases h : (List.range w).find? (fun i => x.getLsbD i) with
        | some t => simp [tz, h]
        | none =>
          exfalso
          have := (tz_spec hx)
          rw [List.find?_eq_none] at h
          have h2 := h _ (List.mem_range.2 this.1)
          simp [this.2.1] at h2
      rw [filter_split List.nodup_range hf]
      congr 1
      apply List.filter_congr
      intro i _
      rw [getLsbD_clearLow hx]

theorem ones_le {w : Nat} (x : BitVec w) : ones x ≤ w := by
  unfold ones
  exact (List.length_filter_le _ _).trans (by simp)

/-- The loop visits exactly the one-bits, in increasing order. -/
theorem bitLoop_eq {w : Nat} (x : BitVec w) : bitLoop x = (List.range w).filter (fun i => x.getLsbD i) :=
  bitLoopAux_eq w x (ones_le x)

/-- The loop equation, free of fuel. -/
theorem bitLoop_unfold {w : Nat} (x : BitVec w) :
    bitLoop x = if x = 0#w then [] else tz x :: bitLoop (clearLow x) := by
  by_cases hx : x = 0#w
  · subst hx; simp [bitLoop_eq]
  · rw [if_neg hx, bitLoop_eq (clearLow x)]
    cases w with
    | zero => exact absurd (BitVec.eq_of_getLsbD_eq (by intro i hi; omega)) hx
    | succ w =>
      rw [bitLoop, bitLoopAux, if_neg hx, bitLoopAux_eq w]
      have := ones_clearLow hx; have := ones_le x; omega

/-- Slot indices of a mask. -/
def slots (m : Masker) : List (Fin 8) := (List.finRange 8).filter (fun i => m.getLsbD i)

/-- A mask without bits beyond the slot array. -/
def MaskOk (m : Masker) : Prop := ∀ i, m.getLsbD i = true → i < 8

theorem mem_slots {m : Masker} {i : Fin 8} : i ∈ slots m ↔ m.getLsbD i = true := by
  simp [slots]

theorem nodup_slots (m : Masker) : (slots m).Nodup := (List.nodup_finRange 8).filter _

theorem bitLoop_slots {m : Masker} (h : MaskOk m) : bitLoop m = (slots m).map Fin.val := by
  rw [bitLoop_eq]
  have h16 : List.range 16 = List.range 8 ++ (List.range 8).map (8 + ·) := by decide
  have h8 : List.range 8 = (List.finRange 8).map Fin.val := by decide
  rw [h16, List.filter_append]
  have : ((List.range 8).map (8 + ·)).filter (fun i => m.getLsbD i) = [] := by
    rw [List.filter_eq_nil_iff]
    intro a ha
    simp only [List.mem_map] at ha
    obtain ⟨b, _, rfl⟩ := ha
    intro hc
    have := h _ hc
    omega
  rw [this, List.append_nil, h8, List.filter_map]
  rfl

theorem getLsbD_newMasker (i : Fin 8) (j : Nat) : (newMasker i).getLsbD j = decide (j = i.val) := by
  unfold newMasker
  have : 1#16 <<< i.val = BitVec.twoPow 16 i.val := by
    apply BitVec.eq_of_toNat_eq
    simp [BitVec.toNat_twoPow, Nat.shiftLeft_eq]
  rw [this, BitVec.getLsbD_twoPow]
  have := i.isLt
  by_cases h : j = i.val
  · subst h; simp; omega
  · have : ¬ i.val = j := fun e => h e.symm
    simp [h, this]

theorem MaskOk.or {a b : Masker} (ha : MaskOk a) (hb : MaskOk b) : MaskOk (a ||| b) := by
  intro i h
  simp only [BitVec.getLsbD_or, Bool.or_eq_true] at h
  rcases h with h | h
  · exact ha i h
  · exact hb i h

theorem MaskOk.and {a b : Masker} (ha : MaskOk a) : MaskOk (a &&& b) := by
  intro i h
  simp only [BitVec.getLsbD_and, Bool.and_eq_true] at h
  exact ha i h.1

/-! ### The sequential `Parallel` loop -/

section Par
variable {σ α : Type}

theorem parallelLoop_write (data : σ → Fin 8 → α) (f : Fin 8 → σ → Go (σ × Bool × Int)) (R : Fin 8 → α × Int) :
    ∀ (is : List (Fin 8)), is.Nodup →
    (∀ i ∈ is, ∀ s, ∃ s', f i s = .ok (s', true, (R i).2) ∧ ∀ j, data s' j = if j = i then (R i).1 else data s j) →
    ∀ s ms, ∃ s', parallelLoop f (is.map Fin.val) s ms = .ok (s', true, ms + (is.map fun i => (R i).2).sum) ∧
      ∀ j, data s' j = if j ∈ is then (R j).1 else data s j
  | [], _, _, s, ms => ⟨s, by simp [parallelLoop], by simp⟩
  | i :: is, hn, hf, s, ms => by
    rw [List.nodup_cons] at hn
    obtain ⟨s1, h1, h1'⟩ := hf i (by simp) s
    obtain ⟨s2, h2, h2'⟩ := parallelLoop_write data f R is hn.2 (fun j hj => hf j (by simp [hj])) s1 (ms + (R i).2)
    refine ⟨s2, ?_, ?_⟩
    · simp only [List.map_cons, parallelLoop, i.isLt, dite_true, Fin.eta, h1, bind, Except.bind, Bool.not_true,
        Bool.false_eq_true, if_false, h2, List.sum_cons]
      rw [Int.add_assoc]
    · intro j
      rw [h2' j]
      by_cases hj : j = i
      · subst hj; simp [hn.1, h1']
      · by_cases hj2 : j ∈ is
        · simp [hj2]
        · simp [hj, hj2, h1']

theorem parallel_write (data : σ → Fin 8 → α) (f : Fin 8 → σ → Go (σ × Bool × Int)) (R : Fin 8 → α × Int)
    {m : Masker} (hm : MaskOk m)
    (hf : ∀ i : Fin 8, m.getLsbD i = true → ∀ s, ∃ s', f i s = .ok (s', true, (R i).2) ∧
      ∀ j, data s' j = if j = i then (R i).1 else data s j) (s : σ) :
    ∃ s', parallel m s f = .ok (s', true, ((slots m).map fun i => (R i).2).sum) ∧
      ∀ j, data s' j = if m.getLsbD j then (R j).1 else data s j := by
  obtain ⟨s', h, h'⟩ := parallelLoop_write data f R (slots m) (nodup_slots m) (fun i hi => hf i (mem_slots.1 hi)) s 0
  refine ⟨s', ?_, ?_⟩
  · rw [parallel, bitLoop_slots hm, h]; simp
  · intro j; rw [h' j]; simp only [mem_slots]

/-- A loop that only computes a conjunction. -/
theorem parallelLoop_all (f : Fin 8 → Unit → Go (Unit × Bool × Int)) (r : Fin 8 → Bool) :
    ∀ (is : List (Fin 8)), (∀ i ∈ is, f i () = .ok ((), r i, 0)) →
    parallelLoop f (is.map Fin.val) () 0 = .ok ((), is.all r, 0)
  | [], _ => by simp [parallelLoop]
  | i :: is, hf => by
    have h1 := hf i (by simp)
    have h2 := parallelLoop_all f r is (fun j hj => hf j (by simp [hj]))
    simp only [List.map_cons, parallelLoop, i.isLt, dite_true, Fin.eta, h1, bind, Except.bind, List.all_cons]
    cases hr : r i <;> simp [h2, pure, Except.pure]

theorem parallel_all (f : Fin 8 → Unit → Go (Unit × Bool × Int)) (r : Fin 8 → Bool) {m : Masker} (hm : MaskOk m)
    (hf : ∀ i : Fin 8, m.getLsbD i = true → f i () = .ok ((), r i, 0)) :
    parallel m () f = .ok ((), (slots m).all r, 0) := by
  rw [parallel, bitLoop_slots hm, parallelLoop_all f r _ (fun i hi => hf i (mem_slots.1 hi))]

end Par

end Frozen
