import Verif.Model.Bits
import Verif.Proof.Bits
import Verif.Proof.SetElems
import Mathlib.Tactic.Ring

set_option linter.unusedSectionVars false

namespace Frozen

instance {T : Type} [GoKey T] [PrimKey T] : LawfulGoKey T where
  refl a := (PrimKey.eq_iff a a).2 rfl
  symm h := (PrimKey.eq_iff _ _).2 ((PrimKey.eq_iff _ _).1 h).symm
  trans h g := (PrimKey.eq_iff _ _).2 (((PrimKey.eq_iff _ _).1 h).trans ((PrimKey.eq_iff _ _).1 g))
  hash_congr s a b h := by rw [(PrimKey.eq_iff a b).1 h]

/-- Indices of the one-bits. -/
def bitsOf {w : Nat} (x : BitVec w) : List Nat := (List.range w).filter (fun i => x.getLsbD i)

theorem bitsOf_cons {w : Nat} {x : BitVec w} (hx : x ≠ 0#w) : bitsOf x = tz x :: bitsOf (clearLow x) := by
  have := bitLoop_unfold x
  rw [if_neg hx, bitLoop_eq, bitLoop_eq] at this
  exact this

theorem bitsOf_zero {w : Nat} : bitsOf (0#w) = [] := by simp [bitsOf]

theorem clearLow_zero {w : Nat} : clearLow (0#w) = 0#w := by simp [clearLow]

theorem bitsOf_iterate {w : Nat} : ∀ (k : Nat) (x : BitVec w), bitsOf (clearLow^[k] x) = (bitsOf x).drop k
  | 0, x => rfl
  | k + 1, x => by
    rw [Function.iterate_succ_apply, bitsOf_iterate k]
    by_cases hx : x = 0#w
    · subst hx; simp [clearLow_zero, bitsOf_zero]
    · rw [bitsOf_cons hx]; rfl

theorem bitsOf_eq_nil {w : Nat} {x : BitVec w} : bitsOf x = [] ↔ x = 0#w := by
  constructor
  · intro h
    by_contra hx
    rw [bitsOf_cons hx] at h; cases h
  · rintro rfl; exact bitsOf_zero

theorem one_shl_getLsbD (n j : Nat) : (1#64 <<< n).getLsbD j = (decide (j = n) && decide (n < 64)) := by
  rw [BitVec.getLsbD_shiftLeft, Bool.eq_iff_iff]
  simp
  omega

theorem ne_zero_iff_bit {w : Nat} {x : BitVec w} : x ≠ 0#w ↔ ∃ j, x.getLsbD j = true := by
  constructor
  · intro h
    exact ⟨_, (tz_spec h).2.1⟩
  · rintro ⟨j, hj⟩ rfl
    simp at hj

theorem BitIter.has_spec (b : BitIter) (i : BitVec 64) : BitIter.has b i = b.getLsbD i.toNat := by
  unfold BitIter.has uintOf
  rw [Bool.eq_iff_iff, bne_iff_ne, ne_zero_iff_bit]
  constructor
  · rintro ⟨j, hj⟩
    rw [BitVec.getLsbD_and, one_shl_getLsbD] at hj
    simp only [Bool.and_eq_true, decide_eq_true_eq] at hj
    rw [← hj.2.1]; exact hj.1
  · intro h
    refine ⟨i.toNat, ?_⟩
    have : i.toNat < 64 := by
      by_contra hc
      rw [BitVec.getLsbD_of_ge _ _ (by omega)] at h; cases h
    rw [BitVec.getLsbD_and, one_shl_getLsbD, h]
    simp [this]

theorem BitIter.with_spec (b : BitIter) (i : BitVec 64) (j : Nat) :
    (BitIter.with b i).getLsbD j = (b.getLsbD j || (decide (j = i.toNat) && decide (j < 64))) := by
  unfold BitIter.with uintOf
  rw [BitVec.getLsbD_or, one_shl_getLsbD]
  congr 1
  rw [Bool.eq_iff_iff]
  simp
  intro h
  rw [h]

theorem BitIter.without_spec (b : BitIter) (i : BitVec 64) (j : Nat) :
    (BitIter.without b i).getLsbD j = (decide (i.toNat < j) && b.getLsbD (j - i.toNat) && decide (j < 64)) := by
  unfold BitIter.without uintOf
  rw [BitVec.getLsbD_shiftLeft, BitVec.getLsbD_and, BitVec.getLsbD_not, Bool.eq_iff_iff]
  have h1 : ∀ k, (1#64).getLsbD k = decide (k = 0) := by
    intro k
    rw [BitVec.getLsbD_one]
    simp
  rw [h1]
  simp
  constructor
  · rintro ⟨⟨h1, h2⟩, h3, _, h4⟩; exact ⟨⟨by omega, h3⟩, h1⟩
  · rintro ⟨⟨h1, h2⟩, h3⟩; exact ⟨⟨h3, by omega⟩, h2, by omega, by omega⟩

/-! ### Masker -/

theorem Masker.first_spec (m : Masker) (j : Nat) : (Masker.first m).getLsbD j = (decide (m ≠ 0#16) && decide (j = tz m)) := by
  unfold Masker.first
  rw [BitVec.getLsbD_and, BitVec.getLsbD_not]
  by_cases hm : m = 0#16
  · subst hm; simp
  · have hc := getLsbD_clearLow hm j
    unfold clearLow at hc
    rw [BitVec.getLsbD_and] at hc
    have ht := tz_spec hm
    by_cases hj : j = tz m
    · subst hj
      have h1 := ht.2.1
      rw [h1] at hc ⊢
      simp only [ne_eq, not_true_eq_false, decide_false, Bool.and_false, Bool.true_and] at hc
      simp only [hc, Bool.true_and, Bool.not_false, Bool.and_true, decide_eq_true_eq, ne_eq, hm, not_false_eq_true, decide_true, ht.1]
    · simp only [ne_eq, hj, not_false_eq_true, decide_true, Bool.and_true] at hc
      simp only [hj, decide_false, Bool.and_false, Bool.and_eq_false_iff]
      cases h : m.getLsbD j with
      | false => exact .inl rfl
      | true => rw [h] at hc; simp at hc; right; simp [hc]

theorem Masker.subsetOf_spec (m n : Masker) : Masker.subsetOf m n = true ↔ ∀ j, m.getLsbD j = true → n.getLsbD j = true := by
  unfold Masker.subsetOf
  rw [beq_iff_eq]
  constructor
  · intro h j hj
    have := congrArg (fun x => x.getLsbD j) h
    simp only [BitVec.getLsbD_and, BitVec.getLsbD_not, hj, BitVec.getLsbD_zero, Bool.true_and, Bool.and_eq_false_iff] at this
    rcases this with h1 | h1
    · rw [BitVec.getLsbD_of_ge _ _ (by simpa using h1)] at hj; cases hj
    · simpa using h1
  · intro h
    apply BitVec.eq_of_getLsbD_eq
    intro j hj
    rw [BitVec.getLsbD_and, BitVec.getLsbD_not]
    cases hm : m.getLsbD j with
    | false => simp
    | true => simp [h j hm]

/-! ### Iota -/

variable [GoKey (BitVec 64)] [PrimKey (BitVec 64)]

theorem toInt_add_of {a b : BitVec 64} (h1 : -(2 ^ 63) ≤ a.toInt + b.toInt) (h2 : a.toInt + b.toInt < 2 ^ 63) :
    (a + b).toInt = a.toInt + b.toInt := by
  rw [BitVec.toInt_add]
  apply Int.bmod_eq_of_le <;> omega

/-- Sign of the direction. -/
def dir (down : Bool) : Int := if down then -1 else 1

theorem iotaCond (down : Bool) (i stop : BitVec 64) :
    (if down then BitVec.slt stop i else BitVec.slt i stop) = decide (dir down * i.toInt < dir down * stop.toInt) := by
  cases down <;> simp only [dir, Bool.false_eq_true, if_false, if_true, BitVec.slt] <;> congr 1 <;> simp

theorem iotaLoop_spec (down : Bool) (stop step : BitVec 64) (hs : 0 < dir down * step.toInt) :
    ∀ (n : Nat) (i : BitVec 64) (b : SetBuilder (BitVec 64)), Tree.Valid b → (dir down * stop.toInt - dir down * i.toInt).toNat ≤ n →
    (∀ k : Nat, dir down * (i.toInt + k * step.toInt) < dir down * stop.toInt →
      -(2 ^ 63) ≤ i.toInt + (k + 1) * step.toInt ∧ i.toInt + (k + 1) * step.toInt < 2 ^ 63) →
    ∃ b' N, (∀ fuel, N ≤ fuel → iotaLoop down stop step fuel i b = some (.ok b')) ∧ Tree.Valid b' ∧
      ∀ w, (Tree.look b' w).isSome = true ↔ (Tree.look b w).isSome = true ∨
        ∃ k : Nat, w.toInt = i.toInt + k * step.toInt ∧ dir down * w.toInt < dir down * stop.toInt := by
  intro n
  induction n with
  | zero =>
    intro i b hb hn _
    refine ⟨b, 1, fun fuel hf => ?_, hb, fun w => ?_⟩
    · obtain ⟨f, rfl⟩ : ∃ f, fuel = f + 1 := ⟨fuel - 1, by omega⟩
      rw [iotaLoop, iotaCond, if_neg (by simp; omega)]
    · constructor
      · exact .inl
      · rintro (h | ⟨k, hk, hw⟩)
        · exact h
        · exfalso
          rw [hk, Int.mul_add] at hw
          have : 0 ≤ dir down * (↑k * step.toInt) := by
            rw [← Int.mul_assoc, Int.mul_comm (dir down), Int.mul_assoc]
            exact Int.mul_nonneg (by omega) (by omega)
          omega
  | succ n ih =>
    intro i b hb hn hov
    by_cases hc : dir down * i.toInt < dir down * stop.toInt
    · obtain ⟨b1, h1, h2, h3, _⟩ := Builder.add_spec hb i
      have hadd : SetBuilder.add b i = .ok b1 := h1
      have h0 := hov 0 (by simpa using hc)
      have ht : (i + step).toInt = i.toInt + step.toInt := toInt_add_of (by simpa using h0.1) (by simpa using h0.2)
      have hmul : dir down * (i.toInt + step.toInt) = dir down * i.toInt + dir down * step.toInt := Int.mul_add ..
      obtain ⟨b', N, g1, g2, g3⟩ := ih (i + step) b1 h2 (by rw [ht, hmul]; omega) (by
        intro k hk
        have := hov (k + 1) (by
          rw [ht] at hk
          have e : i.toInt + ((k + 1 : Nat) : Int) * step.toInt = i.toInt + step.toInt + k * step.toInt := by push_cast; ring
          rw [e]; exact hk)
        rw [ht]
        have e : i.toInt + step.toInt + (↑k + 1) * step.toInt = i.toInt + (((k + 1 : Nat) : Int) + 1) * step.toInt := by push_cast; ring
        rw [e]; exact this)
      refine ⟨b', N + 1, fun fuel hf => ?_, g2, fun w => ?_⟩
      · obtain ⟨f, rfl⟩ : ∃ f, fuel = f + 1 := ⟨fuel - 1, by omega⟩
        rw [iotaLoop, iotaCond, if_pos (by simpa using hc), hadd]
        exact g1 f (by omega)
      · rw [g3, h3]
        constructor
        · rintro (h | ⟨k, hk, hw⟩)
          · by_cases hw : GoKey.eq i w = true
            · have := (PrimKey.eq_iff i w).1 hw
              subst this
              exact .inr ⟨0, by simp, hc⟩
            · rw [if_neg hw] at h; exact .inl h
          · exact .inr ⟨k + 1, by rw [hk, ht]; push_cast; ring, hw⟩
        · rintro (h | ⟨k, hk, hw⟩)
          · left
            by_cases hw : GoKey.eq i w = true
            · rw [if_pos hw]; rfl
            · rw [if_neg hw]; exact h
          · cases k with
            | zero =>
              left
              have : i = w := BitVec.eq_of_toInt_eq (by rw [hk]; simp)
              rw [if_pos ((PrimKey.eq_iff i w).2 this)]; rfl
            | succ k => exact .inr ⟨k, by rw [hk, ht]; push_cast; ring, hw⟩
    · refine ⟨b, 1, fun fuel hf => ?_, hb, fun w => ?_⟩
      · obtain ⟨f, rfl⟩ : ∃ f, fuel = f + 1 := ⟨fuel - 1, by omega⟩
        rw [iotaLoop, iotaCond, if_neg (by simpa using hc)]
      · constructor
        · exact .inl
        · rintro (h | ⟨k, hk, hw⟩)
          · exact h
          · exfalso
            rw [hk, Int.mul_add] at hw
            have : 0 ≤ dir down * (↑k * step.toInt) := by
              rw [← Int.mul_assoc, Int.mul_comm (dir down), Int.mul_assoc]
              exact Int.mul_nonneg (by omega) (by omega)
            omega

/-- An even counter never reaches the largest (odd) integer. -/
theorem iotaLoop_diverges : ∀ (fuel : Nat) (i : BitVec 64) (b : SetBuilder (BitVec 64)), Tree.Valid b → i.getLsbD 0 = false →
    iotaLoop false 0x7fffffffffffffff#64 2#64 fuel i b = none
  | 0, _, _, _, _ => rfl
  | fuel + 1, i, b, hb, hi => by
    obtain ⟨b1, h1, h2, _⟩ := Builder.add_spec hb i
    have hadd : SetBuilder.add b i = .ok b1 := h1
    have hne : i ≠ 0x7fffffffffffffff#64 := by
      rintro rfl
      revert hi
      decide
    have hlt : BitVec.slt i 0x7fffffffffffffff#64 = true := by
      rw [BitVec.slt, decide_eq_true_eq]
      have hm : (0x7fffffffffffffff#64).toInt = 2 ^ 63 - 1 := by decide
      have h3 := BitVec.toInt_lt (x := i)
      have h4 : i.toInt ≠ 2 ^ 63 - 1 := fun h => hne (BitVec.eq_of_toInt_eq (by rw [h, hm]))
      rw [hm]
      simp at h3
      omega
    rw [iotaLoop]
    simp only [Bool.false_eq_true, if_false]
    rw [if_pos hlt, hadd]
    apply iotaLoop_diverges fuel _ _ h2
    have e : (i + 2#64).getLsbD 0 = i.getLsbD 0 := by
      rw [BitVec.getLsbD_add (by omega)]
      simp
    rw [e]; exact hi

end Frozen
