import Verif.Spec.IntProg
import Verif.Proof.Map
import Verif.Proof.BitIter
import Mathlib.Algebra.BigOperators.Group.Finset.Basic
import Mathlib.Algebra.BigOperators.Group.Finset.Piecewise
import Mathlib.Algebra.Group.Int.Defs

/-! # Integer sets -/

set_option linter.unusedSectionVars false

namespace Frozen

instance : LawfulGoKey CellMask where
  refl a := by simp [GoKey.eq]
  symm := by intro a b h; simp [GoKey.eq] at *; exact h.symm
  trans := by intro a b c h1 h2; simp [GoKey.eq] at *; exact h1.trans h2
  hash_congr := by intro seed a b h; simp [GoKey.eq] at h; rw [h]

/-! ### Locating integers -/

theorem goShl_eq (x : BitVec 64) (n : Nat) : goShl x n = x <<< n := by
  unfold goShl
  by_cases h : 64 ≤ n
  · rw [if_pos h]
    apply BitVec.eq_of_getLsbD_eq
    intro i hi
    rw [BitVec.getLsbD_shiftLeft]
    have : i < n := by omega
    simp [this]
  · rw [if_neg h]

theorem locateCell_eq {w : Nat} (sg : Bool) (i : BitVec w) : locateCell sg i = (cellOf sg i, 1#64 <<< bitOf sg i) := by
  unfold locateCell; rw [goShl_eq]

section Locate

variable {w : Nat}

/-- The integer value of a word. -/
def intVal (sg : Bool) (i : BitVec w) : Int := if sg then i.toInt else i.toNat

theorem ofInt_intVal (sg : Bool) (i : BitVec w) : BitVec.ofInt w (intVal sg i) = i := by
  unfold intVal
  cases sg
  · simp
  · simp

theorem cellOf_eq (sg : Bool) (i : BitVec w) : cellOf sg i = BitVec.ofInt w (intVal sg i / 64) := by
  unfold cellOf intVal cellShift
  cases sg
  · simp only [Bool.false_eq_true, if_false]
    apply BitVec.eq_of_toNat_eq
    rw [BitVec.toNat_ushiftRight, Nat.shiftRight_eq_div_pow]
    have : ((i.toNat : Int) / 64) = ((i.toNat / 64 : Nat) : Int) := by omega
    rw [this, BitVec.ofInt_natCast, BitVec.toNat_ofNat, Nat.mod_eq_of_lt]
    have := i.isLt
    omega
  · simp only [if_true]
    apply BitVec.eq_of_toInt_eq
    rw [BitVec.toInt_sshiftRight, BitVec.toInt_ofInt, Int.shiftRight_eq_div_pow]
    have h1 := BitVec.two_mul_toInt_lt (x := i)
    have h2 := BitVec.le_two_mul_toInt (x := i)
    norm_num
    rw [Int.bmod_eq_of_le_mul_two]
    · push_cast at *; omega
    · push_cast at *; omega

theorem toNat_64 (hw : 8 ≤ w) : (64#w).toNat = 64 := by
  rw [BitVec.toNat_ofNat, Nat.mod_eq_of_lt]
  calc 64 < 2 ^ 8 := by decide
    _ ≤ 2 ^ w := Nat.pow_le_pow_right (by omega) hw

theorem toInt_64 (hw : 8 ≤ w) : (64#w).toInt = 64 := by
  rw [BitVec.toInt_eq_toNat_of_lt, toNat_64 hw]; rfl
  rw [toNat_64 hw]
  calc 2 * 64 < 2 ^ 8 := by decide
    _ ≤ 2 ^ w := Nat.pow_le_pow_right (by omega) hw

theorem bitOf_unsigned (hw : 8 ≤ w) (hw2 : w ≤ 64) (i : BitVec w) : bitOf false i = i.toNat % 64 := by
  unfold bitOf
  simp only [Bool.false_eq_true, if_false]
  have h1 : (i.umod 64#w).toNat = i.toNat % 64 := by
    have := BitVec.toNat_umod (x := i) (y := 64#w)
    rw [toNat_64 hw] at this
    exact this
  rw [BitVec.toNat_setWidth, h1, Nat.mod_eq_of_lt]
  omega

theorem bitOf_signed (hw : 8 ≤ w) (hw2 : w ≤ 64) (i : BitVec w) : bitOf true i = ((i.toInt.tmod 64) % 2 ^ 64).toNat := by
  unfold bitOf
  simp only [if_true]
  have h1 : ((i.srem 64#w).signExtend 64).toInt = i.toInt.tmod 64 := by
    rw [BitVec.toInt_signExtend_of_le hw2, BitVec.toInt_srem, toInt_64 hw]
  rw [← h1]
  generalize (i.srem 64#w).signExtend 64 = x
  have := x.isLt
  rw [BitVec.toInt_eq_toNat_cond]
  split <;> omega

theorem bitOf_lt_iff (hw : 8 ≤ w) (hw2 : w ≤ 64) (sg : Bool) (i : BitVec w) : bitOf sg i < 64 ↔ Storable sg i := by
  cases sg
  · rw [bitOf_unsigned hw hw2]
    simp only [Storable, true_or, iff_true]
    omega
  · rw [bitOf_signed hw hw2]
    simp only [Storable, Bool.true_eq_false, false_or]
    by_cases h0 : 0 ≤ i.toInt
    · rw [Int.tmod_eq_emod_of_nonneg h0]
      omega
    · have h2 : i.toInt.tmod 64 = -((-i.toInt) % 64) := by
        rw [← Int.tmod_eq_emod_of_nonneg (by omega), Int.neg_tmod]; omega
      rw [h2]
      omega

theorem bitOf_eq (hw : 8 ≤ w) (hw2 : w ≤ 64) (sg : Bool) (i : BitVec w) (h : Storable sg i) : (bitOf sg i : Int) = intVal sg i % 64 := by
  cases sg
  · rw [bitOf_unsigned hw hw2]
    simp only [intVal, Bool.false_eq_true, if_false]
    omega
  · rw [bitOf_signed hw hw2]
    simp only [Storable, Bool.true_eq_false, false_or] at h
    simp only [intVal, if_true]
    by_cases h0 : 0 ≤ i.toInt
    · rw [Int.tmod_eq_emod_of_nonneg h0]
      omega
    · have h2 : i.toInt.tmod 64 = -((-i.toInt) % 64) := by
        rw [← Int.tmod_eq_emod_of_nonneg (by omega), Int.neg_tmod]; omega
      rw [h2]
      omega

theorem cellVal_ofInt (a : Int) (b : Nat) : cellVal (BitVec.ofInt w a) b = BitVec.ofInt w (a * 64 + b) := by
  unfold cellVal cellShift
  rw [BitVec.ofInt_add, BitVec.ofInt_natCast, BitVec.ofInt_mul]
  congr 1
  rw [BitVec.shiftLeft_eq_mul_twoPow]
  congr 1
  apply BitVec.eq_of_toNat_eq
  rw [BitVec.toNat_twoPow, BitVec.toNat_ofInt]
  have : (64 : Int) % ((2 ^ w : Nat) : Int) = ((64 % 2 ^ w : Nat) : Int) := by norm_cast
  rw [this]
  exact (Int.toNat_natCast _).symm

theorem cellVal_locate (hw : 8 ≤ w) (hw2 : w ≤ 64) {sg : Bool} {i : BitVec w} (h : Storable sg i) :
    cellVal (cellOf sg i) (bitOf sg i) = i := by
  rw [cellOf_eq, cellVal_ofInt, bitOf_eq hw hw2 sg i h]
  have : intVal sg i / 64 * 64 + intVal sg i % 64 = intVal sg i := by omega
  rw [this, ofInt_intVal]

end Locate

/-! ### Counting bits -/

theorem ones_countP {w : Nat} (x : BitVec w) : ones x = (List.range w).countP (fun i => x.getLsbD i) := by
  rw [List.countP_eq_length_filter]; rfl

theorem countP_or_disjoint {p q r : Nat → Bool} : ∀ (l : List Nat), (∀ i, r i = (p i || q i)) → (∀ i, ¬ (p i = true ∧ q i = true)) →
    l.countP r = l.countP p + l.countP q
  | [], _, _ => rfl
  | a :: l, h1, h2 => by
    rw [List.countP_cons, List.countP_cons, List.countP_cons, countP_or_disjoint l h1 h2, h1 a]
    have := h2 a
    cases hp : p a <;> cases hq : q a <;> simp_all <;> omega

theorem ones_or_disjoint {w : Nat} {x y z : BitVec w} (h1 : ∀ i, z.getLsbD i = (x.getLsbD i || y.getLsbD i))
    (h2 : ∀ i, ¬ (x.getLsbD i = true ∧ y.getLsbD i = true)) : ones z = ones x + ones y := by
  rw [ones_countP, ones_countP, ones_countP]
  exact countP_or_disjoint _ h1 h2

theorem ones_one_shl {n : Nat} (h : n < 64) : ones (1#64 <<< n) = 1 := by
  rw [ones_countP]
  have : (fun i => (1#64 <<< n).getLsbD i) = (fun i => i == n) := by
    funext i
    rw [one_shl_getLsbD]
    simp only [h, decide_true, Bool.and_true]
    by_cases hi : i = n <;> simp [hi]
  rw [this]
  have : (List.range 64).countP (fun i => i == n) = (List.range 64).count n := rfl
  rw [this, List.nodup_range.count]
  simp [h]

end Frozen
