import Verif.Proof.BitIter
import Verif.Props.Witness

/-! # C22, C23: words as sets of bits, integer ranges

`x.getLsbD j` (Lean's library) is bit `j` of the word `x`; `bitsIn x` is the increasing list of the indices of the one-bits. -/

set_option linter.unusedSectionVars false

namespace Frozen

/-- The indices of the one-bits of a word, in increasing order. -/
def bitsIn {w : Nat} (x : BitVec w) : List Nat := (List.range w).filter (fun i => x.getLsbD i)

/-! ### C22 -/

/-- C22. The loop `for b != 0 { … b.Index() … ; b = b.Next() }` visits exactly the one-bits in increasing order: after `k` calls of
`Next`, the word is zero exactly if there are at most `k` one-bits, and otherwise `Index` is the `k`-th one-bit. `Count` is their
number. -/
theorem C22_bitIterator (b : BitIter) (k : Nat) :
    (BitIter.next^[k] b = 0#64 ↔ (bitsIn b).length ≤ k) ∧
    (∀ h : k < (bitsIn b).length, BitIter.index (BitIter.next^[k] b) = (bitsIn b)[k]) ∧
    BitIter.count b = (bitsIn b).length := by
  have hd : bitsOf (BitIter.next^[k] b) = (bitsIn b).drop k := bitsOf_iterate k b
  refine ⟨?_, fun h => ?_, rfl⟩
  · rw [← bitsOf_eq_nil, hd, List.drop_eq_nil_iff]
  · have hne : BitIter.next^[k] b ≠ 0#64 := by
      intro h0
      rw [← bitsOf_eq_nil, hd, List.drop_eq_nil_iff] at h0
      omega
    have hc := bitsOf_cons hne
    rw [hd, List.drop_eq_getElem_cons h] at hc
    exact (List.cons.inj hc).1.symm

/-- C22. The same for a 16-bit `Masker`. -/
theorem C22_masker (m : Masker) (k : Nat) :
    (Masker.next^[k] m = 0#16 ↔ (bitsIn m).length ≤ k) ∧
    (∀ h : k < (bitsIn m).length, Masker.firstIndex (Masker.next^[k] m) = (bitsIn m)[k]) := by
  have hd : bitsOf (Masker.next^[k] m) = (bitsIn m).drop k := bitsOf_iterate k m
  refine ⟨?_, fun h => ?_⟩
  · rw [← bitsOf_eq_nil, hd, List.drop_eq_nil_iff]
  · have hne : Masker.next^[k] m ≠ 0#16 := by
      intro h0
      rw [← bitsOf_eq_nil, hd, List.drop_eq_nil_iff] at h0
      omega
    have hc := bitsOf_cons hne
    rw [hd, List.drop_eq_getElem_cons h] at hc
    exact (List.cons.inj hc).1.symm

/-- C22. `First` keeps only the lowest bit, `SubsetOf` compares bit by bit, `FirstIsIn` says whether the lowest bit of `m` (if any) is
also in `n`. -/
theorem C22_masker_ops (m n : Masker) :
    (∀ j, (Masker.first m).getLsbD j = true ↔ m ≠ 0#16 ∧ j = Masker.firstIndex m) ∧
    (Masker.subsetOf m n = true ↔ ∀ j, m.getLsbD j = true → n.getLsbD j = true) ∧
    (Masker.firstIsIn m n = true ↔ m = 0#16 ∨ n.getLsbD (Masker.firstIndex m) = true) ∧
    (m ≠ 0#16 → m.getLsbD (Masker.firstIndex m) = true ∧ ∀ j, j < Masker.firstIndex m → m.getLsbD j = false) := by
  refine ⟨fun j => ?_, Masker.subsetOf_spec m n, ?_, fun h => ⟨(tz_spec h).2.1, (tz_spec h).2.2⟩⟩
  · rw [Masker.first_spec]
    simp [Masker.firstIndex]
  · unfold Masker.firstIsIn
    rw [Masker.subsetOf_spec]
    constructor
    · intro h
      by_cases hm : m = 0#16
      · exact .inl hm
      · exact .inr (h _ (by rw [Masker.first_spec]; simp [hm, Masker.firstIndex]))
    · rintro (rfl | h) j hj
      · rw [Masker.first_spec] at hj; simp at hj
      · rw [Masker.first_spec] at hj
        simp only [Bool.and_eq_true, decide_eq_true_eq] at hj
        rw [hj.2]; exact h

/-- C22. `Has(i)` is bit `i` (false for indices outside 0..63, among them negative ones). -/
theorem C22_has (b : BitIter) (i : BitVec 64) : BitIter.has b i = b.getLsbD i.toNat := BitIter.has_spec b i

/-- C22. `With(i)`, for `0 ≤ i < 64`, sets bit `i` and no other; for other `i` it changes nothing. -/
theorem C22_with (b : BitIter) (i : BitVec 64) (j : Nat) :
    (BitIter.with b i).getLsbD j = true ↔ b.getLsbD j = true ∨ (j = i.toNat ∧ j < 64) := by
  rw [BitIter.with_spec]; simp

/-- C22 for `Without` is false: clearing bit 1 of the word 1 gives 0. -/
theorem C22_without_refuted : ¬ ∀ (b : BitIter) (i : BitVec 64) (j : Nat),
    (BitIter.without b i).getLsbD j = true ↔ b.getLsbD j = true ∧ j ≠ i.toNat := by
  intro h
  have := h 1#64 1#64 0
  revert this
  decide

/-- What `Without(i)` does instead: it clears bit 0 and shifts the rest up by `i`. -/
theorem C22_without_actual (b : BitIter) (i : BitVec 64) (j : Nat) :
    (BitIter.without b i).getLsbD j = true ↔ i.toNat < j ∧ j < 64 ∧ b.getLsbD (j - i.toNat) = true := by
  rw [BitIter.without_spec]
  simp only [Bool.and_eq_true, decide_eq_true_eq]
  tauto

/-- C22, the provable part for `Without`: it clears exactly bit `i` if `i = 0` (or if the word has no other bit than bit 0, or none). -/
theorem C22_without_partial (b : BitIter) (j : Nat) :
    (BitIter.without b 0#64).getLsbD j = true ↔ b.getLsbD j = true ∧ j ≠ 0 := by
  rw [C22_without_actual]
  have : (0#64).toNat = 0 := rfl
  rw [this]
  constructor
  · rintro ⟨h1, h2, h3⟩; exact ⟨h3, by omega⟩
  · rintro ⟨h1, h2⟩
    refine ⟨by omega, ?_, h1⟩
    by_contra hc
    rw [BitVec.getLsbD_of_ge _ _ (by omega)] at h1; cases h1

example : bitsIn 0b1010010#64 = [1, 4, 6] ∧ BitIter.index (BitIter.next^[2] 0b1010010#64) = 6 := by decide +kernel

/-! ### C23 -/

section C23

variable [GoKey (BitVec 64)] [PrimKey (BitVec 64)]

/-- C23. For a non-zero step and as long as computing the first value at or past `stop` does not overflow, `Iota3` ends (after any
sufficient number of iterations) and returns exactly the values `start + k·step` before `stop`. -/
theorem C23_iota3 (start stop step : BitVec 64) (h0 : step ≠ 0#64)
    (hup : 0 < step.toInt → ∀ k : Nat, start.toInt + k * step.toInt < stop.toInt → start.toInt + (k + 1) * step.toInt < 2 ^ 63)
    (hdn : step.toInt < 0 → ∀ k : Nat, stop.toInt < start.toInt + k * step.toInt → -(2 ^ 63) ≤ start.toInt + (k + 1) * step.toInt) :
    ∃ s N, (∀ fuel, N ≤ fuel → iota3 fuel start stop step = some (.ok s)) ∧ HasCard s.Mem s.count ∧
      ∀ w, s.Mem w ↔ ∃ k : Nat, w.toInt = start.toInt + k * step.toInt ∧
        (0 < step.toInt → w.toInt < stop.toInt) ∧ (step.toInt < 0 → stop.toInt < w.toInt) := by
  have hz : step.toInt ≠ 0 := fun h => h0 (BitVec.eq_of_toInt_eq (by rw [h]; rfl))
  have hsl : BitVec.slt 0#64 step = decide (0 < step.toInt) := by simp [BitVec.slt]
  have key : ∀ (down : Bool), (!BitVec.slt 0#64 step) = down → 0 < dir down * step.toInt →
      (∀ k : Nat, dir down * (start.toInt + k * step.toInt) < dir down * stop.toInt →
        -(2 ^ 63) ≤ start.toInt + (k + 1) * step.toInt ∧ start.toInt + (k + 1) * step.toInt < 2 ^ 63) →
      ∃ s N, (∀ fuel, N ≤ fuel → iota3 fuel start stop step = some (.ok s)) ∧ s.Valid ∧
        ∀ w, s.Mem w ↔ ∃ k : Nat, w.toInt = start.toInt + k * step.toInt ∧ dir down * w.toInt < dir down * stop.toInt := by
    intro down hd hs hov
    obtain ⟨b', N, g1, g2, g3⟩ := iotaLoop_spec down stop step hs _ start (Tree.zero : Tree (BitVec 64)) Tree.valid_zero (le_refl _) hov
    refine ⟨⟨b'⟩, N, fun fuel hf => ?_, g2, fun w => ?_⟩
    · unfold iota3
      rw [if_neg h0, hd, g1 fuel hf]
      rfl
    · rw [FSet.mem_iff (s := ⟨b'⟩) g2]
      have := g3 w
      simp only [Tree.look_zero, Option.isSome_none, Bool.false_eq_true, false_or] at this
      exact this
  have hlb := BitVec.le_toInt (x := start)
  have hub := BitVec.toInt_lt (x := start)
  simp only [Nat.add_one_sub_one] at hlb hub
  rcases lt_or_gt_of_ne hz with hneg | hpos
  · obtain ⟨s, N, g1, g2, g3⟩ := key true (by rw [hsl]; simp; omega) (by simp [dir]; omega) (by
      intro k hk
      have hk' : stop.toInt < start.toInt + k * step.toInt := by simp only [dir, if_true] at hk; omega
      refine ⟨hdn hneg k hk', ?_⟩
      have : (↑k + 1) * step.toInt ≤ 0 := Int.mul_nonpos_of_nonneg_of_nonpos (by omega) (by omega)
      omega)
    refine ⟨s, N, g1, FSet.hasCard g2, fun w => ?_⟩
    rw [g3]
    constructor
    · rintro ⟨k, hk, hw⟩; simp only [dir, if_true] at hw; exact ⟨k, hk, by omega, by omega⟩
    · rintro ⟨k, hk, _, hw⟩; have := hw hneg; exact ⟨k, hk, by simp only [dir, if_true]; omega⟩
  · obtain ⟨s, N, g1, g2, g3⟩ := key false (by rw [hsl]; simp; omega) (by simp [dir]; omega) (by
      intro k hk
      have hk' : start.toInt + k * step.toInt < stop.toInt := by simp only [dir, Bool.false_eq_true, if_false] at hk; omega
      refine ⟨?_, hup hpos k hk'⟩
      have : 0 ≤ (↑k + 1) * step.toInt := Int.mul_nonneg (by omega) (by omega)
      omega)
    refine ⟨s, N, g1, FSet.hasCard g2, fun w => ?_⟩
    rw [g3]
    constructor
    · rintro ⟨k, hk, hw⟩; simp only [dir, Bool.false_eq_true, if_false] at hw; exact ⟨k, hk, by omega, by omega⟩
    · rintro ⟨k, hk, hw, _⟩; have := hw hpos; exact ⟨k, hk, by simp only [dir, Bool.false_eq_true, if_false]; omega⟩

/-- C23. With step 0, `Iota3` returns the empty set if `start = stop` and panics otherwise. -/
theorem C23_iota3_zero (fuel : Nat) (start stop : BitVec 64) :
    (start = stop → ∃ s, iota3 fuel start stop 0#64 = some (.ok s) ∧ (∀ w, ¬ s.Mem w) ∧ s.count = 0) ∧
    (start ≠ stop → iota3 fuel start stop 0#64 = some (.error (.msg "zero step size"))) := by
  unfold iota3
  rw [if_pos rfl]
  constructor
  · intro h
    rw [if_pos h]
    exact ⟨_, rfl, fun w hw => by simpa [FSet.mem_zero] using hw, rfl⟩
  · intro h; rw [if_neg h]

/-- C23. `Iota2(start, stop)` is exactly `[start, stop)`, for all ints: step 1 never overflows. `Iota` is the case `start = 0`. -/
theorem C23_iota2 (start stop : BitVec 64) : ∃ s N, (∀ fuel, N ≤ fuel → iota2 fuel start stop = some (.ok s)) ∧
    ∀ w, s.Mem w ↔ start.toInt ≤ w.toInt ∧ w.toInt < stop.toInt := by
  have h1 : (1#64).toInt = 1 := rfl
  have hub := BitVec.toInt_lt (x := stop)
  simp only [Nat.add_one_sub_one] at hub
  obtain ⟨s, N, g1, _, g3⟩ := C23_iota3 start stop 1#64 (by decide) (by rw [h1]; intro _ k hk; omega) (by rw [h1]; intro h; omega)
  refine ⟨s, N, g1, fun w => ?_⟩
  rw [g3, h1]
  constructor
  · rintro ⟨k, hk, hw, _⟩; exact ⟨by omega, hw (by omega)⟩
  · rintro ⟨h2, h3⟩; exact ⟨(w.toInt - start.toInt).toNat, by omega, fun _ => h3, by omega⟩

theorem C23_iota (fuel : Nat) (stop : BitVec 64) : iota fuel stop = iota2 fuel 0#64 stop := rfl

/-- C23. The overflow condition is needed: `Iota3(0, MaxInt, 2)` never ends. -/
theorem C23_iota3_overflow_diverges (fuel : Nat) : iota3 fuel 0#64 0x7fffffffffffffff#64 2#64 = none := by
  unfold iota3
  rw [if_neg (by decide), show (!BitVec.slt 0#64 2#64) = false from by decide, iotaLoop_diverges fuel _ _ Tree.valid_zero (by decide)]
  rfl

/-- C23. `NewSetFromMask64(m)` is exactly the set of the indices of the one-bits of `m` (its doc comment says `2**i`). -/
theorem C23_mask64 (m : BitVec 64) : ∃ s, newSetFromMask64 m = .ok s ∧ (∀ w, s.Mem w ↔ m.getLsbD w.toNat = true) ∧
    s.count = (bitsIn m).length := by
  obtain ⟨s, h1, h2, _, h4⟩ := buildSet_spec ((bitLoop m).map (BitVec.ofNat 64))
  refine ⟨s, h1, fun w => ?_, ?_⟩
  · rw [h4, bitLoop_eq]
    simp only [List.mem_map, List.mem_filter, List.mem_range, PrimKey.eq_iff]
    constructor
    · rintro ⟨v, ⟨i, ⟨hi, hb⟩, rfl⟩, rfl⟩
      rw [BitVec.toNat_ofNat, Nat.mod_eq_of_lt (by omega)]; exact hb
    · intro hb
      refine ⟨w, ⟨w.toNat, ⟨?_, hb⟩, by simp⟩, rfl⟩
      by_contra hc
      rw [BitVec.getLsbD_of_ge _ _ (by omega)] at hb; cases hb
  · have hd : Distinct ((bitLoop m).map (BitVec.ofNat 64)) := by
      unfold Distinct
      rw [List.pairwise_map, bitLoop_eq]
      have hn : ((List.range 64).filter (fun i => m.getLsbD i)).Nodup := List.nodup_range.filter _
      refine List.Pairwise.imp_of_mem (fun {a b} ha hb hab => ?_) hn
      rw [Bool.eq_false_iff]
      intro he
      have he := congrArg BitVec.toNat ((PrimKey.eq_iff _ _).1 he)
      rw [List.mem_filter, List.mem_range] at ha hb
      rw [BitVec.toNat_ofNat, BitVec.toNat_ofNat, Nat.mod_eq_of_lt (by omega), Nat.mod_eq_of_lt (by omega)] at he
      exact hab he
    rw [buildSet_length hd h2 h4, List.length_map, bitLoop_eq]
    rfl

end C23

/-- A legal `int` hash; the hypotheses of `C23_iota3` are met by a downward range near the end of the domain. -/
def exampleIntKey (w : Nat) : GoKey (BitVec w) := ⟨fun a b => decide (a = b), fun seed a => a.setWidth 64 * 11400714819323198485#64 ^^^ seed⟩

example : @PrimKey (BitVec 64) (exampleIntKey 64) := @PrimKey.mk _ (exampleIntKey 64) (fun a b => decide_eq_true_iff)

example : (match @iota3 (exampleIntKey 64) 10 (BitVec.ofInt 64 7) (BitVec.ofInt 64 (-2)) (BitVec.ofInt 64 (-3)) with
    | some r => okAnd r (fun s => decide (s.count = 3))
    | none => false) = true := by decide +kernel

example : let start := BitVec.ofInt 64 7; let stop := BitVec.ofInt 64 (-2); let step := BitVec.ofInt 64 (-3)
    step ≠ 0#64 ∧ step.toInt < 0 ∧
      (∀ k : Nat, stop.toInt < start.toInt + k * step.toInt → -(2 ^ 63) ≤ start.toInt + (k + 1) * step.toInt) := by
  have h1 : (BitVec.ofInt 64 7).toInt = 7 := by decide
  have h2 : (BitVec.ofInt 64 (-2)).toInt = -2 := by decide
  have h3 : (BitVec.ofInt 64 (-3)).toInt = -3 := by decide
  refine ⟨by decide, by decide, fun k hk => ?_⟩
  rw [h1, h3] at *
  rw [h2] at hk
  omega

end Frozen
