import Verif.Proof.Combine
import Verif.Spec.Set
import Mathlib.Data.Fin.Basic

/-! When two nodes clash, in terms of hashes only. -/

set_option linter.unusedSectionVars false
set_option linter.unusedSimpArgs false

namespace Frozen

variable {T : Type} [GoKey T] [PerGoKey T]

/-- Same hash digits at depths `d` to `n - 1`. -/
def agree (d n : Nat) (x y : T) : Bool := decide (∀ j : Fin n, d ≤ j.val → chunk x j = chunk y j)

theorem agree_iff {d n : Nat} {x y : T} : agree d n x y = true ↔ ∀ j, d ≤ j → j < n → chunk x j = chunk y j := by
  simp only [agree, decide_eq_true_eq]
  exact ⟨fun h j h1 h2 => h ⟨j, h2⟩ h1, fun h j hj => h j hj j.isLt⟩

theorem agree_step {d n : Nat} (h : d < n) {x y : T} :
    agree d n x y = (decide (chunk x d = chunk y d) && agree (d + 1) n x y) := by
  rw [Bool.eq_iff_iff, Bool.and_eq_true, agree_iff, agree_iff, decide_eq_true_eq]
  constructor
  · intro g; exact ⟨g d (by omega) h, fun j h1 h2 => g j (by omega) h2⟩
  · rintro ⟨g1, g2⟩ j h1 h2
    by_cases hj : j = d
    · rw [hj]; exact g1
    · exact g2 j (by omega) h2

theorem agree_ge {d n : Nat} (h : n ≤ d) (x y : T) : agree d n x y = true := by
  rw [agree_iff]; intro j h1 h2; omega

theorem filter_branch {d : Nat} {m : Masker} {k : Fin 8 → Node T} (hs : WFSlots WF d m k) (x : T) (q : T → Bool) :
    ((elems (.branch m k)).filter fun e => decide (chunk x d = chunk e d) && q e) =
      (elems (k (chunk x d))).filter q := by
  have hc := hs.2.2.2
  simp only [elems, List.filter_flatMap]
  have h1 : ∀ i : Fin 8, ((elems (k i)).filter fun e => decide (chunk x d = chunk e d) && q e) =
      if i = chunk x d then (elems (k i)).filter q else [] := by
    intro i
    split
    · rename_i h
      apply List.filter_congr
      intro e he
      rw [hc i e he, h]; simp
    · rename_i h
      apply List.filter_eq_nil_iff.2
      intro e he
      rw [hc i e he]
      simp [Ne.symm h]
  rw [List.flatMap_congr (fun i _ => h1 i)]
  have h2 : ∀ is : List (Fin 8), is.Nodup → chunk x d ∈ is →
      is.flatMap (fun i => if i = chunk x d then (elems (k i)).filter q else []) = (elems (k (chunk x d))).filter q := by
    intro is
    induction is with
    | nil => simp
    | cons i is ih =>
      intro hn hm
      rw [List.flatMap_cons]
      have hn' := List.nodup_cons.1 hn
      by_cases h : i = chunk x d
      · subst h
        rw [if_pos rfl]
        have : is.flatMap (fun i => if i = chunk x d then (elems (k i)).filter q else []) = [] := by
          apply List.flatMap_eq_nil_iff.2
          intro j hj
          rw [if_neg]; rintro rfl; exact hn'.1 hj
        rw [this, List.append_nil]
      · rw [if_neg h, List.nil_append]
        exact ih hn'.2 ((List.mem_cons.1 hm).resolve_left (Ne.symm h))
  exact h2 _ (List.nodup_finRange 8) (List.mem_finRange _)

/-- The clash condition on element lists at depth `d`. -/
def ClashL (d : Nat) (a b : List T) : Prop :=
  ∃ x ∈ a, ∃ y ∈ b, agree d 22 x y = true ∧
    (d < 22 → 3 ≤ (a.filter (agree d 21 x)).length ∧ 3 ≤ (b.filter (agree d 21 x)).length) ∧
    (3 ≤ (a.filter (agree d 22 x)).length ∨ 3 ≤ (b.filter (agree d 22 x)).length)

theorem maxTreeDepth_eq : maxTreeDepth = 22 := rfl

theorem not_clashL_left {d : Nat} (hd : d < 22) {a b : List T} (h : a.length < 3) : ¬ ClashL d a b := by
  rintro ⟨x, _, y, _, _, h2, _⟩
  have := (h2 hd).1
  have := List.length_filter_le (agree d 21 x) a
  omega

theorem not_clashL_right {d : Nat} (hd : d < 22) {a b : List T} (h : b.length < 3) : ¬ ClashL d a b := by
  rintro ⟨x, _, y, _, _, h2, _⟩
  have := (h2 hd).2
  have := List.length_filter_le (agree d 21 x) b
  omega

theorem clashL_bottom {a b : List T} : ClashL 22 a b ↔ a ≠ [] ∧ b ≠ [] ∧ (3 ≤ a.length ∨ 3 ≤ b.length) := by
  have hf : ∀ (x : T) (l : List T), l.filter (agree 22 22 x) = l := by
    intro x l; apply List.filter_eq_self.2; intro e _; exact agree_ge (Nat.le_refl _) x e
  constructor
  · rintro ⟨x, hx, y, hy, _, _, h3⟩
    rw [hf, hf] at h3
    exact ⟨List.ne_nil_of_mem hx, List.ne_nil_of_mem hy, h3⟩
  · rintro ⟨ha, hb, h3⟩
    obtain ⟨x, hx⟩ := List.exists_mem_of_ne_nil _ ha
    obtain ⟨y, hy⟩ := List.exists_mem_of_ne_nil _ hb
    exact ⟨x, hx, y, hy, agree_ge (Nat.le_refl _) x y, fun h => absurd h (by omega), by rw [hf, hf]; exact h3⟩

theorem wf_bottom {n : Node T} (hw : WF 22 n) : (∃ l, n = .twig l) ↔ 3 ≤ (elems n).length := by
  cases n with
  | nil => simp [elems]
  | leaf1 a => simp [elems]
  | leaf2 a b => simp [elems]
  | twig l => simp only [elems, Node.twig.injEq, exists_eq', true_iff]; exact hw.2.1
  | branch m k => exact absurd (WF_branch.1 hw).1.1 (by rw [maxTreeDepth_eq]; omega)

theorem clash_iff : ∀ (a : Node T) (d : Nat) (b : Node T), WF d a → WF d b → d ≤ 22 → (Clash a b ↔ ClashL d (elems a) (elems b))
  | .nil, d, b, _, _, hd => by
    simp only [Clash, false_iff, elems]
    rintro ⟨x, hx, _⟩; simp at hx
  | .leaf1 x, d, b, ha, hb, hd => by
    rcases Nat.lt_or_eq_of_le hd with hd | rfl
    · have : ¬ Clash (.leaf1 x) b := by
        cases b <;> simp only [Clash, not_false_iff]
        rename_i l; have := hb.1; rw [maxTreeDepth_eq] at this; omega
      exact iff_of_false this (not_clashL_left hd (by simp [elems]))
    · rw [clashL_bottom]
      have := wf_bottom hb
      cases b with
      | branch m k => exact absurd (WF_branch.1 hb).1.1 (by rw [maxTreeDepth_eq]; omega)
      | twig l =>
        simp [Clash, elems] at this ⊢
        exact ⟨by rintro rfl; simp at this, this⟩
      | _ => simp [Clash, elems]
  | .leaf2 x y, d, b, ha, hb, hd => by
    rcases Nat.lt_or_eq_of_le hd with hd | rfl
    · have : ¬ Clash (.leaf2 x y) b := by
        cases b <;> simp only [Clash, not_false_iff]
        rename_i l; have := hb.1; rw [maxTreeDepth_eq] at this; omega
      exact iff_of_false this (not_clashL_left hd (by simp [elems]))
    · rw [clashL_bottom]
      have := wf_bottom hb
      cases b with
      | branch m k => exact absurd (WF_branch.1 hb).1.1 (by rw [maxTreeDepth_eq]; omega)
      | twig l =>
        simp [Clash, elems] at this ⊢
        exact ⟨by rintro rfl; simp at this, this⟩
      | _ => simp [Clash, elems]
  | .twig l, d, b, ha, hb, hd => by
    have h22 : d = 22 := by have := ha.1; rw [maxTreeDepth_eq] at this; omega
    have hl := ha.2.1
    subst h22
    rw [clashL_bottom]
    have h1 : (elems (.twig l)) ≠ [] := by
      intro h; simp only [elems] at h; rw [h] at hl; simp at hl
    simp only [Clash]
    constructor
    · intro h
      exact ⟨h1, elems_ne_nil hb h, Or.inl hl⟩
    · rintro ⟨_, h2, _⟩
      cases b <;> simp [Node.isNil, elems] at h2 ⊢
  | .branch m k, d, b, ha, hb, hd => by
    obtain ⟨hs, h3⟩ := WF_branch.1 ha
    have hd' : d < 22 := hs.1
    cases b with
    | nil =>
      simp only [Clash, false_iff, elems]
      rintro ⟨x, _, y, hy, _⟩; simp at hy
    | leaf1 x => exact iff_of_false (by simp [Clash]) (not_clashL_right hd' (by simp [elems]))
    | leaf2 x y => exact iff_of_false (by simp [Clash]) (not_clashL_right hd' (by simp [elems]))
    | twig l => have : 22 ≤ d := hb.1; omega
    | branch m2 k2 =>
      obtain ⟨hs2, h32⟩ := WF_branch.1 hb
      simp only [Clash]
      have key : ∀ (x : T) (n : Nat), d < n →
          ((elems (.branch m k)).filter (agree d n x)) = (elems (k (chunk x d))).filter (agree (d + 1) n x) := by
        intro x n hn
        rw [← filter_branch hs x]
        apply List.filter_congr; intro e _; rw [agree_step hn]
      have key2 : ∀ (x : T) (n : Nat), d < n →
          ((elems (.branch m2 k2)).filter (agree d n x)) = (elems (k2 (chunk x d))).filter (agree (d + 1) n x) := by
        intro x n hn
        rw [← filter_branch hs2 x]
        apply List.filter_congr; intro e _; rw [agree_step hn]
      have hall : ∀ (x : T) (l : List T), d = 21 → l.filter (agree d 21 x) = l := by
        intro x l hd; apply List.filter_eq_self.2; intro e _; exact agree_ge (by omega) x e
      have ih := fun i => clash_iff (k i) (d + 1) (k2 i) (hs.2.2.1 i) (hs2.2.2.1 i) (by omega)
      constructor
      · rintro ⟨i, hi⟩
        obtain ⟨x, hx, y, hy, h1, h2, h4⟩ := (ih i).1 hi
        have hxi := hs.2.2.2 i x hx
        have hyi := hs2.2.2.2 i y hy
        refine ⟨x, ?_, y, ?_, ?_, ?_, ?_⟩
        · simp only [elems, List.mem_flatMap]; exact ⟨i, List.mem_finRange i, hx⟩
        · simp only [elems, List.mem_flatMap]; exact ⟨i, List.mem_finRange i, hy⟩
        · rw [agree_step (by omega), h1, hxi, hyi]; simp
        · intro _
          by_cases h21 : d = 21
          · rw [hall _ _ h21, hall _ _ h21]; exact ⟨h3, h32⟩
          · rw [key x 21 (by omega), key2 x 21 (by omega), hxi]; exact h2 (by omega)
        · rw [key x 22 (by omega), key2 x 22 (by omega), hxi]; exact h4
      · rintro ⟨x, hx, y, hy, h1, h2, h4⟩
        rw [agree_step (by omega), Bool.and_eq_true, decide_eq_true_eq] at h1
        refine ⟨chunk x d, (ih _).2 ⟨x, ?_, y, ?_, h1.2, ?_, ?_⟩⟩
        · simp only [elems, List.mem_flatMap] at hx
          obtain ⟨i, _, hx⟩ := hx
          rw [hs.2.2.2 i x hx]; exact hx
        · simp only [elems, List.mem_flatMap] at hy
          obtain ⟨i, _, hy⟩ := hy
          rw [h1.1, hs2.2.2.2 i y hy]; exact hy
        · intro hlt
          have := h2 (by omega)
          rw [key x 21 (by omega), key2 x 21 (by omega)] at this
          exact this
        · rw [key x 22 (by omega), key2 x 22 (by omega)] at h4; exact h4

/-! ## Digits and hash bits -/

theorem chunk_eq_iff (x y : T) (d : Nat) :
    chunk x d = chunk y d ↔ ∀ j < 3, ∀ i, i + 3 * d = 61 + j → (hash0 x).getLsbD i = (hash0 y).getLsbD i := by
  have h1 : chunk x d = chunk y d ↔ (newHasher x d >>> 61) = (newHasher y d >>> 61) := by
    unfold chunk Hasher.idx
    simp only [Fin.mk.injEq, hashBits, fanoutBits]
    exact BitVec.toNat_inj
  rw [h1]
  constructor
  · intro h j hj i hi
    have := congrArg (fun b => b.getLsbD j) h
    simp only [BitVec.getLsbD_ushiftRight, newHasher, BitVec.getLsbD_shiftLeft, fanoutBits] at this
    have e1 : 61 + j - d * 3 = i := by omega
    rw [e1] at this
    have e2 : decide (61 + j < 64) = true := by simp; omega
    have e3 : decide (61 + j < d * 3) = false := by simp; omega
    rw [e2, e3] at this
    simpa [hash0] using this
  · intro h
    apply BitVec.eq_of_getLsbD_eq
    intro j hj
    simp only [BitVec.getLsbD_ushiftRight, newHasher, BitVec.getLsbD_shiftLeft, fanoutBits]
    by_cases hj3 : j < 3
    · by_cases hlt : 61 + j < d * 3
      · simp [hlt]
      · have := h j hj3 (61 + j - d * 3) (by omega)
        unfold hash0 at this
        rw [this]
    · have : decide (61 + j < 64) = false := by simp; omega
      rw [this]; simp

theorem agree_22 (x y : T) : agree 0 22 x y = true ↔ hash0 x = hash0 y := by
  rw [agree_iff]
  constructor
  · intro h
    apply BitVec.eq_of_getLsbD_eq
    intro i hi
    have := (chunk_eq_iff x y ((63 - i) / 3)).1 (h _ (by omega) (by omega)) (2 - (63 - i) % 3) (by omega) i (by omega)
    exact this
  · intro h j _ _
    rw [chunk_eq_iff, h]; simp

theorem agree_21 (x y : T) : agree 0 21 x y = true ↔ hash0 x >>> 1 = hash0 y >>> 1 := by
  rw [agree_iff]
  constructor
  · intro h
    apply BitVec.eq_of_getLsbD_eq
    intro i hi
    simp only [BitVec.getLsbD_ushiftRight]
    by_cases hi63 : i = 63
    · subst hi63; simp
    · exact (chunk_eq_iff x y ((63 - (1 + i)) / 3)).1 (h _ (by omega) (by omega)) (2 - (63 - (1 + i)) % 3) (by omega) (1 + i)
        (by omega)
  · intro h j _ hj
    rw [chunk_eq_iff]
    intro t ht i hi
    have := congrArg (fun b => b.getLsbD (i - 1)) h
    simp only [BitVec.getLsbD_ushiftRight] at this
    rwa [show 1 + (i - 1) = i by omega] at this

theorem hash0_congr {x y : T} (h : GoKey.eq x y = true) : hash0 x = hash0 y := PerGoKey.hash_congr _ h

/-- Membership in a list up to equality. -/
def memL (l : List T) (w : T) : Prop := ∃ e ∈ l, GoKey.eq e w = true

theorem atLeast_iff [LawfulGoKey T] {l : List T} (hd : Distinct l) (n : Nat) (p : T → Prop) [DecidablePred p]
    (hp : ∀ {x y}, GoKey.eq x y = true → (p x ↔ p y)) :
    AtLeast n (fun e => memL l e ∧ p e) ↔ n ≤ (l.filter fun e => decide (p e)).length := by
  constructor
  · rintro ⟨l2, rfl, hd2, hm⟩
    apply Distinct.length_le (l := l2) hd2
    intro x hx
    obtain ⟨⟨e, he, hex⟩, hpx⟩ := hm x hx
    exact ⟨e, by simp [he, (hp hex).2 hpx], PerGoKey.symm hex⟩
  · intro h
    refine ⟨(l.filter fun e => decide (p e)).take n, by simp; omega, ?_, ?_⟩
    · exact (hd.filter _).sublist (List.take_sublist _ _)
    · intro x hx
      have := List.mem_of_mem_take hx
      simp only [List.mem_filter, decide_eq_true_eq] at this
      exact ⟨⟨x, this.1, eq_refl x⟩, this.2⟩

/-- The clash condition in terms of hashes: what `TripleClash` says. -/
theorem clash_tripleClash [LawfulGoKey T] {a b : Node T} (ha : WF 0 a) (hb : WF 0 b) :
    Clash a b ↔ TripleClash (memL (elems a)) (memL (elems b)) := by
  rw [clash_iff a 0 b ha hb (by omega)]
  have h21 : ∀ (x : T) (l : List T), l.filter (agree 0 21 x) = l.filter (fun e => decide (hash0 e >>> 1 = hash0 x >>> 1)) := by
    intro x l; apply List.filter_congr; intro e _
    rw [Bool.eq_iff_iff, agree_21, decide_eq_true_eq, _root_.eq_comm]
  have h22 : ∀ (x : T) (l : List T), l.filter (agree 0 22 x) = l.filter (fun e => decide (hash0 e = hash0 x)) := by
    intro x l; apply List.filter_congr; intro e _
    rw [Bool.eq_iff_iff, agree_22, decide_eq_true_eq, _root_.eq_comm]
  have c21 : ∀ (x : T) {u v : T}, GoKey.eq u v = true → ((hash0 u >>> 1 = hash0 x >>> 1) ↔ (hash0 v >>> 1 = hash0 x >>> 1)) := by
    intro x u v h; rw [hash0_congr h]
  have c22 : ∀ (x : T) {u v : T}, GoKey.eq u v = true → ((hash0 u = hash0 x) ↔ (hash0 v = hash0 x)) := by
    intro x u v h; rw [hash0_congr h]
  unfold TripleClash ClashL
  constructor
  · rintro ⟨x, hx, y, hy, h1, h2, h3⟩
    refine ⟨x, y, ⟨x, hx, eq_refl x⟩, ⟨y, hy, eq_refl y⟩, (agree_22 x y).1 h1, ?_, ?_, ?_⟩
    · rw [atLeast_iff ha.distinct 3 _ (c21 x), ← h21]; exact (h2 (by omega)).1
    · rw [atLeast_iff hb.distinct 3 _ (c21 x), ← h21]; exact (h2 (by omega)).2
    · rw [atLeast_iff ha.distinct 3 _ (c22 x), ← h22, atLeast_iff hb.distinct 3 _ (c22 x), ← h22]; exact h3
  · rintro ⟨x, y, ⟨x', hx', ex⟩, ⟨y', hy', ey⟩, h1, h2, h3, h4⟩
    have hxx := hash0_congr ex
    rw [atLeast_iff ha.distinct 3 _ (c21 x)] at h2
    rw [atLeast_iff hb.distinct 3 _ (c21 x)] at h3
    rw [atLeast_iff ha.distinct 3 _ (c22 x), atLeast_iff hb.distinct 3 _ (c22 x)] at h4
    refine ⟨x', hx', y', hy', (agree_22 _ _).2 ?_, fun _ => ⟨?_, ?_⟩, ?_⟩
    · rw [hxx, h1, hash0_congr ey]
    · rw [h21, hxx]; exact h2
    · rw [h21, hxx]; exact h3
    · rw [h22, h22, hxx]; exact h4

end Frozen
