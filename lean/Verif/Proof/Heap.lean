import Verif.Model.Ordered
import Verif.Proof.Tree

/-! # `container/heap` is correct -/

set_option linter.unusedSectionVars false

namespace Frozen

variable {T : Type}

/-- `a` may stay above `b`. -/
def HLe (lt : T → T → Bool) (a b : T) : Prop := lt b a = false

theorem HLe.refl {lt : T → T → Bool} (h : StrictWeakOrder lt) (a : T) : HLe lt a a := h.irrefl a

theorem lt_asymm {lt : T → T → Bool} (h : StrictWeakOrder lt) {a b : T} (hab : lt a b = true) : lt b a = false := by
  cases hba : lt b a with
  | false => rfl
  | true => have := h.trans a b a hab hba; rw [h.irrefl] at this; exact this.symm

theorem HLe.trans {lt : T → T → Bool} (h : StrictWeakOrder lt) {a b c : T} (hab : HLe lt a b) (hbc : HLe lt b c) : HLe lt a c := by
  unfold HLe at *
  cases hca : lt c a with
  | false => rfl
  | true =>
    exfalso
    cases h1 : lt a b with
    | true => have := h.trans c a b hca h1; rw [hbc] at this; cases this
    | false =>
      cases h2 : lt b c with
      | true => have := h.trans b c a h2 hca; rw [hab] at this; cases this
      | false =>
        have := (h.incomp a b c h1 hab h2 hbc).2
        rw [hca] at this; cases this

theorem HLe.of_lt {lt : T → T → Bool} (h : StrictWeakOrder lt) {a b : T} (hab : lt a b = true) : HLe lt a b := lt_asymm h hab

theorem StrictWeakOrder.swap {less : T → T → Bool} (h : StrictWeakOrder less) : StrictWeakOrder (orderedLess less) :=
  ⟨h.irrefl, fun a b c h1 h2 => h.trans c b a h2 h1,
    fun a b c h1 h2 h3 h4 => (h.incomp c b a h3 h4 h1 h2)⟩

/-! ### Slices as functions -/

variable [Inhabited T]

/-- Element `k` of the slice, for `k` in range. -/
def nth (l : List T) (k : Nat) : T := l.getD k default

theorem nth_eq {l : List T} {k : Nat} (h : k < l.length) : l[k]? = some (nth l k) := by
  unfold nth; simp [List.getD_eq_getElem?_getD, List.getElem?_eq_getElem h]

theorem nth_mem {l : List T} {k : Nat} (h : k < l.length) : nth l k ∈ l := List.mem_of_getElem? (nth_eq h)

theorem exists_nth {l : List T} {x : T} (h : x ∈ l) : ∃ k, k < l.length ∧ nth l k = x := by
  obtain ⟨k, hk, hx⟩ := List.getElem_of_mem h
  refine ⟨k, hk, ?_⟩
  have := nth_eq hk
  rw [List.getElem?_eq_getElem hk, hx] at this
  exact (Option.some.inj this).symm

theorem goAt_nth {l : List T} {k : Nat} (h : k < l.length) : goAt l k = .ok (nth l k) := by
  unfold goAt; rw [nth_eq h]

theorem heapLess_nth (lt : T → T → Bool) {l : List T} {i j : Nat} (hi : i < l.length) (hj : j < l.length) :
    heapLess lt l i j = .ok (lt (nth l i) (nth l j)) := by
  unfold heapLess
  simp only [goAt_nth hi, goAt_nth hj, bind, Except.bind, pure, Except.pure]

/-- What a swap does. -/
structure Swapped (l l' : List T) (i j : Nat) : Prop where
  perm : l'.Perm l
  length : l'.length = l.length
  left : nth l' i = nth l j
  right : nth l' j = nth l i
  other : ∀ k, k ≠ i → k ≠ j → nth l' k = nth l k

theorem heapSwap_spec {l : List T} {i j : Nat} (hi : i < l.length) (hj : j < l.length) :
    ∃ l', heapSwap l i j = .ok l' ∧ Swapped l l' i j := by
  refine ⟨(l.set i (nth l j)).set j (nth l i), ?_, ?_⟩
  · unfold heapSwap
    simp only [goAt_nth hi, goAt_nth hj, bind, Except.bind, pure, Except.pure]
  · have key : ∀ k, nth ((l.set i (nth l j)).set j (nth l i)) k = if k = j then nth l i else if k = i then nth l j else nth l k := by
      intro k
      unfold nth
      rw [List.getD_eq_getElem?_getD, List.getElem?_set, List.getElem?_set]
      by_cases h1 : k = j
      · subst h1; simp [hj]
      · rw [if_neg (fun h => h1 h.symm), if_neg h1]
        by_cases h2 : k = i
        · subst h2; simp [hi]
        · rw [if_neg (fun h => h2 h.symm), if_neg h2]; simp [List.getD_eq_getElem?_getD]
    refine ⟨?_, by simp, ?_, ?_, ?_⟩
    · have e1 : nth l i = l[i] := by have := nth_eq hi; rw [List.getElem?_eq_getElem hi] at this; exact (Option.some.inj this).symm
      have e2 : nth l j = l[j] := by have := nth_eq hj; rw [List.getElem?_eq_getElem hj] at this; exact (Option.some.inj this).symm
      rw [e1, e2]
      exact List.set_set_perm hi hj
    · rw [key]; by_cases h : i = j
      · subst h; simp
      · rw [if_neg h, if_pos rfl]
    · rw [key, if_pos rfl]
    · intro k h1 h2; rw [key, if_neg h2, if_neg h1]

/-- The heap condition below index `i0`, for the first `n` elements. -/
def HeapFrom (lt : T → T → Bool) (i0 n : Nat) (l : List T) : Prop :=
  ∀ k, 0 < k → k < n → i0 ≤ (k - 1) / 2 → HLe lt (nth l ((k - 1) / 2)) (nth l k)

/-- The heap condition. -/
def IsHeap (lt : T → T → Bool) (l : List T) : Prop := HeapFrom lt 0 l.length l

theorem heapUp_spec {lt : T → T → Bool} (hlt : StrictWeakOrder lt) : ∀ (fuel j : Nat) (l : List T), j < fuel → j < l.length →
    (∀ k, 0 < k → k < l.length → k ≠ j → HLe lt (nth l ((k - 1) / 2)) (nth l k)) →
    (∀ k, 0 < k → k < l.length → (k - 1) / 2 = j → 0 < j → HLe lt (nth l ((j - 1) / 2)) (nth l k)) →
    ∃ l', heapUp lt fuel j l = .ok l' ∧ l'.Perm l ∧ IsHeap lt l' := by
  intro fuel
  induction fuel with
  | zero => intro j l h; omega
  | succ fuel ih =>
    intro j l hj hjl h1 h2
    unfold heapUp
    by_cases hi : (j - 1) / 2 = j
    · simp only [if_pos hi, pure, Except.pure]
      have hj0 : j = 0 := by omega
      exact ⟨l, rfl, List.Perm.refl _, fun k hk hkl _ => h1 k hk hkl (by omega)⟩
    · have hij : (j - 1) / 2 < j := by omega
      simp only [if_neg hi, heapLess_nth lt hjl (show (j - 1) / 2 < l.length by omega), bind, Except.bind, pure, Except.pure]
      cases hb : lt (nth l j) (nth l ((j - 1) / 2)) with
      | false =>
        simp only [Bool.not_false, if_true]
        refine ⟨l, rfl, List.Perm.refl _, fun k hk hkl _ => ?_⟩
        by_cases hkj : k = j
        · subst hkj; exact hb
        · exact h1 k hk hkl hkj
      | true =>
        obtain ⟨l', hs, sw⟩ := heapSwap_spec (show (j - 1) / 2 < l.length by omega) hjl
        simp only [Bool.not_true, Bool.false_eq_true, if_false, hs]
        generalize hii : (j - 1) / 2 = i at *
        obtain ⟨l'', g1, g2, g3⟩ := ih i l' (by omega) (by rw [sw.length]; omega)
          (by
            intro k hk hkl hki
            rw [sw.length] at hkl
            by_cases hkj : k = j
            · subst hkj; rw [hii, sw.left, sw.right]; exact HLe.of_lt hlt hb
            · rw [sw.other k hki hkj]
              by_cases hp1 : (k - 1) / 2 = i
              · rw [hp1, sw.left]
                have := h1 k hk hkl hkj
                rw [hp1] at this
                exact (HLe.of_lt hlt hb).trans hlt this
              · by_cases hp2 : (k - 1) / 2 = j
                · rw [hp2, sw.right]; exact h2 k hk hkl hp2 (by omega)
                · rw [sw.other _ hp1 hp2]; exact h1 k hk hkl hkj)
          (by
            intro k hk hkl hki hi0
            rw [sw.length] at hkl
            rw [sw.other ((i - 1) / 2) (by omega) (by omega)]
            have hpi := h1 i hi0 (by omega) (by omega)
            by_cases hkj : k = j
            · subst hkj; rw [sw.right]; exact hpi
            · rw [sw.other k (by omega) hkj]
              have := h1 k hk hkl hkj
              rw [hki] at this
              exact hpi.trans hlt this)
        exact ⟨l'', g1, g2.trans sw.perm, g3⟩

theorem heapChild_spec {lt : T → T → Bool} (hlt : StrictWeakOrder lt) {l : List T} {i n : Nat} (hn : n ≤ l.length) (hi : 2 * i + 1 < n) :
    ∃ j, heapChild lt l i n = .ok j ∧ j < n ∧ (j - 1) / 2 = i ∧ 0 < j ∧
      ∀ k, 0 < k → k < n → (k - 1) / 2 = i → HLe lt (nth l j) (nth l k) := by
  unfold heapChild
  by_cases h : 2 * i + 2 < n
  · simp only [if_pos h, heapLess_nth lt (show 2 * i + 2 < l.length by omega) (show 2 * i + 1 < l.length by omega), bind, Except.bind,
      pure, Except.pure]
    cases hb : lt (nth l (2 * i + 2)) (nth l (2 * i + 1)) with
    | true =>
      refine ⟨2 * i + 2, by simp, h, by omega, by omega, fun k hk hkn hki => ?_⟩
      have : k = 2 * i + 1 ∨ k = 2 * i + 2 := by omega
      rcases this with rfl | rfl
      · exact HLe.of_lt hlt hb
      · exact HLe.refl hlt _
    | false =>
      refine ⟨2 * i + 1, by simp, hi, by omega, by omega, fun k hk hkn hki => ?_⟩
      have : k = 2 * i + 1 ∨ k = 2 * i + 2 := by omega
      rcases this with rfl | rfl
      · exact HLe.refl hlt _
      · exact hb
  · simp only [if_neg h, pure, Except.pure]
    refine ⟨2 * i + 1, rfl, hi, by omega, by omega, fun k hk hkn hki => ?_⟩
    have : k = 2 * i + 1 := by omega
    subst this; exact HLe.refl hlt _

theorem heapDown_spec {lt : T → T → Bool} (hlt : StrictWeakOrder lt) (i0 n : Nat) : ∀ (fuel i : Nat) (l : List T), n < fuel + i → i0 ≤ i →
    i < n ∨ n = i → n ≤ l.length →
    (∀ k, 0 < k → k < n → i0 ≤ (k - 1) / 2 → (k - 1) / 2 ≠ i → HLe lt (nth l ((k - 1) / 2)) (nth l k)) →
    (∀ k, 0 < k → k < n → (k - 1) / 2 = i → 0 < i → i0 ≤ (i - 1) / 2 → HLe lt (nth l ((i - 1) / 2)) (nth l k)) →
    ∃ l', heapDown lt fuel i n l = .ok l' ∧ l'.Perm l ∧ HeapFrom lt i0 n l' ∧ ∀ k, n ≤ k → nth l' k = nth l k := by
  intro fuel
  induction fuel with
  | zero => intro i l h _ h'; omega
  | succ fuel ih =>
    intro i l hf hi0 hin hnl h1 h2
    unfold heapDown
    by_cases hc : 2 * i + 1 ≥ n
    · simp only [if_pos hc, pure, Except.pure]
      exact ⟨l, rfl, List.Perm.refl _, fun k hk hkn hp => h1 k hk hkn hp (by omega), fun _ _ => rfl⟩
    · obtain ⟨j, c1, c2, c3, c4, c5⟩ := heapChild_spec hlt hnl (show 2 * i + 1 < n by omega)
      simp only [if_neg hc, c1, heapLess_nth lt (show j < l.length by omega) (show i < l.length by omega), bind, Except.bind, pure, Except.pure]
      cases hb : lt (nth l j) (nth l i) with
      | false =>
        simp only [Bool.not_false, if_true]
        refine ⟨l, rfl, List.Perm.refl _, fun k hk hkn hp => ?_, fun _ _ => rfl⟩
        by_cases hki : (k - 1) / 2 = i
        · rw [hki]; exact HLe.trans hlt hb (c5 k hk hkn hki)
        · exact h1 k hk hkn hp hki
      | true =>
        obtain ⟨l', hs, sw⟩ := heapSwap_spec (show i < l.length by omega) (show j < l.length by omega)
        simp only [Bool.not_true, Bool.false_eq_true, if_false, hs]
        obtain ⟨l'', g1, g2, g3, g4⟩ := ih j l' (by omega) (by omega) (by omega) (by rw [sw.length]; exact hnl)
          (by
            intro k hk hkn hp hkj
            by_cases hki : (k - 1) / 2 = i
            · rw [hki, sw.left]
              by_cases hkj' : k = j
              · subst hkj'; rw [sw.right]; exact HLe.of_lt hlt hb
              · rw [sw.other k (by omega) hkj']; exact c5 k hk hkn hki
            · rw [sw.other _ hki hkj]
              by_cases hk1 : k = i
              · subst hk1
                rw [sw.left]
                exact h2 j c4 c2 c3 (by omega) hp
              · rw [sw.other k hk1 (by omega)]
                exact h1 k hk hkn hp hki)
          (by
            intro k hk hkn hkj hj0 hp
            rw [c3, sw.left, sw.other k (by omega) (by omega)]
            have := h1 k hk hkn (by omega) (by omega)
            rw [hkj] at this; exact this)
        exact ⟨l'', g1, g2.trans sw.perm, g3, fun k hk => (g4 k hk).trans (sw.other k (by omega) (by omega))⟩

/-- The top of a heap is a least element. -/
theorem IsHeap.top {lt : T → T → Bool} (hlt : StrictWeakOrder lt) {l : List T} (h : IsHeap lt l) : ∀ k, k < l.length →
    HLe lt (nth l 0) (nth l k) := by
  intro k
  induction k using Nat.strongRecOn with
  | ind k ih =>
    intro hk
    by_cases h0 : k = 0
    · subst h0; exact HLe.refl hlt _
    · exact (ih ((k - 1) / 2) (by omega) (by omega)).trans hlt (h k (by omega) hk (Nat.zero_le _))

theorem heapPush_spec {lt : T → T → Bool} (hlt : StrictWeakOrder lt) {l : List T} (h : IsHeap lt l) (x : T) :
    ∃ l', heapPush lt l x = .ok l' ∧ l'.Perm (x :: l) ∧ IsHeap lt l' := by
  have hn : ∀ k, k < l.length → nth (l ++ [x]) k = nth l k := by
    intro k hk
    unfold nth
    rw [List.getD_eq_getElem?_getD, List.getElem?_append_left hk, List.getD_eq_getElem?_getD]
  obtain ⟨l', h1, h2, h3⟩ := heapUp_spec hlt (l.length + 1) l.length (l ++ [x]) (by omega) (by simp)
    (by
      intro k hk hkl hkj
      have hkl' : k < l.length := by simp at hkl; omega
      rw [hn k hkl', hn _ (by omega)]
      exact h k hk hkl' (Nat.zero_le _))
    (by
      intro k hk hkl hp _
      simp at hkl; omega)
  exact ⟨l', h1, h2.trans (List.perm_append_comm), h3⟩

theorem take_last {l : List T} {n : Nat} (h : l.length = n + 1) : l = l.take n ++ [nth l n] := by
  have h1 := List.take_append_drop n l
  have h2 : l.drop n = [nth l n] := by
    have hlt : n < l.length := by omega
    rw [List.drop_eq_getElem_cons hlt]
    have := nth_eq hlt
    rw [List.getElem?_eq_getElem hlt] at this
    rw [Option.some.inj this]
    simp [h]
  rw [h2] at h1
  exact h1.symm

theorem nth_take {l : List T} {n k : Nat} (h : k < n) : nth (l.take n) k = nth l k := by
  unfold nth
  rw [List.getD_eq_getElem?_getD, List.getD_eq_getElem?_getD, List.getElem?_take, if_pos h]

theorem heapPop_spec {lt : T → T → Bool} (hlt : StrictWeakOrder lt) {l : List T} (h : IsHeap lt l) (hne : l ≠ []) :
    ∃ x l', heapPop lt l = .ok (x, l') ∧ (x :: l').Perm l ∧ IsHeap lt l' ∧ ∀ y ∈ l, HLe lt x y := by
  have hlen : 0 < l.length := List.length_pos_iff.2 hne
  obtain ⟨l1, s1, sw⟩ := heapSwap_spec (l := l) (i := 0) (j := l.length - 1) hlen (by omega)
  obtain ⟨l2, d1, d2, d3, d4⟩ := heapDown_spec hlt 0 (l.length - 1) (l.length - 1 + 1) 0 l1 (by omega) (by omega) (by omega)
    (by rw [sw.length]; omega)
    (by
      intro k hk hkn _ hk0
      rw [sw.other k (by omega) (by omega), sw.other _ hk0 (by omega)]
      exact h k hk (by omega) (Nat.zero_le _))
    (by intro k hk hkn hp h0; omega)
  have hl2 : l2.length = l.length := d2.length_eq.trans sw.length
  have hx : nth l2 (l.length - 1) = nth l 0 := (d4 _ (Nat.le_refl _)).trans sw.right
  refine ⟨nth l 0, l2.take (l.length - 1), ?_, ?_, ?_, ?_⟩
  · unfold heapPop
    simp only [s1, d1, bind, Except.bind, goAt_nth (show l.length - 1 < l2.length by omega), hx, pure, Except.pure]
  · have := take_last (l := l2) (n := l.length - 1) (by omega)
    rw [hx] at this
    have p : (l2.take (l.length - 1) ++ [nth l 0]).Perm l := by rw [← this]; exact d2.trans sw.perm
    exact (List.perm_append_comm (l₁ := [nth l 0])).trans p
  · intro k hk hkl _
    rw [List.length_take] at hkl
    rw [nth_take (by omega), nth_take (by omega)]
    exact d3 k hk (by omega) (Nat.zero_le _)
  · intro y hy
    obtain ⟨k, hk, rfl⟩ := exists_nth hy
    exact h.top hlt k hk

theorem heapInit_spec {lt : T → T → Bool} (hlt : StrictWeakOrder lt) : ∀ (i : Nat) (l : List T), i ≤ l.length →
    HeapFrom lt i l.length l → ∃ l', heapInit lt i l = .ok l' ∧ l'.Perm l ∧ IsHeap lt l' := by
  intro i
  induction i with
  | zero => intro l _ h; exact ⟨l, rfl, List.Perm.refl _, h⟩
  | succ i ih =>
    intro l hi h
    obtain ⟨l', d1, d2, d3, _⟩ := heapDown_spec hlt i l.length (l.length + 1) i l (by omega) (Nat.le_refl _) (by omega) (Nat.le_refl _)
      (fun k hk hkn hp hne => h k hk hkn (by omega)) (by intro k hk hkn hp h0 h1; omega)
    have hl : l'.length = l.length := d2.length_eq
    obtain ⟨l'', e1, e2, e3⟩ := ih l' (by omega) (by rw [hl]; exact d3)
    refine ⟨l'', ?_, e2.trans d2, e3⟩
    unfold heapInit
    simp only [d1, bind, Except.bind, e1]

theorem heapInit_all {lt : T → T → Bool} (hlt : StrictWeakOrder lt) (l : List T) :
    ∃ l', heapInit lt (l.length / 2) l = .ok l' ∧ l'.Perm l ∧ IsHeap lt l' :=
  heapInit_spec hlt _ l (by omega) (by intro k hk hkn hp; omega)

end Frozen
