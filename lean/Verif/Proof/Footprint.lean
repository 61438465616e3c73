import Verif.Proof.Work
import Verif.Spec.Footprint

/-! # A tree has at most 25/3 nodes and arrays for each element -/

set_option linter.unusedSectionVars false

namespace Frozen

variable {T : Type} [GoKey T] [PerGoKey T]

theorem sum_parts_le {α : Type} (l : List α) (f g : α → Nat) (C : Nat) (h : ∀ i ∈ l, 3 * f i ≤ C * g i) :
    3 * (l.map f).sum ≤ C * (l.map g).sum := by
  induction l with
  | nil => simp
  | cons a l ih =>
    have h1 := h a (by simp)
    have h2 := ih (fun i hi => h i (by simp [hi]))
    simp only [List.map_cons, List.sum_cons, Nat.mul_add]
    omega

theorem sum_le_of_le {α : Type} (l : List α) (f g : α → Nat) (h : ∀ i, f i ≤ g i) : (l.map f).sum ≤ (l.map g).sum := by
  induction l with
  | nil => simp
  | cons a l ih => simp only [List.map_cons, List.sum_cons]; exact Nat.add_le_add (h a) ih

theorem parts_le (n : Node T) : ∀ d, WF d n → 3 * n.parts ≤ (maxTreeDepth - d + 3) * (elems n).length := by
  have h22 : maxTreeDepth = 22 := rfl
  induction n with
  | nil => intro d _; exact Nat.zero_le _
  | leaf1 a => intro d _; simp only [Node.parts, elems, List.length_cons, List.length_nil]; omega
  | leaf2 a b => intro d _; simp only [Node.parts, elems, List.length_cons, List.length_nil]; omega
  | twig l =>
    intro d hw
    have h1 : 3 * l.length ≤ (maxTreeDepth - d + 3) * l.length := Nat.mul_le_mul_right _ (by omega)
    have h3 : 3 ≤ l.length := hw.2.1
    simp only [Node.parts, elems]
    omega
  | branch m k ih =>
    intro d hw
    have hd := hw.1.1
    have h3 := hw.2
    have h1 := sum_parts_le (List.finRange 8) (fun i => (k i).parts) (fun i => (elems (k i)).length) (maxTreeDepth - (d + 1) + 3)
      (fun i _ => ih i (d + 1) (hw.1.2.2.1 i))
    have h2 : ((List.finRange 8).map (fun i => (elems (k i)).length)).sum = (elems (.branch m k)).length := by
      simp only [elems, List.length_flatMap]
    rw [h2] at h1
    have h4 : (maxTreeDepth - d + 3) * (elems (.branch m k)).length =
        (maxTreeDepth - (d + 1) + 3) * (elems (.branch m k)).length + (elems (.branch m k)).length := by
      rw [← Nat.succ_mul]; congr 1; omega
    rw [h4]
    simp only [Node.parts]
    omega

theorem keeps_parts {H : Mem T} {F : Set Loc} {d : Nat} {p : Ptr} {n : Node T} (hr : Rep H F d p n) : H.KeepsAtMost p n.parts := by
  induction hr with
  | nil d => exact ⟨[], Nat.zero_le _, fun l h => nomatch h⟩
  | @leaf1 d a x hx _ =>
    refine ⟨[.cell a], Nat.le_refl _, fun l h => ?_⟩
    cases h with
    | node => simp
    | array h => rw [hx] at h; cases h
    | child h _ => rw [hx] at h; cases h
  | @leaf2 d a x y hx _ =>
    refine ⟨[.cell a], Nat.le_refl _, fun l h => ?_⟩
    cases h with
    | node => simp
    | array h => rw [hx] at h; cases h
    | child h _ => rw [hx] at h; cases h
  | @twig d a s la l hd' hx hF ha hFa h3 hla hs =>
    refine ⟨[.cell a, .arr s.arr], Nat.le_refl _, fun l h => ?_⟩
    cases h with
    | node => simp
    | array h => rw [hx] at h; cases h; simp
    | child h _ => rw [hx] at h; cases h
  | @branch d a m k kn hd' hx hF hk ih =>
    choose L h1 h2 using ih
    refine ⟨.cell a :: (List.finRange 8).flatMap L, ?_, fun l h => ?_⟩
    · simp only [Node.parts, List.length_cons, List.length_flatMap]
      have : ((List.finRange 8).map (fun i => (L i).length)).sum ≤ ((List.finRange 8).map (fun i => (kn i).parts)).sum :=
        sum_le_of_le _ _ _ (fun i => h1 i)
      omega
    · cases h with
      | node => simp
      | array h => rw [hx] at h; cases h
      | @child _ _ _ i _ h hk' =>
        rw [hx] at h; cases h
        simp only [List.mem_cons, List.mem_flatMap, List.mem_finRange, true_and]
        exact .inr ⟨i, h2 i l hk'⟩

end Frozen
