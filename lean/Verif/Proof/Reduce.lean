import Verif.Proof.Set

/-! `Reduce` combines the elements in slot order. -/

set_option linter.unusedSectionVars false

namespace Frozen

variable {T : Type}

/-- The value `Reduce` returns. -/
def redv (r : List T → T) : Node T → T
  | .nil => r []
  | .leaf1 a => r [a]
  | .leaf2 a b => r [a, b]
  | .twig l => r l
  | .branch m k => r ((slots m).map (fun i => redv r (k i)))

theorem mapM_slots [Inhabited T] {m : Masker} (hm : MaskOk m) (g : Fin 8 → T) :
    (bitLoop m).mapM (fun i => if h : i < 8 then (.ok (g ⟨i, h⟩) : Go T) else .error (.msg "index out of range")) =
      .ok ((slots m).map g) := by
  rw [bitLoop_slots hm]
  induction slots m with
  | nil => rfl
  | cons i is ih =>
    rw [List.map_cons, List.mapM_cons]
    simp only [i.isLt, dite_true, Fin.eta, bind, Except.bind, ih, pure, Except.pure, List.map_cons]

variable [GoKey T] [LawfulGoKey T]

theorem reduce_spec [Inhabited T] (r : List T → T) : ∀ (n : Node T) (d : Nat), WF d n → n.isNil = false →
    reduce r n = .ok (redv r n)
  | .nil, _, _, hn => by cases hn
  | .leaf1 _, _, _, _ => rfl
  | .leaf2 _ _, _, _, _ => rfl
  | .twig _, _, _, _ => rfl
  | .branch m k, d, hw, _ => by
    obtain ⟨hs, h3⟩ := WF_branch.1 hw
    have hm := maskOk_wf hs
    obtain ⟨s', h1, h2⟩ := parallel_write (σ := Fin 8 → T) (α := T) (fun s => s)
      (fun i res => do
        let x ← reduce r (k i)
        pure (setSlot res i x, true, 0)) (fun i => (redv r (k i), 0)) hm (by
        intro i hi s
        have hn : (k i).isNil = false := by rw [mask_bit hs] at hi; simpa using hi
        refine ⟨setSlot s i (redv r (k i)), ?_, ?_⟩
        · simp only [reduce_spec r (k i) (d + 1) (hs.2.2.1 i) hn, bind, Except.bind, pure, Except.pure]
        · intro j; rfl) (fun _ => default)
    rw [reduce, h1]
    simp only [bind, Except.bind]
    rw [mapM_slots hm s']
    simp only [pure, Except.pure, redv]
    congr 2
    apply List.map_congr_left
    intro i hi
    rw [h2, if_pos (mem_slots.1 hi)]

theorem slots_ne_nil {d : Nat} {m : Masker} {k : Fin 8 → Node T} (hw : WF d (.branch m k)) : slots m ≠ [] := by
  obtain ⟨hs, h3⟩ := WF_branch.1 hw
  intro he
  have : ∀ i, elems (k i) = [] := by
    intro i
    have h1 : ¬ i ∈ slots m := by rw [he]; simp
    rw [mem_slots, mask_bit hs] at h1
    have h2 : (k i).isNil = true := by simpa using h1
    rw [isNil_iff.1 h2]; rfl
  have h4 : elems (.branch m k) = [] := by simp [elems, this]
  rw [h4] at h3
  simp at h3

theorem redv_congr {r r' : List T → T} (h : ∀ l, l ≠ [] → r l = r' l) : ∀ (n : Node T) (d : Nat), WF d n → n.isNil = false →
    redv r n = redv r' n
  | .nil, _, _, hn => by cases hn
  | .leaf1 _, _, _, _ => h _ (by simp)
  | .leaf2 _ _, _, _, _ => h _ (by simp)
  | .twig l, _, hw, _ => h _ (by
      have h2 : 3 ≤ l.length := hw.2.1
      intro he; rw [he] at h2; simp at h2)
  | .branch m k, d, hw, _ => by
    obtain ⟨hs, h3⟩ := WF_branch.1 hw
    have : (slots m).map (fun i => redv r (k i)) = (slots m).map (fun i => redv r' (k i)) := by
      apply List.map_congr_left
      intro i hi
      have hn : (k i).isNil = false := by rw [mem_slots, mask_bit hs] at hi; simpa using hi
      exact redv_congr h (k i) (d + 1) (hs.2.2.1 i) hn
    simp only [redv]
    rw [this, h]
    simpa using slots_ne_nil hw

theorem flatMap_slots {d : Nat} {m : Masker} {k : Fin 8 → Node T} (hs : WFSlots WF d m k) :
    elems (.branch m k) = ((slots m).map (fun i => elems (k i))).flatten := by
  simp only [elems, slots]
  rw [← List.flatMap_def]
  induction List.finRange 8 with
  | nil => rfl
  | cons i is ih =>
    rw [List.flatMap_cons]
    by_cases hi : m.getLsbD i = true
    · rw [List.filter_cons_of_pos (p := fun i : Fin 8 => m.getLsbD i) hi, List.flatMap_cons, ih]
    · rw [List.filter_cons_of_neg (p := fun i : Fin 8 => m.getLsbD i) hi, ← ih]
      rw [mask_bit hs] at hi
      have h2 : (k i).isNil = true := by simpa using hi
      rw [isNil_iff.1 h2]; rfl

theorem redv_elems {r : List T → T} (h : ∀ ls : List (List T), ls ≠ [] → (∀ l ∈ ls, l ≠ []) → r (ls.map r) = r ls.flatten) :
    ∀ (n : Node T) (d : Nat), WF d n → n.isNil = false → redv r n = r (elems n)
  | .nil, _, _, hn => by cases hn
  | .leaf1 _, _, _, _ => rfl
  | .leaf2 _ _, _, _, _ => rfl
  | .twig l, _, hw, _ => rfl
  | .branch m k, d, hw, _ => by
    obtain ⟨hs, h3⟩ := WF_branch.1 hw
    rw [flatMap_slots hs, ← h _ (by simpa using slots_ne_nil hw), redv, List.map_map]
    · congr 1
      apply List.map_congr_left
      intro i hi
      have hn : (k i).isNil = false := by rw [mem_slots, mask_bit hs] at hi; simpa using hi
      exact redv_elems h (k i) (d + 1) (hs.2.2.1 i) hn
    · intro l hl
      obtain ⟨i, hi, rfl⟩ := List.mem_map.1 hl
      have hn : (k i).isNil = false := by rw [mem_slots, mask_bit hs] at hi; simpa using hi
      exact elems_ne_nil (hs.2.2.1 i) hn

theorem foldl_assoc {op : T → T → T} (ha : ∀ a b c, op (op a b) c = op a (op b c)) :
    ∀ (as : List T) (x a : T), op x (as.foldl op a) = as.foldl op (op x a)
  | [], _, _ => rfl
  | b :: as, x, a => by rw [List.foldl_cons, List.foldl_cons, foldl_assoc ha as, ha]

/-- A fold of an associative operation satisfies the flattening law. -/
theorem flatten_law [Inhabited T] {op : T → T → T} {r : List T → T} (ha : ∀ a b c, op (op a b) c = op a (op b c))
    (hr : ∀ a as, r (a :: as) = as.foldl op a) :
    ∀ ls : List (List T), ls ≠ [] → (∀ l ∈ ls, l ≠ []) → r (ls.map r) = r ls.flatten
  | [], h, _ => absurd rfl h
  | l :: ls, _, hne => by
    cases l with
    | nil => exact absurd rfl (hne [] List.mem_cons_self)
    | cons a as =>
      rw [List.map_cons, hr, hr, List.flatten_cons, List.cons_append, hr, List.foldl_append]
      have key : ∀ (ls : List (List T)), (∀ l ∈ ls, l ≠ []) → ∀ z, (ls.map r).foldl op z = ls.flatten.foldl op z := by
        intro ls
        induction ls with
        | nil => intros; rfl
        | cons l ls ih =>
          intro hne z
          cases l with
          | nil => exact absurd rfl (hne [] List.mem_cons_self)
          | cons b bs =>
            rw [List.map_cons, List.foldl_cons, ih (fun l hl => hne l (List.mem_cons_of_mem _ hl)), hr, List.flatten_cons,
              List.foldl_append, List.foldl_cons, foldl_assoc ha]
      exact key ls (fun l hl => hne l (List.mem_cons_of_mem _ hl)) _

theorem FSet.reduce_spec [Inhabited T] {s : FSet T} (h : s.Valid) (r : List T → T) :
    s.reduce r = .ok (if s.tree.root.isNil then none else some (redv r s.tree.root)) := by
  unfold FSet.reduce Tree.reduce
  cases hn : s.tree.root.isNil with
  | true => rfl
  | false =>
    simp only [Bool.false_eq_true, if_false, Frozen.reduce_spec r _ 0 h.wf hn, bind, Except.bind, pure, Except.pure]

end Frozen
