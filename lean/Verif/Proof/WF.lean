import Verif.Model.Node
import Verif.Proof.Bits

/-! The abstraction of a node (its elements), the structural invariant, and the basic lemmas about them. -/

set_option linter.unusedSectionVars false

namespace Frozen

variable {T : Type}

/-- The elements of a node in slot order. -/
def elems : Node T → List T
  | .nil => []
  | .leaf1 a => [a]
  | .leaf2 a b => [a, b]
  | .twig l => l
  | .branch _ k => (List.finRange 8).flatMap (fun i => elems (k i))

/-- The mask that `updateMask` computes. -/
def maskOf (k : Fin 8 → Node T) : Masker := (Packer.updateMask ⟨0#16, k⟩).mask

theorem updateMask_eq (p : Packer T) : p.updateMask = ⟨maskOf p.data, p.data⟩ := rfl

theorem getLsbD_foldl_mask (k : Fin 8 → Node T) (is : List (Fin 8)) (m0 : Masker) (j : Nat) :
    (is.foldl (fun m i => if (k i).isNil then m else m ||| newMasker i) m0).getLsbD j =
      (m0.getLsbD j || is.any (fun i => !(k i).isNil && decide (j = i.val))) := by
  induction is generalizing m0 with
  | nil => simp
  | cons i is ih =>
    rw [List.foldl_cons, ih, List.any_cons]
    by_cases h : (k i).isNil = true
    · simp [h]
    · simp only [h, Bool.false_eq_true, if_false, BitVec.getLsbD_or, getLsbD_newMasker]
      simp [h, Bool.or_assoc]

theorem getLsbD_maskOf (k : Fin 8 → Node T) (i : Fin 8) : (maskOf k).getLsbD i = !(k i).isNil := by
  unfold maskOf Packer.updateMask
  rw [getLsbD_foldl_mask]
  simp only [BitVec.getLsbD_zero, Bool.false_or]
  rw [Bool.eq_iff_iff, List.any_eq_true]
  constructor
  · rintro ⟨x, _, hx⟩
    simp only [Bool.and_eq_true, decide_eq_true_eq] at hx
    have : i = x := Fin.ext hx.2
    rw [this]; exact hx.1
  · intro h
    exact ⟨i, List.mem_finRange i, by simpa using h⟩

theorem maskOk_maskOf (k : Fin 8 → Node T) : MaskOk (maskOf k) := by
  intro i h
  unfold maskOf Packer.updateMask at h
  rw [getLsbD_foldl_mask] at h
  simp only [BitVec.getLsbD_zero, Bool.false_or, List.any_eq_true, Bool.and_eq_true, decide_eq_true_eq] at h
  obtain ⟨x, _, _, rfl⟩ := h
  exact x.isLt

theorem mask_ext {a b : Masker} (ha : MaskOk a) (hb : MaskOk b) (h : ∀ i : Fin 8, a.getLsbD i = b.getLsbD i) : a = b := by
  apply BitVec.eq_of_getLsbD_eq
  intro i hi
  by_cases h8 : i < 8
  · exact h ⟨i, h8⟩
  · have h1 : a.getLsbD i = false := by
      cases hh : a.getLsbD i with
      | false => rfl
      | true => exact absurd (ha i hh) h8
    have h2 : b.getLsbD i = false := by
      cases hh : b.getLsbD i with
      | false => rfl
      | true => exact absurd (hb i hh) h8
    rw [h1, h2]

theorem maskOk_newMasker (i : Fin 8) : MaskOk (newMasker i) := by
  intro j h
  rw [getLsbD_newMasker] at h
  simp only [decide_eq_true_eq] at h
  omega

theorem maskOf_setSlot_nonNil (k : Fin 8 → Node T) (i : Fin 8) (n : Node T) (h : n.isNil = false) :
    maskOf k ||| newMasker i = maskOf (setSlot k i n) := by
  apply mask_ext ((maskOk_maskOf k).or (maskOk_newMasker i)) (maskOk_maskOf _)
  intro j
  rw [BitVec.getLsbD_or, getLsbD_maskOf, getLsbD_maskOf, getLsbD_newMasker]
  by_cases hj : j = i
  · subst hj; simp [setSlot, h]
  · have : ¬ j.val = i.val := fun e => hj (Fin.ext e)
    simp [setSlot, hj, this]

theorem maskOf_setSlot_nil (k : Fin 8 → Node T) (i : Fin 8) (m : Masker) (hm : MaskOk m)
    (h : ∀ j, j ≠ i → m.getLsbD j = (maskOf k).getLsbD j) (n : Node T) (hn : n.isNil = true) :
    m &&& ~~~ newMasker i = maskOf (setSlot k i n) := by
  apply mask_ext hm.and (maskOk_maskOf _)
  intro j
  rw [BitVec.getLsbD_and, BitVec.getLsbD_not, getLsbD_maskOf, getLsbD_newMasker]
  have h16 : j.val < 16 := by omega
  by_cases hj : j = i
  · subst hj; simp [setSlot, hn]
  · have h' : ¬ j.val = i.val := fun e => hj (Fin.ext e)
    have h2 : ∀ j', j' ≠ i → m.getLsbD j' = (maskOf k).getLsbD j' := h
    have := h2 j hj
    rw [this, getLsbD_maskOf]
    simp [setSlot, hj, h', h16]

theorem setChild_eq (m : Masker) (k : Fin 8 → Node T) (i : Fin 8) (n : Node T) (hm : MaskOk m)
    (h : ∀ j, j ≠ i → m.getLsbD j = (maskOf k).getLsbD j) :
    Packer.setChild ⟨m, k⟩ i n = ⟨maskOf (setSlot k i n), setSlot k i n⟩ := by
  unfold Packer.setChild
  cases hn : n.isNil with
  | true => simp only [if_true]; rw [maskOf_setSlot_nil k i m hm h n hn]
  | false =>
    simp only [Bool.false_eq_true, if_false]
    congr 1
    apply mask_ext (hm.or (maskOk_newMasker i)) (maskOk_maskOf _)
    intro j
    rw [BitVec.getLsbD_or, getLsbD_maskOf, getLsbD_newMasker]
    by_cases hj : j = i
    · subst hj; simp [setSlot, hn]
    · have h' : ¬ j.val = i.val := fun e => hj (Fin.ext e)
      rw [h j hj, getLsbD_maskOf]
      simp [setSlot, hj, h']

@[simp] theorem setSlot_same {α : Type} (k : Fin 8 → α) (i : Fin 8) (n : α) : setSlot k i n i = n := by simp [setSlot]
theorem setSlot_ne {α : Type} (k : Fin 8 → α) {i j : Fin 8} (n : α) (h : j ≠ i) : setSlot k i n j = k j := by simp [setSlot, h]

theorem isNil_iff {n : Node T} : n.isNil = true ↔ n = .nil := by cases n <;> simp [Node.isNil]

variable [GoKey T]

/-- The slot index a value takes at a depth. -/
def chunk (v : T) (d : Nat) : Fin 8 := (newHasher v d).idx

theorem newHasher_next (v : T) (d : Nat) : (newHasher v d).next = newHasher v (d + 1) := by
  unfold newHasher Hasher.next
  rw [← BitVec.shiftLeft_add]
  congr 1
  simp [fanoutBits]; omega

/-- The well-formedness of a branch's slots, without the lower bound on its size. -/
def WFSlots (W : Nat → Node T → Prop) (d : Nat) (m : Masker) (k : Fin 8 → Node T) : Prop :=
  d < maxTreeDepth ∧ m = maskOf k ∧ (∀ i, W (d + 1) (k i)) ∧ ∀ i, ∀ e ∈ elems (k i), chunk e d = i

/-- The structural invariant of a node at a depth. -/
def WF : Nat → Node T → Prop
  | _, .nil => True
  | _, .leaf1 _ => True
  | _, .leaf2 a b => GoKey.eq a b = false
  | d, .twig l => maxTreeDepth ≤ d ∧ 3 ≤ l.length ∧ l.Pairwise (fun a b => GoKey.eq a b = false)
  | d, .branch m k => (d < maxTreeDepth ∧ m = maskOf k ∧ (∀ i, WF (d + 1) (k i)) ∧ ∀ i, ∀ e ∈ elems (k i), chunk e d = i) ∧
      3 ≤ (elems (.branch m k)).length

theorem WF_branch {d : Nat} {m : Masker} {k : Fin 8 → Node T} :
    WF d (.branch m k) ↔ WFSlots WF d m k ∧ 3 ≤ (elems (.branch m k)).length := Iff.rfl

/-- The element equal to `w`, if there is one. -/
def look (n : Node T) (w : T) : Option T := (elems n).find? (fun e => GoKey.eq e w)

/-- Pairwise distinct elements. -/
def Distinct (l : List T) : Prop := l.Pairwise (fun a b => GoKey.eq a b = false)

variable [PerGoKey T]

theorem eq_refl [LawfulGoKey T] (a : T) : GoKey.eq a a = true := LawfulGoKey.refl a
theorem eq_comm (a b : T) : GoKey.eq a b = GoKey.eq b a := by
  rw [Bool.eq_iff_iff]; exact ⟨PerGoKey.symm, PerGoKey.symm⟩
theorem eq_congr_left {a b : T} (h : GoKey.eq a b = true) (c : T) : GoKey.eq a c = GoKey.eq b c := by
  rw [Bool.eq_iff_iff]
  exact ⟨fun h' => PerGoKey.trans (PerGoKey.symm h) h', fun h' => PerGoKey.trans h h'⟩
theorem eq_congr_right {a b : T} (h : GoKey.eq a b = true) (c : T) : GoKey.eq c a = GoKey.eq c b := by
  rw [eq_comm c a, eq_comm c b]; exact eq_congr_left h c

theorem newHasher_congr {a b : T} (h : GoKey.eq a b = true) (d : Nat) : newHasher a d = newHasher b d := by
  unfold newHasher; rw [PerGoKey.hash_congr _ h]

theorem chunk_congr {a b : T} (h : GoKey.eq a b = true) (d : Nat) : chunk a d = chunk b d := by
  unfold chunk; rw [newHasher_congr h]

theorem find?_congr_key {l : List T} {v w : T} (h : GoKey.eq v w = true) :
    l.find? (fun e => GoKey.eq e v) = l.find? (fun e => GoKey.eq e w) := by
  congr 1; funext e; exact eq_congr_right h e

theorem look_congr {n : Node T} {v w : T} (h : GoKey.eq v w = true) : look n v = look n w := find?_congr_key h

theorem look_eq {n : Node T} {v e : T} (h : look n v = some e) : GoKey.eq e v = true := by
  simpa using List.find?_some h

theorem look_mem {n : Node T} {v e : T} (h : look n v = some e) : e ∈ elems n := List.mem_of_find?_eq_some h

theorem Distinct.find?_self {l : List T} (h : Distinct l) {e : T} (he : e ∈ l) (hr : GoKey.eq e e = true) :
    l.find? (fun x => GoKey.eq x e) = some e := by
  induction l with
  | nil => simp at he
  | cons a l ih =>
    unfold Distinct at h
    rw [List.pairwise_cons] at h
    rcases List.mem_cons.1 he with rfl | he
    · simp [hr]
    · have := h.1 e he
      rw [List.find?_cons_of_neg (h := by simp [this])]
      exact ih h.2 he

theorem Distinct.find?_mem [LawfulGoKey T] {l : List T} (h : Distinct l) {e : T} (he : e ∈ l) :
    l.find? (fun x => GoKey.eq x e) = some e := h.find?_self he (eq_refl e)

theorem Distinct.find?_of_eq {l : List T} (h : Distinct l) {e v : T} (he : e ∈ l) (hv : GoKey.eq e v = true) :
    l.find? (fun x => GoKey.eq x v) = some e := by
  rw [← find?_congr_key hv]; exact h.find?_self he (PerGoKey.trans hv (PerGoKey.symm hv))

theorem find?_isSome_of {l : List T} {e v : T} (he : e ∈ l) (hv : GoKey.eq e v = true) :
    (l.find? (fun x => GoKey.eq x v)).isSome = true := by
  rw [List.find?_isSome]; exact ⟨e, he, hv⟩

/-- In a branch, an element is looked up in the slot of its chunk. -/
theorem look_slot {d : Nat} {m : Masker} {k : Fin 8 → Node T} (hc : ∀ i, ∀ e ∈ elems (k i), chunk e d = i) (w : T) :
    look (.branch m k) w = look (k (chunk w d)) w := by
  unfold look
  simp only [elems, List.find?_flatMap]
  have key : ∀ i, i ≠ chunk w d → (elems (k i)).find? (fun e => GoKey.eq e w) = none := by
    intro i hi
    rw [List.find?_eq_none]
    intro e he h
    have h1 := hc i e he
    have h2 := chunk_congr h d
    exact hi (by rw [← h1, h2])
  generalize chunk w d = c at *
  have h : ∀ (is : List (Fin 8)), (c ∈ is ∨ True) →
      is.findSome? (fun i => (elems (k i)).find? (fun e => GoKey.eq e w)) =
        if c ∈ is then (elems (k c)).find? (fun e => GoKey.eq e w) else none := by
    intro is _
    induction is with
    | nil => simp
    | cons i is ih =>
      rw [List.findSome?_cons]
      by_cases hic : i = c
      · subst hic
        cases hh : (elems (k i)).find? (fun e => GoKey.eq e w) with
        | some x => simp
        | none =>
          simp only [ih (Or.inr trivial), hh]; simp
      · rw [key i hic]
        simp only [ih (Or.inr trivial), List.mem_cons]
        have : ¬ c = i := fun e => hic e.symm
        simp [this]
  rw [h _ (Or.inr trivial)]
  simp

theorem distinct_flatMap {k : Fin 8 → Node T} {d : Nat} (hk : ∀ i, Distinct (elems (k i)))
    (hc : ∀ i, ∀ e ∈ elems (k i), chunk e d = i) (is : List (Fin 8)) (hn : is.Nodup) :
    Distinct (is.flatMap fun i => elems (k i)) := by
  unfold Distinct
  rw [List.pairwise_flatMap]
  refine ⟨fun i _ => hk i, ?_⟩
  refine List.Pairwise.imp_of_mem ?_ hn
  intro i j _ _ hij e he f hf
  cases h : GoKey.eq e f with
  | false => rfl
  | true =>
    exfalso; apply hij
    rw [← hc i e he, ← hc j f hf, chunk_congr h]

theorem WF.distinct : ∀ {d : Nat} {n : Node T}, WF d n → Distinct (elems n)
  | _, .nil, _ => List.Pairwise.nil
  | _, .leaf1 _, _ => List.pairwise_singleton _ _
  | _, .leaf2 a b, h => by
    simp only [WF] at h
    simp [Distinct, elems, h]
  | _, .twig l, h => h.2.2
  | d, .branch m k, h => by
    simp only [WF] at h
    have hk : ∀ i, Distinct (elems (k i)) := fun i => WF.distinct (h.1.2.2.1 i)
    simp only [elems]
    exact distinct_flatMap hk h.1.2.2.2 _ (List.nodup_finRange 8)

theorem WFSlots.distinct {d : Nat} {m : Masker} {k : Fin 8 → Node T} (h : WFSlots WF d m k) :
    Distinct (elems (.branch m k)) := by
  simp only [elems]
  exact distinct_flatMap (fun i => (h.2.2.1 i).distinct) h.2.2.2 _ (List.nodup_finRange 8)

theorem WF.mem_iff [LawfulGoKey T] {d : Nat} {n : Node T} (h : WF d n) {e : T} : e ∈ elems n ↔ look n e = some e :=
  ⟨fun he => h.distinct.find?_mem he, fun he => look_mem he⟩

theorem WF.look_branch {d : Nat} {m : Masker} {k : Fin 8 → Node T} (h : WFSlots WF d m k) (w : T) :
    look (.branch m k) w = look (k (chunk w d)) w := look_slot h.2.2.2 w

theorem elems_ne_nil {d : Nat} {n : Node T} (h : WF d n) (hn : n.isNil = false) : elems n ≠ [] := by
  cases n with
  | nil => simp [Node.isNil] at hn
  | leaf1 a => simp [elems]
  | leaf2 a b => simp [elems]
  | twig l =>
    intro he
    simp only [elems] at he
    have := h.2.1
    rw [he] at this
    simp at this
  | branch m k =>
    intro he
    have := h.2
    rw [he] at this
    simp at this

/-- Total size of the slots as a sum. -/
theorem length_branch (m : Masker) (k : Fin 8 → Node T) :
    (elems (.branch m k)).length = ((List.finRange 8).map fun i => (elems (k i)).length).sum := by
  simp [elems, List.length_flatMap]

theorem sum_setSlot (k : Fin 8 → Node T) (i : Fin 8) (n : Node T) :
    ((List.finRange 8).map fun j => (elems (setSlot k i n j)).length).sum + (elems (k i)).length =
      ((List.finRange 8).map fun j => (elems (k j)).length).sum + (elems n).length := by
  have : List.finRange 8 = [0, 1, 2, 3, 4, 5, 6, 7] := by decide
  rw [this]
  have hi : i = 0 ∨ i = 1 ∨ i = 2 ∨ i = 3 ∨ i = 4 ∨ i = 5 ∨ i = 6 ∨ i = 7 := by
    rcases i with ⟨i, hi⟩
    simp only [Fin.ext_iff, Fin.val_zero, Fin.val_one, Fin.isValue]
    show i = 0 ∨ i = 1 ∨ i = 2 ∨ i = 3 ∨ i = 4 ∨ i = 5 ∨ i = 6 ∨ i = 7
    omega
  rcases hi with rfl | rfl | rfl | rfl | rfl | rfl | rfl | rfl <;> simp [setSlot] <;> omega

theorem length_setSlot (m m' : Masker) (k : Fin 8 → Node T) (i : Fin 8) (n : Node T) :
    (elems (.branch m' (setSlot k i n))).length + (elems (k i)).length =
      (elems (.branch m k)).length + (elems n).length := by
  rw [length_branch, length_branch]; exact sum_setSlot k i n

/-- Replacing one slot. -/
theorem WFSlots.set {d : Nat} {m : Masker} {k : Fin 8 → Node T} (h : WFSlots WF d m k) (i : Fin 8) {n : Node T}
    (hn : WF (d + 1) n) (hc : ∀ e ∈ elems n, chunk e d = i) :
    WFSlots WF d (maskOf (setSlot k i n)) (setSlot k i n) := by
  refine ⟨h.1, rfl, ?_, ?_⟩
  · intro j
    by_cases hj : j = i
    · subst hj; simpa using hn
    · rw [setSlot_ne _ _ hj]; exact h.2.2.1 j
  · intro j e he
    by_cases hj : j = i
    · subst hj; simp at he; exact hc e he
    · rw [setSlot_ne _ _ hj] at he; exact h.2.2.2 j e he

theorem look_setSlot {d : Nat} {m m' : Masker} {k : Fin 8 → Node T} (h : WFSlots WF d m k) (i : Fin 8) {n : Node T}
    (hc : ∀ e ∈ elems n, chunk e d = i) (w : T) :
    look (.branch m' (setSlot k i n)) w = if chunk w d = i then look n w else look (.branch m k) w := by
  rw [look_slot (d := d) (k := setSlot k i n), look_slot h.2.2.2]
  · by_cases hi : chunk w d = i
    · simp [hi]
    · simp [hi, setSlot_ne]
  · intro j e he
    by_cases hj : j = i
    · subst hj; simp at he; exact hc e he
    · rw [setSlot_ne _ _ hj] at he; exact h.2.2.2 j e he

end Frozen
