import Verif.Proof.Ordered
import Verif.Props.Witness

/-! # C17: ordered traversal -/

set_option linter.unusedSectionVars false

namespace Frozen

variable {T : Type} [GoKey T] [LawfulGoKey T] [Inhabited T]

/-- C17. `OrderedElements` returns the elements of the set (`es`), each once, in non-decreasing order; `OrderedRange` delivers the same
list, one value per call of `Next`, and then returns false for ever. -/
theorem C17_ordered (s : FSet T) (hs : s.Reachable) (less : T → T → Bool) (hless : StrictWeakOrder less) (es : List T)
    (hes : s.elements = .ok es) :
    ∃ l, s.orderedElements less = .ok l ∧ l.Perm es ∧ Sorted less l ∧
      ∃ it, s.orderedRange less = .ok it ∧ ∀ n, it.calls n = .ok ((List.range n).map (fun i => l[i]?)) := by
  rw [FSet.elements_spec hs.valid] at hes
  cases hes
  obtain ⟨it, out, rest, h1, h2, h3, h4, h5, _⟩ := orderedIterator_spec hless hs.valid s.count
  have hc : s.count = s.tree.list.length := hs.valid.count_eq
  have hr : rest = [] := by
    have := h3.length_eq
    rw [if_neg (by rintro (h | h); · omega
                   · exact absurd h (by unfold FSet.count; omega))] at h5
    simp at this
    exact List.length_eq_zero_iff.1 (by omega)
  subst hr
  rw [List.append_nil] at h3
  refine ⟨out, ?_, h3, h4, it, h1, h2.calls⟩
  unfold FSet.orderedElements FSet.orderedRange
  simp only [h1, bind, Except.bind]
  apply h2.drain
  rw [h3.length_eq, size_eq]
  exact Nat.lt_succ_self _

/-- C17. For `n ≥ 0`, `OrderedFirstN` returns the `min(n, Count)` least elements in order: they and the `rest` are all elements of the
set, each once, and nothing in the rest is less than a returned element. -/
theorem C17_orderedFirstN (s : FSet T) (hs : s.Reachable) (less : T → T → Bool) (hless : StrictWeakOrder less) (es : List T)
    (hes : s.elements = .ok es) (n : Int) (hn : 0 ≤ n) :
    ∃ l rest, s.orderedFirstN n less = .ok l ∧ (l ++ rest).Perm es ∧ (l.length : Int) = min n s.count ∧ Sorted less l ∧
      ∀ a ∈ l, ∀ b ∈ rest, less b a = false := by
  rw [FSet.elements_spec hs.valid] at hes
  cases hes
  obtain ⟨it, out, rest, h1, h2, h3, h4, h5, h6⟩ := orderedIterator_spec hless hs.valid n
  have hlen : (out.length : Int) = min n s.count := by
    rw [h5]
    unfold FSet.count
    split <;> omega
  refine ⟨out, rest, ?_, h3, hlen, h4, h6⟩
  unfold FSet.orderedFirstN
  rw [if_neg (by omega)]
  simp only [h1, bind, Except.bind, h2.takeN]
  rw [List.take_of_length_le (by omega)]

/-- C17. `OrderedFirstN` panics for a negative `n`. -/
theorem C17_orderedFirstN_negative (s : FSet T) (less : T → T → Bool) (n : Int) (hn : n < 0) :
    ∃ p, s.orderedFirstN n less = .error p := ⟨_, if_pos hn⟩

/-- C17. `First` returns an element no other element is less than, and panics on the empty set. -/
theorem C17_first (s : FSet T) (hs : s.Reachable) (less : T → T → Bool) (hless : StrictWeakOrder less) (es : List T)
    (hes : s.elements = .ok es) :
    (es ≠ [] → ∃ x, s.first less = .ok x ∧ x ∈ es ∧ ∀ y ∈ es, less y x = false) ∧
    (es = [] → s.first less = .error (.msg "Set[T].First(): empty set")) := by
  obtain ⟨l, rest, h1, h2, h3, h4, h5⟩ := C17_orderedFirstN s hs less hless es hes 1 (by decide)
  have hc : s.count = es.length := by
    rw [FSet.elements_spec hs.valid] at hes
    cases hes
    exact hs.valid.count_eq
  unfold FSet.first
  simp only [h1, bind, Except.bind]
  constructor
  · intro hne
    have : 0 < es.length := List.length_pos_iff.2 hne
    obtain ⟨x, rfl⟩ : ∃ x, l = [x] := List.length_eq_one_iff.1 (by omega)
    refine ⟨x, rfl, h2.subset (by simp), fun y hy => ?_⟩
    rcases List.mem_append.1 (h2.symm.subset hy) with hy | hy
    · rw [List.mem_singleton.1 hy]; exact hless.irrefl x
    · exact h5 x (by simp) y hy
  · intro he
    subst he
    have hl : l = [] := List.length_eq_zero_iff.1 (by simp at hc; omega)
    subst hl
    rfl

/-- C17. `FirstN` is the set of the values returned by `OrderedFirstN`; none is lost. -/
theorem C17_firstN (s : FSet T) (hs : s.Reachable) (less : T → T → Bool) (hless : StrictWeakOrder less) (n : Int) (hn : 0 ≤ n) :
    ∃ l r, s.orderedFirstN n less = .ok l ∧ s.firstN n less = .ok r ∧ r.Reachable ∧ Lists l r.Mem ∧ r.count = min n s.count := by
  obtain ⟨l, rest, h1, h2, h3, h4, h5⟩ := C17_orderedFirstN s hs less hless _ (FSet.elements_spec hs.valid) n hn
  have hd : Distinct l := (List.pairwise_append.1 (hs.valid.distinct.perm h2.symm)).1
  obtain ⟨r, b1, b2, b3, b4⟩ := buildSet_spec l
  have hr : r.Reachable := ⟨.newSet l, b1⟩
  have hl : Lists l r.Mem := by
    refine ⟨hd, fun w => ?_⟩
    rw [FSet.mem_iff hr.valid, b3, ← hd.find?_perm (List.reverse_perm l).symm w]
    simp
  refine ⟨l, r, h1, ?_, hr, hl, ?_⟩
  · unfold FSet.firstN
    simp only [h1, bind, Except.bind]
    exact b1
  · have h6 := FSet.hasCard hr.valid
    rw [← h3]
    exact h6.unique ⟨l, hl, rfl⟩

/-- The order by value is a strict weak order on numbers modulo 100 (with different representatives it is not antisymmetric). -/
theorem exampleLess : StrictWeakOrder (fun a b : Mod100 => decide (a.n / 10 < b.n / 10)) := by
  refine ⟨fun a => by simp, fun a b c h g => ?_, fun a b c h1 h2 h3 h4 => ?_⟩
  · simp only [decide_eq_true_eq] at *; omega
  · simp only [decide_eq_false_iff_not] at *; omega

/-- Seven elements in order of their tens, and the three least of them. -/
example : okAnd (newSet [(⟨51⟩ : Mod100), ⟨32⟩, ⟨77⟩, ⟨13⟩, ⟨31⟩, ⟨64⟩, ⟨25⟩]) (fun s =>
    okAnd (s.orderedElements (fun a b => decide (a.n / 10 < b.n / 10))) (fun l => decide (l.map (·.n / 10) = [1, 2, 3, 3, 5, 6, 7])) &&
    okAnd (s.orderedFirstN 3 (fun a b => decide (a.n / 10 < b.n / 10))) (fun l => decide (l.map (·.n / 10) = [1, 2, 3]))) = true := by
  decide +kernel

end Frozen
