import Verif.Proof.Heap
import Verif.Proof.SetElems
import Verif.Spec.OrdTrace

/-! # Ordered iteration -/

set_option linter.unusedSectionVars false

namespace Frozen

variable {T : Type} [Inhabited T]

/-- Elements dropped by the size cap are not less than any kept one. -/
structure Kept (less : T → T → Bool) (n : Nat) (l dropped : List T) : Prop where
  heap : IsHeap (orderedLess less) l
  len : l.length ≤ n
  full : dropped ≠ [] → l.length = n
  best : ∀ d ∈ dropped, ∀ k ∈ l, less d k = false

theorem orderedStep_spec {less : T → T → Bool} (hless : StrictWeakOrder less) {n : Nat} {l dropped : List T} (h : Kept less n l dropped)
    (v : T) : ∃ l' dropped', orderedStep less n l v = .ok l' ∧ Kept less n l' dropped' ∧ (l' ++ dropped').Perm (v :: (l ++ dropped)) := by
  obtain ⟨l1, h1, h2, h3⟩ := heapPush_spec hless.swap h.heap v
  have hlen : l1.length = l.length + 1 := by rw [h2.length_eq]; rfl
  unfold orderedStep
  simp only [h1, bind, Except.bind, pure, Except.pure]
  by_cases hn : (l1.length : Int) > n
  · rw [if_pos hn]
    have hln : l.length = n := by have := h.len; omega
    obtain ⟨x, l2, p1, p2, p3, p4⟩ := heapPop_spec hless.swap h3 (by intro hc; rw [hc] at hlen; simp at hlen)
    simp only [p1]
    have hl2 : l2.length = n := by have := p2.length_eq; simp at this; omega
    have hp4 : ∀ y ∈ l1, less x y = false := p4
    refine ⟨l2, x :: dropped, rfl, ⟨p3, by omega, fun _ => hl2, ?_⟩, ?_⟩
    · intro d hd k hk
      have hk1 : k ∈ l1 := p2.subset (List.mem_cons_of_mem _ hk)
      rcases List.mem_cons.1 hd with rfl | hd
      · exact hp4 k hk1
      · -- x is v, or x was kept before
        have hx : x ∈ v :: l := h2.subset (p2.subset (List.mem_cons_self ..))
        rcases List.mem_cons.1 hx with rfl | hx
        · have hp : l2.Perm l := List.Perm.cons_inv (p2.trans h2)
          exact h.best d hd k (hp.subset hk)
        · exact HLe.trans (lt := less) hless (hp4 k hk1) (h.best d hd x hx)
    · have e1 : (l2 ++ x :: dropped).Perm ((x :: l2) ++ dropped) := List.perm_middle
      exact e1.trans ((p2.trans h2).append_right dropped)
  · rw [if_neg hn]
    refine ⟨l1, dropped, rfl, ⟨h3, by omega, ?_, ?_⟩, h2.append_right dropped⟩
    · intro hd; have := h.full hd; omega
    · intro d hd k hk
      have := h.full (List.ne_nil_of_mem hd)
      omega

theorem orderedFold_spec {less : T → T → Bool} (hless : StrictWeakOrder less) {n : Nat} : ∀ (vs l dropped : List T), Kept less n l dropped →
    ∃ l' dropped', vs.foldlM (orderedStep less n) l = .ok l' ∧ Kept less n l' dropped' ∧ (l' ++ dropped').Perm (vs ++ (l ++ dropped))
  | [], l, dropped, h => ⟨l, dropped, rfl, h, List.Perm.refl _⟩
  | v :: vs, l, dropped, h => by
    obtain ⟨l1, d1, h1, h2, h3⟩ := orderedStep_spec hless h v
    obtain ⟨l2, d2, g1, g2, g3⟩ := orderedFold_spec hless vs l1 d1 h2
    refine ⟨l2, d2, ?_, g2, g3.trans ?_⟩
    · rw [List.foldlM_cons, h1]; exact g1
    · exact ((h3.append_left vs).trans List.perm_middle)

/-- What an ordered iterator over the values `out` does. -/
structure Delivers' (it : OrdIter T) (out : List T) : Prop where
  drain : ∀ fuel, out.length < fuel → it.drain fuel = .ok out
  takeN : ∀ k, it.takeN k = .ok (out.take k)
  calls : ∀ m, it.calls m = .ok ((List.range m).map (fun i => out[i]?))

theorem calls_nil {it : OrdIter T} (h : it.next = .ok (it, false)) : ∀ m, it.calls m = .ok ((List.range m).map (fun i => ([] : List T)[i]?))
  | 0 => rfl
  | m + 1 => by
    unfold OrdIter.calls
    simp only [h, bind, Except.bind, Bool.false_eq_true, if_false, calls_nil h m, pure, Except.pure]
    rw [List.range_succ_eq_map, List.map_cons, List.map_map]
    rfl

theorem delivers_nil {it : OrdIter T} (h : it.next = .ok (it, false)) : Delivers' it [] := by
  refine ⟨fun fuel hf => ?_, fun k => ?_, calls_nil h⟩
  · obtain ⟨f, rfl⟩ : ∃ f, fuel = f + 1 := ⟨fuel - 1, by simp at hf; omega⟩
    unfold OrdIter.drain
    simp only [h, bind, Except.bind, Bool.false_eq_true, if_false, pure, Except.pure]
  · unfold OrdIter.takeN
    cases k <;> simp only [h, bind, Except.bind, Bool.false_eq_true, if_false, pure, Except.pure, List.take_nil]

theorem delivers_cons {it it' : OrdIter T} {x : T} {out : List T} (h : it.next = .ok (it', true)) (hv : it'.value = .ok x)
    (hd : Delivers' it' out) : Delivers' it (x :: out) := by
  refine ⟨fun fuel hf => ?_, fun k => ?_, fun m => ?_⟩
  · obtain ⟨f, rfl⟩ : ∃ f, fuel = f + 1 := ⟨fuel - 1, by simp at hf; omega⟩
    unfold OrdIter.drain
    simp only [h, hv, bind, Except.bind, if_true, hd.drain f (by simp at hf; omega), pure, Except.pure]
  · unfold OrdIter.takeN
    cases k with
    | zero => simp only [h, bind, Except.bind, if_true, pure, Except.pure, List.take_zero]
    | succ k => simp only [h, hv, bind, Except.bind, if_true, pure, Except.pure, hd.takeN k, List.take_succ_cons]
  · cases m with
    | zero => rfl
    | succ m =>
      unfold OrdIter.calls
      simp only [h, hv, bind, Except.bind, if_true, hd.calls m, pure, Except.pure]
      rw [List.range_succ_eq_map, List.map_cons, List.map_map]
      rfl

theorem ordIter_spec {less : T → T → Bool} (hless : StrictWeakOrder less) : ∀ (n : Nat) (l : List T) (val : T), l.length = n →
    IsHeap less l → ∃ out, out.Perm l ∧ Sorted less out ∧ Delivers' (.heap less l val) out
  | 0, l, val, hn, _ => by
    obtain rfl : l = [] := List.length_eq_zero_iff.1 hn
    exact ⟨[], List.Perm.refl _, List.Pairwise.nil, delivers_nil rfl⟩
  | n + 1, l, val, hn, hh => by
    obtain ⟨x, l', p1, p2, p3, p4⟩ := heapPop_spec hless hh (by intro hc; rw [hc] at hn; simp at hn)
    have hl' : l'.length = n := by have := p2.length_eq; simp at this; omega
    obtain ⟨out, o1, o2, o3⟩ := ordIter_spec hless n l' x hl' p3
    refine ⟨x :: out, (o1.cons x).trans p2, ?_, delivers_cons (it' := .heap less l' x) ?_ rfl o3⟩
    · refine List.Pairwise.cons (fun y hy => p4 y (p2.subset (List.mem_cons_of_mem _ (o1.subset hy)))) o2
    · unfold OrdIter.next
      have p1 : heapPop (reverseLess less) l = .ok (x, l') := p1
      have hne : ¬ l.length = 0 := by omega
      simp only [if_neg hne, p1, bind, Except.bind, pure, Except.pure]

variable [GoKey T] [LawfulGoKey T]

/-- `OrderedIterator` with any cap. -/
theorem orderedIterator_spec {less : T → T → Bool} (hless : StrictWeakOrder less) {t : Tree T} (ht : t.Valid) (n : Int) :
    ∃ it out rest, t.orderedIterator less n = .ok it ∧ Delivers' it out ∧ (out ++ rest).Perm t.list ∧ Sorted less out ∧
      (out.length : Int) = (if n < 0 ∨ n > t.count then t.count else n) ∧ (∀ a ∈ out, ∀ b ∈ rest, less b a = false) := by
  unfold Tree.orderedIterator
  have hc : t.count = t.list.length := ht.count_eq
  generalize hm : (if n < 0 ∨ n > t.count then t.count else n) = m
  have hm0 : 0 ≤ m ∧ m ≤ t.count := by
    rw [← hm]; split <;> omega
  simp only
  by_cases h0 : m = 0
  · rw [if_pos h0]
    exact ⟨.empty, [], t.list, rfl, delivers_nil rfl, List.Perm.refl _, List.Pairwise.nil, by simp [h0], fun a ha => (nomatch ha)⟩
  · rw [if_neg h0]
    have hr : (do let it ← t.root.iter; it.drain (t.root.size + 1)) = (.ok t.list : Go (List T)) := by
      have := ht.rangeList
      unfold Tree.rangeList Tree.iterator at this
      have hnil : t.root.isNil = false := by
        cases hn : t.root.isNil with
        | false => rfl
        | true =>
          exfalso
          have h1 : t.list = [] := by unfold Tree.list; rw [isNil_iff.1 hn]; rfl
          rw [h1] at hc; simp at hc; omega
      rw [hnil] at this
      exact this
    rw [hr]
    obtain ⟨N, rfl⟩ : ∃ N : Nat, m = N := ⟨m.toNat, by omega⟩
    obtain ⟨l, dropped, f1, f2, f3⟩ := orderedFold_spec hless (n := N) t.list [] []
      ⟨by intro k hk hkl; simp at hkl, by simp, by simp, by simp⟩
    obtain ⟨l', i1, i2, i3⟩ := heapInit_all hless l
    have i1 : heapInit (reverseLess less) (l.length / 2) l = .ok l' := i1
    obtain ⟨out, o1, o2, o3⟩ := ordIter_spec hless l'.length l' default rfl i3
    simp only [f1, i1, bind, Except.bind, pure, Except.pure]
    have hp : out.Perm l := o1.trans i2
    refine ⟨_, out, dropped, rfl, o3, ?_, o2, ?_, ?_⟩
    · refine (hp.append_right dropped).trans (f3.trans ?_); simp
    · rw [hp.length_eq]
      have h3 := f3.length_eq
      simp only [List.length_append, List.length_nil] at h3
      by_cases hd : dropped = []
      · subst hd
        have := f2.len
        simp at h3
        omega
      · rw [f2.full hd]
    · intro a ha b hb
      exact f2.best b hb a (hp.subset ha)

end Frozen
