import Verif.Proof.Iter
import Verif.Proof.Clash
import Verif.Model.Set

/-! Trees: the invariant and the effect of every operation on lookups. -/

set_option linter.unusedSectionVars false

namespace Frozen

variable {T : Type} [GoKey T]

/-- The invariant of every tree the library builds. -/
structure Tree.Valid (t : Tree T) : Prop where
  wf : WF 0 t.root
  count : t.count = (elems t.root).length

/-- The element equal to `w`. -/
def Tree.look (t : Tree T) (w : T) : Option T := Frozen.look t.root w

/-- The elements in iteration order. -/
def Tree.list (t : Tree T) : List T := elems t.root

variable [PerGoKey T]

theorem Tree.valid_zero : (Tree.zero : Tree T).Valid := ⟨trivial, rfl⟩

theorem Tree.look_zero (w : T) : (Tree.zero : Tree T).look w = none := rfl

theorem Tree.valid_leaf1 (v : T) : (⟨.leaf1 v, 1⟩ : Tree T).Valid := ⟨trivial, rfl⟩

theorem Tree.look_nil {t : Tree T} (h : t.root.isNil = true) (w : T) : t.look w = none := by
  unfold Tree.look; rw [isNil_iff.1 h]; rfl

theorem Tree.Valid.nodeOk {t : Tree T} (h : t.Valid) : NodeOk t.root := h.wf.nodeOk

theorem Tree.Valid.distinct {t : Tree T} (h : t.Valid) : Distinct t.list := h.wf.distinct

theorem Tree.look_eq_find (t : Tree T) (w : T) : t.look w = t.list.find? (fun e => GoKey.eq e w) := rfl

theorem Tree.Valid.count_eq {t : Tree T} (h : t.Valid) : t.count = t.list.length := h.count

theorem Tree.look_congr (t : Tree T) {v w : T} (h : GoKey.eq v w = true) : t.look v = t.look w := Frozen.look_congr h

theorem Tree.isNil_iff_list {t : Tree T} (h : t.Valid) : t.root.isNil = true ↔ t.list = [] := by
  constructor
  · intro hn; unfold Tree.list; rw [isNil_iff.1 hn]; rfl
  · intro hl
    cases hn : t.root.isNil with
    | true => rfl
    | false => exact absurd hl (elems_ne_nil h.wf hn)

theorem Tree.Valid.rangeList {t : Tree T} (h : t.Valid) : t.rangeList = .ok t.list := rangeList_spec h.nodeOk

theorem Tree.get_spec {t : Tree T} (h : t.Valid) (v : T) : t.get v = .ok (t.look v) := by
  unfold Tree.get
  cases hn : t.root.isNil with
  | true => simp [Tree.look_nil hn]
  | false =>
    simp only [Bool.false_eq_true, if_false]
    exact Frozen.get_spec h.wf hn v

theorem withL_look {l l' : List T} {v : T} {ms : Int} (h : WithL (fun _ b => b) l v l' ms) (w : T) :
    l'.find? (fun e => GoKey.eq e w) = if GoKey.eq v w = true then some v else l.find? (fun e => GoKey.eq e w) := by
  rw [h.find]
  cases l.find? (fun e => GoKey.eq e v) <;> rfl

theorem look_leaf1 (v w : T) : (⟨.leaf1 v, 1⟩ : Tree T).look w = if GoKey.eq v w = true then some v else none := by
  unfold Tree.look Frozen.look
  simp only [elems, List.find?_cons, List.find?_nil]
  cases GoKey.eq v w <;> rfl

theorem Tree.with_spec {t : Tree T} (h : t.Valid) (v : T) : ∃ t', t.with v = .ok t' ∧ t'.Valid ∧
    (∀ w, t'.look w = if GoKey.eq v w = true then some v else t.look w) ∧
    t'.count = if (t.look v).isSome then t.count else t.count + 1 := by
  unfold Tree.with
  cases hn : t.root.isNil with
  | true =>
    refine ⟨_, rfl, Tree.valid_leaf1 v, fun w => ?_, ?_⟩
    · rw [look_leaf1, Tree.look_nil hn]
    · rw [Tree.look_nil hn, h.count, isNil_iff.1 hn]; rfl
  | false =>
    obtain ⟨n', ms, h1, h2⟩ := withFast_spec h.wf hn v
    have hl := h2.eff.len
    have hc := h.count
    refine ⟨⟨n', t.count + 1 - ms⟩, ?_, ⟨h2.wf, ?_⟩, fun w => withL_look h2.eff w, ?_⟩
    · simp [h1, bind, Except.bind, pure, Except.pure]
    · simp only; omega
    · have := h2.eff.ms_eq
      simp only
      rw [Tree.look_eq_find]
      unfold Tree.list
      split <;> rename_i hs
      · rw [if_pos hs] at this; omega
      · rw [if_neg hs] at this; omega

theorem Builder.add_spec {t : Builder T} (h : Tree.Valid t) (v : T) : ∃ t', Builder.add t v = .ok t' ∧ Tree.Valid t' ∧
    (∀ w, Tree.look t' w = if GoKey.eq v w = true then some v else Tree.look t w) ∧
    t'.count = if (Tree.look t v).isSome then t.count else t.count + 1 := by
  unfold Builder.add
  cases hn : t.root.isNil with
  | true =>
    refine ⟨_, rfl, Tree.valid_leaf1 v, fun w => ?_, ?_⟩
    · rw [look_leaf1, Tree.look_nil hn]
    · rw [Tree.look_nil hn, h.count, isNil_iff.1 hn]; rfl
  | false =>
    obtain ⟨n', ms, h1, h2⟩ := addFast_spec h.wf hn v
    have hl := h2.eff.len
    have hc := h.count
    refine ⟨⟨n', t.count + (1 - ms)⟩, ?_, ⟨h2.wf, ?_⟩, fun w => withL_look h2.eff w, ?_⟩
    · simp [h1, bind, Except.bind, pure, Except.pure]
    · simp only; omega
    · have := h2.eff.ms_eq
      simp only
      rw [Tree.look_eq_find]
      unfold Tree.list
      split <;> rename_i hs
      · rw [if_pos hs] at this; omega
      · rw [if_neg hs] at this; omega

theorem without_look {d : Nat} {n n' : Node T} {v : T} {ms : Int} (hw : WF d n) (h : WithoutSpec d n v n' ms) (w : T) :
    look n' w = if GoKey.eq v w = true then none else look n w := by
  rw [look_perm_filter hw h.perm w]
  cases hl : look n w with
  | none => simp
  | some e =>
    have he := look_eq hl
    rw [Option.filter_some, eq_congr_left he, eq_comm w v]
    cases GoKey.eq v w <;> simp

theorem Tree.without_spec {t : Tree T} (h : t.Valid) (v : T) : ∃ t', t.without v = .ok t' ∧ t'.Valid ∧
    (∀ w, t'.look w = if GoKey.eq v w = true then none else t.look w) ∧
    t'.count = if (t.look v).isSome then t.count - 1 else t.count := by
  unfold Tree.without
  cases hn : t.root.isNil with
  | true => exact ⟨t, rfl, h, fun w => by simp [Tree.look_nil hn], by simp [Tree.look_nil hn]⟩
  | false =>
    obtain ⟨n', ms, same, h1, h2, _⟩ := Frozen.without_spec t.root 0 h.wf hn v
    have hl := h2.len h.wf
    have hc := h.count
    refine ⟨⟨n', t.count - ms⟩, ?_, ⟨h2.wf, ?_⟩, fun w => without_look h.wf h2 w, ?_⟩
    · simp [h1, bind, Except.bind, pure, Except.pure]
    · simp only; omega
    · have := h2.ms_eq
      simp only
      by_cases hs : (Frozen.look t.root v).isSome = true
      · rw [if_pos hs] at this
        rw [if_pos (show (Tree.look t v).isSome = true from hs)]; omega
      · rw [if_neg hs] at this
        rw [if_neg (show ¬ (Tree.look t v).isSome = true from hs)]; omega

theorem Builder.remove_spec {t : Builder T} (h : Tree.Valid t) (v : T) : ∃ t', Builder.remove t v = .ok t' ∧ Tree.Valid t' ∧
    (∀ w, Tree.look t' w = if GoKey.eq v w = true then none else Tree.look t w) ∧
    t'.count = if (Tree.look t v).isSome then t.count - 1 else t.count := by
  unfold Builder.remove
  cases hn : t.root.isNil with
  | true => exact ⟨t, rfl, h, fun w => by simp [Tree.look_nil hn], by simp [Tree.look_nil hn]⟩
  | false =>
    obtain ⟨n', ms, h1, h2⟩ := Frozen.remove_spec t.root 0 h.wf hn v
    have hl := h2.len h.wf
    have hc := h.count
    refine ⟨⟨n', t.count - ms⟩, ?_, ⟨h2.wf, ?_⟩, fun w => without_look h.wf h2 w, ?_⟩
    · simp [h1, bind, Except.bind, pure, Except.pure]
    · simp only; omega
    · have := h2.ms_eq
      simp only
      by_cases hs : (Frozen.look t.root v).isSome = true
      · rw [if_pos hs] at this
        rw [if_pos (show (Tree.look t v).isSome = true from hs)]; omega
      · rw [if_neg hs] at this
        rw [if_neg (show ¬ (Tree.look t v).isSome = true from hs)]; omega

theorem Tree.where_spec {t : Tree T} (h : t.Valid) (P : T → Bool) : ∃ t', t.where P = .ok t' ∧ t'.Valid ∧
    (∀ w, t'.look w = (t.look w).filter P) ∧ t'.list.Perm (t.list.filter P) := by
  unfold Tree.where
  cases hn : t.root.isNil with
  | true =>
    refine ⟨t, rfl, h, fun w => by simp [Tree.look_nil hn], ?_⟩
    rw [(Tree.isNil_iff_list h).1 hn]; simp
  | false =>
    obtain ⟨n', ms, same, h1, h2, h3, h4, _⟩ := Frozen.where_spec P t.root 0 h.wf hn
    refine ⟨⟨n', ms⟩, ?_, ⟨h2, h4⟩, fun w => look_perm_filter h.wf h3 w, h3⟩
    simp [h1, bind, Except.bind, pure, Except.pure]

theorem Tree.difference_spec {t u : Tree T} (h : t.Valid) (hu : u.Valid) : ∃ t', t.difference u = .ok t' ∧ t'.Valid ∧
    ∀ w, t'.look w = if (u.look w).isSome then none else t.look w := by
  unfold Tree.difference
  cases hn : t.root.isNil with
  | true => exact ⟨t, rfl, h, fun w => by simp [Tree.look_nil hn]⟩
  | false =>
    cases hn2 : u.root.isNil with
    | true => exact ⟨t, rfl, h, fun w => by simp [Tree.look_nil hn2]⟩
    | false =>
      obtain ⟨r, ms, h1, h2⟩ := Frozen.difference_spec t.root 0 u.root h.wf hn hu.wf hn2
      have := h2.len
      have := h.count
      refine ⟨⟨r, t.count - ms⟩, ?_, ⟨h2.wf, ?_⟩, fun w => ?_⟩
      · simp [h1, bind, Except.bind, pure, Except.pure]
      · simp only; omega
      · unfold Tree.look
        rw [look_perm_filter h.wf h2.perm w]
        cases hl : Frozen.look t.root w with
        | none => simp
        | some e =>
          rw [Option.filter_some, Frozen.look_congr (n := u.root) (look_eq hl)]
          cases Frozen.look u.root w <;> simp

theorem Tree.intersection_spec {t u : Tree T} (h : t.Valid) (hu : u.Valid) : ∃ t', t.intersection u = .ok t' ∧ t'.Valid ∧
    (∀ w, (t'.look w).isSome = ((t.look w).isSome && (u.look w).isSome)) ∧
    (∀ e ∈ t'.list, e ∈ t.list ∨ e ∈ u.list) := by
  unfold Tree.intersection
  cases hn : t.root.isNil with
  | true => exact ⟨_, rfl, Tree.valid_zero, fun w => by simp [Tree.look_nil hn, Tree.look_zero], fun e he => by cases he⟩
  | false =>
    cases hn2 : u.root.isNil with
    | true => exact ⟨_, rfl, Tree.valid_zero, fun w => by simp [Tree.look_nil hn2, Tree.look_zero], fun e he => by cases he⟩
    | false =>
      simp only [Bool.or_self, Bool.false_eq_true, if_false]
      by_cases hc : t.count > u.count
      · obtain ⟨r, ms, h1, h2⟩ := Frozen.intersection_spec u.root 0 t.root hu.wf hn2 h.wf hn
        refine ⟨⟨r, ms⟩, ?_, ⟨h2.wf, h2.len⟩, fun w => ?_, fun e he => (h2.mem e he).symm⟩
        · simp [hc, h1, bind, Except.bind, pure, Except.pure]
        · rw [Bool.and_comm]; exact h2.look_eq w
      · obtain ⟨r, ms, h1, h2⟩ := Frozen.intersection_spec t.root 0 u.root h.wf hn hu.wf hn2
        refine ⟨⟨r, ms⟩, ?_, ⟨h2.wf, h2.len⟩, fun w => h2.look_eq w, fun e he => h2.mem e he⟩
        simp [hc, h1, bind, Except.bind, pure, Except.pure]

theorem Tree.combine_spec {t u : Tree T} (h : t.Valid) (hu : u.Valid) {args : CombineArgs T} (heq : args.eq = GoKey.eq)
    (hf : ClassPres args.f) :
    (Clash t.root u.root → t.combine args u = .error .wtf) ∧
    (¬ Clash t.root u.root → ∃ t', t.combine args u = .ok t' ∧ t'.Valid ∧
      ∀ w, t'.look w = combOpt args.f (t.look w) (u.look w)) := by
  unfold Tree.combine
  cases hn : t.root.isNil with
  | true =>
    rw [isNil_iff.1 hn]
    refine ⟨fun h => h.elim, fun _ => ⟨u, rfl, hu, fun w => ?_⟩⟩
    rw [Tree.look_nil hn]; rfl
  | false =>
    cases hn2 : u.root.isNil with
    | true =>
      refine ⟨fun h => ?_, fun _ => ⟨t, rfl, h, fun w => ?_⟩⟩
      · have := h.nonNil.2; rw [hn2] at this; cases this
      · rw [Tree.look_nil hn2]; cases t.look w <;> rfl
    | false =>
      obtain ⟨h1, h2⟩ := Frozen.combine_spec heq hf t.root 0 u.root h.wf hn hu.wf hn2
      constructor
      · intro hc
        simp [h1 hc, bind, Except.bind]
      · intro hc
        obtain ⟨r, ms, h3, h4⟩ := h2 hc
        have := h4.eff.len
        have := h.count
        have := hu.count
        refine ⟨⟨r, t.count + u.count - ms⟩, ?_, ⟨h4.wf, ?_⟩, fun w => h4.eff.find w⟩
        · simp [h3, bind, Except.bind, pure, Except.pure]
        · simp only; omega

theorem Tree.clash_iff [LawfulGoKey T] {t u : Tree T} (h : t.Valid) (hu : u.Valid) :
    Clash t.root u.root ↔ TripleClash (fun w => (t.look w).isSome) (fun w => (u.look w).isSome) := by
  rw [clash_tripleClash h.wf hu.wf]
  have : ∀ n : Node T, memL (elems n) = fun w => ((Frozen.look n w).isSome : Prop) := by
    intro n; funext w
    unfold memL Frozen.look
    simp [List.find?_isSome]
  rw [this, this]; rfl

theorem Tree.subsetOf_spec [LawfulGoKey T] {t u : Tree T} (h : t.Valid) (hu : u.Valid) :
    ∃ b, t.subsetOf u = .ok b ∧ (b = true ↔ ∀ w, (t.look w).isSome → (u.look w).isSome) := by
  unfold Tree.subsetOf
  cases hn : t.root.isNil with
  | true => exact ⟨true, rfl, by simp [Tree.look_nil hn]⟩
  | false =>
    cases hn2 : u.root.isNil with
    | true =>
      refine ⟨false, rfl, ?_⟩
      simp only [Bool.false_eq_true, Tree.look_nil hn2, Option.isSome_none, imp_false, false_iff]
      intro hall
      obtain ⟨e, he⟩ := List.exists_mem_of_ne_nil _ (elems_ne_nil h.wf hn)
      apply hall e
      unfold Tree.look
      rw [h.wf.mem_iff.1 he]; rfl
    | false =>
      simp only [Bool.false_eq_true, if_false]
      refine ⟨_, Frozen.subsetOf_spec t.root 0 u.root h.wf hn hu.wf hn2, ?_⟩
      rw [List.all_eq_true]
      constructor
      · intro hall w hw
        obtain ⟨e, he⟩ := Option.isSome_iff_exists.1 hw
        have h1 := hall e (look_mem he)
        unfold Tree.look
        rw [← Frozen.look_congr (n := u.root) (look_eq he)]; exact h1
      · intro hall e he
        apply hall e
        unfold Tree.look
        rw [h.wf.mem_iff.1 he]; rfl

/-- `Equal` with an element relation at least as fine as `GoKey.eq`. -/
theorem Tree.equal_spec {t u : Tree T} (h : t.Valid) (hu : u.Valid) {eqv : T → T → Bool}
    (he : ∀ a b, eqv a b = true → GoKey.eq a b = true) :
    ∃ b, t.equal eqv u = .ok b ∧
      (b = true ↔ t.list.length = u.list.length ∧ ∀ e ∈ t.list, ∃ e' ∈ u.list, eqv e e' = true) := by
  unfold Tree.equal
  by_cases hc : t.count ≠ u.count
  · rw [if_pos hc]
    refine ⟨false, rfl, ?_⟩
    simp only [Bool.false_eq_true, false_iff]
    rintro ⟨h1, _⟩
    apply hc
    rw [h.count_eq, hu.count_eq, h1]
  · rw [if_neg hc]
    have hc : t.count = u.count := not_not.1 hc
    by_cases h0 : t.count = 0 ∧ u.count = 0
    · rw [if_pos h0]
      refine ⟨true, rfl, ?_⟩
      have h1 : t.list.length = 0 := by have := h.count_eq; omega
      have h2 : u.list.length = 0 := by have := hu.count_eq; omega
      rw [List.length_eq_zero_iff] at h1 h2
      simp [h1, h2]
    · rw [if_neg h0]
      have h1 : t.list ≠ [] := by
        intro hl; apply h0
        have := h.count_eq; rw [hl] at this; exact ⟨by simpa using this, by rw [← hc]; simpa using this⟩
      have h2 : u.list ≠ [] := by
        intro hl; apply h0
        have := hu.count_eq; rw [hl] at this; exact ⟨by rw [hc]; simpa using this, by simpa using this⟩
      have n1 : t.root.isNil = false := by
        cases hn : t.root.isNil with
        | false => rfl
        | true => exact absurd ((Tree.isNil_iff_list h).1 hn) h1
      have n2 : u.root.isNil = false := by
        cases hn : u.root.isNil with
        | false => rfl
        | true => exact absurd ((Tree.isNil_iff_list hu).1 hn) h2
      exact Frozen.equal_spec he t.root 0 u.root h.wf n1 hu.wf n2

/-- `Equal` on element equality is extensional. -/
theorem Tree.equal_ext [LawfulGoKey T] {t u : Tree T} (h : t.Valid) (hu : u.Valid) :
    ∃ b, t.equal GoKey.eq u = .ok b ∧ (b = true ↔ ∀ w, (t.look w).isSome = (u.look w).isSome) := by
  obtain ⟨b, h1, h2⟩ := Tree.equal_spec h hu (eqv := GoKey.eq) (fun _ _ h => h)
  refine ⟨b, h1, h2.trans ?_⟩
  have sm : ∀ (v : Tree T) (w : T), (v.look w).isSome = true ↔ ∃ e ∈ v.list, GoKey.eq e w = true := by
    intro v w; rw [Tree.look_eq_find]; simp [List.find?_isSome]
  constructor
  · rintro ⟨hlen, hall⟩ w
    -- injection of t into u of the same size is onto
    have back : ∀ e' ∈ u.list, ∃ e ∈ t.list, GoKey.eq e e' = true := by
      by_contra hcon
      push Not at hcon
      obtain ⟨e', he', hno⟩ := hcon
      have hlt : t.list.length ≤ (u.list.filter fun x => !GoKey.eq x e').length := by
        apply h.distinct.length_le
        intro e he
        obtain ⟨x, hx, hex⟩ := hall e he
        refine ⟨x, ?_, hex⟩
        rw [List.mem_filter]
        refine ⟨hx, ?_⟩
        cases hxe : GoKey.eq x e' with
        | false => rfl
        | true => exact absurd (PerGoKey.trans hex hxe) (hno e he)
      have hfl : (u.list.filter fun x => !GoKey.eq x e').length < u.list.length := by
        apply List.length_filter_lt_length_iff_exists.2
        exact ⟨e', he', by simp [eq_refl]⟩
      omega
    rw [Bool.eq_iff_iff, sm, sm]
    constructor
    · rintro ⟨e, he, hew⟩
      obtain ⟨e', he', hee⟩ := hall e he
      exact ⟨e', he', PerGoKey.trans (PerGoKey.symm hee) hew⟩
    · rintro ⟨e', he', hew⟩
      obtain ⟨e, he, hee⟩ := back e' he'
      exact ⟨e, he, PerGoKey.trans hee hew⟩
  · intro hall
    have f1 : ∀ e ∈ t.list, ∃ e' ∈ u.list, GoKey.eq e e' = true := by
      intro e he
      have := (hall e).symm.trans ((sm t e).2 ⟨e, he, eq_refl e⟩)
      obtain ⟨e', he', hee⟩ := (sm u e).1 this
      exact ⟨e', he', PerGoKey.symm hee⟩
    have f2 : ∀ e ∈ u.list, ∃ e' ∈ t.list, GoKey.eq e e' = true := by
      intro e he
      have := (hall e).trans ((sm u e).2 ⟨e, he, eq_refl e⟩)
      obtain ⟨e', he', hee⟩ := (sm t e).1 this
      exact ⟨e', he', PerGoKey.symm hee⟩
    exact ⟨Nat.le_antisymm (h.distinct.length_le f1) (hu.distinct.length_le f2), f1⟩

/-- Adding a list of values to a builder. -/
theorem Builder.addAll_spec : ∀ (vs : List T) {t : Builder T}, Tree.Valid t →
    ∃ t', vs.foldlM (fun b v => Builder.add b v) t = .ok t' ∧ Tree.Valid t' ∧
      (∀ w, Tree.look t' w = match vs.reverse.find? (fun e => GoKey.eq e w) with
        | some e => some e
        | none => Tree.look t w)
  | [], t, h => ⟨t, rfl, h, fun w => by simp⟩
  | v :: vs, t, h => by
    obtain ⟨t1, h1, h2, h3, _⟩ := Builder.add_spec h v
    obtain ⟨t', g1, g2, g3⟩ := Builder.addAll_spec vs h2
    refine ⟨t', ?_, g2, fun w => ?_⟩
    · rw [List.foldlM_cons, h1]; exact g1
    · rw [g3, List.reverse_cons, List.find?_append]
      cases vs.reverse.find? (fun e => GoKey.eq e w) with
      | some e => rfl
      | none =>
        simp only [h3, List.find?_cons, List.find?_nil, Option.none_or]
        cases GoKey.eq v w <;> simp

end Frozen
