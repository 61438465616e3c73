import Verif.Proof.SetMore

/-! Which stored representatives each operation keeps, and the remaining lemmas about sets. -/

set_option linter.unusedSectionVars false

namespace Frozen

variable {T : Type} [GoKey T] [LawfulGoKey T]

theorem FSet.list_perm {s : FSet T} (h : s.Valid) {l : List T} (hd : Distinct l) (hm : ∀ e, s.tree.look e = some e ↔ e ∈ l) :
    s.tree.list.Perm l := by
  rw [List.perm_ext_iff_of_nodup h.distinct.nodup hd.nodup]
  intro e
  rw [← hm e]
  exact h.wf.mem_iff

theorem FSet.mem_list {s : FSet T} (h : s.Valid) (e : T) : e ∈ s.tree.list ↔ s.tree.look e = some e := h.wf.mem_iff

theorem FSet.look_some {s : FSet T} {w e : T} (h : s.tree.look w = some e) : GoKey.eq e w = true ∧ e ∈ s.tree.list :=
  ⟨look_eq h, look_mem h⟩

theorem FSet.elements_spec {s : FSet T} (h : s.Valid) : s.elements = .ok s.tree.list := FSet.rangeList_spec h

theorem Distinct.cons {v : T} {l : List T} (h : Distinct l) : Distinct (v :: l.filter (fun e => !GoKey.eq v e)) := by
  unfold Distinct
  rw [List.pairwise_cons]
  refine ⟨fun e he => ?_, h.filter _⟩
  simpa using (List.mem_filter.1 he).2

theorem FSet.with_list {s s' : FSet T} (h : s.Valid) (h' : s'.Valid) {v : T}
    (hl : ∀ w, s'.tree.look w = if GoKey.eq v w = true then some v else s.tree.look w) :
    s'.tree.list.Perm (v :: s.tree.list.filter (fun e => !GoKey.eq v e)) := by
  apply FSet.list_perm h' h.distinct.cons
  intro e
  rw [hl, List.mem_cons, List.mem_filter, FSet.mem_list h]
  by_cases hv : GoKey.eq v e = true
  · rw [if_pos hv]
    constructor
    · intro he; cases he; exact .inl rfl
    · rintro (rfl | ⟨_, h2⟩)
      · rfl
      · rw [hv] at h2; cases h2
  · rw [if_neg hv]
    constructor
    · intro he; exact .inr ⟨he, by simpa using hv⟩
    · rintro (rfl | ⟨h2, _⟩)
      · exact absurd (eq_refl _) hv
      · exact h2

theorem FSet.filter_list {s s' : FSet T} (h : s.Valid) (h' : s'.Valid) {p : T → Bool}
    (hl : ∀ e, s'.tree.look e = some e ↔ s.tree.look e = some e ∧ p e = true) :
    s'.tree.list.Perm (s.tree.list.filter p) := by
  apply FSet.list_perm h' (h.distinct.filter p)
  intro e
  rw [hl, List.mem_filter, FSet.mem_list h]

theorem FSet.without_list {s s' : FSet T} (h : s.Valid) (h' : s'.Valid) {v : T}
    (hl : ∀ w, s'.tree.look w = if GoKey.eq v w = true then none else s.tree.look w) :
    s'.tree.list.Perm (s.tree.list.filter (fun e => !GoKey.eq v e)) := by
  apply FSet.filter_list h h'
  intro e
  rw [hl]
  by_cases hv : GoKey.eq v e = true <;> simp [hv]

theorem FSet.where_list {s s' : FSet T} (h : s.Valid) (h' : s'.Valid) {p : T → Bool}
    (hl : ∀ w, s'.tree.look w = (s.tree.look w).filter p) : s'.tree.list.Perm (s.tree.list.filter p) := by
  apply FSet.filter_list h h'
  intro e
  rw [hl, Option.filter_eq_some_iff]

theorem FSet.any_list {t : FSet T} (e : T) : (t.tree.look e).isSome = t.tree.list.any (fun x => GoKey.eq x e) := by
  rw [Bool.eq_iff_iff, Tree.look_eq_find, List.find?_isSome, List.any_eq_true]

theorem FSet.difference_list {s t s' : FSet T} (h : s.Valid) (h' : s'.Valid)
    (hl : ∀ w, s'.tree.look w = if (t.tree.look w).isSome then none else s.tree.look w) :
    s'.tree.list.Perm (s.tree.list.filter (fun e => !t.tree.list.any (fun x => GoKey.eq x e))) := by
  apply FSet.filter_list h h'
  intro e
  rw [hl, FSet.any_list]
  by_cases hv : t.tree.list.any (fun x => GoKey.eq x e) = true <;> simp [hv]

theorem FSet.union_list {s t u : FSet T} (h : s.Valid) (ht : t.Valid) (hu : u.Valid)
    (hl : ∀ w, u.tree.look w = match t.tree.look w with | some e => some e | none => s.tree.look w) :
    u.tree.list.Perm (t.tree.list ++ s.tree.list.filter (fun e => !t.tree.list.any (fun x => GoKey.eq x e))) := by
  apply FSet.list_perm hu
  · unfold Distinct
    rw [List.pairwise_append]
    refine ⟨ht.distinct, h.distinct.filter _, ?_⟩
    intro a ha b hb
    have hb := (List.mem_filter.1 hb).2
    simp only [Bool.not_eq_true', List.any_eq_false] at hb
    simpa using hb a ha
  · intro e
    rw [hl, List.mem_append, List.mem_filter, FSet.mem_list ht, FSet.mem_list h, ← FSet.any_list]
    cases ht2 : t.tree.look e with
    | none => simp
    | some x => simp

theorem TripleClash.symm {P Q : T → Prop} (h : TripleClash P Q) : TripleClash Q P := by
  obtain ⟨x, y, hx, hy, hxy, h1, h2, h3⟩ := h
  refine ⟨y, x, hy, hx, hxy.symm, ?_, ?_, ?_⟩
  · rw [← hxy]; exact h2
  · rw [← hxy]; exact h1
  · rw [← hxy]; exact h3.symm

theorem FSet.equal_of_mem {s t : FSet T} (h : s.Valid) (ht : t.Valid) (hm : ∀ w, s.Mem w ↔ t.Mem w) : s.equal t = .ok true := by
  obtain ⟨b, h1, h2⟩ := FSet.equal_spec h ht
  rw [h1, h2.2 hm]

theorem FSet.mem_of_equal {s t : FSet T} (h : s.Valid) (ht : t.Valid) (he : s.equal t = .ok true) : ∀ w, s.Mem w ↔ t.Mem w := by
  obtain ⟨b, h1, h2⟩ := FSet.equal_spec h ht
  rw [h1] at he
  exact h2.1 (by cases he; rfl)

/-! ### Any -/

theorem FSet.any_spec {s : FSet T} (h : s.Valid) :
    match s.tree.list with
    | [] => s.any = .error (.msg "Set[T].Any(): empty set")
    | x :: _ => s.any = .ok x := by
  obtain ⟨it, h1, h2, h3⟩ := iterator_spec h.nodeOk
  obtain ⟨g1, g2⟩ := next_spec it h3
  have h2' : it.rem = s.tree.list := h2
  unfold FSet.any FSet.range
  rw [h1]
  cases hl : s.tree.list with
  | nil =>
    rw [hl] at h2'
    obtain ⟨it', e1, _, _⟩ := g1 h2'
    simp [e1, bind, Except.bind]
  | cons x xs =>
    rw [hl] at h2'
    obtain ⟨it', e1, _, e3, _⟩ := g2 x xs h2'
    simp [e1, e3, bind, Except.bind]

/-! ### Maps between element types -/

theorem setMap_spec {U : Type} [GoKey U] [LawfulGoKey U] {s : FSet T} (h : s.Valid) (f : T → U) :
    ∃ s', setMap s f = .ok s' ∧ buildSet (s.tree.list.map f) = .ok s' := by
  obtain ⟨s', h1, _⟩ := buildSet_spec (s.tree.list.map f)
  refine ⟨s', ?_, h1⟩
  unfold setMap Tree.map
  cases hn : s.tree.root.isNil with
  | true =>
    have : s.tree.list = [] := (Tree.isNil_iff_list h).1 hn
    rw [this] at h1
    simp only [if_true, bind, Except.bind, pure, Except.pure]
    exact h1
  | false =>
    simp only [Bool.false_eq_true, if_false, Tree.Valid.rangeList h, bind, Except.bind]
    unfold buildSet at h1
    rw [List.foldlM_map] at h1
    have e : ∀ l : List T, ∀ b : Builder U, l.foldlM (fun b v => Builder.add b (f v)) b =
      l.foldlM (fun b v => SetBuilder.add b (f v)) b := fun _ _ => rfl
    rw [e]
    cases hf : s.tree.list.foldlM (fun b v => SetBuilder.add b (f v)) (Tree.zero : Builder U) with
    | error x => rw [hf] at h1; cases h1
    | ok b => rw [hf] at h1; exact h1

theorem setAs_spec {U : Type} [GoKey U] [LawfulGoKey U] {s : FSet T} (h : s.Valid) (cast : T → Option U) :
    (∀ us, s.tree.list.map cast = us.map some → setAs cast s = buildSet us) ∧
    ((∃ e ∈ s.tree.list, cast e = none) → setAs cast s = .error (.msg "interface conversion")) := by
  unfold setAs
  simp only [FSet.rangeList_spec h, bind, Except.bind]
  constructor
  · intro us hus
    have key : ∀ (l : List T) (us : List U) (b : SetBuilder U), l.map cast = us.map some →
        l.foldlM (setAsStep cast) b = us.foldlM (fun b v => SetBuilder.add b v) b := by
      intro l
      induction l with
      | nil =>
        intro us b hl
        cases us with
        | nil => rfl
        | cons u us => simp at hl
      | cons a l ih =>
        intro us b hl
        cases us with
        | nil => simp at hl
        | cons u us =>
          simp only [List.map_cons, List.cons.injEq] at hl
          rw [List.foldlM_cons, List.foldlM_cons]
          have : setAsStep cast b a = SetBuilder.add b u := by simp [setAsStep, hl.1]
          rw [this]
          congr 1
          funext b'
          exact ih us b' hl.2
    rw [key _ us _ hus]
    rfl
  · intro hex
    have key : ∀ (l : List T) (b : SetBuilder U), Tree.Valid b → (∃ e ∈ l, cast e = none) →
        l.foldlM (setAsStep cast) b = .error (.msg "interface conversion") := by
      intro l
      induction l with
      | nil => rintro b _ ⟨e, he, _⟩; simp at he
      | cons a l ih =>
        rintro b hb ⟨e, he, hc⟩
        rw [List.foldlM_cons]
        cases ha : cast a with
        | none => simp [setAsStep, ha, bind, Except.bind]
        | some u =>
          obtain ⟨b', h1, h2, _⟩ := Builder.add_spec hb u
          have h1' : SetBuilder.add b u = .ok b' := h1
          simp only [setAsStep, ha, h1', bind, Except.bind]
          apply ih b' h2
          rcases List.mem_cons.1 he with rfl | he
          · rw [ha] at hc; cases hc
          · exact ⟨e, he, hc⟩
    rw [key _ _ Tree.valid_zero hex]

/-! ### n-ary operations -/

theorem FSet.valid_zero : (FSet.zero : FSet T).Valid := Tree.valid_zero

theorem FSet.mem_zero (w : T) : ¬ (FSet.zero : FSet T).Mem w := by
  rw [FSet.mem_iff FSet.valid_zero]; simp [FSet.zero, Tree.look_zero]

theorem foldl_union_spec : ∀ (sets : List (FSet T)) {r u : FSet T}, r.Valid → (∀ s ∈ sets, s.Valid) →
    sets.foldlM (fun r s => r.union s) r = .ok u → u.Valid ∧ ∀ w, u.Mem w ↔ r.Mem w ∨ ∃ s ∈ sets, s.Mem w
  | [], r, u, hr, _, h => by cases h; exact ⟨hr, by simp⟩
  | s :: sets, r, u, hr, hs, h => by
    rw [List.foldlM_cons] at h
    cases hu : r.union s with
    | error e => rw [hu] at h; cases h
    | ok a =>
      rw [hu] at h
      obtain ⟨h1, h2⟩ := FSet.union_ok hr (hs s (by simp)) hu
      obtain ⟨h3, h4⟩ := foldl_union_spec sets h1 (fun x hx => hs x (by simp [hx])) h
      refine ⟨h3, fun w => ?_⟩
      rw [h4, h2]
      simp [or_assoc]

theorem foldl_inter_spec : ∀ (sets : List (FSet T)) {r : FSet T}, r.Valid → (∀ s ∈ sets, s.Valid) →
    ∃ u, sets.foldlM (fun r s => r.intersection s) r = .ok u ∧ u.Valid ∧ ∀ w, u.Mem w ↔ r.Mem w ∧ ∀ s ∈ sets, s.Mem w
  | [], r, hr, _ => ⟨r, rfl, hr, by simp⟩
  | s :: sets, r, hr, hs => by
    obtain ⟨a, g1, g2, g3, _⟩ := FSet.intersection_spec hr (hs s (by simp))
    obtain ⟨u, h2, h3, h4⟩ := foldl_inter_spec sets g2 (fun x hx => hs x (by simp [hx]))
    refine ⟨u, by rw [List.foldlM_cons, g1]; exact h2, h3, fun w => ?_⟩
    rw [h4, g3]
    simp [and_assoc]

end Frozen
