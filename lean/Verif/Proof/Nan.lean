import Verif.Proof.Tree
import Verif.Spec.Nan

/-! Sets of values that need not be equal to themselves, in terms of element lists. -/

set_option linter.unusedSectionVars false

namespace Frozen

variable {T : Type} [GoKey T] [PerGoKey T]

theorem hasL_eq (l : List T) (w : T) : hasL l w = (l.find? fun e => GoKey.eq e w).isSome := by
  unfold hasL; rw [Bool.eq_iff_iff, List.any_eq_true, List.find?_isSome]

theorem hasL_iff {l : List T} {w : T} : hasL l w = true ↔ ∃ e ∈ l, GoKey.eq e w = true := by
  unfold hasL; rw [List.any_eq_true]

theorem hasL_perm {l l' : List T} (h : l.Perm l') (w : T) : hasL l w = hasL l' w := by
  rw [Bool.eq_iff_iff, hasL_iff, hasL_iff]
  simp [h.mem_iff]

theorem hasL_congr {l : List T} {v w : T} (h : GoKey.eq v w = true) : hasL l v = hasL l w := by
  rw [hasL_eq, hasL_eq, find?_congr_key h]

theorem eraseL_perm {a b : List T} (h : a.Perm b) (v : T) : (eraseL a v).Perm (eraseL b v) := h.filter _

theorem insertL_perm {a b : List T} (h : a.Perm b) (v : T) : (insertL a v).Perm (insertL b v) := (eraseL_perm h v).append_right _

theorem minusL_perm {a a' b b' : List T} (h : a.Perm a') (h' : b.Perm b') : (minusL a b).Perm (minusL a' b') := by
  unfold minusL
  have : (fun e => !hasL b e) = fun e => !hasL b' e := by funext e; rw [hasL_perm h']
  rw [this]; exact h.filter _

/-- The self-equal elements and the others. -/
theorem perm_split (l : List T) : l.Perm (l.filter (fun e => GoKey.eq e e) ++ nans l) :=
  (List.filter_append_perm _ l).symm

/-- A list of pairwise different values is determined, up to order, by its lookups and its values that are not equal to themselves. -/
theorem perm_of_find {l l' : List T} (hd : Distinct l) (hd' : Distinct l')
    (hf : ∀ w, l.find? (fun e => GoKey.eq e w) = l'.find? fun e => GoKey.eq e w) (hn : (nans l).Perm (nans l')) : l.Perm l' := by
  refine (perm_split l).trans (List.Perm.trans ?_ (perm_split l').symm)
  refine List.Perm.append ?_ hn
  have nd : ∀ {a : List T}, Distinct a → (a.filter fun e => GoKey.eq e e).Nodup := by
    intro a ha
    refine List.Pairwise.imp_of_mem (fun {x y} hx _ hxy he => ?_) (ha.filter fun e => GoKey.eq e e)
    subst he
    rw [(List.mem_filter.1 hx).2] at hxy; cases hxy
  rw [List.perm_ext_iff_of_nodup (nd hd) (nd hd')]
  have key : ∀ {a b : List T}, Distinct a → (∀ w, a.find? (fun e => GoKey.eq e w) = b.find? fun e => GoKey.eq e w) → ∀ e,
      e ∈ a.filter (fun e => GoKey.eq e e) → e ∈ b.filter (fun e => GoKey.eq e e) := by
    intro a b ha hab e he
    rw [List.mem_filter] at he
    have := hab e
    rw [ha.find?_self he.1 he.2] at this
    exact List.mem_filter.2 ⟨List.mem_of_find?_eq_some this.symm, he.2⟩
  exact fun e => ⟨key hd hf e, key hd' (fun w => (hf w).symm) e⟩

theorem distinct_append {a b : List T} (ha : Distinct a) (hb : Distinct b) (h : ∀ x ∈ a, ∀ y ∈ b, GoKey.eq x y = false) :
    Distinct (a ++ b) := List.pairwise_append.2 ⟨ha, hb, h⟩

theorem distinct_insertL {l : List T} (h : Distinct l) (v : T) : Distinct (insertL l v) := by
  refine distinct_append (h.filter _) (List.pairwise_singleton _ _) ?_
  intro x hx y hy
  rw [eraseL, List.mem_filter] at hx
  rw [List.mem_singleton.1 hy]; simpa using hx.2

theorem distinct_union {a b : List T} (ha : Distinct a) (hb : Distinct b) : Distinct (minusL a b ++ b) := by
  refine distinct_append (ha.filter _) hb fun x hx y hy => ?_
  rw [minusL, List.mem_filter] at hx
  cases h : GoKey.eq x y with
  | false => rfl
  | true =>
    have : hasL b x = true := hasL_iff.2 ⟨y, hy, PerGoKey.symm h⟩
    rw [this] at hx; simp at hx

theorem find?_eraseL {l : List T} (h : Distinct l) (v w : T) :
    (eraseL l v).find? (fun e => GoKey.eq e w) = if GoKey.eq v w = true then none else l.find? fun e => GoKey.eq e w := by
  unfold eraseL
  rw [h.find?_filter]
  cases hl : l.find? (fun e => GoKey.eq e w) with
  | none => simp
  | some e =>
    have he : GoKey.eq e w = true := by simpa using List.find?_some hl
    rw [Option.filter_some, eq_congr_left he, eq_comm w v]
    cases GoKey.eq v w <;> simp

theorem find?_insertL {l : List T} (h : Distinct l) (v w : T) :
    (insertL l v).find? (fun e => GoKey.eq e w) = if GoKey.eq v w = true then some v else l.find? fun e => GoKey.eq e w := by
  unfold insertL
  rw [List.find?_append, find?_eraseL h]
  by_cases hv : GoKey.eq v w = true
  · simp [hv]
  · simp only [hv, if_false, List.find?_cons, List.find?_nil, Bool.false_eq_true]
    cases l.find? (fun e => GoKey.eq e w) <;> rfl

theorem find?_minusL {a b : List T} (h : Distinct a) (w : T) :
    (minusL a b).find? (fun e => GoKey.eq e w) =
      if (b.find? fun e => GoKey.eq e w).isSome then none else a.find? fun e => GoKey.eq e w := by
  unfold minusL
  rw [h.find?_filter]
  cases hl : a.find? (fun e => GoKey.eq e w) with
  | none => simp
  | some e =>
    have he : GoKey.eq e w = true := by simpa using List.find?_some hl
    rw [Option.filter_some, hasL_congr he, hasL_eq]
    cases b.find? (fun e => GoKey.eq e w) <;> simp

theorem nans_filter_of {l : List T} {p : T → Bool} (h : ∀ e ∈ l, GoKey.eq e e = false → p e = true) : nans (l.filter p) = nans l := by
  unfold nans
  rw [List.filter_filter]
  apply List.filter_congr
  intro e he
  cases hs : GoKey.eq e e with
  | true => simp
  | false => simp [h e he hs]

theorem nans_eraseL (l : List T) (v : T) : nans (eraseL l v) = nans l := by
  refine nans_filter_of fun e _ hs => ?_
  cases he : GoKey.eq e v with
  | false => rfl
  | true => rw [eq_self_left he] at hs; cases hs

theorem nans_minusL (a b : List T) : nans (minusL a b) = nans a := by
  refine nans_filter_of fun e _ hs => ?_
  cases he : hasL b e with
  | false => rfl
  | true =>
    obtain ⟨x, _, hx⟩ := hasL_iff.1 he
    rw [eq_self_right hx] at hs; cases hs

/-! ### Trees -/

theorem Tree.with_list {t : Tree T} (h : t.Valid) (v : T) : ∃ t', t.with v = .ok t' ∧ t'.Valid ∧ t'.list.Perm (insertL t.list v) := by
  obtain ⟨t', h1, h2, h3, _⟩ := Tree.with_spec h v
  refine ⟨t', h1, h2, perm_of_find h2.distinct (distinct_insertL h.distinct v) (fun w => ?_) ?_⟩
  · rw [find?_insertL h.distinct]; exact h3 w
  · unfold Tree.with at h1
    unfold insertL
    rw [nans_append, nans_eraseL]
    cases hn : t.root.isNil with
    | true =>
      simp only [hn, if_true] at h1
      cases h1
      unfold Tree.list
      rw [isNil_iff.1 hn]
      exact .refl _
    | false =>
      obtain ⟨n', ms, g1, g2⟩ := withFast_spec h.wf hn v
      simp [hn, g1, bind, Except.bind, pure, Except.pure] at h1
      cases h1
      exact g2.eff.nans ClassPres.rhs

theorem Builder.add_list {t : Builder T} (h : Tree.Valid t) (v : T) :
    ∃ t', Builder.add t v = .ok t' ∧ Tree.Valid t' ∧ (Tree.list t').Perm (insertL (Tree.list t) v) := by
  obtain ⟨t', h1, h2, h3, _⟩ := Builder.add_spec h v
  refine ⟨t', h1, h2, perm_of_find h2.distinct (distinct_insertL h.distinct v) (fun w => ?_) ?_⟩
  · rw [find?_insertL h.distinct]; exact h3 w
  · unfold Builder.add at h1
    unfold insertL
    rw [nans_append, nans_eraseL]
    cases hn : t.root.isNil with
    | true =>
      simp only [hn, if_true] at h1
      cases h1
      unfold Tree.list
      rw [isNil_iff.1 hn]
      exact .refl _
    | false =>
      obtain ⟨n', ms, g1, g2⟩ := addFast_spec h.wf hn v
      simp [hn, g1, bind, Except.bind, pure, Except.pure] at h1
      cases h1
      exact g2.eff.nans ClassPres.rhs

theorem eraseL_nil (v : T) : eraseL ([] : List T) v = [] := rfl

theorem Tree.without_list {t : Tree T} (h : t.Valid) (v : T) :
    ∃ t', t.without v = .ok t' ∧ t'.Valid ∧ t'.list.Perm (eraseL t.list v) := by
  obtain ⟨t', h1, h2, _⟩ := Tree.without_spec h v
  refine ⟨t', h1, h2, ?_⟩
  unfold Tree.without at h1
  cases hn : t.root.isNil with
  | true =>
    simp only [hn, if_true] at h1
    cases h1
    rw [(Tree.isNil_iff_list h).1 hn]; exact .refl _
  | false =>
    obtain ⟨n', ms, same, g1, g2, _⟩ := Frozen.without_spec t.root 0 h.wf hn v
    simp [hn, g1, bind, Except.bind, pure, Except.pure] at h1
    cases h1
    exact g2.perm

theorem Builder.remove_list {t : Builder T} (h : Tree.Valid t) (v : T) :
    ∃ t', Builder.remove t v = .ok t' ∧ Tree.Valid t' ∧ (Tree.list t').Perm (eraseL (Tree.list t) v) := by
  obtain ⟨t', h1, h2, _⟩ := Builder.remove_spec h v
  refine ⟨t', h1, h2, ?_⟩
  unfold Builder.remove at h1
  cases hn : t.root.isNil with
  | true =>
    simp only [hn, if_true] at h1
    cases h1
    rw [(Tree.isNil_iff_list h).1 hn]; exact .refl _
  | false =>
    obtain ⟨n', ms, g1, g2⟩ := Frozen.remove_spec t.root 0 h.wf hn v
    simp [hn, g1, bind, Except.bind, pure, Except.pure] at h1
    cases h1
    exact g2.perm

theorem Tree.difference_list {t u : Tree T} (h : t.Valid) (hu : u.Valid) :
    ∃ t', t.difference u = .ok t' ∧ t'.Valid ∧ t'.list.Perm (minusL t.list u.list) := by
  obtain ⟨t', h1, h2, h3⟩ := Tree.difference_spec h hu
  refine ⟨t', h1, h2, perm_of_find h2.distinct (h.distinct.filter _) (fun w => ?_) ?_⟩
  · rw [find?_minusL h.distinct]; exact h3 w
  · rw [nans_minusL]
    unfold Tree.difference at h1
    cases hn : t.root.isNil with
    | true => simp only [hn, if_true, Bool.true_or] at h1; cases h1; exact .refl _
    | false =>
      cases hn2 : u.root.isNil with
      | true => simp only [hn, hn2, if_true, Bool.or_true] at h1; cases h1; exact .refl _
      | false =>
        obtain ⟨r, ms, g1, g2⟩ := Frozen.difference_spec t.root 0 u.root h.wf hn hu.wf hn2
        simp [hn, hn2, g1, bind, Except.bind, pure, Except.pure] at h1
        cases h1
        refine (nans_perm g2.perm).trans ?_
        refine List.Perm.of_eq (nans_filter_of fun e _ hs => ?_)
        cases hl : Frozen.look u.root e with
        | none => rfl
        | some x => rw [eq_self_right (look_eq hl)] at hs; cases hs

theorem Tree.intersection_list {t u : Tree T} (h : t.Valid) (hu : u.Valid) :
    ∃ t', t.intersection u = .ok t' ∧ t'.Valid ∧ (∀ w, hasL t'.list w = (hasL t.list w && hasL u.list w)) ∧
      ∀ e ∈ t'.list, e ∈ t.list ∧ hasL u.list e = true ∨ e ∈ u.list ∧ hasL t.list e = true := by
  obtain ⟨t', h1, h2, h3, h4⟩ := Tree.intersection_spec h hu
  have h3' : ∀ w, hasL t'.list w = (hasL t.list w && hasL u.list w) := fun w => by
    rw [hasL_eq, hasL_eq, hasL_eq]; exact h3 w
  refine ⟨t', h1, h2, h3', fun e he => ?_⟩
  have hself : GoKey.eq e e = true := by
    unfold Tree.intersection at h1
    cases hn : t.root.isNil with
    | true => simp only [hn, if_true, Bool.true_or] at h1; cases h1; cases he
    | false =>
      cases hn2 : u.root.isNil with
      | true => simp only [hn2, if_true, Bool.or_true] at h1; cases h1; cases he
      | false =>
        simp only [hn, hn2, Bool.or_self, Bool.false_eq_true, if_false] at h1
        by_cases hc : t.count > u.count
        · obtain ⟨r, ms, g1, g2⟩ := Frozen.intersection_spec u.root 0 t.root hu.wf hn2 h.wf hn
          simp [hc, g1, bind, Except.bind, pure, Except.pure] at h1
          cases h1
          exact g2.self e he
        · obtain ⟨r, ms, g1, g2⟩ := Frozen.intersection_spec t.root 0 u.root h.wf hn hu.wf hn2
          simp [hc, g1, bind, Except.bind, pure, Except.pure] at h1
          cases h1
          exact g2.self e he
  have := h3' e
  rw [hasL_iff.2 ⟨e, he, hself⟩] at this
  have := (Bool.and_eq_true _ _).mp this.symm
  exact (h4 e he).imp (fun h => ⟨h, this.2⟩) (fun h => ⟨h, this.1⟩)

theorem clash_lists {t u : Tree T} (h : t.Valid) (hu : u.Valid) : Clash t.root u.root ↔ ClashLists t.list u.list := by
  rw [Frozen.clash_iff t.root 0 u.root h.wf hu.wf (by omega)]
  have h21 : ∀ (x : T) (l : List T), l.filter (agree 0 21 x) = nearL l x := by
    intro x l; apply List.filter_congr; intro e _
    rw [Bool.eq_iff_iff, agree_21, decide_eq_true_eq, _root_.eq_comm]
  have h22 : ∀ (x : T) (l : List T), l.filter (agree 0 22 x) = sameL l x := by
    intro x l; apply List.filter_congr; intro e _
    rw [Bool.eq_iff_iff, agree_22, decide_eq_true_eq, _root_.eq_comm]
  unfold ClashL ClashLists Tree.list
  simp only [h21, h22, agree_22]
  constructor
  · rintro ⟨x, hx, y, hy, h1, h2, h3⟩
    exact ⟨x, hx, y, hy, h1, (h2 (by omega)).1, (h2 (by omega)).2, h3⟩
  · rintro ⟨x, hx, y, hy, h1, h2, h2', h3⟩
    exact ⟨x, hx, y, hy, h1, fun _ => ⟨h2, h2'⟩, h3⟩

theorem combOpt_rhs (a b : Option T) : combOpt (useRHS (T := T)) a b = if b.isSome then b else a := by
  cases a <;> cases b <;> rfl

theorem Tree.union_list {t u : Tree T} (h : t.Valid) (hu : u.Valid) :
    (ClashLists t.list u.list → t.combine ⟨GoKey.eq, useRHS⟩ u = .error .wtf) ∧
    (¬ ClashLists t.list u.list → ∃ t', t.combine ⟨GoKey.eq, useRHS⟩ u = .ok t' ∧ t'.Valid ∧
      t'.list.Perm (minusL t.list u.list ++ u.list)) := by
  obtain ⟨h1, h2⟩ := Tree.combine_spec h hu (args := ⟨GoKey.eq, useRHS⟩) rfl ClassPres.rhs
  rw [← clash_lists h hu]
  refine ⟨h1, fun hc => ?_⟩
  obtain ⟨t', g1, g2, g3⟩ := h2 hc
  refine ⟨t', g1, g2, perm_of_find g2.distinct (distinct_union h.distinct hu.distinct) (fun w => ?_) ?_⟩
  · rw [List.find?_append, find?_minusL h.distinct]
    have := g3 w
    rw [combOpt_rhs] at this
    refine Eq.trans this ?_
    rw [Tree.look_eq_find, Tree.look_eq_find]
    cases u.list.find? (fun e => GoKey.eq e w) with
    | none => simp
    | some x => simp
  · rw [nans_append, nans_minusL]
    unfold Tree.combine at g1
    cases hn : t.root.isNil with
    | true =>
      simp only [hn, if_true] at g1
      cases g1
      rw [(Tree.isNil_iff_list h).1 hn]; exact .refl _
    | false =>
      cases hn2 : u.root.isNil with
      | true =>
        simp only [hn, hn2, if_true, if_false, Bool.false_eq_true] at g1
        cases g1
        rw [(Tree.isNil_iff_list hu).1 hn2]; simp [nans]
      | false =>
        obtain ⟨r, ms, k1, k2⟩ := (Frozen.combine_spec (args := ⟨GoKey.eq, useRHS⟩) rfl ClassPres.rhs t.root 0 u.root h.wf hn hu.wf hn2).2 hc
        simp [hn, hn2, k1, bind, Except.bind, pure, Except.pure] at g1
        cases g1
        exact k2.eff.nans

/-! ### Programs -/

theorem foldl_insertL_perm : ∀ (vs : List T) {a b : List T}, a.Perm b → (vs.foldl insertL a).Perm (vs.foldl insertL b)
  | [], _, _, h => h
  | v :: vs, _, _, h => foldl_insertL_perm vs (insertL_perm h v)

theorem Builder.addAll_list : ∀ (vs : List T) {t : Builder T}, Tree.Valid t →
    ∃ t', vs.foldlM (fun b v => Builder.add b v) t = .ok t' ∧ Tree.Valid t' ∧ (Tree.list t').Perm (vs.foldl insertL (Tree.list t))
  | [], t, h => ⟨t, rfl, h, .refl _⟩
  | v :: vs, t, h => by
    obtain ⟨t1, h1, h2, h3⟩ := Builder.add_list h v
    obtain ⟨t', g1, g2, g3⟩ := Builder.addAll_list vs h2
    exact ⟨t', by rw [List.foldlM_cons, h1]; exact g1, g2, g3.trans (foldl_insertL_perm vs h3)⟩

theorem buildSet_list (vs : List T) : ∃ s, buildSet vs = .ok s ∧ s.tree.Valid ∧ s.tree.list.Perm (vs.foldl insertL []) := by
  obtain ⟨t', h1, h2, h3⟩ := Builder.addAll_list vs (t := (Tree.zero : Tree T)) Tree.valid_zero
  refine ⟨⟨t'⟩, ?_, h2, h3⟩
  have h1' : vs.foldlM (fun b v => SetBuilder.add b v) (Tree.zero : SetBuilder T) = .ok t' := h1
  simp only [buildSet, h1', bind, Except.bind, pure, Except.pure, SetBuilder.finish, Builder.finish]

theorem onList_perm {a b : List T} (h : a.Perm b) (op : BuildOp T) : (BuildOp.onList a op).Perm (BuildOp.onList b op) := by
  cases op with
  | add v => exact insertL_perm h v
  | remove v => exact eraseL_perm h v

theorem foldl_onList_perm : ∀ (ops : List (BuildOp T)) {a b : List T}, a.Perm b →
    (ops.foldl BuildOp.onList a).Perm (ops.foldl BuildOp.onList b)
  | [], _, _, h => h
  | op :: ops, _, _, h => foldl_onList_perm ops (onList_perm h op)

theorem BuildOp.runAll_list : ∀ (ops : List (BuildOp T)) {b : SetBuilder T}, Tree.Valid b →
    ∃ b', ops.foldlM (fun b op => op.run b) b = .ok b' ∧ Tree.Valid b' ∧ (Tree.list b').Perm (ops.foldl BuildOp.onList (Tree.list b))
  | [], b, h => ⟨b, rfl, h, .refl _⟩
  | op :: ops, b, h => by
    have : ∃ b1, op.run b = .ok b1 ∧ Tree.Valid b1 ∧ (Tree.list b1).Perm (BuildOp.onList (Tree.list b) op) := by
      cases op with
      | add v => exact Builder.add_list h v
      | remove v => exact Builder.remove_list h v
    obtain ⟨b1, h1, h2, h3⟩ := this
    obtain ⟨b', g1, g2, g3⟩ := BuildOp.runAll_list ops h2
    exact ⟨b', by rw [List.foldlM_cons, h1]; exact g1, g2, g3.trans (foldl_onList_perm ops h3)⟩

/-- Building from pairwise different values keeps them all. -/
theorem foldl_insertL_distinct : ∀ (vs a : List T), Distinct (a ++ vs) → vs.foldl insertL a = a ++ vs
  | [], a, _ => by simp
  | v :: vs, a, h => by
    have : insertL a v = a ++ [v] := by
      unfold insertL eraseL
      rw [List.filter_eq_self.2]
      intro e he
      have := (List.pairwise_append.1 h).2.2 e he v (by simp)
      simp [this]
    rw [List.foldl_cons, this, foldl_insertL_distinct vs (a ++ [v]) (by simpa using h)]
    simp

theorem FSet.anyN_elems {s : FSet T} (h : s.tree.Valid) (n : Int) : ∃ s', s.anyN n = .ok s' ∧ s'.tree.Valid ∧
    ∃ rest, (s'.tree.list ++ rest).Perm s.tree.list ∧ (s'.tree.list.length : Int) = max 0 (min n s.tree.list.length) := by
  have hc : s.count = s.tree.list.length := Tree.Valid.count_eq h
  unfold FSet.anyN
  by_cases hn : n > s.count
  · rw [if_pos hn]
    exact ⟨s, rfl, h, [], by simp, by omega⟩
  · have hr : s.rangeList = .ok s.tree.list := h.rangeList
    rw [if_neg hn, hr]
    obtain ⟨s', h1, h2, h3⟩ := buildSet_list (s.tree.list.take n.toNat)
    have hd : Distinct (s.tree.list.take n.toNat) := (Tree.Valid.distinct h).sublist (List.take_sublist _ _)
    rw [foldl_insertL_distinct _ [] (by simpa using hd), List.nil_append] at h3
    refine ⟨s', h1, h2, s.tree.list.drop n.toNat, ?_, ?_⟩
    · refine (h3.append_right _).trans ?_
      rw [List.take_append_drop]
    · rw [h3.length_eq, List.length_take]; omega

theorem FSet.with_elems {s : FSet T} (h : s.tree.Valid) (v : T) : ∃ s', s.with v = .ok s' ∧ s'.tree.Valid ∧ s'.tree.list.Perm (insertL s.tree.list v) := by
  obtain ⟨t', h1, h2, h3⟩ := Tree.with_list h v
  exact ⟨⟨t'⟩, by simp [FSet.with, h1, bind, Except.bind, pure, Except.pure], h2, h3⟩

theorem FSet.without_elems {s : FSet T} (h : s.tree.Valid) (v : T) : ∃ s', s.without v = .ok s' ∧ s'.tree.Valid ∧ s'.tree.list.Perm (eraseL s.tree.list v) := by
  obtain ⟨t', h1, h2, h3⟩ := Tree.without_list h v
  exact ⟨⟨t'⟩, by simp [FSet.without, h1, bind, Except.bind, pure, Except.pure], h2, h3⟩

theorem FSet.where_elems {s : FSet T} (h : s.tree.Valid) (pred : T → Bool) : ∃ s', s.where pred = .ok s' ∧ s'.tree.Valid ∧ s'.tree.list.Perm (s.tree.list.filter pred) := by
  obtain ⟨t', h1, h2, _, h3⟩ := Tree.where_spec h pred
  exact ⟨⟨t'⟩, by simp [FSet.where, h1, bind, Except.bind, pure, Except.pure], h2, h3⟩

theorem FSet.difference_elems {s t : FSet T} (h : s.tree.Valid) (ht : t.tree.Valid) : ∃ s', s.difference t = .ok s' ∧ s'.tree.Valid ∧
    s'.tree.list.Perm (minusL s.tree.list t.tree.list) := by
  obtain ⟨t', h1, h2, h3⟩ := Tree.difference_list h ht
  exact ⟨⟨t'⟩, by simp [FSet.difference, h1, bind, Except.bind, pure, Except.pure], h2, h3⟩

theorem FSet.intersection_elems {s t : FSet T} (h : s.tree.Valid) (ht : t.tree.Valid) : ∃ s', s.intersection t = .ok s' ∧ s'.tree.Valid ∧
    (∀ w, hasL s'.tree.list w = (hasL s.tree.list w && hasL t.tree.list w)) ∧
    ∀ e ∈ s'.tree.list, e ∈ s.tree.list ∧ hasL t.tree.list e = true ∨ e ∈ t.tree.list ∧ hasL s.tree.list e = true := by
  obtain ⟨t', h1, h2, h3, h4⟩ := Tree.intersection_list h ht
  exact ⟨⟨t'⟩, by simp [FSet.intersection, h1, bind, Except.bind, pure, Except.pure], h2, h3, h4⟩

theorem FSet.union_elems {s t : FSet T} (h : s.tree.Valid) (ht : t.tree.Valid) :
    (ClashLists s.tree.list t.tree.list → s.union t = .error .wtf) ∧
    (¬ ClashLists s.tree.list t.tree.list → ∃ s', s.union t = .ok s' ∧ s'.tree.Valid ∧
      s'.tree.list.Perm (minusL s.tree.list t.tree.list ++ t.tree.list)) := by
  obtain ⟨h1, h2⟩ := Tree.union_list h ht
  refine ⟨fun hc => by simp [FSet.union, h1 hc, bind, Except.bind], fun hc => ?_⟩
  obtain ⟨t', g1, g2, g3⟩ := h2 hc
  exact ⟨⟨t'⟩, by simp [FSet.union, g1, bind, Except.bind, pure, Except.pure], g2, g3⟩

theorem FSet.union_list_ok {s t u : FSet T} (h : s.tree.Valid) (ht : t.tree.Valid) (hu : s.union t = .ok u) :
    u.tree.Valid ∧ u.tree.list.Perm (minusL s.tree.list t.tree.list ++ t.tree.list) := by
  obtain ⟨h1, h2⟩ := FSet.union_elems h ht
  by_cases hc : ClashLists s.tree.list t.tree.list
  · rw [h1 hc] at hu; cases hu
  · obtain ⟨s', g1, g2, g3⟩ := h2 hc
    rw [g1] at hu; cases hu
    exact ⟨g2, g3⟩

theorem minusL_minusL (a b : List T) : minusL (minusL a b) (minusL b a) = minusL a b := by
  show (minusL a b).filter _ = _
  rw [List.filter_eq_self]
  intro e he
  rw [minusL, List.mem_filter] at he
  cases h : hasL (minusL b a) e with
  | false => rfl
  | true =>
    obtain ⟨x, hx, hxe⟩ := hasL_iff.1 h
    rw [minusL, List.mem_filter] at hx
    have : hasL b e = true := hasL_iff.2 ⟨x, hx.1, hxe⟩
    rw [this] at he; simp at he

theorem FSet.symmetricDifference_list_ok {s t u : FSet T} (h : s.tree.Valid) (ht : t.tree.Valid) (hu : s.symmetricDifference t = .ok u) :
    u.tree.Valid ∧ u.tree.list.Perm (minusL s.tree.list t.tree.list ++ minusL t.tree.list s.tree.list) := by
  obtain ⟨a, a1, a2, a3⟩ := FSet.difference_elems h ht
  obtain ⟨b, b1, b2, b3⟩ := FSet.difference_elems ht h
  have e : s.symmetricDifference t = a.union b := by
    simp [FSet.symmetricDifference, a1, b1, bind, Except.bind]
  rw [e] at hu
  obtain ⟨g1, g2⟩ := FSet.union_list_ok a2 b2 hu
  refine ⟨g1, g2.trans ?_⟩
  refine ((minusL_perm a3 b3).append b3).trans ?_
  rw [minusL_minusL]

theorem SetProg.run_list : ∀ (p : SetProg T) {s : FSet T}, p.run = .ok s → s.tree.Valid ∧ p.Elems s.tree.list
  | .newSet vs, s, h => by
    obtain ⟨s', h1, h2, h3⟩ := buildSet_list vs
    have : (SetProg.newSet vs).run = .ok s' := h1
    rw [this] at h; cases h
    exact ⟨h2, h3⟩
  | .build ops, s, h => by
    obtain ⟨b', h1, h2, h3⟩ := BuildOp.runAll_list ops (b := (Tree.zero : Tree T)) Tree.valid_zero
    simp only [SetProg.run, h1, bind, Except.bind, pure, Except.pure, SetBuilder.finish, Builder.finish] at h
    cases h
    exact ⟨h2, h3⟩
  | .with p v, s, h => by
    cases hp : p.run with
    | error e => simp [SetProg.run, hp, bind, Except.bind] at h
    | ok a =>
      obtain ⟨ha, hd⟩ := SetProg.run_list p hp
      obtain ⟨s', h1, h2, h3⟩ := FSet.with_elems ha v
      simp only [SetProg.run, hp, bind, Except.bind, h1] at h; cases h
      exact ⟨h2, _, hd, h3⟩
  | .without p v, s, h => by
    cases hp : p.run with
    | error e => simp [SetProg.run, hp, bind, Except.bind] at h
    | ok a =>
      obtain ⟨ha, hd⟩ := SetProg.run_list p hp
      obtain ⟨s', h1, h2, h3⟩ := FSet.without_elems ha v
      simp only [SetProg.run, hp, bind, Except.bind, h1] at h; cases h
      exact ⟨h2, _, hd, h3⟩
  | .where p pred hpred, s, h => by
    cases hp : p.run with
    | error e => simp [SetProg.run, hp, bind, Except.bind] at h
    | ok a =>
      obtain ⟨ha, hd⟩ := SetProg.run_list p hp
      obtain ⟨s', h1, h2, h3⟩ := FSet.where_elems ha pred
      simp only [SetProg.run, hp, bind, Except.bind, h1] at h; cases h
      exact ⟨h2, _, hd, h3⟩
  | .union p q, s, h => by
    cases hp : p.run with
    | error e => simp [SetProg.run, hp, bind, Except.bind] at h
    | ok a =>
      cases hq : q.run with
      | error e => simp [SetProg.run, hp, hq, bind, Except.bind] at h
      | ok b =>
        obtain ⟨ha, hd⟩ := SetProg.run_list p hp
        obtain ⟨hb, hd2⟩ := SetProg.run_list q hq
        simp only [SetProg.run, hp, hq, bind, Except.bind] at h
        obtain ⟨g1, g2⟩ := FSet.union_list_ok ha hb h
        exact ⟨g1, _, _, hd, hd2, g2⟩
  | .intersection p q, s, h => by
    cases hp : p.run with
    | error e => simp [SetProg.run, hp, bind, Except.bind] at h
    | ok a =>
      cases hq : q.run with
      | error e => simp [SetProg.run, hp, hq, bind, Except.bind] at h
      | ok b =>
        obtain ⟨ha, hd⟩ := SetProg.run_list p hp
        obtain ⟨hb, hd2⟩ := SetProg.run_list q hq
        obtain ⟨s', h1, h2, h3, h4⟩ := FSet.intersection_elems ha hb
        simp only [SetProg.run, hp, hq, bind, Except.bind, h1] at h; cases h
        exact ⟨h2, _, _, hd, hd2, h2.distinct, h4, h3⟩
  | .difference p q, s, h => by
    cases hp : p.run with
    | error e => simp [SetProg.run, hp, bind, Except.bind] at h
    | ok a =>
      cases hq : q.run with
      | error e => simp [SetProg.run, hp, hq, bind, Except.bind] at h
      | ok b =>
        obtain ⟨ha, hd⟩ := SetProg.run_list p hp
        obtain ⟨hb, hd2⟩ := SetProg.run_list q hq
        obtain ⟨s', h1, h2, h3⟩ := FSet.difference_elems ha hb
        simp only [SetProg.run, hp, hq, bind, Except.bind, h1] at h; cases h
        exact ⟨h2, _, _, hd, hd2, h3⟩
  | .symmetricDifference p q, s, h => by
    cases hp : p.run with
    | error e => simp [SetProg.run, hp, bind, Except.bind] at h
    | ok a =>
      cases hq : q.run with
      | error e => simp [SetProg.run, hp, hq, bind, Except.bind] at h
      | ok b =>
        obtain ⟨ha, hd⟩ := SetProg.run_list p hp
        obtain ⟨hb, hd2⟩ := SetProg.run_list q hq
        simp only [SetProg.run, hp, hq, bind, Except.bind] at h
        obtain ⟨g1, g2⟩ := FSet.symmetricDifference_list_ok ha hb h
        exact ⟨g1, _, _, hd, hd2, g2⟩
  | .anyN p n, s, h => by
    cases hp : p.run with
    | error e => simp [SetProg.run, hp, bind, Except.bind] at h
    | ok a =>
      obtain ⟨ha, hd⟩ := SetProg.run_list p hp
      obtain ⟨s', h1, h2, rest, h3, h4⟩ := FSet.anyN_elems ha n
      simp only [SetProg.run, hp, bind, Except.bind, h1] at h; cases h
      exact ⟨h2, _, rest, hd, h3, h4⟩

theorem SetProg.run_total : ∀ (p : SetProg T), p.NoUnion → ∃ s, p.run = .ok s
  | .newSet vs, _ => ⟨_, (buildSet_list vs).choose_spec.1⟩
  | .build ops, _ => by
    obtain ⟨b', h1, _⟩ := BuildOp.runAll_list ops (b := (Tree.zero : Tree T)) Tree.valid_zero
    exact ⟨_, by simp only [SetProg.run, h1, bind, Except.bind, pure, Except.pure]; rfl⟩
  | .with p v, h => by
    obtain ⟨a, ha⟩ := SetProg.run_total p h
    obtain ⟨s', h1, _⟩ := FSet.with_elems (SetProg.run_list p ha).1 v
    exact ⟨s', by simp only [SetProg.run, ha, bind, Except.bind, h1]⟩
  | .without p v, h => by
    obtain ⟨a, ha⟩ := SetProg.run_total p h
    obtain ⟨s', h1, _⟩ := FSet.without_elems (SetProg.run_list p ha).1 v
    exact ⟨s', by simp only [SetProg.run, ha, bind, Except.bind, h1]⟩
  | .where p f _, h => by
    obtain ⟨a, ha⟩ := SetProg.run_total p h
    obtain ⟨s', h1, _⟩ := FSet.where_elems (SetProg.run_list p ha).1 f
    exact ⟨s', by simp only [SetProg.run, ha, bind, Except.bind, h1]⟩
  | .anyN p n, h => by
    obtain ⟨a, ha⟩ := SetProg.run_total p h
    obtain ⟨s', h1, _⟩ := FSet.anyN_elems (SetProg.run_list p ha).1 n
    exact ⟨s', by simp only [SetProg.run, ha, bind, Except.bind, h1]⟩
  | .union _ _, h => h.elim
  | .symmetricDifference _ _, h => h.elim
  | .intersection p q, h => by
    obtain ⟨a, ha⟩ := SetProg.run_total p h.1
    obtain ⟨b, hb⟩ := SetProg.run_total q h.2
    obtain ⟨s', h1, _⟩ := FSet.intersection_elems (SetProg.run_list p ha).1 (SetProg.run_list q hb).1
    exact ⟨s', by simp only [SetProg.run, ha, hb, bind, Except.bind, h1]⟩
  | .difference p q, h => by
    obtain ⟨a, ha⟩ := SetProg.run_total p h.1
    obtain ⟨b, hb⟩ := SetProg.run_total q h.2
    obtain ⟨s', h1, _⟩ := FSet.difference_elems (SetProg.run_list p ha).1 (SetProg.run_list q hb).1
    exact ⟨s', by simp only [SetProg.run, ha, hb, bind, Except.bind, h1]⟩

/-! ### Answers -/

theorem FSet.has_elems {s : FSet T} (h : s.tree.Valid) (v : T) : s.has v = .ok (hasL s.tree.list v) := by
  unfold FSet.has
  rw [Tree.get_spec h, hasL_eq]; rfl

theorem FSet.equal_elems {s t : FSet T} (h : s.tree.Valid) (ht : t.tree.Valid) :
    ∃ b, s.equal t = .ok b ∧ (b = true ↔ s.tree.list.length = t.tree.list.length ∧ ∀ e ∈ s.tree.list, hasL t.tree.list e = true) := by
  obtain ⟨b, h1, h2⟩ := Tree.equal_spec h ht (eqv := GoKey.eq) (fun _ _ h => h)
  refine ⟨b, h1, h2.trans (and_congr_right fun _ => forall₂_congr fun e _ => ?_)⟩
  rw [hasL_iff]
  exact ⟨fun ⟨x, hx, h⟩ => ⟨x, hx, PerGoKey.symm h⟩, fun ⟨x, hx, h⟩ => ⟨x, hx, PerGoKey.symm h⟩⟩

theorem FSet.isSubsetOf_elems {s t : FSet T} (h : s.tree.Valid) (ht : t.tree.Valid) :
    s.isSubsetOf t = .ok (s.tree.list.all fun e => hasL t.tree.list e) := by
  show s.tree.subsetOf t.tree = _
  unfold Tree.subsetOf
  cases hn : s.tree.root.isNil with
  | true => rw [(Tree.isNil_iff_list h).1 hn]; rfl
  | false =>
    cases hn2 : t.tree.root.isNil with
    | true =>
      obtain ⟨e, he⟩ := List.exists_mem_of_ne_nil _ (elems_ne_nil h.wf hn)
      rw [(Tree.isNil_iff_list ht).1 hn2]
      have : (s.tree.list.all fun e => hasL [] e) = false := by
        rw [List.all_eq_false]; exact ⟨e, he, by simp [hasL]⟩
      rw [this]; rfl
    | false =>
      simp only [Bool.false_eq_true, if_false]
      rw [Frozen.subsetOf_spec s.tree.root 0 t.tree.root h.wf hn ht.wf hn2]
      congr 1
      apply List.all_congr rfl
      intro e
      rw [hasL_eq]; rfl

end Frozen
