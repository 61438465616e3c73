import Verif.Proof.Filter

/-! `Combine`: when it panics, and what it computes otherwise. -/

set_option linter.unusedSectionVars false
set_option linter.unusedSimpArgs false

namespace Frozen

variable {T : Type}

/-- Merge two lookups. -/
def combOpt (f : T → T → T) : Option T → Option T → Option T
  | some x, some y => some (f x y)
  | some x, none => some x
  | none, y => y

/-- Two nodes at the same position clash: below matching branches they reach a position where both are non-nil and at least one
is a twig. -/
def Clash : Node T → Node T → Prop
  | .branch _ k, n => match n with
    | .branch _ k2 => ∃ i, Clash (k i) (k2 i)
    | .twig _ => True
    | _ => False
  | .twig _, n => n.isNil = false
  | .nil, _ => False
  | .leaf1 _, n => match n with
    | .twig _ => True
    | _ => False
  | .leaf2 _ _, n => match n with
    | .twig _ => True
    | _ => False

theorem Clash.nonNil : ∀ {a b : Node T}, Clash a b → a.isNil = false ∧ b.isNil = false
  | .branch _ _, b, h => by cases b <;> simp_all [Clash, Node.isNil]
  | .twig _, b, h => ⟨rfl, h⟩
  | .nil, _, h => h.elim
  | .leaf1 _, b, h => by cases b <;> simp_all [Clash, Node.isNil]
  | .leaf2 _ _, b, h => by cases b <;> simp_all [Clash, Node.isNil]

theorem parallelLoop_error {σ : Type} {e : Panic} (f : Fin 8 → σ → Go (σ × Bool × Int)) (bad : Fin 8 → Prop) :
    ∀ is : List (Fin 8), (∀ i ∈ is, bad i → ∀ s, f i s = .error e) →
    (∀ i ∈ is, ¬ bad i → ∀ s, ∃ s' m, f i s = .ok (s', true, m)) → (∃ i ∈ is, bad i) →
    ∀ s ms, parallelLoop f (is.map Fin.val) s ms = .error e
  | [], _, _, h, _, _ => by simp at h
  | i :: is, hb, hg, hex, s, ms => by
    simp only [List.map_cons, parallelLoop, i.isLt, dite_true, Fin.eta]
    by_cases hi : bad i
    · rw [hb i (by simp) hi s]; rfl
    · obtain ⟨s', m, h⟩ := hg i (by simp) hi s
      rw [h]
      simp only [bind, Except.bind, Bool.not_true, Bool.false_eq_true, if_false]
      apply parallelLoop_error f bad is (fun j hj => hb j (by simp [hj])) (fun j hj => hg j (by simp [hj]))
      obtain ⟨j, hj, hbj⟩ := hex
      rcases List.mem_cons.1 hj with rfl | hj
      · exact absurd hbj hi
      · exact ⟨j, hj, hbj⟩

theorem parallel_error {σ : Type} {e : Panic} (f : Fin 8 → σ → Go (σ × Bool × Int)) (bad : Fin 8 → Prop) {m : Masker}
    (hm : MaskOk m) (hb : ∀ i : Fin 8, m.getLsbD i = true → bad i → ∀ s, f i s = .error e)
    (hg : ∀ i : Fin 8, m.getLsbD i = true → ¬ bad i → ∀ s, ∃ s' m, f i s = .ok (s', true, m))
    (hex : ∃ i : Fin 8, m.getLsbD i = true ∧ bad i) (s : σ) : parallel m s f = .error e := by
  rw [parallel, bitLoop_slots hm]
  obtain ⟨i, hi, hbi⟩ := hex
  exact parallelLoop_error f bad (slots m) (fun i hi => hb i (mem_slots.1 hi)) (fun i hi => hg i (mem_slots.1 hi))
    ⟨i, mem_slots.2 hi, hbi⟩ s 0

variable [GoKey T] [PerGoKey T]

/-- The elements that are not equal to themselves (NaN-like values). -/
def nans (l : List T) : List T := l.filter fun e => !GoKey.eq e e

theorem mem_nans {l : List T} {e : T} : e ∈ nans l ↔ e ∈ l ∧ GoKey.eq e e = false := by
  simp [nans]

theorem nans_append (l1 l2 : List T) : nans (l1 ++ l2) = nans l1 ++ nans l2 := List.filter_append ..

theorem nans_perm {l1 l2 : List T} (h : l1.Perm l2) : (nans l1).Perm (nans l2) := h.filter _

theorem eq_self_left {a b : T} (h : GoKey.eq a b = true) : GoKey.eq a a = true := PerGoKey.trans h (PerGoKey.symm h)

theorem eq_self_right {a b : T} (h : GoKey.eq a b = true) : GoKey.eq b b = true := PerGoKey.trans (PerGoKey.symm h) h

theorem WithL.nans {f : T → T → T} (hf : ClassPres f) {l : List T} {v : T} {l' : List T} {ms : Int} (h : WithL f l v l' ms) :
    (Frozen.nans l').Perm (Frozen.nans l ++ Frozen.nans [v]) := by
  refine (nans_perm h.perm).trans ?_
  unfold addL
  rw [nans_append]
  have h1 : Frozen.nans (l.map fun e => if GoKey.eq e v then f e v else e) = Frozen.nans l := by
    unfold Frozen.nans
    clear h
    induction l with
    | nil => rfl
    | cons e l ih =>
      simp only [List.map_cons, List.filter_cons, ih]
      by_cases he : GoKey.eq e v = true
      · simp [he, eq_self_left he, eq_self_left (hf e v he)]
      · simp [he]
  have h2 : Frozen.nans (if (l.find? (fun e => GoKey.eq e v)).isSome then [] else [v]) = Frozen.nans [v] := by
    cases hx : l.find? (fun e => GoKey.eq e v) with
    | none => simp
    | some x =>
      have hxv : GoKey.eq x v = true := by simpa using List.find?_some hx
      simp [Frozen.nans, eq_self_right hxv]
  rw [h1, h2]

/-- `l` is the merge of `l1` and `l2`; `ms` counts the pairs. -/
structure CombL (f : T → T → T) (l1 l2 l : List T) (ms : Int) : Prop where
  distinct : Distinct l
  find : ∀ w, l.find? (fun e => GoKey.eq e w) =
    combOpt f (l1.find? fun e => GoKey.eq e w) (l2.find? fun e => GoKey.eq e w)
  len : (l.length : Int) + ms = l1.length + l2.length
  nans : (nans l).Perm (nans l1 ++ nans l2)

structure CombSpec (f : T → T → T) (d : Nat) (a b r : Node T) (ms : Int) : Prop where
  wf : WF d r
  nonNil : r.isNil = false
  eff : CombL f (elems a) (elems b) (elems r) ms

theorem WithL.comb1 {f : T → T → T} (hf : ClassPres f) {l : List T} {v : T} {l' : List T} {ms : Int} (h : WithL f l v l' ms) :
    CombL f l [v] l' ms := by
  refine ⟨h.distinct, ?_, by have := h.len; simp; omega, h.nans hf⟩
  intro w
  rw [h.find]
  by_cases hv : GoKey.eq v w = true
  · simp only [hv, if_true, List.find?_cons]
    rw [find?_congr_key hv]
    cases l.find? (fun e => GoKey.eq e w) <;> rfl
  · simp only [hv, if_false, List.find?_cons, List.find?_nil]
    cases l.find? (fun e => GoKey.eq e w) <;> rfl

theorem WithL.comb2 {f : T → T → T} (hf : ClassPres f) {l : List T} {u v : T} {l' l'' : List T} {m1 m2 : Int} (huv : GoKey.eq u v = false)
    (h1 : WithL f l u l' m1) (h2 : WithL f l' v l'' m2) : CombL f l [u, v] l'' (m1 + m2) := by
  refine ⟨h2.distinct, ?_, by have := h1.len; have := h2.len; simp; omega, ?_⟩
  case refine_2 =>
    have : Frozen.nans [u, v] = Frozen.nans [u] ++ Frozen.nans [v] := by rw [← nans_append]; rfl
    rw [this, ← List.append_assoc]
    exact (h2.nans hf).trans ((h1.nans hf).append_right _)
  intro w
  rw [h2.find, h1.find, h1.find]
  by_cases hv : GoKey.eq v w = true
  · have hu : GoKey.eq u w = false := by
      rw [← eq_congr_right hv, huv]
    simp only [hv, hu, huv, if_true, List.find?_cons, Bool.false_eq_true, if_false]
    rw [find?_congr_key hv]
    cases l.find? (fun e => GoKey.eq e w) <;> rfl
  · by_cases hu : GoKey.eq u w = true
    · simp only [hu, hv, if_true, List.find?_cons, Bool.false_eq_true, if_false]
      rw [find?_congr_key hu]
      cases l.find? (fun e => GoKey.eq e w) <;> rfl
    · simp only [hv, hu, if_false, List.find?_cons, List.find?_nil, Bool.false_eq_true]
      cases l.find? (fun e => GoKey.eq e w) <;> rfl

theorem combOpt_flip {f : T → T → T} (x y : Option T) : combOpt (fun a b => f b a) x y = combOpt f y x := by
  cases x <;> cases y <;> rfl

theorem CombL.flip {f : T → T → T} {l1 l2 l : List T} {ms : Int} (h : CombL (fun a b => f b a) l1 l2 l ms) :
    CombL f l2 l1 l ms :=
  ⟨h.distinct, fun w => by rw [h.find, combOpt_flip], by have := h.len; omega, h.nans.trans List.perm_append_comm⟩

theorem CombL.perm {f : T → T → T} {l1 l2 l l' : List T} {ms : Int} (h : CombL f l1 l2 l ms) (hp : l.Perm l') :
    CombL f l1 l2 l' ms :=
  ⟨h.distinct.perm hp, fun w => by rw [← h.distinct.find?_perm hp, h.find], by rw [← hp.length_eq]; exact h.len,
    (nans_perm hp.symm).trans h.nans⟩

theorem CombL.perm_right {f : T → T → T} {l1 l2 l2' l : List T} {ms : Int} (h : CombL f l1 l2 l ms) (hd : Distinct l2)
    (hp : l2.Perm l2') : CombL f l1 l2' l ms :=
  ⟨h.distinct, fun w => by rw [h.find, hd.find?_perm hp], by rw [← hp.length_eq]; exact h.len,
    h.nans.trans ((nans_perm hp).append_left _)⟩

theorem length_nans (l : List T) : l.length = (nans l).length + (l.filter fun e => GoKey.eq e e).length := by
  unfold nans
  induction l with
  | nil => rfl
  | cons e l ih =>
    cases h : GoKey.eq e e <;> simp [h, ih] <;> omega

/-- The merge has at least as many elements as its first operand. -/
theorem CombL.ge {f : T → T → T} {l1 l2 l : List T} {ms : Int} (h : CombL f l1 l2 l ms) (hd : Distinct l1) :
    l1.length ≤ l.length := by
  rw [length_nans l1, length_nans l]
  have h1 := h.nans.length_eq
  rw [List.length_append] at h1
  have h2 : (l1.filter fun e => GoKey.eq e e).length ≤ (l.filter fun e => GoKey.eq e e).length := by
    apply Distinct.length_le (hd.sublist List.filter_sublist)
    intro e he
    rw [List.mem_filter] at he
    have h3 := h.find e
    rw [hd.find?_self he.1 he.2] at h3
    cases hr : l.find? (fun x => GoKey.eq x e) with
    | none =>
      rw [hr] at h3
      cases h4 : l2.find? (fun x => GoKey.eq x e) <;> rw [h4] at h3 <;> exact absurd h3 (by simp [combOpt])
    | some x =>
      have hx : GoKey.eq x e = true := by simpa using List.find?_some hr
      exact ⟨x, List.mem_filter.2 ⟨List.mem_of_find?_eq_some hr, eq_self_left hx⟩, PerGoKey.symm hx⟩
  omega

/-- Every element of the merge comes from an operand or is equal to an element of one. -/
theorem CombL.source {f : T → T → T} {l1 l2 l : List T} {ms : Int} (h : CombL f l1 l2 l ms) {e : T} (he : e ∈ l) :
    (∃ x ∈ l1, x = e ∨ GoKey.eq x e = true) ∨ ∃ x ∈ l2, x = e ∨ GoKey.eq x e = true := by
  cases hs : GoKey.eq e e with
  | false =>
    have := h.nans.mem_iff.1 (mem_nans.2 ⟨he, hs⟩)
    rcases List.mem_append.1 this with h1 | h1
    · exact .inl ⟨e, (mem_nans.1 h1).1, .inl rfl⟩
    · exact .inr ⟨e, (mem_nans.1 h1).1, .inl rfl⟩
  | true =>
    have h1 := h.find e
    rw [h.distinct.find?_self he hs] at h1
    cases hA : l1.find? (fun x => GoKey.eq x e) with
    | some x => exact .inl ⟨x, List.mem_of_find?_eq_some hA, .inr (by simpa using List.find?_some hA)⟩
    | none =>
      cases hB : l2.find? (fun x => GoKey.eq x e) with
      | some x => exact .inr ⟨x, List.mem_of_find?_eq_some hB, .inr (by simpa using List.find?_some hB)⟩
      | none => rw [hA, hB] at h1; simp [combOpt] at h1

theorem CombSpec.flip {f : T → T → T} {d : Nat} {a b r : Node T} {ms : Int} (h : CombSpec (fun a b => f b a) d a b r ms) :
    CombSpec f d b a r ms := ⟨h.wf, h.nonNil, h.eff.flip⟩

theorem newBranchFrom_comb {f : T → T → T} {d : Nat} {a b : Node T} {l : List T} {ms : Int}
    (h : CombL f (elems a) (elems b) l ms) (h3 : 3 ≤ l.length) :
    ∃ r, newBranchFrom d l = .ok r ∧ CombSpec f d a b r ms := by
  obtain ⟨n, h1, h2, h3, h4⟩ := nbSpec d l h.distinct h3
  exact ⟨n, h1, ⟨h2, h3, h.perm h4.symm⟩⟩

section
variable {args : CombineArgs T} (heq : args.eq = GoKey.eq) (hf : ClassPres args.f)
include heq hf

theorem branchLeaf1_spec {d : Nat} {m : Masker} {k : Fin 8 → Node T} (hw : WF d (.branch m k)) (a : T) :
    ∃ r ms, branchCombineLeaf1 args m k a d = .ok (r, ms) ∧ CombSpec args.f d (.branch m k) (.leaf1 a) r ms := by
  obtain ⟨n', ms, h1, h2⟩ := withArgs_spec heq hf (.branch m k) d hw rfl a
  exact ⟨n', ms, h1, ⟨h2.wf, h2.nonNil, h2.eff.comb1 hf⟩⟩

theorem branchLeaf2_spec {d : Nat} {m : Masker} {k : Fin 8 → Node T} (hw : WF d (.branch m k)) {a b : T}
    (hab : GoKey.eq a b = false) :
    ∃ r ms, branchCombineLeaf2 args m k a b d = .ok (r, ms) ∧ CombSpec args.f d (.branch m k) (.leaf2 a b) r ms := by
  obtain ⟨n1, m1, h1, h2⟩ := withArgs_spec heq hf (.branch m k) d hw rfl a
  obtain ⟨n2, m2, g1, g2⟩ := withArgs_spec heq hf n1 d h2.wf h2.nonNil b
  refine ⟨n2, m1 + m2, ?_, ⟨g2.wf, g2.nonNil, WithL.comb2 hf hab h2.eff g2.eff⟩⟩
  simp [branchCombineLeaf2, h1, g1, bind, Except.bind, pure, Except.pure]

theorem leaf2Leaf1_spec {d : Nat} {x y a : T} (hw : WF d (.leaf2 x y)) :
    ∃ r ms, leaf2CombineLeaf1 args x y a d = .ok (r, ms) ∧ CombSpec args.f d (.leaf2 x y) (.leaf1 a) r ms := by
  have : leaf2CombineLeaf1 args x y a d = withArgs args (.leaf2 x y) a d (newHasher a d) := rfl
  rw [this]
  obtain ⟨n', ms, h1, h2⟩ := withArgs_spec heq hf (.leaf2 x y) d hw rfl a
  exact ⟨n', ms, h1, ⟨h2.wf, h2.nonNil, h2.eff.comb1 hf⟩⟩

theorem leaf2Leaf2_spec {d : Nat} {l0 l1 n0 n1 : T} (hl : GoKey.eq l0 l1 = false) (hn : GoKey.eq n0 n1 = false) :
    ∃ r ms, leaf2CombineLeaf2 args l0 l1 n0 n1 d = .ok (r, ms) ∧
      CombSpec args.f d (.leaf2 l0 l1) (.leaf2 n0 n1) r ms := by
  have hn' : GoKey.eq n1 n0 = false := by rw [eq_comm]; exact hn
  have hwl : WF d (.leaf2 l0 l1) := hl
  have hdn : Distinct [n0, n1] := by simp [Distinct, hn]
  have hdn' : Distinct [n1, n0] := by simp [Distinct, hn']
  have swapn : ([n1, n0] : List T).Perm [n0, n1] := List.Perm.swap _ _ _
  -- the two orders of the other leaf are treated alike
  have pair : ∀ {u v : T}, GoKey.eq u v = false → GoKey.eq l0 u = true → GoKey.eq l1 v = true →
      CombL args.f [l0, l1] [u, v] [args.f l0 u, args.f l1 v] 2 := by
    intro u v huv h0 h1
    have a1 : GoKey.eq (args.f l0 u) v = false := by rw [eq_congr_left (hf l0 u h0), eq_congr_left h0]; exact huv
    have s1 := (withSpec_leaf2_0 hf d hwl h0)
    have s2 := (withSpec_leaf2_1 hf d (v := v) s1.wf a1 h1)
    exact WithL.comb2 hf huv s1.eff s2.eff
  have one0 : ∀ {u v : T}, GoKey.eq u v = false → GoKey.eq l0 u = true → GoKey.eq l1 v = false →
      CombL args.f [l0, l1] [u, v] [args.f l0 u, l1, v] 1 := by
    intro u v huv h0 h1
    have a1 : GoKey.eq (args.f l0 u) v = false := by rw [eq_congr_left (hf l0 u h0), eq_congr_left h0]; exact huv
    have s1 := (withSpec_leaf2_0 hf d hwl h0)
    have s2 : WithL args.f [args.f l0 u, l1] v [args.f l0 u, l1, v] 0 :=
      WithL.append (l := [args.f l0 u, l1]) s1.wf.distinct (by simp [a1, h1])
    exact WithL.comb2 hf huv s1.eff s2
  have one1 : ∀ {u v : T}, GoKey.eq u v = false → GoKey.eq l0 u = false → GoKey.eq l1 v = true →
      CombL args.f [l0, l1] [u, v] [l0, u, args.f l1 v] 1 := by
    intro u v huv h0 h1
    have hvu : GoKey.eq v u = false := by rw [eq_comm]; exact huv
    have h0v : GoKey.eq l0 v = false := by rw [← eq_congr_right h1]; exact hl
    have s1 := (withSpec_leaf2_1 hf d hwl h0v h1)
    have a1 : GoKey.eq (args.f l1 v) u = false := by rw [eq_congr_left (hf l1 v h1), eq_congr_left h1]; exact hvu
    have s2 : WithL args.f [l0, args.f l1 v] u [l0, args.f l1 v, u] 0 :=
      WithL.append (l := [l0, args.f l1 v]) s1.wf.distinct (by simp [h0, a1])
    have := WithL.comb2 hf hvu s1.eff s2
    have hd : Distinct [v, u] := by simp [Distinct, hvu]
    refine (this.perm_right hd (List.Perm.swap _ _ _)).perm ?_
    exact List.Perm.cons _ (List.Perm.swap _ _ _)
  unfold leaf2CombineLeaf2
  simp only [heq]
  cases h00 : GoKey.eq l0 n0 with
  | true =>
    simp only [if_true]
    cases h11 : GoKey.eq l1 n1 with
    | true =>
      have := pair hn h00 h11
      refine ⟨_, _, rfl, ⟨?_, rfl, this⟩⟩
      simpa [Distinct, WF] using this.distinct
    | false =>
      obtain ⟨r, h1, h2⟩ := newBranchFrom_comb (d := d) (a := .leaf2 l0 l1) (b := .leaf2 n0 n1) (one0 hn h00 h11) (by simp)
      exact ⟨r, 1, by simp [h1, bind, Except.bind, pure, Except.pure], h2⟩
  | false =>
    simp only [Bool.false_eq_true, if_false]
    cases h11 : GoKey.eq l1 n1 with
    | true =>
      obtain ⟨r, h1, h2⟩ := newBranchFrom_comb (d := d) (a := .leaf2 l0 l1) (b := .leaf2 n0 n1) (one1 hn h00 h11) (by simp)
      exact ⟨r, 1, by simp [h1, bind, Except.bind, pure, Except.pure], h2⟩
    | false =>
      simp only [Bool.false_eq_true, if_false]
      cases h01 : GoKey.eq l0 n1 with
      | true =>
        simp only [if_true]
        cases h10 : GoKey.eq l1 n0 with
        | true =>
          have := (pair hn' h01 h10).perm_right hdn' swapn
          refine ⟨_, _, rfl, ⟨?_, rfl, this⟩⟩
          simpa [Distinct, WF] using this.distinct
        | false =>
          obtain ⟨r, h1, h2⟩ := newBranchFrom_comb (d := d) (a := .leaf2 l0 l1) (b := .leaf2 n0 n1)
            ((one0 hn' h01 h10).perm_right hdn' swapn) (by simp)
          exact ⟨r, 1, by simp [h1, bind, Except.bind, pure, Except.pure], h2⟩
      | false =>
        simp only [Bool.false_eq_true, if_false]
        cases h10 : GoKey.eq l1 n0 with
        | true =>
          obtain ⟨r, h1, h2⟩ := newBranchFrom_comb (d := d) (a := .leaf2 l0 l1) (b := .leaf2 n0 n1)
            ((one1 hn' h01 h10).perm_right hdn' swapn) (by simp)
          exact ⟨r, 1, by simp [h1, bind, Except.bind, pure, Except.pure], h2⟩
        | false =>
          have s1 : WithL args.f [l0, l1] n0 [l0, l1, n0] 0 :=
            WithL.append (l := [l0, l1]) hwl.distinct (by simp [h00, h10])
          have s2 : WithL args.f [l0, l1, n0] n1 [l0, l1, n0, n1] 0 :=
            WithL.append (l := [l0, l1, n0]) s1.distinct (by simp [h01, h11, hn])
          obtain ⟨r, h1, h2⟩ := newBranchFrom_comb (d := d) (a := .leaf2 l0 l1) (b := .leaf2 n0 n1)
            (WithL.comb2 hf hn s1 s2) (by simp)
          exact ⟨r, 0, by simp [h1, bind, Except.bind, pure, Except.pure], h2⟩

omit heq hf in
theorem twigScan_length : ∀ (es l : List T) (ms : Int), l.length ≤ (twigScan args l es ms).1.length
  | [], l, ms => by simp [twigScan]
  | e :: es, l, ms => by
    unfold twigScan
    split
    · have := twigScan_length es (l.modify ‹_› (fun f => args.f f e)) (ms + 1)
      simpa using this
    · split
      · have := twigScan_length es (l ++ [e]) ms
        simp at this; omega
      · exact twigScan_length es l ms

theorem combine_spec : ∀ (a : Node T) (d : Nat) (b : Node T), WF d a → a.isNil = false → WF d b → b.isNil = false →
    (Clash a b → combine a args b d = .error .wtf) ∧
    (¬ Clash a b → ∃ r ms, combine a args b d = .ok (r, ms) ∧ CombSpec args.f d a b r ms)
  | .nil, _, _, _, h, _, _ => by simp [Node.isNil] at h
  | .leaf1 x, d, b, hwa, _, hwb, hb => by
    have heq' : args.flip.eq = GoKey.eq := heq
    have hf' : ClassPres args.flip.f := hf.flip
    cases b with
    | nil => simp [Node.isNil] at hb
    | twig l => exact ⟨fun _ => rfl, fun h => absurd trivial h⟩
    | leaf1 y =>
      refine ⟨fun h => h.elim, fun _ => ?_⟩
      obtain ⟨n', ms, h1, h2⟩ := withArgs_spec heq hf (.leaf1 x) d trivial rfl y
      exact ⟨n', ms, h1, ⟨h2.wf, h2.nonNil, h2.eff.comb1 hf⟩⟩
    | leaf2 y z =>
      refine ⟨fun h => h.elim, fun _ => ?_⟩
      obtain ⟨r, ms, h1, h2⟩ := leaf2Leaf1_spec heq' hf' (a := x) hwb
      exact ⟨r, ms, h1, h2.flip⟩
    | branch m2 k2 =>
      refine ⟨fun h => h.elim, fun _ => ?_⟩
      obtain ⟨r, ms, h1, h2⟩ := branchLeaf1_spec heq' hf' hwb x
      exact ⟨r, ms, h1, h2.flip⟩
  | .leaf2 x y, d, b, hwa, _, hwb, hb => by
    have heq' : args.flip.eq = GoKey.eq := heq
    have hf' : ClassPres args.flip.f := hf.flip
    cases b with
    | nil => simp [Node.isNil] at hb
    | twig l => exact ⟨fun _ => rfl, fun h => absurd trivial h⟩
    | leaf1 z =>
      refine ⟨fun h => h.elim, fun _ => ?_⟩
      exact leaf2Leaf1_spec heq hf (a := z) hwa
    | leaf2 z w =>
      refine ⟨fun h => h.elim, fun _ => ?_⟩
      exact leaf2Leaf2_spec heq hf hwa hwb
    | branch m2 k2 =>
      refine ⟨fun h => h.elim, fun _ => ?_⟩
      obtain ⟨r, ms, h1, h2⟩ := branchLeaf2_spec heq' hf' hwb (a := x) (b := y) hwa
      exact ⟨r, ms, h1, h2.flip⟩
  | .twig l, d, b, hwa, _, hwb, hb => by
    refine ⟨fun _ => ?_, fun h => absurd hb h⟩
    cases b with
    | twig l2 =>
      have h1 := twigScan_length (args := args) l2 l 0
      have h2 := hwa.2.1
      simp only [combine, twigCombine]
      rw [if_pos]
      simp only [maxLeafLen]
      omega
    | nil => rfl
    | leaf1 z => rfl
    | leaf2 z w => rfl
    | branch m k => rfl
  | .branch m k, d, b, hwa, _, hwb, hb => by
    have hs := (WF_branch.1 hwa).1
    cases b with
    | nil => simp [Node.isNil] at hb
    | twig l => exact absurd hwb.1 (by have := hs.1; omega)
    | leaf1 x => exact ⟨fun h => h.elim, fun _ => branchLeaf1_spec heq hf hwa x⟩
    | leaf2 x y => exact ⟨fun h => h.elim, fun _ => branchLeaf2_spec heq hf hwa hwb⟩
    | branch m2 k2 =>
      have hs2 := (WF_branch.1 hwb).1
      have hbit : ∀ i : Fin 8, (m ||| m2).getLsbD i = (!(k i).isNil || !(k2 i).isNil) := by
        intro i
        rw [BitVec.getLsbD_or, mask_bit hs, mask_bit hs2]
      have hok : MaskOk (m ||| m2) := (maskOk_wf hs).or (maskOk_wf hs2)
      -- slot results
      have ih' : ∀ i, ∃ r : Node T × Int, ¬ Clash (k i) (k2 i) →
          ((k i).isNil = false → (k2 i).isNil = false → combine (k i) args (k2 i) (d + 1) = .ok r) ∧
          ((k i).isNil = true → r = (k2 i, 0)) ∧ ((k i).isNil = false → (k2 i).isNil = true → r = (k i, 0)) ∧
          WF (d + 1) r.1 ∧ CombL args.f (elems (k i)) (elems (k2 i)) (elems r.1) r.2 := by
        intro i
        by_cases hcl : Clash (k i) (k2 i)
        · exact ⟨(.nil, 0), fun h => absurd hcl h⟩
        cases hk : (k i).isNil with
        | true =>
          have h1 : k i = .nil := isNil_iff.1 hk
          refine ⟨(k2 i, 0), fun _ => ⟨by simp, by simp, by simp, hs2.2.2.1 i, (hs2.2.2.1 i).distinct, ?_, ?_, ?_⟩⟩
          · intro w; simp [h1, elems, combOpt]
          · simp [h1, elems]
          · simp [h1, elems, nans]
        | false =>
          cases hk2 : (k2 i).isNil with
          | true =>
            have h2 : k2 i = .nil := isNil_iff.1 hk2
            refine ⟨(k i, 0), fun _ => ⟨by simp, by simp, by simp, hs.2.2.1 i, (hs.2.2.1 i).distinct, ?_, ?_, ?_⟩⟩
            · intro w
              simp only [h2, elems, List.find?_nil]
              cases (elems (k i)).find? (fun e => GoKey.eq e w) <;> rfl
            · simp [h2, elems]
            · simp [h2, elems, nans]
          | false =>
            obtain ⟨_, hgood⟩ := combine_spec (k i) (d + 1) (k2 i) (hs.2.2.1 i) hk (hs2.2.2.1 i) hk2
            obtain ⟨r, ms, h1, h2⟩ := hgood hcl
            exact ⟨(r, ms), fun _ => ⟨fun _ _ => h1, by simp, by simp, h2.wf, h2.eff⟩⟩
      choose R hR using ih'
      constructor
      · rintro ⟨i, hi⟩
        simp only [combine]
        rw [parallel_error _ (fun i => Clash (k i) (k2 i)) hok]
        · rfl
        · intro j hj hcl s
          have hnn := hcl.nonNil
          have := (combine_spec (k j) (d + 1) (k2 j) (hs.2.2.1 j) hnn.1 (hs2.2.2.1 j) hnn.2).1 hcl
          simp [hnn.1, hnn.2, this, bind, Except.bind]
        · intro j hj hcl s
          obtain ⟨g1, g2, g3, _⟩ := hR j hcl
          cases hk : (k j).isNil with
          | true => exact ⟨_, _, by simp [pure, Except.pure]; exact ⟨rfl, rfl⟩⟩
          | false =>
            cases hk2 : (k2 j).isNil with
            | true => exact ⟨_, _, by simp [pure, Except.pure]; exact ⟨rfl, rfl⟩⟩
            | false =>
              exact ⟨⟨s.mask, setSlot s.data j (R j).1⟩, (R j).2, by
                simp [g1 hk hk2, bind, Except.bind, pure, Except.pure]⟩
        · refine ⟨i, ?_, hi⟩
          rw [hbit, hi.nonNil.1]; rfl
      · intro hno
        have hcl : ∀ i, ¬ Clash (k i) (k2 i) := fun i hi => hno ⟨i, hi⟩
        have hR1 := fun i => (hR i (hcl i)).1
        have hR2 := fun i => (hR i (hcl i)).2.1
        have hR3 := fun i => (hR i (hcl i)).2.2.1
        have hR4 := fun i => (hR i (hcl i)).2.2.2.1
        have hR5 := fun i => (hR i (hcl i)).2.2.2.2
        simp only [combine]
        obtain ⟨s', hp, hd⟩ := parallel_write (σ := Packer T) (α := Node T) (fun s j => s.data j)
          (fun i ret =>
            if (k i).isNil then pure (ret.setNonNilChild i (k2 i), true, 0)
            else if (k2 i).isNil then pure (ret.setNonNilChild i (k i), true, 0)
            else do
              let (n', ms') ← combine (k i) args (k2 i) (d + 1)
              pure (⟨ret.mask, setSlot ret.data i n'⟩, true, ms'))
          R hok
          (by
            intro i hi s
            cases hk : (k i).isNil with
            | true =>
              refine ⟨s.setNonNilChild i (k2 i), ?_, ?_⟩
              · simp [hR2 i hk, pure, Except.pure]
              · intro j; simp only [Packer.setNonNilChild, setSlot, hR2 i hk]
            | false =>
              cases hk2 : (k2 i).isNil with
              | true =>
                refine ⟨s.setNonNilChild i (k i), ?_, ?_⟩
                · simp [hR3 i hk hk2, pure, Except.pure]
                · intro j; simp only [Packer.setNonNilChild, setSlot, hR3 i hk hk2]
              | false =>
                refine ⟨⟨s.mask, setSlot s.data i (R i).1⟩, ?_, ?_⟩
                · simp [hR1 i hk hk2, bind, Except.bind, pure, Except.pure]
                · intro j; simp only [setSlot])
          Packer.zero
        rw [hp]
        simp only [bind, Except.bind, pure, Except.pure]
        have hdata : s'.data = fun j => (R j).1 := by
          funext j
          have := hd j
          rw [hbit] at this
          cases hk : (k j).isNil with
          | true =>
            have h2 := hR2 j hk
            cases hk2 : (k2 j).isNil with
            | true =>
              simp [hk, hk2, Packer.zero] at this
              rw [this, h2, isNil_iff.1 hk2]
            | false => simp [hk, hk2] at this; exact this
          | false => simp [hk] at this; exact this
        have hc : ∀ i, ∀ e ∈ elems (R i).1, chunk e d = i := by
          intro i e he
          rcases (hR5 i).source he with ⟨x, hx, rfl | h1⟩ | ⟨x, hx, rfl | h1⟩
          · exact hs.2.2.2 i x hx
          · rw [← chunk_congr h1, hs.2.2.2 i x hx]
          · exact hs2.2.2.2 i x hx
          · rw [← chunk_congr h1, hs2.2.2.2 i x hx]
        have g1 : WFSlots WF d (maskOf fun j => (R j).1) (fun j => (R j).1) := ⟨hs.1, rfl, hR4, hc⟩
        simp only [updateMask_eq, hdata]
        have hsum : ((slots (m ||| m2)).map fun i => (R i).2).sum = ((List.finRange 8).map fun i => (R i).2).sum := by
          unfold slots
          generalize List.finRange 8 = is
          induction is with
          | nil => rfl
          | cons i is ih =>
            rw [List.filter_cons, hbit i]
            by_cases hb : ((!(k i).isNil) || (!(k2 i).isNil)) = true
            · rw [if_pos hb]
              simp only [List.map_cons, List.sum_cons]; rw [ih]
            · rw [if_neg hb]
              have hk : (k i).isNil = true := by
                cases h : (k i).isNil with
                | true => rfl
                | false => rw [h] at hb; simp at hb
              simp only [List.map_cons, List.sum_cons, hR2 i hk, Int.zero_add]; exact ih
        have hlen : ((elems (.branch (maskOf fun j => (R j).1) fun j => (R j).1)).length : Int) +
            ((List.finRange 8).map fun i => (R i).2).sum =
            (elems (.branch m k)).length + (elems (.branch m2 k2)).length := by
          rw [← sum_length, ← sum_length k m, ← sum_length k2 m2]
          generalize List.finRange 8 = is
          induction is with
          | nil => rfl
          | cons i is ih => have := (hR5 i).len; simp only [List.map_cons, List.sum_cons]; omega
        have hnans : (nans (elems (.branch (maskOf fun j => (R j).1) fun j => (R j).1))).Perm
            (nans (elems (.branch m k)) ++ nans (elems (.branch m2 k2))) := by
          simp only [elems]
          clear hlen hsum
          generalize List.finRange 8 = is
          induction is with
          | nil => exact .refl _
          | cons i is ih =>
            simp only [List.flatMap_cons, nans_append]
            refine ((hR5 i).nans.append ih).trans ?_
            simp only [List.append_assoc]
            refine List.Perm.append_left _ ?_
            rw [← List.append_assoc, ← List.append_assoc]
            exact List.Perm.append_right _ List.perm_append_comm
        have hcomb : CombL args.f (elems (.branch m k)) (elems (.branch m2 k2))
            (elems (.branch (maskOf fun j => (R j).1) fun j => (R j).1)) ((slots (m ||| m2)).map fun i => (R i).2).sum := by
          refine ⟨g1.distinct, ?_, by rw [hsum]; exact hlen, hnans⟩
          intro w
          have h1 := WF.look_branch g1 w
          have h2 := WF.look_branch hs w
          have h3 := WF.look_branch hs2 w
          unfold look at h1 h2 h3
          rw [h1, h2, h3]
          exact (hR5 _).find w
        exact ⟨_, _, rfl, ⟨WF_branch.2 ⟨g1, hwa.2.trans (hcomb.ge hwa.distinct)⟩, rfl, hcomb⟩⟩

end

end Frozen
