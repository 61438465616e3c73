import Verif.Proof.CallsMap
import Verif.Proof.Map

/-! # Which calls `Combine` and `Merge` make -/

set_option linter.unusedSectionVars false

namespace Frozen

section BindEval

variable {Q A R S : Type} {V : Q → A → Prop}

theorem CB.MakesV.eval_congr {x : CB Q A R} {f f' : Q → A} (hV : ∀ q, V q (f q)) :
    ∀ {qs : List Q}, CB.MakesV V qs x → (∀ q ∈ qs, f q = f' q) → x.eval f = x.eval f' := by
  induction x with
  | done r => intros; rfl
  | panic p => intros; rfl
  | call q k ih =>
    intro qs h hq
    cases qs with
    | nil => exact h.elim
    | cons q' qs =>
      obtain ⟨rfl, h⟩ := h
      simp only [CB.eval_call]
      rw [← hq q (List.mem_cons_self ..)]
      exact ih _ (h _ (hV q)) (fun q' hq' => hq q' (List.mem_cons_of_mem _ hq'))

/-- As `CB.MakesV.bind`; what follows needs to be in order only for results a pure function leads to. -/
theorem CB.MakesV.bind_eval (h0 : ∃ f : Q → A, ∀ q, V q (f q)) {x : CB Q A R} {g : R → CB Q A S} {qs' : List Q} :
    ∀ {qs : List Q}, CB.MakesV V qs x → qs.Nodup →
    (∀ f : Q → A, (∀ q, V q (f q)) → ∀ r, x.eval f = .ok r → CB.MakesV V qs' (g r)) → CB.MakesV V (qs ++ qs') (x.bind g) := by
  classical
  induction x with
  | done r =>
    intro qs h _ hg
    obtain ⟨f0, hf0⟩ := h0
    cases qs with
    | nil => exact hg f0 hf0 r rfl
    | cons => exact h.elim
  | panic p =>
    intro qs _ _ _
    cases qs <;> cases qs' <;> trivial
  | call q k ih =>
    intro qs h hn hg
    cases qs with
    | nil => exact h.elim
    | cons q' qs =>
      obtain ⟨rfl, h⟩ := h
      rw [List.nodup_cons] at hn
      refine ⟨rfl, fun a ha => ih a (h a ha) hn.2 (fun f hf r hr => ?_)⟩
      have hf' : ∀ x, V x (if x = q then a else f x) := by
        intro x
        split
        · rename_i e; subst e; exact ha
        · exact hf x
      refine hg (fun x => if x = q then a else f x) hf' r ?_
      simp only [CB.eval_call, if_true]
      rw [← hr]
      exact (CB.MakesV.eval_congr hf (h a ha) (fun x hx => (if_neg (by rintro rfl; exact hn.1 hx)).symm)).symm

end BindEval

section Eval

variable {T : Type} [GoKey T]

/-- The arguments with which a pure function is used. -/
def cargs (eq : T → T → Bool) (fl : Bool) (f : T × T → T) : CombineArgs T := ⟨eq, fun a b => f (if fl then (b, a) else (a, b))⟩

theorem cargs_flip (eq : T → T → Bool) (fl : Bool) (f : T × T → T) : (cargs eq fl f).flip = cargs eq (!fl) f := by
  cases fl <;> rfl

theorem eval_askPair (fl : Bool) (a b : T) (f : T × T → T) (eq : T → T → Bool) :
    (askPair fl a b).eval f = .ok ((cargs eq fl f).f a b) := rfl

theorem modify_eq_set {l : List T} {i : Nat} {e : T} (h : l[i]? = some e) (g : T → T) : l.modify i g = l.set i (g e) := by
  rw [List.modify_eq_set_getElem?, h]; rfl

theorem findIdx?_getElem? {l : List T} {p : T → Bool} {i : Nat} (h : l.findIdx? p = some i) : ∃ e, l[i]? = some e := by
  obtain ⟨hi, _⟩ := List.findIdx?_eq_some_iff_getElem.1 h
  exact ⟨l[i], List.getElem?_eq_getElem hi⟩

variable (eq : T → T → Bool) (f : T × T → T)

theorem eval_withArgsE (fl : Bool) : ∀ (n : Node T) (v : T) (d : Nat) (h : Hasher),
    (withArgsE eq fl n v d h).eval f = withArgs (cargs eq fl f) n v d h
  | .nil, _, _, _ => rfl
  | .leaf1 a, v, _, _ => by
    simp only [withArgsE, withArgs, CB.eval_ite]
    rfl
  | .leaf2 a b, v, d, _ => by
    simp only [withArgsE, withArgs, CB.eval_ite, CB.bind_def, CB.eval_bind, CB.eval_lib]
    rfl
  | .twig l, v, d, _ => by
    simp only [withArgsE, withArgs]
    have he : (cargs eq fl f).eq = eq := rfl
    rw [he]
    cases hi : l.findIdx? (fun e => eq e v) with
    | none => simp only [CB.bind_def, CB.eval_bind, CB.eval_lib]; rfl
    | some i =>
      obtain ⟨e, h⟩ := findIdx?_getElem? hi
      simp only [h, CB.bind_def, CB.eval_bind, modify_eq_set h]
      rfl
  | .branch m k, v, d, h => by
    simp only [withArgsE, withArgs, CB.eval_ite, CB.bind_def, CB.eval_bind, eval_withArgsE fl (k h.idx)]
    rfl

theorem eval_branchCombineLeaf2E (fl : Bool) (m : Masker) (k : Fin 8 → Node T) (a b : T) (d : Nat) :
    (branchCombineLeaf2E eq fl m k a b d).eval f = branchCombineLeaf2 (cargs eq fl f) m k a b d := by
  simp only [branchCombineLeaf2E, branchCombineLeaf2, CB.bind_def, CB.eval_bind, eval_withArgsE]
  rfl

theorem eval_leaf2CombineLeaf1E (fl : Bool) (x y a : T) (d : Nat) :
    (leaf2CombineLeaf1E eq fl x y a d).eval f = leaf2CombineLeaf1 (cargs eq fl f) x y a d := by
  simp only [leaf2CombineLeaf1E, leaf2CombineLeaf1, CB.eval_ite, CB.bind_def, CB.eval_bind, CB.eval_lib]
  rfl

theorem eval_leaf2CombineLeaf2E (fl : Bool) (a b x y : T) (d : Nat) :
    (leaf2CombineLeaf2E eq fl a b x y d).eval f = leaf2CombineLeaf2 (cargs eq fl f) a b x y d := by
  simp only [leaf2CombineLeaf2E, leaf2CombineLeaf2, CB.eval_ite, CB.bind_def, CB.eval_bind, CB.eval_lib, eval_askPair (eq := eq),
    Except.bind, CB.pure_def, CB.eval_done]
  rfl

theorem eval_twigScanE (fl : Bool) : ∀ (es l : List T) (ms : Int),
    (twigScanE eq fl l es ms).eval f = .ok (twigScan (cargs eq fl f) l es ms)
  | [], _, _ => rfl
  | e :: es, l, ms => by
    simp only [twigScanE, twigScan]
    have he : (cargs eq fl f).eq = eq := rfl
    rw [he]
    cases hi : l.findIdx? (fun g => eq g e) with
    | none =>
      simp only [CB.eval_ite, eval_twigScanE fl es]
      split <;> rfl
    | some i =>
      obtain ⟨g, h⟩ := findIdx?_getElem? hi
      simp only [h, CB.bind_def, CB.eval_bind, modify_eq_set h, eval_askPair (eq := eq), Except.bind, eval_twigScanE fl es]

theorem eval_combineE (fl : Bool) : ∀ (n n' : Node T) (d : Nat),
    (combineE eq n fl n' d).eval f = combine n (cargs eq fl f) n' d
  | .nil, _, _ => rfl
  | .leaf1 a, n, d => by
    cases n with
    | nil => rfl
    | twig => rfl
    | leaf1 b => simp only [combineE, combine, CB.eval_ite]; rfl
    | leaf2 x y => simp only [combineE, combine, cargs_flip, eval_leaf2CombineLeaf1E]
    | branch m k => simp only [combineE, combine, cargs_flip, branchCombineLeaf1E, branchCombineLeaf1, eval_withArgsE]
  | .leaf2 a b, n, d => by
    cases n with
    | nil => rfl
    | twig => rfl
    | leaf1 x => simp only [combineE, combine, eval_leaf2CombineLeaf1E]
    | leaf2 x y => simp only [combineE, combine, eval_leaf2CombineLeaf2E]
    | branch m k => simp only [combineE, combine, cargs_flip, eval_branchCombineLeaf2E]
  | .twig l, n, d => by
    cases n with
    | nil => rfl
    | leaf1 => rfl
    | leaf2 => rfl
    | branch => rfl
    | twig l2 =>
      simp only [combineE, combine, twigCombineE, twigCombine, CB.bind_def, CB.eval_bind, eval_twigScanE, Except.bind, CB.eval_ite,
        CB.eval_lib]
      rfl
  | .branch m k, n, d => by
    cases n with
    | nil => rfl
    | twig => rfl
    | leaf1 a => simp only [combineE, combine, branchCombineLeaf1E, branchCombineLeaf1, eval_withArgsE]
    | leaf2 a b => simp only [combineE, combine, eval_branchCombineLeaf2E]
    | branch m2 k2 =>
      simp only [combineE, combine, CB.bind_def, CB.eval_bind]
      rw [eval_parallelE f _ (fun i ret =>
        if (k i).isNil then pure (ret.setNonNilChild i (k2 i), true, 0)
        else if (k2 i).isNil then pure (ret.setNonNilChild i (k i), true, 0)
        else do
          let (n', ms') ← combine (k i) (cargs eq fl f) (k2 i) (d + 1)
          pure (⟨ret.mask, setSlot ret.data i n'⟩, true, ms'))]
      · rfl
      · intro i s
        simp only [CB.eval_ite, CB.eval_bind, eval_combineE fl (k i) (k2 i) (d + 1)]
        rfl

theorem Tree.eval_combineE (t u : Tree T) : (t.combineE eq u).eval f = t.combine ⟨eq, fun a b => f (a, b)⟩ u := by
  simp only [Tree.combineE, Tree.combine, CB.eval_ite, CB.bind_def, CB.eval_bind, Frozen.eval_combineE]
  rfl

end Eval

section Shape

variable {T : Type} [GoKey T] [LawfulGoKey T]

/-- `L` is the list of the pairs of equal elements of `a` and `b`, in some order. -/
def Comm (a b : List T) (L : List (T × T)) : Prop := L.Nodup ∧ ∀ p, p ∈ L ↔ p.1 ∈ a ∧ p.2 ∈ b ∧ GoKey.eq p.1 p.2 = true

/-- Swapped or not. -/
def pr (fl : Bool) (p : T × T) : T × T := if fl then (p.2, p.1) else p

/-- The user's function answers with an element of the class of the arguments. -/
def ClassV (p : T × T) (r : T) : Prop := GoKey.eq p.1 p.2 = true → GoKey.eq r p.1 = true

theorem classV_ex : ∃ f : T × T → T, ∀ q, ClassV q (f q) := ⟨fun p => p.1, fun p _ => LawfulGoKey.refl p.1⟩

theorem askPair_eq (fl : Bool) (a b : T) : (askPair fl a b : CB (T × T) T T) = CB.ask (pr fl (a, b)) := by cases fl <;> rfl

theorem classPres_cargs {fl : Bool} {f : T × T → T} (h : ∀ q, ClassV q (f q)) : ClassPres (cargs GoKey.eq fl f).f := by
  intro a b hab
  cases fl with
  | false => exact h (a, b) hab
  | true => exact PerGoKey.trans (h (b, a) (PerGoKey.symm hab)) (PerGoKey.symm hab)

variable {V : T × T → T → Prop}

theorem makes_withArgsE (fl : Bool) : ∀ (n : Node T) (v : T) (d : Nat) (h : Hasher) (o : Option T), get n v h = .ok o →
    CB.MakesV V ((o.toList.map (fun e => (e, v))).map (pr fl)) (withArgsE GoKey.eq fl n v d h)
  | .nil, _, _, _, _, hg => by cases hg
  | .leaf1 a, v, _, _, o, hg => by
    cases hg
    simp only [withArgsE, askPair_eq]
    cases GoKey.eq a v
    · exact trivial
    · exact (CB.makes_ask _).bind' (fun _ => trivial)
  | .leaf2 a b, v, d, _, o, hg => by
    cases hg
    simp only [withArgsE, askPair_eq]
    cases GoKey.eq a v
    · cases GoKey.eq b v
      · exact (CB.makes_lib _).bind' (fun _ => trivial)
      · exact (CB.makes_ask _).bind' (fun _ => trivial)
    · exact (CB.makes_ask _).bind' (fun _ => trivial)
  | .twig l, v, d, _, o, hg => by
    cases hg
    simp only [withArgsE, askPair_eq]
    cases hi : l.findIdx? (fun e => GoKey.eq e v) with
    | none =>
      have : l.find? (fun e => GoKey.eq e v) = none := by
        rw [List.find?_eq_none]
        simpa using (List.findIdx?_eq_none_iff.1 hi)
      rw [this]
      exact (CB.makes_lib _).bind' (fun _ => trivial)
    | some i =>
      have hf : l.find? (fun e => GoKey.eq e v) = l[i]? := by
        rw [List.find?_eq_bind_findIdx?_getElem?, hi]; rfl
      obtain ⟨e, h⟩ := findIdx?_getElem? hi
      rw [hf, h]
      simp only [h]
      exact (CB.makes_ask _).bind' (fun _ => trivial)
  | .branch m k, v, d, h, o, hg => by
    simp only [withArgsE, get] at hg ⊢
    cases hn : (k h.idx).isNil with
    | true => rw [hn] at hg; cases hg; exact trivial
    | false =>
      rw [hn] at hg
      simp only [Bool.false_eq_true, if_false, CB.bind_def] at hg ⊢
      exact (makes_withArgsE fl (k h.idx) v (d + 1) h.next o hg).bind' (fun _ => trivial)

theorem mem_look {d : Nat} {n : Node T} (hw : WF d n) {v e : T} : look n v = some e ↔ e ∈ elems n ∧ GoKey.eq e v = true := by
  unfold look
  constructor
  · intro h
    exact ⟨List.mem_of_find?_eq_some h, List.find?_some (p := fun e => GoKey.eq e v) h⟩
  · rintro ⟨h1, h2⟩
    cases h : (elems n).find? (fun e => GoKey.eq e v) with
    | none => exact absurd h2 (List.find?_eq_none.1 h e h1)
    | some x =>
      have hx1 := List.mem_of_find?_eq_some h
      have hx2 : GoKey.eq x v = true := List.find?_some (p := fun e => GoKey.eq e v) h
      congr 1
      by_contra hne
      have hd := hw.distinct
      rcases List.pairwise_iff_getElem.1 hd with hd
      obtain ⟨i, hi, rfl⟩ := List.getElem_of_mem hx1
      obtain ⟨j, hj, rfl⟩ := List.getElem_of_mem h1
      have heq := PerGoKey.trans hx2 (PerGoKey.symm h2)
      rcases Nat.lt_trichotomy i j with hij | hij | hij
      · rw [hd i j hi hj hij] at heq; cases heq
      · subst hij; exact hne rfl
      · have := hd j i hj hi hij
        rw [eq_comm, heq] at this; cases this

theorem comm_look {d : Nat} {n : Node T} (hw : WF d n) (v : T) : Comm (elems n) [v] ((look n v).toList.map (fun e => (e, v))) := by
  refine ⟨by cases look n v <;> simp, fun p => ?_⟩
  obtain ⟨x, y⟩ := p
  simp only [List.mem_map, Option.mem_toList, Prod.mk.injEq, List.mem_singleton]
  constructor
  · rintro ⟨e, he, rfl, rfl⟩
    have := (mem_look hw).1 (Option.mem_def.1 he)
    exact ⟨this.1, rfl, this.2⟩
  · rintro ⟨h1, rfl, h2⟩
    exact ⟨x, (mem_look hw).2 ⟨h1, h2⟩, rfl, rfl⟩

theorem Comm.swap {a b : List T} {L : List (T × T)} (h : Comm a b L) : Comm b a (L.map (fun p => (p.2, p.1))) := by
  refine ⟨List.Nodup.map (fun p q h => by simp only [Prod.mk.injEq] at h; exact Prod.ext h.2 h.1) h.1, fun p => ?_⟩
  obtain ⟨x, y⟩ := p
  simp only [List.mem_map, Prod.mk.injEq, h.2]
  constructor
  · rintro ⟨⟨u, v⟩, ⟨h1, h2, h3⟩, rfl, rfl⟩
    exact ⟨h2, h1, PerGoKey.symm h3⟩
  · rintro ⟨h1, h2, h3⟩
    exact ⟨(y, x), ⟨h2, h1, PerGoKey.symm h3⟩, rfl, rfl⟩

theorem map_pr_swap (fl : Bool) (L : List (T × T)) : (L.map (fun p => (p.2, p.1))).map (pr fl) = L.map (pr (!fl)) := by
  rw [List.map_map]
  apply List.map_congr_left
  intro p _
  cases fl <;> rfl

theorem Comm.append {a b c : List T} {L L' : List (T × T)} (h : Comm a b L) (h' : Comm a c L') (hbc : ∀ x ∈ b, x ∉ c) :
    Comm a (b ++ c) (L ++ L') := by
  refine ⟨List.nodup_append.2 ⟨h.1, h'.1, fun p hp q hq he => ?_⟩, fun p => ?_⟩
  · subst he
    exact hbc _ ((h.2 p).1 hp).2.1 ((h'.2 p).1 hq).2.1
  · rw [List.mem_append, h.2, h'.2, List.mem_append]
    tauto

theorem nodup_pr {fl : Bool} {L : List (T × T)} (h : L.Nodup) : (L.map (pr fl)).Nodup := by
  refine List.Nodup.map (fun p q h => ?_) h
  cases fl with
  | false => exact h
  | true => simp only [pr, if_true, Prod.mk.injEq] at h; exact Prod.ext h.2 h.1

theorem makes_branchLeaf1 (fl : Bool) {d : Nat} {m : Masker} {k : Fin 8 → Node T} (hw : WF d (.branch m k)) (a : T) :
    ∃ L, Comm (elems (.branch m k)) [a] L ∧ CB.MakesV V (L.map (pr fl)) (branchCombineLeaf1E GoKey.eq fl m k a d) :=
  ⟨_, comm_look hw a, makes_withArgsE fl _ a d _ _ (get_spec hw rfl a)⟩

theorem makes_branchLeaf2 (fl : Bool) {d : Nat} {m : Masker} {k : Fin 8 → Node T} (hw : WF d (.branch m k)) {a b : T}
    (hab : GoKey.eq a b = false) :
    ∃ L, Comm (elems (.branch m k)) [a, b] L ∧ CB.MakesV ClassV (L.map (pr fl)) (branchCombineLeaf2E GoKey.eq fl m k a b d) := by
  have hne : a ≠ b := by rintro rfl; rw [LawfulGoKey.refl] at hab; cases hab
  have c1 := comm_look hw a
  have c2 := comm_look hw b
  refine ⟨_, c1.append c2 (by simpa using hne), ?_⟩
  rw [List.map_append]
  unfold branchCombineLeaf2E
  simp only [CB.bind_def]
  refine CB.MakesV.bind_eval classV_ex (makes_withArgsE fl _ a d _ _ (get_spec hw rfl a)) (nodup_pr c1.1) (fun f hf r hr => ?_)
  obtain ⟨n1, m1, h1, h2⟩ := withArgs_spec (args := cargs GoKey.eq fl f) rfl (classPres_cargs hf) (.branch m k) d hw rfl a
  rw [eval_withArgsE, h1] at hr
  cases hr
  have hl : look n1 b = look (.branch m k) b := by
    unfold look
    rw [h2.eff.find, hab]; rfl
  rw [← hl]
  exact (makes_withArgsE fl n1 b d _ _ (get_spec h2.wf h2.nonNil b)).bind' (fun _ => trivial)

theorem makes_leaf2Leaf1 (fl : Bool) {d : Nat} {x y : T} (hw : WF d (.leaf2 x y)) (a : T) :
    ∃ L, Comm [x, y] [a] L ∧ CB.MakesV V (L.map (pr fl)) (leaf2CombineLeaf1E GoKey.eq fl x y a d) :=
  ⟨_, comm_look hw a, makes_withArgsE fl (.leaf2 x y) a d _ _ (get_spec hw rfl a)⟩

theorem makes_leaf2Leaf2 (fl : Bool) (d : Nat) {a b x y : T} (hab : GoKey.eq a b = false) (hxy : GoKey.eq x y = false) :
    ∃ L, Comm [a, b] [x, y] L ∧ CB.MakesV V (L.map (pr fl)) (leaf2CombineLeaf2E GoKey.eq fl a b x y d) := by
  have hne : a ≠ b := by rintro rfl; rw [LawfulGoKey.refl] at hab; cases hab
  have hne' : x ≠ y := by rintro rfl; rw [LawfulGoKey.refl] at hxy; cases hxy
  have ex : ∀ {u v w : T}, GoKey.eq u v = false → GoKey.eq u w = true → GoKey.eq v w = false := by
    intro u v w h1 h2
    by_contra h3
    rw [Bool.not_eq_false] at h3
    rw [PerGoKey.trans h2 (PerGoKey.symm h3)] at h1; cases h1
  have ex' : ∀ {u v w : T}, GoKey.eq u v = false → GoKey.eq w u = true → GoKey.eq w v = false := by
    intro u v w h1 h2
    by_contra h3
    rw [Bool.not_eq_false] at h3
    rw [PerGoKey.trans (PerGoKey.symm h2) h3] at h1; cases h1
  have hba : GoKey.eq b a = false := by rw [eq_comm]; exact hab
  have hyx : GoKey.eq y x = false := by rw [eq_comm]; exact hxy
  unfold leaf2CombineLeaf2E
  simp only [askPair_eq]
  cases h1 : GoKey.eq a x with
  | true =>
    have e1 : GoKey.eq b x = false := ex hab h1
    have e2 : GoKey.eq a y = false := ex' hxy h1
    cases h2 : GoKey.eq b y with
    | true =>
      refine ⟨[(a, x), (b, y)], ⟨by simp [hne], ?_⟩, (CB.makes_ask _).bind (qs' := [_]) (fun _ => (CB.makes_ask _).bind' (fun _ => trivial))⟩
      rintro ⟨u, v⟩
      simp only [List.mem_cons, Prod.mk.injEq, List.not_mem_nil, or_false]
      constructor
      · rintro (⟨rfl, rfl⟩ | ⟨rfl, rfl⟩) <;> simp [*]
      · rintro ⟨rfl | rfl, rfl | rfl, h⟩ <;> simp_all
    | false =>
      refine ⟨[(a, x)], ⟨by simp, ?_⟩, (CB.makes_ask _).bind' (fun _ => (CB.makes_lib _).bind' (fun _ => trivial))⟩
      rintro ⟨u, v⟩
      simp only [List.mem_cons, Prod.mk.injEq, List.not_mem_nil, or_false]
      constructor
      · rintro ⟨rfl, rfl⟩; simp [*]
      · rintro ⟨rfl | rfl, rfl | rfl, h⟩ <;> simp_all
  | false =>
    cases h2 : GoKey.eq b y with
    | true =>
      have e1 : GoKey.eq a y = false := ex hba h2
      have e2 : GoKey.eq b x = false := ex' hyx h2
      refine ⟨[(b, y)], ⟨by simp, ?_⟩, (CB.makes_ask _).bind' (fun _ => (CB.makes_lib _).bind' (fun _ => trivial))⟩
      rintro ⟨u, v⟩
      simp only [List.mem_cons, Prod.mk.injEq, List.not_mem_nil, or_false]
      constructor
      · rintro ⟨rfl, rfl⟩; simp [*]
      · rintro ⟨rfl | rfl, rfl | rfl, h⟩ <;> simp_all
    | false =>
      cases h3 : GoKey.eq a y with
      | true =>
        cases h4 : GoKey.eq b x with
        | true =>
          refine ⟨[(a, y), (b, x)], ⟨by simp [hne], ?_⟩, (CB.makes_ask _).bind (qs' := [_]) (fun _ => (CB.makes_ask _).bind' (fun _ => trivial))⟩
          rintro ⟨u, v⟩
          simp only [List.mem_cons, Prod.mk.injEq, List.not_mem_nil, or_false]
          constructor
          · rintro (⟨rfl, rfl⟩ | ⟨rfl, rfl⟩) <;> simp [*]
          · rintro ⟨rfl | rfl, rfl | rfl, h⟩ <;> simp_all
        | false =>
          refine ⟨[(a, y)], ⟨by simp, ?_⟩, (CB.makes_ask _).bind' (fun _ => (CB.makes_lib _).bind' (fun _ => trivial))⟩
          rintro ⟨u, v⟩
          simp only [List.mem_cons, Prod.mk.injEq, List.not_mem_nil, or_false]
          constructor
          · rintro ⟨rfl, rfl⟩; simp [*]
          · rintro ⟨rfl | rfl, rfl | rfl, h⟩ <;> simp_all
      | false =>
        cases h4 : GoKey.eq b x with
        | true =>
          refine ⟨[(b, x)], ⟨by simp, ?_⟩, (CB.makes_ask _).bind' (fun _ => (CB.makes_lib _).bind' (fun _ => trivial))⟩
          rintro ⟨u, v⟩
          simp only [List.mem_cons, Prod.mk.injEq, List.not_mem_nil, or_false]
          constructor
          · rintro ⟨rfl, rfl⟩; simp [*]
          · rintro ⟨rfl | rfl, rfl | rfl, h⟩ <;> simp_all
        | false =>
          refine ⟨[], ⟨by simp, ?_⟩, (CB.makes_lib _).bind' (fun _ => trivial)⟩
          rintro ⟨u, v⟩
          simp only [List.mem_cons, List.not_mem_nil, or_false, false_iff]
          rintro ⟨rfl | rfl, rfl | rfl, h⟩ <;> simp_all

theorem makes_combineE (fl : Bool) : ∀ (a : Node T) (d : Nat) (b : Node T), WF d a → a.isNil = false → WF d b → b.isNil = false →
    ¬ Clash a b → ∃ L, Comm (elems a) (elems b) L ∧ CB.MakesV ClassV (L.map (pr fl)) (combineE GoKey.eq a fl b d)
  | .nil, _, _, _, h, _, _, _ => by simp [Node.isNil] at h
  | .leaf1 x, d, b, hwa, _, hwb, hb, hc => by
    cases b with
    | nil => simp [Node.isNil] at hb
    | twig l => exact absurd trivial hc
    | leaf1 y => exact ⟨_, comm_look hwa y, makes_withArgsE fl (.leaf1 x) y d _ _ (get_spec hwa rfl y)⟩
    | leaf2 y z =>
      obtain ⟨L, h1, h2⟩ := makes_leaf2Leaf1 (V := ClassV) (!fl) hwb x
      exact ⟨_, h1.swap, by rw [map_pr_swap]; exact h2⟩
    | branch m2 k2 =>
      obtain ⟨L, h1, h2⟩ := makes_branchLeaf1 (V := ClassV) (!fl) hwb x
      exact ⟨_, h1.swap, by rw [map_pr_swap]; exact h2⟩
  | .leaf2 x y, d, b, hwa, _, hwb, hb, hc => by
    cases b with
    | nil => simp [Node.isNil] at hb
    | twig l => exact absurd trivial hc
    | leaf1 z => exact makes_leaf2Leaf1 fl hwa z
    | leaf2 z w => exact makes_leaf2Leaf2 fl d hwa hwb
    | branch m2 k2 =>
      obtain ⟨L, h1, h2⟩ := makes_branchLeaf2 (!fl) hwb (a := x) (b := y) hwa
      exact ⟨_, h1.swap, by rw [map_pr_swap]; exact h2⟩
  | .twig l, d, b, hwa, _, hwb, hb, hc => absurd hb hc
  | .branch m k, d, b, hwa, _, hwb, hb, hc => by
    have hs := (WF_branch.1 hwa).1
    cases b with
    | nil => simp [Node.isNil] at hb
    | twig l => exact absurd hwb.1 (by have := hs.1; omega)
    | leaf1 x => exact makes_branchLeaf1 fl hwa x
    | leaf2 x y => exact makes_branchLeaf2 fl hwa hwb
    | branch m2 k2 =>
      have hs2 := (WF_branch.1 hwb).1
      have hbit : ∀ i : Fin 8, (m ||| m2).getLsbD i = (!(k i).isNil || !(k2 i).isNil) := by
        intro i
        rw [BitVec.getLsbD_or, mask_bit hs, mask_bit hs2]
      have hok : MaskOk (m ||| m2) := (maskOk_wf hs).or (maskOk_wf hs2)
      have hcl : ∀ i, ¬ Clash (k i) (k2 i) := fun i hi => hc ⟨i, hi⟩
      have ih : ∀ i, ∃ L, Comm (elems (k i)) (elems (k2 i)) L ∧ ∀ s : Packer T, CB.MakesV ClassV (L.map (pr fl))
          (if (k i).isNil then pure (s.setNonNilChild i (k2 i), true, 0)
            else if (k2 i).isNil then pure (s.setNonNilChild i (k i), true, 0)
            else do
              let (n', ms') ← combineE GoKey.eq (k i) fl (k2 i) (d + 1)
              pure (⟨s.mask, setSlot s.data i n'⟩, true, ms') : CB (T × T) T (Packer T × Bool × Int)) := by
        intro i
        cases hk : (k i).isNil with
        | true => exact ⟨[], ⟨by simp, fun p => by simp [isNil_iff.1 hk, elems]⟩, fun s => trivial⟩
        | false =>
          cases hk2 : (k2 i).isNil with
          | true => exact ⟨[], ⟨by simp, fun p => by simp [isNil_iff.1 hk2, elems]⟩, fun s => trivial⟩
          | false =>
            obtain ⟨L, h1, h2⟩ := makes_combineE fl (k i) (d + 1) (k2 i) (hs.2.2.1 i) hk (hs2.2.2.1 i) hk2 (hcl i)
            exact ⟨L, h1, fun s => h2.bind' (fun _ => trivial)⟩
      choose L hL1 hL2 using ih
      refine ⟨(slots (m ||| m2)).flatMap L, ⟨?_, ?_⟩, ?_⟩
      · rw [List.nodup_flatMap]
        refine ⟨fun i _ => (hL1 i).1, ?_⟩
        refine (nodup_slots (m ||| m2)).imp (fun {i j} hij => ?_)
        intro p hp hq
        have e1 := hs.2.2.2 i p.1 (((hL1 i).2 p).1 hp).1
        have e2 := hs.2.2.2 j p.1 (((hL1 j).2 p).1 hq).1
        exact hij (e1.symm.trans e2)
      · intro p
        simp only [List.mem_flatMap, elems, mem_slots]
        constructor
        · rintro ⟨i, _, hp⟩
          obtain ⟨h1, h2, h3⟩ := ((hL1 i).2 p).1 hp
          exact ⟨⟨i, List.mem_finRange i, h1⟩, ⟨i, List.mem_finRange i, h2⟩, h3⟩
        · rintro ⟨⟨i, _, h1⟩, ⟨j, _, h2⟩, h3⟩
          have e1 := hs.2.2.2 i p.1 h1
          have e2 := hs2.2.2.2 j p.2 h2
          have hij : i = j := by
            rw [← e1, ← e2]
            exact chunk_congr h3 d
          subst hij
          refine ⟨i, ?_, ((hL1 i).2 p).2 ⟨h1, h2, h3⟩⟩
          rw [hbit]
          have : (k i).isNil = false := by
            cases hk : (k i).isNil with
            | false => rfl
            | true => rw [isNil_iff.1 hk] at h1; cases h1
          rw [this]; rfl
      · simp only [combineE, CB.bind_def]
        refine CB.MakesV.bind' ?_ (fun _ => trivial)
        unfold parallelE
        rw [bitLoop_slots hok, List.map_flatMap]
        refine CB.MakesV.loop (fun i s => hL2 i s) (fun i s => ?_) _ _ _
        split
        · exact ⟨.done (s.setNonNilChild i (k2 i), 0), rfl⟩
        · split
          · exact ⟨.done (s.setNonNilChild i (k i), 0), rfl⟩
          · exact ⟨(combineE GoKey.eq (k i) fl (k2 i) (d + 1)).bind (fun r => .done (⟨s.mask, setSlot s.data i r.1⟩, r.2)), by
              rw [CB.bind_assoc]; rfl⟩

end Shape

section Top

variable {T : Type} [GoKey T] [LawfulGoKey T] {K V : Type} [GoKey K] [LawfulGoKey K]

theorem Tree.makes_combineE {t u : Tree T} (h : t.Valid) (hu : u.Valid) (hc : ¬ Clash t.root u.root) :
    ∃ L, Comm t.list u.list L ∧ CB.MakesV ClassV L (t.combineE GoKey.eq u) := by
  unfold Tree.combineE
  cases hn : t.root.isNil with
  | true => exact ⟨[], ⟨by simp, fun p => by simp [(Tree.isNil_iff_list h).1 hn]⟩, trivial⟩
  | false =>
    cases hn2 : u.root.isNil with
    | true => exact ⟨[], ⟨by simp, fun p => by simp [(Tree.isNil_iff_list hu).1 hn2]⟩, trivial⟩
    | false =>
      obtain ⟨L, h1, h2⟩ := Frozen.makes_combineE false t.root 0 u.root h.wf hn hu.wf hn2 hc
      have : L.map (pr false) = L := by
        conv_rhs => rw [← List.map_id L]
        rfl
      rw [this] at h2
      exact ⟨L, h1, h2.bind' (fun _ => trivial)⟩

theorem FMap.eval_mergeE (m n : FMap K V) (f : K → V → V → V) : (m.mergeE n).eval (fun q => f q.1 q.2.1 q.2.2) = m.merge n f := by
  unfold FMap.mergeE FMap.merge
  simp only [CB.bind_def, CB.eval_bind, CB.pure_def, CB.eval_done]
  rw [CB.eval_wrap _ _ (fun p => (⟨p.1.key, f p.1.key p.1.value p.2.value⟩ : Entry K V)) (fun q => rfl), Tree.eval_combineE]
  rfl

theorem FMap.makes_mergeE [Inhabited V] {m n : FMap K V} (h : m.Valid) (hn : n.Valid) (hc : ¬ TripleClash m.HasKey n.HasKey) :
    ∃ L, Comm m.tree.list n.tree.list L ∧ CB.Makes (L.map fun p => (p.1.key, p.1.value, p.2.value)) (m.mergeE n) := by
  rw [← FMap.clash_iff h hn] at hc
  obtain ⟨L, h1, h2⟩ := Tree.makes_combineE h hn hc
  refine ⟨L, h1, ?_⟩
  unfold FMap.mergeE
  simp only [CB.bind_def]
  refine CB.MakesV.bind' ?_ (fun _ => trivial)
  exact CB.MakesV.wrap (V := ClassV) (q' := fun p : Entry K V × Entry K V => (p.1.key, p.1.value, p.2.value))
    (g := fun p v => (⟨p.1.key, v⟩ : Entry K V)) (fun q a _ => LawfulGoKey.refl q.1.key) h2

theorem FSet.spends_reduceE [Inhabited T] {s : FSet T} (h : s.Valid) : CB.Spends id s.tree.list s.reduceE := by
  unfold FSet.reduceE Tree.reduceE
  cases hn : s.tree.root.isNil with
  | true => simp only [if_true]; rw [(Tree.isNil_iff_list h).1 hn]; exact List.Perm.refl _
  | false =>
    have := Frozen.spends_reduceE s.tree.root 0 h.wf hn [] (fun r => .done (some r)) (fun r => List.Perm.refl _)
    rw [List.append_nil] at this
    exact this

theorem eval_reduceE [Inhabited T] (r : List T → T) : ∀ n : Node T, (Frozen.reduceE n).eval r = Frozen.reduce r n
  | .nil => rfl
  | .leaf1 a => rfl
  | .leaf2 a b => rfl
  | .twig l => rfl
  | .branch m k => by
    simp only [Frozen.reduceE, Frozen.reduce, CB.bind_def, CB.eval_bind]
    rw [eval_parallelE r _ (fun i res => do
      let x ← Frozen.reduce r (k i)
      pure (setSlot res i x, true, 0))]
    · show Except.bind _ _ = Except.bind _ _
      congr 1; funext x
      simp only [CB.eval_lib, CB.eval_ask]
      rfl
    · intro i s
      simp only [CB.eval_bind, eval_reduceE r (k i), CB.pure_def]
      rfl

end Top

end Frozen
