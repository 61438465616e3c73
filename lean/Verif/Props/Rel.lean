import Verif.Proof.RelNest
import Verif.Props.Witness
import Mathlib.Logic.Encodable.Basic
import Mathlib.Data.Finset.Image
import Mathlib.Data.Countable.Basic
import Mathlib.Data.Fintype.Basic
import Mathlib.Logic.Equiv.List
import Mathlib.Data.Finset.Option

/-!
# C30, C31, C32: relations

The vocabulary (`Tuple.val`, `Uniform`, `IsRestriction`, `JoinOf`, `NestOf`, ...) is in `Spec/Rel.lean`. Attribute names and values
have arbitrary types with lawful `Equal` and `Hash`; the code fixes them to `string` and `any`.
-/

set_option linter.unusedSectionVars false

namespace Frozen

section
variable {A V : Type} [GoKey A] [LawfulGoKey A] [Inhabited V] [GoKey V] [LawfulGoKey V] [GoHash]

/-! ### C31: tuples, `New`, `Project`, `CartesianProduct` -/

/-- C31. `Get` on a tuple never panics; `Tuple.val` is its result. -/
theorem C31_get (t : Tuple A V) (a : A) : t.1.get a = .ok (t.val a) := by
  rw [Tuple.val_lk]; exact FMap.get_spec t.2.valid a

/-- C31. Two tuples are the same element of a relation exactly if they have `Equal` values at every attribute. -/
theorem C31_tuple_ext (t u : Tuple A V) : GoKey.eq t u = true ↔ SameTuple t u := Tuple.eq_iff t u

/-- C31. `New` returns the relation of the given rows. -/
theorem C31_new (header : List A) (rows : List (List V)) (h : ∀ row ∈ rows, row.length = header.length) :
    ∃ r, relNew header rows = .ok r ∧ r.Reachable ∧ ∀ u, r.Mem u ↔ ∃ row ∈ rows, ∀ a, SameVal (u.val a) (rowVal header row a) := by
  obtain ⟨r, h1, h2, h3⟩ := relNew_aux header rows FSet.zero ⟨.newSet [], rfl⟩ h
  refine ⟨r, h1, h2, fun u => ?_⟩
  rw [h3]
  constructor
  · rintro (h0 | h0)
    · exact absurd h0 (by unfold FSet.Mem; intro h; cases h)
    · exact h0
  · exact .inr

theorem rowVal_has (header : List A) (row : List V) (h : row.length = header.length) (a : A) :
    (rowVal header row a).isSome = true ↔ ∃ c ∈ header, GoKey.eq c a = true := by
  unfold rowVal
  rw [Option.isSome_map, List.find?_isSome]
  constructor
  · rintro ⟨x, hx, he⟩
    exact ⟨x.1, (List.of_mem_zip (List.mem_reverse.1 hx)).1, he⟩
  · rintro ⟨c, hc, he⟩
    have : c ∈ (header.zip row).map (·.1) := by rw [List.map_fst_zip (by omega)]; exact hc
    obtain ⟨x, hx, rfl⟩ := List.mem_map.1 this
    exact ⟨x, List.mem_reverse.2 hx, he⟩

/-- C31. All tuples of a relation made by `New` have the attributes of the header. -/
theorem C31_new_uniform (header : List A) (rows : List (List V)) (h : ∀ row ∈ rows, row.length = header.length) :
    ∃ r, relNew header rows = .ok r ∧ Uniform r (fun a => ∃ c ∈ header, GoKey.eq c a = true) := by
  obtain ⟨r, h1, _, h3⟩ := C31_new header rows h
  refine ⟨r, h1, fun u hu a => ?_⟩
  obtain ⟨row, hr, hu⟩ := (h3 u).1 hu
  show _ ↔ ∃ c ∈ header, GoKey.eq c a = true
  rw [← rowVal_has header row (h row hr) a]
  exact (hu a).isSome

/-- C31. `New` panics if a row does not fit the header. -/
theorem C31_new_mismatch (header : List A) (rows : List (List V)) (h : ∃ row ∈ rows, row.length ≠ header.length) :
    relNew header rows = .error (.msg "header/row size mismatch") :=
  relNew_error header rows FSet.zero ⟨.newSet [], rfl⟩ h

/-- C31. `Project` returns exactly the restrictions of the tuples to the given attributes. -/
theorem C31_project (s : Rel A V) (hs : s.Reachable) (attrs : List A) :
    ∃ r, relProject s attrs = .ok r ∧ r.Reachable ∧
      ∀ u, r.Mem u ↔ ∃ x, s.Mem x ∧ IsRestriction u x (fun a => ∃ c ∈ attrs, GoKey.eq c a = true) :=
  relProject_spec hs.valid attrs (fun a => by rw [List.any_eq_true])

/-- C31, the provable part: unless merging runs into the collision pattern, `CartesianProduct` returns exactly the merges of one tuple
of each relation; where several tuples have an attribute, the last one counts. What is missing is that it may panic
(`C31_cartesianProduct_panics`). -/
theorem C31_cartesianProduct_merge_partial (rs : List (Rel A V)) (hr : ∀ r ∈ rs, r.Reachable) (hm : MergesOk (fun _ => False) rs) :
    ∃ r, cartesianProduct rs = .ok r ∧ r.Reachable ∧
      ∀ u, r.Mem u ↔ ∃ xs, List.Forall₂ (fun (r : Rel A V) x => r.Mem x) rs xs ∧ ∀ a, SameVal (u.val a) (lastVal xs a) :=
  cartesianProduct_spec rs (fun r h => (hr r h).valid) hm

theorem headersOk_merges : ∀ (rs : List (Rel A V)) (Qs : List (A → Prop)) (P : A → Prop), List.Forall₂ Uniform rs Qs → HeadersOk P Qs →
    MergesOk P rs
  | [], _, _, _, _ => trivial
  | r :: rs, _, P, .cons (b := Q) hQ hQs, h => by
    intro x hx
    have e : x.Has = Q := by funext a; exact propext (hQ x hx a)
    rw [e]
    exact ⟨h.1, headersOk_merges rs _ _ hQs h.2⟩

theorem lastVal_aux : ∀ (xs : List (Tuple A V)) (Qs : List (A → Prop)) (P : A → Prop) (o : Option V) (a : A),
    List.Forall₂ (fun (x : Tuple A V) Q => ∀ a, x.Has a ↔ Q a) xs Qs →
    (Qs.Pairwise (fun Q Q' => ∀ a, Q a → ¬ Q' a)) → (o.isSome = true → P a) → (∀ Q ∈ Qs, P a → ¬ Q a) →
    ∀ u : Option V, SameVal u (xs.foldl (fun o x => mergeAt (fun _ b => b) o (x.val a)) o) ↔
      (o.isSome = true → SameVal u o) ∧ (∀ x ∈ xs, x.Has a → SameVal u (x.val a)) ∧ (o.isSome = false → (∀ x ∈ xs, ¬ x.Has a) → u = none)
  | [], _, P, o, a, _, _, _, _, u => by
    cases o with
    | none => simp only [List.foldl_nil, Option.isSome_none]; simp [SameVal.none_iff]
    | some v => simp
  | x :: xs, _, P, o, a, .cons (b := Q) (l₂ := Qs) hx hxs, hd, hP, hPQ, u => by
    have hd' := List.pairwise_cons.1 hd
    rw [List.foldl_cons]
    by_cases hxa : x.Has a
    · have ho : o = none := by
        cases o with
        | none => rfl
        | some v => exact absurd ((hx a).1 hxa) (hPQ Q (by simp) (hP rfl))
      subst ho
      have hm : mergeAt (fun _ b => b) none (x.val a) = x.val a := by cases x.val a <;> rfl
      rw [hm, lastVal_aux xs Qs Q (x.val a) a hxs hd'.2 (fun _ => (hx a).1 hxa) (fun Q' h hq => hd'.1 Q' h a hq) u]
      unfold Tuple.Has at hxa
      simp only [hxa, true_implies, Bool.true_eq_false, false_implies, and_true, Option.isSome_none, Bool.false_eq_true, true_and,
        List.mem_cons, forall_eq_or_imp, Tuple.Has, not_true_eq_false, false_and, implies_true]
    · have hm : mergeAt (fun _ b => b) o (x.val a) = o := by rw [Tuple.not_has.1 hxa]; cases o <;> rfl
      rw [hm, lastVal_aux xs Qs P o a hxs hd'.2 hP (fun Q' h => hPQ Q' (by simp [h])) u]
      simp [hxa]

/-- C31, the provable part for disjoint attributes: each result tuple has exactly the values of one tuple of each relation. -/
theorem C31_cartesianProduct_partial (rs : List (Rel A V)) (hr : ∀ r ∈ rs, r.Reachable) (Qs : List (A → Prop))
    (hQ : List.Forall₂ Uniform rs Qs) (hd : Qs.Pairwise (fun Q Q' => ∀ a, Q a → ¬ Q' a)) (hc : HeadersOk (fun _ => False) Qs) :
    ∃ r, cartesianProduct rs = .ok r ∧ r.Reachable ∧
      ∀ u, r.Mem u ↔ ∃ xs, List.Forall₂ (fun (r : Rel A V) x => r.Mem x) rs xs ∧ JoinOfAll xs u := by
  obtain ⟨r, h1, h2, h3⟩ := C31_cartesianProduct_merge_partial rs hr (headersOk_merges rs Qs _ hQ hc)
  refine ⟨r, h1, h2, fun u => ?_⟩
  rw [h3]
  have key : ∀ xs, List.Forall₂ (fun (r : Rel A V) x => r.Mem x) rs xs →
      ((∀ a, SameVal (u.val a) (lastVal xs a)) ↔ JoinOfAll xs u) := by
    intro xs hxs
    have hx : List.Forall₂ (fun (x : Tuple A V) Q => ∀ a, x.Has a ↔ Q a) xs Qs := by
      clear h1 h2 h3 hd hc hr
      induction hxs generalizing Qs with
      | nil => cases hQ; exact .nil
      | cons h _ ih => cases hQ with | cons g gs => exact .cons (g _ h) (ih _ gs)
    apply forall_congr'
    intro a
    unfold lastVal
    rw [lastVal_aux xs Qs (fun _ => False) none a hx hd (by simp) (by simp) (u.val a), Tuple.not_has]
    simp
  constructor
  · rintro ⟨xs, hxs, h⟩; exact ⟨xs, hxs, (key xs hxs).1 h⟩
  · rintro ⟨xs, hxs, h⟩; exact ⟨xs, hxs, (key xs hxs).2 h⟩

theorem bcp_error : ∀ (rs : List (Rel A V)) (Qs : List (A → Prop)) (t : Tuple A V) (b : SetBuilder (Tuple A V)),
    (∀ r ∈ rs, r.Valid) → List.Forall₂ Uniform rs Qs → (∀ r ∈ rs, ∃ x, r.Mem x) → ¬ HeadersOk t.Has Qs →
    buildCartesianProduct b t rs = .error .wtf
  | [], _, _, _, _, .nil, _, h => absurd trivial h
  | r :: rs, _, t, b, hv, .cons (b := Q) (l₂ := Qs) hQ hQs, hne, h => by
    obtain ⟨x, hx⟩ := hne r (by simp)
    obtain ⟨e, he, _⟩ := (FSet.mem_iff_list (hv r (by simp)) x).1 hx
    rw [buildCartesianProduct, FSet.rangeList_spec (hv r (by simp))]
    simp only [bind, Except.bind]
    cases hl : r.tree.list with
    | nil => rw [hl] at he; cases he
    | cons v l =>
      have hvm : r.Mem v := FSet.mem_of_list (hv r (by simp)) (by rw [hl]; simp)
      have ev : v.Has = Q := by funext a; exact propext (hQ v hvm a)
      apply foldlM_head_error
      by_cases hc : TripleClash t.Has v.Has
      · rw [Tuple.update_error t v hc]
      · obtain ⟨t', h1, h2⟩ := Tuple.update_spec t v hc
        rw [h1]
        refine bcp_error rs Qs t' b (fun r h => hv r (by simp [h])) hQs (fun r h => hne r (by simp [h])) (fun g => h ⟨ev ▸ hc, ?_⟩)
        have : (fun a => t.Has a ∨ Q a) = t'.Has := by
          funext a
          rw [← ev]
          unfold Tuple.Has
          rw [h2, mergeAt_isSome]
        rw [this]; exact g

/-- C31. `CartesianProduct` of non-empty relations panics if merging runs into the collision pattern. -/
theorem C31_cartesianProduct_panics (rs : List (Rel A V)) (hr : ∀ r ∈ rs, r.Reachable) (hne : ∀ r ∈ rs, ∃ x, r.Mem x)
    (Qs : List (A → Prop)) (hQ : List.Forall₂ Uniform rs Qs) (hc : ¬ HeadersOk (fun _ => False) Qs) :
    cartesianProduct rs = .error .wtf := by
  unfold cartesianProduct
  rw [bcp_error rs Qs Tuple.empty _ (fun r h => (hr r h).valid) hQ hne]
  · rfl
  · have : (Tuple.empty : Tuple A V).Has = fun _ => False := by
      funext a
      unfold Tuple.Has
      rw [Tuple.val_empty]; simp
    rw [this]; exact hc

/-! ### C30: `Join` -/

/-- `u` has the attributes of both and its restrictions are tuples of `s` and `t`. -/
def IsJoined (s t : Rel A V) (P Q : A → Prop) (u : Tuple A V) : Prop :=
  (∀ a, u.Has a ↔ P a ∨ Q a) ∧ (∃ x, s.Mem x ∧ IsRestriction x u P) ∧ (∃ y, t.Mem y ∧ IsRestriction y u Q)

theorem isJoined_iff {s t : Rel A V} {P Q : A → Prop} (hP : Uniform s P) (hQ : Uniform t Q) (u : Tuple A V) :
    IsJoined s t P Q u ↔ ∃ x y, s.Mem x ∧ t.Mem y ∧ JoinOf x y u := by
  constructor
  · rintro ⟨hu, ⟨x, hx, rx⟩, y, hy, ry⟩
    refine ⟨x, y, hx, hy, fun a => ⟨fun h => ((rx a).1 ((hP x hx a).1 h)).symm, fun h => ((ry a).1 ((hQ y hy a).1 h)).symm, ?_⟩⟩
    intro h1 h2 h3
    rcases (hu a).1 h3 with h | h
    · exact h1 ((hP x hx a).2 h)
    · exact h2 ((hQ y hy a).2 h)
  · rintro ⟨x, y, hx, hy, hj⟩
    refine ⟨fun a => by rw [hj.has, hP x hx, hQ y hy], ⟨x, hx, fun a => ⟨fun h => ?_, fun h => ?_⟩⟩, ⟨y, hy, fun a => ⟨fun h => ?_, fun h => ?_⟩⟩⟩
    · exact ((hj a).1 ((hP x hx a).2 h)).symm
    · rw [← Tuple.not_has, hP x hx a]; exact h
    · exact ((hj a).2.1 ((hQ y hy a).2 h)).symm
    · rw [← Tuple.not_has, hQ y hy a]; exact h

/-- C30, the provable part: `Join` of two uniform relations, the second of which is not empty, contains exactly the tuples over the
union of the attributes whose restrictions are in both; also if there are no common attributes. What is missing: an empty second
relation (`C30_join_empty_right`, `C30_join_refuted`), and attributes with the collision pattern (`C30_join_panics`). -/
theorem C30_join_partial (s t : Rel A V) (hs : s.Reachable) (ht : t.Reachable) (P Q : A → Prop) (hP : Uniform s P) (hQ : Uniform t Q)
    (hne : (∃ y, t.Mem y) ∨ ∀ x, ¬ s.Mem x) (hc : ¬ TripleClash P Q) :
    ∃ r, joinAll [s, t] = .ok r ∧ r.Reachable ∧ ∀ u, r.Mem u ↔ IsJoined s t P Q u := by
  obtain ⟨r, h1, h2, h3⟩ := (join_spec hs ht hP hQ hne).1 hc
  refine ⟨r, ?_, h2, fun u => by rw [h3, isJoined_iff hP hQ]⟩
  show [t].foldlM join s = _
  rw [List.foldlM_cons, h1]; rfl

/-- C30, the provable part for any number of relations: `Join` contains exactly the tuples made of one tuple of each relation, all of
them agreeing where they overlap. -/
theorem C30_join_all_partial (s : Rel A V) (ts : List (Rel A V)) (hs : s.Reachable) (ht : ∀ t ∈ ts, t.Reachable) (P : A → Prop)
    (Qs : List (A → Prop)) (hP : Uniform s P) (hQ : List.Forall₂ Uniform ts Qs) (hne : ∀ t ∈ ts, ∃ y, t.Mem y) (hc : HeadersOk P Qs) :
    ∃ r, joinAll (s :: ts) = .ok r ∧ r.Reachable ∧
      ∀ u, r.Mem u ↔ ∃ xs, List.Forall₂ (fun (r : Rel A V) x => r.Mem x) (s :: ts) xs ∧ JoinOfAll xs u := by
  obtain ⟨r, h1, h2, h3⟩ := joinFold_spec ts Qs s P hs ht hP hQ hc hne
  refine ⟨r, h1, h2, fun u => ?_⟩
  rw [h3]
  constructor
  · rintro ⟨x, xs, hx, hxs, hj⟩
    exact ⟨x :: xs, .cons hx hxs, hj⟩
  · rintro ⟨_, hxs, hj⟩
    cases hxs with
    | cons hx hxs => exact ⟨_, _, hx, hxs, hj⟩

/-- C30. If the attributes have the collision pattern and any two tuples agree, `Join` panics. -/
theorem C30_join_panics (s t : Rel A V) (hs : s.Reachable) (ht : t.Reachable) (P Q : A → Prop) (hP : Uniform s P) (hQ : Uniform t Q)
    (hc : TripleClash P Q) (u : Tuple A V) (hu : IsJoined s t P Q u) : joinAll [s, t] = .error .wtf := by
  obtain ⟨x, y, hx, hy, hj⟩ := (isJoined_iff hP hQ u).1 hu
  have := (join_spec hs ht hP hQ (.inl ⟨y, hy⟩)).2 hc ⟨x, y, hx, hy, hj.agree⟩
  show [t].foldlM join s = _
  rw [List.foldlM_cons, this]; rfl

/-- C30. `Join` with an empty second relation returns the first, so it is not the natural join, which is empty. -/
theorem C30_join_empty_right (s t : Rel A V) (ht : t.Reachable) (he : ∀ y, ¬ t.Mem y) : joinAll [s, t] = .ok s := by
  show [t].foldlM join s = _
  rw [List.foldlM_cons, join_empty (.inr ((FSet.isEmpty_iff_mem ht.valid).2 he))]; rfl

/-! ### C32: `Nest` and `Unnest` -/

/-- A set of at most two elements is never part of the collision pattern. -/
theorem not_clash_two {P Q : A → Prop} (a b : A) (h : ∀ e, P e → GoKey.eq a e = true ∨ GoKey.eq b e = true) : ¬ TripleClash P Q := by
  rintro ⟨x, y, _, _, _, ⟨l, h1, h2, h3⟩, _⟩
  match l, h1, h2, h3 with
  | [p, q, r], _, h2, h3 =>
    have k := List.pairwise_cons.1 h2
    have k' := List.pairwise_cons.1 k.2
    have h12 := k.1 q (by simp)
    have h13 := k.1 r (by simp)
    have h23 := k'.1 r (by simp)
    have hno : ∀ x y : A, GoKey.eq x y = false → ∀ c : A, GoKey.eq c x = true → GoKey.eq c y = true → False := by
      intro x y hxy c e1 e2
      rw [PerGoKey.trans (PerGoKey.symm e1) e2] at hxy; cases hxy
    rcases h p (h3 p (by simp)).1 with g1 | g1 <;> rcases h q (h3 q (by simp)).1 with g2 | g2 <;> rcases h r (h3 r (by simp)).1 with g3 | g3
    · exact hno _ _ h12 a g1 g2
    · exact hno _ _ h12 a g1 g2
    · exact hno _ _ h13 a g1 g3
    · exact hno _ _ h23 b g2 g3
    · exact hno _ _ h23 a g2 g3
    · exact hno _ _ h13 b g1 g3
    · exact hno _ _ h12 b g1 g2
    · exact hno _ _ h12 b g1 g2

section
variable [NestVal A V] [LawfulNestVal A V]

/-- C32, general form, for any non-empty map of attribute sets: `Nest` has exactly the tuples `NestOf` describes. The attributes removed
from the tuples are those that are in all of the attribute sets. What is missing is the collision pattern, on which it panics. -/
theorem C32_nest_all_partial (s : Rel A V) (hs : s.Reachable) (attrAttrs : FMap A (SetVal A)) (ha : attrAttrs.Reachable)
    (hne : ∃ b as, attrAttrs.Gets b (some as))
    (hc : ∀ x, s.Mem x → ¬ TripleClash attrAttrs.HasKey (fun b => x.Has b ∧ ¬ NestKey attrAttrs b)) :
    ∃ r, nest s attrAttrs = .ok r ∧ r.Reachable ∧ (∀ u, r.Mem u ↔ ∃ x, s.Mem x ∧ NestOf s attrAttrs x u) ∧
      ∀ x, s.Mem x → ∃ u, NestOf s attrAttrs x u :=
  nest_spec hs.valid ha.valid hne hc

/-- C32. `Nest` with no new attributes panics. -/
theorem C32_nest_no_attributes (s : Rel A V) (attrAttrs : FMap A (SetVal A)) (ha : attrAttrs.Reachable)
    (hne : ∀ b, attrAttrs.Gets b none) : nest s attrAttrs = .error (.msg "must have at least one set to intersect") := by
  obtain ⟨vals, h1, h2, h3⟩ := FMap.values_spec ha.valid
  have hl : vals.tree.list = [] := by
    cases hl : vals.tree.list with
    | nil => rfl
    | cons v l =>
      obtain ⟨k, w, hk, _⟩ := (h3 v).1 (FSet.mem_of_list h2.valid (by rw [hl]; simp))
      rw [(FMap.gets_iff ha.valid _ _).1 (hne k)] at hk; cases hk
  unfold nest
  simp only [h1, FSet.elements_spec h2.valid, hl, bind, Except.bind]
  rfl

/-- `u` is the nested tuple of `x`: without the attributes `as`, and with the relation of the projections on `as` of all tuples of `s`
with the same remainder as `x` at the new attribute `a`. -/
def NestedFrom (s : Rel A V) (a : A) (as : SetVal A) (x u : Tuple A V) : Prop :=
  (∀ b, ¬ GoKey.eq a b = true → ¬ as.Mem b → SameVal (u.val b) (x.val b)) ∧
  (∀ b, ¬ GoKey.eq a b = true → as.Mem b → ¬ u.Has b) ∧
  ∃ R : SetVal (Tuple A V), SameVal (u.val a) (some (NestVal.relV R)) ∧
    ∀ p, R.Mem p ↔ ∃ y, s.Mem y ∧ SameOutside as.Mem y x ∧ IsRestriction p y as.Mem

theorem single_gets (a : A) (as : SetVal A) {aa : FMap A (SetVal A)} (h : newMap [⟨a, as⟩] = .ok aa) :
    (∀ b, GoKey.eq a b = true → aa.Gets b (some as)) ∧ ∀ b, ¬ GoKey.eq a b = true → aa.Gets b none := by
  have hr : aa.Reachable := ⟨.newMap [⟨a, as⟩], h⟩
  have hw : ∀ b, aa.tree.lk b = if GoKey.eq a b = true then some as else none := by
    intro b
    obtain ⟨m, h1, _, h3⟩ := buildMap_spec [⟨a, as⟩]
    have e : aa = m := by have := h1.symm.trans h; exact (Except.ok.inj this).symm
    rw [e, h3]
    by_cases hb : GoKey.eq a b = true <;> simp [hb, setKey]
  constructor
  · intro b hb
    rw [FMap.gets_iff hr.valid, hw, if_pos hb]
  · intro b hb
    rw [FMap.gets_iff hr.valid, hw, if_neg hb]

theorem gets_unique {W : Type} [Inhabited W] {m : FMap A W} {k : A} {o o' : Option W} (h : m.Gets k o) (h' : m.Gets k o') : o = o' := by
  unfold FMap.Gets at h h'
  rw [h] at h'; exact Except.ok.inj h'

theorem nestKey_single (a : A) (as : SetVal A) {aa : FMap A (SetVal A)} (h : newMap [⟨a, as⟩] = .ok aa) (c : A) :
    NestKey aa c ↔ as.Mem c := by
  obtain ⟨h1, h2⟩ := single_gets a as h
  constructor
  · intro hk; exact hk a as (h1 a (LawfulGoKey.refl a))
  · intro hc b as' hb
    by_cases hab : GoKey.eq a b = true
    · cases gets_unique hb (h1 b hab); exact hc
    · cases gets_unique hb (h2 b hab)

theorem nestOf_single {s : Rel A V} {a : A} {as : SetVal A} {aa : FMap A (SetVal A)} (h : newMap [⟨a, as⟩] = .ok aa)
    {x : Tuple A V} (hf : ¬ x.Has a) (u : Tuple A V) : NestOf s aa x u ↔ NestedFrom s a as x u := by
  obtain ⟨h1, h2⟩ := single_gets a as h
  have hK : NestKey aa = as.Mem := by funext c; exact propext (nestKey_single a as h c)
  have hfa : ∀ b, GoKey.eq a b = true → ¬ x.Has b := fun b hb hx => hf (by unfold Tuple.Has at hx ⊢; rw [Tuple.val_congr x hb]; exact hx)
  unfold NestOf
  rw [hK]
  constructor
  · intro hn
    refine ⟨fun b hab hb => ?_, fun b hab hb => ?_, ?_⟩
    · by_cases hx : x.Has b
      · exact (hn b).1 hx hb
      · have := ((hn b).2 (fun g => hx g.1)).1 (h2 b hab)
        rw [Tuple.not_has.1 hx, Tuple.not_has.1 this]; exact SameVal.refl _
    · exact ((hn b).2 (fun g => g.2 hb)).1 (h2 b hab)
    · exact ((hn a).2 (fun g => hf g.1)).2 as (h1 a (LawfulGoKey.refl a))
  · rintro ⟨k1, k2, R, k3, k4⟩ b
    by_cases hab : GoKey.eq a b = true
    · refine ⟨fun hx => absurd hx (hfa b hab), fun _ => ⟨fun g => ?_, fun as' g => ?_⟩⟩
      · cases gets_unique g (h1 b hab)
      · cases gets_unique g (h1 b hab)
        exact ⟨R, by rw [← Tuple.val_congr u hab]; exact k3, k4⟩
    · refine ⟨fun _ hb => k1 b hab hb, fun hn => ⟨fun _ hu => ?_, fun as' g => ?_⟩⟩
      · by_cases hb : as.Mem b
        · exact k2 b hab hb hu
        · have := k1 b hab hb
          exact hn ⟨this.isSome.1 hu, hb⟩
      · cases gets_unique g (h2 b hab)

/-- C32. Nesting the attributes `as` under a new name `a`: the result contains exactly the nested tuples of the tuples of `s`, and it has
one tuple for each remainder. -/
theorem C32_nest (s : Rel A V) (hs : s.Reachable) (a : A) (as : SetVal A) (hf : ∀ x, s.Mem x → ¬ x.Has a) :
    ∃ aa r, newMap [⟨a, as⟩] = .ok aa ∧ nest s aa = .ok r ∧ r.Reachable ∧ (∀ u, r.Mem u ↔ ∃ x, s.Mem x ∧ NestedFrom s a as x u) ∧
      (∀ x, s.Mem x → ∃ u, NestedFrom s a as x u) ∧
      ∀ u u', r.Mem u → r.Mem u' → (∀ b, ¬ GoKey.eq a b = true → SameVal (u.val b) (u'.val b)) → GoKey.eq u u' = true := by
  obtain ⟨aa, h, _, _⟩ := buildMap_spec [(⟨a, as⟩ : KeyValue A (SetVal A))]
  obtain ⟨h1, h2⟩ := single_gets a as h
  have hr : aa.Reachable := ⟨.newMap [⟨a, as⟩], h⟩
  obtain ⟨r, r1, r2, r3, r5⟩ := C32_nest_all_partial s hs aa hr ⟨a, as, h1 a (LawfulGoKey.refl a)⟩ (fun x _ =>
    not_clash_two a a (fun e he => by
      by_cases hab : GoKey.eq a e = true
      · exact .inl hab
      · rw [FMap.hasKey_iff hr.valid, (FMap.gets_iff hr.valid e none).1 (h2 e hab)] at he; cases he))
  have r4 : ∀ u, r.Mem u ↔ ∃ x, s.Mem x ∧ NestedFrom s a as x u := by
    intro u
    rw [r3]
    constructor
    · rintro ⟨x, hx, hn⟩; exact ⟨x, hx, (nestOf_single h (hf x hx) u).1 hn⟩
    · rintro ⟨x, hx, hn⟩; exact ⟨x, hx, (nestOf_single h (hf x hx) u).2 hn⟩
  refine ⟨aa, r, h, r1, r2, r4, fun x hx => ?_, fun u u' hu hu' hsame => ?_⟩
  · obtain ⟨u, hu⟩ := r5 x hx
    exact ⟨u, (nestOf_single h (hf x hx) u).1 hu⟩
  obtain ⟨x, hx, n1, n2, R, n3, n4⟩ := (r4 u).1 hu
  obtain ⟨x', hx', n1', n2', R', n3', n4'⟩ := (r4 u').1 hu'
  have hxx : SameOutside as.Mem x x' := by
    intro c hc
    by_cases hac : GoKey.eq a c = true
    · have e : ∀ z : Tuple A V, s.Mem z → z.val c = none := fun z hz => by
        rw [← Tuple.val_congr z hac]; exact Tuple.not_has.1 (hf z hz)
      rw [e x hx, e x' hx']; exact SameVal.refl _
    · exact (n1 c hac hc).symm.trans ((hsame c hac).trans (n1' c hac hc))
  refine SameTuple.eq (fun b => ?_)
  by_cases hab : GoKey.eq a b = true
  · rw [← Tuple.val_congr u hab, ← Tuple.val_congr u' hab]
    have : SameVal (some (NestVal.relV R)) (some (NestVal.relV R')) := by
      show GoKey.eq _ _ = true
      rw [LawfulNestVal.relV_eq, SetVal.eq_iff]
      intro p
      rw [n4, n4']
      constructor
      · rintro ⟨y, hy, hs, hr⟩; exact ⟨y, hy, fun c hc => (hs c hc).trans (hxx c hc), hr⟩
      · rintro ⟨y, hy, hs, hr⟩; exact ⟨y, hy, fun c hc => (hs c hc).trans (hxx c hc).symm, hr⟩
    exact n3.trans (this.trans n3'.symm)
  · exact hsame b hab

/-- C32, the provable part for `Unnest` on its own: every tuple that has the attribute has a non-empty uniform relation there, and the
attributes do not have the collision pattern; then the result contains exactly the tuples without the attribute, and the joins of the rest
of a tuple with the tuples of its nested relation. What is missing is the collision pattern and empty nested relations. -/
theorem C32_unnest_partial (s : Rel A V) (hs : s.Reachable) (attr : A) (h : ∀ t, s.Mem t → Unnestable attr t) :
    ∃ r, unnest s attr = .ok r ∧ r.Reachable ∧ ∀ u, r.Mem u ↔ ∃ t, s.Mem t ∧ UnnestOf attr t u := unnest_spec hs.valid attr h

/-- C32. `Unnest` panics when a tuple has a value under the attribute that is not a relation. -/
theorem C32_unnest_other_values (s : Rel A V) (hs : s.Reachable) (attr : A) (t : Tuple A V) (ht : s.Mem t) (v : V)
    (hv : t.val attr = some v) (hn : NestVal.asRel (A := A) v = none) : ∃ e, unnest s attr = .error e :=
  unnest_other hs.valid attr t ht v hv hn

/-- C32, the provable part: `Unnest` reverses `Nest` on a uniform relation. What is missing is the collision pattern between the nested
and the other attributes. -/
theorem C32_unnest_nest_partial (s : Rel A V) (hs : s.Reachable) (P : A → Prop) (hP : Uniform s P) (a : A) (hf : ¬ P a)
    (as : SetVal A) (hsub : ∀ b, as.Mem b → P b) (hc : ¬ TripleClash as.Mem (fun b => P b ∧ ¬ as.Mem b)) :
    ∃ aa r s', newMap [⟨a, as⟩] = .ok aa ∧ nest s aa = .ok r ∧ unnest r a = .ok s' ∧ s'.equal s = .ok true := by
  have hfa : ∀ x, s.Mem x → ¬ x.Has a := fun x hx h => hf ((hP x hx a).1 h)
  have hasx : ∀ x, s.Mem x → ∀ b, as.Mem b → ¬ GoKey.eq a b = true := by
    intro x hx b hb hab
    have := (hP x hx b).2 (hsub b hb)
    unfold Tuple.Has at this
    rw [← Tuple.val_congr x hab] at this
    exact hfa x hx this
  obtain ⟨aa, r, h1, h2, h3, h4, h5, _⟩ := C32_nest s hs a as hfa
  have hnest : ∀ t, r.Mem t → ∃ x, s.Mem x ∧ NestedFrom s a as x t := fun t ht => (h4 t).1 ht
  have hrel : ∀ t x, s.Mem x → NestedFrom s a as x t → ∃ (v : V) (R : SetVal (Tuple A V)), t.val a = some v ∧ NestVal.asRel v = some R ∧
      ∀ p, R.Mem p ↔ ∃ y, s.Mem y ∧ SameOutside as.Mem y x ∧ IsRestriction p y as.Mem := by
    rintro t x hx ⟨_, _, R, n3, n4⟩
    cases hv : t.val a with
    | none => rw [hv] at n3; cases n3
    | some v =>
      rw [hv] at n3
      have c1 := (LawfulNestVal.asRel_congr (A := A) v _ n3).trans (LawfulNestVal.asRel_relV R)
      cases hR : NestVal.asRel (A := A) v with
      | none => rw [hR] at c1; cases c1
      | some R' =>
        rw [hR] at c1
        exact ⟨v, R', rfl, hR, fun p => (SetVal.mem_of_eq c1 p).trans (n4 p)⟩
  have hrest : ∀ y : Tuple A V, ∃ p, IsRestriction p y as.Mem := by
    intro y
    obtain ⟨p, _, h⟩ := Tuple.project_spec y as.1.tree.list
    refine ⟨p, (isRestriction_iff (P := as.Mem) (fun a => ?_) h).1 (fun _ => SameVal.refl _)⟩
    show _ ↔ as.1.Mem a
    rw [FSet.mem_iff_list as.2.valid, List.any_eq_true]
  have hthas : ∀ t x, s.Mem x → NestedFrom s a as x t → ∀ b, ¬ GoKey.eq a b = true → (t.Has b ↔ P b ∧ ¬ as.Mem b) := by
    rintro t x hx ⟨n1, n2, _⟩ b hab
    by_cases hb : as.Mem b
    · exact ⟨fun g => absurd g (n2 b hab hb), fun g => absurd hb g.2⟩
    · have := (n1 b hab hb).isSome
      exact ⟨fun g => ⟨(hP x hx b).1 (this.1 g), hb⟩, fun g => this.2 ((hP x hx b).2 g.1)⟩
  obtain ⟨s', u1, u2, u3⟩ := C32_unnest_partial r h3 a (by
    intro t ht v hv
    obtain ⟨x, hx, hn⟩ := hnest t ht
    obtain ⟨v', R, e1, e2, e3⟩ := hrel t x hx hn
    rw [hv] at e1; cases e1
    refine ⟨R, as.Mem, e2, ?_, ?_, ?_⟩
    · obtain ⟨p, hp⟩ := hrest x
      exact ⟨p, (e3 p).2 ⟨x, hx, fun _ _ => SameVal.refl _, hp⟩⟩
    · intro p hp b
      obtain ⟨y, hy, _, hr⟩ := (e3 p).1 hp
      by_cases hb : as.Mem b
      · exact ⟨fun _ => hb, fun _ => ((hr b).1 hb).isSome.2 ((hP y hy b).2 (hsub b hb))⟩
      · exact ⟨fun g => absurd g (Tuple.not_has.2 ((hr b).2 hb)), fun g => absurd g hb⟩
    · intro hcl
      refine hc ((TripleClash.congr (fun _ => Iff.rfl) (fun b => ?_)).1 hcl)
      constructor
      · rintro ⟨g1, g2⟩; exact (hthas t x hx hn b g2).1 g1
      · intro g
        have hab : ¬ GoKey.eq a b = true := by
          intro hab
          have := (hP x hx b).2 g.1
          unfold Tuple.Has at this
          rw [← Tuple.val_congr x hab] at this
          exact hfa x hx this
        exact ⟨(hthas t x hx hn b hab).2 g, hab⟩)
  refine ⟨aa, r, s', h1, h2, u1, ?_⟩
  obtain ⟨b, q1, q2⟩ := FSet.equal_spec u2.valid hs.valid
  rw [q1]
  congr 1
  rw [q2]
  -- a result tuple is a tuple of `s`
  have hback : ∀ t x y u key p, s.Mem x → s.Mem y → NestedFrom s a as x t → SameOutside as.Mem y x →
      IsRestriction key t (fun b => ¬ GoKey.eq a b = true) → IsRestriction p y as.Mem → JoinOf key p u → SameTuple y u := by
    rintro t x y u key p hx hy ⟨n1, n2, _⟩ hyx hk hp hj b
    obtain ⟨j1, j2, j3⟩ := hj b
    by_cases hb : as.Mem b
    · have hpy := (hp b).1 hb
      have hyb := (hP y hy b).2 (hsub b hb)
      exact hpy.symm.trans (j2 (hpy.isSome.2 hyb)).symm
    · have hpn : ¬ p.Has b := Tuple.not_has.2 ((hp b).2 hb)
      by_cases hab : GoKey.eq a b = true
      · have hkn : ¬ key.Has b := Tuple.not_has.2 ((hk b).2 (fun g => g hab))
        have hyn : ¬ y.Has b := by
          intro g; unfold Tuple.Has at g
          rw [← Tuple.val_congr y hab] at g; exact hfa y hy g
        rw [Tuple.not_has.1 hyn, Tuple.not_has.1 (j3 hkn hpn)]; exact SameVal.refl _
      · have e : SameVal (y.val b) (key.val b) := (hyx b hb).trans ((n1 b hab hb).symm.trans ((hk b).1 hab).symm)
        by_cases hkb : key.Has b
        · exact e.trans (j1 hkb).symm
        · have hyn : ¬ y.Has b := fun g => hkb (e.isSome.1 g)
          rw [Tuple.not_has.1 hyn, Tuple.not_has.1 (j3 hkb hpn)]; exact SameVal.refl _
  intro u
  rw [u3]
  constructor
  · rintro ⟨t, ht, key, hk, hcase⟩
    obtain ⟨x, hx, hn⟩ := hnest t ht
    obtain ⟨v, R, e1, e2, e3⟩ := hrel t x hx hn
    rcases hcase with ⟨g1, _⟩ | ⟨v', R', p, g1, g2, g3, g4⟩
    · exact absurd (by unfold Tuple.Has; rw [e1]; rfl) g1
    · rw [e1] at g1; cases g1
      rw [e2] at g2; cases g2
      obtain ⟨y, hy, hyx, hp⟩ := (e3 p).1 g3
      exact (FSet.mem_congr hs.valid (SameTuple.eq (hback t x y u key p hx hy hn hyx hk hp g4))).1 hy
  · intro hu
    -- the nested tuple of u
    obtain ⟨p, hp⟩ := hrest u
    obtain ⟨t, ht, hn⟩ : ∃ t, r.Mem t ∧ NestedFrom s a as u t := by
      obtain ⟨proj, hproj⟩ := h5 u hu
      exact ⟨proj, (h4 proj).2 ⟨u, hu, hproj⟩, hproj⟩
    obtain ⟨v, R, e1, e2, e3⟩ := hrel t u hu hn
    obtain ⟨key, _, hk⟩ := Tuple.without_spec t a
    have hkr : IsRestriction key t (fun b => ¬ GoKey.eq a b = true) := by
      intro b
      rw [hk]
      constructor
      · intro hb; rw [if_neg hb]; exact SameVal.refl _
      · intro hb; rw [if_pos (Classical.not_not.1 hb)]
    refine ⟨t, ht, key, hkr, .inr ⟨v, R, p, e1, e2, (e3 p).2 ⟨u, hu, fun _ _ => SameVal.refl _, hp⟩, ?_⟩⟩
    obtain ⟨n1, n2, _⟩ := hn
    intro b
    refine ⟨fun g => ?_, fun g => ?_, fun g1 g2 g3 => ?_⟩
    · by_cases hab : GoKey.eq a b = true
      · exact absurd g (Tuple.not_has.2 ((hkr b).2 (fun k => k hab)))
      · have ht : t.Has b := ((hkr b).1 hab).isSome.1 g
        have hb : ¬ as.Mem b := fun hb => n2 b hab hb ht
        exact (n1 b hab hb).symm.trans ((hkr b).1 hab).symm
    · by_cases hb : as.Mem b
      · exact ((hp b).1 hb).symm
      · exact absurd g (Tuple.not_has.2 ((hp b).2 hb))
    · by_cases hb : as.Mem b
      · exact g2 (((hp b).1 hb).isSome.2 g3)
      · by_cases hab : GoKey.eq a b = true
        · unfold Tuple.Has at g3
          rw [← Tuple.val_congr u hab] at g3; exact hfa u hu g3
        · exact g1 (((hkr b).1 hab).isSome.2 ((n1 b hab hb).isSome.2 g3))

end

end

/-! ### Witnesses: attributes that all collide, and values that are numbers or relations -/

/-- Values of attributes: numbers, and relations given by a code. -/
inductive NV where
  | atom (n : Nat)
  | rel (code : Nat)
deriving DecidableEq

instance : Inhabited NV := ⟨.atom 0⟩

instance : GoKey NV where
  eq a b := decide (a = b)
  hash _ _ := 3#64

instance : LawfulGoKey NV where
  refl a := by simp [GoKey.eq]
  symm h := by simpa [GoKey.eq, Eq.comm] using h
  trans h g := by simp only [GoKey.eq, decide_eq_true_eq] at *; exact h.trans g
  hash_congr _ _ _ _ := rfl

theorem NV.sameVal {a b : Option NV} : SameVal a b ↔ a = b := by
  cases a <;> cases b <;> simp [SameVal, GoKey.eq]

theorem Coll.eq_iff {a b : Coll} : GoKey.eq a b = true ↔ a = b := by simp [GoKey.eq]

instance : Countable NV := by
  refine Function.Injective.countable (f := fun v : NV => match v with | .atom n => (Sum.inl n : Nat ⊕ Nat) | .rel n => .inr n) ?_
  intro a b h
  cases a <;> cases b <;> simp_all

instance : Countable Coll := Function.Injective.countable (f := fun c : Coll => c.n) (fun a b h => by cases a; cases b; simp_all)

section
open Classical

/-- The entries of a tuple. -/
noncomputable def tuplePairs (t : Tuple Coll NV) : Finset (Coll × NV) := (t.1.tree.list.map (fun e => (e.key, e.value))).toFinset

theorem mem_tuplePairs (t : Tuple Coll NV) (a : Coll) (v : NV) : (a, v) ∈ tuplePairs t ↔ t.val a = some v := by
  rw [Tuple.val_lk, Tree.lk_some t.2.valid]
  unfold tuplePairs
  rw [List.mem_toFinset, List.mem_map]
  constructor
  · rintro ⟨e, he, h⟩
    cases h
    exact ⟨e, he, LawfulGoKey.refl _, rfl⟩
  · rintro ⟨e, he, h1, h2⟩
    rw [Coll.eq_iff] at h1
    exact ⟨e, he, by rw [h1, h2]⟩

variable [GoHash]

theorem tuplePairs_eq (t u : Tuple Coll NV) : GoKey.eq t u = true ↔ tuplePairs t = tuplePairs u := by
  rw [Tuple.eq_iff]
  constructor
  · intro h
    ext ⟨a, v⟩
    rw [mem_tuplePairs, mem_tuplePairs, NV.sameVal.1 (h a)]
  · intro h a
    rw [NV.sameVal]
    ext v
    rw [← mem_tuplePairs, ← mem_tuplePairs, h]

/-- The tuples of a relation. -/
noncomputable def relPairs (r : SetVal (Tuple Coll NV)) : Finset (Finset (Coll × NV)) := (r.1.tree.list.map tuplePairs).toFinset

theorem relPairs_eq (r r' : SetVal (Tuple Coll NV)) : GoKey.eq r r' = true ↔ relPairs r = relPairs r' := by
  have one : ∀ r r' : SetVal (Tuple Coll NV), (∀ w, r.Mem w → r'.Mem w) → relPairs r ⊆ relPairs r' := by
    intro r r' h p hp
    unfold relPairs at hp ⊢
    rw [List.mem_toFinset, List.mem_map] at hp ⊢
    obtain ⟨t, ht, rfl⟩ := hp
    obtain ⟨e, he, het⟩ := (FSet.mem_iff_list r'.2.valid t).1 (h t (FSet.mem_of_list r.2.valid ht))
    exact ⟨e, he, (tuplePairs_eq e t).1 het⟩
  have two : ∀ r r' : SetVal (Tuple Coll NV), relPairs r = relPairs r' → ∀ w, r.Mem w → r'.Mem w := by
    intro r r' h w hw
    obtain ⟨e, he, hew⟩ := (FSet.mem_iff_list r.2.valid w).1 hw
    have : tuplePairs e ∈ relPairs r' := by
      rw [← h]; unfold relPairs
      rw [List.mem_toFinset, List.mem_map]
      exact ⟨e, he, rfl⟩
    unfold relPairs at this
    rw [List.mem_toFinset, List.mem_map] at this
    obtain ⟨e', he', h'⟩ := this
    exact (FSet.mem_iff_list r'.2.valid w).2 ⟨e', he', PerGoKey.trans ((tuplePairs_eq e' e).2 h') hew⟩
  rw [SetVal.eq_iff]
  constructor
  · intro h
    exact Finset.Subset.antisymm (one r r' (fun w => (h w).1)) (one r' r (fun w => (h w).2))
  · intro h w
    exact ⟨two r r' h w, two r' r h.symm w⟩

/-- A number for each relation. -/
noncomputable def relCode (r : SetVal (Tuple Coll NV)) : Nat :=
  (exists_injective_nat (Finset (Finset (Coll × NV)))).choose (relPairs r)

theorem relCode_eq (r r' : SetVal (Tuple Coll NV)) : GoKey.eq r r' = true ↔ relCode r = relCode r' := by
  rw [relPairs_eq]
  exact (exists_injective_nat (Finset (Finset (Coll × NV)))).choose_spec.eq_iff.symm

noncomputable instance instNestValNV : NestVal Coll NV where
  relV r := .rel (relCode r)
  asRel v := if h : ∃ r, NV.rel (relCode r) = v then some h.choose else none

instance : LawfulNestVal Coll NV where
  relV_eq r r' := by
    rw [Bool.eq_iff_iff, relCode_eq]
    simp [GoKey.eq, NestVal.relV]
  asRel_relV r := by
    have h : ∃ r', NV.rel (relCode r') = NV.rel (relCode r) := ⟨r, rfl⟩
    show SameVal (dite (∃ r', NV.rel (relCode r') = NV.rel (relCode r)) (fun h => some h.choose) (fun _ => none)) (some r)
    rw [dif_pos h]
    show GoKey.eq _ _ = true
    rw [relCode_eq]
    exact NV.rel.inj h.choose_spec
  asRel_congr v w h := by
    have : v = w := of_decide_eq_true h
    rw [this]; exact SameVal.refl _

end

/-- A relation with two attributes, whose hashes collide, and three rows. -/
theorem example_rel {V : Type} [Inhabited V] [GoKey V] [LawfulGoKey V] [GoHash] (v : Nat → V) :
    ∃ s : Rel Coll V, s.Reachable ∧ (∃ x, s.Mem x) ∧ Uniform s (fun a => a = ⟨1⟩ ∨ a = ⟨2⟩) := by
  have hl : ∀ row ∈ [[v 1, v 10], [v 1, v 11], [v 2, v 13]], row.length = [(⟨1⟩ : Coll), ⟨2⟩].length := by simp
  obtain ⟨r, h1, h2, h3⟩ := C31_new [(⟨1⟩ : Coll), ⟨2⟩] [[v 1, v 10], [v 1, v 11], [v 2, v 13]] hl
  obtain ⟨r', g1, g2⟩ := C31_new_uniform [(⟨1⟩ : Coll), ⟨2⟩] [[v 1, v 10], [v 1, v 11], [v 2, v 13]] hl
  rw [h1] at g1; cases g1
  obtain ⟨t, _, t2⟩ := rowTuple_spec [(⟨1⟩ : Coll), ⟨2⟩] [v 1, v 10]
  refine ⟨r, h2, ⟨t, (h3 t).2 ⟨[v 1, v 10], by simp, fun a => by rw [t2]; exact SameVal.refl _⟩⟩, fun t ht a => ?_⟩
  rw [g2 t ht a]
  simp only [Coll.eq_iff, List.mem_cons, List.not_mem_nil, or_false, exists_eq_or_imp, exists_eq_left]
  exact or_congr _root_.eq_comm _root_.eq_comm

/-- The hypotheses of `C30_join_partial` (with a relation joined to itself) and of `C32_unnest_nest_partial` can be met. -/
example [GoHash] : ∃ (s : Rel Coll NV) (P : Coll → Prop) (a : Coll) (as : SetVal Coll), s.Reachable ∧ (∃ x, s.Mem x) ∧ Uniform s P ∧
    ¬ TripleClash P P ∧ ¬ P a ∧ (∃ b, as.Mem b) ∧ (∀ b, as.Mem b → P b) ∧ ¬ TripleClash as.Mem (fun b => P b ∧ ¬ as.Mem b) := by
  obtain ⟨s, h1, h2, h3⟩ := example_rel (fun n => NV.atom n)
  obtain ⟨q, q1, q2, _, q4⟩ := buildSet_spec [(⟨2⟩ : Coll)]
  have hm : ∀ b, q.Mem b ↔ b = ⟨2⟩ := by intro b; rw [q4]; simp [Coll.eq_iff, eq_comm]
  refine ⟨s, _, ⟨3⟩, ⟨q, ⟨.newSet [⟨2⟩], q1⟩⟩, h1, h2, h3, ?_, by simp, ⟨⟨2⟩, (hm _).2 rfl⟩, ?_, ?_⟩
  · exact not_clash_two ⟨1⟩ ⟨2⟩ (fun e he => by simpa [Coll.eq_iff, eq_comm] using he)
  · intro b hb; exact .inr ((hm b).1 hb)
  · exact not_clash_two ⟨2⟩ ⟨2⟩ (fun e he => .inl (by rw [Coll.eq_iff]; exact ((hm e).1 he).symm))

/-- Tuples whose second attribute is no relation. -/
example [GoHash] : ∃ (s : Rel Coll NV) (t : Tuple Coll NV) (v : NV), s.Reachable ∧ s.Mem t ∧ t.val ⟨2⟩ = some v ∧
    NestVal.asRel (A := Coll) v = none := by
  have hl : ∀ row ∈ [[NV.atom 1, NV.atom 10], [NV.atom 2, NV.atom 13]], row.length = [(⟨1⟩ : Coll), ⟨2⟩].length := by simp
  obtain ⟨r, h1, h2, h3⟩ := C31_new [(⟨1⟩ : Coll), ⟨2⟩] _ hl
  obtain ⟨t, _, t2⟩ := rowTuple_spec [(⟨1⟩ : Coll), ⟨2⟩] [NV.atom 1, NV.atom 10]
  refine ⟨r, t, .atom 10, h2, (h3 t).2 ⟨_, List.mem_cons_self, fun a => by rw [t2]; exact SameVal.refl _⟩, (t2 _).trans ?_,
    dif_neg (by rintro ⟨_, h⟩; cases h)⟩
  decide

section
local instance relGoHash : GoHash := ⟨fun x _ => x⟩

/-- Joining on one of two attributes. -/
example : okAnd (relNew [(⟨1⟩ : Coll), ⟨2⟩] [[(⟨1⟩ : Mod100), ⟨10⟩], [⟨2⟩, ⟨20⟩], [⟨3⟩, ⟨10⟩]]) (fun s =>
    okAnd (relNew [(⟨2⟩ : Coll), ⟨3⟩] [[(⟨110⟩ : Mod100), ⟨7⟩], [⟨10⟩, ⟨8⟩], [⟨30⟩, ⟨9⟩]]) (fun t =>
      okAnd (joinAll [s, t]) (fun r => decide (r.count = 4)))) = true := by decide +kernel

/-- Two relations without common attributes. -/
example : okAnd (relNew [(⟨1⟩ : Coll)] [[(⟨1⟩ : Mod100)], [⟨2⟩]]) (fun s =>
    okAnd (relNew [(⟨2⟩ : Coll)] [[(⟨1⟩ : Mod100)], [⟨2⟩], [⟨3⟩]]) (fun t =>
      okAnd (cartesianProduct [s, t]) (fun r => decide (r.count = 6)) && okAnd (joinAll [s, t]) (fun r => decide (r.count = 6)))) = true := by
  decide +kernel

/-- C30. The full claim is false: the join with an empty relation is not empty. -/
theorem C30_join_refuted : ¬ ∀ (s t : Rel Coll Mod100) (P Q : Coll → Prop), s.Reachable → t.Reachable → Uniform s P → Uniform t Q →
    ¬ TripleClash P Q → ∃ r, joinAll [s, t] = .ok r ∧ ∀ u, r.Mem u ↔ IsJoined s t P Q u := by
  intro hall
  obtain ⟨s, h1, ⟨x, hx⟩, h3⟩ := example_rel (fun n => (⟨n⟩ : Mod100))
  have hz : ∀ y, ¬ (FSet.zero : Rel Coll Mod100).Mem y := by intro y; unfold FSet.Mem; intro h; cases h
  have hzr : (FSet.zero : Rel Coll Mod100).Reachable := ⟨.newSet [], rfl⟩
  obtain ⟨r, r1, r2⟩ := hall s FSet.zero _ (fun _ => True) h1 hzr h3 (fun y hy => absurd hy (hz y))
    (not_clash_two ⟨1⟩ ⟨2⟩ (fun e he => by simpa [Coll.eq_iff, eq_comm] using he))
  rw [C30_join_empty_right s FSet.zero hzr hz] at r1
  cases r1
  obtain ⟨_, _, y, hy, _⟩ := (r2 x).1 hx
  exact hz y hy

/-- C30. The other exception: a relation with three attributes whose hashes collide cannot be joined with itself. -/
theorem C30_join_clash_refuted : ∃ s : Rel Coll Mod100, s.Reachable ∧ (∃ P, Uniform s P) ∧ s.count = 1 ∧ joinAll [s, s] = .error .wtf := by
  obtain ⟨s, h1, h2⟩ := of_okAnd (r := relNew [(⟨1⟩ : Coll), ⟨2⟩, ⟨3⟩] [[(⟨1⟩ : Mod100), ⟨2⟩, ⟨3⟩]])
    (test := fun s => decide (s.count = 1) && (match joinAll [s, s] with | .error .wtf => true | _ => false)) (by decide +kernel)
  rw [Bool.and_eq_true] at h2
  obtain ⟨s', g1, g2, _⟩ := C31_new [(⟨1⟩ : Coll), ⟨2⟩, ⟨3⟩] [[(⟨1⟩ : Mod100), ⟨2⟩, ⟨3⟩]] (by simp)
  obtain ⟨s'', k1, k2⟩ := C31_new_uniform [(⟨1⟩ : Coll), ⟨2⟩, ⟨3⟩] [[(⟨1⟩ : Mod100), ⟨2⟩, ⟨3⟩]] (by simp)
  rw [h1] at g1 k1
  cases g1; cases k1
  refine ⟨s, g2, ⟨_, k2⟩, of_decide_eq_true h2.1, ?_⟩
  have := h2.2
  split at this
  · assumption
  · cases this

/-- Projecting four tuples on one attribute leaves two. -/
example : okAnd (relNew [(⟨1⟩ : Coll), ⟨2⟩] [[(⟨1⟩ : Mod100), ⟨10⟩], [⟨1⟩, ⟨20⟩], [⟨2⟩, ⟨30⟩], [⟨102⟩, ⟨40⟩]]) (fun s =>
    decide (s.count = 4) && okAnd (relProject s [⟨1⟩]) (fun r => decide (r.count = 2))) = true := by decide +kernel

end

end Frozen
