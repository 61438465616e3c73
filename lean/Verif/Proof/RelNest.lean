import Verif.Proof.Rel

/-! # Lemmas on relations: n-ary joins, `Project`, `New`, `Nest`, `Unnest` -/

set_option linter.unusedSectionVars false

namespace Frozen

variable {A V : Type} [GoKey A] [LawfulGoKey A] [Inhabited V] [GoKey V] [LawfulGoKey V] [GoHash]

theorem SameTuple.eq {x u : Tuple A V} (h : SameTuple x u) : GoKey.eq x u = true := (Tuple.eq_iff x u).2 h

theorem SameTuple.of_eq {x u : Tuple A V} (h : GoKey.eq x u = true) : SameTuple x u := (Tuple.eq_iff x u).1 h

/-! ### n-ary joins -/

theorem joinOf_exists {x y : Tuple A V} {P Q : A → Prop} (hx : ∀ a, x.Has a ↔ P a) (hy : ∀ a, y.Has a ↔ Q a)
    (hc : ¬ TripleClash P Q) (h : Agree x y) : ∃ z, JoinOf x y z := by
  obtain ⟨z, _, h2⟩ := Tuple.update_spec x y (fun g => hc ((TripleClash.congr hx hy).1 g))
  exact ⟨z, (joinOf_iff h z).2 (fun a => by rw [h2]; exact SameVal.refl _)⟩

theorem joinOfAll_step {x y z : Tuple A V} (h : JoinOf x y z) (xs : List (Tuple A V)) (u : Tuple A V) :
    JoinOfAll (z :: xs) u ↔ JoinOfAll (x :: y :: xs) u := by
  constructor
  · intro hj a
    obtain ⟨h1, h2⟩ := hj a
    obtain ⟨g1, g2, g3⟩ := h a
    refine ⟨fun w hw hh => ?_, fun hn => h2 (fun w hw => ?_)⟩
    · rcases List.mem_cons.1 hw with rfl | hw
      · exact (h1 z (by simp) ((h.has a).2 (.inl hh))).trans (g1 hh)
      · rcases List.mem_cons.1 hw with rfl | hw
        · exact (h1 z (by simp) ((h.has a).2 (.inr hh))).trans (g2 hh)
        · exact h1 w (by simp [hw]) hh
    · rcases List.mem_cons.1 hw with rfl | hw
      · exact g3 (hn x (by simp)) (hn y (by simp))
      · exact hn w (by simp [hw])
  · intro hj a
    obtain ⟨h1, h2⟩ := hj a
    obtain ⟨g1, g2, g3⟩ := h a
    refine ⟨fun w hw hh => ?_, fun hn => h2 (fun w hw => ?_)⟩
    · rcases List.mem_cons.1 hw with rfl | hw
      · rcases (h.has a).1 hh with hx | hy
        · exact (h1 x (by simp) hx).trans (g1 hx).symm
        · exact (h1 y (by simp) hy).trans (g2 hy).symm
      · exact h1 w (by simp [hw]) hh
    · have hz := hn z (by simp)
      rw [h.has a] at hz
      rcases List.mem_cons.1 hw with rfl | hw
      · exact fun k => hz (.inl k)
      · rcases List.mem_cons.1 hw with rfl | hw
        · exact fun k => hz (.inr k)
        · exact hn w (by simp [hw])

theorem JoinOfAll.agree {x y : Tuple A V} {xs : List (Tuple A V)} {u : Tuple A V} (h : JoinOfAll (x :: y :: xs) u) : Agree x y :=
  fun a hx hy => ((h a).1 x (by simp) hx).symm.trans ((h a).1 y (by simp) hy)

theorem joinFold_spec : ∀ (ts : List (Rel A V)) (Qs : List (A → Prop)) (s : Rel A V) (P : A → Prop),
    s.Reachable → (∀ t ∈ ts, t.Reachable) → Uniform s P → List.Forall₂ Uniform ts Qs → HeadersOk P Qs →
    (∀ t ∈ ts, ∃ y, t.Mem y) →
    ∃ r, ts.foldlM join s = .ok r ∧ r.Reachable ∧
      ∀ u, r.Mem u ↔ ∃ x xs, s.Mem x ∧ List.Forall₂ (fun (r : Rel A V) x => r.Mem x) ts xs ∧ JoinOfAll (x :: xs) u
  | [], Qs, s, P, hs, _, _, _, _, _ => by
    refine ⟨s, rfl, hs, fun u => ?_⟩
    constructor
    · intro hu
      refine ⟨u, [], hu, .nil, fun a => ⟨fun x hx _ => ?_, fun h => h u (by simp)⟩⟩
      rw [List.mem_singleton] at hx
      subst hx
      exact SameVal.refl _
    · rintro ⟨x, xs, hx, hxs, hj⟩
      cases hxs
      refine (FSet.mem_congr hs.valid ((Tuple.eq_iff x u).2 (fun a => ?_))).1 hx
      obtain ⟨h1, h2⟩ := hj a
      by_cases hh : x.Has a
      · exact (h1 x (by simp) hh).symm
      · have hu : ¬ u.Has a := h2 (fun w hw => by rw [List.mem_singleton] at hw; subst hw; exact hh)
        rw [Tuple.not_has.1 hh, Tuple.not_has.1 hu]
        exact SameVal.refl _
  | t :: ts, Qs, s, P, hs, ht, hP, hQ, hc, hne => by
    cases hQ with
    | @cons _ Q _ Qs hQ hQs =>
      obtain ⟨c1, c2⟩ := hc
      obtain ⟨r1, g1, g2, g3⟩ := (join_spec hs (ht t (by simp)) hP hQ (.inl (hne t (by simp)))).1 c1
      have hu : Uniform r1 (fun a => P a ∨ Q a) := by
        intro z hz a
        obtain ⟨x, y, hx, hy, hj⟩ := (g3 z).1 hz
        rw [hj.has a, hP x hx, hQ y hy]
      obtain ⟨r, k1, k2, k3⟩ := joinFold_spec ts Qs r1 _ g2 (fun t h => ht t (by simp [h])) hu hQs c2 (fun t h => hne t (by simp [h]))
      refine ⟨r, by rw [List.foldlM_cons, g1]; exact k1, k2, fun u => ?_⟩
      rw [k3]
      constructor
      · rintro ⟨z, xs, hz, hxs, hj⟩
        obtain ⟨x, y, hx, hy, hjz⟩ := (g3 z).1 hz
        exact ⟨x, y :: xs, hx, .cons hy hxs, (joinOfAll_step hjz xs u).1 hj⟩
      · rintro ⟨x, xs, hx, hxs, hj⟩
        cases hxs with
        | @cons _ y _ xs hy hxs =>
          obtain ⟨z, hz⟩ := joinOf_exists (hP x hx) (hQ y hy) c1 hj.agree
          exact ⟨z, xs, (g3 z).2 ⟨x, y, hx, hy, hz⟩, hxs, (joinOfAll_step hz xs u).2 hj⟩

/-! ### Project -/

theorem isRestriction_iff {x u : Tuple A V} {cs : List A} {P : A → Prop} (hP : ∀ a, cs.any (fun c => GoKey.eq c a) = true ↔ P a)
    {x' : Tuple A V} (hx : ∀ b, x'.val b = if cs.any (fun c => GoKey.eq c b) = true then x.val b else none) :
    SameTuple u x' ↔ IsRestriction u x P := by
  unfold SameTuple IsRestriction
  apply forall_congr'
  intro a
  rw [hx]
  by_cases hc : cs.any (fun c => GoKey.eq c a) = true
  · simp only [hc, if_true, (hP a).1 hc, true_implies, not_true_eq_false, false_implies, and_true]
  · have hn : ¬ P a := fun h => hc ((hP a).2 h)
    simp only [hc, hn, false_implies, true_and, not_false_eq_true, true_implies]
    exact SameVal.none_iff

theorem relProject_spec {s : Rel A V} (hs : s.Valid) (attrs : List A) {P : A → Prop}
    (hP : ∀ a, attrs.any (fun c => GoKey.eq c a) = true ↔ P a) : ∃ r, relProject s attrs = .ok r ∧ r.Reachable ∧
    ∀ u, r.Mem u ↔ ∃ x, s.Mem x ∧ IsRestriction u x P := by
  choose kf k1 k2 using fun t : Tuple A V => Tuple.project_spec t attrs
  obtain ⟨r, h1, h2, _, h4⟩ := buildSet_spec (s.tree.list.map kf)
  refine ⟨r, ?_, reachable_newSet h1, fun u => ?_⟩
  · unfold relProject
    rw [setMapM_eq hs (fun v _ => k1 v)]
    exact h1
  · rw [h4]
    constructor
    · rintro ⟨v, hv, hvu⟩
      obtain ⟨x, hx, rfl⟩ := List.mem_map.1 hv
      exact ⟨x, FSet.mem_of_list hs hx, (isRestriction_iff hP (k2 x)).1 (SameTuple.of_eq (PerGoKey.symm hvu))⟩
    · rintro ⟨x, hx, hr⟩
      obtain ⟨e, he, hex⟩ := (FSet.mem_iff_list hs x).1 hx
      refine ⟨kf e, List.mem_map.2 ⟨e, he, rfl⟩, PerGoKey.symm (SameTuple.eq ?_)⟩
      rw [isRestriction_iff hP (k2 e)]
      intro a
      obtain ⟨r1, r2⟩ := hr a
      exact ⟨fun h => (r1 h).trans (SameTuple.of_eq hex a).symm, r2⟩

/-! ### New -/

theorem rowTuple_aux : ∀ (hvs : List (A × V)) (t : Tuple A V), ∃ t', hvs.foldlM (fun t hv => Tuple.with t hv.1 hv.2) t = .ok t' ∧
    ∀ a, t'.val a = match hvs.reverse.find? (fun hv => GoKey.eq hv.1 a) with
      | some hv => some hv.2
      | none => t.val a
  | [], t => ⟨t, rfl, fun _ => rfl⟩
  | hv :: hvs, t => by
    obtain ⟨t1, h1, h2⟩ := Tuple.with_spec t hv.1 hv.2
    obtain ⟨t', h3, h4⟩ := rowTuple_aux hvs t1
    refine ⟨t', by rw [List.foldlM_cons, h1]; exact h3, fun a => ?_⟩
    rw [h4, List.reverse_cons, List.find?_append]
    cases hvs.reverse.find? (fun hv => GoKey.eq hv.1 a) with
    | some x => rfl
    | none =>
      rw [h2]
      by_cases hc : GoKey.eq hv.1 a = true
      · simp [hc]
      · simp [hc]

theorem rowTuple_spec (header : List A) (row : List V) : ∃ t, rowTuple header row = .ok t ∧ ∀ a, t.val a = rowVal header row a := by
  obtain ⟨t, h1, h2⟩ := rowTuple_aux (header.zip row) (Tuple.empty : Tuple A V)
  refine ⟨t, h1, fun a => ?_⟩
  rw [h2, rowVal]
  cases (header.zip row).reverse.find? (fun hv => GoKey.eq hv.1 a) with
  | some x => rfl
  | none => exact Tuple.val_empty a

theorem relNew_aux (header : List A) : ∀ (rows : List (List V)) (r0 : Rel A V), r0.Reachable → (∀ row ∈ rows, row.length = header.length) →
    ∃ r, rows.foldlM (relNewStep header) r0 = .ok r ∧ r.Reachable ∧
      ∀ u, r.Mem u ↔ r0.Mem u ∨ ∃ row ∈ rows, ∀ a, SameVal (u.val a) (rowVal header row a)
  | [], r0, h0, _ => ⟨r0, rfl, h0, by simp⟩
  | row :: rows, r0, h0, hl => by
    obtain ⟨t, t1, t2⟩ := rowTuple_spec header row
    obtain ⟨r1, w1, w2, _, w4⟩ := FSet.with_spec h0.valid t
    have hr1 : r1.Reachable := by
      obtain ⟨p, hp⟩ := h0
      exact ⟨.with p t, by simp only [SetProg.run, hp, bind, Except.bind]; exact w1⟩
    obtain ⟨r, k1, k2, k3⟩ := relNew_aux header rows r1 hr1 (fun row h => hl row (by simp [h]))
    have hstep : relNewStep header r0 row = .ok r1 := by
      unfold relNewStep
      rw [if_neg (by simp [hl row (by simp)]), t1]
      exact w1
    refine ⟨r, by rw [List.foldlM_cons, hstep]; exact k1, k2, fun u => ?_⟩
    rw [k3, w4, Tuple.eq_iff]
    constructor
    · rintro ((h | h) | ⟨row', h, h'⟩)
      · exact .inl h
      · exact .inr ⟨row, by simp, fun a => by rw [← t2]; exact (h a).symm⟩
      · exact .inr ⟨row', by simp [h], h'⟩
    · rintro (h | ⟨row', h, h'⟩)
      · exact .inl (.inl h)
      · rcases List.mem_cons.1 h with rfl | h
        · exact .inl (.inr (fun a => by rw [t2]; exact (h' a).symm))
        · exact .inr ⟨row', h, h'⟩

theorem relNew_error (header : List A) : ∀ (rows : List (List V)) (r0 : Rel A V), r0.Reachable → (∃ row ∈ rows, row.length ≠ header.length) →
    rows.foldlM (relNewStep header) r0 = .error (.msg "header/row size mismatch")
  | [], _, _, h => by obtain ⟨_, h, _⟩ := h; cases h
  | row :: rows, r0, h0, h => by
    by_cases hl : row.length = header.length
    · obtain ⟨r1, k1, k2, _⟩ := relNew_aux header [row] r0 h0 (by simpa using hl)
      have hstep : relNewStep header r0 row = .ok r1 := by
        rw [List.foldlM_cons] at k1
        cases hs : relNewStep header r0 row with
        | error e => rw [hs] at k1; cases k1
        | ok r => rw [hs] at k1; exact k1
      rw [List.foldlM_cons, hstep]
      obtain ⟨row', hr, hne⟩ := h
      rcases List.mem_cons.1 hr with rfl | hr
      · exact absurd hl hne
      · exact relNew_error header rows r1 k2 ⟨row', hr, hne⟩
    · apply foldlM_head_error
      unfold relNewStep
      rw [if_pos hl]

/-! ### Nest -/

theorem nestKey_spec : ∀ (ks : List A) (t : Tuple A V), ∃ t', nestKey ks t = .ok t' ∧
    ∀ b, t'.val b = if ks.any (fun c => GoKey.eq c b) = true then none else t.val b
  | [], t => ⟨t, rfl, fun _ => rfl⟩
  | k :: ks, t => by
    obtain ⟨t1, h1, h2⟩ := Tuple.without_spec t k
    obtain ⟨t', h3, h4⟩ := nestKey_spec ks t1
    refine ⟨t', ?_, fun b => ?_⟩
    · unfold nestKey at h3 ⊢
      rw [List.foldlM_cons, h1]; exact h3
    · rw [h4, h2, List.any_cons]
      by_cases hk : GoKey.eq k b = true <;> by_cases ha : ks.any (fun c => GoKey.eq c b) = true <;> simp [hk, ha]

theorem SetVal.valid (s : SetVal A) : s.1.Valid := s.2.valid

/-- The attributes removed by `Nest`. -/
theorem nestKeys_spec {aa : FMap A (SetVal A)} (haa : aa.Valid) (hne : ∃ b as, aa.Gets b (some as)) :
    ∃ vals sets inter, aa.values = .ok vals ∧ vals.elements = .ok sets ∧ nIntersection (sets.map (·.1)) = .ok inter ∧ inter.Valid ∧
      ∀ c, inter.Mem c ↔ NestKey aa c := by
  obtain ⟨vals, h1, h2, h3⟩ := FMap.values_spec haa
  have hlist : ∀ v ∈ vals.tree.list, v.1.Valid := fun v _ => v.2.valid
  have hcov : ∀ c, (∀ v ∈ vals.tree.list, v.1.Mem c) ↔ NestKey aa c := by
    intro c
    constructor
    · intro h b as hb
      rw [FMap.gets_iff haa] at hb
      have := (h3 as).2 ⟨b, as, hb, LawfulGoKey.refl _⟩
      obtain ⟨v, hv, hva⟩ := (FSet.mem_iff_list h2.valid as).1 this
      exact ((SetVal.eq_iff v as).1 hva c).1 (h v hv)
    · intro h v hv
      obtain ⟨k, w, hk, hw⟩ := (h3 v).1 (FSet.mem_of_list h2.valid hv)
      exact ((SetVal.eq_iff w v).1 hw c).1 (h k w ((FMap.gets_iff haa _ _).2 hk))
  cases hl : vals.tree.list with
  | nil =>
    obtain ⟨b, as, hb⟩ := hne
    rw [FMap.gets_iff haa] at hb
    obtain ⟨v, hv, _⟩ := (FSet.mem_iff_list h2.valid as).1 ((h3 as).2 ⟨b, as, hb, LawfulGoKey.refl _⟩)
    rw [hl] at hv; cases hv
  | cons v l =>
    obtain ⟨inter, i1, i2, i3⟩ := foldl_inter_spec ((v :: l).map (·.1)) (r := v.1) v.2.valid (by
      intro s hs
      obtain ⟨w, _, rfl⟩ := List.mem_map.1 hs
      exact w.2.valid)
    refine ⟨vals, v :: l, inter, h1, by rw [FSet.elements_spec h2.valid, hl], i1, i2, fun c => ?_⟩
    rw [i3, ← hcov, hl]
    constructor
    · rintro ⟨_, h⟩ w hw
      exact h w.1 (List.mem_map.2 ⟨w, hw, rfl⟩)
    · intro h
      refine ⟨h v (by simp), fun s hs => ?_⟩
      obtain ⟨w, hw, rfl⟩ := List.mem_map.1 hs
      exact h w hw

section
variable [NestVal A V]

theorem nestAttr_spec {group : Rel A V} (hg : group.Valid) (as : SetVal A) : ∃ R : SetVal (Tuple A V),
    nestAttr group as = .ok (NestVal.relV R) ∧ ∀ p, R.Mem p ↔ ∃ y, group.Mem y ∧ IsRestriction p y as.Mem := by
  obtain ⟨r, h1, h2, h3⟩ := relProject_spec hg as.1.tree.list (P := as.Mem) (fun a => by
    show _ ↔ as.1.Mem a
    rw [FSet.mem_iff_list as.2.valid, List.any_eq_true])
  obtain ⟨R, g1, g2⟩ := SetVal.lift_ok (r := relProject group as.1.tree.list) (h := fun _ h => setMapM_reachable h) h1
  refine ⟨R, ?_, fun p => ?_⟩
  · unfold nestAttr
    simp only [FSet.elements_spec as.2.valid, bind, Except.bind, g1, pure, Except.pure]
  · show R.1.Mem p ↔ _
    rw [g2, h3]

theorem nestTuple_spec {aa : FMap A (SetVal A)} (haa : aa.Valid) (key : Tuple A V) {group : Rel A V} (hg : group.Valid)
    (hc : ¬ TripleClash aa.HasKey key.Has) : ∃ w, nestTuple aa key group = .ok w ∧
    ∀ b, (key.Has b → w.val b = key.val b) ∧ (¬ key.Has b → (aa.tree.lk b = none → w.val b = none) ∧
      ∀ as, aa.tree.lk b = some as → ∃ R : SetVal (Tuple A V), w.val b = some (NestVal.relV R) ∧
        ∀ p, R.Mem p ↔ ∃ y, group.Mem y ∧ IsRestriction p y as.Mem) := by
  choose Rf r1 r2 using fun as : SetVal A => nestAttr_spec hg as
  obtain ⟨m, m1, m2, m3, _⟩ := mapMap_spec haa (fun _ as => NestVal.relV (Rf as))
  have hmap : mapMapM aa (fun _ attrs => nestAttr group attrs) = .ok m := by
    rw [mapMapM_eq haa (g := fun _ as => NestVal.relV (Rf as)) (fun e _ => r1 e.value)]
    exact m1
  obtain ⟨a, a1, a2⟩ := MapVal.lift_ok (h := fun _ h => mapMapM_reachable h) hmap
  have hval : ∀ b, Tuple.val a b = (aa.tree.lk b).map (fun as => NestVal.relV (Rf as)) := by
    intro b
    rw [Tuple.val_lk, a2, m3]
    unfold Tree.lk
    rw [Option.map_map]; rfl
  obtain ⟨w, w1, w2⟩ := Tuple.update_spec a key (fun h => hc ((TripleClash.congr (fun b => by
    rw [FMap.hasKey_iff haa]; unfold Tuple.Has; rw [hval]; simp) (fun _ => Iff.rfl)).1 h))
  refine ⟨w, ?_, fun b => ⟨fun hk => ?_, fun hk => ⟨fun hn => ?_, fun as ha => ⟨Rf as, ?_, r2 as⟩⟩⟩⟩
  · unfold nestTuple
    simp only [a1, bind, Except.bind]
    exact w1
  · rw [w2]
    unfold Tuple.Has at hk
    cases hkv : key.val b with
    | none => rw [hkv] at hk; cases hk
    | some v => cases Tuple.val a b <;> rfl
  · rw [w2, hval, hn, Tuple.not_has.1 hk]; rfl
  · rw [w2, hval, ha, Tuple.not_has.1 hk]; rfl

variable [LawfulNestVal A V]

theorem NestOf.unique {s : Rel A V} {aa : FMap A (SetVal A)} (haa : aa.Valid) {x u u' : Tuple A V} (h : NestOf s aa x u)
    (h' : NestOf s aa x u') : SameTuple u u' := by
  intro b
  obtain ⟨h1, h2⟩ := h b
  obtain ⟨g1, g2⟩ := h' b
  by_cases hx : x.Has b ∧ ¬ NestKey aa b
  · exact (h1 hx.1 hx.2).trans (g1 hx.1 hx.2).symm
  · obtain ⟨h3, h4⟩ := h2 hx
    obtain ⟨g3, g4⟩ := g2 hx
    cases hb : aa.tree.lk b with
    | none =>
      have hg := (FMap.gets_iff haa b none).2 hb
      rw [Tuple.not_has.1 (h3 hg), Tuple.not_has.1 (g3 hg)]
      exact SameVal.refl _
    | some as =>
      have hg := (FMap.gets_iff haa b (some as)).2 hb
      obtain ⟨R, k1, k2⟩ := h4 as hg
      obtain ⟨R', l1, l2⟩ := g4 as hg
      have : SameVal (some (NestVal.relV R)) (some (NestVal.relV R')) := by
        show GoKey.eq _ _ = true
        rw [LawfulNestVal.relV_eq, SetVal.eq_iff]
        exact fun p => (k2 p).trans (l2 p).symm
      exact k1.trans (this.trans l1.symm)

theorem nest_spec {s : Rel A V} (hs : s.Valid) {aa : FMap A (SetVal A)} (haa : aa.Valid) (hne : ∃ b as, aa.Gets b (some as))
    (hc : ∀ x, s.Mem x → ¬ TripleClash aa.HasKey (fun b => x.Has b ∧ ¬ NestKey aa b)) :
    ∃ r, nest s aa = .ok r ∧ r.Reachable ∧ (∀ u, r.Mem u ↔ ∃ x, s.Mem x ∧ NestOf s aa x u) ∧
      ∀ x, s.Mem x → ∃ u, NestOf s aa x u := by
  obtain ⟨vals, sets, inter, n1, n2, n3, n4, n5⟩ := nestKeys_spec haa hne
  have hK : ∀ a, inter.tree.list.any (fun c => GoKey.eq c a) = true ↔ NestKey aa a := by
    intro a; rw [← n5, FSet.mem_iff_list n4, List.any_eq_true]
  choose kf k1 k2 using fun t : Tuple A V => nestKey_spec inter.tree.list t
  have kval : ∀ x b, (NestKey aa b → (kf x).val b = none) ∧ (¬ NestKey aa b → (kf x).val b = x.val b) := by
    intro x b
    rw [k2]
    constructor
    · intro h; rw [if_pos ((hK b).2 h)]
    · intro h; rw [if_neg (fun g => h ((hK b).1 g))]
  have keq : ∀ x y, GoKey.eq (kf x) (kf y) = true ↔ SameOutside (NestKey aa) x y := by
    intro x y
    rw [Tuple.eq_iff]
    apply forall_congr'
    intro b
    by_cases h : NestKey aa b
    · rw [(kval x b).1 h, (kval y b).1 h]
      exact ⟨fun _ g => absurd h g, fun _ => SameVal.refl _⟩
    · rw [(kval x b).2 h, (kval y b).2 h]
      exact ⟨fun g _ => g, fun g => g h⟩
  have khas : ∀ x b, (kf x).Has b ↔ x.Has b ∧ ¬ NestKey aa b := by
    intro x b
    unfold Tuple.Has
    by_cases h : NestKey aa b
    · rw [(kval x b).1 h]; simp [h]
    · rw [(kval x b).2 h]; simp [h]
  have kcong : ∀ a b, GoKey.eq a b = true → GoKey.eq (kf a) (kf b) = true := fun a b h =>
    (keq a b).2 (fun c _ => SameTuple.of_eq h c)
  obtain ⟨grouped, g1, g2, g3, g4⟩ := group_mem hs kf kcong
  have hval : ∀ key group, grouped.tree.lk key = some group → ∃ w, nestTuple aa key group = .ok w ∧
      ∀ x, s.Mem x → GoKey.eq (kf x) key = true → NestOf s aa x w := by
    intro key group hlk
    obtain ⟨gr, gm⟩ := g4 key group hlk
    obtain ⟨x0, hx0, hk0⟩ := (g3 key).1 (by rw [hlk]; rfl)
    have hhas : ∀ x, GoKey.eq (kf x) key = true → ∀ b, key.Has b ↔ x.Has b ∧ ¬ NestKey aa b := by
      intro x hx b
      rw [← khas x b]
      exact (SameTuple.of_eq hx b).isSome.symm
    obtain ⟨w, w1, w2⟩ := nestTuple_spec haa key gr.valid (fun h => hc x0 hx0 ((TripleClash.congr (fun _ => Iff.rfl) (hhas x0 hk0)).1 h))
    refine ⟨w, w1, fun x hx hk b => ?_⟩
    obtain ⟨v1, v2⟩ := w2 b
    refine ⟨fun hb hnb => ?_, fun hn => ?_⟩
    · rw [v1 ((hhas x hk b).2 ⟨hb, hnb⟩)]
      have := (SameTuple.of_eq hk b).symm
      rw [(kval x b).2 hnb] at this
      exact this
    · obtain ⟨v3, v4⟩ := v2 (fun h => hn ((hhas x hk b).1 h))
      refine ⟨fun hg => ?_, fun as hg => ?_⟩
      · rw [Tuple.not_has]; exact v3 ((FMap.gets_iff haa _ _).1 hg)
      · obtain ⟨R, R1, R2⟩ := v4 as ((FMap.gets_iff haa _ _).1 hg)
        refine ⟨R, by rw [R1]; exact SameVal.refl _, fun p => ?_⟩
        rw [R2]
        constructor
        · rintro ⟨y, hy, hr⟩
          obtain ⟨hy1, hy2⟩ := (gm y).1 hy
          exact ⟨y, hy1, (keq y x).1 (PerGoKey.trans hy2 (PerGoKey.symm hk)), hr⟩
        · rintro ⟨y, hy, hso, hr⟩
          exact ⟨y, (gm y).2 ⟨hy, PerGoKey.trans ((keq y x).2 hso) hk⟩, hr⟩
  have : Nonempty (Tuple A V) := ⟨Tuple.empty⟩
  choose! gf e1 e2 using hval
  have hlkE : ∀ e ∈ grouped.tree.list, grouped.tree.lk e.key = some e.value := fun e he =>
    (Tree.lk_some g2).2 ⟨e, he, LawfulGoKey.refl _, rfl⟩
  let _ : Inhabited (Tuple A V) := ⟨Tuple.empty⟩
  obtain ⟨m, m1, m2, m3, _⟩ := mapMap_spec g2 gf
  obtain ⟨r, r1, r2, r3⟩ := FMap.values_spec m2
  have hex : ∀ x, s.Mem x → ∃ u, NestOf s aa x u := by
    intro x hx
    have hsome := (g3 (kf x)).2 ⟨x, hx, LawfulGoKey.refl _⟩
    cases hl : grouped.tree.lk (kf x) with
    | none => rw [hl] at hsome; cases hsome
    | some g => exact ⟨_, e2 (kf x) g hl x hx (LawfulGoKey.refl _)⟩
  refine ⟨r, ?_, r2, fun u => ?_, hex⟩
  · unfold nest
    simp only [n1, n2, n3, FSet.elements_spec n4, bind, Except.bind]
    rw [setGroupByM_eq hs (fun v _ => k1 v), g1]
    simp only
    rw [mapMapM_eq g2 (g := gf) (fun e he => e1 e.key e.value (hlkE e he)), m1]
    exact r1
  · rw [r3]
    have hent : ∀ k w, m.tree.lk k = some w → ∃ e ∈ grouped.tree.list, GoKey.eq e.key k = true ∧ w = gf e.key e.value := by
      intro k w hw
      rw [m3] at hw
      cases hl : grouped.tree.look (newMapKey k) with
      | none => rw [hl] at hw; cases hw
      | some e =>
        rw [hl] at hw
        exact ⟨e, look_mem hl, look_eq (T := Entry (Tuple A V) (Rel A V)) hl, (Option.some.inj hw).symm⟩
    constructor
    · rintro ⟨k, w, hw, hwu⟩
      obtain ⟨e, he, hek, rfl⟩ := hent k w hw
      have hlk := hlkE e he
      obtain ⟨x, hx, hxk⟩ := (g3 e.key).1 (by rw [hlk]; rfl)
      refine ⟨x, hx, ?_⟩
      have hno := e2 e.key e.value hlk x hx hxk
      have hsame := SameTuple.of_eq hwu
      intro b
      obtain ⟨q1, q2⟩ := hno b
      refine ⟨fun h1 h2 => (hsame b).symm.trans (q1 h1 h2), fun hn => ?_⟩
      obtain ⟨q3, q4⟩ := q2 hn
      refine ⟨fun hg hu => q3 hg ((hsame b).isSome.2 hu), fun as hg => ?_⟩
      obtain ⟨R, R1, R2⟩ := q4 as hg
      exact ⟨R, (hsame b).symm.trans R1, R2⟩
    · rintro ⟨x, hx, hno⟩
      have hsome := (g3 (kf x)).2 ⟨x, hx, LawfulGoKey.refl _⟩
      rw [Tree.lk_isSome] at hsome
      cases hl : grouped.tree.look (newMapKey (kf x)) with
      | none => rw [hl] at hsome; cases hsome
      | some e =>
        have he : e ∈ grouped.tree.list := look_mem hl
        have hek : GoKey.eq e.key (kf x) = true := look_eq (T := Entry (Tuple A V) (Rel A V)) hl
        refine ⟨kf x, gf e.key e.value, by rw [m3, hl]; rfl, SameTuple.eq ?_⟩
        exact NestOf.unique haa (e2 e.key e.value (hlkE e he) x hx (PerGoKey.symm hek)) hno

/-! ### Unnest -/

theorem pair_shape {T : Type} [GoKey T] [LawfulGoKey T] {l : List T} (hd : Distinct l) {a b : T}
    (hc : ∀ w, (∃ e ∈ l, GoKey.eq e w = true) ↔ GoKey.eq a w = true ∨ GoKey.eq b w = true) :
    (∃ z, l = [z] ∧ GoKey.eq z a = true ∧ GoKey.eq z b = true) ∨
    ∃ z1 z2, l = [z1, z2] ∧ ((GoKey.eq z1 a = true ∧ GoKey.eq z2 b = true) ∨ (GoKey.eq z1 b = true ∧ GoKey.eq z2 a = true)) := by
  have hmem : ∀ e ∈ l, GoKey.eq e a = true ∨ GoKey.eq e b = true := by
    intro e he
    rcases (hc e).1 ⟨e, he, LawfulGoKey.refl e⟩ with h | h
    · exact .inl (PerGoKey.symm h)
    · exact .inr (PerGoKey.symm h)
  have ha := (hc a).2 (.inl (LawfulGoKey.refl a))
  have hb := (hc b).2 (.inr (LawfulGoKey.refl b))
  have hno : ∀ x y : T, GoKey.eq x y = false → ∀ c : T, GoKey.eq x c = true → GoKey.eq y c = true → False := by
    intro x y hxy c h1 h2
    rw [PerGoKey.trans h1 (PerGoKey.symm h2)] at hxy; cases hxy
  match l, hd, hmem, ha, hb with
  | [], _, _, ha, _ => obtain ⟨e, he, _⟩ := ha; cases he
  | [z], _, _, ha, hb =>
    obtain ⟨e, he, h1⟩ := ha
    obtain ⟨e', he', h2⟩ := hb
    rw [List.mem_singleton] at he he'
    subst he; subst he'
    exact .inl ⟨e', rfl, h1, h2⟩
  | [z1, z2], hd, hm, _, _ =>
    have hz : GoKey.eq z1 z2 = false := (List.pairwise_cons.1 hd).1 z2 (by simp)
    refine .inr ⟨z1, z2, rfl, ?_⟩
    rcases hm z1 (by simp) with h1 | h1 <;> rcases hm z2 (by simp) with h2 | h2
    · exact (hno _ _ hz a h1 h2).elim
    · exact .inl ⟨h1, h2⟩
    · exact .inr ⟨h1, h2⟩
    · exact (hno _ _ hz b h1 h2).elim
  | z1 :: z2 :: z3 :: l, hd, hm, _, _ =>
    have h := List.pairwise_cons.1 hd
    have h' := List.pairwise_cons.1 h.2
    have h12 := h.1 z2 (by simp)
    have h13 := h.1 z3 (by simp)
    have h23 := h'.1 z3 (by simp)
    exfalso
    rcases hm z1 (by simp) with h1 | h1 <;> rcases hm z2 (by simp) with h2 | h2 <;> rcases hm z3 (by simp) with h3 | h3
    · exact hno _ _ h12 a h1 h2
    · exact hno _ _ h12 a h1 h2
    · exact hno _ _ h13 a h1 h3
    · exact hno _ _ h23 b h2 h3
    · exact hno _ _ h23 a h2 h3
    · exact hno _ _ h13 b h1 h3
    · exact hno _ _ h12 b h1 h2
    · exact hno _ _ h12 b h1 h2

/-- A tuple `Unnest` can handle: if it has the attribute, the value is a non-empty relation with uniform attributes that do not run
into the collision pattern with the other attributes of the tuple. -/
def Unnestable (attr : A) (t : Tuple A V) : Prop :=
  ∀ v, t.val attr = some v → ∃ (R : SetVal (Tuple A V)) (Q : A → Prop), NestVal.asRel v = some R ∧ (∃ p, R.Mem p) ∧ Uniform R.1 Q ∧
    ¬ TripleClash Q (fun b => t.Has b ∧ ¬ GoKey.eq attr b = true)

/-- The tuples `Unnest` makes of one tuple. -/
def UnnestOf (attr : A) (t u : Tuple A V) : Prop :=
  ∃ key, IsRestriction key t (fun b => ¬ GoKey.eq attr b = true) ∧
    ((¬ t.Has attr ∧ SameTuple key u) ∨
      ∃ v R p, t.val attr = some v ∧ NestVal.asRel v = some R ∧ SetVal.Mem R p ∧ JoinOf key p u)

theorem SetVal.mem_of_eq {R R' : SetVal (Tuple A V)} (h : GoKey.eq R R' = true) (u : Tuple A V) : R.1.Mem u ↔ R'.1.Mem u :=
  (SetVal.eq_iff R R').1 h u

theorem unnestStep_spec (attr : A) (t : Tuple A V) (h : Unnestable attr t) : ∃ us : List (Tuple A V),
    (∀ b, unnestStep attr b t = us.foldlM (fun b u => SetBuilder.add b u) b) ∧
    ∀ u : Tuple A V, (∃ w ∈ us, GoKey.eq w u = true) ↔ UnnestOf attr t u := by
  obtain ⟨key, k1, k2⟩ := Tuple.without_spec t attr
  obtain ⟨proj, p1, p2⟩ := Tuple.project_spec t [attr]
  obtain ⟨ks0, q1, q2, _, q4⟩ := buildSet_spec [key]
  obtain ⟨ks, l1, l2⟩ := SetVal.lift_ok (r := newSet [key]) (h := fun _ h => ⟨.newSet [key], h⟩) (show newSet [key] = .ok ks0 from q1)
  have hks : ∀ u, ks.1.Mem u ↔ GoKey.eq key u = true := by
    intro u; rw [l2, q4]; simp
  have hkey : IsRestriction key t (fun b => ¬ GoKey.eq attr b = true) := by
    intro b
    rw [k2]
    constructor
    · intro hb; rw [if_neg hb]; exact SameVal.refl _
    · intro hb; rw [if_pos (Classical.not_not.1 hb)]
  have hkhas : ∀ b, key.Has b ↔ t.Has b ∧ ¬ GoKey.eq attr b = true := by
    intro b
    unfold Tuple.Has
    rw [k2]
    by_cases hb : GoKey.eq attr b = true
    · rw [if_pos hb]; simp [hb]
    · rw [if_neg hb]; simp [hb]
  have hku : Uniform ks.1 key.Has := by
    intro x hx a
    exact (SameTuple.of_eq ((hks x).1 hx) a).isSome.symm
  have huniq : ∀ key', IsRestriction key' t (fun b => ¬ GoKey.eq attr b = true) → SameTuple key' key := by
    intro key' hk' b
    obtain ⟨r1, r2⟩ := hk' b
    obtain ⟨r3, r4⟩ := hkey b
    by_cases hb : ¬ GoKey.eq attr b = true
    · exact (r1 hb).trans (r3 hb).symm
    · rw [r2 hb, r4 hb]; exact SameVal.refl _
  -- a joined relation determines the result
  have fin : ∀ (parts : List (SetVal (Tuple A V))) (joined : Rel A V), unnestParts attr t = .ok parts →
      joinAll (parts.map (·.1)) = .ok joined → joined.Valid → (∀ u, joined.Mem u ↔ UnnestOf attr t u) →
      ∃ us : List (Tuple A V), (∀ b, unnestStep attr b t = us.foldlM (fun b u => SetBuilder.add b u) b) ∧
        ∀ u : Tuple A V, (∃ w ∈ us, GoKey.eq w u = true) ↔ UnnestOf attr t u := by
    intro parts joined h1 h2 h3 h4
    refine ⟨joined.tree.list, fun b => ?_, fun u => ?_⟩
    · unfold unnestStep
      simp only [h1, h2, bind, Except.bind, FSet.rangeList_spec h3]
    · rw [← h4, FSet.mem_iff_list h3]
  by_cases hhas : t.Has attr
  · have hhas' := hhas
    unfold Tuple.Has at hhas'
    cases hv : t.val attr with
    | none => rw [hv] at hhas'; cases hhas'
    | some v =>
      obtain ⟨R, Q, hR, hRne, hQ, hcl⟩ := h v hv
      have hcl' : ¬ TripleClash Q key.Has := fun g => hcl ((TripleClash.congr (fun _ => Iff.rfl) hkhas).1 g)
      -- the nested relation
      have hproj : ∀ e ∈ proj.1.tree.list, e.value = v := by
        intro e he
        have hlk := (Tree.lk_some proj.2.valid).2 ⟨e, he, LawfulGoKey.refl _, rfl⟩
        rw [← Tuple.val_lk, p2] at hlk
        by_cases hc : [attr].any (fun a => GoKey.eq a e.key) = true
        · rw [if_pos hc] at hlk
          rw [List.any_cons, List.any_nil, Bool.or_false] at hc
          rw [← Tuple.val_congr t hc, hv] at hlk
          exact (Option.some.inj hlk).symm
        · rw [if_neg hc] at hlk; cases hlk
      have hmapM : mapMapM proj.1 (fun _ val => assertRel (A := A) val) = mapMap proj.1 (fun _ _ => R) :=
        mapMapM_eq proj.2.valid (fun e he => by unfold assertRel; rw [hproj e he, hR])
      obtain ⟨m, m1, m2, m3, _⟩ := mapMap_spec proj.2.valid (fun _ _ => R)
      obtain ⟨nv, n1, n2, n3⟩ := FMap.values_spec m2
      have hnv : ∀ z, nv.Mem z ↔ GoKey.eq R z = true := by
        intro z
        rw [n3]
        constructor
        · rintro ⟨k, w, hk, hw⟩
          rw [m3] at hk
          cases hl : proj.1.tree.look (newMapKey k) with
          | none => rw [hl] at hk; cases hk
          | some e => rw [hl] at hk; cases hk; exact hw
        · intro hz
          refine ⟨attr, R, ?_, hz⟩
          have hsome : (proj.1.tree.lk attr).isSome = true := by
            rw [← Tuple.val_lk, p2, if_pos (by simp [LawfulGoKey.refl]), hv]; rfl
          rw [Tree.lk_isSome] at hsome
          rw [m3]
          cases hl : proj.1.tree.look (newMapKey attr) with
          | none => rw [hl] at hsome; cases hsome
          | some e => rfl
      obtain ⟨all, a1, a2, _, a4⟩ := FSet.with_spec n2.valid ks
      have hparts : unnestParts attr t = .ok all.tree.list := by
        unfold unnestParts
        simp only [k1, p1, bind, Except.bind]
        rw [hmapM, m1]
        simp only [n1, l1, a1, FSet.elements_spec a2]
      have hshape := pair_shape (a := R) (b := ks) a2.distinct (fun w => by
        rw [← FSet.mem_iff_list a2, a4, hnv])
      have hU : ∀ u, UnnestOf attr t u ↔ ∃ p, R.1.Mem p ∧ JoinOf key p u := by
        intro u
        constructor
        · rintro ⟨key', hk', (⟨hn, _⟩ | ⟨v', R', p, e1, e2, e3, e4⟩)⟩
          · exact absurd hhas hn
          · rw [hv] at e1; cases e1
            rw [hR] at e2; cases e2
            exact ⟨p, e3, e4.congr (huniq key' hk') (fun _ => SameVal.refl _) (fun _ => SameVal.refl _)⟩
        · rintro ⟨p, e1, e2⟩
          exact ⟨key, hkey, .inr ⟨v, R, p, hv, hR, e1, e2⟩⟩
      have hflip : ∀ x y u : Tuple A V, JoinOf x y u → JoinOf y x u := fun x y u hj a =>
        ⟨(hj a).2.1, (hj a).1, fun h1 h2 => (hj a).2.2 h2 h1⟩
      rcases hshape with ⟨z, hz, zR, zk⟩ | ⟨z1, z2, hz, hcase⟩
      · rw [hz] at hparts
        refine fin [z] z.1 hparts rfl z.2.valid (fun u => ?_)
        rw [hU]
        constructor
        · intro hu
          have h1 := (SetVal.mem_of_eq zk u).1 hu
          have h2 := SameTuple.of_eq ((hks u).1 h1)
          refine ⟨u, (SetVal.mem_of_eq zR u).1 hu, fun a => ⟨fun _ => (h2 a).symm, fun _ => SameVal.refl _, fun _ hb => hb⟩⟩
        · rintro ⟨p, hp, hj⟩
          have hpk := SameTuple.of_eq ((hks p).1 ((SetVal.mem_of_eq zk p).1 ((SetVal.mem_of_eq zR p).2 hp)))
          refine (SetVal.mem_of_eq zk u).2 ((hks u).2 (SameTuple.eq (fun a => ?_)))
          by_cases ha : key.Has a
          · exact ((hj a).1 ha).symm
          · have hb : ¬ p.Has a := fun g => ha ((hpk a).isSome.2 g)
            rw [Tuple.not_has.1 ha, Tuple.not_has.1 ((hj a).2.2 ha hb)]
            exact SameVal.refl _
      · rw [hz] at hparts
        rcases hcase with ⟨c1, c2⟩ | ⟨c1, c2⟩
        · have hz1 : Uniform z1.1 Q := hQ.sub (fun x hx => (SetVal.mem_of_eq c1 x).1 hx)
          have hz2 : Uniform z2.1 key.Has := hku.sub (fun x hx => (SetVal.mem_of_eq c2 x).1 hx)
          obtain ⟨r, j1, j2, j3⟩ := (join_spec z1.2 z2.2 hz1 hz2 (.inl ⟨key, (SetVal.mem_of_eq c2 key).2 ((hks key).2 (LawfulGoKey.refl _))⟩)).1 hcl'
          refine fin [z1, z2] r hparts ?_ j2.valid (fun u => ?_)
          · show ([z2.1]).foldlM join z1.1 = _
            rw [List.foldlM_cons, j1]; rfl
          · rw [j3, hU]
            constructor
            · rintro ⟨x, y, hx, hy, hj⟩
              refine ⟨x, (SetVal.mem_of_eq c1 x).1 hx, (hflip _ _ _ hj).congr ?_ (fun _ => SameVal.refl _) (fun _ => SameVal.refl _)⟩
              exact fun a => (SameTuple.of_eq ((hks y).1 ((SetVal.mem_of_eq c2 y).1 hy)) a).symm
            · rintro ⟨p, hp, hj⟩
              exact ⟨p, key, (SetVal.mem_of_eq c1 p).2 hp, (SetVal.mem_of_eq c2 key).2 ((hks key).2 (LawfulGoKey.refl _)), hflip _ _ _ hj⟩
        · have hz2 : Uniform z2.1 Q := hQ.sub (fun x hx => (SetVal.mem_of_eq c2 x).1 hx)
          have hz1 : Uniform z1.1 key.Has := hku.sub (fun x hx => (SetVal.mem_of_eq c1 x).1 hx)
          obtain ⟨p0, hp0⟩ := hRne
          obtain ⟨r, j1, j2, j3⟩ := (join_spec z1.2 z2.2 hz1 hz2 (.inl ⟨p0, (SetVal.mem_of_eq c2 p0).2 hp0⟩)).1 (fun g => hcl' g.symm)
          refine fin [z1, z2] r hparts ?_ j2.valid (fun u => ?_)
          · show ([z2.1]).foldlM join z1.1 = _
            rw [List.foldlM_cons, j1]; rfl
          · rw [j3, hU]
            constructor
            · rintro ⟨x, y, hx, hy, hj⟩
              refine ⟨y, (SetVal.mem_of_eq c2 y).1 hy, hj.congr ?_ (fun _ => SameVal.refl _) (fun _ => SameVal.refl _)⟩
              exact fun a => (SameTuple.of_eq ((hks x).1 ((SetVal.mem_of_eq c1 x).1 hx)) a).symm
            · rintro ⟨p, hp, hj⟩
              exact ⟨key, p, (SetVal.mem_of_eq c1 key).2 ((hks key).2 (LawfulGoKey.refl _)), (SetVal.mem_of_eq c2 p).2 hp, hj⟩
  · have hempty : proj.1.tree.list = [] := by
      cases hl : proj.1.tree.list with
      | nil => rfl
      | cons e l =>
        have hlk := (Tree.lk_some proj.2.valid (k := e.key) (v := e.value)).2 ⟨e, by rw [hl]; simp, LawfulGoKey.refl _, rfl⟩
        rw [← Tuple.val_lk, p2] at hlk
        by_cases hc : [attr].any (fun a => GoKey.eq a e.key) = true
        · rw [if_pos hc] at hlk
          rw [List.any_cons, List.any_nil, Bool.or_false] at hc
          rw [← Tuple.val_congr t hc, Tuple.not_has.1 hhas] at hlk; cases hlk
        · rw [if_neg hc] at hlk; cases hlk
    obtain ⟨m, m1, m2, m3, _⟩ := mapMap_spec proj.2.valid (fun _ _ => ks)
    have hmapM : mapMapM proj.1 (fun _ val => assertRel (A := A) val) = mapMap proj.1 (fun _ _ => ks) :=
      mapMapM_eq proj.2.valid (fun e he => by rw [hempty] at he; cases he)
    obtain ⟨nv, n1, n2, n3⟩ := FMap.values_spec m2
    have hnv : ∀ z, ¬ nv.Mem z := by
      intro z hz
      obtain ⟨k, w, hk, _⟩ := (n3 z).1 hz
      rw [m3] at hk
      cases hl : proj.1.tree.look (newMapKey k) with
      | none => rw [hl] at hk; cases hk
      | some e =>
        have : e ∈ proj.1.tree.list := look_mem hl
        rw [hempty] at this; cases this
    obtain ⟨all, a1, a2, _, a4⟩ := FSet.with_spec n2.valid ks
    have hparts : unnestParts attr t = .ok all.tree.list := by
      unfold unnestParts
      simp only [k1, p1, bind, Except.bind]
      rw [hmapM, m1]
      simp only [n1, l1, a1, FSet.elements_spec a2]
    have hshape := pair_shape (a := ks) (b := ks) a2.distinct (fun w => by
      rw [← FSet.mem_iff_list a2, a4, or_self]
      exact ⟨fun g => g.resolve_left (hnv w), .inr⟩)
    have hz : ∃ z, all.tree.list = [z] ∧ GoKey.eq z ks = true := by
      rcases hshape with ⟨z, hz, zk, _⟩ | ⟨z1, z2, hz, hcase⟩
      · exact ⟨z, hz, zk⟩
      · have hd := a2.distinct
        rw [hz] at hd
        have h12 := (List.pairwise_cons.1 hd).1 z2 (by simp)
        have : GoKey.eq z1 z2 = true := by
          rcases hcase with ⟨c1, c2⟩ | ⟨c1, c2⟩ <;> exact PerGoKey.trans c1 (PerGoKey.symm c2)
        rw [this] at h12; cases h12
    obtain ⟨z, hz, zk⟩ := hz
    rw [hz] at hparts
    refine fin [z] z.1 hparts rfl z.2.valid (fun u => ?_)
    rw [SetVal.mem_of_eq zk u, hks]
    constructor
    · intro hu
      exact ⟨key, hkey, .inl ⟨hhas, SameTuple.of_eq hu⟩⟩
    · rintro ⟨key', hk', (⟨_, hs⟩ | ⟨v', R', p, e1, _⟩)⟩
      · exact SameTuple.eq (fun a => (huniq key' hk' a).symm.trans (hs a))
      · rw [Tuple.not_has.1 hhas] at e1; cases e1

theorem UnnestOf.congr {attr : A} {t t' u : Tuple A V} (h : SameTuple t t') (hu : UnnestOf attr t u) : UnnestOf attr t' u := by
  obtain ⟨key, hk, hcase⟩ := hu
  refine ⟨key, fun b => ⟨fun hb => ((hk b).1 hb).trans (h b), (hk b).2⟩, ?_⟩
  rcases hcase with ⟨hn, hs⟩ | ⟨v, R, p, e1, e2, e3, e4⟩
  · exact .inl ⟨fun g => hn ((h attr).isSome.2 g), hs⟩
  · have := h attr
    rw [e1] at this
    cases hv : t'.val attr with
    | none => rw [hv] at this; cases this
    | some v' =>
      rw [hv] at this
      have hcong := LawfulNestVal.asRel_congr (A := A) v v' this
      rw [e2] at hcong
      cases hR : NestVal.asRel (A := A) v' with
      | none => rw [hR] at hcong; cases hcong
      | some R' =>
        rw [hR] at hcong
        exact .inr ⟨v', R', p, rfl, hR, (SetVal.mem_of_eq hcong p).1 e3, e4⟩

theorem unnest_spec {s : Rel A V} (hs : s.Valid) (attr : A) (h : ∀ t, s.Mem t → Unnestable attr t) :
    ∃ r, unnest s attr = .ok r ∧ r.Reachable ∧ ∀ u, r.Mem u ↔ ∃ t, s.Mem t ∧ UnnestOf attr t u := by
  have step : ∀ t, s.Mem t → ∃ us : List (Tuple A V),
      (∀ b, unnestStep attr b t = us.foldlM (fun b u => SetBuilder.add b u) b) ∧
      ∀ u : Tuple A V, (∃ w ∈ us, GoKey.eq w u = true) ↔ UnnestOf attr t u := fun t ht => unnestStep_spec attr t (h t ht)
  choose! usf e1 e2 using step
  obtain ⟨r, r1, r2, r3⟩ := adds_spec (s.tree.list.flatMap usf)
  refine ⟨r, ?_, r2, fun u => ?_⟩
  · unfold unnest
    rw [FSet.rangeList_spec hs]
    simp only [bind, Except.bind]
    rw [foldlM_flatMap _ (fun k hk b => e1 k (FSet.mem_of_list hs hk) b)]
    exact r1
  · rw [r3]
    constructor
    · rintro ⟨w, hw, huw⟩
      obtain ⟨t, ht, hwt⟩ := List.mem_flatMap.1 hw
      have htm := FSet.mem_of_list hs ht
      exact ⟨t, htm, (e2 t htm u).1 ⟨w, hwt, PerGoKey.symm (SameTuple.eq huw)⟩⟩
    · rintro ⟨t, ht, hu⟩
      obtain ⟨e, he, het⟩ := (FSet.mem_iff_list hs t).1 ht
      have hem := FSet.mem_of_list hs he
      obtain ⟨w, hw, hwu⟩ := (e2 e hem u).2 (hu.congr (SameTuple.of_eq (PerGoKey.symm het)))
      exact ⟨w, List.mem_flatMap.2 ⟨e, he, hw⟩, SameTuple.of_eq (PerGoKey.symm hwu)⟩

theorem foldlM_error {α β : Type} {f : β → α → Go β} {x : α} (hx : ∀ b, ∃ e, f b x = .error e) : ∀ (l : List α) (b : β), x ∈ l →
    ∃ e, l.foldlM f b = .error e
  | [], _, h => by cases h
  | y :: l, b, h => by
    rw [List.foldlM_cons]
    cases hy : f b y with
    | error e => exact ⟨e, rfl⟩
    | ok b' =>
      rcases List.mem_cons.1 h with rfl | h
      · obtain ⟨e, he⟩ := hx b; rw [he] at hy; cases hy
      · exact foldlM_error hx l b' h

/-- The type assertion fails for one of the tuples. -/
theorem unnest_other {s : Rel A V} (hs : s.Valid) (attr : A) (t : Tuple A V) (ht : s.Mem t) (v : V) (hv : t.val attr = some v)
    (hn : NestVal.asRel (A := A) v = none) : ∃ e, unnest s attr = .error e := by
  obtain ⟨t', ht', hee⟩ := (FSet.mem_iff_list hs t).1 ht
  have hsv := SameTuple.of_eq hee attr
  rw [hv] at hsv
  cases hv' : t'.val attr with
  | none => rw [hv'] at hsv; exact absurd hsv (by simp [SameVal])
  | some v' =>
    rw [hv'] at hsv
    have hvv : GoKey.eq v' v = true := hsv
    have hn' : NestVal.asRel (A := A) v' = none := by
      have := LawfulNestVal.asRel_congr (A := A) v' v hvv
      rw [hn] at this
      cases h : NestVal.asRel (A := A) v' with
      | none => rfl
      | some r => rw [h] at this; exact absurd this (by simp [SameVal])
    obtain ⟨key, k1, _⟩ := Tuple.without_spec t' attr
    obtain ⟨proj, p1, p2⟩ := Tuple.project_spec t' [attr]
    have hsome : proj.1.tree.lk attr = some v' := by
      rw [← Tuple.val_lk, p2, if_pos (by simp [LawfulGoKey.refl]), hv']
    obtain ⟨e, he, _, hev⟩ := (Tree.lk_some proj.2.valid).1 hsome
    have hmap : ∃ er, mapMapM proj.1 (fun _ val => assertRel (A := A) val) = .error er := by
      obtain ⟨er, h⟩ := foldlM_error (f := fun (b : MapBuilder A (SetVal (Tuple A V))) (e : Entry A V) => do
          let w ← assertRel (A := A) e.value; MapBuilder.put b e.key w) (x := e) (fun b => ⟨.msg "interface conversion", by
        unfold assertRel; rw [hev, hn']; rfl⟩) _ (Tree.zero : MapBuilder A (SetVal (Tuple A V))) he
      refine ⟨er, ?_⟩
      unfold mapMapM
      rw [FMap.rangeList_spec proj.2.valid]
      simp only [bind, Except.bind] at h ⊢
      rw [h]
    obtain ⟨er, hmap⟩ := hmap
    obtain ⟨e', he'⟩ := foldlM_error (f := unnestStep attr) (x := t') (fun b => ⟨er, by
      unfold unnestStep unnestParts
      simp only [k1, p1, bind, Except.bind]
      rw [hmap]⟩) s.tree.list (Tree.zero : SetBuilder (Tuple A V)) ht'
    refine ⟨e', ?_⟩
    unfold unnest
    rw [FSet.rangeList_spec hs]
    simp only [bind, Except.bind]
    rw [he']

end

end Frozen
