import Verif.Props.Rel

/-! # C67: laws of relational algebra

For relations with uniform attributes that do not have the collision pattern on which merging two tuples panics (C13). The laws of `Join` that
involve empty relations are false, since `Join(s, {})` is `s` (C30); hence the suffix. -/

set_option linter.unusedSectionVars false

namespace Frozen

section
variable {A V : Type} [GoKey A] [LawfulGoKey A] [Inhabited V] [GoKey V] [LawfulGoKey V] [GoHash]

theorem relEqual_of_mem {r r' : Rel A V} (h : r.Reachable) (h' : r'.Reachable) (hm : ∀ u, r.Mem u ↔ r'.Mem u) : r.equal r' = .ok true := by
  obtain ⟨b, h1, h2⟩ := FSet.equal_spec h.valid h'.valid
  rw [h1, h2.2 hm]

theorem relSubset_of_mem {r r' : Rel A V} (h : r.Reachable) (h' : r'.Reachable) (hm : ∀ u, r.Mem u → r'.Mem u) : r.isSubsetOf r' = .ok true := by
  obtain ⟨b, h1, h2⟩ := FSet.isSubsetOf_spec h.valid h'.valid
  rw [h1, h2.2 hm]

theorem tripleClash_symm {P Q : A → Prop} (h : TripleClash P Q) : TripleClash Q P := by
  obtain ⟨x, y, h1, h2, h3, h4, h5, h6⟩ := h
  refine ⟨y, x, h2, h1, h3.symm, ?_, ?_, ?_⟩
  · rw [← h3]; exact h5
  · rw [← h3]; exact h4
  · rw [← h3]; exact h6.symm

theorem rel_mem_congr {s : Rel A V} (hs : s.Reachable) {t u : Tuple A V} (h : SameTuple t u) (ht : s.Mem t) : s.Mem u :=
  (FSet.mem_congr hs.valid ((Tuple.eq_iff t u).2 h)).1 ht

theorem JoinOf.symm {x y u : Tuple A V} (h : JoinOf x y u) : JoinOf y x u := fun a => ⟨(h a).2.1, (h a).1, fun h1 h2 => (h a).2.2 h2 h1⟩

/-- C67. `Join(s, t)` `Equal`s `Join(t, s)` if both relations are empty or neither is. -/
theorem C67_join_comm_partial (s t : Rel A V) (hs : s.Reachable) (ht : t.Reachable) (P Q : A → Prop) (hP : Uniform s P) (hQ : Uniform t Q)
    (hne : (∃ x, s.Mem x) ↔ ∃ y, t.Mem y) (hc : ¬ TripleClash P Q) :
    ∃ r r', joinAll [s, t] = .ok r ∧ joinAll [t, s] = .ok r' ∧ r.equal r' = .ok true := by
  have e1 : (∃ y, t.Mem y) ∨ ∀ x, ¬ s.Mem x := by
    by_cases h : ∃ y, t.Mem y
    · exact .inl h
    · exact .inr (fun x hx => h (hne.1 ⟨x, hx⟩))
  have e2 : (∃ x, s.Mem x) ∨ ∀ y, ¬ t.Mem y := by
    by_cases h : ∃ x, s.Mem x
    · exact .inl h
    · exact .inr (fun y hy => h (hne.2 ⟨y, hy⟩))
  obtain ⟨r, h1, h2, h3⟩ := C30_join_partial s t hs ht P Q hP hQ e1 hc
  obtain ⟨r', g1, g2, g3⟩ := C30_join_partial t s ht hs Q P hQ hP e2 (fun h => hc (tripleClash_symm h))
  refine ⟨r, r', h1, g1, relEqual_of_mem h2 g2 (fun u => ?_)⟩
  rw [h3, g3]
  unfold IsJoined
  constructor
  · rintro ⟨a, b, c⟩; exact ⟨fun z => (a z).trans or_comm, c, b⟩
  · rintro ⟨a, b, c⟩; exact ⟨fun z => (a z).trans or_comm, c, b⟩

/-- C67. `Join(s, s)` `Equal`s `s`. -/
theorem C67_join_idem_partial (s : Rel A V) (hs : s.Reachable) (P : A → Prop) (hP : Uniform s P) (hc : ¬ TripleClash P P) :
    ∃ r, joinAll [s, s] = .ok r ∧ r.equal s = .ok true := by
  have e1 : (∃ y, s.Mem y) ∨ ∀ x, ¬ s.Mem x := by
    by_cases h : ∃ y, s.Mem y
    · exact .inl h
    · exact .inr (fun x hx => h ⟨x, hx⟩)
  obtain ⟨r, h1, h2, h3⟩ := C30_join_partial s s hs hs P P hP hP e1 hc
  refine ⟨r, h1, relEqual_of_mem h2 hs (fun u => ?_)⟩
  rw [h3]
  constructor
  · rintro ⟨a, ⟨x, hx, hr⟩, _⟩
    refine rel_mem_congr hs (fun b => ?_) hx
    by_cases hb : P b
    · exact (hr b).1 hb
    · rw [(hr b).2 hb]
      have : ¬ u.Has b := fun h => hb (by simpa using (a b).1 h)
      rw [Tuple.not_has.1 this]
      exact SameVal.refl _
  · intro hu
    have hr : IsRestriction u u P := fun b => ⟨fun _ => SameVal.refl _, fun hb => Tuple.not_has.1 (fun h => hb ((hP u hu b).1 h))⟩
    exact ⟨fun a => by rw [hP u hu a, or_self], ⟨u, hu, hr⟩, ⟨u, hu, hr⟩⟩

theorem joined_uniform {s t r : Rel A V} {P Q : A → Prop} (h : ∀ u, r.Mem u ↔ IsJoined s t P Q u) : Uniform r (fun a => P a ∨ Q a) :=
  fun u hu a => ((h u).1 hu).1 a

theorem JoinOf.assoc {x y z v w u : Tuple A V} (h : JoinOf x y v) (h' : JoinOf v z u) (g : JoinOf y z w) : JoinOf x w u := by
  intro a
  refine ⟨fun hx => ?_, fun hw => ?_, fun hx hw hu => ?_⟩
  · exact ((h' a).1 ((h.has a).2 (.inl hx))).trans ((h a).1 hx)
  · rcases (g.has a).1 hw with hy | hz
    · exact (((h' a).1 ((h.has a).2 (.inr hy))).trans ((h a).2.1 hy)).trans ((g a).1 hy).symm
    · exact ((h' a).2.1 hz).trans ((g a).2.1 hz).symm
  · rcases (h'.has a).1 hu with hv | hz
    · rcases (h.has a).1 hv with hx' | hy
      · exact hx hx'
      · exact hw ((g.has a).2 (.inl hy))
    · exact hw ((g.has a).2 (.inr hz))

/-- Two tuples that agree have a join, unless their attributes have the collision pattern. -/
theorem agree_join {x y : Tuple A V} (h : Agree x y) (hc : ¬ TripleClash x.Has y.Has) : ∃ u, JoinOf x y u := by
  obtain ⟨u, _, h2⟩ := Tuple.update_spec x y hc
  exact ⟨u, (joinOf_iff h u).2 (fun a => by rw [h2]; exact SameVal.refl _)⟩

theorem uniform_clash {s t : Rel A V} {P Q : A → Prop} (hP : Uniform s P) (hQ : Uniform t Q) (hc : ¬ TripleClash P Q) {x y : Tuple A V}
    (hx : s.Mem x) (hy : t.Mem y) : ¬ TripleClash x.Has y.Has := by
  have e1 : x.Has = P := by funext a; exact propext (hP x hx a)
  have e2 : y.Has = Q := by funext a; exact propext (hQ y hy a)
  rw [e1, e2]; exact hc

/-- C67. `Join(Join(s, t), u)` `Equal`s `Join(s, Join(t, u))`, if some tuple of `t` matches some tuple of `u`. -/
theorem C67_join_assoc_partial (s t u : Rel A V) (hs : s.Reachable) (ht : t.Reachable) (hu : u.Reachable) (P Q R : A → Prop)
    (hP : Uniform s P) (hQ : Uniform t Q) (hR : Uniform u R) (hne : ∃ y z, t.Mem y ∧ u.Mem z ∧ Agree y z)
    (c1 : ¬ TripleClash P Q) (c2 : ¬ TripleClash (fun a => P a ∨ Q a) R) (c3 : ¬ TripleClash Q R) (c4 : ¬ TripleClash P (fun a => Q a ∨ R a)) :
    ∃ st tu r r', joinAll [s, t] = .ok st ∧ joinAll [st, u] = .ok r ∧ joinAll [t, u] = .ok tu ∧ joinAll [s, tu] = .ok r' ∧
      joinAll [s, t, u] = .ok r ∧ r.equal r' = .ok true := by
  obtain ⟨y0, z0, hy0, hz0, hag⟩ := hne
  obtain ⟨st, a1, a2, a3⟩ := C30_join_partial s t hs ht P Q hP hQ (.inl ⟨y0, hy0⟩) c1
  obtain ⟨tu, b1, b2, b3⟩ := C30_join_partial t u ht hu Q R hQ hR (.inl ⟨z0, hz0⟩) c3
  have hst := joined_uniform a3
  have htu := joined_uniform b3
  simp only [isJoined_iff hP hQ] at a3
  simp only [isJoined_iff hQ hR] at b3
  obtain ⟨w0, hw0⟩ := agree_join hag (uniform_clash hQ hR c3 hy0 hz0)
  obtain ⟨r, d1, d2, d3⟩ := C30_join_partial st u a2 hu _ R hst hR (.inl ⟨z0, hz0⟩) c2
  obtain ⟨r', e1, e2, e3⟩ := C30_join_partial s tu hs b2 P _ hP htu (.inl ⟨w0, (b3 w0).2 ⟨y0, z0, hy0, hz0, hw0⟩⟩) c4
  simp only [isJoined_iff hst hR] at d3
  simp only [isJoined_iff hP htu] at e3
  refine ⟨st, tu, r, r', a1, d1, b1, e1, ?_, relEqual_of_mem d2 e2 (fun v => ?_)⟩
  · have a1' : join s t = .ok st := by
      have : [t].foldlM join s = .ok st := a1
      rw [List.foldlM_cons] at this
      cases hj : join s t with
      | error e => rw [hj] at this; cases this
      | ok q => rw [hj] at this; exact this
    show [t, u].foldlM join s = _
    rw [List.foldlM_cons, a1']
    exact d1
  · rw [d3, e3]
    constructor
    · rintro ⟨p, z, hp, hz, hj⟩
      obtain ⟨x, y, hx, hy, hxy⟩ := (a3 p).1 hp
      have hyz : Agree y z := fun a h1 h2 =>
        ((hxy a).2.1 h1).symm.trans (hj.agree a ((hxy.has a).2 (.inr h1)) h2)
      obtain ⟨w, hw⟩ := agree_join hyz (uniform_clash hQ hR c3 hy hz)
      exact ⟨x, w, hx, (b3 w).2 ⟨y, z, hy, hz, hw⟩, hxy.assoc hj hw⟩
    · rintro ⟨x, w, hx, hw, hj⟩
      obtain ⟨y, z, hy, hz, hyz⟩ := (b3 w).1 hw
      have hxy : Agree x y := fun a h1 h2 =>
        (hj.agree a h1 ((hyz.has a).2 (.inl h2))).trans ((hyz a).1 h2)
      obtain ⟨p, hp⟩ := agree_join hxy (uniform_clash hP hQ c1 hx hy)
      exact ⟨p, z, (a3 p).2 ⟨x, y, hx, hy, hp⟩, hz, (hyz.symm.assoc hj.symm hp.symm).symm⟩

/-- C67. `Join` distributes over `Union`. (`Union` may panic, C13; hence `h1`, `h2`.) -/
theorem C67_join_union_partial (s s' t : Rel A V) (hs : s.Reachable) (hs' : s'.Reachable) (ht : t.Reachable) (P Q : A → Prop)
    (hP : Uniform s P) (hP' : Uniform s' P) (hQ : Uniform t Q) (hne : ∃ y, t.Mem y) (hc : ¬ TripleClash P Q) (ss : Rel A V)
    (h1 : s.union s' = .ok ss) :
    ∃ r1 r2 r, joinAll [s, t] = .ok r1 ∧ joinAll [s', t] = .ok r2 ∧ joinAll [ss, t] = .ok r ∧
      ∀ r3, r1.union r2 = .ok r3 → r.equal r3 = .ok true := by
  obtain ⟨r1, a1, a2, a3⟩ := C30_join_partial s t hs ht P Q hP hQ (.inl hne) hc
  obtain ⟨r2, b1, b2, b3⟩ := C30_join_partial s' t hs' ht P Q hP' hQ (.inl hne) hc
  have union_mem : ∀ {s t r : Rel A V}, s.Reachable → t.Reachable → s.union t = .ok r → r.Reachable ∧ ∀ w, r.Mem w ↔ s.Mem w ∨ t.Mem w := by
    intro s t r h h' hr
    by_cases hcl : TripleClash s.Mem t.Mem
    · rw [(FSet.union_spec h.valid h'.valid).1 hcl] at hr; cases hr
    · obtain ⟨r', g1, _, _, g4⟩ := (FSet.union_spec h.valid h'.valid).2 hcl
      rw [hr] at g1; cases g1
      obtain ⟨e, he⟩ := h
      obtain ⟨e', he'⟩ := h'
      exact ⟨⟨.union e e', by simp only [SetProg.run, he, he', bind, Except.bind]; exact hr⟩, g4⟩
  obtain ⟨u1, u2⟩ := union_mem hs hs' h1
  have hPss : Uniform ss P := fun x hx => ((u2 x).1 hx).elim (hP x) (hP' x)
  obtain ⟨r, c1, c2, c3⟩ := C30_join_partial ss t u1 ht P Q hPss hQ (.inl hne) hc
  refine ⟨r1, r2, r, a1, b1, c1, fun r3 h3 => ?_⟩
  obtain ⟨v1, v2⟩ := union_mem a2 b2 h3
  refine relEqual_of_mem c2 v1 (fun u => ?_)
  rw [c3, v2, a3, b3]
  unfold IsJoined
  simp only [u2]
  constructor
  · rintro ⟨k1, ⟨x, hx | hx, k2⟩, k3⟩
    · exact .inl ⟨k1, ⟨x, hx, k2⟩, k3⟩
    · exact .inr ⟨k1, ⟨x, hx, k2⟩, k3⟩
  · rintro (⟨k1, ⟨x, hx, k2⟩, k3⟩ | ⟨k1, ⟨x, hx, k2⟩, k3⟩)
    · exact ⟨k1, ⟨x, .inl hx, k2⟩, k3⟩
    · exact ⟨k1, ⟨x, .inr hx, k2⟩, k3⟩

theorem restriction_exists (x : Tuple A V) (attrs : List A) : ∃ u, IsRestriction u x (Named attrs) := by
  obtain ⟨u, _, h⟩ := Tuple.project_spec x attrs
  refine ⟨u, fun a => ?_⟩
  rw [h]
  unfold Named
  rw [← List.any_eq_true (p := fun c => GoKey.eq c a)]
  constructor
  · intro k; rw [if_pos k]; exact SameVal.refl _
  · intro k; rw [if_neg k]

/-- C67. `Project` twice is `Project` on the attributes named both times. -/
theorem C67_project_project (s : Rel A V) (hs : s.Reachable) (as bs cs : List A) (hcs : ∀ a, Named cs a ↔ Named as a ∧ Named bs a) :
    ∃ q r r', relProject s as = .ok q ∧ relProject q bs = .ok r ∧ relProject s cs = .ok r' ∧ r.equal r' = .ok true := by
  obtain ⟨q, a1, a2, a3⟩ := C31_project s hs as
  obtain ⟨r, b1, b2, b3⟩ := C31_project q a2 bs
  obtain ⟨r', c1, c2, c3⟩ := C31_project s hs cs
  refine ⟨q, r, r', a1, b1, c1, relEqual_of_mem b2 c2 (fun u => ?_)⟩
  rw [b3, c3]
  change (∃ y, q.Mem y ∧ IsRestriction u y (Named bs)) ↔ ∃ x, s.Mem x ∧ IsRestriction u x (Named cs)
  change ∀ y, q.Mem y ↔ ∃ x, s.Mem x ∧ IsRestriction y x (Named as) at a3
  constructor
  · rintro ⟨y, hy, h⟩
    obtain ⟨x, hx, h'⟩ := (a3 y).1 hy
    refine ⟨x, hx, fun a => ⟨fun k => ?_, fun k => ?_⟩⟩
    · exact ((h a).1 ((hcs a).1 k).2).trans ((h' a).1 ((hcs a).1 k).1)
    · by_cases kb : Named bs a
      · have ka : ¬ Named as a := fun ka => k ((hcs a).2 ⟨ka, kb⟩)
        have := (h a).1 kb
        rw [(h' a).2 ka] at this
        exact SameVal.none_iff.1 this
      · exact (h a).2 kb
  · rintro ⟨x, hx, h⟩
    obtain ⟨y, hy⟩ := restriction_exists x as
    refine ⟨y, (a3 y).2 ⟨x, hx, hy⟩, fun a => ⟨fun k => ?_, fun k => (h a).2 (fun kc => k ((hcs a).1 kc).2)⟩⟩
    by_cases ka : Named as a
    · exact ((h a).1 ((hcs a).2 ⟨ka, k⟩)).trans ((hy a).1 ka).symm
    · rw [(h a).2 (fun kc => ka ((hcs a).1 kc).1), (hy a).2 ka]; exact SameVal.refl _

/-- C67. `Project` on all attributes changes nothing. -/
theorem C67_project_all (s : Rel A V) (hs : s.Reachable) (attrs : List A) (hall : ∀ x, s.Mem x → ∀ a, x.Has a → Named attrs a) :
    ∃ r, relProject s attrs = .ok r ∧ r.equal s = .ok true := by
  obtain ⟨r, a1, a2, a3⟩ := C31_project s hs attrs
  have key : ∀ x, s.Mem x → ∀ u, IsRestriction u x (Named attrs) → SameTuple x u := by
    intro x hx u h a
    by_cases k : Named attrs a
    · exact ((h a).1 k).symm
    · rw [(h a).2 k, Tuple.not_has.1 (fun g => k (hall x hx a g))]; exact SameVal.refl _
  refine ⟨r, a1, relEqual_of_mem a2 hs (fun u => ?_)⟩
  rw [a3]
  constructor
  · rintro ⟨x, hx, h⟩; exact rel_mem_congr hs (key x hx u h) hx
  · intro hu
    refine ⟨u, hu, fun a => ⟨fun _ => SameVal.refl _, fun k => Tuple.not_has.1 (fun g => k (hall u hu a g))⟩⟩

theorem restr_has {x u : Tuple A V} {P : A → Prop} (h : IsRestriction u x P) (a : A) : u.Has a ↔ P a ∧ x.Has a := by
  by_cases k : P a
  · exact ((h a).1 k).isSome.trans ⟨fun g => ⟨k, g⟩, fun g => g.2⟩
  · exact ⟨fun g => absurd g (Tuple.not_has.2 ((h a).2 k)), fun g => absurd g.1 k⟩

/-- C67. A relation is contained in the `Join` of two projections that together have all its attributes. -/
theorem C67_decompose_partial (s : Rel A V) (hs : s.Reachable) (P : A → Prop) (hP : Uniform s P) (as bs : List A)
    (hcov : ∀ a, P a → Named as a ∨ Named bs a) (hc : ¬ TripleClash (fun a => Named as a ∧ P a) (fun a => Named bs a ∧ P a)) :
    ∃ p q r, relProject s as = .ok p ∧ relProject s bs = .ok q ∧ joinAll [p, q] = .ok r ∧ s.isSubsetOf r = .ok true := by
  obtain ⟨p, a1, a2, a3⟩ := C31_project s hs as
  obtain ⟨q, b1, b2, b3⟩ := C31_project s hs bs
  change ∀ y, p.Mem y ↔ ∃ x, s.Mem x ∧ IsRestriction y x (Named as) at a3
  change ∀ y, q.Mem y ↔ ∃ x, s.Mem x ∧ IsRestriction y x (Named bs) at b3
  have hp : Uniform p (fun a => Named as a ∧ P a) := by
    intro y hy a
    obtain ⟨x, hx, h⟩ := (a3 y).1 hy
    rw [restr_has h, hP x hx]
  have hq : Uniform q (fun a => Named bs a ∧ P a) := by
    intro y hy a
    obtain ⟨x, hx, h⟩ := (b3 y).1 hy
    rw [restr_has h, hP x hx]
  have hne : (∃ y, q.Mem y) ∨ ∀ x, ¬ p.Mem x := by
    by_cases h : ∃ x, s.Mem x
    · obtain ⟨x, hx⟩ := h
      obtain ⟨y, hy⟩ := restriction_exists x bs
      exact .inl ⟨y, (b3 y).2 ⟨x, hx, hy⟩⟩
    · refine .inr (fun y hy => ?_)
      obtain ⟨x, hx, _⟩ := (a3 y).1 hy
      exact h ⟨x, hx⟩
  obtain ⟨r, c1, c2, c3⟩ := C30_join_partial p q a2 b2 _ _ hp hq hne hc
  refine ⟨p, q, r, a1, b1, c1, relSubset_of_mem hs c2 (fun u hu => ?_)⟩
  rw [c3, isJoined_iff hp hq]
  obtain ⟨x, hx⟩ := restriction_exists u as
  obtain ⟨y, hy⟩ := restriction_exists u bs
  refine ⟨x, y, (a3 x).2 ⟨u, hu, hx⟩, (b3 y).2 ⟨u, hu, hy⟩, fun a => ⟨fun h => ?_, fun h => ?_, fun h h' g => ?_⟩⟩
  · exact ((hx a).1 ((restr_has hx a).1 h).1).symm
  · exact ((hy a).1 ((restr_has hy a).1 h).1).symm
  · rcases hcov a ((hP u hu a).1 g) with k | k
    · exact h ((restr_has hx a).2 ⟨k, g⟩)
    · exact h' ((restr_has hy a).2 ⟨k, g⟩)

/-- C67. Projecting `Join(s, t)` on the attributes of `s` gives tuples of `s` only: exactly those that match a tuple of `t`. -/
theorem C67_semijoin_partial (s t : Rel A V) (hs : s.Reachable) (ht : t.Reachable) (as : List A) (Q : A → Prop)
    (hP : Uniform s (Named as)) (hQ : Uniform t Q) (hne : ∃ y, t.Mem y) (hc : ¬ TripleClash (Named as) Q) :
    ∃ r p, joinAll [s, t] = .ok r ∧ relProject r as = .ok p ∧ p.isSubsetOf s = .ok true ∧
      ∀ x, p.Mem x ↔ s.Mem x ∧ ∃ y, t.Mem y ∧ Agree x y := by
  obtain ⟨r, a1, a2, a3⟩ := C30_join_partial s t hs ht _ Q hP hQ (.inl hne) hc
  obtain ⟨p, b1, b2, b3⟩ := C31_project r a2 as
  change ∀ y, p.Mem y ↔ ∃ x, r.Mem x ∧ IsRestriction y x (Named as) at b3
  simp only [isJoined_iff hP hQ] at a3
  have key : ∀ x, p.Mem x ↔ s.Mem x ∧ ∃ y, t.Mem y ∧ Agree x y := by
    intro v
    rw [b3]
    constructor
    · rintro ⟨u, hu, hv⟩
      obtain ⟨x, y, hx, hy, hj⟩ := (a3 u).1 hu
      have e : SameTuple x v := by
        intro a
        by_cases k : Named as a
        · exact ((hj a).1 ((hP x hx a).2 k)).symm.trans ((hv a).1 k).symm
        · rw [(hv a).2 k, Tuple.not_has.1 (fun g => k ((hP x hx a).1 g))]; exact SameVal.refl _
      exact ⟨rel_mem_congr hs e hx, y, hy, fun a h1 h2 => (e a).symm.trans (hj.agree a ((e a).isSome.2 h1) h2)⟩
    · rintro ⟨hv, y, hy, hag⟩
      obtain ⟨u, hu⟩ := agree_join hag (uniform_clash hP hQ hc hv hy)
      refine ⟨u, (a3 u).2 ⟨v, y, hv, hy, hu⟩, fun a => ⟨fun k => ((hu a).1 ((hP v hv a).2 k)).symm, fun k => ?_⟩⟩
      exact Tuple.not_has.1 (fun g => k ((hP v hv a).1 g))
  exact ⟨r, p, a1, b1, relSubset_of_mem b2 hs (fun u hu => ((key u).1 hu).1), key⟩

/-- C67. `Join` of relations without common attributes `Equal`s their `CartesianProduct`. -/
theorem C67_join_product_partial (s t : Rel A V) (hs : s.Reachable) (ht : t.Reachable) (P Q : A → Prop) (hP : Uniform s P) (hQ : Uniform t Q)
    (hd : ∀ a, P a → ¬ Q a) (hne : ∃ y, t.Mem y) (hc : ¬ TripleClash P Q) :
    ∃ r r', joinAll [s, t] = .ok r ∧ cartesianProduct [s, t] = .ok r' ∧ r.equal r' = .ok true := by
  obtain ⟨r, a1, a2, a3⟩ := C30_join_partial s t hs ht P Q hP hQ (.inl hne) hc
  simp only [isJoined_iff hP hQ] at a3
  have hH : HeadersOk (fun _ => False) [P, Q] := by
    refine ⟨not_clash_empty P, ?_, trivial⟩
    have : (fun a => False ∨ P a) = P := by funext a; simp
    rw [this]; exact hc
  obtain ⟨r', b1, b2, b3⟩ := C31_cartesianProduct_partial [s, t] (by simp [hs, ht]) [P, Q] (.cons hP (.cons hQ .nil)) (by simpa using hd) hH
  refine ⟨r, r', a1, b1, relEqual_of_mem a2 b2 (fun u => ?_)⟩
  rw [a3, b3]
  have j : ∀ x y, JoinOfAll [x, y] u ↔ JoinOf x y u := by
    intro x y
    unfold JoinOfAll JoinOf
    simp [and_assoc]
  constructor
  · rintro ⟨x, y, hx, hy, h⟩
    exact ⟨[x, y], .cons hx (.cons hy .nil), (j x y).2 h⟩
  · rintro ⟨_, hxs, h⟩
    cases hxs with
    | cons hx hxs =>
      cases hxs with
      | cons hy hxs =>
        cases hxs
        exact ⟨_, _, hx, hy, (j _ _).1 h⟩

end

/-! ### Witnesses -/

section
local instance relLawsGoHash : GoHash := ⟨fun x _ => x⟩

/-- C67. `Join` is not commutative if one relation is empty and the other is not. -/
theorem C67_join_comm_refuted : ∃ s t r r' : Rel Coll Mod100, s.Reachable ∧ t.Reachable ∧ (∃ P, Uniform s P ∧ Uniform t P ∧ ¬ TripleClash P P) ∧
    joinAll [s, t] = .ok r ∧ joinAll [t, s] = .ok r' ∧ r.equal r' = .ok false := by
  obtain ⟨s, h1, ⟨x, hx⟩, h3⟩ := example_rel (fun n => (⟨n⟩ : Mod100))
  have hz : ∀ y, ¬ (FSet.zero : Rel Coll Mod100).Mem y := by intro y; unfold FSet.Mem; intro h; cases h
  have hzr : (FSet.zero : Rel Coll Mod100).Reachable := ⟨.newSet [], rfl⟩
  obtain ⟨b, b1, b2⟩ := FSet.equal_spec h1.valid hzr.valid
  refine ⟨s, FSet.zero, s, FSet.zero, h1, hzr, ⟨_, h3, fun y hy => absurd hy (hz y), ?_⟩, C30_join_empty_right s FSet.zero hzr hz, ?_, ?_⟩
  · exact not_clash_two ⟨1⟩ ⟨2⟩ (fun e he => by simpa [Coll.eq_iff, eq_comm] using he)
  · show [s].foldlM join FSet.zero = _
    rw [List.foldlM_cons, join_empty (.inl rfl)]; rfl
  · cases b with
    | true => exact absurd ((b2.1 rfl x).1 hx) (hz x)
    | false => exact b1

/-- C67. `Join` is not associative: if no tuple of `t` matches a tuple of `u`, `Join(s, Join(t, u))` is `s`, and `Join(Join(s, t), u)` is
empty. -/
theorem C67_join_assoc_refuted : ∃ s t u st tu r r' : Rel Coll Mod100, s.Reachable ∧ t.Reachable ∧ u.Reachable ∧
    s.count = 1 ∧ t.count = 1 ∧ u.count = 1 ∧ joinAll [s, t] = .ok st ∧ joinAll [st, u] = .ok r ∧ joinAll [t, u] = .ok tu ∧
    joinAll [s, tu] = .ok r' ∧ r.equal r' = .ok false := by
  have hok : okAnd (relNew [(⟨1⟩ : Coll)] [[(⟨1⟩ : Mod100)]]) (fun s => okAnd (relNew [(⟨2⟩ : Coll)] [[(⟨1⟩ : Mod100)]]) (fun t =>
      okAnd (relNew [(⟨2⟩ : Coll)] [[(⟨2⟩ : Mod100)]]) (fun u => decide (s.count = 1 ∧ t.count = 1 ∧ u.count = 1) &&
        okAnd (joinAll [s, t]) (fun st => okAnd (joinAll [st, u]) (fun r => okAnd (joinAll [t, u]) (fun tu =>
          okAnd (joinAll [s, tu]) (fun r' => okAnd (r.equal r') (fun b => !b)))))))) = true := by decide +kernel
  obtain ⟨s, s1, hok⟩ := of_okAnd hok
  obtain ⟨t, t1, hok⟩ := of_okAnd hok
  obtain ⟨u, u1, hok⟩ := of_okAnd hok
  rw [Bool.and_eq_true] at hok
  obtain ⟨hn, hok⟩ := hok
  obtain ⟨st, st1, hok⟩ := of_okAnd hok
  obtain ⟨r, r1, hok⟩ := of_okAnd hok
  obtain ⟨tu, tu1, hok⟩ := of_okAnd hok
  obtain ⟨r', r1', hok⟩ := of_okAnd hok
  obtain ⟨b, b1, hok⟩ := of_okAnd hok
  have hb : b = false := by simpa using hok
  subst hb
  have hr : ∀ {h : List Coll} {rows : List (List Mod100)} {q : Rel Coll Mod100}, (∀ row ∈ rows, row.length = h.length) →
      relNew h rows = .ok q → q.Reachable := by
    intro h rows q hl hq
    obtain ⟨q', g1, g2, _⟩ := C31_new h rows hl
    rw [hq] at g1; cases g1; exact g2
  have hn := of_decide_eq_true hn
  exact ⟨s, t, u, st, tu, r, r', hr (by simp) s1, hr (by simp) t1, hr (by simp) u1, hn.1, hn.2.1, hn.2.2, st1, r1, tu1, r1', b1⟩

/-- Three relations with headers `{1, 2}`, `{2, 3}` and `{3, 4}` meet the hypotheses of `C67_join_assoc_partial`, and those of
`C67_join_comm_partial`, `C67_join_union_partial` and `C67_semijoin_partial`. -/
example : ∃ (s t u : Rel Coll Mod100) (P Q R : Coll → Prop), s.Reachable ∧ t.Reachable ∧ u.Reachable ∧ Uniform s P ∧ Uniform t Q ∧ Uniform u R ∧
    P = Named [⟨1⟩, ⟨2⟩] ∧ (∃ x, s.Mem x) ∧ (∃ y z, t.Mem y ∧ u.Mem z ∧ Agree y z) ∧
    ¬ TripleClash P Q ∧ ¬ TripleClash (fun a => P a ∨ Q a) R ∧ ¬ TripleClash Q R ∧ ¬ TripleClash P (fun a => Q a ∨ R a) := by
  have mk : ∀ (a b : Coll) (row : List Mod100) (rows : List (List Mod100)), (∀ r ∈ row :: rows, r.length = 2) →
      ∃ s : Rel Coll Mod100, s.Reachable ∧ Uniform s (Named [a, b]) ∧ ∃ x, s.Mem x ∧ ∀ c, x.val c = rowVal [a, b] row c := by
    intro a b row rows hl
    obtain ⟨r, h1, h2, h3⟩ := C31_new [a, b] (row :: rows) hl
    obtain ⟨r', g1, g2⟩ := C31_new_uniform [a, b] (row :: rows) hl
    rw [h1] at g1; cases g1
    obtain ⟨x, _, x2⟩ := rowTuple_spec [a, b] row
    exact ⟨r, h2, g2, x, (h3 x).2 ⟨row, by simp, fun c => by rw [x2]; exact SameVal.refl _⟩, x2⟩
  have nc : ∀ (a b : Coll) (Q : Coll → Prop), ¬ TripleClash (Named [a, b]) Q := by
    intro a b Q
    refine not_clash_two a b ?_
    rintro e ⟨c, hc, he⟩
    simp only [List.mem_cons, List.not_mem_nil, or_false] at hc
    rcases hc with rfl | rfl
    · exact .inl he
    · exact .inr he
  obtain ⟨s, s1, s2, x, s3, _⟩ := mk ⟨1⟩ ⟨2⟩ [⟨1⟩, ⟨2⟩] [[⟨1⟩, ⟨3⟩]] (by simp)
  obtain ⟨t, t1, t2, y, t3, t4⟩ := mk ⟨2⟩ ⟨3⟩ [⟨2⟩, ⟨7⟩] [[⟨4⟩, ⟨7⟩]] (by simp)
  obtain ⟨u, u1, u2, z, u3, u4⟩ := mk ⟨3⟩ ⟨4⟩ [⟨7⟩, ⟨5⟩] [[⟨8⟩, ⟨6⟩]] (by simp)
  refine ⟨s, t, u, _, _, _, s1, t1, u1, s2, t2, u2, rfl, ⟨x, s3⟩, ⟨y, z, t3, u3, fun a h1 h2 => ?_⟩, nc _ _ _, fun h => nc _ _ _ (tripleClash_symm h),
    nc _ _ _, nc _ _ _⟩
  obtain ⟨c, hc, he⟩ := (t2 y t3 a).1 h1
  obtain ⟨d, hd, hf⟩ := (u2 z u3 a).1 h2
  rw [Coll.eq_iff] at he hf
  subst he; subst hf
  simp only [List.mem_cons, List.not_mem_nil, or_false] at hc hd
  have hd3 : d = ⟨3⟩ := by
    rcases hc with rfl | rfl <;> simp_all
  subst hd3
  rw [t4, u4]
  exact LawfulGoKey.refl (⟨7⟩ : Mod100)

/-- `Join` both ways, and projections of the result: one gives the first relation back, the other loses a tuple of the second. -/
example : okAnd (relNew [(⟨1⟩ : Coll), ⟨2⟩] [[(⟨1⟩ : Mod100), ⟨10⟩], [⟨2⟩, ⟨10⟩]]) (fun s =>
    okAnd (relNew [(⟨2⟩ : Coll), ⟨3⟩] [[(⟨10⟩ : Mod100), ⟨7⟩], [⟨110⟩, ⟨8⟩], [⟨30⟩, ⟨9⟩]]) (fun t =>
      okAnd (joinAll [s, t]) (fun r => decide (r.count = 4) && okAnd (joinAll [t, s]) (fun r' => isOk (r.equal r') true) &&
        okAnd (relProject r [⟨1⟩, ⟨2⟩]) (fun p => isOk (p.equal s) true) &&
        okAnd (relProject r [⟨2⟩, ⟨3⟩]) (fun p => isOk (p.equal t) false && isOk (p.isSubsetOf t) true)))) = true := by decide +kernel

/-- A decomposition that is not exact: two tuples become four. -/
example : okAnd (relNew [(⟨1⟩ : Coll), ⟨2⟩, ⟨3⟩] [[(⟨1⟩ : Mod100), ⟨10⟩, ⟨5⟩], [⟨2⟩, ⟨10⟩, ⟨6⟩]]) (fun s =>
    okAnd (relProject s [⟨1⟩, ⟨2⟩]) (fun p => okAnd (relProject s [⟨2⟩, ⟨3⟩]) (fun q => okAnd (joinAll [p, q]) (fun r =>
      decide (s.count = 2 ∧ r.count = 4) && isOk (s.isSubsetOf r) true)))) = true := by decide +kernel

end

end Frozen
