import Verif.Spec.Rehash
import Verif.Props.SetBasic
import Verif.Props.Map

/-! The hash function has no influence on what programs describe. -/

set_option linter.unusedSectionVars false

namespace Frozen

variable {T K V : Type}

theorem rehash_describes (A : GoKey T) (h : BitVec 64 → T → BitVec 64) : ∀ (p : @SetProg T A) (P : T → Prop),
    @SetProg.Describes T (A.withHash h) (p.rehash A h) P ↔ @SetProg.Describes T A p P
  | .newSet vs, P => Iff.rfl
  | .build ops, P => by
    simp only [SetProg.rehash, SetProg.Describes]
    have : ∀ (ops : List (BuildOp T)) (Q : T → Prop),
        ops.foldl (@BuildOp.effect T (A.withHash h)) Q = ops.foldl (@BuildOp.effect T A) Q := by
      intro ops
      induction ops with
      | nil => intro Q; rfl
      | cons op ops ih => intro Q; simp only [List.foldl_cons]; rw [← ih]; cases op <;> rfl
    rw [this]
  | .with p v, P => by simp only [SetProg.rehash, SetProg.Describes, rehash_describes A h p]; exact Iff.rfl
  | .without p v, P => by simp only [SetProg.rehash, SetProg.Describes, rehash_describes A h p]; exact Iff.rfl
  | .where p f r, P => by simp only [SetProg.rehash, SetProg.Describes, rehash_describes A h p]
  | .union p q, P => by simp only [SetProg.rehash, SetProg.Describes, rehash_describes A h p, rehash_describes A h q]
  | .intersection p q, P => by simp only [SetProg.rehash, SetProg.Describes, rehash_describes A h p, rehash_describes A h q]
  | .difference p q, P => by simp only [SetProg.rehash, SetProg.Describes, rehash_describes A h p, rehash_describes A h q]
  | .symmetricDifference p q, P => by simp only [SetProg.rehash, SetProg.Describes, rehash_describes A h p, rehash_describes A h q]
  | .anyN p n, P => by
    simp only [SetProg.rehash, SetProg.Describes, rehash_describes A h p]
    have : ∀ Q c, @HasCard T (A.withHash h) Q c ↔ @HasCard T A Q c := fun Q c =>
      ⟨fun ⟨l, h1, h2⟩ => ⟨l, @Lists.mk T A l Q (@Lists.different T (A.withHash h) l Q h1) (@Lists.covers T (A.withHash h) l Q h1), h2⟩,
        fun ⟨l, h1, h2⟩ => ⟨l, @Lists.mk T (A.withHash h) l Q (@Lists.different T A l Q h1) (@Lists.covers T A l Q h1), h2⟩⟩
    simp only [this]

theorem rehash_kept (A : GoKey T) (h : BitVec 64 → T → BitVec 64) : ∀ (p : @SetProg T A) (w : T),
    @SetProg.kept T (A.withHash h) (p.rehash A h) w = @SetProg.kept T A p w
  | .newSet vs, w => rfl
  | .build ops, w => rfl
  | .with p v, w => by simp only [SetProg.rehash, SetProg.kept, rehash_kept A h p]; rfl
  | .without p v, w => by simp only [SetProg.rehash, SetProg.kept, rehash_kept A h p]; rfl
  | .where p f r, w => by simp only [SetProg.rehash, SetProg.kept, rehash_kept A h p]
  | .union p q, w => by simp only [SetProg.rehash, SetProg.kept, rehash_kept A h p, rehash_kept A h q]
  | .intersection p q, w => rfl
  | .difference p q, w => by simp only [SetProg.rehash, SetProg.kept, rehash_kept A h p, rehash_kept A h q]
  | .symmetricDifference p q, w => by simp only [SetProg.rehash, SetProg.kept, rehash_kept A h p, rehash_kept A h q]
  | .anyN p n, w => rfl

theorem withHash_lawful (A : GoKey T) (hA : @LawfulGoKey T A) (h : BitVec 64 → T → BitVec 64)
    (hc : ∀ seed a b, A.eq a b = true → h seed a = h seed b) : @LawfulGoKey T (A.withHash h) :=
  have hp := @LawfulGoKey.toPerGoKey T A hA
  @LawfulGoKey.mk T (A.withHash h) (@PerGoKey.mk T (A.withHash h) (@PerGoKey.symm T A hp) (@PerGoKey.trans T A hp) hc)
    (@LawfulGoKey.refl T A hA)

theorem rehash_noAnyN (A : GoKey T) (h : BitVec 64 → T → BitVec 64) : ∀ (p : @SetProg T A),
    @SetProg.NoAnyN T (A.withHash h) (p.rehash A h) ↔ @SetProg.NoAnyN T A p
  | .newSet _ | .build _ | .anyN _ _ => Iff.rfl
  | .with p _ | .without p _ | .where p _ _ => rehash_noAnyN A h p
  | .union p q | .intersection p q | .difference p q | .symmetricDifference p q => and_congr (rehash_noAnyN A h p) (rehash_noAnyN A h q)

theorem rehash_intersects (A : GoKey T) (h : BitVec 64 → T → BitVec 64) : ∀ (p : @SetProg T A),
    @SetProg.Intersects T (A.withHash h) (p.rehash A h) ↔ @SetProg.Intersects T A p
  | .newSet _ | .build _ | .intersection _ _ => Iff.rfl
  | .with p _ | .without p _ | .where p _ _ | .anyN p _ => rehash_intersects A h p
  | .union p q | .difference p q | .symmetricDifference p q => or_congr (rehash_intersects A h p) (rehash_intersects A h q)

theorem rehash_denote (A : GoKey K) (h : BitVec 64 → K → BitVec 64) : ∀ (p : @MapProg K V A),
    @MapProg.denote K V (A.withHash h) (p.rehash A h) = @MapProg.denote K V A p
  | .newMap kvs => rfl
  | .build ops => by
    simp only [MapProg.rehash, MapProg.denote]
    have : ∀ (ops : List (MapBuildOp K V)) (Q : K → Option V),
        ops.foldl (@MapBuildOp.effect K V (A.withHash h)) Q = ops.foldl (@MapBuildOp.effect K V A) Q := by
      intro ops
      induction ops with
      | nil => intro Q; rfl
      | cons op ops ih => intro Q; simp only [List.foldl_cons]; rw [← ih]; cases op <;> rfl
    rw [this]
  | .with p k v => by simp only [MapProg.rehash, MapProg.denote, rehash_denote A h p]; rfl
  | .without p k => by simp only [MapProg.rehash, MapProg.denote, rehash_denote A h p]; rfl
  | .project p ks => by simp only [MapProg.rehash, MapProg.denote, rehash_denote A h p]; rfl
  | .where p f r => by simp only [MapProg.rehash, MapProg.denote, rehash_denote A h p]
  | .update p q => by simp only [MapProg.rehash, MapProg.denote, rehash_denote A h p, rehash_denote A h q]
  | .merge p q f r => by simp only [MapProg.rehash, MapProg.denote, rehash_denote A h p, rehash_denote A h q]

variable [GoKey T] [LawfulGoKey T]

theorem SetProg.run_kept : ∀ (p : SetProg T) {s : FSet T}, p.run = .ok s → p.NoAnyN → ¬ p.Intersects →
    ∀ w, s.tree.look w = p.kept w
  | .newSet vs, s, h, _, _ => by
    obtain ⟨s', h1, _, h3, _⟩ := buildSet_spec vs
    have h : buildSet vs = .ok s := h
    rw [h1] at h; cases h
    exact h3
  | .build ops, s, h, _, _ => by
    have key : ∀ (ops : List (BuildOp T)) (b b' : SetBuilder T), Tree.Valid b → ops.foldlM (fun b op => op.run b) b = .ok b' →
        ∀ w, Tree.look b' w = ops.foldl (fun r op => match op with
          | .add v => if GoKey.eq v w = true then some v else r
          | .remove v => if GoKey.eq v w = true then none else r) (Tree.look b w) := by
      intro ops
      induction ops with
      | nil => intro b b' _ h w; cases h; rfl
      | cons op ops ih =>
        intro b b' hb h w
        rw [List.foldlM_cons] at h
        cases op with
        | add v =>
          obtain ⟨t', h1, h2, h3, _⟩ := Builder.add_spec hb v
          have h1' : BuildOp.run b (.add v) = .ok t' := h1
          rw [h1'] at h
          rw [ih t' b' h2 h w, List.foldl_cons, h3]
        | remove v =>
          obtain ⟨t', h1, h2, h3, _⟩ := Builder.remove_spec hb v
          have h1' : BuildOp.run b (.remove v) = .ok t' := h1
          rw [h1'] at h
          rw [ih t' b' h2 h w, List.foldl_cons, h3]
    simp only [SetProg.run] at h
    cases hf : ops.foldlM (fun b op => op.run b) (Tree.zero : SetBuilder T) with
    | error e => rw [hf] at h; cases h
    | ok b =>
      rw [hf] at h; cases h
      exact key ops _ b Tree.valid_zero hf
  | .with p v, s, h, ha, hi => by
    cases hp : p.run with
    | error e => simp [SetProg.run, hp, bind, Except.bind] at h
    | ok a =>
      obtain ⟨s', h1, h2, h3, _⟩ := FSet.with_spec (SetProg.run_spec p hp).1 v
      simp only [SetProg.run, hp, bind, Except.bind, h1] at h; cases h
      intro w; rw [h3, run_kept p hp ha hi]; rfl
  | .without p v, s, h, ha, hi => by
    cases hp : p.run with
    | error e => simp [SetProg.run, hp, bind, Except.bind] at h
    | ok a =>
      obtain ⟨s', h1, h2, h3, _⟩ := FSet.without_spec (SetProg.run_spec p hp).1 v
      simp only [SetProg.run, hp, bind, Except.bind, h1] at h; cases h
      intro w; rw [h3, run_kept p hp ha hi]; rfl
  | .where p f r, s, h, ha, hi => by
    cases hp : p.run with
    | error e => simp [SetProg.run, hp, bind, Except.bind] at h
    | ok a =>
      obtain ⟨s', h1, h2, h3, _⟩ := FSet.where_spec (SetProg.run_spec p hp).1 f
      simp only [SetProg.run, hp, bind, Except.bind, h1] at h; cases h
      intro w; rw [h3, run_kept p hp ha hi]; rfl
  | .union p q, s, h, ha, hi => by
    cases hp : p.run with
    | error e => simp [SetProg.run, hp, bind, Except.bind] at h
    | ok a =>
      cases hq : q.run with
      | error e => simp [SetProg.run, hp, hq, bind, Except.bind] at h
      | ok b =>
        simp only [SetProg.run, hp, hq, bind, Except.bind] at h
        intro w
        rw [union_look (SetProg.run_spec p hp).1 (SetProg.run_spec q hq).1 h, run_kept p hp ha.1 (fun h => hi (.inl h)),
          run_kept q hq ha.2 (fun h => hi (.inr h))]
        rfl
  | .intersection p q, s, h, ha, hi => absurd trivial hi
  | .difference p q, s, h, ha, hi => by
    cases hp : p.run with
    | error e => simp [SetProg.run, hp, bind, Except.bind] at h
    | ok a =>
      cases hq : q.run with
      | error e => simp [SetProg.run, hp, hq, bind, Except.bind] at h
      | ok b =>
        obtain ⟨s', h1, h2, h3, _⟩ := FSet.difference_spec (SetProg.run_spec p hp).1 (SetProg.run_spec q hq).1
        simp only [SetProg.run, hp, hq, bind, Except.bind, h1] at h; cases h
        intro w
        rw [h3, run_kept p hp ha.1 (fun h => hi (.inl h)), run_kept q hq ha.2 (fun h => hi (.inr h))]
        rfl
  | .symmetricDifference p q, s, h, ha, hi => by
    cases hp : p.run with
    | error e => simp [SetProg.run, hp, bind, Except.bind] at h
    | ok a =>
      cases hq : q.run with
      | error e => simp [SetProg.run, hp, hq, bind, Except.bind] at h
      | ok b =>
        have va := (SetProg.run_spec p hp).1
        have vb := (SetProg.run_spec q hq).1
        obtain ⟨c, c1, c2, c3, _⟩ := FSet.difference_spec va vb
        obtain ⟨d, d1, d2, d3, _⟩ := FSet.difference_spec vb va
        simp only [SetProg.run, hp, hq, bind, Except.bind, FSet.symmetricDifference, c1, d1] at h
        intro w
        rw [union_look c2 d2 h, c3, d3, run_kept p hp ha.1 (fun h => hi (.inl h)), run_kept q hq ha.2 (fun h => hi (.inr h))]
        rfl
  | .anyN p n, s, h, ha, hi => ha.elim
where
  union_look {s t u : FSet T} (h : s.Valid) (ht : t.Valid) (hu : s.union t = .ok u) (w : T) :
      u.tree.look w = (t.tree.look w).or (s.tree.look w) := by
    obtain ⟨h1, h2⟩ := FSet.union_spec h ht
    by_cases hc : TripleClash s.Mem t.Mem
    · rw [h1 hc] at hu; cases hu
    · obtain ⟨s', g1, _, g3, _⟩ := h2 hc
      rw [g1] at hu; cases hu
      rw [g3]
      cases t.tree.look w <;> rfl

/-- Two sorted listings of the same set agree element by element. -/
theorem sorted_unique {less : T → T → Bool} (ho : TotalOrderOn less) : ∀ (l l' : List T), Sorted less l → Sorted less l' →
    PairwiseDifferent l → PairwiseDifferent l' → (∀ w, (∃ e ∈ l, GoKey.eq e w = true) ↔ ∃ e ∈ l', GoKey.eq e w = true) →
    List.Forall₂ (fun a b => GoKey.eq a b = true) l l'
  | [], [], _, _, _, _, _ => .nil
  | [], b :: l', _, _, _, _, h => by
    obtain ⟨e, he, _⟩ := (h b).2 ⟨b, by simp, LawfulGoKey.refl b⟩
    cases he
  | a :: l, [], _, _, _, _, h => by
    obtain ⟨e, he, _⟩ := (h a).1 ⟨a, by simp, LawfulGoKey.refl a⟩
    cases he
  | a :: l, b :: l', hs, hs', hd, hd', h => by
    have hle : ∀ {a b : T} {l l' : List T}, Sorted less (b :: l') → (∃ e ∈ b :: l', GoKey.eq e a = true) → less a b = false := by
      intro a b l l' hs ⟨e, he, hea⟩
      cases hab : less a b with
      | false => rfl
      | true =>
        rcases List.mem_cons.1 he with rfl | he
        · rw [ho.respects a e (PerGoKey.symm hea)] at hab; cases hab
        · have h1 : less e b = false := (List.pairwise_cons.1 hs).1 e he
          cases heb : less b e with
          | true =>
            have := ho.trans a b e hab heb
            rw [ho.respects a e (PerGoKey.symm hea)] at this; cases this
          | false =>
            have := (ho.incomp a e b (ho.respects a e (PerGoKey.symm hea)) (ho.respects e a hea) h1 heb).1
            rw [this] at hab; cases hab
    have h1 : less a b = false := hle (l := l) hs' ((h a).1 ⟨a, by simp, LawfulGoKey.refl a⟩)
    have h2 : less b a = false := hle (l := l') hs ((h b).2 ⟨b, by simp, LawfulGoKey.refl b⟩)
    have hab := ho.decides a b h1 h2
    have hstep : ∀ {a b : T} {l l' : List T}, GoKey.eq a b = true → PairwiseDifferent (a :: l) →
        (∀ w, (∃ e ∈ a :: l, GoKey.eq e w = true) → ∃ e ∈ b :: l', GoKey.eq e w = true) →
        ∀ w, (∃ e ∈ l, GoKey.eq e w = true) → ∃ e ∈ l', GoKey.eq e w = true := by
      intro a b l l' hab hd h w ⟨e, he, hew⟩
      obtain ⟨e', he', hew'⟩ := h w ⟨e, by simp [he], hew⟩
      rcases List.mem_cons.1 he' with rfl | he'
      · have : GoKey.eq a e = false := (List.pairwise_cons.1 hd).1 e he
        rw [PerGoKey.trans hab (PerGoKey.trans hew' (PerGoKey.symm hew))] at this
        cases this
      · exact ⟨e', he', hew'⟩
    refine .cons hab (sorted_unique ho l l' (List.pairwise_cons.1 hs).2 (List.pairwise_cons.1 hs').2 (List.pairwise_cons.1 hd).2
      (List.pairwise_cons.1 hd').2 (fun w => ⟨?_, ?_⟩))
    · exact hstep hab hd (fun w => (h w).1) w
    · exact hstep (PerGoKey.symm hab) hd' (fun w => (h w).2) w

end Frozen
