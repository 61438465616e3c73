import Verif.Spec.Value
import Verif.Proof.Nested

/-! # `value.Equal` on interface types -/

set_option linter.unusedSectionVars false

namespace Frozen

section
variable {U Ty : Type} [DecidableEq Ty] {D : Dyn U Ty}

theorem Dyn.method_or_plain (D : Dyn U Ty) (t : Ty) : (∃ f, D.Method t f) ∨ D.Plain t := by
  unfold Dyn.Method Dyn.Plain
  cases D.equal t with
  | some f => exact .inl ⟨f, .inl rfl⟩
  | none =>
    cases D.same t with
    | some f => exact .inl ⟨f, .inr ⟨rfl, rfl⟩⟩
    | none => exact .inr ⟨rfl, rfl⟩

theorem Dyn.valueEqual_method {a : U} {f} (h : D.Method (D.ty a) f) (b : U) : D.valueEqual a b = f a b := by
  unfold Dyn.valueEqual
  rcases h with h | ⟨h, g⟩
  · rw [h]
  · rw [h, g]

theorem Dyn.valueEqual_plain {a : U} (h : D.Plain (D.ty a)) (b : U) : D.valueEqual a b = D.ifaceEq a b := by
  unfold Dyn.valueEqual
  rw [h.1, h.2]

/-- What a lawful type answers. -/
theorem Dyn.Lawful.at (h : D.Lawful) (x : U) : ∃ e, D.EquivOn (D.ty x) e ∧
    ∀ a b, D.ty a = D.ty x → (D.ty b = D.ty x → D.valueEqual a b = .ok (e a b)) ∧ (D.ty b ≠ D.ty x → D.valueEqual a b = .ok false) := by
  rcases D.method_or_plain (D.ty x) with ⟨f, hf⟩ | hp
  · obtain ⟨e, he, h1⟩ := h.method _ f hf
    refine ⟨e, he, fun a b ha => ?_⟩
    rw [D.valueEqual_method (a := a) (by rw [ha]; exact hf)]
    exact h1 a b ha
  · obtain ⟨e, he, h1⟩ := h.plain x hp
    refine ⟨e, h1, fun a b ha => ?_⟩
    rw [D.valueEqual_plain (a := a) (by rw [ha]; exact hp)]
    unfold Dyn.ifaceEq
    rw [ha, he]
    constructor
    · intro hb; rw [if_pos hb.symm]
    · intro hb; rw [if_neg (fun h => hb h.symm)]

theorem Dyn.Lawful.equiv (h : D.Lawful) : ∃ eqv, D.TypedEquiv eqv ∧ ∀ a b, D.valueEqual a b = .ok (eqv a b) := by
  have htot : ∀ a b, ∃ r, D.valueEqual a b = .ok r := by
    intro a b
    obtain ⟨e, _, h1⟩ := h.at a
    by_cases hb : D.ty b = D.ty a
    · exact ⟨_, (h1 a b rfl).1 hb⟩
    · exact ⟨_, (h1 a b rfl).2 hb⟩
  choose eqv heqv using htot
  refine ⟨eqv, ⟨?_, ?_, ?_, ?_⟩, heqv⟩
  · intro a
    obtain ⟨e, h1, h2⟩ := h.at a
    have := (h2 a a rfl).1 rfl
    rw [heqv] at this
    rw [Except.ok.inj this]; exact h1.refl a rfl
  · intro a b hab
    obtain ⟨e, h1, h2⟩ := h.at a
    by_cases hb : D.ty b = D.ty a
    · have k1 := (h2 a b rfl).1 hb
      have k2 := (h2 b a hb).1 rfl
      rw [heqv] at k1 k2
      rw [Except.ok.inj k2]
      rw [Except.ok.inj k1] at hab
      exact h1.symm a b rfl hb hab
    · have k1 := (h2 a b rfl).2 hb
      rw [heqv, hab] at k1; cases Except.ok.inj k1
  · intro a b c hab hbc
    obtain ⟨e, h1, h2⟩ := h.at a
    by_cases hb : D.ty b = D.ty a
    · by_cases hc : D.ty c = D.ty a
      · have k1 := (h2 a b rfl).1 hb
        have k2 := (h2 b c hb).1 hc
        have k3 := (h2 a c rfl).1 hc
        rw [heqv] at k1 k2 k3
        rw [Except.ok.inj k1] at hab
        rw [Except.ok.inj k2] at hbc
        rw [Except.ok.inj k3]
        exact h1.trans a b c rfl hb hc hab hbc
      · have k1 := (h2 b c hb).2 hc
        rw [heqv, hbc] at k1; cases Except.ok.inj k1
    · have k1 := (h2 a b rfl).2 hb
      rw [heqv, hab] at k1; cases Except.ok.inj k1
  · intro a b hab
    obtain ⟨e, h1, h2⟩ := h.at a
    by_cases hb : D.ty b = D.ty a
    · exact hb.symm
    · have k1 := (h2 a b rfl).2 hb
      rw [heqv, hab] at k1; cases Except.ok.inj k1

theorem Dyn.TypedEquiv.on {eqv : U → U → Bool} (h : D.TypedEquiv eqv) (t : Ty) : D.EquivOn t eqv :=
  ⟨fun a _ => h.refl a, fun a b _ _ => h.symm a b, fun a b c _ _ _ => h.trans a b c⟩

theorem Dyn.TypedEquiv.lawful {eqv : U → U → Bool} (h : D.TypedEquiv eqv) (he : ∀ a b, D.valueEqual a b = .ok (eqv a b)) : D.Lawful := by
  refine ⟨fun t f hf => ⟨eqv, h.on t, fun a b ha => ?_⟩, fun a ha => ?_⟩
  · subst ha
    rw [← D.valueEqual_method hf, he]
    refine ⟨fun _ => rfl, fun hb => ?_⟩
    congr 1
    exact Bool.eq_false_iff.2 (fun k => hb (h.typed a b k).symm)
  · have h1 := he a a
    rw [D.valueEqual_plain ha, Dyn.ifaceEq, if_pos rfl] at h1
    cases hp : D.prim (D.ty a) with
    | none => rw [hp] at h1; cases h1
    | some e =>
      have hee : ∀ x y, D.ty x = D.ty a → D.ty y = D.ty a → e x y = eqv x y := by
        intro x y hx hy
        have h2 := he x y
        rw [D.valueEqual_plain (by rw [hx]; exact ha), Dyn.ifaceEq, if_pos (hx.trans hy.symm), hx, hp] at h2
        exact Except.ok.inj h2
      refine ⟨e, rfl, ?_, ?_, ?_⟩
      · intro x hx; rw [hee x x hx hx]; exact h.refl x
      · intro x y hx hy k
        rw [hee x y hx hy] at k
        rw [hee y x hy hx]; exact h.symm x y k
      · intro x y z hx hy hz k l
        rw [hee x y hx hy] at k
        rw [hee y z hy hz] at l
        rw [hee x z hx hz]; exact h.trans x y z k l

end

/-! ### Interface types -/

theorem Iface.Lawful.eq {A : Iface} (h : A.Lawful) (a b : A.U) : A.dyn.valueEqual a b = .ok (GoKey.eq a b) := by
  obtain ⟨eqv, _, h2⟩ := h.dyn.equiv
  simp only [GoKey.eq, h2]

theorem Iface.Lawful.typedEquiv {A : Iface} (h : A.Lawful) : A.dyn.TypedEquiv (fun a b => GoKey.eq a b) := by
  obtain ⟨eqv, h1, h2⟩ := h.dyn.equiv
  have : eqv = fun a b => GoKey.eq a b := by
    funext a b
    have := h.eq a b
    rw [h2] at this; exact Except.ok.inj this
  rw [← this]; exact h1

theorem Iface.Lawful.key {A : Iface} (h : A.Lawful) : LawfulGoKey A.U where
  refl a := h.typedEquiv.refl a
  symm hab := h.typedEquiv.symm _ _ hab
  trans hab hbc := h.typedEquiv.trans _ _ _ hab hbc
  hash_congr seed a b hab := h.hash seed a b (by rw [h.eq, hab])

section
variable {A : Iface} [GoHash]

/-- Equality of values with collections. -/
def nestEq (A : Iface) [GoHash] : AnyVal A → AnyVal A → Bool
  | .base x, .base y => GoKey.eq x y
  | .set s, .set t => GoKey.eq s t
  | .map s, .map t => GoKey.eq s t
  | .kv s, .kv t => GoKey.eq s t
  | _, _ => false

theorem nestDyn_base (h : A.Lawful) (x : A.U) (b : AnyVal A) : (nestDyn A).valueEqual (.base x) b = .ok (nestEq A (.base x) b) := by
  rcases A.dyn.method_or_plain (A.dyn.ty x) with ⟨f, hf⟩ | hp
  · have hm : (nestDyn A).Method ((nestDyn A).ty (.base x)) (liftMethod A f) := by
      rcases hf with hf | ⟨hf, hg⟩
      · refine .inl ?_
        simp only [nestDyn, AnyVal.ty, hf, Option.map_some]
      · refine .inr ⟨?_, ?_⟩
        · simp only [nestDyn, AnyVal.ty, hf, Option.map_none]
        · simp only [nestDyn, AnyVal.ty, hg, Option.map_some]
    rw [Dyn.valueEqual_method hm]
    cases b with
    | base y =>
      show f x y = .ok (GoKey.eq x y)
      rw [← h.eq x y, A.dyn.valueEqual_method hf]
    | _ => rfl
  · have hq : (nestDyn A).Plain ((nestDyn A).ty (.base x)) := by
      constructor
      · simp only [nestDyn, AnyVal.ty, hp.1, Option.map_none]
      · simp only [nestDyn, AnyVal.ty, hp.2, Option.map_none]
    rw [Dyn.valueEqual_plain hq]
    cases b with
    | base y =>
      have h1 := h.eq x y
      rw [A.dyn.valueEqual_plain hp] at h1
      show _ = Except.ok (GoKey.eq x y)
      rw [← h1]
      unfold Dyn.ifaceEq
      by_cases hxy : A.dyn.ty x = A.dyn.ty y
      · rw [if_pos hxy, if_pos (by simp only [nestDyn, AnyVal.ty, hxy])]
        obtain ⟨e, he, _⟩ := h.dyn.plain x hp
        simp only [nestDyn, AnyVal.ty, he, Option.map_some]
      · rw [if_neg hxy, if_neg (by simp only [nestDyn, AnyVal.ty, AnyTy.base.injEq]; exact hxy)]
    | _ => rfl

theorem nestDyn_eq (h : A.Lawful) (a b : AnyVal A) : (nestDyn A).valueEqual a b = .ok (nestEq A a b) := by
  have := h.key
  cases a with
  | base x => exact nestDyn_base h x b
  | set s =>
    cases b with
    | set t =>
      obtain ⟨r, h1, _⟩ := FSet.equal_spec s.2.valid t.2.valid
      show s.1.equal t.1 = .ok (GoKey.eq s t)
      simp only [GoKey.eq] at h1 ⊢
      rw [h1]
    | _ => rfl
  | map m =>
    cases b with
    | map n =>
      obtain ⟨r, h1, _⟩ := FMap.equal_spec m.2.valid n.2.valid
      show m.1.equal n.1 = .ok (GoKey.eq m n)
      simp only [GoKey.eq] at h1 ⊢
      rw [h1]
    | _ => rfl
  | kv p =>
    cases b with
    | kv q =>
      show (do if ← A.dyn.valueEqual p.key q.key then A.dyn.valueEqual p.value q.value else pure false) = Except.ok (GoKey.eq p.key q.key && GoKey.eq p.value q.value)
      rw [h.eq, h.eq]
      show (if GoKey.eq p.key q.key = true then Except.ok (GoKey.eq p.value q.value) else Except.ok false) = _
      cases GoKey.eq p.key q.key <;> rfl
    | _ => rfl

theorem nestEq_typed (h : A.Lawful) : (nestDyn A).TypedEquiv (nestEq A) := by
  have := h.key
  refine ⟨?_, ?_, ?_, ?_⟩
  · intro a
    cases a <;> exact LawfulGoKey.refl _
  · intro a b hab
    cases a <;> cases b <;> first | exact PerGoKey.symm hab | cases hab
  · intro a b c hab hbc
    cases a <;> cases b <;> first | (cases hab) | skip
    all_goals cases c <;> first | exact PerGoKey.trans hab hbc | cases hbc
  · intro a b hab
    cases a <;> cases b <;> first | (cases hab) | skip
    · exact congrArg AnyTy.base (h.typedEquiv.typed _ _ hab)
    all_goals rfl

theorem Iface.Lawful.nest (h : A.Lawful) : A.nest.Lawful where
  dyn := (nestEq_typed h).lawful (nestDyn_eq h)
  hash seed a b hab := by
    have hk := h.key
    have hab : nestEq A a b = true := by
      have h1 := nestDyn_eq h a b
      have h2 : (nestDyn A).valueEqual a b = .ok true := hab
      rw [h1] at h2; exact Except.ok.inj h2
    cases a <;> cases b <;> first | (cases hab) | skip
    · exact h.hash seed _ _ (by rw [h.eq]; exact congrArg _ hab)
    all_goals exact PerGoKey.hash_congr seed hab

theorem Iface.Lawful.nestN (h : A.Lawful) : ∀ n, (A.nestN n).Lawful
  | 0 => h
  | n + 1 => (h.nestN n).nest

end

/-! ### Unions of interface types -/

section
variable {A B : Iface}

/-- Equality of values of either type. -/
def sumEq (A B : Iface) : A.U ⊕ B.U → A.U ⊕ B.U → Bool
  | .inl x, .inl y => GoKey.eq x y
  | .inr x, .inr y => GoKey.eq x y
  | _, _ => false

theorem sum_inl (h : A.Lawful) (x : A.U) (b : A.U ⊕ B.U) : (sumDyn A B).valueEqual (.inl x) b = .ok (sumEq A B (.inl x) b) := by
  rcases A.dyn.method_or_plain (A.dyn.ty x) with ⟨f, hf⟩ | hp
  · have hm : (sumDyn A B).Method ((sumDyn A B).ty (.inl x)) (inlMethod f false) := by
      rcases hf with hf | ⟨hf, hg⟩
      · refine .inl ?_
        simp only [sumDyn, Sum.map_inl, hf, Option.map_some]
      · refine .inr ⟨?_, ?_⟩
        · simp only [sumDyn, Sum.map_inl, hf, Option.map_none]
        · simp only [sumDyn, Sum.map_inl, hg, Option.map_some]
    rw [Dyn.valueEqual_method hm]
    cases b with
    | inl y =>
      show f x y = .ok (GoKey.eq x y)
      rw [← h.eq x y, A.dyn.valueEqual_method hf]
    | inr y => rfl
  · have hq : (sumDyn A B).Plain ((sumDyn A B).ty (.inl x)) := by
      constructor
      · simp only [sumDyn, Sum.map_inl, hp.1, Option.map_none]
      · simp only [sumDyn, Sum.map_inl, hp.2, Option.map_none]
    rw [Dyn.valueEqual_plain hq]
    cases b with
    | inl y =>
      have h1 := h.eq x y
      rw [A.dyn.valueEqual_plain hp] at h1
      show _ = Except.ok (GoKey.eq x y)
      rw [← h1]
      unfold Dyn.ifaceEq
      by_cases hxy : A.dyn.ty x = A.dyn.ty y
      · rw [if_pos hxy, if_pos (by simp only [sumDyn, Sum.map_inl, hxy])]
        obtain ⟨e, he, _⟩ := h.dyn.plain x hp
        simp only [sumDyn, Sum.map_inl, he, Option.map_some]
      · rw [if_neg hxy, if_neg (by simp only [sumDyn, Sum.map_inl, Sum.inl.injEq]; exact hxy)]
    | inr y => rfl

theorem sum_inr (h : B.Lawful) (x : B.U) (b : A.U ⊕ B.U) : (sumDyn A B).valueEqual (.inr x) b = .ok (sumEq A B (.inr x) b) := by
  rcases B.dyn.method_or_plain (B.dyn.ty x) with ⟨f, hf⟩ | hp
  · have hm : (sumDyn A B).Method ((sumDyn A B).ty (.inr x)) (inrMethod f false) := by
      rcases hf with hf | ⟨hf, hg⟩
      · refine .inl ?_
        simp only [sumDyn, Sum.map_inr, hf, Option.map_some]
      · refine .inr ⟨?_, ?_⟩
        · simp only [sumDyn, Sum.map_inr, hf, Option.map_none]
        · simp only [sumDyn, Sum.map_inr, hg, Option.map_some]
    rw [Dyn.valueEqual_method hm]
    cases b with
    | inr y =>
      show f x y = .ok (GoKey.eq x y)
      rw [← h.eq x y, B.dyn.valueEqual_method hf]
    | inl y => rfl
  · have hq : (sumDyn A B).Plain ((sumDyn A B).ty (.inr x)) := by
      constructor
      · simp only [sumDyn, Sum.map_inr, hp.1, Option.map_none]
      · simp only [sumDyn, Sum.map_inr, hp.2, Option.map_none]
    rw [Dyn.valueEqual_plain hq]
    cases b with
    | inr y =>
      have h1 := h.eq x y
      rw [B.dyn.valueEqual_plain hp] at h1
      show _ = Except.ok (GoKey.eq x y)
      rw [← h1]
      unfold Dyn.ifaceEq
      by_cases hxy : B.dyn.ty x = B.dyn.ty y
      · rw [if_pos hxy, if_pos (by simp only [sumDyn, Sum.map_inr, hxy])]
        obtain ⟨e, he, _⟩ := h.dyn.plain x hp
        simp only [sumDyn, Sum.map_inr, he, Option.map_some]
      · rw [if_neg hxy, if_neg (by simp only [sumDyn, Sum.map_inr, Sum.inr.injEq]; exact hxy)]
    | inl y => rfl

theorem sum_eq (h : A.Lawful) (g : B.Lawful) : ∀ a b : A.U ⊕ B.U, (sumDyn A B).valueEqual a b = .ok (sumEq A B a b)
  | .inl x, b => sum_inl h x b
  | .inr x, b => sum_inr g x b

theorem sumEq_typed (h : A.Lawful) (g : B.Lawful) : (sumDyn A B).TypedEquiv (sumEq A B) := by
  have := h.key
  have := g.key
  refine ⟨?_, ?_, ?_, ?_⟩
  · rintro (a | a) <;> exact LawfulGoKey.refl _
  · rintro (a | a) (b | b) hab
    · exact PerGoKey.symm (T := A.U) hab
    · cases hab
    · cases hab
    · exact PerGoKey.symm (T := B.U) hab
  · rintro (a | a) (b | b) (c | c) hab hbc
    · exact PerGoKey.trans (T := A.U) hab hbc
    · cases hbc
    · cases hab
    · cases hab
    · cases hab
    · cases hab
    · cases hbc
    · exact PerGoKey.trans (T := B.U) hab hbc
  · rintro (a | a) (b | b) hab
    · exact congrArg Sum.inl (h.typedEquiv.typed _ _ hab)
    · cases hab
    · cases hab
    · exact congrArg Sum.inr (g.typedEquiv.typed _ _ hab)

theorem Iface.Lawful.sum (h : A.Lawful) (g : B.Lawful) : (A.sum B).Lawful where
  dyn := (sumEq_typed h g).lawful (sum_eq h g)
  hash seed a b hab := by
    have h1 := sum_eq h g a b
    have h2 : (sumDyn A B).valueEqual a b = .ok true := hab
    rw [h2] at h1
    have h1 := (Except.ok.inj h1).symm
    rcases a with a | a <;> rcases b with b | b
    · exact h.hash seed a b (by rw [h.eq]; exact congrArg _ h1)
    · cases h1
    · cases h1
    · exact g.hash seed a b (by rw [g.eq]; exact congrArg _ h1)

end

end Frozen
