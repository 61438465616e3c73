import Verif.Proof.Value
import Verif.Props.Witness
import Verif.Props.IntSet
import Verif.Props.SetBasic

/-! # C56: collections of interface type -/

namespace Frozen

section
variable {U Ty : Type} [DecidableEq Ty] (D : Dyn U Ty)

/-- C56. `value.Equal` on an interface type never panics, is an equivalence relation and never holds between values of different dynamic
types exactly if each dynamic type keeps the contract: its method (`Equal(any)`, or else `Same(any)`) does so for receivers of its type,
or it has neither method and is comparable. -/
theorem C56_equal_iff : D.Lawful ↔ ∃ eqv, D.TypedEquiv eqv ∧ ∀ a b, D.valueEqual a b = .ok (eqv a b) :=
  ⟨Dyn.Lawful.equiv, fun ⟨_, h, he⟩ => h.lawful he⟩

/-- C56. A lawful type's own notion of equality is the one that is used, whatever other types there are: its `Equal(any)` if it has one,
else its `Same(any)`, else `==`. -/
theorem C56_dispatch (a b : U) :
    (∀ f, D.equal (D.ty a) = some f → D.valueEqual a b = f a b) ∧
    (∀ f, D.equal (D.ty a) = none → D.same (D.ty a) = some f → D.valueEqual a b = f a b) ∧
    (∀ e, D.Plain (D.ty a) → D.prim (D.ty a) = some e → D.valueEqual a b = .ok (decide (D.ty a = D.ty b) && e a b)) ∧
    (D.Plain (D.ty a) → D.prim (D.ty a) = none → D.valueEqual a b = if D.ty a = D.ty b then .error uncomparable else .ok false) := by
  refine ⟨fun f h => D.valueEqual_method (.inl h) b, fun f h g => D.valueEqual_method (.inr ⟨h, g⟩) b, fun e h g => ?_, fun h g => ?_⟩
  · rw [D.valueEqual_plain h, Dyn.ifaceEq, g]
    by_cases hab : D.ty a = D.ty b
    · rw [if_pos hab, decide_eq_true hab]; rfl
    · rw [if_neg hab, decide_eq_false hab]; rfl
  · rw [D.valueEqual_plain h, Dyn.ifaceEq, g]

/-- C56. `EqualFuncFor` at a type with one dynamic type gives a function that agrees with `Equal` everywhere, and panics exactly if the
type has neither method and is not comparable. At an interface type it always gives `Equal`. -/
theorem C56_equalFuncFor :
    D.equalFuncFor none = .ok D.valueEqual ∧
    ∀ z, (∀ a, D.ty a = D.ty z) →
      ((∃ f, D.equalFuncFor (some z) = .ok f) ↔ ¬ (D.Plain (D.ty z) ∧ D.prim (D.ty z) = none)) ∧
      ∀ f, D.equalFuncFor (some z) = .ok f → ∀ a b, f a b = D.valueEqual a b := by
  refine ⟨rfl, fun z hz => ?_⟩
  unfold Dyn.equalFuncFor Dyn.Plain
  cases h1 : D.equal (D.ty z) with
  | some g =>
    refine ⟨⟨fun _ => by simp, fun _ => ⟨D.equalEqualer, by simp [h1]⟩⟩, fun f hf a b => ?_⟩
    simp [h1] at hf
    subst hf
    simp only [Dyn.equalEqualer, Dyn.valueEqual, hz a, h1]
  | none =>
    cases h2 : D.same (D.ty z) with
    | some g =>
      refine ⟨⟨fun _ => by simp, fun _ => ⟨D.equalSamer, by simp [h1, h2]⟩⟩, fun f hf a b => ?_⟩
      simp [h1, h2] at hf
      subst hf
      simp only [Dyn.equalSamer, Dyn.valueEqual, hz a, h1, h2]
    | none =>
      cases h3 : D.prim (D.ty z) with
      | some e =>
        refine ⟨⟨fun _ => by simp, fun _ => ⟨D.ifaceEq, by simp [h1, h2, h3]⟩⟩, fun f hf a b => ?_⟩
        simp [h1, h2, h3] at hf
        subst hf
        simp only [Dyn.valueEqual, hz a, h1, h2]
      | none =>
        refine ⟨⟨fun ⟨f, hf⟩ => by simp [h1, h2, h3] at hf, fun h => absurd ⟨⟨rfl, rfl⟩, rfl⟩ h⟩, fun f hf => by simp [h1, h2, h3] at hf⟩

end

/-- C56. At an interface type whose dynamic types are lawful and hashed consistently, elements and keys are lawful, so that every theorem
about `Set[T]` and `Map[K, V]` applies to `Set[any]` and `Map[any, any]`, and no comparison panics. -/
theorem C56_lawful (A : Iface) (h : A.Lawful) :
    LawfulGoKey A.U ∧ (∀ a b : A.U, A.dyn.valueEqual a b = .ok (GoKey.eq a b)) ∧
    ∀ a b : A.U, GoKey.eq a b = true → A.dyn.ty a = A.dyn.ty b :=
  ⟨h.key, h.eq, h.typedEquiv.typed⟩

section
variable (A : Iface) [GoHash]

/-- C56. The library's collections of such values can be mixed with them in one collection, nested to any depth. -/
theorem C56_nested (h : A.Lawful) (n : Nat) : (A.nestN n).Lawful ∧ LawfulGoKey (A.nestN n).U := ⟨h.nestN n, (h.nestN n).key⟩

/-- C56. What `value.Equal` answers on such mixtures: it never panics; a value that is no collection is equal to what it was equal to
before; sets are equal if they have the same members; maps if they have the same keys with equal values; pairs if they are equal
componentwise; and nothing else is equal. -/
theorem C56_nested_equal (h : A.Lawful) (a b : AnyVal A) :
    ∃ r, (nestDyn A).valueEqual a b = .ok r ∧ (r = true ↔
      match a, b with
      | .base x, .base y => A.dyn.valueEqual x y = .ok true
      | .set s, .set t => ∀ v, s.1.Mem v ↔ t.1.Mem v
      | .map m, .map n => ∀ k o o', m.1.Gets k o → n.1.Gets k o' → SameVal o o'
      | .kv p, .kv q => A.dyn.valueEqual p.key q.key = .ok true ∧ A.dyn.valueEqual p.value q.value = .ok true
      | _, _ => False) := by
  have := h.key
  refine ⟨_, nestDyn_eq h a b, ?_⟩
  have no : ∀ {p : Prop}, (false = true ↔ p) ↔ ¬ p := by simp
  cases a <;> cases b
  case base.base =>
    show _ ↔ A.dyn.valueEqual _ _ = .ok true
    rw [h.eq]
    exact ⟨fun k => congrArg _ k, fun k => Except.ok.inj k⟩
  case set.set => exact SetVal.eq_iff (T := A.U) _ _
  case map.map m n =>
    show GoKey.eq m n = true ↔ ∀ k o o', m.1.Gets k o → n.1.Gets k o' → SameVal o o'
    rw [MapVal.eq_iff (K := A.U) (V := A.U)]
    constructor
    · intro h k o o' h1 h2
      rw [FMap.gets_iff m.2.valid] at h1
      rw [FMap.gets_iff n.2.valid] at h2
      rw [← h1, ← h2]; exact h k
    · intro h k
      exact h k _ _ ((FMap.gets_iff m.2.valid _ _).2 rfl) ((FMap.gets_iff n.2.valid _ _).2 rfl)
  case kv.kv p q =>
    show (GoKey.eq p.key q.key && GoKey.eq p.value q.value) = true ↔ A.dyn.valueEqual _ _ = .ok true ∧ A.dyn.valueEqual _ _ = .ok true
    rw [h.eq, h.eq, Bool.and_eq_true]
    exact ⟨fun k => ⟨congrArg _ k.1, congrArg _ k.2⟩, fun k => ⟨Except.ok.inj k.1, Except.ok.inj k.2⟩⟩
  all_goals exact no.2 id

end

/-- C56. Putting together the dynamic types of two interface types disturbs neither. -/
theorem C56_sum (A B : Iface) (h : A.Lawful) (g : B.Lawful) :
    (A.sum B).Lawful ∧
    (∀ x y, (sumDyn A B).valueEqual (.inl x) (.inl y) = A.dyn.valueEqual x y) ∧
    (∀ x y, (sumDyn A B).valueEqual (.inr x) (.inr y) = B.dyn.valueEqual x y) ∧
    (∀ x y, (sumDyn A B).valueEqual (.inl x) (.inr y) = .ok false ∧ (sumDyn A B).valueEqual (.inr y) (.inl x) = .ok false) :=
  ⟨h.sum g, fun x y => (sum_inl h x _).trans (h.eq x y).symm, fun x y => (sum_inr g x _).trans (g.eq x y).symm,
    fun x y => ⟨sum_inl h x _, sum_inr g y _⟩⟩

/-- C56. Integer sets keep the contract with their `Same` and `Hash`. (Signed types: sets that were made of integers an `IntSet` can hold,
see C21.) -/
theorem C56_intset {w : Nat} [GoKey (BitVec w)] [PrimKey (BitVec w)] (hw : 8 ≤ w) (hw2 : w ≤ 64) (sg : Bool) :
    (intIface w sg).Lawful ∧ ∀ s t : IntVal w sg, ∃ r, (intIface w sg).dyn.valueEqual s t = .ok r ∧
      (r = true ↔ ∀ i, s.1.has sg i = t.1.has sg i) := by
  have hcmp : ∀ s t : IntVal w sg, ∃ r, s.1.equal t.1 = .ok r ∧ (r = true ↔ ∀ i, s.1.has sg i = t.1.has sg i) ∧
      (r = true → ∀ seed, ∃ h, s.1.hash seed = .ok h ∧ t.1.hash seed = .ok h) := by
    rintro ⟨s, p, hp1, hp2⟩ ⟨t, q, hq1, hq2⟩
    obtain ⟨s', t', h1, h2, ⟨r, h3, h4⟩, _, h5⟩ := C21_compare_partial hw hw2 sg p q hp1 hq1
    rw [hp2] at h1; cases h1
    rw [hq2] at h2; cases h2
    obtain ⟨s', k1, k2⟩ := C21_intset_partial hw hw2 sg p hp1
    obtain ⟨t', l1, l2⟩ := C21_intset_partial hw hw2 sg q hq1
    rw [hp2] at k1; cases k1
    rw [hq2] at l1; cases l1
    refine ⟨r, h3, ?_, fun hr => h5 (h4.1 hr)⟩
    rw [h4]
    constructor
    · intro h i
      obtain ⟨b, m1, m2⟩ := k2.has i
      obtain ⟨c, n1, n2⟩ := l2.has i
      show s.has sg i = t.has sg i
      rw [m1, n1]
      congr 1
      rw [Bool.eq_iff_iff, m2, n2, h]
    · intro h i
      obtain ⟨b, m1, m2⟩ := k2.has i
      obtain ⟨c, n1, n2⟩ := l2.has i
      have h1 : s.has sg i = t.has sg i := h i
      rw [m1, n1] at h1
      rw [← m2, ← n2, Except.ok.inj h1]
  choose e he1 he2 he3 using hcmp
  have hv : ∀ s t, (intIface w sg).dyn.valueEqual s t = .ok (e s t) := he1
  refine ⟨⟨Dyn.TypedEquiv.lawful (eqv := e) ⟨?_, ?_, ?_, fun _ _ _ => rfl⟩ hv, ?_⟩, fun s t => ⟨_, hv s t, he2 s t⟩⟩
  · exact fun a => (he2 a a).2 (fun _ => rfl)
  · exact fun a b h => (he2 b a).2 (fun i => ((he2 a b).1 h i).symm)
  · exact fun a b c h g => (he2 a c).2 (fun i => ((he2 a b).1 h i).trans ((he2 b c).1 g i))
  · intro seed a b hab
    rw [hv] at hab
    obtain ⟨h, h1, h2⟩ := he3 a b (Except.ok.inj hab) seed
    simp only [intIface, h1, h2]

/-! ### A concrete interface type -/

/-- nil, integers, strings, a user type with `Equal(any)` that compares last digits, and one with `Same(any)`. -/
inductive Prim where
  | nil
  | int (n : Nat)
  | str (s : String)
  | digit (n : Nat)
  | same (n : Nat)
deriving DecidableEq

inductive PrimTy where
  | nil
  | int
  | str
  | digit
  | same
deriving DecidableEq

def primDyn : Dyn Prim PrimTy where
  ty
    | .nil => .nil
    | .int _ => .int
    | .str _ => .str
    | .digit _ => .digit
    | .same _ => .same
  equal
    | .digit => some (fun
      | .digit m, .digit n => .ok (m % 10 == n % 10)
      | _, _ => .ok false)
    | _ => none
  same
    | .same => some (fun a b => .ok (a == b))
    | _ => none
  prim _ := some (fun a b => a == b)

/-- All values collide, across types too. -/
def primIface : Iface where
  U := Prim
  Ty := PrimTy
  dec := inferInstance
  dyn := primDyn
  nil := .nil
  hash seed _ := seed

theorem beq_equivOn (t : PrimTy) : primDyn.EquivOn t (fun a b => a == b) := by
  refine ⟨fun a _ => beq_self_eq_true a, fun a b _ _ hab => ?_, fun a b c _ _ _ hab hbc => ?_⟩
  · have := eq_of_beq hab
    subst this; exact hab
  · have := eq_of_beq hab
    subst this; exact hbc

/-- The contract is met by a mixture of types with either method and with none. -/
theorem primDyn_lawful : primDyn.Lawful := by
  refine ⟨fun t f hf => ?_, fun a _ => ⟨fun a b => a == b, rfl, beq_equivOn _⟩⟩
  cases t
  case digit =>
    rcases hf with hf | ⟨hf, _⟩
    · cases hf
      refine ⟨fun | .digit m, .digit n => m % 10 == n % 10 | _, _ => false, ⟨?_, ?_, ?_⟩, ?_⟩
      · intro a ha; cases a <;> simp [primDyn] at ha ⊢
      · intro a b ha hb hab
        cases a <;> cases b <;> simp [primDyn] at ha hb hab ⊢
        exact hab.symm
      · intro a b c ha hb hc hab hbc
        cases a <;> cases b <;> cases c <;> simp [primDyn] at ha hb hc hab hbc ⊢
        exact hab.trans hbc
      · intro a b ha
        cases a <;> cases b <;> simp [primDyn] at ha ⊢
    · cases hf
  case same =>
    rcases hf with hf | ⟨_, hf⟩
    · cases hf
    · cases hf
      refine ⟨fun a b => a == b, beq_equivOn _, fun a b ha => ⟨fun _ => rfl, fun hb => ?_⟩⟩
      show Except.ok (a == b) = Except.ok false
      congr 1
      refine beq_eq_false_iff_ne.2 (fun e => hb ?_)
      subst e; exact ha
  all_goals rcases hf with hf | ⟨_, hf⟩ <;> cases hf

theorem primIface_lawful : primIface.Lawful := ⟨primDyn_lawful, fun _ _ _ _ => rfl⟩

/-- A set with nil, 1, "1", a digit twice (as 3 and 13) and the two kinds of 1: five members; the digit is found as 23. -/
example : okAnd (newSet (T := primIface.U) [.nil, .int 1, .str "1", .digit 3, .digit 13, .same 1]) (fun s => decide (s.count = 5) &&
    okAnd (s.has (.digit 23)) id && okAnd (s.has (.int 3)) (! ·)) = true := by decide +kernel

/-- {1}, as a value of type `any`. -/
def setOne : SetVal primIface.U := ⟨_, .newSet [.int 1], rfl⟩

/-- {1} again, made from {1, 2}. -/
def setOne' : SetVal primIface.U := ⟨_, .without (.newSet [.int 1, .int 2]) (.int 2), rfl⟩

/-- A set with 1, {1}, {1} made in another way, the pair 1:1 and the empty set has four members. -/
example : @okAnd _ (@newSet _ (@instGoKeyU (@Iface.nest primIface ⟨fun x _ => x⟩))
    [.base (.int 1), .set setOne, .set setOne', .kv ⟨.int 1, .int 1⟩, .set SetVal.empty]) (fun s => decide (s.count = 4)) = true := by
  decide +kernel

/-- The theorems about sets, at `any` with these types, `IntSet[int8]` and collections of all of them, seven levels deep. -/
example [GoHash] (n : Nat) (_ : n = 7) (p : SetProg (((primIface.sum (@intIface 8 true (exampleIntKey 8))).nestN n).U)) :
    ∀ s, p.run = .ok s → p.Describes s.Mem :=
  have := @C56_intset 8 (exampleIntKey 8) _ (by decide) (by decide) true
  have := (C56_nested _ (C56_sum _ _ primIface_lawful this.1).1 n).2
  fun s h => (C01_set_histories p s h).1

/-! ### What the contract excludes -/

/-- Without the contract, C56 fails: values of an uncomparable type cannot be compared. Here the only type is that of slices. -/
theorem C56_uncomparable_refuted : ¬ ∀ (U Ty : Type) (_ : DecidableEq Ty) (D : Dyn U Ty), ∀ a b, ∃ r, D.valueEqual a b = .ok r := by
  intro h
  obtain ⟨r, hr⟩ := h (List Nat) Unit inferInstance ⟨fun _ => (), fun _ => none, fun _ => none, fun _ => none⟩ [] []
  cases hr

/-- Lazy sets do not keep the contract: `EmptySet.Equal` says that the empty set equals {1}, `Equal` of {1} denies it. -/
theorem C56_lazy_refuted : ¬ (lazyDyn Coll).Lawful := by
  intro h
  obtain ⟨eqv, h1, h2⟩ := h.equiv
  obtain ⟨s, hs1, hs2⟩ := of_okAnd (r := newSet [(⟨1⟩ : Coll)]) (test := fun s =>
    okAnd ((lazyDyn Coll).valueEqual .empty (.lazy s)) id && okAnd ((lazyDyn Coll).valueEqual (.lazy s) .empty) (! ·)) (by decide +kernel)
  rw [Bool.and_eq_true] at hs2
  obtain ⟨r, k1, k2⟩ := of_okAnd hs2.1
  obtain ⟨r', k3, k4⟩ := of_okAnd hs2.2
  rw [h2] at k1 k3
  cases k1; cases k3
  have := h1.symm _ _ k2
  rw [this] at k4
  cases k4

end Frozen
