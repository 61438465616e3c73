import Verif.Model.Value

/-! # What is asked of the dynamic types of an interface type -/

namespace Frozen

variable {U Ty : Type}

/-- `e` is an equivalence relation on the values of type `t`. -/
structure Dyn.EquivOn (D : Dyn U Ty) (t : Ty) (e : U → U → Bool) : Prop where
  refl : ∀ a, D.ty a = t → e a a = true
  symm : ∀ a b, D.ty a = t → D.ty b = t → e a b = true → e b a = true
  trans : ∀ a b c, D.ty a = t → D.ty b = t → D.ty c = t → e a b = true → e b c = true → e a c = true

/-- `f` is the method that decides equality for type `t`: its `Equal(any)`, or else its `Same(any)`. -/
def Dyn.Method (D : Dyn U Ty) (t : Ty) (f : U → U → Go Bool) : Prop :=
  D.equal t = some f ∨ (D.equal t = none ∧ D.same t = some f)

/-- The type has neither method, so that `==` decides. -/
def Dyn.Plain (D : Dyn U Ty) (t : Ty) : Prop := D.equal t = none ∧ D.same t = none

/-- The contract on the dynamic types: a method never panics, answers false for values of other types and is an equivalence relation on
the values of its own type; a type without methods is comparable, and its `==` is an equivalence relation (it is, unless
floating-point NaNs occur). -/
structure Dyn.Lawful (D : Dyn U Ty) : Prop where
  method : ∀ t f, D.Method t f → ∃ e, D.EquivOn t e ∧
    ∀ a b, D.ty a = t → (D.ty b = t → f a b = .ok (e a b)) ∧ (D.ty b ≠ t → f a b = .ok false)
  plain : ∀ a, D.Plain (D.ty a) → ∃ e, D.prim (D.ty a) = some e ∧ D.EquivOn (D.ty a) e

/-- `eqv` is an equivalence relation that never holds between values of different dynamic types. -/
structure Dyn.TypedEquiv (D : Dyn U Ty) (eqv : U → U → Bool) : Prop where
  refl : ∀ a, eqv a a = true
  symm : ∀ a b, eqv a b = true → eqv b a = true
  trans : ∀ a b c, eqv a b = true → eqv b c = true → eqv a c = true
  typed : ∀ a b, eqv a b = true → D.ty a = D.ty b

/-- An interface type is fit for sets and maps: its dynamic types are lawful and hashes respect equality. -/
structure Iface.Lawful (A : Iface) : Prop where
  dyn : A.dyn.Lawful
  hash : ∀ seed a b, A.dyn.valueEqual a b = .ok true → A.hash seed a = A.hash seed b

end Frozen
