import Verif.Model.Rel

/-!
# Specification vocabulary for relations

A tuple is specified by the value it has at each attribute; a relation by the tuples it contains (up to `Equal`).
-/

namespace Frozen

variable {A V : Type} [GoKey A] [Inhabited V]

/-- The value of a tuple at an attribute, as `Get` returns it (`Get` does not panic, `C31_get`). -/
def Tuple.val (t : Tuple A V) (a : A) : Option V :=
  match t.1.get a with
  | .ok o => o
  | .error _ => none

/-- The tuple has the attribute. -/
def Tuple.Has (t : Tuple A V) (a : A) : Prop := (t.val a).isSome = true

variable [GoKey V] [GoHash]

/-- The attribute is named in the list. -/
def Named (attrs : List A) (a : A) : Prop := ∃ c ∈ attrs, GoKey.eq c a = true

/-- All tuples of `s` have exactly the attributes `P`. -/
def Uniform (s : Rel A V) (P : A → Prop) : Prop := ∀ t, s.Mem t → ∀ a, t.Has a ↔ P a

/-- `x` is `u` restricted to the attributes `P`. -/
def IsRestriction (x u : Tuple A V) (P : A → Prop) : Prop :=
  ∀ a, (P a → SameVal (x.val a) (u.val a)) ∧ (¬ P a → x.val a = none)

/-- `u` has the attributes of `x` and `y`, with the values they have there. For tuples that differ at a common attribute there is no
such `u`. -/
def JoinOf (x y u : Tuple A V) : Prop :=
  ∀ a, (x.Has a → SameVal (u.val a) (x.val a)) ∧ (y.Has a → SameVal (u.val a) (y.val a)) ∧ (¬ x.Has a → ¬ y.Has a → ¬ u.Has a)

/-- Two tuples have the same values at common attributes. -/
def Agree (x y : Tuple A V) : Prop := ∀ a, x.Has a → y.Has a → SameVal (x.val a) (y.val a)

/-- `JoinOf` for any number of tuples. -/
def JoinOfAll (xs : List (Tuple A V)) (u : Tuple A V) : Prop :=
  ∀ a, (∀ x ∈ xs, x.Has a → SameVal (u.val a) (x.val a)) ∧ ((∀ x ∈ xs, ¬ x.Has a) → ¬ u.Has a)

/-- The value at `a` of the last tuple that has `a`. -/
def lastVal (xs : List (Tuple A V)) (a : A) : Option V := xs.foldl (fun o x => mergeAt (fun _ b => b) o (x.val a)) none

/-- Merging one tuple of each relation, from left to right and starting with attributes `P`, never runs into the collision pattern
on which `Update` panics. -/
def MergesOk (P : A → Prop) : List (Rel A V) → Prop
  | [] => True
  | r :: rs => ∀ x, r.Mem x → ¬ TripleClash P x.Has ∧ MergesOk (fun a => P a ∨ x.Has a) rs

/-- The same for relations with known attributes. -/
def HeadersOk (P : A → Prop) : List (A → Prop) → Prop
  | [] => True
  | Q :: Qs => ¬ TripleClash P Q ∧ HeadersOk (fun a => P a ∨ Q a) Qs

/-- The value of a row at an attribute: the last column with that name. -/
def rowVal (header : List A) (row : List V) (a : A) : Option V :=
  ((header.zip row).reverse.find? (fun hv => GoKey.eq hv.1 a)).map (·.2)

/-- `u` has exactly the values of `x`. -/
def SameTuple (x u : Tuple A V) : Prop := ∀ a, SameVal (x.val a) (u.val a)

/-- The attributes that `Nest` removes from the tuples: those in every one of the attribute sets. -/
def NestKey (attrAttrs : FMap A (SetVal A)) (c : A) : Prop := ∀ b as, attrAttrs.Gets b (some as) → as.Mem c

/-- `x` and `y` have the same values at the attributes outside `K`. -/
def SameOutside (K : A → Prop) (x y : Tuple A V) : Prop := ∀ c, ¬ K c → SameVal (x.val c) (y.val c)

/-- `u` is the tuple of `Nest(s, attrAttrs)` that comes from the tuple `x` of `s`: outside the removed attributes it has the values
of `x`; at a new attribute it has the relation of the restrictions of those tuples of `s` that are the same as `x` outside the removed
attributes. -/
def NestOf [NestVal A V] (s : Rel A V) (attrAttrs : FMap A (SetVal A)) (x u : Tuple A V) : Prop :=
  ∀ b, (x.Has b → ¬ NestKey attrAttrs b → SameVal (u.val b) (x.val b)) ∧
    (¬ (x.Has b ∧ ¬ NestKey attrAttrs b) → (attrAttrs.Gets b none → ¬ u.Has b) ∧
      ∀ as, attrAttrs.Gets b (some as) → ∃ R : SetVal (Tuple A V), SameVal (u.val b) (some (NestVal.relV R)) ∧
        ∀ p, R.Mem p ↔ ∃ y, s.Mem y ∧ SameOutside (NestKey attrAttrs) y x ∧ IsRestriction p y as.Mem)

/-- What Go guarantees about relations as values of type `any`: they are compared as relations, and the type assertion gives the
relation back (up to `Equal`, because a set may hold any of several equal values). -/
class LawfulNestVal (A V : Type) [GoKey A] [Inhabited V] [GoKey V] [GoHash] [NestVal A V] : Prop where
  relV_eq : ∀ r r' : SetVal (Tuple A V), GoKey.eq (NestVal.relV r) (NestVal.relV r') = GoKey.eq r r'
  asRel_relV : ∀ r : SetVal (Tuple A V), SameVal (NestVal.asRel (NestVal.relV r)) (some r)
  asRel_congr : ∀ v w : V, GoKey.eq v w = true → SameVal (NestVal.asRel (A := A) v) (NestVal.asRel w)

end Frozen
