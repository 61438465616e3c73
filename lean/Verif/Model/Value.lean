import Verif.Spec.Nested
import Verif.Model.LazyPow
import Verif.Spec.IntProg

/-! # `value.Equal` on values of interface type

Models `internal/pkg/value/value.go`. A value of type `any` carries a dynamic type; `value.Equal` looks up that type's methods. -/

namespace Frozen

/-- The dynamic types `Ty` of the values `U` of an interface type, with what `value.Equal` asks of them (value.go:4-12). A method takes the
receiver and the argument; it is called only with receivers of its type. -/
structure Dyn (U Ty : Type) where
  /-- The dynamic type. The nil interface is a value with a type of its own, with no methods and comparable. -/
  ty : U → Ty
  /-- The method `Equal(any) bool`, if the type has it (`Equaler[any]`, value.go:4-6). -/
  equal : Ty → Option (U → U → Go Bool)
  /-- The method `Same(any) bool`, if the type has it (`Samer`, value.go:10-12). -/
  same : Ty → Option (U → U → Go Bool)
  /-- The operator `==` on values of this type; `none` if the type is not comparable (slices, maps, functions and structures with such
  fields). -/
  prim : Ty → Option (U → U → Bool)

variable {U Ty : Type} [DecidableEq Ty]

/-- The panic of `==` on two values of one uncomparable type. -/
def uncomparable : Panic := .msg "runtime error: comparing uncomparable type"

/-- `a == b` on interface values (value.go:24-26, 36): values of different dynamic types are different, values of one type are compared
by that type's `==`, which panics if the type is not comparable. -/
def Dyn.ifaceEq (D : Dyn U Ty) (a b : U) : Go Bool :=
  if D.ty a = D.ty b then
    match D.prim (D.ty a) with
    | some e => .ok (e a b)
    | none => .error uncomparable
  else .ok false

/-- value.go:28-37 `Equal[any]` -/
def Dyn.valueEqual (D : Dyn U Ty) (a b : U) : Go Bool :=
  match D.equal (D.ty a) with
  | some f => f a b
  | none =>
    match D.same (D.ty a) with
    | some f => f a b
    | none => D.ifaceEq a b

/-- The panic of the type assertions in value.go:16, 21. -/
def badAssertion : Panic := .msg "interface conversion"

/-- value.go:14-17 `equalEqualer` -/
def Dyn.equalEqualer (D : Dyn U Ty) (a b : U) : Go Bool :=
  match D.equal (D.ty a) with
  | some f => f a b
  | none => .error badAssertion

/-- value.go:19-22 `equalSamer` -/
def Dyn.equalSamer (D : Dyn U Ty) (a b : U) : Go Bool :=
  match D.same (D.ty a) with
  | some f => f a b
  | none => .error badAssertion

/-- value.go:40-59 `EqualFuncFor`. `zero` is the zero value of `T` converted to `any`, or `none` if that is nil (line 48), as it is for
interface types. The deferred `recover` (line 52) is called by the runtime and not by a deferred function, so it recovers nothing, and
the panic of line 53 for types that cannot be map keys leaves `EqualFuncFor`. -/
def Dyn.equalFuncFor (D : Dyn U Ty) (zero : Option U) : Go (U → U → Go Bool) :=
  match zero with
  | none => .ok D.valueEqual
  | some z =>
    if (D.equal (D.ty z)).isSome then .ok D.equalEqualer
    else if (D.same (D.ty z)).isSome then .ok D.equalSamer
    else if (D.prim (D.ty z)).isSome then .ok D.ifaceEq
    else .error (.msg "runtime error: hash of unhashable type")

/-- An interface type: its values, their dynamic types and `hash.Any` (github.com/arr-ai/hash, not in the repo). -/
structure Iface where
  U : Type
  Ty : Type
  dec : DecidableEq Ty
  dyn : Dyn U Ty
  nil : U
  hash : BitVec 64 → U → BitVec 64

instance (A : Iface) : DecidableEq A.Ty := A.dec

/-- `value.Equal` and `hash.Any` at the interface type `A`. A panic of `value.Equal` is shown as `false`; `C56_lawful` says when there
is none. -/
instance (A : Iface) : GoKey A.U where
  eq a b :=
    match A.dyn.valueEqual a b with
    | .ok r => r
    | .error _ => false
  hash := A.hash

/-- The zero value of an interface type is nil. -/
instance (A : Iface) : Inhabited A.U := ⟨A.nil⟩

/-- Values of `A` and the library's own collections of them. -/
inductive AnyVal (A : Iface) where
  | base (u : A.U)
  | set (s : SetVal A.U)
  | map (m : MapVal A.U A.U)
  | kv (p : KeyValue A.U A.U)

/-- Their dynamic types: those of `A`, `Set[any]`, `Map[any, any]` and `KeyValue[any, any]`. -/
inductive AnyTy (A : Iface) where
  | base (t : A.Ty)
  | set
  | map
  | kv
deriving DecidableEq

/-- `a.(Set[T])` and so on: the dynamic type of a value. -/
def AnyVal.ty {A : Iface} : AnyVal A → AnyTy A
  | .base u => .base (A.dyn.ty u)
  | .set _ => .set
  | .map _ => .map
  | .kv _ => .kv

section
variable (A : Iface) [GoHash]

/-- A method of a type of `A`, called with any argument. Simplification: the types of `A` do not know the collections, their methods
answer false for them. -/
def liftMethod (f : A.U → A.U → Go Bool) : AnyVal A → AnyVal A → Go Bool
  | .base x, .base y => f x y
  | .base _, _ => .ok false
  | _, _ => .error badAssertion

/-- set.go:179-182 `Set.Same` -/
def setSame : AnyVal A → AnyVal A → Go Bool
  | .set s, .set t => s.1.equal t.1
  | .set _, _ => .ok false
  | _, _ => .error badAssertion

/-- map.go:235-238 `Map.Same` -/
def mapSame : AnyVal A → AnyVal A → Go Bool
  | .map m, .map n => m.1.equal n.1
  | .map _, _ => .ok false
  | _, _ => .error badAssertion

/-- kv.go:40-47 `KeyValue.Equal` and `Same` -/
def kvSame : AnyVal A → AnyVal A → Go Bool
  | .kv p, .kv q => do
    if ← A.dyn.valueEqual p.key q.key then A.dyn.valueEqual p.value q.value else pure false
  | .kv _, _ => .ok false
  | _, _ => .error badAssertion

/-- The methods of the collections (`Equal` of a `Set[any]` takes a `Set[any]`, so it is not an `Equaler[any]`; `Same` is found) and of
the types of `A`. -/
def nestDyn : Dyn (AnyVal A) (AnyTy A) where
  ty := AnyVal.ty
  equal
    | .base t => (A.dyn.equal t).map (liftMethod A)
    | _ => none
  same
    | .base t => (A.dyn.same t).map (liftMethod A)
    | .set => some (setSame A)
    | .map => some (mapSame A)
    | .kv => some (kvSame A)
  prim
    | .base t => (A.dyn.prim t).map (fun e a b =>
        match a, b with
        | .base x, .base y => e x y
        | _, _ => false)
    | _ => none

/-- The interface type whose values are those of `A` and collections of values of `A`. `hash.Any` calls `Hash`: set.go:164-170,
map.go:215-222, kv.go:24-26. -/
def Iface.nest : Iface where
  U := AnyVal A
  Ty := AnyTy A
  dec := inferInstance
  dyn := nestDyn A
  nil := .base A.nil
  hash seed
    | .base u => A.hash seed u
    | .set s => GoKey.hash seed s
    | .map m => GoKey.hash seed m
    | .kv p => GoKey.hash seed p

/-- `any` with collections nested up to `n` deep. -/
def Iface.nestN : Nat → Iface
  | 0 => A
  | n + 1 => (Iface.nestN n).nest

end

/-! ### Integer sets and unions of interface types -/

/-- `IntSet[I]` as the only dynamic type of an interface type: its values are those the API makes of the integers that an `IntSet` can
hold (`AllStorable`). `hash.Any` calls `Hash`, intset.go:106-111. -/
def IntVal (w : Nat) (sg : Bool) [GoKey (BitVec w)] : Type := {s : IntSet w // ∃ p : IntProg w, p.AllStorable sg ∧ p.run sg = .ok s}

/-- intset.go:124-129 `IntSet.Same`; every value here is an `IntSet`. -/
def IntVal.same {w : Nat} {sg : Bool} [GoKey (BitVec w)] (s t : IntVal w sg) : Go Bool := s.1.equal t.1

/-- See `IntVal`. nil is left out: the zero value here is the empty set. -/
def intIface (w : Nat) (sg : Bool) [GoKey (BitVec w)] : Iface where
  U := IntVal w sg
  Ty := Unit
  dec := inferInstance
  dyn := { ty := fun _ => (), equal := fun _ => none, same := fun _ => some IntVal.same, prim := fun _ => none }
  nil := ⟨IntSet.zero, .new id (fun _ => List.Perm.refl _) [], (fun _ h => by cases h), rfl⟩
  hash seed s :=
    match s.1.hash seed with
    | .ok h => h
    | .error _ => 0#64

/-- A method of a type of `A` among the types of `A` and `B`. Simplification: it answers false for the types of `B`. -/
def inlMethod {α β γ : Type} (f : α → α → Go γ) (no : γ) : α ⊕ β → α ⊕ β → Go γ
  | .inl x, .inl y => f x y
  | .inl _, .inr _ => .ok no
  | .inr _, _ => .error badAssertion

/-- The same for `B`. -/
def inrMethod {α β γ : Type} (f : β → β → Go γ) (no : γ) : α ⊕ β → α ⊕ β → Go γ
  | .inr x, .inr y => f x y
  | .inr _, .inl _ => .ok no
  | .inl _, _ => .error badAssertion

/-- The methods of the types of `A` and of `B`. -/
def sumDyn (A B : Iface) : Dyn (A.U ⊕ B.U) (A.Ty ⊕ B.Ty) where
  ty := Sum.map A.dyn.ty B.dyn.ty
  equal
    | .inl t => (A.dyn.equal t).map (inlMethod · false)
    | .inr t => (B.dyn.equal t).map (inrMethod · false)
  same
    | .inl t => (A.dyn.same t).map (inlMethod · false)
    | .inr t => (B.dyn.same t).map (inrMethod · false)
  prim
    | .inl t => (A.dyn.prim t).map (fun e a b =>
        match a, b with
        | .inl x, .inl y => e x y
        | _, _ => false)
    | .inr t => (B.dyn.prim t).map (fun e a b =>
        match a, b with
        | .inr x, .inr y => e x y
        | _, _ => false)

/-- The interface type with the dynamic types of both. -/
def Iface.sum (A B : Iface) : Iface where
  U := A.U ⊕ B.U
  Ty := A.Ty ⊕ B.Ty
  dec := inferInstance
  dyn := sumDyn A B
  nil := .inl A.nil
  hash seed
    | .inl x => A.hash seed x
    | .inr y => B.hash seed y

/-! ### Lazy sets as values of interface type -/

/-- The dynamic types of lazy sets that an eager set of lazy sets meets: `EmptySet`, `frozenSet` (`*baseSet`) and `frozen.Set`. -/
inductive LazyTy where
  | empty
  | lazy
  | frozen
deriving DecidableEq

/-- The method `Equal(any)` of lazy sets (set_base.go:65-70, set_empty.go:39-44) and `Same` of `frozen.Set` (set.go:179-182). -/
def lazyDyn (T : Type) [GoKey T] : Dyn (PVal T) LazyTy where
  ty
    | .empty => .empty
    | .lazy _ => .lazy
    | .frozen _ => .frozen
  equal
    | .empty => some (fun
      | .empty, .lazy t => t.equal t
      | .empty, .empty => .ok true
      | .empty, .frozen _ => .ok false
      | _, _ => .error badAssertion)
    | .lazy => some (fun
      | .lazy s, .lazy t => s.equal t
      | .lazy s, .empty => .ok (s.count == 0)
      | .lazy _, .frozen _ => .ok false
      | _, _ => .error badAssertion)
    | .frozen => none
  same
    | .frozen => some (fun
      | .frozen s, .frozen t => s.equal t
      | .frozen _, _ => .ok false
      | _, _ => .error badAssertion)
    | _ => none
  prim
    | .empty => some (fun _ _ => true)
    | _ => none

end Frozen
