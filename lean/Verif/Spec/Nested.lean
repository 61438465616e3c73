import Verif.Spec.SetProg
import Verif.Spec.MapProg

/-!
# Sets and maps as elements and keys

`SetVal T` is the Go type `Set[T]` seen as an element type: its values are the sets the API can produce. `value.Equal` and `hash.Any`
dispatch to the methods `Equal` and `Hash` of the value (value.go:28-37). Should such a call panic, the element operations here would
answer `false` and 0; `C27_setVal_methods` and `C27_mapVal_methods` show that no call panics.
-/

namespace Frozen

/-- `Set[T]` as an element type. -/
def SetVal (T : Type) [GoKey T] : Type := {s : FSet T // s.Reachable}

/-- `Map[K, V]` as an element type. -/
def MapVal (K V : Type) [GoKey K] [Inhabited V] : Type := {m : FMap K V // m.Reachable}

instance {T : Type} [GoKey T] [GoHash] : GoKey (SetVal T) where
  eq s t := match s.1.equal t.1 with
    | .ok b => b
    | .error _ => false
  hash seed s := match s.1.hash seed with
    | .ok h => h
    | .error _ => 0#64

instance {K V : Type} [GoKey K] [GoKey V] [Inhabited V] [GoHash] : GoKey (MapVal K V) where
  eq m n := match m.1.equal n.1 with
    | .ok b => b
    | .error _ => false
  hash seed m := match m.1.hash seed with
    | .ok h => h
    | .error _ => 0#64

variable {T : Type} [GoKey T]

/-- The empty set `Set[T]{}` is made by `NewSet()`. -/
def SetVal.empty : SetVal T := ⟨FSet.zero, .newSet [], rfl⟩

/-- `With` on values of type `Set[T]`. -/
def SetVal.with (s : SetVal T) (v : T) : Go (SetVal T) :=
  match h : s.1.with v with
  | .ok s' => .ok ⟨s', by
      obtain ⟨p, hp⟩ := s.2
      exact ⟨.with p v, by simp only [SetProg.run, hp, bind, Except.bind]; exact h⟩⟩
  | .error e => .error e

/-- `Without` on values of type `Set[T]`. -/
def SetVal.without (s : SetVal T) (v : T) : Go (SetVal T) :=
  match h : s.1.without v with
  | .ok s' => .ok ⟨s', by
      obtain ⟨p, hp⟩ := s.2
      exact ⟨.without p v, by simp only [SetProg.run, hp, bind, Except.bind]; exact h⟩⟩
  | .error e => .error e

/-- Membership in a value of type `Set[T]`. -/
def SetVal.Mem (s : SetVal T) (v : T) : Prop := s.1.Mem v

end Frozen
