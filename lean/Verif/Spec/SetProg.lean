import Verif.Spec.Set
import Verif.Model.Set

/-!
# Programs over the Set API, and the mathematical set each one describes

A `SetProg` is a finite program that ends in a `Set`. `run` executes it on the model of the API; `Describes` says, with predicates
only, which mathematical sets it may return (more than one only because `AnyN` picks arbitrary elements).
-/

namespace Frozen

variable {T : Type}

/-- A call on a builder that is later finished. -/
inductive BuildOp (T : Type) where
  | add (v : T)
  | remove (v : T)

/-- Programs over the Set API. A predicate given to `Where` must not tell `Equal` values apart. -/
inductive SetProg (T : Type) [GoKey T] where
  | newSet (vs : List T)
  | build (ops : List (BuildOp T))
  | with (p : SetProg T) (v : T)
  | without (p : SetProg T) (v : T)
  | where (p : SetProg T) (pred : T → Bool) (respects : ∀ a b, GoKey.eq a b = true → pred a = pred b)
  | union (p q : SetProg T)
  | intersection (p q : SetProg T)
  | difference (p q : SetProg T)
  | symmetricDifference (p q : SetProg T)
  | anyN (p : SetProg T) (n : Int)

variable [GoKey T]

/-- Run one builder call. -/
def BuildOp.run (b : SetBuilder T) : BuildOp T → Go (SetBuilder T)
  | .add v => SetBuilder.add b v
  | .remove v => SetBuilder.remove b v

/-- Run a program on the API. -/
def SetProg.run : SetProg T → Go (FSet T)
  | .newSet vs => Frozen.newSet vs
  | .build ops => do
    let b ← ops.foldlM (fun b op => op.run b) (Tree.zero : SetBuilder T)
    pure (SetBuilder.finish b).1
  | .with p v => do let s ← p.run; s.with v
  | .without p v => do let s ← p.run; s.without v
  | .where p pred _ => do let s ← p.run; s.where pred
  | .union p q => do let s ← p.run; let t ← q.run; s.union t
  | .intersection p q => do let s ← p.run; let t ← q.run; s.intersection t
  | .difference p q => do let s ← p.run; let t ← q.run; s.difference t
  | .symmetricDifference p q => do let s ← p.run; let t ← q.run; s.symmetricDifference t
  | .anyN p n => do let s ← p.run; s.anyN n

/-- The effect of one builder call on a mathematical set. -/
def BuildOp.effect (P : T → Prop) : BuildOp T → T → Prop
  | .add v => fun w => P w ∨ GoKey.eq v w = true
  | .remove v => fun w => P w ∧ ¬ GoKey.eq v w = true

/-- `P` is a mathematical set the program may return. -/
def SetProg.Describes : SetProg T → (T → Prop) → Prop
  | .newSet vs, P => ∀ w, P w ↔ ∃ v ∈ vs, GoKey.eq v w = true
  | .build ops, P => ∀ w, P w ↔ ops.foldl BuildOp.effect (fun _ => False) w
  | .with p v, P => ∃ Q, p.Describes Q ∧ ∀ w, P w ↔ Q w ∨ GoKey.eq v w = true
  | .without p v, P => ∃ Q, p.Describes Q ∧ ∀ w, P w ↔ Q w ∧ ¬ GoKey.eq v w = true
  | .where p pred _, P => ∃ Q, p.Describes Q ∧ ∀ w, P w ↔ Q w ∧ pred w = true
  | .union p q, P => ∃ Q R, p.Describes Q ∧ q.Describes R ∧ ∀ w, P w ↔ Q w ∨ R w
  | .intersection p q, P => ∃ Q R, p.Describes Q ∧ q.Describes R ∧ ∀ w, P w ↔ Q w ∧ R w
  | .difference p q, P => ∃ Q R, p.Describes Q ∧ q.Describes R ∧ ∀ w, P w ↔ Q w ∧ ¬ R w
  | .symmetricDifference p q, P =>
    ∃ Q R, p.Describes Q ∧ q.Describes R ∧ ∀ w, P w ↔ (Q w ∧ ¬ R w) ∨ (R w ∧ ¬ Q w)
  | .anyN p n, P => ∃ Q c, p.Describes Q ∧ HasCard Q c ∧ (∀ w, P w → Q w) ∧ HasCard P (max 0 (min n c))

/-- The set was returned by some program. -/
def FSet.Reachable (s : FSet T) : Prop := ∃ p : SetProg T, p.run = .ok s

/-- What a user observes as membership: `s.Has(v)` returns true. -/
def FSet.Mem (s : FSet T) (v : T) : Prop := s.has v = .ok true

end Frozen
