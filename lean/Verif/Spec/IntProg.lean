import Verif.Model.IntSet
import Verif.Spec.Set

/-!
# Programs over the IntSet API, and the set of integers each one denotes

`signed` and `w` describe the integer type. Orders of iteration over Go maps are arbitrary permutations.
-/

namespace Frozen

/-- Programs over the IntSet API. -/
inductive IntProg (w : Nat) where
  | new (order : List (BitVec w × CellMask) → List (BitVec w × CellMask)) (horder : ∀ l, (order l).Perm l) (is : List (BitVec w))
  | with (p : IntProg w) (i : BitVec w)
  | without (p : IntProg w) (i : BitVec w)
  | where (p : IntProg w) (pred : BitVec w → Bool)
  | map (p : IntProg w) (order : List (BitVec w × CellMask) → List (BitVec w × CellMask)) (horder : ∀ l, (order l).Perm l)
      (f : BitVec w → BitVec w)
  | union (p q : IntProg w)
  | intersection (p q : IntProg w)

/-- Run a program on the API. -/
def IntProg.run {w : Nat} [GoKey (BitVec w)] (signed : Bool) : IntProg w → Go (IntSet w)
  | .new order _ is => newIntSet signed order is
  | .with p i => do let s ← p.run signed; s.with signed i
  | .without p i => do let s ← p.run signed; s.without signed i
  | .where p pred => do let s ← p.run signed; s.where pred
  | .map p order _ f => do let s ← p.run signed; s.map signed order f
  | .union p q => do let s ← p.run signed; let t ← q.run signed; s.union t
  | .intersection p q => do let s ← p.run signed; let t ← q.run signed; s.intersection t

/-- The set of integers a program denotes. -/
def IntProg.denote {w : Nat} : IntProg w → BitVec w → Prop
  | .new _ _ is => fun i => i ∈ is
  | .with p j => fun i => i = j ∨ p.denote i
  | .without p j => fun i => p.denote i ∧ i ≠ j
  | .where p pred => fun i => p.denote i ∧ pred i = true
  | .map p _ _ f => fun i => ∃ j, p.denote j ∧ f j = i
  | .union p q => fun i => p.denote i ∨ q.denote i
  | .intersection p q => fun i => p.denote i ∧ q.denote i

/-- The integers an `IntSet` can hold: all of them if the type is unsigned; if it is signed, the non-negative ones and the multiples
of 64. -/
def Storable {w : Nat} (signed : Bool) (i : BitVec w) : Prop := signed = false ∨ 0 ≤ i.toInt ∨ 64 ∣ i.toInt

/-- Every integer the program puts into a set is `Storable`. -/
def IntProg.AllStorable {w : Nat} (signed : Bool) : IntProg w → Prop
  | .new _ _ is => ∀ i ∈ is, Storable signed i
  | .with p i => p.AllStorable signed ∧ Storable signed i
  | .without p _ => p.AllStorable signed
  | .where p _ => p.AllStorable signed
  | .map p _ _ f => p.AllStorable signed ∧ ∀ j, p.denote j → Storable signed (f j)
  | .union p q => p.AllStorable signed ∧ q.AllStorable signed
  | .intersection p q => p.AllStorable signed ∧ q.AllStorable signed

/-- Call `Next` `n` times; record `Value()` after each call that returned true, `none` after each that returned false. -/
def IntIter.calls {w : Nat} (it : IntIter w) : Nat → Go (List (Option (BitVec w)))
  | 0 => pure []
  | n + 1 => do
    let (it', ok) ← it.next
    let rest ← it'.calls n
    pure ((if ok then some it'.value else none) :: rest)

end Frozen
