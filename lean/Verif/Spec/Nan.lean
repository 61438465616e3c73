import Verif.Spec.SetProg

/-!
# Reference semantics by element lists

For element types with values that are not equal to themselves (a floating-point NaN, or a user type whose `Equal` says so), a set
is not determined by what `Has` answers: such an element is in the set, is counted and is iterated over, but `Has` does not find it.
The reference for these is the list of the elements, up to order, transformed by each call.
-/

namespace Frozen

variable {T : Type} [GoKey T]

/-- Some element of `l` is equal to `w`. -/
def hasL (l : List T) (w : T) : Bool := l.any fun e => GoKey.eq e w

/-- Remove the element equal to `v`, if there is one. -/
def eraseL (l : List T) (v : T) : List T := l.filter fun e => !GoKey.eq e v

/-- Add `v` in place of the element equal to it, if there is one. -/
def insertL (l : List T) (v : T) : List T := eraseL l v ++ [v]

/-- The elements of `a` that have no equal in `b`. -/
def minusL (a b : List T) : List T := a.filter fun e => !hasL b e

/-- One builder call. -/
def BuildOp.onList (l : List T) : BuildOp T → List T
  | .add v => insertL l v
  | .remove v => eraseL l v

/-- `l` may be, up to order, the list of elements of the set the program returns. -/
def SetProg.Elems : SetProg T → List T → Prop
  | .newSet vs, l => l.Perm (vs.foldl insertL [])
  | .build ops, l => l.Perm (ops.foldl BuildOp.onList [])
  | .with p v, l => ∃ a, p.Elems a ∧ l.Perm (insertL a v)
  | .without p v, l => ∃ a, p.Elems a ∧ l.Perm (eraseL a v)
  | .where p pred _, l => ∃ a, p.Elems a ∧ l.Perm (a.filter pred)
  | .union p q, l => ∃ a b, p.Elems a ∧ q.Elems b ∧ l.Perm (minusL a b ++ b)
  | .intersection p q, l => ∃ a b, p.Elems a ∧ q.Elems b ∧ PairwiseDifferent l ∧
      (∀ e ∈ l, e ∈ a ∧ hasL b e = true ∨ e ∈ b ∧ hasL a e = true) ∧ ∀ w, hasL l w = (hasL a w && hasL b w)
  | .difference p q, l => ∃ a b, p.Elems a ∧ q.Elems b ∧ l.Perm (minusL a b)
  | .symmetricDifference p q, l => ∃ a b, p.Elems a ∧ q.Elems b ∧ l.Perm (minusL a b ++ minusL b a)
  | .anyN p n, l => ∃ a rest, p.Elems a ∧ (l ++ rest).Perm a ∧ (l.length : Int) = max 0 (min n a.length)

/-- The program does not unite two sets. -/
def SetProg.NoUnion : SetProg T → Prop
  | .newSet _ | .build _ => True
  | .with p _ | .without p _ | .where p _ _ | .anyN p _ => p.NoUnion
  | .union _ _ | .symmetricDifference _ _ => False
  | .intersection p q | .difference p q => p.NoUnion ∧ q.NoUnion

/-- The elements of `l` whose hash agrees with that of `x` except possibly in the lowest bit. -/
def nearL (l : List T) (x : T) : List T := l.filter fun e => decide (hash0 e >>> 1 = hash0 x >>> 1)

/-- The elements of `l` with the hash of `x`. -/
def sameL (l : List T) (x : T) : List T := l.filter fun e => decide (hash0 e = hash0 x)

/-- The collision pattern `TripleClash`, on element lists. -/
def ClashLists (a b : List T) : Prop :=
  ∃ x ∈ a, ∃ y ∈ b, hash0 x = hash0 y ∧ 3 ≤ (nearL a x).length ∧ 3 ≤ (nearL b x).length ∧
    (3 ≤ (sameL a x).length ∨ 3 ≤ (sameL b x).length)

end Frozen
