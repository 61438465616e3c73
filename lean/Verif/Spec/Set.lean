import Verif.Model.Basic

/-!
# Specification vocabulary for sets

Nothing here mentions the trie. A set over `T` is specified by its membership predicate `P : T → Prop`; elements are identified up
to the element type's own equality `GoKey.eq`.
-/

namespace Frozen

variable {T : Type} [GoKey T]

/-- The values of `l` are pairwise different (no two are `Equal`). -/
def PairwiseDifferent (l : List T) : Prop := l.Pairwise (fun a b => GoKey.eq a b = false)

/-- `l` lists the set `P`: it has one value for each element. -/
structure Lists (l : List T) (P : T → Prop) : Prop where
  different : PairwiseDifferent l
  covers : ∀ w, P w ↔ ∃ e ∈ l, GoKey.eq e w = true

/-- The set `P` has exactly `n` elements. -/
def HasCard (P : T → Prop) (n : Int) : Prop := ∃ l : List T, Lists l P ∧ (l.length : Int) = n

/-- The set `P` has at least `n` different elements. -/
def AtLeast (n : Nat) (P : T → Prop) : Prop := ∃ l : List T, l.length = n ∧ PairwiseDifferent l ∧ ∀ x ∈ l, P x

/-- The hash the trie is built on (`hash.Any(v, 0)`). -/
def hash0 (v : T) : BitVec 64 := GoKey.hash 0#64 v

/-- The collision pattern on which the trie's merge gives up: some element of `P` and some element of `Q` have the same 64-bit
hash `h`, each set has three elements that agree with `h` except possibly in the lowest bit, and at least one of the two sets has
three elements whose hash is exactly `h`. -/
def TripleClash (P Q : T → Prop) : Prop :=
  ∃ x y, P x ∧ Q y ∧ hash0 x = hash0 y ∧
    AtLeast 3 (fun e => P e ∧ hash0 e >>> 1 = hash0 x >>> 1) ∧
    AtLeast 3 (fun e => Q e ∧ hash0 e >>> 1 = hash0 x >>> 1) ∧
    (AtLeast 3 (fun e => P e ∧ hash0 e = hash0 x) ∨ AtLeast 3 (fun e => Q e ∧ hash0 e = hash0 x))

end Frozen
