import Verif.Spec.Goroutines
import Verif.Model.Flip

/-! # When merging two sets contains a data race: specification -/

namespace Frozen

variable {X : Type}

/-- The state of the goroutine with this address. -/
def St.at : St X → List (Fin 8) → Option (St X)
  | s, [] => some s
  | .par _ kids _, i :: path => (kids i).at path
  | _, _ :: _ => none

/-- Two goroutines are about to run code that calls `Flip`, and no goroutine has done so before: both read the field `flipped`, and at
least one writes it. `flips` says which goroutines call `Flip`. -/
def St.flipRace (flips : List (Fin 8) → Bool) (s : St X) : Prop :=
  ∃ p q, p ≠ q ∧ flips p = true ∧ flips q = true ∧ (∃ r, s.at p = some (.start (.seq r))) ∧ (∃ r, s.at q = some (.start (.seq r))) ∧
    ∀ p', flips p' = true → ∀ r, s.at p' ≠ some (.done r)

variable {T : Type} [GoKey T]

/-- No schedule of the merge of the trees leads to a race on the field `flipped` of its arguments. -/
def Tree.FlipFree (g : Int) (args : CombineArgs T) (t u : Tree T) : Prop :=
  t.root.isNil = false → u.root.isNil = false → ∀ s, Reaches (Frozen.combineC g t.root args u.root 0) s → ¬ s.flipRace (flipper g t.root args u.root 0)

/-- `s.Union(t)` under gauge `g` contains no data race, neither on a mask nor on `flipped`. -/
def FSet.UnionRaceFree (g : Int) (s t : FSet T) : Prop := (s.unionC g t).RaceFree ∧ s.tree.FlipFree g ⟨GoKey.eq, useRHS⟩ t.tree

/-- `m.Merge(n, resolve)` under gauge `g` contains no data race. -/
def FMap.MergeRaceFree {K V : Type} [GoKey K] (g : Int) (m n : FMap K V) (resolve : K → V → V → V) : Prop :=
  (m.mergeC g n resolve).RaceFree ∧ m.tree.FlipFree g ⟨mapEntryKeyEqual, fun a b => ⟨a.key, resolve a.key a.value b.value⟩⟩ n.tree

/-- `m.Update(n)` under gauge `g` contains no data race. -/
def FMap.UpdateRaceFree {K V : Type} [GoKey K] (g : Int) (m n : FMap K V) : Prop :=
  (m.updateC g n).RaceFree ∧
    if m.count > n.count then n.tree.FlipFree g ⟨mapEntryKeyEqual, useLHS⟩ m.tree else m.tree.FlipFree g ⟨mapEntryKeyEqual, useRHS⟩ n.tree

/-- The hashes of the two values begin with the same `3·d` bits. -/
def SameStart (d : Nat) (a b : T) : Prop := hash0 a >>> (64 - 3 * d) = hash0 b >>> (64 - 3 * d)

/-- `x` is in one of the sets `P` and `Q`, and the other one has no element whose hash begins with the same `3·d` bits. -/
def Lone (d : Nat) (P Q : T → Prop) (x : T) : Prop :=
  (P x ∧ ∀ a, Q a → ¬ SameStart d a x) ∨ (Q x ∧ ∀ a, P a → ¬ SameStart d a x)

/-- The pattern on which merging the sets `P` and `Q` under gauge `g` contains a data race: for some `d < g`, two hash beginnings of
`3·(d+1)` bits that agree in their first `3·d` bits each occur in one of the sets only, and both sets have three elements that begin
with those `3·d` bits. -/
def MaskClash (g : Int) (P Q : T → Prop) : Prop :=
  ∃ (d : Nat) (x y : T), (d : Int) < g ∧ SameStart d x y ∧ ¬ SameStart (d + 1) x y ∧ Lone (d + 1) P Q x ∧ Lone (d + 1) P Q y ∧
    AtLeast 3 (fun e => P e ∧ SameStart d e x) ∧ AtLeast 3 (fun e => Q e ∧ SameStart d e x)

/-- Below the hash beginning of `3·n` bits that `x` has, the set `P` has one or two elements and the set `Q` has more, and all shorter
beginnings are crowded in both. If the beginning is the whole hash, `Q` has two elements. -/
def FlipAt (n : Nat) (P Q : T → Prop) (x : T) : Prop :=
  AtLeast 1 (fun e => P e ∧ SameStart n e x) ∧ ¬ AtLeast 3 (fun e => P e ∧ SameStart n e x) ∧
  AtLeast 2 (fun e => Q e ∧ SameStart n e x) ∧ (AtLeast 2 (fun e => P e ∧ SameStart n e x) → AtLeast 3 (fun e => Q e ∧ SameStart n e x)) ∧
  (22 ≤ n → ¬ AtLeast 3 (fun e => Q e ∧ SameStart n e x)) ∧
  (0 < n → AtLeast 3 (fun e => P e ∧ SameStart (n - 1) e x) ∧ AtLeast 3 (fun e => Q e ∧ SameStart (n - 1) e x))

/-- The pattern on which two goroutines of a merge of `P` and `Q` under gauge `g` race in `Flip`: there are two such hash beginnings, and
they differ within their first `3·g` bits. -/
def FlipClash (g : Int) (P Q : T → Prop) : Prop :=
  ∃ n m x y, FlipAt n P Q x ∧ FlipAt m P Q y ∧ ¬ SameStart (min (min n m) g.toNat) x y

end Frozen
