import Verif.Model.Basic

/-! # Concrete element types used to show that hypotheses can be met and to refute false properties

They model element types a user may define with their own `Equal` and `Hash` methods. -/

namespace Frozen

/-- Elements with the worst legal hash: all values collide. -/
structure Coll where
  n : Nat
deriving DecidableEq

instance : GoKey Coll where
  eq a b := decide (a = b)
  hash _ _ := 7#64

instance : LawfulGoKey Coll where
  refl a := by simp [GoKey.eq]
  symm h := by simpa [GoKey.eq, Eq.comm] using h
  trans h g := by simp only [GoKey.eq, decide_eq_true_eq] at *; exact h.trans g
  hash_congr _ _ _ _ := rfl

/-- Elements with a good hash that spreads over the top levels, and an `Equal` coarser than identity: numbers modulo 100. -/
structure Mod100 where
  n : Nat
deriving DecidableEq

instance : GoKey Mod100 where
  eq a b := decide (a.n % 100 = b.n % 100)
  hash seed a := BitVec.ofNat 64 ((a.n % 100) * 2654435761 * 40503) ^^^ seed

instance : LawfulGoKey Mod100 where
  refl a := by simp [GoKey.eq]
  symm h := by simpa [GoKey.eq, Eq.comm] using h
  trans h g := by simp only [GoKey.eq, decide_eq_true_eq] at *; exact h.trans g
  hash_congr seed _ _ h := by simp only [GoKey.eq, decide_eq_true_eq, GoKey.hash] at *; rw [h]

instance : Inhabited Mod100 := ⟨⟨0⟩⟩

/-! Kernel evaluation of concrete runs, for examples only. -/

/-- The run returned a value that passes the test. -/
def okAnd {α : Type} (r : Go α) (test : α → Bool) : Bool :=
  match r with
  | .ok a => test a
  | .error _ => false

theorem of_okAnd {α : Type} {r : Go α} {test : α → Bool} (h : okAnd r test = true) : ∃ a, r = .ok a ∧ test a = true := by
  cases r with
  | ok a => exact ⟨a, rfl, h⟩
  | error e => cases h

/-- The run returned this value. -/
def isOk {α : Type} [DecidableEq α] (r : Go α) (v : α) : Bool := okAnd r (fun a => decide (a = v))

theorem of_isOk {α : Type} [DecidableEq α] {r : Go α} {v : α} (h : isOk r v = true) : r = .ok v := by
  obtain ⟨a, h1, h2⟩ := of_okAnd h
  rw [h1, of_decide_eq_true h2]

end Frozen
