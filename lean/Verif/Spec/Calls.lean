import Verif.Model.Calls

/-! # How the user's function must be called -/

namespace Frozen

variable {Q A R T : Type}

/-- The user's function is called on `qs`, in this order, whatever it answers; then the library returns an `r` that is in order for the
answers `as`, `I as r`. It never panics by itself. -/
def CB.Asks : List Q → (List A → R → Prop) → CB Q A R → Prop
  | [], I, .done r => I [] r
  | q :: qs, I, .call q' next => q' = q ∧ ∀ a, CB.Asks qs (fun as => I (a :: as)) (next a)
  | _, _, _ => False

/-- Combining a pool of values: each call takes its arguments (`args`), at least one, out of the pool and puts the answer in. At the
end the only value left is the result, or none if the pool was empty. -/
def CB.Spends (args : Q → List T) : List T → CB Q T (Option T) → Prop
  | pool, .done r => pool.Perm r.toList
  | _, .panic _ => False
  | pool, .call q next => args q ≠ [] ∧ ∃ rest, pool.Perm (args q ++ rest) ∧ ∀ a, CB.Spends args (a :: rest) (next a)

end Frozen
