import Verif.Model.Parallel

/-! What it means that parallel execution cannot be observed. -/

namespace Frozen

/-- The call behaves like the sequential run `r`: what some schedule makes it return is what `r` returns; some schedule makes it or a
goroutine it starts panic exactly if `r` panics; no schedule runs for ever; and none deadlocks or leaves a goroutine blocked.
(So if `r` returns `a`, every schedule ends with the result `a`; if `r` panics, every schedule ends in a panic.) -/
structure Call.Behaves {α : Type} (c : Call α) (r : Go α) : Prop where
  returns : ∀ a, c.Returns a ↔ r = .ok a
  panics : c.Panics ↔ ∃ e, r = .error e
  terminates : c.Terminates
  neverStuck : c.NeverStuck

end Frozen
