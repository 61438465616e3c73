import Verif.Model.Misc

/-! Specification of calls that start no goroutine. -/

namespace Frozen

/-- No schedule takes the call to a `go` statement: it never has a goroutine beside itself. -/
def Call.NoGoroutines {α : Type} : Call α → Prop
  | .seq _ => True
  | .run c _ => ∀ s, Reaches c s → ∀ fr kids v, s ≠ .par fr kids v

/-- `FROZEN_CONCURRENCY` (in `c`) forbids goroutines for a collection with `n` elements: it is `off`; or it is not a number and there
are fewer than 2¹⁷ elements; or it is the number `j ≥ 0` and there are fewer than 2^(j+2) elements. -/
def ForbidsGoroutines : Concurrency → Nat → Prop
  | .off, n => n < 2 ^ 64
  | .other, n => n < 2 ^ 17
  | .num j, n => 0 ≤ j ∧ n < 2 ^ (j.toNat + 2)

end Frozen
