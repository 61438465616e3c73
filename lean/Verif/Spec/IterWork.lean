import Verif.Spec.Work
import Verif.Spec.MemIter

/-! # The amount of work of iterating -/

namespace Frozen

variable {T : Type}

/-- The accesses of `n` calls of `Next` one after the other. -/
def MIter.nextsWork (G : Growth) (H : Mem T) : Nat → MIter T → Nat
  | 0, _ => 0
  | n + 1, it => (it.next G).accesses H +
      match it.next G H with
      | (.ok (it', _), H') => MIter.nextsWork G H' n it'
      | (.error _, _) => 0

end Frozen
