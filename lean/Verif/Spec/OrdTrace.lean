import Verif.Model.Ordered

/-! # Calls on an ordered iterator -/

namespace Frozen

/-- Call `Next` `n` times; record `Value()` after each call that returned true, `none` after each that returned false. -/
def OrdIter.calls {T : Type} (it : OrdIter T) : Nat → Go (List (Option T))
  | 0 => pure []
  | n + 1 => do
    let (it', ok) ← it.next
    if ok then do
      let v ← it'.value
      let rest ← it'.calls n
      pure (some v :: rest)
    else do
      let rest ← it'.calls n
      pure (none :: rest)

end Frozen
