import Verif.Spec.IntCrash
import Verif.Spec.IntIter

/-! # Histories with iterators over integer sets and with calls abandoned because the client's function panicked -/

namespace Frozen

variable {w : Nat}

/-- A call on sets or iterators, or a call of `Where` on set `i` that is abandoned when the predicate panics after `n` blocks. -/
inductive IIEvent (w : Nat) where
  | op (o : IIOp w)
  | cut (i : Nat) (pred : BitVec w → Bool) (n : Nat)

/-- What happens in memory. -/
def IIWorld.event [GoKey (BitVec w)] (G : Growth) (sg : Bool) (x : IIWorld w) : IIEvent w → IIWorld w
  | .op o => x.step G sg o
  | .cut i pred n => { x with world := x.world.event G sg (.cut i pred n) }

/-- All events in order. -/
def IIWorld.events [GoKey (BitVec w)] (G : Growth) (sg : Bool) (x : IIWorld w) (es : List (IIEvent w)) : IIWorld w :=
  es.foldl (IIWorld.event G sg) x

/-- The calls that were not abandoned. -/
def IIEvent.completed : List (IIEvent w) → List (IIOp w)
  | [] => []
  | .op o :: es => o :: IIEvent.completed es
  | .cut _ _ _ :: es => IIEvent.completed es

end Frozen
