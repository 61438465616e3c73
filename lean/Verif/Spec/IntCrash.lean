import Verif.Model.IntCrash
import Verif.Spec.IntHistory

/-! # Histories of IntSet calls, some of them abandoned because the client's function panicked -/

namespace Frozen

variable {w : Nat}

/-- A call, or a call of `Where` on set `i` that is abandoned when the predicate panics after `n` blocks. (A call of `Map` that is abandoned
changes nothing in memory.) -/
inductive IntEvent (w : Nat) where
  | call (op : IntOp w)
  | cut (i : Nat) (pred : BitVec w → Bool) (n : Nat)

/-- What happens in memory. The client gets no set from an abandoned call. -/
def IntWorld.event [GoKey (BitVec w)] (G : Growth) (sg : Bool) (x : IntWorld w) : IntEvent w → IntWorld w
  | .call op => x.step G sg op
  | .cut i pred n =>
    match x.sets[i]? with
    | some s => (match s.whereCut G pred n x.maps with | .ok (_, W) => ⟨W, x.sets⟩ | .error _ => x)
    | none => x

/-- All events in order. -/
def IntWorld.events [GoKey (BitVec w)] (G : Growth) (sg : Bool) (x : IntWorld w) (es : List (IntEvent w)) : IntWorld w :=
  es.foldl (IntWorld.event G sg) x

/-- The calls that were not abandoned. -/
def completed : List (IntEvent w) → List (IntOp w)
  | [] => []
  | .call op :: es => op :: completed es
  | .cut _ _ _ :: es => completed es

end Frozen
