import Verif.Spec.Crash
import Verif.Spec.MemIter

/-! # Histories with iterators and with calls that are cut short -/

namespace Frozen

variable {T : Type}

/-- A call on a set, builder or iterator, or a call on a set or builder that is abandoned after `n` accesses to the memory. -/
inductive IEvent (T : Type) where
  | op (o : IOp T)
  | cut (o : HOp T) (n : Nat)

/-- The events on sets and builders among them. -/
def IEvent.calls : List (IEvent T) → List (Event T)
  | [] => []
  | .op (.call o) :: es => .call o :: IEvent.calls es
  | .op _ :: es => IEvent.calls es
  | .cut o n :: es => .cut o n :: IEvent.calls es

variable [GoKey T]

/-- One event. -/
def IWorld.event (G : Growth) (w : IWorld T) : IEvent T → IWorld T
  | .op o => w.step G o
  | .cut o n => { w with world := w.world.event G (.cut o n) }

/-- The events in order. -/
def IWorld.events (G : Growth) (w : IWorld T) (es : List (IEvent T)) : IWorld T := es.foldl (IWorld.event G) w

/-- One event when sets, builders and iterators are values of their own: a call that is cut short did not take place. -/
def LWorld.event (w : LWorld T) : IEvent T → LWorld T
  | .op o => w.step o
  | .cut o n => { w with world := w.world.event (.cut o n) }

/-- The events in order, on values. -/
def LWorld.events (w : LWorld T) (es : List (IEvent T)) : LWorld T := es.foldl LWorld.event w

end Frozen
