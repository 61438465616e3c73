import Verif.Spec.MapCrash
import Verif.Spec.MapIter

/-! # Histories with map iterators and with calls that are cut short -/

namespace Frozen

variable {K V : Type}

/-- A call on a map, builder or iterator, or a call on a map or builder that is abandoned after `n` accesses to the memory. -/
inductive MIEvent (K V : Type) where
  | op (o : MIOp K V)
  | cut (o : MOp K V) (n : Nat)

/-- The events on maps and builders among them. -/
def MIEvent.calls : List (MIEvent K V) → List (MapEvent K V)
  | [] => []
  | .op (.call o) :: es => .call o :: MIEvent.calls es
  | .op _ :: es => MIEvent.calls es
  | .cut o n :: es => .cut o n :: MIEvent.calls es

variable [GoKey K] [Inhabited K] [Inhabited V]

/-- One event. -/
def MIWorld.event (G : Growth) (w : MIWorld K V) : MIEvent K V → MIWorld K V
  | .op o => w.step G o
  | .cut o n => { w with world := w.world.mapEvent G (.cut o n) }

/-- The events in order. -/
def MIWorld.events (G : Growth) (w : MIWorld K V) (es : List (MIEvent K V)) : MIWorld K V := es.foldl (MIWorld.event G) w

/-- One event when maps, builders and iterators are values of their own: a call that is cut short did not take place. -/
def LMWorld.event (w : LMWorld K V) : MIEvent K V → LMWorld K V
  | .op o => w.step o
  | .cut o n => { w with maps := w.maps.event (.cut o n) }

/-- The events in order, on values. -/
def LMWorld.events (w : LMWorld K V) (es : List (MIEvent K V)) : LMWorld K V := es.foldl LMWorld.event w

end Frozen
