import Verif.Spec.Crash
import Verif.Spec.MapUncrowded
import Verif.Spec.MapValues

/-!
# Map calls that are cut short

As Spec/Crash.lean, for calls on maps and map builders. On values the map API of Spec/MapValues.lean is used.
-/

namespace Frozen

variable {K V : Type}

/-- A map call that runs to its end, or one that is abandoned after `n` accesses to the memory. -/
inductive MapEvent (K V : Type) where
  | call (op : MOp K V)
  | cut (op : MOp K V) (n : Nat)

/-- The call. -/
def MapEvent.op : MapEvent K V → MOp K V
  | .call op => op
  | .cut op _ => op

/-- The builder the call is on. -/
def MOp.builder : MOp K V → Option Nat
  | .put b _ _ => some b
  | .remove b _ => some b
  | .finish b => some b
  | _ => none

variable [GoKey K] [Inhabited V]

/-- One event. -/
def World.mapEvent (G : Growth) (w : World (Entry K V)) : MapEvent K V → World (Entry K V)
  | .call op => w.step G (op.call w)
  | .cut op n => ⟨w.cutMem G (op.call w) n, w.sets, dropBuilder MTree.zero w.builders op.builder⟩

/-- The events in order. -/
def World.mapEvents (G : Growth) (w : World (Entry K V)) (es : List (MapEvent K V)) : World (Entry K V) := es.foldl (World.mapEvent G) w

/-- One event when every map and builder is a value of its own: a call that is cut short did not take place. -/
def VMaps.event (w : VMaps K V) : MapEvent K V → VMaps K V
  | .call op => w.step op
  | .cut op _ => ⟨w.maps, dropBuilder Tree.zero w.builders op.builder⟩

/-- The events in order, on values. -/
def VMaps.events (w : VMaps K V) (es : List (MapEvent K V)) : VMaps K V := es.foldl VMaps.event w

/-- No call of the history, abandoned or not, is to add a key to a map that has three other keys with the same 64-bit hash. -/
def UncrowdedMapEvents (G : Growth) (w : World (Entry K V)) : List (MapEvent K V) → Prop
  | [] => True
  | e :: es => UncrowdedMap w e.op ∧ UncrowdedMapEvents G (w.mapEvent G e) es

end Frozen
