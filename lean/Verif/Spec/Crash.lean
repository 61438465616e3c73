import Verif.Spec.Concurrent

/-!
# Calls that are cut short

`Equal`, `Hash`, predicates and resolve functions are the user's, and may panic in the middle of a call; a deferred `recover` lets the
program go on with the sets it holds. Here a call may be abandoned after any number of accesses to the memory, whether or not the
user's code runs at that point. The caller gets no result. If the call was on a builder, the caller gives that builder up: the
variable is set to a new one.
-/

namespace Frozen

variable {T : Type}

/-- The first `n` accesses of a piece of code: what is still to run, and the memory. -/
def MM.steps {α : Type} (x : MM T α) (H : Mem T) : Nat → MM T α × Mem T
  | 0 => (x, H)
  | n + 1 => (MM.steps x H n).1.step (MM.steps x H n).2

/-- A call that runs to its end, or one that is abandoned after `n` accesses to the memory. -/
inductive Event (T : Type) where
  | call (op : HOp T)
  | cut (op : HOp T) (n : Nat)

/-- The call. -/
def Event.op : Event T → HOp T
  | .call op => op
  | .cut op _ => op

/-- What an event does to builders: an abandoned call is like a `Finish` whose result is thrown away. -/
def Event.effect : Event T → List (HOp T)
  | .call op => [op]
  | .cut op _ =>
    match op.builder with
    | some k => [.finish k]
    | none => []

variable [GoKey T]

/-- The memory when the call is abandoned. -/
def World.cutMem (G : Growth) (w : World T) (op : HOp T) (n : Nat) : Mem T :=
  ((Client.call G ⟨w.sets, w.builders, []⟩ op).steps w.mem n).2

/-- The builders after an abandoned call: the one the call was on is given up. -/
def dropBuilder {B : Type} (zero : B) (bs : List B) : Option Nat → List B
  | some k => bs.set k zero
  | none => bs

/-- One event. -/
def World.event (G : Growth) (w : World T) : Event T → World T
  | .call op => w.step G op
  | .cut op n => ⟨w.cutMem G op n, w.sets, dropBuilder MTree.zero w.builders op.builder⟩

/-- The events in order. -/
def World.events (G : Growth) (w : World T) (es : List (Event T)) : World T := es.foldl (World.event G) w

/-- One event when every set and builder is a value of its own: a call that is cut short did not take place. -/
def VWorld.event (w : VWorld T) : Event T → VWorld T
  | .call op => w.step op
  | .cut op _ => ⟨w.sets, dropBuilder Tree.zero w.builders op.builder⟩

/-- The events in order, on values. -/
def VWorld.events (w : VWorld T) (es : List (Event T)) : VWorld T := es.foldl VWorld.event w

/-- No call of the history, abandoned or not, is to add an element to a set that has three others with the same 64-bit hash. -/
def UncrowdedEvents (G : Growth) (w : World T) : List (Event T) → Prop
  | [] => True
  | e :: es => Uncrowded w e.op ∧ UncrowdedEvents G (w.event G e) es

end Frozen
