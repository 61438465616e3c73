import Verif.Model.MemIter
import Verif.Spec.History

/-!
# Histories with iterators

A client as in Spec/History.lean that also holds iterators. It may start iterators over any set at any time, advance any of them and
ask for their values, with any other calls in between. What an iterator must answer is said by a list and a number: the elements of
the set at the time of `Range`, and how often `Next` was called.
-/

namespace Frozen

variable {T : Type}

/-- A call on a set or builder, or `Range` on the set at `i`, or `Next` or `Value` on the iterator at `j`. -/
inductive IOp (T : Type) where
  | call (op : HOp T)
  | range (i : Nat)
  | next (j : Nat)
  | value (j : Nat)

/-- What the client gets to see from iterators: the result of `Next`, or of `Value`; `none` is a panic. -/
inductive IAnswer (T : Type) where
  | next (r : Option Bool)
  | value (r : Option T)
deriving DecidableEq

/-- A panic becomes `none`. -/
def Go.toOption {α : Type} : Go α → Option α
  | .ok a => some a
  | .error _ => none

/-- The client: sets and builders in memory, iterators, and what it has seen from which iterator. -/
structure IWorld (T : Type) where
  world : World T
  iters : List (MIter T)
  seen : List (Nat × IAnswer T)

/-- Nothing held, nothing seen. -/
def IWorld.init : IWorld T := ⟨World.init, [], []⟩

variable [GoKey T]

/-- Perform one call. -/
def IWorld.step (G : Growth) (w : IWorld T) : IOp T → IWorld T
  | .call op => { w with world := w.world.step G op }
  | .range i =>
    match w.world.sets[i]? with
    | some s =>
      match s.iterator G w.world.mem with
      | (.ok it, H) => ⟨⟨H, w.world.sets, w.world.builders⟩, w.iters ++ [it], w.seen⟩
      | (.error _, H) => ⟨⟨H, w.world.sets, w.world.builders⟩, w.iters, w.seen⟩
    | none => w
  | .next j =>
    match w.iters[j]? with
    | some it =>
      match it.next G w.world.mem with
      | (.ok (it', ok), H) => ⟨⟨H, w.world.sets, w.world.builders⟩, w.iters.set j it', w.seen ++ [(j, .next (some ok))]⟩
      | (.error _, H) => ⟨⟨H, w.world.sets, w.world.builders⟩, w.iters, w.seen ++ [(j, .next none)]⟩
    | none => w
  | .value j =>
    match w.iters[j]? with
    | some it => ⟨⟨(it.value w.world.mem).2, w.world.sets, w.world.builders⟩, w.iters,
        w.seen ++ [(j, .value (it.value w.world.mem).1.toOption)]⟩
    | none => w

/-- Perform the calls in order. -/
def IWorld.run (G : Growth) (w : IWorld T) (ops : List (IOp T)) : IWorld T := ops.foldl (IWorld.step G) w

omit [GoKey T] in
/-- The calls on sets and builders among them. -/
def IOp.calls (ops : List (IOp T)) : List (HOp T) :=
  ops.filterMap (fun op => match op with
    | .call op => some op
    | _ => none)

omit [GoKey T] in
/-- The operation is `Next` or `Value` on the iterator at `j`. -/
def IOp.isOn (j : Nat) : IOp T → Bool
  | .next i => i == j
  | .value i => i == j
  | _ => false

/-- What an iterator must be: the elements in order, and how often `Next` was called. -/
structure ListIter (T : Type) where
  elems : List T
  calls : Nat

omit [GoKey T] in
/-- `Next` has one more element to deliver. -/
def ListIter.next (it : ListIter T) : ListIter T × Bool := (⟨it.elems, it.calls + 1⟩, decide (it.calls < it.elems.length))

omit [GoKey T] in
/-- The element that the last `Next` delivered; a panic if there is none. -/
def ListIter.value (it : ListIter T) : Option T := if it.calls = 0 then none else it.elems[it.calls - 1]?

/-- The client when sets, builders and iterators are values of their own. -/
structure LWorld (T : Type) where
  world : VWorld T
  iters : List (ListIter T)
  seen : List (Nat × IAnswer T)

/-- Perform one call on values. -/
def LWorld.step (w : LWorld T) : IOp T → LWorld T
  | .call op => { w with world := w.world.step op }
  | .range i =>
    match w.world.sets[i]? with
    | some s =>
      match s.rangeList with
      | .ok l => { w with iters := w.iters ++ [⟨l, 0⟩] }
      | .error _ => w
    | none => w
  | .next j =>
    match w.iters[j]? with
    | some it => { w with iters := w.iters.set j it.next.1, seen := w.seen ++ [(j, .next (some it.next.2))] }
    | none => w
  | .value j =>
    match w.iters[j]? with
    | some it => { w with seen := w.seen ++ [(j, .value it.value)] }
    | none => w

/-- Perform the calls in order on values. -/
def LWorld.run (w : LWorld T) (ops : List (IOp T)) : LWorld T := ops.foldl LWorld.step w

end Frozen
