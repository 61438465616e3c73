import Verif.Model.MapIter
import Verif.Spec.MemIter
import Verif.Spec.MapUncrowded
import Verif.Spec.MapValues

/-!
# Histories with map iterators

A client that makes calls on maps and map builders (Spec/MapHistory.lean) and also holds iterators over maps. What an iterator must answer
is said by a list and a number: the entries of the map at the time of `Range`, and how often `Next` was called.
-/

namespace Frozen

variable {K V : Type}

/-- A call on a map or map builder, or `Range` on the map at `i`, or `Next` or `Entry` (so also `Key` and `Value`) on the iterator at `j`. -/
inductive MIOp (K V : Type) where
  | call (op : MOp K V)
  | range (i : Nat)
  | next (j : Nat)
  | entry (j : Nat)

/-- What the client gets to see from iterators: the result of `Next` (`none` is a panic), or a key and a value. -/
inductive MIAnswer (K V : Type) where
  | next (r : Option Bool)
  | entry (e : K × V)
deriving DecidableEq

/-- The calls on maps and builders among them. -/
def MIOp.calls (ops : List (MIOp K V)) : List (MOp K V) :=
  ops.filterMap (fun op => match op with
    | .call op => some op
    | _ => none)

/-- The client: maps and builders in memory, iterators, and what it has seen from which iterator. -/
structure MIWorld (K V : Type) where
  world : World (Entry K V)
  iters : List (MMapIter K V)
  seen : List (Nat × MIAnswer K V)

/-- Nothing held, nothing seen. -/
def MIWorld.init : MIWorld K V := ⟨World.init, [], []⟩

variable [GoKey K] [Inhabited K] [Inhabited V]

/-- Perform one call in memory. -/
def MIWorld.step (G : Growth) (w : MIWorld K V) : MIOp K V → MIWorld K V
  | .call op => { w with world := w.world.step G (op.call w.world) }
  | .range i =>
    match w.world.sets[i]? with
    | some m =>
      match m.mapIterator G w.world.mem with
      | (.ok it, H) => ⟨⟨H, w.world.sets, w.world.builders⟩, w.iters ++ [it], w.seen⟩
      | (.error _, H) => ⟨⟨H, w.world.sets, w.world.builders⟩, w.iters, w.seen⟩
    | none => w
  | .next j =>
    match w.iters[j]? with
    | some it =>
      match it.next G w.world.mem with
      | (.ok (it', ok), H) => ⟨⟨H, w.world.sets, w.world.builders⟩, w.iters.set j it', w.seen ++ [(j, .next (some ok))]⟩
      | (.error _, H) => ⟨⟨H, w.world.sets, w.world.builders⟩, w.iters, w.seen ++ [(j, .next none)]⟩
    | none => w
  | .entry j =>
    match w.iters[j]? with
    | some it => { w with seen := w.seen ++ [(j, .entry it.entry)] }
    | none => w

/-- Perform the calls in order. -/
def MIWorld.run (G : Growth) (w : MIWorld K V) (ops : List (MIOp K V)) : MIWorld K V := ops.foldl (MIWorld.step G) w

/-! ## On values -/

omit [GoKey K] in
/-- The entry that the last `Next` that returned true has delivered; the zero key and value if there is none. -/
def ListIter.entry (it : ListIter (Entry K V)) : K × V :=
  match (it.elems.take it.calls).getLast? with
  | some e => (e.key, e.value)
  | none => (default, default)

/-- The client when maps, builders and iterators are values of their own. -/
structure LMWorld (K V : Type) where
  maps : VMaps K V
  iters : List (ListIter (Entry K V))
  seen : List (Nat × MIAnswer K V)

/-- Nothing held, nothing seen. -/
def LMWorld.init : LMWorld K V := ⟨⟨[], []⟩, [], []⟩

/-- Perform one call on values. -/
def LMWorld.step (w : LMWorld K V) : MIOp K V → LMWorld K V
  | .call op => { w with maps := w.maps.step op }
  | .range i =>
    match w.maps.maps[i]? with
    | some m =>
      match m.rangeList with
      | .ok l => { w with iters := w.iters ++ [⟨l, 0⟩] }
      | .error _ => w
    | none => w
  | .next j =>
    match w.iters[j]? with
    | some it => { w with iters := w.iters.set j it.next.1, seen := w.seen ++ [(j, .next (some it.next.2))] }
    | none => w
  | .entry j =>
    match w.iters[j]? with
    | some it => { w with seen := w.seen ++ [(j, .entry it.entry)] }
    | none => w

/-- Perform the calls in order on values. -/
def LMWorld.run (w : LMWorld K V) (ops : List (MIOp K V)) : LMWorld K V := ops.foldl LMWorld.step w

end Frozen
