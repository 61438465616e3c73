import Verif.Model.IntIter
import Verif.Spec.IntHistory
import Verif.Spec.MemIter

/-!
# Histories with iterators over integer sets

A client that makes calls on integer sets (Spec/IntHistory.lean) and also holds iterators over them. What an iterator must answer is said by
a list and a number: what `Elements` returned at the time of `Range`, and how often `Next` was called.
-/

namespace Frozen

variable {w : Nat}

/-- A call on integer sets, or `Range` on the set at `i`, or `Next` on the iterator at `j`, followed by `Value` if it returned true. -/
inductive IIOp (w : Nat) where
  | call (op : IntOp w)
  | range (i : Nat)
  | next (j : Nat)

/-- The calls on sets among them. -/
def IIOp.calls (ops : List (IIOp w)) : List (IntOp w) :=
  ops.filterMap (fun op => match op with
    | .call op => some op
    | _ => none)

/-- The client: sets in memory, iterators, and what it has seen from which iterator: `none` is a panic, `some none` that `Next` returned
false, `some (some n)` that it returned true and `Value` returned `n`. -/
structure IIWorld (w : Nat) where
  world : IntWorld w
  iters : List (MIntIter w)
  seen : List (Nat × Option (Option (BitVec w)))

/-- Nothing held, nothing seen. -/
def IIWorld.init : IIWorld w := ⟨IntWorld.init, [], []⟩

/-- Perform one call in memory. -/
def IIWorld.step [GoKey (BitVec w)] (G : Growth) (sg : Bool) (x : IIWorld w) : IIOp w → IIWorld w
  | .call op => { x with world := x.world.step G sg op }
  | .range i =>
    match x.world.sets[i]? with
    | some s =>
      match s.range G x.world.maps with
      | (.ok it, W) => ⟨⟨W, x.world.sets⟩, x.iters ++ [it], x.seen⟩
      | (.error _, W) => ⟨⟨W, x.world.sets⟩, x.iters, x.seen⟩
    | none => x
  | .next j =>
    match x.iters[j]? with
    | some it =>
      match it.next G x.world.maps with
      | (.ok (it', ok), W) => ⟨⟨W, x.world.sets⟩, x.iters.set j it', x.seen ++ [(j, some (if ok then some it'.value else none))]⟩
      | (.error _, W) => ⟨⟨W, x.world.sets⟩, x.iters, x.seen ++ [(j, none)]⟩
    | none => x

/-- Perform the calls in order. -/
def IIWorld.run [GoKey (BitVec w)] (G : Growth) (sg : Bool) (x : IIWorld w) (ops : List (IIOp w)) : IIWorld w :=
  ops.foldl (IIWorld.step G sg) x

/-! ## On values -/

/-- The client when sets and iterators are values of their own. -/
structure LIWorld (w : Nat) where
  sets : List (IntSet w)
  iters : List (ListIter (BitVec w))
  seen : List (Nat × Option (Option (BitVec w)))

/-- Nothing held, nothing seen. -/
def LIWorld.init : LIWorld w := ⟨[], [], []⟩

/-- Perform one call on values: the iterator delivers the elements one by one. -/
def LIWorld.step [GoKey (BitVec w)] (sg : Bool) (x : LIWorld w) : IIOp w → LIWorld w
  | .call op => { x with sets := intStep sg x.sets op }
  | .range i =>
    match x.sets[i]? with
    | some v =>
      match v.elements with
      | .ok l => { x with iters := x.iters ++ [⟨l, 0⟩] }
      | .error _ => x
    | none => x
  | .next j =>
    match x.iters[j]? with
    | some it => { x with iters := x.iters.set j it.next.1, seen := x.seen ++ [(j, some it.elems[it.calls]?)] }
    | none => x

/-- Perform the calls in order on values. -/
def LIWorld.run [GoKey (BitVec w)] (sg : Bool) (x : LIWorld w) (ops : List (IIOp w)) : LIWorld w := ops.foldl (LIWorld.step sg) x

end Frozen
