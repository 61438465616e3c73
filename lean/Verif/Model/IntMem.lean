import Verif.Model.IntSet
import Verif.Model.MemCompare
import Verif.Spec.MapHistory

/-!
# Integer sets in memory: `intset.go`

An `IntSet` is a struct with a map and a count (intset.go:13-16). Here the map is one of the maps of a client's `World`, named by position,
so that what one call writes to memory is there when the next one reads. The functions are those of Model/IntSet.lean, with every call on a
map or map builder made in memory.

Simplifications: the entries of a map that a loop ranges over are read when the loop starts (that an iterator is not disturbed by later
calls is C54; Model/IntLive.lean has the loops with the iterator under way). After a panic nothing is said about memory.
-/

namespace Frozen

variable {w : Nat}

/-- The maps of integer sets, and their builders, in memory. -/
abbrev IntMaps (w : Nat) := World (Entry (BitVec w) CellMask)

/-- A piece of code that works on maps in memory. -/
def IM (w : Nat) (α : Type) := IntMaps w → Go (α × IntMaps w)

instance : Monad (IM w) where
  pure a := fun W => .ok (a, W)
  bind x f := fun W =>
    match x W with
    | .ok (a, W') => f a W'
    | .error e => .error e

/-- intset.go:13-16 `IntSet`: the position of the map `data`, and `count`. -/
structure MInt where
  data : Nat
  count : Int
deriving DecidableEq

variable [GoKey (BitVec w)]

/-- map.go:90-95 `Get` -/
def IM.get (i : Nat) (k : BitVec w) : IM w (Option CellMask) := fun W =>
  match W.sets[i]? with
  | some m =>
    match m.mapGet W.mem k with
    | .ok r => .ok (r, W)
    | .error e => .error e
  | none => .error (.msg "no such map")

/-- map.go:266-268 `Range` and the loop over it. -/
def IM.range (i : Nat) : IM w (List (Entry (BitVec w) CellMask)) := fun W =>
  match W.sets[i]? with
  | some m =>
    match m.elems W.mem with
    | .ok r => .ok (r, W)
    | .error e => .error e
  | none => .error (.msg "no such map")

/-- map.go:225-232 `Equal` -/
def IM.equal (i j : Nat) : IM w Bool := fun W =>
  match W.sets[i]?, W.sets[j]? with
  | some m, some n =>
    match (m.equalP mapEntryEqual n W.mem).1 with
    | .ok r => .ok (r, W)
    | .error e => .error e
  | _, _ => .error (.msg "no such map")

/-- A call that returns a map (`With`, `Without`, `Finish`); the result is the new map's position. There is none if the call panicked. -/
def IM.call (G : Growth) (op : MOp (BitVec w) CellMask) : IM w Nat := fun W =>
  if W.sets.length < (W.runMap G [op]).sets.length then .ok (W.sets.length, W.runMap G [op]) else .error (.msg "the call panicked")

/-- `var b MapBuilder` (intset.go:174, 206) -/
def IM.newBuilder (G : Growth) : IM w Nat := fun W => .ok (W.builders.length, W.runMap G [.newBuilder])

/-- map_builder.go:22-24 `Put` -/
def IM.put (G : Growth) (b : Nat) (k : BitVec w) (v : CellMask) : IM w Unit := fun W => .ok ((), W.runMap G [.put b k v])

/-- `var b MapBuilder; for … { b.Put(k, v) }; return b.Finish()` -/
def IM.build (G : Growth) (kvs : List (KeyValue (BitVec w) CellMask)) : IM w Nat := do
  let b ← IM.newBuilder G
  kvs.forM (fun kv => IM.put G b kv.key kv.value)
  IM.call G (.finish b)

/-- intset.go:30-43 `NewIntSet` -/
def mNewIntSet (G : Growth) (signed : Bool) (order : List (BitVec w × CellMask) → List (BitVec w × CellMask)) (is : List (BitVec w)) :
    IM w MInt := do
  let m := order (is.foldl (intSetCell signed) [])
  let data ← IM.build G (m.map (fun e => ⟨e.1, e.2⟩))
  pure ⟨data, (m.map (fun e => (ones e.2.bits : Int))).sum⟩

omit [GoKey (BitVec w)] in
/-- intset_iter.go:13-26 `Next` and `Value`, over the cells of a map: each cell gives a value at once, and another one as long as bits are
left. -/
def cellsOut (es : List (Entry (BitVec w) CellMask)) : List (BitVec w) :=
  es.flatMap (fun e => cellVal e.key (tz e.value.bits) :: (bitLoop (clearLow e.value.bits)).map (cellVal e.key))

/-- intset.go:64-70 `Elements` -/
def MInt.elements (s : MInt) : IM w (List (BitVec w)) := do
  let es ← IM.range s.data
  pure (cellsOut es)

/-- intset.go:119-121 `Equal` -/
def MInt.equal (s t : MInt) : IM w Bool := IM.equal s.data t.data

/-- intset.go:135-140: the loop of `IsSubsetOf`. -/
def mSubsetLoop (t : MInt) : List (Entry (BitVec w) CellMask) → IM w Bool
  | [] => pure true
  | e :: es => do
    match ← IM.get t.data e.key with
    | none => pure false
    | some tc => if e.value.bits &&& ~~~tc.bits ≠ 0#64 then pure false else mSubsetLoop t es

/-- intset.go:132-140 `IsSubsetOf` -/
def MInt.isSubsetOf (s t : MInt) : IM w Bool := do
  let es ← IM.range s.data
  mSubsetLoop t es

/-- intset.go:237-241 `locate` -/
def MInt.locate (signed : Bool) (s : MInt) (i : BitVec w) : IM w (BitVec 64 × BitVec w × BitVec 64) := do
  let g ← IM.get s.data (locateCell signed i).1
  pure ((g.getD default).bits, locateCell signed i)

/-- intset.go:143-146 `Has` -/
def MInt.has (signed : Bool) (s : MInt) (i : BitVec w) : IM w Bool := do
  let l ← s.locate signed i
  pure (l.1 &&& l.2.2 != 0#64)

/-- intset.go:149-155 `With` -/
def MInt.with (G : Growth) (signed : Bool) (s : MInt) (i : BitVec w) : IM w MInt := do
  let l ← s.locate signed i
  if l.1 &&& l.2.2 = 0#64 then do
    let data ← IM.call G (.with s.data l.2.1 ⟨l.1 ||| l.2.2⟩)
    pure ⟨data, s.count + 1⟩
  else pure s

/-- intset.go:158-169 `Without` -/
def MInt.without (G : Growth) (signed : Bool) (s : MInt) (i : BitVec w) : IM w MInt := do
  let l ← s.locate signed i
  if l.1 &&& l.2.2 ≠ 0#64 then do
    let data ← if l.1 &&& ~~~l.2.2 ≠ 0#64 then IM.call G (.with s.data l.2.1 ⟨l.1 &&& ~~~l.2.2⟩)
      else IM.call G (.without s.data l.2.1)
    pure ⟨data, s.count - 1⟩
  else pure s

/-- intset.go:172-193 `Where` -/
def MInt.where (G : Growth) (s : MInt) (pred : BitVec w → Bool) : IM w MInt := do
  let es ← IM.range s.data
  let kvs := (es.map (fun e => (⟨e.key, ⟨whereCell pred e.key e.value.bits⟩⟩ : KeyValue (BitVec w) CellMask))).filter
    (fun kv => kv.value.bits ≠ 0#64)
  let data ← IM.build G kvs
  pure ⟨data, (kvs.map (fun kv => (ones kv.value.bits : Int))).sum⟩

/-- intset.go:196-202 `Map` -/
def MInt.map (G : Growth) (signed : Bool) (order : List (BitVec w × CellMask) → List (BitVec w × CellMask)) (s : MInt)
    (f : BitVec w → BitVec w) : IM w MInt := do
  let vs ← s.elements
  mNewIntSet G signed order (vs.map f)

/-- intset.go:209-214: the loop body of `Intersection`, with the count so far. -/
def mInterStep (G : Growth) (s : MInt) (b : Nat) (n : Int) (e : Entry (BitVec w) CellMask) : IM w Int := do
  match ← IM.get s.data e.key with
  | none => pure n
  | some sc =>
    if sc.bits &&& e.value.bits ≠ 0#64 then do
      IM.put G b e.key ⟨sc.bits &&& e.value.bits⟩
      pure (n + ones (sc.bits &&& e.value.bits))
    else pure n

/-- intset.go:205-217 `Intersection` -/
def MInt.intersection (G : Growth) (s t : MInt) : IM w MInt := do
  let b ← IM.newBuilder G
  let es ← IM.range t.data
  let n ← es.foldlM (mInterStep G s b) 0
  let data ← IM.call G (.finish b)
  pure ⟨data, n⟩

/-- intset.go:225-232: the loop body of `Union`. -/
def mUnionStep (G : Growth) (s : MInt) (st : MInt) (e : Entry (BitVec w) CellMask) : IM w MInt := do
  match ← IM.get s.data e.key with
  | some sc => do
    let data ← IM.call G (.with st.data e.key ⟨sc.bits ||| e.value.bits⟩)
    pure ⟨data, st.count + ones ((sc.bits ||| e.value.bits) ^^^ sc.bits)⟩
  | none => do
    let data ← IM.call G (.with st.data e.key e.value)
    pure ⟨data, st.count + ones e.value.bits⟩

/-- intset.go:220-235 `Union` -/
def MInt.union (G : Growth) (s t : MInt) : IM w MInt := do
  let es ← IM.range t.data
  es.foldlM (mUnionStep G s) s

end Frozen
