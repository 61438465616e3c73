import Verif.Model.Map
import Verif.Model.Bits

/-! # `IntSet`: `intset.go`, `intset_iter.go`

An integer type `I` is given by its width `w` (8, 16, 32 or 64 bits) and whether it is signed; its values are words. -/

namespace Frozen

/-- intset.go:18 `cellMask`. (A structure, so that its `Equal` is not confused with the key type's.) -/
structure CellMask where
  bits : BitVec 64
deriving DecidableEq, Inhabited

/-- `value.Equal` on `cellMask` is `==`. Its hash is not used by `IntSet`. -/
instance : GoKey CellMask where
  eq a b := decide (a = b)
  hash seed a := a.bits ^^^ seed

/-- intset.go:20-23: `cellShift = 6`, `cellBits = 64`. -/
def cellShift : Nat := 6

/-- intset.go:13-16 `IntSet` -/
structure IntSet (w : Nat) where
  data : FMap (BitVec w) CellMask
  count : Int

/-- The zero `IntSet`, the empty set. -/
def IntSet.zero {w : Nat} : IntSet w := ⟨FMap.zero, 0⟩

/-- `i >> cellShift` (intset.go:26): arithmetic for signed types. -/
def cellOf {w : Nat} (signed : Bool) (i : BitVec w) : BitVec w :=
  if signed then i.sshiftRight cellShift else i >>> cellShift

/-- The shift count `uint(i % cellBits)` (intset.go:26): `%` truncates towards zero for signed types and the conversion to `uint`
sign-extends, so a negative remainder becomes a huge count. -/
def bitOf {w : Nat} (signed : Bool) (i : BitVec w) : Nat :=
  if signed then ((i.srem 64#w).signExtend 64).toNat else ((i.umod 64#w).setWidth 64).toNat

/-- Go's `x << n`: shifting by 64 or more gives zero. (Equal to Lean's `x <<< n`, but it can be evaluated for huge `n`.) -/
def goShl (x : BitVec 64) (n : Nat) : BitVec 64 := if 64 ≤ n then 0#64 else x <<< n

/-- intset.go:25-27 `locateCell` -/
def locateCell {w : Nat} (signed : Bool) (i : BitVec w) : BitVec w × BitVec 64 := (cellOf signed i, goShl 1#64 (bitOf signed i))

/-- `cellIndex<<cellShift + I(bit)` (intset.go:78, intset_iter.go:24); intset.go:178-182 `cellIndex * cellBits + maskIndex` is the same word. -/
def cellVal {w : Nat} (c : BitVec w) (bit : Nat) : BitVec w := c <<< cellShift + BitVec.ofNat w bit

/-- intset.go:46-48 `IsEmpty` -/
def IntSet.isEmpty {w : Nat} (s : IntSet w) : Bool := s.data.isEmpty

/-- intset_iter.go:7-11 `intSetIterator`. The `MapIterator` (map.go:266-274) is the tree iterator; its current entry is read when it
advances. -/
structure IntIter (w : Nat) where
  cells : Iter (Entry (BitVec w) CellMask)
  cell : BitVec 64
  first : BitVec w

/-- intset.go:56-61 `Range` -/
def IntSet.range {w : Nat} (s : IntSet w) : Go (IntIter w) := do
  let it ← s.data.tree.iterator
  pure ⟨it, 1#64, 0#w⟩

/-- intset_iter.go:13-22 `Next` (with map.go:282-288 `MapIterator.Next`) -/
def IntIter.next {w : Nat} (it : IntIter w) : Go (IntIter w × Bool) :=
  if clearLow it.cell = 0#64 then do
    let (cells', ok) ← it.cells.next
    if ok then do
      let kv ← cells'.value
      pure (⟨cells', kv.value.bits, kv.key⟩, true)
    else pure (⟨cells', 0#64, it.first⟩, false)
  else pure (⟨it.cells, clearLow it.cell, it.first⟩, true)

/-- intset_iter.go:24-26 `Value` -/
def IntIter.value {w : Nat} (it : IntIter w) : BitVec w := cellVal it.first (tz it.cell)

/-- The loop `for i := s.Range(); i.Next(); { … i.Value() … }`, bounded by fuel; `IntIter.drain_spec` shows that it stops by itself. -/
def IntIter.drain {w : Nat} : Nat → IntIter w → Go (List (BitVec w))
  | 0, _ => .error (.msg "out of fuel")
  | fuel + 1, it => do
    let (it', ok) ← it.next
    if ok then do
      let vs ← IntIter.drain fuel it'
      pure (it'.value :: vs)
    else pure []

/-- intset.go:64-70 `Elements` -/
def IntSet.elements {w : Nat} (s : IntSet w) : Go (List (BitVec w)) := do
  let it ← s.range
  it.drain (64 * s.data.tree.root.size + 1)

/-- intset.go:75-79 `Any` -/
def IntSet.any {w : Nat} (s : IntSet w) : Go (BitVec w) := do
  let e ← s.data.any
  pure (cellVal e.key (tz e.value.bits))

variable {w : Nat} [GoKey (BitVec w)]

omit [GoKey (BitVec w)] in
/-- intset.go:106-111 `Hash` -/
def IntSet.hash [GoKey (BitVec w)] (s : IntSet w) (seed : BitVec 64) : Go (BitVec 64) := do
  let vs ← s.elements
  pure (vs.foldl (fun h v => h ^^^ GoKey.hash 0#64 v) seed)

omit [GoKey (BitVec w)] in
/-- intset.go:31-35: one step of the loop that fills the Go map `m`. -/
def intSetCell (signed : Bool) (m : List (BitVec w × CellMask)) (i : BitVec w) : List (BitVec w × CellMask) :=
  let (c, mask) := locateCell signed i
  let old := ((m.find? (fun e => e.1 == c)).map (·.2)).getD default
  goMapSet m c ⟨old.bits ||| mask⟩

/-- intset.go:30-43 `NewIntSet`. The Go map is a list of entries; `order` is the order in which the runtime happens to iterate over it. -/
def newIntSet (signed : Bool) (order : List (BitVec w × CellMask) → List (BitVec w × CellMask)) (is : List (BitVec w)) : Go (IntSet w) := do
  let m := order (is.foldl (intSetCell signed) [])
  let data ← buildMap (m.map (fun e => ⟨e.1, e.2⟩))
  pure ⟨data, (m.map (fun e => (ones e.2.bits : Int))).sum⟩

/-- intset.go:119-121 `Equal` (with `EqualSet` and `Same`) -/
def IntSet.equal (s t : IntSet w) : Go Bool := s.data.equal t.data

/-- intset.go:135-140: the loop of `IsSubsetOf`. -/
def intSubsetLoop (t : IntSet w) : List (Entry (BitVec w) CellMask) → Go Bool
  | [] => pure true
  | e :: es => do
    match ← t.data.get e.key with
    | none => pure false
    | some tc => if e.value.bits &&& ~~~tc.bits ≠ 0#64 then pure false else intSubsetLoop t es

/-- intset.go:132-140 `IsSubsetOf` -/
def IntSet.isSubsetOf (s t : IntSet w) : Go Bool := do
  let es ← s.data.rangeList
  intSubsetLoop t es

/-- intset.go:237-241 `locate`: the zero cell if there is none. -/
def IntSet.locate (signed : Bool) (s : IntSet w) (i : BitVec w) : Go (BitVec 64 × BitVec w × BitVec 64) := do
  let g ← s.data.get (locateCell signed i).1
  pure ((g.getD default).bits, locateCell signed i)

/-- intset.go:143-146 `Has` -/
def IntSet.has (signed : Bool) (s : IntSet w) (i : BitVec w) : Go Bool := do
  let (cell, _, mask) ← s.locate signed i
  pure (cell &&& mask != 0#64)

/-- intset.go:149-155 `With` -/
def IntSet.with (signed : Bool) (s : IntSet w) (i : BitVec w) : Go (IntSet w) := do
  let (cell, idx, mask) ← s.locate signed i
  if cell &&& mask = 0#64 then do
    let data ← s.data.with idx ⟨cell ||| mask⟩
    pure ⟨data, s.count + 1⟩
  else pure s

/-- intset.go:158-169 `Without` -/
def IntSet.without (signed : Bool) (s : IntSet w) (i : BitVec w) : Go (IntSet w) := do
  let (cell, idx, mask) ← s.locate signed i
  if cell &&& mask ≠ 0#64 then do
    let cell := cell &&& ~~~mask
    let data ← if cell ≠ 0#64 then s.data.with idx ⟨cell⟩ else s.data.without idx
    pure ⟨data, s.count - 1⟩
  else pure s

omit [GoKey (BitVec w)] in
/-- intset.go:183-190: the new cell in `Where`. The shift count `maskIndex` has type `I`; it is below 64, so not negative. -/
def whereCell (pred : BitVec w → Bool) (c : BitVec w) (cell : BitVec 64) : BitVec 64 :=
  (bitLoop cell).foldl (fun n i => if pred (cellVal c i) then n ||| (1#64 <<< (BitVec.ofNat w i).toNat) else n) 0#64

/-- intset.go:172-193 `Where`: cells that become empty are not put. -/
def IntSet.where (s : IntSet w) (pred : BitVec w → Bool) : Go (IntSet w) := do
  let es ← s.data.rangeList
  let kvs := (es.map (fun e => (⟨e.key, ⟨whereCell pred e.key e.value.bits⟩⟩ : KeyValue (BitVec w) CellMask))).filter
    (fun kv => kv.value.bits ≠ 0#64)
  let data ← buildMap kvs
  pure ⟨data, (kvs.map (fun kv => (ones kv.value.bits : Int))).sum⟩

/-- intset.go:196-202 `Map` -/
def IntSet.map (signed : Bool) (order : List (BitVec w × CellMask) → List (BitVec w × CellMask)) (s : IntSet w) (f : BitVec w → BitVec w) :
    Go (IntSet w) := do
  let vs ← s.elements
  newIntSet signed order (vs.map f)

/-- intset.go:209-214: the loop body of `Intersection`. -/
def interStep (s : IntSet w) (st : MapBuilder (BitVec w) CellMask × Int) (e : Entry (BitVec w) CellMask) :
    Go (MapBuilder (BitVec w) CellMask × Int) := do
  match ← s.data.get e.key with
  | none => pure st
  | some sc =>
    let ic := sc.bits &&& e.value.bits
    if ic ≠ 0#64 then do
      let b ← MapBuilder.put st.1 e.key ⟨ic⟩
      pure (b, st.2 + ones ic)
    else pure st

/-- intset.go:205-217 `Intersection` -/
def IntSet.intersection (s t : IntSet w) : Go (IntSet w) := do
  let es ← t.data.rangeList
  let st ← es.foldlM (interStep s) ((Tree.zero : MapBuilder (BitVec w) CellMask), 0)
  pure ⟨(MapBuilder.finish st.1).1, st.2⟩

/-- intset.go:225-232: the loop body of `Union`. -/
def unionStep (s : IntSet w) (st : IntSet w) (e : Entry (BitVec w) CellMask) : Go (IntSet w) := do
  match ← s.data.get e.key with
  | some sc =>
    let u := sc.bits ||| e.value.bits
    let data ← st.data.with e.key ⟨u⟩
    pure ⟨data, st.count + ones (u ^^^ sc.bits)⟩
  | none =>
    let data ← st.data.with e.key e.value
    pure ⟨data, st.count + ones e.value.bits⟩

/-- intset.go:220-235 `Union` -/
def IntSet.union (s t : IntSet w) : Go (IntSet w) := do
  let es ← t.data.rangeList
  es.foldlM (unionStep s) s

end Frozen
