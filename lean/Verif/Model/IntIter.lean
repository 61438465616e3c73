import Verif.Model.IntMem
import Verif.Model.MapIter

/-! # Iterators over integer sets in memory: `intset_iter.go` -/

namespace Frozen

variable {w : Nat}

/-- intset_iter.go:7-11 `intSetIterator` -/
structure MIntIter (w : Nat) where
  cells : MMapIter (BitVec w) CellMask
  cell : BitVec 64
  first : BitVec w

/-- intset.go:56-61 `Range` -/
def MInt.range (G : Growth) (s : MInt) (W : IntMaps w) : Go (MIntIter w) × IntMaps w :=
  match W.sets[s.data]? with
  | some m =>
    match m.mapIterator G W.mem with
    | (.ok it, H) => (.ok ⟨it, 1#64, 0#w⟩, ⟨H, W.sets, W.builders⟩)
    | (.error e, H) => (.error e, ⟨H, W.sets, W.builders⟩)
  | none => (.error (.msg "no such map"), W)

/-- intset_iter.go:13-22 `Next` -/
def MIntIter.next (G : Growth) (it : MIntIter w) (W : IntMaps w) : Go (MIntIter w × Bool) × IntMaps w :=
  if clearLow it.cell = 0#64 then
    match it.cells.next G W.mem with
    | (.ok (c, true), H) => (.ok (⟨c, c.entry.2.bits, c.entry.1⟩, true), ⟨H, W.sets, W.builders⟩)
    | (.ok (c, false), H) => (.ok (⟨c, 0#64, it.first⟩, false), ⟨H, W.sets, W.builders⟩)
    | (.error e, H) => (.error e, ⟨H, W.sets, W.builders⟩)
  else (.ok (⟨it.cells, clearLow it.cell, it.first⟩, true), W)

/-- intset_iter.go:24-26 `Value`: nothing is read from memory. -/
def MIntIter.value (it : MIntIter w) : BitVec w := cellVal it.first (tz it.cell)

end Frozen
