import Verif.Model.Memory
import Verif.Spec.Set

/-! # The amount of work a call does: its accesses to the memory -/

namespace Frozen

variable {T : Type}

/-- The number of single memory accesses of a piece of code run to its end: every node read, every element of an array read, every
node or array allocated, every write. -/
def MM.accesses {α : Type} : MM T α → Mem T → Nat
  | .done _, _ => 0
  | .readCell a k, H => (k H.cells[a]?).accesses H + 1
  | .readElem arr i k, H => (k (H.arrays[arr]?.bind (·[i]?))).accesses H + 1
  | .alloc c k, H => (k H.cells.length).accesses ⟨H.cells ++ [c], H.arrays, H.log⟩ + 1
  | .allocArr l k, H => (k H.arrays.length).accesses ⟨H.cells, H.arrays ++ [l], H.log⟩ + 1
  | .writeCell a c k, H => k.accesses (H.setCell a c) + 1
  | .writeElem arr i v k, H => k.accesses (H.setElem arr i v) + 1

/-- How many elements of `l` have the same 64-bit hash as `v`. -/
def sameHash [GoKey T] (v : T) (l : List T) : Nat := (l.filter (fun e => decide (hash0 e = hash0 v))).length

end Frozen
