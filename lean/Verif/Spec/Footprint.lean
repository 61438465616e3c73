import Verif.Model.Memory
import Verif.Spec.Set

/-! # How much memory a set, map or builder keeps alive -/

namespace Frozen

variable {T : Type}

/-- The location is kept alive by the pointer: the node it points to, the array of a twig, and what the children of a branch keep
alive. The garbage collector may free the others. -/
inductive Mem.Keeps (H : Mem T) : Ptr → Loc → Prop
  | node {a : Nat} : H.Keeps (some a) (.cell a)
  | array {a : Nat} {s : Slice} (h : H.cells[a]? = some (.twig s)) : H.Keeps (some a) (.arr s.arr)
  | child {a : Nat} {m : Masker} {k : Fin 8 → Ptr} {i : Fin 8} {l : Loc} (h : H.cells[a]? = some (.branch m k)) (hk : H.Keeps (k i) l) :
      H.Keeps (some a) l

/-- The pointer keeps at most `n` nodes and arrays alive. -/
def Mem.KeepsAtMost (H : Mem T) (p : Ptr) (n : Nat) : Prop := ∃ L : List Loc, L.length ≤ n ∧ ∀ l, H.Keeps p l → l ∈ L

/-- The number of nodes and arrays of a tree, nothing being shared. -/
def Node.parts : Node T → Nat
  | .nil => 0
  | .leaf1 _ => 1
  | .leaf2 _ _ => 1
  | .twig _ => 2
  | .branch _ k => 1 + ((List.finRange 8).map (fun i => (k i).parts)).sum

end Frozen
