import Verif.Model.Tree

/-! # Lookups with their cost: `Get` instrumented with the branch levels passed and the stored elements compared -/

namespace Frozen

variable {T : Type} [GoKey T]

/-- Position of the first match plus one, or the length: the number of comparisons of the scan in twig.go:192-197. -/
def scanCost (v : T) : List T → Nat
  | [] => 0
  | a :: l => if GoKey.eq a v then 1 else scanCost v l + 1

/-- `Get` (same code as `get`: leaf1.go:106-111, leaf2.go:140-147, twig.go:191-198, branch.go:173-179), also counting the branches
entered and the elements compared with `v`. -/
def getCost : Node T → T → Hasher → Go (Option T × Nat × Nat)
  | .nil, _, _ => .error .nilDeref
  | .leaf1 a, v, _ => .ok (if GoKey.eq a v then some a else none, 0, 1)
  | .leaf2 a b, v, _ => .ok (if GoKey.eq a v then (some a, 0, 1) else if GoKey.eq b v then (some b, 0, 2) else (none, 0, 2))
  | .twig l, v, _ => .ok (l.find? (fun e => GoKey.eq e v), 0, scanCost v l)
  | .branch _ k, v, h =>
    if (k h.idx).isNil then .ok (none, 1, 0)
    else do
      let (r, levels, cmps) ← getCost (k h.idx) v h.next
      pure (r, levels + 1, cmps)

/-- tree.go:84-90 `Tree.Get` with the cost. -/
def Tree.getCost (t : Tree T) (v : T) : Go (Option T × Nat × Nat) :=
  if t.root.isNil then .ok (none, 0, 0) else Frozen.getCost t.root v (newHasher v 0)

end Frozen
