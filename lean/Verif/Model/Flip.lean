import Verif.Model.Parallel

/-! # `CombineArgs.Flip`

`Flip` (nodeArgs.go:40-50) reads the field `flipped` of the arguments that all goroutines of a merge share, and fills it if it is still
nil. This file says which goroutines of a merge call it; what they get back is the same whoever fills the field, and is modelled by
`CombineArgs.flip`. The arguments that `Flip` returns have their own field filled from the start (nodeArgs.go:46). -/

namespace Frozen

variable {T : Type} [GoKey T]

/-- Does `n1.Combine(args, n2, d)`, run sequentially, call `args.Flip()`? It does so at leaf1.go:70, leaf1.go:72 and leaf2.go:71. Two
branches (branch.go:94-113) are combined slot by slot; a slot is reached if no slot before it panics. -/
def callsFlip : Node T → CombineArgs T → Node T → Nat → Bool
  | .leaf1 _, _, .branch _ _, _ => true
  | .leaf1 _, _, .leaf2 _ _, _ => true
  | .leaf2 _ _, _, .branch _ _, _ => true
  | .branch m k, args, .branch m2 k2, d => (m ||| m2).indices.any (fun i =>
      !(k i).isNil && !(k2 i).isNil && callsFlip (k i) args (k2 i) (d + 1) &&
      (m ||| m2).indices.all (fun j => decide (i ≤ j) || (k j).isNil || (k2 j).isNil || (combine (k j) args (k2 j) (d + 1)).toBool))
  | _, _, _, _ => false

/-- Does the goroutine with this address in `combineC g n1 args n2 d` call `args.Flip()`? The address is the list of slots that lead to
it. A goroutine that starts others (branch.go:98) does nothing else in the meantime. -/
def flipper (g : Int) : Node T → CombineArgs T → Node T → Nat → List (Fin 8) → Bool
  | .branch m k, args, .branch m2 k2, d, path =>
    if (d : Int) < g then
      match path with
      | [] => false
      | i :: path => !(k i).isNil && !(k2 i).isNil && flipper g (k i) args (k2 i) (d + 1) path
    else path.isEmpty && callsFlip (.branch m k) args (.branch m2 k2) d
  | n1, args, n2, d, path => path.isEmpty && callsFlip n1 args n2 d

end Frozen
