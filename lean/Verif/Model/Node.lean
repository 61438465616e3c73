import Verif.Model.Basic

/-!
# Trie nodes

Models `internal/pkg/tree/{node,leaf1,leaf2,twig,branch,packer,nodeArgs}.go`.

Nodes are immutable values here: an in-place update returns the new node. What the aliasing of the Go nodes adds is modelled
separately in `Model/Memory.lean`. Pointer comparisons that steer control flow are modelled by an explicit `same` flag.
-/

namespace Frozen

variable {T : Type}

/-- `node[T]` (node.go:9): `nil` is the nil interface, the others are the implementations leaf1.go:12, leaf2.go:12, twig.go:12 and
branch.go:23 (with the fields of `packer`, packer.go:9-12, for fanout 8). -/
inductive Node (T : Type) where
  | nil
  | leaf1 (a : T)
  | leaf2 (a b : T)
  | twig (data : List T)
  | branch (mask : Masker) (data : Fin 8 → Node T)

/-- `n == nil` -/
def Node.isNil : Node T → Bool
  | .nil => true
  | _ => false

/-- `n.(*branch[T])` succeeds -/
def Node.isBranch : Node T → Bool
  | .branch _ _ => true
  | _ => false

/-! ## Arguments (nodeArgs.go) -/

/-- nodeArgs.go:28-34 `CombineArgs` with the embedded `EqArgs.eq` (52-58). The gauge is modelled in `Model/Parallel.lean`;
`hash` is never read. `Flip` caches its result (40-50), which is not observable. -/
structure CombineArgs (T : Type) where
  eq : T → T → Bool
  f : T → T → T

/-- nodeArgs.go:40-50 -/
def CombineArgs.flip (a : CombineArgs T) : CombineArgs T := ⟨a.eq, fun x y => a.f y x⟩

/-! ## packer.go -/

/-- packer.go:9-12 -/
structure Packer (T : Type) where
  mask : Masker
  data : Fin 8 → Node T

/-- The zero packer. -/
def Packer.zero : Packer T := ⟨0#16, fun _ => .nil⟩

/-- The array write `data[i] = n`. -/
def setSlot {α : Type} (d : Fin 8 → α) (i : Fin 8) (n : α) : Fin 8 → α := fun j => if j = i then n else d j

/-- packer.go:28-36 `SetChild` -/
def Packer.setChild (p : Packer T) (i : Fin 8) (n : Node T) : Packer T :=
  let m := newMasker i
  ⟨if n.isNil then p.mask &&& ~~~m else p.mask ||| m, setSlot p.data i n⟩

/-- packer.go:38-41 `SetNonNilChild` -/
def Packer.setNonNilChild (p : Packer T) (i : Fin 8) (n : Node T) : Packer T :=
  ⟨p.mask ||| newMasker i, setSlot p.data i n⟩

/-- packer.go:43-47 `WithChild` (a copy, then `SetChild`) -/
def Packer.withChild (p : Packer T) (i : Fin 8) (n : Node T) : Packer T := p.setChild i n

/-- packer.go:53-61 `updateMask` -/
def Packer.updateMask (p : Packer T) : Packer T :=
  ⟨(List.finRange 8).foldl (fun m i => if (p.data i).isNil then m else m ||| newMasker i) 0#16, p.data⟩

/-- packer.go:63-65 `updateMaskBit` -/
def Packer.updateMaskBit (p : Packer T) (m : Masker) : Packer T := ⟨p.mask ||| m, p.data⟩

/-- branch.go:27-33 `newBranch(p)` -/
def Packer.toNode (p : Packer T) : Node T := .branch p.mask p.data

/-- leaf1.go:16-25 `newLeaf` -/
def newLeaf : List T → Go (Node T)
  | [a] => .ok (.leaf1 a)
  | [a, b] => .ok (.leaf2 a b)
  | _ => .error (.msg "data wrong size for leaf")

variable [GoKey T]

/-! ## AddFast and newBranchFrom

`leaf2.AddFast` (leaf2.go:51-62) calls `newBranchFrom` (branch.go:35-45), which calls `branch.AddFast` (branch.go:61-73), which
calls `AddFast` on a child, one level deeper. The recursion ends because `newBranchFrom` makes a twig from depth 22 on. The model
first takes `newBranchFrom` as a parameter `mk`, then ties the knot with fuel; `newBranchFrom_eq` (Proof) removes the fuel. -/

/-- `AddFast`: leaf1.go:55-61, leaf2.go:51-62, twig.go:65-87, branch.go:61-73.
Simplification: for a twig above depth 22 (which no reachable tree has) the capacity test `len < cap` (twig.go:73) is taken to
fail, and the following loop (78-86) is written as `mk`, which performs the same `AddFast` calls on an empty branch. -/
def addFastWith (mk : Nat → List T → Go (Node T)) : Node T → T → Nat → Hasher → Go (Node T × Int)
  | .nil, _, _, _ => .error .nilDeref
  | .leaf1 a, v, _, _ => if GoKey.eq a v then .ok (.leaf1 v, 1) else .ok (.leaf2 a v, 0)
  | .leaf2 a b, v, d, _ =>
    if GoKey.eq a v then .ok (.leaf2 v b, 1)
    else if GoKey.eq b v then .ok (.leaf2 a v, 1)
    else do
      let n ← mk d [a, b, v]
      pure (n, 0)
  | .twig l, v, d, _ =>
    match l.findIdx? (fun e => GoKey.eq e v) with
    | some i => .ok (.twig (l.set i v), 1)
    | none =>
      if d ≥ maxTreeDepth then .ok (.twig (l ++ [v]), 0)
      else do
        let n ← mk d (l ++ [v])
        pure (n, 0)
  | .branch m k, v, d, h =>
    if (k h.idx).isNil then .ok ((Packer.setNonNilChild ⟨m, k⟩ h.idx (.leaf1 v)).toNode, 0)
    else do
      let (n, ms) ← addFastWith mk (k h.idx) v (d + 1) h.next
      pure ((Packer.setNonNilChild ⟨m, k⟩ h.idx n).toNode, ms)

/-- branch.go:35-45 with fuel. -/
def newBranchFromAux : Nat → Nat → List T → Go (Node T)
  | fuel, d, data =>
    if d ≥ maxTreeDepth then .ok (.twig data)
    else match fuel with
      | 0 => .error (.msg "out of fuel")
      | fuel + 1 =>
        data.foldlM (fun b e => do
          let (n, _) ← addFastWith (newBranchFromAux fuel) b e d (newHasher e d)
          pure n) (Node.branch 0#16 (fun _ => .nil))

/-- branch.go:35-45 `newBranchFrom` -/
def newBranchFrom (d : Nat) (data : List T) : Go (Node T) := newBranchFromAux maxTreeDepth d data

/-- `AddFast`, see `addFastWith`. -/
def addFast : Node T → T → Nat → Hasher → Go (Node T × Int) := addFastWith newBranchFrom

/-! ## AppendTo and Canonical -/

/-- `AppendTo(dest)` into a slice of capacity `cap`: leaf1.go:83-88, leaf2.go:108-113, twig.go:148-153, branch.go:75-84.
`none` is the nil slice returned when the capacity does not suffice. -/
def appendTo (cap : Nat) : Node T → List T → Go (Option (List T))
  | .nil, _ => .error .nilDeref
  | .leaf1 a, dest => .ok (if dest.length + 1 > cap then none else some (dest ++ [a]))
  | .leaf2 a b, dest => .ok (if dest.length + 2 > cap then none else some (dest ++ [a, b]))
  | .twig l, dest => .ok (if dest.length + l.length > cap then none else some (dest ++ l))
  | .branch _ k, dest =>
    (List.finRange 8).foldlM (fun acc i =>
      match acc with
      | none => pure none
      | some dest => if (k i).isNil then pure (some dest) else appendTo cap (k i) dest) (some dest)

/-- twig.go:89-103 `(*twig).Canonical` -/
def twigCanonical (l : List T) (depth : Nat) : Go (Node T) :=
  match l with
  | [] => .ok .nil
  | [a] => .ok (.leaf1 a)
  | [a, b] => .ok (.leaf2 a b)
  | l =>
    if l.length ≤ maxLeafLen ∨ depth * fanoutBits ≥ 64 then .ok (.twig l)
    else newBranchFrom depth l

/-- branch.go:86-92 `(*branch).Canonical` (it ignores its depth argument) -/
def branchCanonical (p : Packer T) : Go (Node T) := do
  match ← appendTo maxLeafLen p.toNode [] with
  | some data => twigCanonical data 0
  | none => pure p.toNode

/-! ## Get -/

/-- `Get`: leaf1.go:106-111, leaf2.go:140-147, twig.go:191-198, branch.go:173-179. The returned pointer is modelled by the
element it points to; `none` is nil. -/
def get : Node T → T → Hasher → Go (Option T)
  | .nil, _, _ => .error .nilDeref
  | .leaf1 a, v, _ => .ok (if GoKey.eq a v then some a else none)
  | .leaf2 a b, v, _ => .ok (if GoKey.eq a v then some a else if GoKey.eq b v then some b else none)
  | .twig l, v, _ => .ok (l.find? (fun e => GoKey.eq e v))
  | .branch _ k, v, h => if (k h.idx).isNil then .ok none else get (k h.idx) v h.next

/-! ## With, WithFast -/

/-- `With(args, …)`: leaf1.go:156-161, leaf2.go:216-225, twig.go:282-292, branch.go:330-345. The test `x2 != x` (branch.go:339)
always holds because every implementation allocates a new node, so its other arm is left out. -/
def withArgs (args : CombineArgs T) : Node T → T → Nat → Hasher → Go (Node T × Int)
  | .nil, _, _, _ => .error .nilDeref
  | .leaf1 a, v, _, _ => if args.eq a v then .ok (.leaf1 (args.f a v), 1) else .ok (.leaf2 a v, 0)
  | .leaf2 a b, v, d, _ =>
    if args.eq a v then .ok (.leaf2 (args.f a v) b, 1)
    else if args.eq b v then .ok (.leaf2 a (args.f b v), 1)
    else do
      let n ← newBranchFrom d [a, b, v]
      pure (n, 0)
  | .twig l, v, d, _ =>
    match l.findIdx? (fun e => args.eq e v) with
    | some i => .ok (.twig (l.modify i (fun e => args.f e v)), 1)
    | none => do
      let n ← twigCanonical (l ++ [v]) d
      pure (n, 0)
  | .branch m k, v, d, h =>
    if (k h.idx).isNil then .ok ((Packer.withChild ⟨m, k⟩ h.idx (.leaf1 v)).toNode, 0)
    else do
      let (n, ms) ← withArgs args (k h.idx) v (d + 1) h.next
      pure ((Packer.withChild ⟨m, k⟩ h.idx n).toNode, ms)

/-- `WithFast`: leaf1.go:163-168, leaf2.go:227-236, twig.go:294-304, branch.go:347-358. As in `withArgs`, `x2 != x` always holds. -/
def withFast : Node T → T → Nat → Hasher → Go (Node T × Int)
  | .nil, _, _, _ => .error .nilDeref
  | .leaf1 a, v, _, _ => if GoKey.eq a v then .ok (.leaf1 v, 1) else .ok (.leaf2 a v, 0)
  | .leaf2 a b, v, d, _ =>
    if GoKey.eq a v then .ok (.leaf2 v b, 1)
    else if GoKey.eq b v then .ok (.leaf2 a v, 1)
    else do
      let n ← newBranchFrom d [a, b, v]
      pure (n, 0)
  | .twig l, v, d, _ =>
    match l.findIdx? (fun e => GoKey.eq e v) with
    | some i => .ok (.twig (l.set i v), 1)
    | none => do
      let n ← twigCanonical (l ++ [v]) d
      pure (n, 0)
  | .branch m k, v, d, h =>
    if (k h.idx).isNil then .ok ((Packer.withChild ⟨m, k⟩ h.idx (.leaf1 v)).toNode, 0)
    else do
      let (n, ms) ← withFast (k h.idx) v (d + 1) h.next
      pure ((Packer.withChild ⟨m, k⟩ h.idx n).toNode, ms)

/-! ## Without, Remove -/

/-- Replace position `i` by the last element and drop the last: twig.go:224-232 and twig.go:310-314. -/
def swapRemove (l : List T) (i : Nat) : List T :=
  let last := l.length - 1
  match l[last]? with
  | none => l
  | some x => (if i < last then l.set i x else l).take last

/-- `Without`: leaf1.go:170-175, leaf2.go:238-246, twig.go:306-318, branch.go:360-372. The last component is the outcome of the
pointer comparison `x2 == x` with the receiver. -/
def without : Node T → T → Nat → Hasher → Go (Node T × Int × Bool)
  | .nil, _, _, _ => .error .nilDeref
  | .leaf1 a, v, _, _ => if GoKey.eq a v then .ok (.nil, 1, false) else .ok (.leaf1 a, 0, true)
  | .leaf2 a b, v, _, _ =>
    if GoKey.eq a v then .ok (.leaf1 b, 1, false)
    else if GoKey.eq b v then .ok (.leaf1 a, 1, false)
    else .ok (.leaf2 a b, 0, true)
  | .twig l, v, d, _ =>
    match l.findIdx? (fun e => GoKey.eq e v) with
    | some i => do
      let n ← twigCanonical (swapRemove l i) d
      pure (n, 1, false)
    | none => .ok (.twig l, 0, true)
  | .branch m k, v, d, h =>
    if (k h.idx).isNil then .ok (.branch m k, 0, true)
    else do
      let (x2, ms, same) ← without (k h.idx) v (d + 1) h.next
      if !same then do
        let n ← branchCanonical ((Packer.updateMaskBit ⟨m, k⟩ (newMasker h.idx)).withChild h.idx x2)
        pure (n, ms, false)
      else pure (.branch m k, ms, true)

/-- `Remove` (builders): leaf1.go:129-135, leaf2.go:172-182, twig.go:220-237, branch.go:222-240. -/
def remove : Node T → T → Nat → Hasher → Go (Node T × Int)
  | .nil, _, _, _ => .error .nilDeref
  | .leaf1 a, v, _, _ => if GoKey.eq a v then .ok (.nil, 1) else .ok (.leaf1 a, 0)
  | .leaf2 a b, v, _, _ =>
    if GoKey.eq a v then .ok (.leaf1 b, 1)
    else if GoKey.eq b v then .ok (.leaf1 a, 1)
    else .ok (.leaf2 a b, 0)
  | .twig l, v, d, _ =>
    match l.findIdx? (fun e => GoKey.eq e v) with
    | some i =>
      if l.length - 1 = 0 then .ok (.nil, 1)
      else do
        let n ← twigCanonical (swapRemove l i) d
        pure (n, 1)
    | none => .ok (.twig l, 0)
  | .branch m k, v, d, h =>
    if (k h.idx).isNil then .ok (.branch m k, 0)
    else do
      let (n, ms) ← remove (k h.idx) v (d + 1) h.next
      let b : Packer T := ⟨m, setSlot k h.idx n⟩
      if !n.isBranch then do
        match ← appendTo maxLeafLen b.toNode [] with
        | some data => do
          let r ← newLeaf data
          pure (r, ms)
        | none => pure (b.updateMask.toNode, ms)
      else pure (b.updateMask.toNode, ms)

/-! ## Combine -/

/-- branch.go:113-114: `branch.Combine` with a leaf1. -/
def branchCombineLeaf1 (args : CombineArgs T) (m : Masker) (k : Fin 8 → Node T) (a : T) (d : Nat) : Go (Node T × Int) :=
  withArgs args (.branch m k) a d (newHasher a d)

/-- branch.go:115-119: `branch.Combine` with a leaf2. -/
def branchCombineLeaf2 (args : CombineArgs T) (m : Masker) (k : Fin 8 → Node T) (a b : T) (d : Nat) : Go (Node T × Int) := do
  let (n1, m1) ← withArgs args (.branch m k) a d (newHasher a d)
  let (n2, m2) ← withArgs args n1 b d (newHasher b d)
  pure (n2, m1 + m2)

/-- leaf2.go:92-102: `leaf2.Combine` with a leaf1. -/
def leaf2CombineLeaf1 (args : CombineArgs T) (l0 l1 nd : T) (d : Nat) : Go (Node T × Int) :=
  if args.eq l0 nd then .ok (.leaf2 (args.f l0 nd) l1, 1)
  else if args.eq l1 nd then .ok (.leaf2 l0 (args.f l1 nd), 1)
  else do
    let n ← newBranchFrom d [l0, l1, nd]
    pure (n, 0)

/-- leaf2.go:72-91: `leaf2.Combine` with a leaf2; the loop runs twice, swapping `n0` and `n1` after each round. -/
def leaf2CombineLeaf2 (args : CombineArgs T) (l0 l1 n0 n1 : T) (d : Nat) : Go (Node T × Int) :=
  if args.eq l0 n0 then
    if args.eq l1 n1 then .ok (.leaf2 (args.f l0 n0) (args.f l1 n1), 2)
    else do
      let n ← newBranchFrom d [args.f l0 n0, l1, n1]
      pure (n, 1)
  else if args.eq l1 n1 then do
    let n ← newBranchFrom d [l0, n0, args.f l1 n1]
    pure (n, 1)
  else if args.eq l0 n1 then
    if args.eq l1 n0 then .ok (.leaf2 (args.f l0 n1) (args.f l1 n0), 2)
    else do
      let n ← newBranchFrom d [args.f l0 n1, l1, n0]
      pure (n, 1)
  else if args.eq l1 n0 then do
    let n ← newBranchFrom d [l0, n1, args.f l1 n0]
    pure (n, 1)
  else do
    let n ← newBranchFrom d [l0, l1, n0, n1]
    pure (n, 0)

/-- The scanning loop of `twig.Combine` (twig.go:114-141) over the other twig's data. An element without a partner is appended
only while the receiver is shorter than `maxLeafLen`; otherwise the code fills a branch that it then drops (131-139), which is
left out here except that it adds nothing to the data (the match count of that dropped branch is not modelled). -/
def twigScan (args : CombineArgs T) : List T → List T → Int → List T × Int
  | l, [], ms => (l, ms)
  | l, e :: es, ms =>
    match l.findIdx? (fun f => args.eq f e) with
    | some j => twigScan args (l.modify j (fun f => args.f f e)) es (ms + 1)
    | none => if l.length < maxLeafLen then twigScan args (l ++ [e]) es ms else twigScan args l es ms

/-- twig.go:105-146 `twig.Combine` with a twig. -/
def twigCombine (args : CombineArgs T) (l ndata : List T) (d : Nat) : Go (Node T × Int) :=
  let r := twigScan args l ndata 0
  if r.1.length > maxLeafLen then .error .wtf
  else do
    let n ← twigCanonical r.1 d
    pure (n, r.2)

/-- `Combine`: leaf1.go:67-81, leaf2.go:68-106, twig.go:105-146, branch.go:94-123. -/
def combine : Node T → CombineArgs T → Node T → Nat → Go (Node T × Int)
  | .nil, _, _, _ => .error .nilDeref
  | .leaf1 a, args, n, d =>
    match n with
    | .branch m k => branchCombineLeaf1 args.flip m k a d
    | .leaf2 x y => leaf2CombineLeaf1 args.flip x y a d
    | .leaf1 b => if args.eq a b then .ok (.leaf1 (args.f a b), 1) else .ok (.leaf2 a b, 0)
    | .twig _ => .error .wtf
    | .nil => .error .wtf
  | .leaf2 a b, args, n, d =>
    match n with
    | .branch m k => branchCombineLeaf2 args.flip m k a b d
    | .leaf2 x y => leaf2CombineLeaf2 args a b x y d
    | .leaf1 x => leaf2CombineLeaf1 args a b x d
    | .twig _ => .error .wtf
    | .nil => .error .wtf
  | .twig l, args, n, d =>
    match n with
    | .twig l2 => twigCombine args l l2 d
    | _ => .error .wtf
  | .branch m k, args, n, d =>
    match n with
    | .branch m2 k2 => do
      let (ret, _, ms) ← parallel (m ||| m2) Packer.zero (fun i ret =>
        if (k i).isNil then pure (ret.setNonNilChild i (k2 i), true, 0)
        else if (k2 i).isNil then pure (ret.setNonNilChild i (k i), true, 0)
        else do
          let (n', ms') ← combine (k i) args (k2 i) (d + 1)
          pure (⟨ret.mask, setSlot ret.data i n'⟩, true, ms'))
      pure (ret.updateMask.toNode, ms)
    | .leaf1 a => branchCombineLeaf1 args m k a d
    | .leaf2 a b => branchCombineLeaf2 args m k a b d
    | .twig _ => .error .wtf
    | .nil => .error .wtf

/-! ## Difference, Intersection -/

/-- The filtering loop of `twig.Difference` (twig.go:155-167) and `twig.Intersection` (twig.go:200-210): the elements of `l` that
`n.Get` finds (`keep = true`) or does not find (`keep = false`). -/
def twigFilterGet (keep : Bool) : List T → Node T → Nat → Go (List T)
  | [], _, _ => .ok []
  | e :: l, n, d => do
    let g ← get n e (newHasher e d)
    let r ← twigFilterGet keep l n d
    pure (if g.isSome == keep then e :: r else r)

/-- `Difference`: leaf1.go:90-95, leaf2.go:115-128, twig.go:155-167, branch.go:125-153. -/
def difference : Node T → Node T → Nat → Go (Node T × Int)
  | .nil, _, _ => .error .nilDeref
  | .leaf1 a, n, d => do
    let g ← get n a (newHasher a d)
    if g.isSome then pure (.nil, 1) else pure (.leaf1 a, 0)
  | .leaf2 a b, n, d => do
    let ga ← get n a (newHasher a d)
    let gb ← get n b (newHasher b d)
    if ga.isSome && gb.isSome then pure (.nil, 2)
    else if ga.isSome then pure (.leaf1 b, 1)
    else if gb.isSome then pure (.leaf1 a, 1)
    else pure (.leaf2 a b, 0)
  | .twig l, n, d => do
    let ret ← twigFilterGet false l n d
    let r ← twigCanonical ret d
    pure (r, (l.length : Int) - ret.length)
  | .branch m k, n, d =>
    match n with
    | .branch _ k2 => do
      let (ret, _, ms) ← parallel m Packer.zero (fun i ret =>
        if (k2 i).isNil then pure (⟨ret.mask, setSlot ret.data i (k i)⟩, true, 0)
        else do
          let (n', ms') ← difference (k i) (k2 i) (d + 1)
          pure (⟨ret.mask, setSlot ret.data i n'⟩, true, ms'))
      let r ← branchCanonical ret.updateMask
      pure (r, ms)
    | .leaf1 a => do
      let (r, ms, _) ← without (.branch m k) a d (newHasher a d)
      pure (r, ms)
    | .leaf2 a b => do
      let (r1, m1, _) ← without (.branch m k) a d (newHasher a d)
      let (r2, m2, _) ← without r1 b d (newHasher b d)
      pure (r2, m1 + m2)
    | .twig _ => .error .wtf
    | .nil => .error .wtf

/-- leaf1.go:113-118 -/
def leaf1Intersection (a : T) (n : Node T) (d : Nat) : Go (Node T × Int) := do
  let g ← get n a (newHasher a d)
  if g.isSome then pure (.leaf1 a, 1) else pure (.nil, 0)

/-- leaf2.go:149-162 -/
def leaf2Intersection (a b : T) (n : Node T) (d : Nat) : Go (Node T × Int) := do
  let g0 ← get n a (newHasher a d)
  let g1 ← get n b (newHasher b d)
  if g0.isSome && g1.isSome then pure (.leaf2 a b, 2)
  else if g0.isSome then pure (.leaf1 a, 1)
  else if g1.isSome then pure (.leaf1 b, 1)
  else pure (.nil, 0)

/-- `Intersection`: leaf1.go:113-118, leaf2.go:149-162, twig.go:200-210, branch.go:181-201. -/
def intersection : Node T → Node T → Nat → Go (Node T × Int)
  | .nil, _, _ => .error .nilDeref
  | .leaf1 a, n, d => leaf1Intersection a n d
  | .leaf2 a b, n, d => leaf2Intersection a b n d
  | .twig l, n, d => do
    let ret ← twigFilterGet true l n d
    let r ← twigCanonical ret d
    pure (r, ret.length)
  | .branch m k, n, d =>
    match n with
    | .branch m2 k2 => do
      let (ret, _, ms) ← parallel (m &&& m2) Packer.zero (fun i ret => do
        let (n', ms') ← intersection (k i) (k2 i) (d + 1)
        pure (⟨ret.mask, setSlot ret.data i n'⟩, true, ms'))
      let r ← branchCanonical ret.updateMask
      pure (r, ms)
    | .leaf1 a => leaf1Intersection a (.branch m k) d
    | .leaf2 a b => leaf2Intersection a b (.branch m k) d
    | .twig _ => .error .wtf
    | .nil => .error .wtf

/-! ## Equal, SubsetOf -/

/-- `Equal`: leaf1.go:101-104, leaf2.go:134-138, twig.go:172-189, branch.go:159-171. `eq` is `args.eq`. -/
def equal (eq : T → T → Bool) : Node T → Node T → Go Bool
  | .nil, _ => .error .nilDeref
  | .leaf1 a, n =>
    match n with
    | .leaf1 b => .ok (eq a b)
    | _ => .ok false
  | .leaf2 a b, n =>
    match n with
    | .leaf2 x y => .ok ((eq a x && eq b y) || (eq a y && eq b x))
    | _ => .ok false
  | .twig l, n =>
    match n with
    | .twig l2 => .ok (if l.length ≠ l2.length then false else l.all (fun e => l2.any (fun f => eq e f)))
    | _ => .ok false
  | .branch m k, n =>
    match n with
    | .branch m2 k2 =>
      if m ≠ m2 then .ok false
      else do
        let (_, ok, _) ← parallel m () (fun i _ => do
          let r ← equal eq (k i) (k2 i)
          pure ((), r, 0))
        pure ok
    | _ => .ok false

/-- `SubsetOf`: leaf1.go:137-139, leaf2.go:184-187, twig.go:239-247, branch.go:242-259. -/
def subsetOf : Node T → Node T → Nat → Go Bool
  | .nil, _, _ => .error .nilDeref
  | .leaf1 a, n, d => do
    let g ← get n a (newHasher a d)
    pure g.isSome
  | .leaf2 a b, n, d => do
    let ga ← get n a (newHasher a d)
    if ga.isSome then do
      let gb ← get n b (newHasher b d)
      pure gb.isSome
    else pure false
  | .twig l, n, d => l.allM (fun e => do
      let g ← get n e (newHasher e d)
      pure g.isSome)
  | .branch m k, n, d =>
    match n with
    | .branch m2 k2 => do
      let (_, ok, _) ← parallel (m ||| m2) () (fun i _ =>
        if (k i).isNil then pure ((), true, 0)
        else if (k2 i).isNil then pure ((), false, 0)
        else do
          let r ← subsetOf (k i) (k2 i) (d + 1)
          pure ((), r, 0))
      pure ok
    | _ => .ok false

/-! ## Where, Reduce -/

/-- `Where`: leaf1.go:149-154, leaf2.go:201-214, twig.go:271-280, branch.go:287-301. The last component is pointer equality of the
result with the receiver. `nodes != b.p` (branch.go:297) compares the masks and, slot by slot, the child pointers: a slot that was
not visited holds nil in `nodes`. -/
def «where» (pred : T → Bool) : Node T → Nat → Go (Node T × Int × Bool)
  | .nil, _ => .error .nilDeref
  | .leaf1 a, _ => if pred a then .ok (.leaf1 a, 1, true) else .ok (.nil, 0, false)
  | .leaf2 a b, _ =>
    if pred a && pred b then .ok (.leaf2 a b, 2, true)
    else if pred a then .ok (.leaf1 a, 1, false)
    else if pred b then .ok (.leaf1 b, 1, false)
    else .ok (.nil, 0, false)
  | .twig l, d => do
    let ret := l.filter pred
    let r ← twigCanonical ret d
    pure (r, ret.length, false)
  | .branch m k, d => do
    let ((nodes, same), _, ms) ← parallel m ((Packer.zero : Packer T), (fun i => (k i).isNil : Fin 8 → Bool)) (fun i st => do
      let (n, ms', s) ← «where» pred (k i) (d + 1)
      pure ((⟨st.1.mask, setSlot st.1.data i n⟩, setSlot st.2 i s), true, ms'))
    let nodes := nodes.updateMask
    if nodes.mask = m ∧ (List.finRange 8).all same then pure (.branch m k, ms, true)
    else do
      let r ← branchCanonical nodes
      pure (r, ms, false)

/-- `Reduce`: leaf1.go:125-127, leaf2.go:168-170, twig.go:216-218, branch.go:207-220. `default` is Go's zero value of `T`. -/
def reduce [Inhabited T] (r : List T → T) : Node T → Go T
  | .nil => .error .nilDeref
  | .leaf1 a => .ok (r [a])
  | .leaf2 a b => .ok (r [a, b])
  | .twig l => .ok (r l)
  | .branch m k => do
    let (results, _, _) ← parallel m (fun _ => (default : T) : Fin 8 → T) (fun i res => do
      let x ← reduce r (k i)
      pure (setSlot res i x, true, 0))
    let results2 ← (bitLoop m).mapM (fun i =>
      if h : i < 8 then (.ok (results ⟨i, h⟩) : Go T) else .error (.msg "index out of range"))
    pure (r results2)

end Frozen
