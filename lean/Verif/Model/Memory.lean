import Verif.Model.Tree

/-!
# The trie in memory

`Model/Node.lean` treats nodes as values. Here the same functions work on a memory of node cells and backing arrays, with pointers,
slices that have a length and a capacity, and in-place writes, so that sharing between sets and the mutation done by builders
become visible. Models `internal/pkg/tree/{leaf1,leaf2,twig,branch,packer,tree,builder}.go` again, at that level.

Simplifications: addresses are never reused (garbage collection is invisible); the children are visited sequentially (see
`Model/Parallel.lean` for schedules); recursion is by fuel, and running out of it is a panic that the theorems exclude.
-/

namespace Frozen

variable {T : Type}

/-- A pointer to a node; `none` is nil. -/
abbrev Ptr := Option Nat

/-- A Go slice that starts at index 0 of its backing array. -/
structure Slice where
  arr : Nat
  len : Nat
  cap : Nat
deriving DecidableEq

/-- The nil slice. -/
def Slice.nil : Slice := ⟨0, 0, 0⟩

/-- What a node pointer points to: leaf1.go:12-14, leaf2.go:12-14, twig.go:12-14, branch.go:23-25 with packer.go:9-12. -/
inductive Cell (T : Type) where
  | leaf1 (a : T)
  | leaf2 (a b : T)
  | twig (data : Slice)
  | branch (mask : Masker) (data : Fin 8 → Ptr)

/-- A memory location: a node cell or a backing array. -/
inductive Loc where
  | cell (a : Nat)
  | arr (a : Nat)
deriving DecidableEq

/-- The memory: node cells and backing arrays by address. Of an array only the part written so far is stored. `log` is not part of
the program's state: it records the locations overwritten so far, last first, so that theorems can speak about every single write. -/
structure Mem (T : Type) where
  cells : List (Cell T)
  arrays : List (List T)
  log : List Loc

/-- The empty memory. -/
def Mem.empty : Mem T := ⟨[], [], []⟩

/-- Go code with access to the memory, as the sequence of its single accesses: the next access, and how the code goes on with what
it read or with the address it got. -/
inductive MM (T α : Type) where
  | done (r : Go α)
  | readCell (a : Nat) (k : Option (Cell T) → MM T α)
  | readElem (arr i : Nat) (k : Option T → MM T α)
  | alloc (c : Cell T) (k : Nat → MM T α)
  | allocArr (l : List T) (k : Nat → MM T α)
  | writeCell (a : Nat) (c : Cell T) (k : MM T α)
  | writeElem (arr i : Nat) (v : T) (k : MM T α)

/-- One code after the other; a panic ends both. -/
def MM.andThen {α β : Type} (f : α → MM T β) : MM T α → MM T β
  | .done (.ok a) => f a
  | .done (.error e) => .done (.error e)
  | .readCell a k => .readCell a (fun c => (k c).andThen f)
  | .readElem arr i k => .readElem arr i (fun c => (k c).andThen f)
  | .alloc c k => .alloc c (fun a => (k a).andThen f)
  | .allocArr l k => .allocArr l (fun a => (k a).andThen f)
  | .writeCell a c k => .writeCell a c (k.andThen f)
  | .writeElem arr i v k => .writeElem arr i v (k.andThen f)

instance : Monad (MM T) where
  pure a := .done (.ok a)
  bind x f := x.andThen f

/-- A cell is overwritten. -/
def Mem.setCell (H : Mem T) (a : Nat) (c : Cell T) : Mem T := ⟨H.cells.set a c, H.arrays, .cell a :: H.log⟩

/-- `array[i] = v` for `i` within the written part or just behind it. -/
def Mem.setElem (H : Mem T) (arr i : Nat) (v : T) : Mem T :=
  ⟨H.cells, H.arrays.modify arr (fun l => l.take i ++ v :: l.drop (i + 1)), .arr arr :: H.log⟩

/-- One access. -/
def MM.step {α : Type} : MM T α → Mem T → MM T α × Mem T
  | .done r, H => (.done r, H)
  | .readCell a k, H => (k H.cells[a]?, H)
  | .readElem arr i k, H => (k (H.arrays[arr]?.bind (·[i]?)), H)
  | .alloc c k, H => (k H.cells.length, ⟨H.cells ++ [c], H.arrays, H.log⟩)
  | .allocArr l k, H => (k H.arrays.length, ⟨H.cells, H.arrays ++ [l], H.log⟩)
  | .writeCell a c k, H => (k, H.setCell a c)
  | .writeElem arr i v k, H => (k, H.setElem arr i v)

/-- Run the code to its end, with nobody else using the memory. What was written before a panic stays written. -/
def MM.run {α : Type} : MM T α → Mem T → Go α × Mem T
  | .done r, H => (r, H)
  | .readCell a k, H => (k H.cells[a]?).run H
  | .readElem arr i k, H => (k (H.arrays[arr]?.bind (·[i]?))).run H
  | .alloc c k, H => (k H.cells.length).run ⟨H.cells ++ [c], H.arrays, H.log⟩
  | .allocArr l k, H => (k H.arrays.length).run ⟨H.cells, H.arrays ++ [l], H.log⟩
  | .writeCell a c k, H => k.run (H.setCell a c)
  | .writeElem arr i v k, H => k.run (H.setElem arr i v)

instance {α : Type} : CoeFun (MM T α) (fun _ => Mem T → Go α × Mem T) := ⟨MM.run⟩

/-- Panic. -/
def raise {α : Type} (e : Panic) : MM T α := .done (.error e)

/-- Allocate a node. -/
def alloc (c : Cell T) : MM T Nat := .alloc c pure

/-- Allocate a backing array. -/
def allocArr (l : List T) : MM T Nat := .allocArr l pure

/-- Read the node at an address; a nil or invalid pointer panics. The node is read as a whole. -/
def readCell (a : Nat) : MM T (Cell T) := .readCell a (fun c =>
  match c with
  | some c => pure c
  | none => raise .nilDeref)

/-- Overwrite the node at an address. -/
def writeCell (a : Nat) (c : Cell T) : MM T Unit := .writeCell a c (pure ())

/-- The elements of a slice. A slice that reaches behind the written part of its array is an error. -/
def Mem.slice (H : Mem T) (s : Slice) : Go (List T) :=
  if s.len = 0 then .ok []
  else
    match H.arrays[s.arr]? with
    | none => .error (.msg "index out of range")
    | some l => if s.len ≤ l.length then .ok (l.take s.len) else .error (.msg "index out of range")

/-- Read `n` elements of an array from index `i` on, one after the other. -/
def readFrom (arr : Nat) : Nat → Nat → MM T (List T)
  | _, 0 => pure []
  | i, n + 1 => .readElem arr i (fun e =>
    match e with
    | some e => do
      let l ← readFrom arr (i + 1) n
      pure (e :: l)
    | none => raise (.msg "index out of range"))

/-- The elements of a slice, `range s`. -/
def readSlice (s : Slice) : MM T (List T) := readFrom s.arr 0 s.len

/-- `array[i] = v` for `i` within the written part or just behind it. -/
def writeArr (arr i : Nat) (v : T) : MM T Unit := .writeElem arr i v (pure ())

/-- How `append` picks the capacity of a new backing array. The Go specification leaves it to the implementation. -/
structure Growth where
  cap : (old needed : Nat) → Nat
  le : ∀ old needed, needed ≤ cap old needed

/-- The growth of the Go runtime (runtime/slice.go `nextslicecap`) for slices below 256 elements, without the rounding up to
allocation size classes: twice the old capacity if that suffices. -/
def goGrowth : Growth where
  cap old needed := if needed > 2 * old then needed else 2 * old
  le old needed := by split <;> omega

/-- `append(s, v)`: in place if there is spare capacity, otherwise into a new array. -/
def goAppend (G : Growth) (s : Slice) (v : T) : MM T Slice :=
  if s.len < s.cap then do
    writeArr s.arr s.len v
    pure ⟨s.arr, s.len + 1, s.cap⟩
  else do
    let l ← readSlice s
    let arr ← allocArr (l ++ [v])
    pure ⟨arr, s.len + 1, G.cap s.cap (s.len + 1)⟩

/-! ## packer.go -/

/-- packer.go:38-41 `SetNonNilChild` on the branch at `b`. -/
def setNonNilChildM (b : Nat) (i : Fin 8) (p : Ptr) : MM T Unit := do
  match ← readCell b with
  | .branch m k => writeCell b (.branch (m ||| newMasker i) (setSlot k i p))
  | _ => raise .nilDeref

/-- `ret.p.data[i] = n` on the branch at `b`. -/
def setDataM (b : Nat) (i : Fin 8) (p : Ptr) : MM T Unit := do
  match ← readCell b with
  | .branch m k => writeCell b (.branch m (setSlot k i p))
  | _ => raise .nilDeref

/-- packer.go:53-61 `updateMask`: the mask of the non-nil children. -/
def maskOfPtrs (k : Fin 8 → Ptr) : Masker :=
  (List.finRange 8).foldl (fun m i => if (k i).isNone then m else m ||| newMasker i) 0#16

/-- packer.go:53-61 `updateMask` on the branch at `b`. -/
def updateMaskM (b : Nat) : MM T Unit := do
  match ← readCell b with
  | .branch _ k => writeCell b (.branch (maskOfPtrs k) k)
  | _ => raise .nilDeref

/-- packer.go:43-47 `WithChild` and branch.go:27-33 `newBranch`: a new branch that differs in one child. -/
def newBranchWithChild (m : Masker) (k : Fin 8 → Ptr) (i : Fin 8) (p : Ptr) : MM T Nat :=
  alloc (.branch (if p.isNone then m &&& ~~~ newMasker i else m ||| newMasker i) (setSlot k i p))

/-- gauge.go:72-81, the sequential loop of `Parallel`. -/
def parallelLoopM (f : Fin 8 → MM T (Bool × Int)) : List Nat → Int → MM T (Bool × Int)
  | [], ms => pure (true, ms)
  | i :: is, ms =>
    if h : i < 8 then do
      let (ok, m) ← f ⟨i, h⟩
      if !ok then pure (false, ms) else parallelLoopM f is (ms + m)
    else raise (.msg "index out of range")

/-- gauge.go:51-84 `Parallel`. -/
def parallelM (mask : Masker) (f : Fin 8 → MM T (Bool × Int)) : MM T (Bool × Int) := parallelLoopM f (bitLoop mask) 0

variable [GoKey T]

/-! ## Reading -/

/-- `Get`: leaf1.go:106-111, leaf2.go:140-147, twig.go:191-198, branch.go:173-179. -/
def getM (H : Mem T) : Nat → Ptr → T → Hasher → Go (Option T)
  | 0, _, _, _ => .error (.msg "out of fuel")
  | _ + 1, none, _, _ => .error .nilDeref
  | fuel + 1, some a, v, h =>
    match H.cells[a]? with
    | none => .error .nilDeref
    | some (.leaf1 x) => .ok (if GoKey.eq x v then some x else none)
    | some (.leaf2 x y) => .ok (if GoKey.eq x v then some x else if GoKey.eq y v then some y else none)
    | some (.twig s) => do
      let l ← H.slice s
      pure (l.find? (fun e => GoKey.eq e v))
    | some (.branch _ k) => if (k h.idx).isNone then .ok none else getM H fuel (k h.idx) v h.next

/-- The same as code that reads the nodes on the way down one after the other. -/
def getP : Nat → Ptr → T → Hasher → MM T (Option T)
  | 0, _, _, _ => raise (.msg "out of fuel")
  | _ + 1, none, _, _ => raise .nilDeref
  | fuel + 1, some a, v, h => do
    match ← readCell a with
    | .leaf1 x => pure (if GoKey.eq x v then some x else none)
    | .leaf2 x y => pure (if GoKey.eq x v then some x else if GoKey.eq y v then some y else none)
    | .twig s => do
      let l ← readSlice s
      pure (l.find? (fun e => GoKey.eq e v))
    | .branch _ k => if (k h.idx).isNone then pure none else getP fuel (k h.idx) v h.next

omit [GoKey T]

/-- `AppendTo(dest)`: leaf1.go:83-88, leaf2.go:108-113, twig.go:148-153, branch.go:75-84. -/
def appendToM (cap : Nat) (H : Mem T) : Nat → Ptr → List T → Go (Option (List T))
  | 0, _, _ => .error (.msg "out of fuel")
  | _ + 1, none, _ => .error .nilDeref
  | fuel + 1, some a, dest =>
    match H.cells[a]? with
    | none => .error .nilDeref
    | some (.leaf1 x) => .ok (if dest.length + 1 > cap then none else some (dest ++ [x]))
    | some (.leaf2 x y) => .ok (if dest.length + 2 > cap then none else some (dest ++ [x, y]))
    | some (.twig s) =>
      if dest.length + s.len > cap then .ok none
      else do
        let l ← H.slice s
        pure (some (dest ++ l))
    | some (.branch _ k) =>
      (List.finRange 8).foldlM (fun acc i =>
        match acc with
        | none => pure none
        | some dest => if (k i).isNone then pure (some dest) else appendToM cap H fuel (k i) dest) (some dest)

/-- The same as code that reads one node after the other. -/
def appendToP (cap : Nat) : Nat → Ptr → List T → MM T (Option (List T))
  | 0, _, _ => raise (.msg "out of fuel")
  | _ + 1, none, _ => raise .nilDeref
  | fuel + 1, some a, dest => do
    match ← readCell a with
    | .leaf1 x => pure (if dest.length + 1 > cap then none else some (dest ++ [x]))
    | .leaf2 x y => pure (if dest.length + 2 > cap then none else some (dest ++ [x, y]))
    | .twig s =>
      if dest.length + s.len > cap then pure none
      else do
        let l ← readSlice s
        pure (some (dest ++ l))
    | .branch _ k =>
      (List.finRange 8).foldlM (fun acc i =>
        match acc with
        | none => pure none
        | some dest => if (k i).isNone then pure (some dest) else appendToP cap fuel (k i) dest) (some dest)

/-- The elements below a pointer in the order the iterators visit them (packer_iter.go:15-45, iterator/slice.go): every child in
slot order. -/
def elemsM (H : Mem T) : Nat → Ptr → Go (List T)
  | 0, _ => .error (.msg "out of fuel")
  | _ + 1, none => .ok []
  | fuel + 1, some a =>
    match H.cells[a]? with
    | none => .error .nilDeref
    | some (.leaf1 x) => .ok [x]
    | some (.leaf2 x y) => .ok [x, y]
    | some (.twig s) => H.slice s
    | some (.branch _ k) => (List.finRange 8).foldlM (fun acc i => do
        let l ← elemsM H fuel (k i)
        pure (acc ++ l)) []

/-- An iteration over all elements as code that reads one node, or one element of a twig, after the other. -/
def elemsP : Nat → Ptr → MM T (List T)
  | 0, _ => raise (.msg "out of fuel")
  | _ + 1, none => pure []
  | fuel + 1, some a => do
    match ← readCell a with
    | .leaf1 x => pure [x]
    | .leaf2 x y => pure [x, y]
    | .twig s => readSlice s
    | .branch _ k => (List.finRange 8).foldlM (fun acc i => do
        let l ← elemsP fuel (k i)
        pure (acc ++ l)) []

variable [GoKey T]

/-! ## AddFast and newBranchFrom -/

/-- leaf1.go:27-29, leaf2.go:16-18, twig.go:16-18 with a slice of its own. -/
def newTwigM (l : List T) : MM T Nat := do
  let arr ← allocArr l
  alloc (.twig ⟨arr, l.length, l.length⟩)

/-- branch.go:35-45 `newBranchFrom`, given `AddFast` on the branch that is being filled. Called with explicit arguments
(leaf2.go) the new twig gets an array of exactly their number. -/
def newBranchFromWith (add : Nat → T → MM T Unit) (d : Nat) (data : List T) : MM T Ptr :=
  if d ≥ maxTreeDepth then do
    let a ← newTwigM data
    pure (some a)
  else do
    let b ← alloc (.branch 0#16 (fun _ => none))
    data.forM (fun e => add b e)
    pure (some b)

/-- `AddFast`, in place: leaf1.go:55-61, leaf2.go:51-62, twig.go:65-87, branch.go:61-73. -/
def addFastM (G : Growth) : Nat → Ptr → T → Nat → Hasher → MM T (Ptr × Int)
  | 0, _, _, _, _ => raise (.msg "out of fuel")
  | _ + 1, none, _, _, _ => raise .nilDeref
  | fuel + 1, some a, v, d, h => do
    match ← readCell a with
    | .leaf1 x =>
      if GoKey.eq x v then do
        writeCell a (.leaf1 v)
        pure (some a, 1)
      else do
        let b ← alloc (.leaf2 x v)
        pure (some b, 0)
    | .leaf2 x y =>
      if GoKey.eq x v then do
        writeCell a (.leaf2 v y)
        pure (some a, 1)
      else if GoKey.eq y v then do
        writeCell a (.leaf2 x v)
        pure (some a, 1)
      else do
        let p ← newBranchFromWith (fun b e => do let _ ← addFastM G fuel (some b) e d (newHasher e d)) d [x, y, v]
        pure (p, 0)
    | .twig s => do
      let l ← readSlice s
      match l.findIdx? (fun e => GoKey.eq e v) with
      | some i => do
        writeArr s.arr i v
        pure (some a, 1)
      | none =>
        if s.len < s.cap ∨ d ≥ maxTreeDepth then do
          let s' ← goAppend G s v
          writeCell a (.twig s')
          pure (some a, 0)
        else do
          let b ← alloc (.branch 0#16 (fun _ => none))
          (l ++ [v]).forM (fun e => do let _ ← addFastM G fuel (some b) e d (newHasher e d))
          pure (some b, 0)
    | .branch _ k =>
      if (k h.idx).isNone then do
        let l ← alloc (.leaf1 v)
        setNonNilChildM a h.idx (some l)
        pure (some a, 0)
      else do
        let (p, ms) ← addFastM G fuel (k h.idx) v (d + 1) h.next
        setNonNilChildM a h.idx p
        pure (some a, ms)

/-- Enough fuel for every tree (their depth is at most 22). -/
def memFuel : Nat := 64

/-- branch.go:35-45 -/
def newBranchFromM (G : Growth) (d : Nat) (data : List T) : MM T Ptr :=
  newBranchFromWith (fun b e => do let _ ← addFastM G memFuel (some b) e d (newHasher e d)) d data

/-! ## Canonical -/

/-- twig.go:89-103 on the twig at `a`. -/
def twigCanonicalM (G : Growth) (a : Nat) (s : Slice) (d : Nat) : MM T Ptr := do
  match ← readSlice s with
  | [] => pure none
  | [x] => do let b ← alloc (.leaf1 x); pure (some b)
  | [x, y] => do let b ← alloc (.leaf2 x y); pure (some b)
  | l => if l.length ≤ maxLeafLen ∨ d * fanoutBits ≥ 64 then pure (some a) else newBranchFromM G d l

/-- branch.go:86-92 on the branch at `b`. -/
def branchCanonicalM (G : Growth) (b : Nat) : MM T Ptr := do
  match ← appendToP maxLeafLen memFuel (some b) [] with
  | some data => do
    let arr ← allocArr data
    let a ← alloc (.twig ⟨arr, data.length, maxLeafLen⟩)
    twigCanonicalM G a ⟨arr, data.length, maxLeafLen⟩ 0
  | none => pure (some b)

/-! ## With, WithFast -/

/-- twig.go:324-326 `cloneWithExtra(0)`: a copy whose array is full. -/
def cloneTwigM (s : Slice) : MM T Slice := do
  let l ← readSlice s
  let arr ← allocArr l
  pure ⟨arr, l.length, l.length⟩

/-- `With(args, …)` for arbitrary `args`, and `WithFast` for `args = (value.Equal, UseRHS)`: leaf1.go:156-168, leaf2.go:216-236,
twig.go:282-304, branch.go:330-358. The two families of methods differ only in where the equality and the function come from. -/
def withM (G : Growth) (args : CombineArgs T) : Nat → Ptr → T → Nat → Hasher → MM T (Ptr × Int)
  | 0, _, _, _, _ => raise (.msg "out of fuel")
  | _ + 1, none, _, _, _ => raise .nilDeref
  | fuel + 1, some a, v, d, h => do
    match ← readCell a with
    | .leaf1 x =>
      if args.eq x v then do let b ← alloc (.leaf1 (args.f x v)); pure (some b, 1)
      else do let b ← alloc (.leaf2 x v); pure (some b, 0)
    | .leaf2 x y =>
      if args.eq x v then do let b ← alloc (.leaf2 (args.f x v) y); pure (some b, 1)
      else if args.eq y v then do let b ← alloc (.leaf2 x (args.f y v)); pure (some b, 1)
      else do
        let p ← newBranchFromM G d [x, y, v]
        pure (p, 0)
    | .twig s => do
      let l ← readSlice s
      match l.findIdx? (fun e => args.eq e v) with
      | some i => do
        let s' ← cloneTwigM s
        (l[i]?).elim (pure ()) (fun e => writeArr s'.arr i (args.f e v))
        let b ← alloc (.twig s')
        pure (some b, 1)
      | none => do
        let s' ← goAppend G s v
        let b ← alloc (.twig s')
        let p ← twigCanonicalM G b s' d
        pure (p, 0)
    | .branch m k =>
      if (k h.idx).isNone then do
        let l ← alloc (.leaf1 v)
        let b ← newBranchWithChild m k h.idx (some l)
        pure (some b, 0)
      else do
        let (p, ms) ← withM G args fuel (k h.idx) v (d + 1) h.next
        if p ≠ k h.idx then do
          let b ← newBranchWithChild m k h.idx p
          pure (some b, ms)
        else pure (some a, ms)

/-- `value.Equal` and `UseRHS`, what the `…Fast` methods have built in. -/
def fastArgs : CombineArgs T := ⟨GoKey.eq, fun _ b => b⟩

/-! ## Without, Remove -/

/-- `Without`: leaf1.go:170-175, leaf2.go:238-246, twig.go:306-318, branch.go:360-372. -/
def withoutM (G : Growth) : Nat → Ptr → T → Nat → Hasher → MM T (Ptr × Int)
  | 0, _, _, _, _ => raise (.msg "out of fuel")
  | _ + 1, none, _, _, _ => raise .nilDeref
  | fuel + 1, some a, v, d, h => do
    match ← readCell a with
    | .leaf1 x => if GoKey.eq x v then pure (none, 1) else pure (some a, 0)
    | .leaf2 x y =>
      if GoKey.eq x v then do let b ← alloc (.leaf1 y); pure (some b, 1)
      else if GoKey.eq y v then do let b ← alloc (.leaf1 x); pure (some b, 1)
      else pure (some a, 0)
    | .twig s => do
      let l ← readSlice s
      match l.findIdx? (fun e => GoKey.eq e v) with
      | some i => do
        let s' ← cloneTwigM ⟨s.arr, s.len - 1, s.cap⟩
        if i ≠ s'.len then (l[s'.len]?).elim (pure ()) (fun e => writeArr s'.arr i e) else pure ()
        let b ← alloc (.twig s')
        let p ← twigCanonicalM G b s' d
        pure (p, 1)
      | none => pure (some a, 0)
    | .branch m k =>
      if (k h.idx).isNone then pure (some a, 0)
      else do
        let (p, ms) ← withoutM G fuel (k h.idx) v (d + 1) h.next
        if p ≠ k h.idx then do
          let b ← newBranchWithChild (m ||| newMasker h.idx) k h.idx p
          let r ← branchCanonicalM G b
          pure (r, ms)
        else pure (some a, ms)

/-- leaf1.go:16-25 -/
def newLeafM : List T → MM T Ptr
  | [x] => do let b ← alloc (.leaf1 x); pure (some b)
  | [x, y] => do let b ← alloc (.leaf2 x y); pure (some b)
  | _ => raise (.msg "data wrong size for leaf")

/-- `n.(*branch[T])` succeeds. -/
def isBranchM (p : Ptr) : MM T Bool :=
  match p with
  | none => pure false
  | some a => .readCell a (fun c =>
    match c with
    | some (.branch _ _) => pure true
    | _ => pure false)

/-- `Remove`, in place in twigs: leaf1.go:129-135, leaf2.go:172-182, twig.go:220-237, branch.go:222-240 (`b := *b` copies the
branch). -/
def removeM (G : Growth) : Nat → Ptr → T → Nat → Hasher → MM T (Ptr × Int)
  | 0, _, _, _, _ => raise (.msg "out of fuel")
  | _ + 1, none, _, _, _ => raise .nilDeref
  | fuel + 1, some a, v, d, h => do
    match ← readCell a with
    | .leaf1 x => if GoKey.eq x v then pure (none, 1) else pure (some a, 0)
    | .leaf2 x y =>
      if GoKey.eq x v then do let b ← alloc (.leaf1 y); pure (some b, 1)
      else if GoKey.eq y v then do let b ← alloc (.leaf1 x); pure (some b, 1)
      else pure (some a, 0)
    | .twig s => do
      let l ← readSlice s
      match l.findIdx? (fun e => GoKey.eq e v) with
      | some i =>
        if s.len - 1 = 0 then pure (none, 1)
        else do
          if i < s.len - 1 then (l[s.len - 1]?).elim (pure ()) (fun e => writeArr s.arr i e) else pure ()
          writeCell a (.twig ⟨s.arr, s.len - 1, s.cap⟩)
          let p ← twigCanonicalM G a ⟨s.arr, s.len - 1, s.cap⟩ d
          pure (p, 1)
      | none => pure (some a, 0)
    | .branch m k =>
      if (k h.idx).isNone then pure (some a, 0)
      else do
        let (p, ms) ← removeM G fuel (k h.idx) v (d + 1) h.next
        let b ← alloc (.branch m (setSlot k h.idx p))
        if !(← isBranchM p) then do
          match ← appendToP maxLeafLen memFuel (some b) [] with
          | some data => do
            let r ← newLeafM data
            pure (r, ms)
          | none => do
            updateMaskM b
            pure (some b, ms)
        else do
          updateMaskM b
          pure (some b, ms)

/-! ## Combine -/

/-- The scanning loop of `twig.Combine` (twig.go:114-141), as in `twigScan`: `s` is the receiver's current slice, `cloned` whether
it has been copied. The branch that the code fills and drops (131-139) is left out. -/
def twigScanM (G : Growth) (args : CombineArgs T) : Slice → Bool → List T → Int → MM T (Slice × Int)
  | s, _, [], ms => pure (s, ms)
  | s, cloned, e :: es, ms => do
    let l ← readSlice s
    match l.findIdx? (fun f => args.eq f e) with
    | some j => do
      let s' ← if cloned then pure s else cloneTwigM s
      (l[j]?).elim (pure ()) (fun f => writeArr s'.arr j (args.f f e))
      twigScanM G args s' true es (ms + 1)
    | none =>
      if s.len < maxLeafLen then do
        let s' ← goAppend G s e
        twigScanM G args s' cloned es ms
      else twigScanM G args s cloned es ms

/-- `branch.Combine` with a leaf1 or leaf2 (branch.go:113-119), the branch at `a`. -/
def branchCombineLeavesM (G : Growth) (args : CombineArgs T) (a : Nat) (l : List T) (d : Nat) : MM T (Ptr × Int) :=
  l.foldlM (fun st e => do
    let (p, m) ← withM G args memFuel st.1 e d (newHasher e d)
    pure (p, st.2 + m)) (some a, 0)

/-- leaf2.go:92-102 -/
def leaf2CombineLeaf1M (G : Growth) (args : CombineArgs T) (l0 l1 nd : T) (d : Nat) : MM T (Ptr × Int) :=
  if args.eq l0 nd then do let b ← alloc (.leaf2 (args.f l0 nd) l1); pure (some b, 1)
  else if args.eq l1 nd then do let b ← alloc (.leaf2 l0 (args.f l1 nd)); pure (some b, 1)
  else do
    let p ← newBranchFromM G d [l0, l1, nd]
    pure (p, 0)

/-- leaf2.go:72-91 -/
def leaf2CombineLeaf2M (G : Growth) (args : CombineArgs T) (l0 l1 n0 n1 : T) (d : Nat) : MM T (Ptr × Int) :=
  if args.eq l0 n0 then
    if args.eq l1 n1 then do let b ← alloc (.leaf2 (args.f l0 n0) (args.f l1 n1)); pure (some b, 2)
    else do let p ← newBranchFromM G d [args.f l0 n0, l1, n1]; pure (p, 1)
  else if args.eq l1 n1 then do let p ← newBranchFromM G d [l0, n0, args.f l1 n1]; pure (p, 1)
  else if args.eq l0 n1 then
    if args.eq l1 n0 then do let b ← alloc (.leaf2 (args.f l0 n1) (args.f l1 n0)); pure (some b, 2)
    else do let p ← newBranchFromM G d [args.f l0 n1, l1, n0]; pure (p, 1)
  else if args.eq l1 n0 then do let p ← newBranchFromM G d [l0, n1, args.f l1 n0]; pure (p, 1)
  else do let p ← newBranchFromM G d [l0, l1, n0, n1]; pure (p, 0)

/-- Read the node behind a pointer that is the argument of a type switch; a nil interface matches no case. -/
def readPtr (p : Ptr) : MM T (Option (Cell T)) :=
  match p with
  | none => pure none
  | some a => do let c ← readCell a; pure (some c)

/-- `Combine`: leaf1.go:67-81, leaf2.go:68-106, twig.go:105-146, branch.go:94-123. -/
def combineM (G : Growth) : Nat → CombineArgs T → Ptr → Ptr → Nat → MM T (Ptr × Int)
  | 0, _, _, _, _ => raise (.msg "out of fuel")
  | _ + 1, _, none, _, _ => raise .nilDeref
  | fuel + 1, args, some a, q, d => do
    let c ← readCell a
    let n ← readPtr q
    match c with
    | .leaf1 x =>
      match n, q with
      | some (.branch _ _), some b => branchCombineLeavesM G args.flip b [x] d
      | some (.leaf2 y z), _ => leaf2CombineLeaf1M G args.flip y z x d
      | some (.leaf1 y), _ =>
        if args.eq x y then do let b ← alloc (.leaf1 (args.f x y)); pure (some b, 1)
        else do let b ← alloc (.leaf2 x y); pure (some b, 0)
      | _, _ => raise .wtf
    | .leaf2 x y =>
      match n, q with
      | some (.branch _ _), some b => branchCombineLeavesM G args.flip b [x, y] d
      | some (.leaf2 z w), _ => leaf2CombineLeaf2M G args x y z w d
      | some (.leaf1 z), _ => leaf2CombineLeaf1M G args x y z d
      | _, _ => raise .wtf
    | .twig s =>
      match n with
      | some (.twig s2) => do
        let ndata ← readSlice s2
        let (s', ms) ← twigScanM G args s false ndata 0
        if s'.len > maxLeafLen then raise .wtf
        else do
          let b ← alloc (.twig s')
          let p ← twigCanonicalM G b s' d
          pure (p, ms)
      | _ => raise .wtf
    | .branch m k =>
      match n with
      | some (.branch m2 k2) => do
        let ret ← alloc (.branch 0#16 (fun _ => none))
        let (_, ms) ← parallelM (m ||| m2) (fun i =>
          if (k i).isNone then do setNonNilChildM ret i (k2 i); pure (true, 0)
          else if (k2 i).isNone then do setNonNilChildM ret i (k i); pure (true, 0)
          else do
            let (p, ms) ← combineM G fuel args (k i) (k2 i) (d + 1)
            setDataM ret i p
            pure (true, ms))
        updateMaskM ret
        pure (some ret, ms)
      | some (.leaf1 x) => branchCombineLeavesM G args a [x] d
      | some (.leaf2 x y) => branchCombineLeavesM G args a [x, y] d
      | _ => raise .wtf

/-! ## Difference, Intersection, Where -/

/-- The loops of twig.go:155-167, 200-210 and 271-280: append the elements that `keep` selects to a new slice. -/
def twigFilterM (G : Growth) (keep : T → MM T Bool) (l : List T) : MM T Slice :=
  l.foldlM (fun s e => do
    if ← keep e then goAppend G s e else pure s) Slice.nil

/-- `Difference`: leaf1.go:90-95, leaf2.go:115-128, twig.go:155-167, branch.go:125-153. -/
def differenceM (G : Growth) : Nat → Ptr → Ptr → Nat → MM T (Ptr × Int)
  | 0, _, _, _ => raise (.msg "out of fuel")
  | _ + 1, none, _, _ => raise .nilDeref
  | fuel + 1, some a, q, d => do
    match ← readCell a with
    | .leaf1 x => do
      let g ← getP memFuel q x (newHasher x d)
      if g.isSome then pure (none, 1) else pure (some a, 0)
    | .leaf2 x y => do
      let gx ← getP memFuel q x (newHasher x d)
      let gy ← getP memFuel q y (newHasher y d)
      if gx.isSome && gy.isSome then pure (none, 2)
      else if gx.isSome then do let b ← alloc (.leaf1 y); pure (some b, 1)
      else if gy.isSome then do let b ← alloc (.leaf1 x); pure (some b, 1)
      else pure (some a, 0)
    | .twig s => do
      let l ← readSlice s
      let s' ← twigFilterM G (fun e => do let g ← getP memFuel q e (newHasher e d); pure (!g.isSome)) l
      let b ← alloc (.twig s')
      let p ← twigCanonicalM G b s' d
      pure (p, (l.length : Int) - s'.len)
    | .branch m k => do
      match ← readPtr q with
      | some (.branch _ k2) => do
        let ret ← alloc (.branch 0#16 (fun _ => none))
        let (_, ms) ← parallelM m (fun i =>
          if (k2 i).isNone then do setDataM ret i (k i); pure (true, 0)
          else do
            let (p, ms) ← differenceM G fuel (k i) (k2 i) (d + 1)
            setDataM ret i p
            pure (true, ms))
        updateMaskM ret
        let p ← branchCanonicalM G ret
        pure (p, ms)
      | some (.leaf1 x) => withoutM G memFuel (some a) x d (newHasher x d)
      | some (.leaf2 x y) => do
        let (p1, m1) ← withoutM G memFuel (some a) x d (newHasher x d)
        let (p2, m2) ← withoutM G memFuel p1 y d (newHasher y d)
        pure (p2, m1 + m2)
      | _ => raise .wtf

/-- leaf1.go:113-118 for the leaf at `a` -/
def leaf1IntersectionM (a : Nat) (x : T) (q : Ptr) (d : Nat) : MM T (Ptr × Int) := do
  let g ← getP memFuel q x (newHasher x d)
  if g.isSome then pure (some a, 1) else pure (none, 0)

/-- leaf2.go:149-162 for the leaf at `a` -/
def leaf2IntersectionM (a : Nat) (x y : T) (q : Ptr) (d : Nat) : MM T (Ptr × Int) := do
  let g0 ← getP memFuel q x (newHasher x d)
  let g1 ← getP memFuel q y (newHasher y d)
  if g0.isSome && g1.isSome then pure (some a, 2)
  else if g0.isSome then do let b ← alloc (.leaf1 x); pure (some b, 1)
  else if g1.isSome then do let b ← alloc (.leaf1 y); pure (some b, 1)
  else pure (none, 0)

/-- `Intersection`: leaf1.go:113-118, leaf2.go:149-162, twig.go:200-210, branch.go:181-201. -/
def intersectionM (G : Growth) : Nat → Ptr → Ptr → Nat → MM T (Ptr × Int)
  | 0, _, _, _ => raise (.msg "out of fuel")
  | _ + 1, none, _, _ => raise .nilDeref
  | fuel + 1, some a, q, d => do
    match ← readCell a with
    | .leaf1 x => leaf1IntersectionM a x q d
    | .leaf2 x y => leaf2IntersectionM a x y q d
    | .twig s => do
      let l ← readSlice s
      let s' ← twigFilterM G (fun e => do let g ← getP memFuel q e (newHasher e d); pure g.isSome) l
      let b ← alloc (.twig s')
      let p ← twigCanonicalM G b s' d
      pure (p, s'.len)
    | .branch m k => do
      match ← readPtr q, q with
      | some (.branch m2 k2), _ => do
        let ret ← alloc (.branch 0#16 (fun _ => none))
        let (_, ms) ← parallelM (m &&& m2) (fun i => do
          let (p, ms) ← intersectionM G fuel (k i) (k2 i) (d + 1)
          setDataM ret i p
          pure (true, ms))
        updateMaskM ret
        let p ← branchCanonicalM G ret
        pure (p, ms)
      | some (.leaf1 x), some b => leaf1IntersectionM b x (some a) d
      | some (.leaf2 x y), some b => leaf2IntersectionM b x y (some a) d
      | _, _ => raise .wtf

/-- `Where`: leaf1.go:149-154, leaf2.go:201-214, twig.go:271-280, branch.go:287-301. The local packer `nodes` is modelled as a
branch cell nobody else knows; `newBranch(&nodes)` (298) copies it. -/
def whereM (G : Growth) (pred : T → Bool) : Nat → Ptr → Nat → MM T (Ptr × Int)
  | 0, _, _ => raise (.msg "out of fuel")
  | _ + 1, none, _ => raise .nilDeref
  | fuel + 1, some a, d => do
    match ← readCell a with
    | .leaf1 x => if pred x then pure (some a, 1) else pure (none, 0)
    | .leaf2 x y =>
      if pred x && pred y then pure (some a, 2)
      else if pred x then do let b ← alloc (.leaf1 x); pure (some b, 1)
      else if pred y then do let b ← alloc (.leaf1 y); pure (some b, 1)
      else pure (none, 0)
    | .twig s => do
      let l ← readSlice s
      let s' ← twigFilterM G (fun e => pure (pred e)) l
      let b ← alloc (.twig s')
      let p ← twigCanonicalM G b s' d
      pure (p, s'.len)
    | .branch m k => do
      let nodes ← alloc (.branch 0#16 (fun _ => none))
      let (_, ms) ← parallelM m (fun i => do
        let (p, ms) ← whereM G pred fuel (k i) (d + 1)
        setDataM nodes i p
        pure (true, ms))
      updateMaskM nodes
      match ← readCell nodes with
      | .branch m' k' =>
        if m' = m ∧ ∀ i, k' i = k i then pure (some a, ms)
        else do
          let b ← alloc (.branch m' k')
          let p ← branchCanonicalM G b
          pure (p, ms)
      | _ => raise .nilDeref

/-! ## tree.go and builder.go -/

/-- tree.go:17-20 with the root as a pointer. A `Set` (set.go:26-28) and a `Map` (map.go) hold just this; copying one copies the
pointer. -/
structure MTree where
  root : Ptr
  count : Int
deriving DecidableEq

/-- The zero tree. -/
def MTree.zero : MTree := ⟨none, 0⟩

/-- tree.go:84-90 `Get` -/
def MTree.get (t : MTree) (H : Mem T) (v : T) : Go (Option T) :=
  if t.root.isNone then .ok none else getM H memFuel t.root v (newHasher v 0)

/-- tree.go:84-90 `Get` as code -/
def MTree.getP (t : MTree) (v : T) : MM T (Option T) :=
  if t.root.isNone then pure none else Frozen.getP memFuel t.root v (newHasher v 0)

/-- The elements that iterating over the tree visits, in order (tree.go:106-112 `Iterator`). -/
def MTree.elems (t : MTree) (H : Mem T) : Go (List T) := elemsM H memFuel t.root

/-- The same as code. -/
def MTree.elemsP (t : MTree) : MM T (List T) := Frozen.elemsP memFuel t.root

/-- tree.go:187-197 `With` -/
def MTree.with (G : Growth) (t : MTree) (v : T) : MM T MTree :=
  if t.root.isNone then do let a ← alloc (.leaf1 v); pure ⟨some a, 1⟩
  else do
    let (p, ms) ← withM G fastArgs memFuel t.root v 0 (newHasher v 0)
    pure ⟨p, t.count + 1 - ms⟩

/-- tree.go:199-209 `Without` -/
def MTree.without (G : Growth) (t : MTree) (v : T) : MM T MTree :=
  if t.root.isNone then pure t
  else do
    let (p, ms) ← withoutM G memFuel t.root v 0 (newHasher v 0)
    pure ⟨p, t.count - ms⟩

/-- tree.go:177-185 `Where` -/
def MTree.where (G : Growth) (t : MTree) (pred : T → Bool) : MM T MTree :=
  if t.root.isNone then pure t
  else do
    let (p, ms) ← whereM G pred memFuel t.root 0
    pure ⟨p, ms⟩

/-- tree.go:48-60 `Combine` -/
def MTree.combine (G : Growth) (t : MTree) (args : CombineArgs T) (u : MTree) : MM T MTree :=
  if t.root.isNone then pure u
  else if u.root.isNone then pure t
  else do
    let (p, ms) ← combineM G memFuel args t.root u.root 0
    pure ⟨p, t.count + u.count - ms⟩

/-- tree.go:62-71 `Difference` -/
def MTree.difference (G : Growth) (t u : MTree) : MM T MTree :=
  if t.root.isNone || u.root.isNone then pure t
  else do
    let (p, ms) ← differenceM G memFuel t.root u.root 0
    pure ⟨p, t.count - ms⟩

/-- tree.go:92-104 `Intersection` -/
def MTree.intersection (G : Growth) (t u : MTree) : MM T MTree :=
  if t.root.isNone || u.root.isNone then pure MTree.zero
  else
    let (t, u) := if t.count > u.count then (u, t) else (t, u)
    do
      let (p, ms) ← intersectionM G memFuel t.root u.root 0
      pure ⟨p, ms⟩

/-- builder.go:50-64 `Add` -/
def MTree.add (G : Growth) (b : MTree) (v : T) : MM T MTree :=
  if b.root.isNone then do let a ← alloc (.leaf1 v); pure ⟨some a, 1⟩
  else do
    let (p, ms) ← addFastM G memFuel b.root v 0 (newHasher v 0)
    pure ⟨p, b.count + (1 - ms)⟩

/-- builder.go:66-77 `Remove` -/
def MTree.remove (G : Growth) (b : MTree) (v : T) : MM T MTree :=
  if b.root.isNone then pure b
  else do
    let (p, ms) ← removeM G memFuel b.root v 0 (newHasher v 0)
    pure ⟨p, b.count - ms⟩

end Frozen
