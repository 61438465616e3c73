import Verif.Model.Memory

/-!
# Iterators in memory

`Model/Tree.lean` has iterators over trees that are values. Here an iterator holds pointers into the memory and reads a node only when
it gets there, so that what other calls do meanwhile matters. The slots of unvisited children that the nested iterators of one `Range`
keep in a shared buffer (`stack`, `buf`) are modelled as they are: the iterator of a child gets the rest of its parent's buffer and
appends to it, in place or not.

Simplification: the slots are not part of the memory of Model/Memory.lean, because only this iterator knows them.
-/

namespace Frozen

variable {T : Type}

/-- The iterator below the innermost `packerIterator`: empty.go:10-18, or a slice iterator (iterator/slice.go:3-10) over an array of its
own (leaf1.go:120-123), over the two elements inside a leaf (`l.data[:]`, leaf2.go:164-166), or over a twig's slice (twig.go:212-214). -/
inductive LeafIter (T : Type) where
  | empty
  | own (x : T) (index : Int)
  | leaf2 (a : Nat) (index : Int)
  | twig (s : Slice) (index : Int)

/-- A backing array for stacks: its capacity, and the slots written so far. A slot `(a, pos)` is the slice `p.data[pos:]` of the
children of the branch at `a`. -/
structure IterBuf where
  cap : Nat
  slots : List (Nat × Nat)

/-- What `Range` returns, with all iterators nested in it. Each entry of `levels` is a `packerIterator` (packer_iter.go:10-13), the
outermost first: `(b, off)` is its stack, the slice of length 1 at index `off` of the buffer `b`. -/
structure MIter (T : Type) where
  bufs : List IterBuf
  levels : List (Nat × Nat)
  leaf : LeafIter T

/-- `stack[0]` for the stack at `(b, off)`. -/
def slotAt (bufs : List IterBuf) (b off : Nat) : Option (Nat × Nat) := (bufs[b]?).bind (fun buf => buf.slots[off]?)

/-- `stack[0] = v` for the stack at `(b, off)`; also the write of an `append` within the capacity. -/
def setSlotAt (bufs : List IterBuf) (b off : Nat) (v : Nat × Nat) : List IterBuf :=
  bufs.modify b (fun buf => ⟨buf.cap, buf.slots.take off ++ v :: buf.slots.drop (off + 1)⟩)

/-- packer_iter.go:16 `append(buf, p.data[:])` when `buf` is empty and starts at index `off` of the buffer `b`: in place if there is
room, otherwise a new buffer. -/
def appendSlot (G : Growth) (bufs : List IterBuf) (b off : Nat) (v : Nat × Nat) : List IterBuf × (Nat × Nat) :=
  match bufs[b]? with
  | some buf =>
    if off < buf.cap then (setSlotAt bufs b off v, (b, off)) else (bufs ++ [⟨G.cap 0 1, [v]⟩], (bufs.length, 0))
  | none => (bufs ++ [⟨G.cap 0 1, [v]⟩], (bufs.length, 0))

/-- `Next()`: empty.go:12-14, iterator/slice.go:12-15. Nothing is read. -/
def LeafIter.next : LeafIter T → LeafIter T × Bool
  | .empty => (.empty, false)
  | .own x index => (.own x (index + 1), decide (index + 1 < 1))
  | .leaf2 a index => (.leaf2 a (index + 1), decide (index + 1 < 2))
  | .twig s index => (.twig s (index + 1), decide (index + 1 < s.len))

/-- `Value()`: empty.go:16-18, iterator/slice.go:17-19. The element is read now, not when `Next` was called. -/
def LeafIter.value : LeafIter T → MM T T
  | .empty => raise .wtf
  | .own x index => if index = 0 then pure x else raise (.msg "index out of range")
  | .leaf2 a index => do
    match ← readCell a with
    | .leaf2 x y =>
      if index = 0 then pure x else if index = 1 then pure y else raise (.msg "index out of range")
    | _ => raise .nilDeref
  | .twig s index =>
    if index < 0 ∨ (s.len : Int) ≤ index then raise (.msg "index out of range")
    else .readElem s.arr index.toNat (fun e =>
      match e with
      | some e => pure e
      | none => raise (.msg "index out of range"))

/-- Put a level around an iterator. -/
def MIter.under (l : Nat × Nat) (it : MIter T) : MIter T := ⟨it.bufs, l :: it.levels, it.leaf⟩

/-- The loop of packer_iter.go:26-34 for the `packerIterator` with the stack at `(b, off)` over the children of the branch at `a`: `it`
is the rest of the iterator, and `next` is `Next`. -/
def packLoopM (G : Growth) (next : MIter T → MM T (MIter T × Bool)) (b off a : Nat) : MIter T → List (Fin 8) → MM T (MIter T × Bool)
  | it, [] => pure (it.under (b, off), false)
  | it, i :: is => do
    let bufs := setSlotAt it.bufs b off (a, i.val + 1)
    match ← readCell a with
    | .branch _ k =>
      match k i with
      | none => packLoopM G next b off a ⟨bufs, it.levels, it.leaf⟩ is
      | some c => do
        match ← readCell c with
        | .leaf1 x => do
          let (it', ok) ← next ⟨bufs, [], .own x (-1)⟩
          pure (it'.under (b, off), ok)
        | .leaf2 _ _ => do
          let (it', ok) ← next ⟨bufs, [], .leaf2 c (-1)⟩
          pure (it'.under (b, off), ok)
        | .twig s =>
          if s.len = 0 then packLoopM G next b off a ⟨bufs, it.levels, it.leaf⟩ is
          else do
            let (it', ok) ← next ⟨bufs, [], .twig s (-1)⟩
            pure (it'.under (b, off), ok)
        | .branch _ _ => do
          let r := appendSlot G bufs b (off + 1) (c, 0)
          let (it', ok) ← next ⟨r.1, [r.2], .empty⟩
          pure (it'.under (b, off), ok)
    | _ => raise .nilDeref

/-- `Next()`: packer_iter.go:21-36 and `LeafIter.next`. -/
def nextM (G : Growth) : Nat → MIter T → MM T (MIter T × Bool)
  | 0, _ => raise (.msg "out of fuel")
  | _ + 1, ⟨bufs, [], leaf⟩ => pure (⟨bufs, [], leaf.next.1⟩, leaf.next.2)
  | fuel + 1, ⟨bufs, (b, off) :: rest, leaf⟩ => do
    let (it, ok) ← nextM G fuel ⟨bufs, rest, leaf⟩
    if ok then pure (it.under (b, off), true)
    else
      match slotAt it.bufs b off with
      | none => raise (.msg "index out of range")
      | some (a, pos) => packLoopM G (nextM G fuel) b off a it ((List.finRange 8).drop pos)

/-- `Next()` on what `Range` returned. -/
def MIter.next (G : Growth) (it : MIter T) : MM T (MIter T × Bool) := nextM G memFuel it

/-- `Value()`: packer_iter.go:38-40 passes on to the innermost iterator. -/
def MIter.value (it : MIter T) : MM T T := it.leaf.value

/-- tree.go:12-15 `packedIteratorBuf` -/
def packedIteratorBuf (count : Int) : IterBuf :=
  ⟨((if count = 0 then 0 else Nat.log2 count.toNat + 1) + 1) * 3 / 2, []⟩

/-- tree.go:106-112 `Iterator`, with leaf1.go:120-123, leaf2.go:164-166, twig.go:212-214, branch.go:203-205, packer.go:49-51 and
packer_iter.go:15-19. -/
def MTree.iterator (G : Growth) (t : MTree) : MM T (MIter T) :=
  match t.root with
  | none => pure ⟨[], [], .empty⟩
  | some a => do
    match ← readCell a with
    | .leaf1 x => pure ⟨[], [], .own x (-1)⟩
    | .leaf2 _ _ => pure ⟨[], [], .leaf2 a (-1)⟩
    | .twig s => pure ⟨[], [], .twig s (-1)⟩
    | .branch _ _ =>
      let r := appendSlot G [packedIteratorBuf t.count] 0 0 (a, 0)
      pure ⟨r.1, [r.2], .empty⟩

end Frozen
