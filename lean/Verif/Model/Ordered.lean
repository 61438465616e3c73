import Verif.Model.Set
import Verif.Spec.Order

/-! # Ordered access: `OrderedElements`, `OrderedRange`, `OrderedFirstN`, `First`, `FirstN`

Models `internal/pkg/tree/packer_iter.go` (41-108), `internal/pkg/tree/tree.go` (114-131), `set.go` (76-127, 159-161) and the
functions of Go's `container/heap` (not in the repo) that they call. -/

namespace Frozen

variable {T : Type}

/-- The slice access `elements[i]`. -/
def goAt (l : List T) (i : Nat) : Go T :=
  match l[i]? with
  | some x => .ok x
  | none => .error (.msg "index out of range")

/-- `h.Less(i, j)` of a `heap.Interface` over a slice, for the element order `lt`. -/
def heapLess (lt : T → T → Bool) (l : List T) (i j : Nat) : Go Bool := do
  let a ← goAt l i
  let b ← goAt l j
  pure (lt a b)

/-- packer_iter.go:67-69 `Swap` -/
def heapSwap (l : List T) (i j : Nat) : Go (List T) := do
  let a ← goAt l i
  let b ← goAt l j
  pure ((l.set i b).set j a)

/-- container/heap `up(h, j)`. The parent `(j - 1) / 2` of 0 is 0 in Go too. The loop runs at most `j + 1` times. -/
def heapUp (lt : T → T → Bool) : Nat → Nat → List T → Go (List T)
  | 0, _, _ => .error (.msg "out of fuel")
  | fuel + 1, j, l => do
    let i := (j - 1) / 2
    if i = j then pure l
    else do
      let b ← heapLess lt l j i
      if !b then pure l
      else do
        let l' ← heapSwap l i j
        heapUp lt fuel i l'

/-- container/heap `down(h, i, n)`: the choice of the smaller child. -/
def heapChild (lt : T → T → Bool) (l : List T) (i n : Nat) : Go Nat :=
  if 2 * i + 2 < n then do
    let b ← heapLess lt l (2 * i + 2) (2 * i + 1)
    pure (if b then 2 * i + 2 else 2 * i + 1)
  else pure (2 * i + 1)

/-- container/heap `down(h, i, n)` (its result is not used by `Pop` and `Init`). The loop runs at most `n` times. -/
def heapDown (lt : T → T → Bool) : Nat → Nat → Nat → List T → Go (List T)
  | 0, _, _, _ => .error (.msg "out of fuel")
  | fuel + 1, i, n, l =>
    if 2 * i + 1 ≥ n then pure l
    else do
      let j ← heapChild lt l i n
      let b ← heapLess lt l j i
      if !b then pure l
      else do
        let l' ← heapSwap l i j
        heapDown lt fuel j n l'

/-- container/heap `Push`, with packer_iter.go:71-73 `Push`. -/
def heapPush (lt : T → T → Bool) (l : List T) (x : T) : Go (List T) := heapUp lt (l.length + 1) l.length (l ++ [x])

/-- container/heap `Pop`, with packer_iter.go:75-79 `Pop`: the popped element and the shorter slice. -/
def heapPop (lt : T → T → Bool) (l : List T) : Go (T × List T) := do
  let n := l.length - 1
  let l1 ← heapSwap l 0 n
  let l2 ← heapDown lt (n + 1) 0 n l1
  let x ← goAt l2 n
  pure (x, l2.take n)

/-- container/heap `Init`: `for i := n/2 - 1; i >= 0; i--`; the first argument counts the iterations left. -/
def heapInit (lt : T → T → Bool) : Nat → List T → Go (List T)
  | 0, l => pure l
  | i + 1, l => do
    let l' ← heapDown lt (l.length + 1) i l.length l
    heapInit lt i l'

/-- packer_iter.go:63-65 `ordered.Less`: the greatest element is on top. -/
def orderedLess (less : T → T → Bool) (a b : T) : Bool := less b a

/-- packer_iter.go:106-108 `reverseOrdered.Less` -/
def reverseLess (less : T → T → Bool) (a b : T) : Bool := orderedLess less b a

/-- The iterators returned by `OrderedIterator`: `Empty[T]()` or `reverseOrdered` (packer_iter.go:81-86 with 41-45). -/
inductive OrdIter (T : Type) where
  | empty
  | heap (less : T → T → Bool) (elements : List T) (val : T)

/-- tree.go:122-127: one step of the loop in `OrderedIterator`. -/
def orderedStep (less : T → T → Bool) (n : Int) (l : List T) (v : T) : Go (List T) := do
  let l' ← heapPush (orderedLess less) l v
  if (l'.length : Int) > n then do
    let (_, l'') ← heapPop (orderedLess less) l'
    pure l''
  else pure l'

/-- tree.go:114-131 `OrderedIterator`; `default` is the zero value in `reverseOrdered.val`. -/
def Tree.orderedIterator [Inhabited T] (t : Tree T) (less : T → T → Bool) (n : Int) : Go (OrdIter T) :=
  let n := if n < 0 ∨ n > t.count then t.count else n
  if n = 0 then .ok .empty
  else do
    let vs ← (do
      let it ← t.root.iter
      it.drain (t.root.size + 1))
    let l ← vs.foldlM (orderedStep less n) []
    let l' ← heapInit (reverseLess less) (l.length / 2) l
    pure (.heap less l' default)

/-- packer_iter.go:93-99 `Next` (and empty.go:12-14) -/
def OrdIter.next : OrdIter T → Go (OrdIter T × Bool)
  | .empty => .ok (.empty, false)
  | .heap less l val =>
    if l.length = 0 then .ok (.heap less l val, false)
    else do
      let (x, l') ← heapPop (reverseLess less) l
      pure (.heap less l' x, true)

/-- packer_iter.go:101-103 `Value` (and empty.go:16-18) -/
def OrdIter.value : OrdIter T → Go T
  | .empty => .error .wtf
  | .heap _ _ val => .ok val

/-- The loop `for i := …; i.Next(); { … i.Value() … }`, bounded by fuel; `ordDrain_spec` shows that it stops by itself. -/
def OrdIter.drain : Nat → OrdIter T → Go (List T)
  | 0, _ => .error (.msg "out of fuel")
  | fuel + 1, it => do
    let (it', ok) ← it.next
    if ok then do
      let v ← it'.value
      let vs ← OrdIter.drain fuel it'
      pure (v :: vs)
    else pure []

/-- set.go:159-161 `OrderedRange` -/
def FSet.orderedRange [Inhabited T] (s : FSet T) (less : T → T → Bool) : Go (OrdIter T) := s.tree.orderedIterator less s.count

/-- set.go:77-83 `OrderedElements` -/
def FSet.orderedElements [Inhabited T] (s : FSet T) (less : T → T → Bool) : Go (List T) := do
  let it ← s.orderedRange less
  it.drain (s.tree.root.size + 1)

/-- The loop of set.go:109-111: `for i := …; i.Next() && currentLength < n; currentLength++`; the first argument is `n - currentLength`. -/
def OrdIter.takeN : Nat → OrdIter T → Go (List T)
  | k, it => do
    let (it', ok) ← it.next
    if ok then
      match k with
      | 0 => pure []
      | k + 1 => do
        let v ← it'.value
        let vs ← OrdIter.takeN k it'
        pure (v :: vs)
    else pure []

/-- set.go:106-113 `OrderedFirstN`: `make([]T, 0, n)` panics for a negative `n`. -/
def FSet.orderedFirstN [Inhabited T] (s : FSet T) (n : Int) (less : T → T → Bool) : Go (List T) :=
  if n < 0 then .error (.msg "makeslice: cap out of range")
  else do
    let it ← s.tree.orderedIterator less n
    it.takeN n.toNat

/-- set.go:116-121 `First` -/
def FSet.first [Inhabited T] (s : FSet T) (less : T → T → Bool) : Go T := do
  match ← s.orderedFirstN 1 less with
  | x :: _ => pure x
  | [] => .error (.msg "Set[T].First(): empty set")

/-- set.go:124-126 `FirstN` -/
def FSet.firstN [GoKey T] [Inhabited T] (s : FSet T) (n : Int) (less : T → T → Bool) : Go (FSet T) := do
  let l ← s.orderedFirstN n less
  newSet l

end Frozen
