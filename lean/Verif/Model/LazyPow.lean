import Verif.Model.Lazy

/-! # Lazy powersets and their memo tables

Models `Powerset()` of lazy sets: `powerset` wraps a `powerSet` in a `memoSet`, as the other constructors do. The elements of a
powerset are sets, so the dynamic types that matter here are those of sets; see `PVal`. -/

namespace Frozen

/-- The dynamic types of the elements of a powerset, and of what a client may ask it for: a `frozen.Set[any]`, a `*frozenSet`, which
is what `lazy.Frozen` returns (set_frozen.go:5-14), and `EmptySet` (set_empty.go:9). -/
inductive PVal (T : Type) where
  | frozen (s : FSet T)
  | lazy (s : FSet T)
  | empty

variable {T : Type} [GoKey T]

/-- A comparison as an element operation: should it panic, the answer is `false`. -/
def orFalse : Go Bool → Bool
  | .ok b => b
  | .error _ => false

/-- `Has(e)` of an element of a powerset: set.go:190-192, set_base.go:84-87 with set_frozen.go:35-37, set_empty.go:54-56. -/
def PVal.has : PVal T → T → Go Bool
  | .frozen s, e => s.has e
  | .lazy s, e => s.has e
  | .empty, _ => .ok false

/-- `value.Equal[any](a, b)`, value.go:28-37. Lazy sets have `Equal(any)`: set_base.go:65-70 with set_frozen.go:39-51, and
set_empty.go:39-44. A `frozen.Set` has no method `Equal(any)`, so its `Same` (set.go:179-182) is called. -/
def PVal.eq : PVal T → PVal T → Bool
  | .frozen s, .frozen t => orFalse (s.equal t)
  | .frozen _, _ => false
  | .lazy s, .lazy t => orFalse (s.equal t)
  | .lazy s, .empty => s.count == 0
  | .lazy _, .frozen _ => false
  | .empty, .lazy t => orFalse (t.equal t)
  | .empty, .empty => true
  | .empty, .frozen _ => false

/-- `hash.Any(a, seed)`, which calls `Hash(seed)`: set.go:164-170, set_base.go:76-82 (in the order of `Range`), set_empty.go:50-52. -/
def PVal.hash [GoHash] (seed : BitVec 64) : PVal T → BitVec 64
  | .frozen s =>
    match s.hash seed with
    | .ok h => h
    | .error _ => 0#64
  | .lazy s =>
    match s.rangeList with
    | .ok l => l.foldl (fun h v => GoKey.hash h v) (GoHash.uintptr 624409645898692063#64 seed)
    | .error _ => 0#64
  | .empty => GoHash.uintptr 624409645898692063#64 seed

instance [GoHash] : GoKey (PVal T) := ⟨PVal.eq, PVal.hash⟩

/-- What the `memoSet` of a powerset holds: the `powerSet` of a source (set_powerset.go:9-18), later a `frozenSet` (set_memo.go:53-54). -/
inductive PCell (T : Type) where
  | pow (src : LSet T)
  | frozen (f : FSet (PVal T))

/-- The `set` fields of the `memoSet`s of powersets. -/
abbrev PStore (T : Type) := List (PCell T)

/-- What `Powerset()` returns: a `memoSet`, or a `frozenSet` for `EmptySet` (set_empty.go:102-104). -/
inductive PSet (T : Type) where
  | frozen (f : FSet (PVal T))
  | memo (cell : Nat)

/-- Iterators over powersets: those of `frozen`, and `cachingIterator` (set_memo.go:40-44) over a `powerSetSetIterator`. -/
inductive PIter (T : Type) where
  | frozen (it : Iter (PVal T))
  | caching (p : LPow T) (cell : Nat) (seen : SetBuilder (PVal T))

/-- set_memo.go:29-31 `getSet` -/
def PStore.get (κ : PStore T) (k : Nat) : Go (PCell T) :=
  match κ[k]? with
  | some c => .ok c
  | none => .error .nilDeref

variable [GoHash]

/-- `Powerset()`: set_empty.go:102-104, set_base.go:136-138, set_memo.go:82, with set_powerset.go:14-18. -/
def LSet.powersetM (σ : LStore T) (κ : PStore T) (s : LSet T) : Go (PSet T × PStore T) := do
  match ← LSet.deref σ s with
  | .empty => do
    let f ← buildSet [PVal.empty]
    pure (.frozen f, κ)
  | c => pure (.memo κ.length, κ ++ [.pow c])

omit [GoHash] in
/-- `Range()`: set_frozen.go:69-71, set_memo.go:33-38, set_powerset.go:64-70. -/
def PSet.range (n : Nat) (σ : LStore T) (κ : PStore T) : PSet T → Go (PIter T)
  | .frozen f => do
    let it ← f.range
    pure (.frozen it)
  | .memo k => do
    match ← κ.get k with
    | .frozen f => do
      let it ← f.range
      pure (.frozen it)
    | .pow src => do
      let p ← LPow.range n σ src
      pure (.caching p k Tree.zero)

/-- The loop of set_memo.go:46-56 over a `powerSetSetIterator`: the iterator, whether it has a value, `seen` and the store. -/
def cacheNext : Nat → LStore T → LPow T → SetBuilder (PVal T) → Go (LPow T × Bool × SetBuilder (PVal T) × LStore T)
  | 0, _, _, _ => noFuel
  | n + 1, σ, p, seen => do
    let (p, ok, σ) ← LPow.next n σ p
    if ok then do
      if ← seen.has (.lazy p.value) then cacheNext n σ p seen
      else do
        let seen ← seen.add (.lazy p.value)
        pure (p, true, seen, σ)
    else pure (p, false, seen, σ)

/-- `Next()`: iterators of `frozen`, and set_memo.go:46-56. -/
def PIter.next (n : Nat) (σ : LStore T) (κ : PStore T) : PIter T → Go (PIter T × Bool × LStore T × PStore T)
  | .frozen it => do
    let (it, ok) ← it.next
    pure (.frozen it, ok, σ, κ)
  | .caching p k seen => do
    let (p, ok, seen, σ) ← cacheNext n σ p seen
    if ok then pure (.caching p k seen, true, σ, κ)
    else
      let (s, seen) := seen.finish
      pure (.caching p k seen, false, σ, κ.set k (.frozen s))

omit [GoKey T] [GoHash] in
/-- `Value()`: iterators of `frozen`, set_memo.go:58-60 with set_powerset.go:104-106. -/
def PIter.value : PIter T → Go (PVal T)
  | .frozen it => it.value
  | .caching p _ _ => .ok (.lazy p.value)

omit [GoHash] in
/-- `Count()`: set_memo.go:64, set_powerset.go:28-33, set_base.go:30-35 with set_frozen.go:24-26. -/
def PSet.count (n : Nat) (σ : LStore T) (κ : PStore T) : PSet T → Go (Int × LStore T)
  | .frozen f => .ok (f.count, σ)
  | .memo k => do
    match ← κ.get k with
    | .frozen f => pure (f.count, σ)
    | .pow src => powCount n σ src

/-- `Has(v)`: set_memo.go:72, set_powerset.go:59-62, set_base.go:84-87 with set_frozen.go:35-37. -/
def PSet.has (n : Nat) (σ : LStore T) (κ : PStore T) (s : PSet T) (v : PVal T) : Go (Bool × LStore T) :=
  match s with
  | .frozen f => do
    let b ← f.has v
    pure (b, σ)
  | .memo k => do
    match ← κ.get k with
    | .frozen f => do
      let b ← f.has v
      pure (b, σ)
    | .pow src =>
      match v with
      | .frozen el => powHas n σ src el
      | _ => pure (false, σ)

end Frozen
