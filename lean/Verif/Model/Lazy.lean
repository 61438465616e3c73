import Verif.Model.Set
import Verif.Model.Bits

/-! # Lazy sets

Models `lazy/*.go`. A lazy set is a pointer to an immutable node (`whereSet`, `unionSet`, …) or to a `memoSet`, whose one field is
replaced when an iteration over it ends. Immutable nodes are therefore plain values here, and a `memoSet` is the index of a cell in
a store that every operation takes and returns. Iterators are changed by `Next` only, so `Next` returns the changed iterator.

Simplifications. One element type `T` stands for the dynamic `any`; powersets, whose elements are sets, are modelled apart
(`LPow`). Predicates and mappers are total functions, as lazy/set.go:3-9 requires them to be pure. The interface method tables are
rendered by matching on the node. Loops and calls through cells take fuel, and running out of it is a panic that the theorems
exclude. Everything runs in one goroutine; `Model/LazyConc.lean` has several. `String` is not modelled. -/

namespace Frozen

/-- The dynamic types behind `lazy.Set` (lazy/set.go:12-112): `EmptySet` (set_empty.go:9), `frozenSet` (set_frozen.go:5-8),
`memoSet` (set_memo.go:10-12), `whereSet` (set_where.go:3-7), `mapperSet` (set_transform.go:3-7), `unionSet` (set_union.go:3-6),
`intersectionSet` (set_intersection.go:3-6), `differenceSet` (set_diff.go:3-6). -/
inductive LSet (T : Type) where
  | empty
  | frozen (s : FSet T)
  | memo (cell : Nat)
  | where (src : LSet T) (pred : T → Bool)
  | map (src : LSet T) (m : T → T)
  | union (a b : LSet T)
  | inter (a b : LSet T)
  | diff (a b : LSet T)

/-- The `set` fields of all `memoSet`s made so far (set_memo.go:10-12). -/
abbrev LStore (T : Type) := List (LSet T)

/-- The dynamic types behind `lazy.SetIterator`: `emptySetIterator` (set_empty.go:106), `frozen`'s iterators (set_frozen.go:69-71),
`whereSetIterator` (set_where.go:30-33), `mapperSetIterator` (set_transform.go:19-22), `unionSetIterator` (set_union.go:45-48),
`intersectionSetIterator` (set_intersection.go:40-43), `differenceSetIterator` (set_diff.go:35-38), `cachingIterator`
(set_memo.go:40-44). -/
inductive LIter (T : Type) where
  | empty
  | frozen (it : Iter T)
  | where (i : LIter T) (pred : T → Bool)
  | map (i : LIter T) (m : T → T)
  | union (i : LIter T) (b : Option (LSet T))
  | inter (i : LIter T) (b : LSet T)
  | diff (i : LIter T) (b : LSet T)
  | caching (i : LIter T) (cell : Nat) (seen : SetBuilder T)

variable {T : Type}

/-- set_memo.go:29-31 `getSet` on a `memoSet`; any other set stands for itself. A cell never holds another `memoSet`
(set_memo.go:14-23); the model panics if it does, which the invariant of the proofs excludes. -/
def LSet.deref (σ : LStore T) : LSet T → Go (LSet T)
  | .memo k =>
    match σ[k]? with
    | none => .error .nilDeref
    | some (.memo _) => .error (.msg "memo of memo")
    | some c => .ok c
  | s => .ok s

/-- set_memo.go:14-23 `memo` -/
def memoize (σ : LStore T) : LSet T → LSet T × LStore T
  | .memo k => (.memo k, σ)
  | .frozen s => (.frozen s, σ)
  | s => (.memo σ.length, σ ++ [s])

/-- `Value()`: set_empty.go:112-114, iterators of `frozen`, set_where.go:44-46, set_transform.go:28-30, set_union.go:63-65,
set_intersection.go:56-58, set_diff.go:51-53, set_memo.go:58-60. -/
def LIter.value : LIter T → Go T
  | .empty => .error (.msg "emptySetIterator.Value(): empty set")
  | .frozen it => it.value
  | .where i _ => i.value
  | .map i m => do
    let v ← i.value
    pure (m v)
  | .union i _ => i.value
  | .inter i _ => i.value
  | .diff i _ => i.value
  | .caching i _ _ => i.value

/-- Running out of fuel. -/
def noFuel {α : Type} : Go α := .error (.msg "out of fuel")

/-- `Range()`: set_empty.go:66-68, set_frozen.go:69-71, set_memo.go:33-38, set_where.go:26-28, set_transform.go:15-17,
set_union.go:41-43, set_intersection.go:36-38, set_diff.go:31-33. -/
def LSet.range (σ : LStore T) : Nat → LSet T → Go (LIter T)
  | 0, _ => noFuel
  | _ + 1, .empty => .ok .empty
  | _ + 1, .frozen s => do
    let it ← s.range
    pure (.frozen it)
  | n + 1, .memo k => do
    match ← LSet.deref σ (.memo k) with
    | .frozen s => do
      let it ← s.range
      pure (.frozen it)
    | c => do
      let i ← LSet.range σ n c
      pure (.caching i k Tree.zero)
  | n + 1, .where src p => do
    let i ← LSet.range σ n src
    pure (.where i p)
  | n + 1, .map src m => do
    let i ← LSet.range σ n src
    pure (.map i m)
  | n + 1, .union a b => do
    let i ← LSet.range σ n a
    pure (.union i (some b))
  | n + 1, .inter a b => do
    let i ← LSet.range σ n a
    pure (.inter i b)
  | n + 1, .diff a b => do
    let i ← LSet.range σ n a
    pure (.diff i b)

/-- `FastIsEmpty()`, `none` for `ok = false`: set_empty.go:15-17, set_frozen.go:20-22, set_memo.go:63, set_where.go:15-20,
set_base.go:26-28. -/
def LSet.fastIsEmpty (σ : LStore T) : Nat → LSet T → Go (Option Bool)
  | 0, _ => noFuel
  | _ + 1, .empty => .ok (some true)
  | _ + 1, .frozen s => .ok (some s.isEmpty)
  | n + 1, .memo k => do
    let c ← LSet.deref σ (.memo k)
    LSet.fastIsEmpty σ n c
  | n + 1, .where src _ => do
    match ← LSet.fastIsEmpty σ n src with
    | some true => pure (some true)
    | _ => pure none
  | _ + 1, _ => .ok none

/-- `FastCount()`: set_empty.go:23-25, set_frozen.go:24-26, set_memo.go:65, set_base.go:37-39. -/
def LSet.fastCount (σ : LStore T) (s : LSet T) : Go (Option Int) := do
  match ← LSet.deref σ s with
  | .empty => pure (some 0)
  | .frozen s => pure (some s.count)
  | _ => pure none

variable [GoKey T]

/-- `FastHas(el)`: set_empty.go:58-60, set_frozen.go:35-37, set_memo.go:73, set_union.go:34-39, set_intersection.go:24-34,
set_diff.go:24-29, set_base.go:96-98. -/
def LSet.fastHas (σ : LStore T) : Nat → LSet T → T → Go (Option Bool)
  | 0, _, _ => noFuel
  | _ + 1, .empty, _ => .ok (some false)
  | _ + 1, .frozen s, el => do
    let b ← s.has el
    pure (some b)
  | n + 1, .memo k, el => do
    let c ← LSet.deref σ (.memo k)
    LSet.fastHas σ n c el
  | n + 1, .union a _, el => do
    match ← LSet.fastHas σ n a el with
    | some b => pure (some b)
    | none => LSet.fastHas σ n a el
  | n + 1, .inter a b, el => do
    let x ← LSet.fastHas σ n a el
    if x = some false then pure (some false)
    else do
      let y ← LSet.fastHas σ n b el
      if y = some false then pure (some false)
      else if x.isSome && y.isSome then pure (some true)
      else pure none
  | n + 1, .diff a _, el => do
    match ← LSet.fastHas σ n a el with
    | some b => pure (some b)
    | none => LSet.fastHas σ n a el
  | _ + 1, _, _ => .ok none

mutual

/-- `Has(el)`: set_empty.go:54-56, set_memo.go:72, set_where.go:22-24, set_union.go:30-32, set_intersection.go:20-22,
set_diff.go:20-22, and set_base.go:84-94 for `frozenSet` and `mapperSet`. -/
def LSet.has : Nat → LStore T → LSet T → T → Go (Bool × LStore T)
  | 0, _, _, _ => noFuel
  | _ + 1, σ, .empty, _ => .ok (false, σ)
  | n + 1, σ, .memo k, el => do
    let c ← LSet.deref σ (.memo k)
    LSet.has n σ c el
  | n + 1, σ, .where src p, el => if p el then LSet.has n σ src el else .ok (false, σ)
  | n + 1, σ, .union a b, el => do
    let (x, σ) ← LSet.has n σ a el
    if x then pure (true, σ) else LSet.has n σ b el
  | n + 1, σ, .inter a b, el => do
    let (x, σ) ← LSet.has n σ a el
    if x then LSet.has n σ b el else pure (false, σ)
  | n + 1, σ, .diff a b, el => do
    let (x, σ) ← LSet.has n σ a el
    if x then pure (true, σ) else LSet.has n σ b el
  | n + 1, σ, .frozen s, el => do
    match ← LSet.fastHas σ n (.frozen s) el with
    | some b => pure (b, σ)
    | none => do
      let i ← LSet.range σ n (.frozen s)
      LIter.find n σ i el
  | n + 1, σ, .map src m, el => do
    match ← LSet.fastHas σ n (.map src m) el with
    | some b => pure (b, σ)
    | none => do
      let i ← LSet.range σ n (.map src m)
      LIter.find n σ i el

/-- The loop of set_base.go:88-93. -/
def LIter.find : Nat → LStore T → LIter T → T → Go (Bool × LStore T)
  | 0, _, _, _ => noFuel
  | n + 1, σ, i, el => do
    let (i, ok, σ) ← LIter.next n σ i
    if ok then do
      let v ← i.value
      if GoKey.eq el v then pure (true, σ) else LIter.find n σ i el
    else pure (false, σ)

/-- `Next()`: set_empty.go:108-110, iterators of `frozen`, set_where.go:35-42, set_transform.go:24-26, set_union.go:50-61,
set_intersection.go:45-54, set_diff.go:40-49, set_memo.go:46-56. -/
def LIter.next : Nat → LStore T → LIter T → Go (LIter T × Bool × LStore T)
  | 0, _, _ => noFuel
  | _ + 1, σ, .empty => .ok (.empty, false, σ)
  | _ + 1, σ, .frozen it => do
    let (it, ok) ← it.next
    pure (.frozen it, ok, σ)
  | n + 1, σ, .where i p => do
    let (i, ok, σ) ← LIter.next n σ i
    if ok then do
      let v ← i.value
      if p v then pure (.where i p, true, σ) else LIter.next n σ (.where i p)
    else pure (.where i p, false, σ)
  | n + 1, σ, .map i m => do
    let (i, ok, σ) ← LIter.next n σ i
    pure (.map i m, ok, σ)
  | n + 1, σ, .union i b => do
    let (i, ok, σ) ← LIter.next n σ i
    if ok then pure (.union i b, true, σ)
    else match b with
      | none => pure (.union i none, false, σ)
      | some b => do
        let i ← LSet.range σ n b
        LIter.next n σ (.union i none)
  | n + 1, σ, .inter i b => do
    let (i, ok, σ) ← LIter.next n σ i
    if ok then do
      let v ← i.value
      let (x, σ) ← LSet.has n σ b v
      if x then pure (.inter i b, true, σ) else LIter.next n σ (.inter i b)
    else pure (.inter i b, false, σ)
  | n + 1, σ, .diff i b => do
    let (i, ok, σ) ← LIter.next n σ i
    if ok then do
      let v ← i.value
      let (x, σ) ← LSet.has n σ b v
      if x then LIter.next n σ (.diff i b) else pure (.diff i b, true, σ)
    else pure (.diff i b, false, σ)
  | n + 1, σ, .caching i k seen => do
    let (i, ok, σ) ← LIter.next n σ i
    if ok then do
      let v ← i.value
      if ← seen.has v then LIter.next n σ (.caching i k seen)
      else do
        let seen ← seen.add v
        pure (.caching i k seen, true, σ)
    else
      let (s, seen) := seen.finish
      pure (.caching i k seen, false, σ.set k (.frozen s))

end

/-! ## Constructors -/

/-- set_where.go:9-13 `where` -/
def lazyWhere (σ : LStore T) (src : LSet T) (p : T → Bool) : LSet T × LStore T := memoize σ (.where src p)

/-- set_transform.go:9-13 `mapper` -/
def lazyMapper (σ : LStore T) (src : LSet T) (m : T → T) : LSet T × LStore T := memoize σ (.map src m)

/-- set_union.go:8-12 `union` -/
def lazyUnion (σ : LStore T) (a b : LSet T) : LSet T × LStore T := memoize σ (.union a b)

/-- set_intersection.go:8-18 `intersection` -/
def lazyInter (n : Nat) (σ : LStore T) (a b : LSet T) : Go (LSet T × LStore T) := do
  if (← LSet.fastIsEmpty σ n a) = some true then pure (.empty, σ)
  else if (← LSet.fastIsEmpty σ n b) = some true then pure (.empty, σ)
  else pure (memoize σ (.inter a b))

/-- set_diff.go:8-18 `difference` -/
def lazyDiff (n : Nat) (σ : LStore T) (a b : LSet T) : Go (LSet T × LStore T) := do
  if (← LSet.fastIsEmpty σ n a) = some true then pure (a, σ)
  else if (← LSet.fastIsEmpty σ n b) = some true then pure (a, σ)
  else pure (memoize σ (.diff a b))

/-- `Where(pred)`: set_empty.go:70-72, set_base.go:104-106, set_memo.go:76. -/
def LSet.whereM (σ : LStore T) (s : LSet T) (p : T → Bool) : Go (LSet T × LStore T) := do
  match ← LSet.deref σ s with
  | .empty => pure (.empty, σ)
  | c => pure (lazyWhere σ c p)

/-- `Map(m)`: set_empty.go:82-84, set_frozen.go:81-83, set_base.go:116-118, set_memo.go:77. -/
def LSet.mapM (σ : LStore T) (s : LSet T) (m : T → T) : Go (LSet T × LStore T) := do
  match ← LSet.deref σ s with
  | .empty => pure (.empty, σ)
  | .frozen s => do
    let r ← setMap s m
    pure (.frozen r, σ)
  | c => pure (lazyMapper σ c m)

/-- `Union(t)`: set_empty.go:86-88, set_base.go:120-122, set_memo.go:78. -/
def LSet.unionM (σ : LStore T) (s t : LSet T) : Go (LSet T × LStore T) := do
  match ← LSet.deref σ s with
  | .empty => pure (t, σ)
  | c => pure (lazyUnion σ c t)

/-- `Intersection(t)`: set_empty.go:90-92, set_base.go:124-126, set_memo.go:79. -/
def LSet.interM (n : Nat) (σ : LStore T) (s t : LSet T) : Go (LSet T × LStore T) := do
  match ← LSet.deref σ s with
  | .empty => pure (.empty, σ)
  | c => lazyInter n σ c t

/-- `Difference(t)`: set_empty.go:94-96, set_base.go:128-130, set_memo.go:80. -/
def LSet.diffM (n : Nat) (σ : LStore T) (s t : LSet T) : Go (LSet T × LStore T) := do
  match ← LSet.deref σ s with
  | .empty => pure (.empty, σ)
  | c => lazyDiff n σ c t

/-- set_symmdiff.go:3-5 `symmetricDifference` -/
def lazySymm (n : Nat) (σ : LStore T) (a b : LSet T) : Go (LSet T × LStore T) := do
  let (x, σ) ← LSet.diffM n σ a b
  let (y, σ) ← LSet.diffM n σ b a
  LSet.unionM σ x y

/-- `SymmetricDifference(t)`: set_empty.go:98-100, set_base.go:132-134, set_memo.go:81. -/
def LSet.symmM (n : Nat) (σ : LStore T) (s t : LSet T) : Go (LSet T × LStore T) := do
  match ← LSet.deref σ s with
  | .empty => pure (t, σ)
  | c => lazySymm n σ c t

/-- `With(v)`: set_empty.go:74-76, set_frozen.go:73-75, set_base.go:108-110, set_memo.go:74. -/
def LSet.withM (σ : LStore T) (s : LSet T) (v : T) : Go (LSet T × LStore T) := do
  match ← LSet.deref σ s with
  | .empty => do
    let r ← buildSet [v]
    pure (.frozen r, σ)
  | .frozen s => do
    let r ← s.with v
    pure (.frozen r, σ)
  | c => do
    let r ← buildSet [v]
    pure (lazyUnion σ c (.frozen r))

/-- `Without(v)`: set_empty.go:78-80, set_frozen.go:77-79, set_base.go:112-114, set_memo.go:75. -/
def LSet.withoutM (n : Nat) (σ : LStore T) (s : LSet T) (v : T) : Go (LSet T × LStore T) := do
  match ← LSet.deref σ s with
  | .empty => pure (.empty, σ)
  | .frozen s => do
    let r ← s.without v
    pure (.frozen r, σ)
  | c => do
    let r ← buildSet [v]
    lazyDiff n σ c (.frozen r)

/-! ## Observers -/

/-- The loop `for i.Next() { }` of set_base.go:58-59. -/
def LIter.drain : Nat → LStore T → LIter T → Go (LStore T)
  | 0, _, _ => noFuel
  | n + 1, σ, i => do
    let (i, ok, σ) ← LIter.next n σ i
    if ok then LIter.drain n σ i else pure σ

/-- The values a loop `for i := s.Range(); i.Next(); { … i.Value() … }` sees. -/
def LIter.values : Nat → LStore T → LIter T → Go (List T × LStore T)
  | 0, _, _ => noFuel
  | n + 1, σ, i => do
    let (i, ok, σ) ← LIter.next n σ i
    if ok then do
      let v ← i.value
      let (vs, σ) ← LIter.values n σ i
      pure (v :: vs, σ)
    else pure ([], σ)

/-- The values `for i := s.Range(); i.Next(); { … i.Value() … }` sees. -/
def LSet.values (n : Nat) (σ : LStore T) (s : LSet T) : Go (List T × LStore T) := do
  let i ← LSet.range σ n s
  LIter.values n σ i

/-- `Freeze()`: set_empty.go:35-37, set_memo.go:67, set_base.go:56-63. -/
def LSet.freeze (n : Nat) (σ : LStore T) (s : LSet T) : Go (LSet T × LStore T) := do
  match ← LSet.deref σ s with
  | .empty => pure (.frozen FSet.zero, σ)
  | c =>
    match memoize σ c with
    | (.memo k, σ) => do
      let i ← LSet.range σ n (.memo k)
      let σ ← LIter.drain n σ i
      let c ← LSet.deref σ (.memo k)
      pure (c, σ)
    | _ => pure (c, σ)

/-- `IsEmpty()`: set_empty.go:11-13, set_memo.go:62, set_base.go:19-24. -/
def LSet.isEmpty (n : Nat) (σ : LStore T) (s : LSet T) : Go (Bool × LStore T) := do
  match ← LSet.deref σ s with
  | .empty => pure (true, σ)
  | c => do
    match ← LSet.fastIsEmpty σ n c with
    | some b => pure (b, σ)
    | none => do
      let i ← LSet.range σ n c
      let (_, ok, σ) ← LIter.next n σ i
      pure (!ok, σ)

/-- The loop of set_base.go:45-49, from `n = k`. -/
def LIter.countLoop : Nat → LStore T → LIter T → (k limit : Int) → Go (Int × LStore T)
  | 0, _, _, _, _ => noFuel
  | n + 1, σ, i, k, limit =>
    if k < limit then do
      let (i, ok, σ) ← LIter.next n σ i
      if ok then LIter.countLoop n σ i (k + 1) limit else pure (k, σ)
    else pure (k, σ)

mutual

/-- `FastCountUpTo(limit)`: set_empty.go:31-33, set_frozen.go:28-33, set_memo.go:84-86, set_union.go:14-28, set_base.go:52-54. -/
def LSet.fastCountUpTo : Nat → LStore T → LSet T → Int → Go (Option Int × LStore T)
  | 0, _, _, _ => noFuel
  | _ + 1, σ, .empty, _ => .ok (some 0, σ)
  | _ + 1, σ, .frozen s, limit => .ok (some (if s.count < limit then s.count else limit), σ)
  | n + 1, σ, .memo k, limit => do
    let c ← LSet.deref σ (.memo k)
    LSet.fastCountUpTo n σ c limit
  | n + 1, σ, .union a b, limit => do
    if (← LSet.fastIsEmpty σ n a) = some true then do
      let (c, σ) ← LSet.countUpTo n σ b limit
      pure (some c, σ)
    else if (← LSet.fastIsEmpty σ n b) = some true then do
      let (c, σ) ← LSet.countUpTo n σ a limit
      pure (some c, σ)
    else do
      let (c, σ) ← LSet.fastCountUpTo n σ a limit
      if c = some limit then pure (some limit, σ)
      else do
        let (c, σ) ← LSet.fastCountUpTo n σ b limit
        if c = some limit then pure (some limit, σ) else pure (none, σ)
  | _ + 1, σ, _, _ => .ok (none, σ)

/-- `CountUpTo(limit)`: set_empty.go:27-29, set_memo.go:66, set_base.go:41-50. -/
def LSet.countUpTo : Nat → LStore T → LSet T → Int → Go (Int × LStore T)
  | 0, _, _, _ => noFuel
  | n + 1, σ, s, limit => do
    match ← LSet.deref σ s with
    | .empty => pure (0, σ)
    | c => do
      let (r, σ) ← LSet.fastCountUpTo n σ c limit
      match r with
      | some k => pure (k, σ)
      | none => do
        let i ← LSet.range σ n c
        LIter.countLoop n σ i 0 limit

end

/-- set_base.go:11 `maxInt` -/
def maxInt : Int := 2 ^ 63 - 1

/-- `Count()`: set_empty.go:19-21, set_memo.go:64, set_base.go:30-35. -/
def LSet.count (n : Nat) (σ : LStore T) (s : LSet T) : Go (Int × LStore T) := do
  let c ← LSet.deref σ s
  match ← LSet.fastCount σ c with
  | some k => pure (k, σ)
  | none => LSet.countUpTo n σ c maxInt

/-- The loop of set_frozen.go:43-50, from `n = k`. -/
def LIter.equalLoop (s : FSet T) : Nat → LStore T → LIter T → (k : Int) → Go (Bool × LStore T)
  | 0, _, _, _ => noFuel
  | n + 1, σ, i, k =>
    if k > 0 then do
      let (i, ok, σ) ← LIter.next n σ i
      if ok then do
        let v ← i.value
        if ← s.has v then LIter.equalLoop s n σ i (k - 1) else pure (false, σ)
      else pure (false, σ)
    else if k = 0 then do
      let (_, ok, σ) ← LIter.next n σ i
      pure (!ok, σ)
    else pure (false, σ)

mutual

/-- `EqualSet(t)`: set_empty.go:46-48, set_frozen.go:39-51, set_memo.go:70, set_base.go:72-74. -/
def LSet.equalSet : Nat → LStore T → (s t : LSet T) → Go (Bool × LStore T)
  | 0, _, _, _ => noFuel
  | n + 1, σ, s, t => do
    match ← LSet.deref σ s with
    | .empty => LSet.isEmpty n σ t
    | .frozen f =>
      match t with
      | .frozen g => do
        let b ← f.equal g
        pure (b, σ)
      | t => do
        let i ← LSet.range σ n t
        LIter.equalLoop f n σ i f.count
    | c => do
      let (x, σ) ← LSet.freeze n σ c
      let (y, σ) ← LSet.freeze n σ t
      LSet.equal n σ x y

/-- `Equal(t)` for an argument that is a lazy set: set_empty.go:39-44, set_memo.go:69, set_base.go:65-70. -/
def LSet.equal : Nat → LStore T → (s t : LSet T) → Go (Bool × LStore T)
  | 0, _, _, _ => noFuel
  | n + 1, σ, s, t => do
    match ← LSet.deref σ s with
    | .empty => LSet.equalSet n σ t t
    | c => LSet.equalSet n σ c t

end

/-- The loop of set_frozen.go:60-66, from `n = k`. -/
def LIter.subsetLoop (s : FSet T) : Nat → LStore T → LIter T → (k : Int) → Go (Bool × LStore T)
  | 0, _, _, _ => noFuel
  | n + 1, σ, i, k =>
    if k > 0 then do
      let (i, ok, σ) ← LIter.next n σ i
      if ok then do
        let v ← i.value
        if ← s.has v then LIter.subsetLoop s n σ i (k - 1) else LIter.subsetLoop s n σ i k
      else pure (decide (k = 0), σ)
    else pure (decide (k = 0), σ)

/-- `frozenSet.IsSubsetOf(t)`, set_frozen.go:53-67: a `memoSet` whose cell is frozen is replaced by what it holds. -/
def frozenIsSubsetOf (n : Nat) (σ : LStore T) (f : FSet T) (t : LSet T) : Go (Bool × LStore T) := do
  let i ← match t with
    | .memo k => do
      match ← LSet.deref σ (.memo k) with
      | .frozen g => LSet.range σ n (.frozen g)
      | _ => LSet.range σ n (.memo k)
    | t => LSet.range σ n t
  LIter.subsetLoop f n σ i f.count

/-- `IsSubsetOf(t)`: set_empty.go:62-64, set_frozen.go:53-67, set_memo.go:71, set_base.go:100-102. `Freeze` returns a `frozenSet`
there; the model panics if it does not, which the proofs exclude. -/
def LSet.isSubsetOf (n : Nat) (σ : LStore T) (s t : LSet T) : Go (Bool × LStore T) := do
  match ← LSet.deref σ s with
  | .empty => pure (true, σ)
  | .frozen f => frozenIsSubsetOf n σ f t
  | c => do
    let (x, σ) ← LSet.freeze n σ c
    let (y, σ) ← LSet.freeze n σ t
    match x with
    | .frozen f => frozenIsSubsetOf n σ f y
    | _ => .error (.msg "not frozen")

/-- The loop of set_base.go:78-80. -/
def LIter.hashLoop : Nat → LStore T → LIter T → BitVec 64 → Go (BitVec 64 × LStore T)
  | 0, _, _, _ => noFuel
  | n + 1, σ, i, h => do
    let (i, ok, σ) ← LIter.next n σ i
    if ok then do
      let v ← i.value
      LIter.hashLoop n σ i (GoKey.hash h v)
    else pure (h, σ)

/-- `Hash(seed)`: set_empty.go:50-52, set_memo.go:68, set_base.go:76-82 with `hashSeed` (set_base.go:12). -/
def LSet.hash [GoHash] (n : Nat) (σ : LStore T) (s : LSet T) (seed : BitVec 64) : Go (BitVec 64 × LStore T) := do
  match ← LSet.deref σ s with
  | .empty => pure (GoHash.uintptr 624409645898692063#64 seed, σ)
  | c => do
    let i ← LSet.range σ n c
    LIter.hashLoop n σ i (GoHash.uintptr 624409645898692063#64 seed)

/-! ## Powersets -/

/-- set_powerset.go:72-78 `powerSetSetIterator` -/
structure LPow (T : Type) where
  i : LIter T
  «end» : BitIter
  mask : BitIter
  elems : List T
  value : FSet T

/-- set_powerset.go:64-70 `powerSet.Range` over the source `s` -/
def LPow.range (n : Nat) (σ : LStore T) (s : LSet T) : Go (LPow T) := do
  let i ← LSet.range σ n s
  pure ⟨i, 1#64, ~~~0#64, [], FSet.zero⟩

/-- set_powerset.go:92-101, the end of `Next`. -/
def LPow.flip (p : LPow T) : Go (LPow T) :=
  match p.elems[p.mask.index]? with
  | none => .ok p
  | some v =>
    if BitIter.has p.mask (BitVec.ofNat 64 (p.mask.index + 1)) then do
      let s ← p.value.without v
      pure { p with value := s }
    else do
      let s ← p.value.with v
      pure { p with value := s }

/-- set_powerset.go:80-102 `powerSetSetIterator.Next` -/
def LPow.next (n : Nat) (σ : LStore T) (p : LPow T) : Go (LPow T × Bool × LStore T) := do
  let p := { p with mask := p.mask + 1#64 }
  if p.end ≤ p.mask then
    if p.end < p.mask then .error (.msg "called Next() after reaching the end")
    else do
      let (i, ok, σ) ← LIter.next n σ p.i
      let p := { p with i := i }
      if ok then do
        let v ← i.value
        let p ← LPow.flip { p with elems := p.elems ++ [v], «end» := p.end <<< 1 }
        pure (p, true, σ)
      else pure (p, false, σ)
  else do
    let p ← LPow.flip p
    pure (p, true, σ)

/-- The values `for i := p.Range(); i.Next(); { … i.Value() … }` sees; `Value` is set_powerset.go:104-106. -/
def LPow.values : Nat → LStore T → LPow T → Go (List (FSet T) × LStore T)
  | 0, _, _ => noFuel
  | n + 1, σ, p => do
    let (p, ok, σ) ← LPow.next n σ p
    if ok then do
      let (vs, σ) ← LPow.values n σ p
      pure (p.value :: vs, σ)
    else pure ([], σ)

/-- set_powerset.go:20-22 `powerSet.IsEmpty` over the source `s` -/
def powIsEmpty (n : Nat) (σ : LStore T) (s : LSet T) : Go (Bool × LStore T) := LSet.isEmpty n σ s

/-- set_powerset.go:28-33 `powerSet.Count` over the source `s` -/
def powCount (n : Nat) (σ : LStore T) (s : LSet T) : Go (Int × LStore T) := do
  let (c, σ) ← LSet.count n σ s
  if c < 64 then pure ((1#64 <<< c.toNat).toInt, σ) else .error (.msg "Count(): too many elements")

omit [GoKey T] in
/-- set_powerset.go:24-26 `powerSet.FastIsEmpty` over the source `s` -/
def powFastIsEmpty (n : Nat) (σ : LStore T) (s : LSet T) : Go (Option Bool) := LSet.fastIsEmpty σ n s

omit [GoKey T] in
/-- set_powerset.go:35-43 `powerSet.FastCount` over the source `s` -/
def powFastCount (σ : LStore T) (s : LSet T) : Go (Option Int) := do
  match ← LSet.fastCount σ s with
  | some c => if c < 64 then pure (some (1#64 <<< c.toNat).toInt) else .error (.msg "Count(): too many elements")
  | none => pure none

omit [GoKey T] in
/-- set_powerset.go:45-57 `powerSet.FastCountUpTo` over the source `s` -/
def powFastCountUpTo (σ : LStore T) (s : LSet T) (limit : Int) : Go (Option Int) := do
  match ← LSet.fastCount σ s with
  | some c =>
    if c < 64 then
      let n := (1#64 <<< c.toNat).toInt
      pure (some (if n < limit then n else limit))
    else .error (.msg "Count(): too many elements")
  | none => pure none

/-- set_powerset.go:59-62 `powerSet.Has` over the source `s`, for an argument that is a `frozen.Set[any]` -/
def powHas (n : Nat) (σ : LStore T) (s : LSet T) (el : FSet T) : Go (Bool × LStore T) := frozenIsSubsetOf n σ el s

end Frozen
