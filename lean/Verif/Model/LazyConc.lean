import Verif.Spec.Lazy

/-! # Lazy sets used by several goroutines

`Model/Lazy.lean` performs each call of package `lazy` in one go. Here the same functions are cut into steps at the only accesses to
memory that goroutines share and change: the `set` field of a `memoSet`, read with `atomic.LoadPointer` (lazy/set_memo.go:29-31),
written with `atomic.StorePointer` (set_memo.go:54), and made by `memo` (set_memo.go:14-23). Between two such steps a goroutine only
touches immutable nodes and iterators of its own, so the steps of other goroutines may be thought of as falling between them.

Every definition mirrors the one of the same name, without the final `C`, in `Model/Lazy.lean`, where the lines modelled are cited;
the comments here say where the fields are read. Simplifications: those of `Model/Lazy.lean`, except that there may be any number of
goroutines; an atomic access is one step, and steps of different goroutines happen one after the other, which is what Go's memory
model promises of atomic accesses. -/

namespace Frozen

/-- What a goroutine has left to do, up to an answer in `α`: nothing, or panic, or one access to a cell and what is done with the
result. `alloc` is the `&memoSet{}` of set_memo.go:19-20, which yields a new cell. -/
inductive LProg (T : Type) (α : Type) where
  | done (a : α)
  | panic (e : Panic)
  | load (k : Nat) (f : LSet T → LProg T α)
  | store (k : Nat) (s : LSet T) (p : LProg T α)
  | alloc (s : LSet T) (f : Nat → LProg T α)

namespace LProg

variable {T : Type} {α β : Type}

/-- One piece of work after another (no code of its own: the `;` of lazy/*.go). -/
def bind : LProg T α → (α → LProg T β) → LProg T β
  | done a, g => g a
  | panic e, _ => panic e
  | load k f, g => load k (fun c => (f c).bind g)
  | store k s p, g => store k s (p.bind g)
  | alloc s f, g => alloc s (fun k => (f k).bind g)

instance : Monad (LProg T) where
  pure := done
  bind := bind

/-- Work that touches no cell (calls of lazy/*.go into package `frozen`, and `Value()`). -/
def lift : Go α → LProg T α
  | .ok a => done a
  | .error e => panic e

/-- One step of a goroutine: the cells afterwards, and what it has left to do. lazy/set_memo.go:29-31 (`load`), 54 (`store`), 19-20
(`alloc`). -/
def step (σ : LStore T) : LProg T α → LStore T × LProg T α
  | done a => (σ, done a)
  | panic e => (σ, panic e)
  | load k f =>
    match σ[k]? with
    | none => (σ, panic .nilDeref)
    | some c => (σ, f c)
  | store k s p => (σ.set k s, p)
  | alloc s f => (σ ++ [s], f σ.length)

/-- The work done by a goroutine nobody disturbs: all its steps, one after the other. -/
def alone (σ : LStore T) : LProg T α → Go (α × LStore T)
  | done a => .ok (a, σ)
  | panic e => .error e
  | load k f =>
    match σ[k]? with
    | none => .error .nilDeref
    | some c => (f c).alone σ
  | store k s p => p.alone (σ.set k s)
  | alloc s f => (f σ.length).alone (σ ++ [s])

/-- Running out of fuel. -/
def noFuel : LProg T α := panic (.msg "out of fuel")

end LProg

variable {T : Type}

/-- `LSet.deref`: set_memo.go:29-31 `getSet`, one load. -/
def LSet.derefC : LSet T → LProg T (LSet T)
  | .memo k => .load k fun c =>
    match c with
    | .memo _ => .panic (.msg "memo of memo")
    | c => .done c
  | s => .done s

/-- `memoize`: set_memo.go:14-23 `memo`, which makes a cell. -/
def memoizeC : LSet T → LProg T (LSet T)
  | .memo k => .done (.memo k)
  | .frozen s => .done (.frozen s)
  | s => .alloc s fun k => .done (.memo k)

/-- `LSet.range`. A `memoSet` reads its field twice (set_memo.go:34 and 37), and the second time it may be frozen. -/
def LSet.rangeC : Nat → LSet T → LProg T (LIter T)
  | 0, _ => .noFuel
  | _ + 1, .empty => .done .empty
  | _ + 1, .frozen s => do
    let it ← .lift s.range
    pure (.frozen it)
  | n + 1, .memo k => do
    match ← LSet.derefC (.memo k) with
    | .frozen s => do
      let it ← .lift s.range
      pure (.frozen it)
    | _ => do
      let c ← LSet.derefC (.memo k)
      let i ← LSet.rangeC n c
      pure (.caching i k Tree.zero)
  | n + 1, .where src p => do
    let i ← LSet.rangeC n src
    pure (.where i p)
  | n + 1, .map src m => do
    let i ← LSet.rangeC n src
    pure (.map i m)
  | n + 1, .union a b => do
    let i ← LSet.rangeC n a
    pure (.union i (some b))
  | n + 1, .inter a b => do
    let i ← LSet.rangeC n a
    pure (.inter i b)
  | n + 1, .diff a b => do
    let i ← LSet.rangeC n a
    pure (.diff i b)

/-- `LSet.fastIsEmpty`; set_memo.go:63 reads the field. -/
def LSet.fastIsEmptyC : Nat → LSet T → LProg T (Option Bool)
  | 0, _ => .noFuel
  | _ + 1, .empty => .done (some true)
  | _ + 1, .frozen s => .done (some s.isEmpty)
  | n + 1, .memo k => do
    let c ← LSet.derefC (.memo k)
    LSet.fastIsEmptyC n c
  | n + 1, .where src _ => do
    match ← LSet.fastIsEmptyC n src with
    | some true => pure (some true)
    | _ => pure none
  | _ + 1, _ => .done none

/-- `LSet.fastCount`; set_memo.go:65 reads the field. -/
def LSet.fastCountC (s : LSet T) : LProg T (Option Int) := do
  match ← LSet.derefC s with
  | .empty => pure (some 0)
  | .frozen s => pure (some s.count)
  | _ => pure none

variable [GoKey T]

/-- `LSet.fastHas`; set_memo.go:73 reads the field. -/
def LSet.fastHasC : Nat → LSet T → T → LProg T (Option Bool)
  | 0, _, _ => .noFuel
  | _ + 1, .empty, _ => .done (some false)
  | _ + 1, .frozen s, el => do
    let b ← .lift (s.has el)
    pure (some b)
  | n + 1, .memo k, el => do
    let c ← LSet.derefC (.memo k)
    LSet.fastHasC n c el
  | n + 1, .union a _, el => do
    match ← LSet.fastHasC n a el with
    | some b => pure (some b)
    | none => LSet.fastHasC n a el
  | n + 1, .inter a b, el => do
    let x ← LSet.fastHasC n a el
    if x = some false then pure (some false)
    else do
      let y ← LSet.fastHasC n b el
      if y = some false then pure (some false)
      else if x.isSome && y.isSome then pure (some true)
      else pure none
  | n + 1, .diff a _, el => do
    match ← LSet.fastHasC n a el with
    | some b => pure (some b)
    | none => LSet.fastHasC n a el
  | _ + 1, _, _ => .done none

mutual

/-- `LSet.has`; set_memo.go:72 reads the field. -/
def LSet.hasC : Nat → LSet T → T → LProg T Bool
  | 0, _, _ => .noFuel
  | _ + 1, .empty, _ => .done false
  | n + 1, .memo k, el => do
    let c ← LSet.derefC (.memo k)
    LSet.hasC n c el
  | n + 1, .where src p, el => if p el then LSet.hasC n src el else .done false
  | n + 1, .union a b, el => do
    let x ← LSet.hasC n a el
    if x then pure true else LSet.hasC n b el
  | n + 1, .inter a b, el => do
    let x ← LSet.hasC n a el
    if x then LSet.hasC n b el else pure false
  | n + 1, .diff a b, el => do
    let x ← LSet.hasC n a el
    if x then pure true else LSet.hasC n b el
  | n + 1, .frozen s, el => do
    match ← LSet.fastHasC n (.frozen s) el with
    | some b => pure b
    | none => do
      let i ← LSet.rangeC n (.frozen s)
      LIter.findC n i el
  | n + 1, .map src m, el => do
    match ← LSet.fastHasC n (.map src m) el with
    | some b => pure b
    | none => do
      let i ← LSet.rangeC n (.map src m)
      LIter.findC n i el

/-- `LIter.find` -/
def LIter.findC : Nat → LIter T → T → LProg T Bool
  | 0, _, _ => .noFuel
  | n + 1, i, el => do
    let (i, ok) ← LIter.nextC n i
    if ok then do
      let v ← .lift i.value
      if GoKey.eq el v then pure true else LIter.findC n i el
    else pure false

/-- `LIter.next`; set_memo.go:54 writes the field when an iteration over a `memoSet` has ended. -/
def LIter.nextC : Nat → LIter T → LProg T (LIter T × Bool)
  | 0, _ => .noFuel
  | _ + 1, .empty => .done (.empty, false)
  | _ + 1, .frozen it => do
    let (it, ok) ← .lift it.next
    pure (.frozen it, ok)
  | n + 1, .where i p => do
    let (i, ok) ← LIter.nextC n i
    if ok then do
      let v ← .lift i.value
      if p v then pure (.where i p, true) else LIter.nextC n (.where i p)
    else pure (.where i p, false)
  | n + 1, .map i m => do
    let (i, ok) ← LIter.nextC n i
    pure (.map i m, ok)
  | n + 1, .union i b => do
    let (i, ok) ← LIter.nextC n i
    if ok then pure (.union i b, true)
    else match b with
      | none => pure (.union i none, false)
      | some b => do
        let i ← LSet.rangeC n b
        LIter.nextC n (.union i none)
  | n + 1, .inter i b => do
    let (i, ok) ← LIter.nextC n i
    if ok then do
      let v ← .lift i.value
      let x ← LSet.hasC n b v
      if x then pure (.inter i b, true) else LIter.nextC n (.inter i b)
    else pure (.inter i b, false)
  | n + 1, .diff i b => do
    let (i, ok) ← LIter.nextC n i
    if ok then do
      let v ← .lift i.value
      let x ← LSet.hasC n b v
      if x then LIter.nextC n (.diff i b) else pure (.diff i b, true)
    else pure (.diff i b, false)
  | n + 1, .caching i k seen => do
    let (i, ok) ← LIter.nextC n i
    if ok then do
      let v ← .lift i.value
      if ← .lift (seen.has v) then LIter.nextC n (.caching i k seen)
      else do
        let seen ← .lift (seen.add v)
        pure (.caching i k seen, true)
    else
      let (s, seen) := seen.finish
      .store k (.frozen s) (pure (.caching i k seen, false))

end

/-! ## Constructors -/

/-- `lazyInter` -/
def lazyInterC (n : Nat) (a b : LSet T) : LProg T (LSet T) := do
  if (← LSet.fastIsEmptyC n a) = some true then pure .empty
  else if (← LSet.fastIsEmptyC n b) = some true then pure .empty
  else memoizeC (.inter a b)

/-- `lazyDiff` -/
def lazyDiffC (n : Nat) (a b : LSet T) : LProg T (LSet T) := do
  if (← LSet.fastIsEmptyC n a) = some true then pure a
  else if (← LSet.fastIsEmptyC n b) = some true then pure a
  else memoizeC (.diff a b)

/-- `LSet.whereM`; set_memo.go:76 reads the field. -/
def LSet.whereC (s : LSet T) (p : T → Bool) : LProg T (LSet T) := do
  match ← LSet.derefC s with
  | .empty => pure .empty
  | c => memoizeC (.where c p)

/-- `LSet.mapM`; set_memo.go:77 reads the field. -/
def LSet.mapC (s : LSet T) (m : T → T) : LProg T (LSet T) := do
  match ← LSet.derefC s with
  | .empty => pure .empty
  | .frozen s => do
    let r ← .lift (setMap s m)
    pure (.frozen r)
  | c => memoizeC (.map c m)

/-- `LSet.unionM`; set_memo.go:78 reads the field. -/
def LSet.unionC (s t : LSet T) : LProg T (LSet T) := do
  match ← LSet.derefC s with
  | .empty => pure t
  | c => memoizeC (.union c t)

/-- `LSet.interM`; set_memo.go:79 reads the field. -/
def LSet.interC (n : Nat) (s t : LSet T) : LProg T (LSet T) := do
  match ← LSet.derefC s with
  | .empty => pure .empty
  | c => lazyInterC n c t

/-- `LSet.diffM`; set_memo.go:80 reads the field. -/
def LSet.diffC (n : Nat) (s t : LSet T) : LProg T (LSet T) := do
  match ← LSet.derefC s with
  | .empty => pure .empty
  | c => lazyDiffC n c t

/-- `lazySymm` -/
def lazySymmC (n : Nat) (a b : LSet T) : LProg T (LSet T) := do
  let x ← LSet.diffC n a b
  let y ← LSet.diffC n b a
  LSet.unionC x y

/-- `LSet.symmM`; set_memo.go:81 reads the field. -/
def LSet.symmC (n : Nat) (s t : LSet T) : LProg T (LSet T) := do
  match ← LSet.derefC s with
  | .empty => pure t
  | c => lazySymmC n c t

/-- `LSet.withM`; set_memo.go:74 reads the field. -/
def LSet.withC (s : LSet T) (v : T) : LProg T (LSet T) := do
  match ← LSet.derefC s with
  | .empty => do
    let r ← .lift (buildSet [v])
    pure (.frozen r)
  | .frozen s => do
    let r ← .lift (s.with v)
    pure (.frozen r)
  | c => do
    let r ← .lift (buildSet [v])
    memoizeC (.union c (.frozen r))

/-- `LSet.withoutM`; set_memo.go:75 reads the field. -/
def LSet.withoutC (n : Nat) (s : LSet T) (v : T) : LProg T (LSet T) := do
  match ← LSet.derefC s with
  | .empty => pure .empty
  | .frozen s => do
    let r ← .lift (s.without v)
    pure (.frozen r)
  | c => do
    let r ← .lift (buildSet [v])
    lazyDiffC n c (.frozen r)

/-! ## Observers -/

/-- `LIter.drain` -/
def LIter.drainC : Nat → LIter T → LProg T Unit
  | 0, _ => .noFuel
  | n + 1, i => do
    let (i, ok) ← LIter.nextC n i
    if ok then LIter.drainC n i else pure ()

/-- `LSet.freeze`; set_memo.go:67 reads the field, set_base.go:57 makes a cell of its own, 58 reads it in `Range` and 60 reads it
again. -/
def LSet.freezeC (n : Nat) (s : LSet T) : LProg T (LSet T) := do
  match ← LSet.derefC s with
  | .empty => pure (.frozen FSet.zero)
  | c =>
    match ← memoizeC c with
    | .memo k => do
      let i ← LSet.rangeC n (.memo k)
      LIter.drainC n i
      LSet.derefC (.memo k)
    | _ => pure c

/-- `LSet.isEmpty`; set_memo.go:62 reads the field. -/
def LSet.isEmptyC (n : Nat) (s : LSet T) : LProg T Bool := do
  match ← LSet.derefC s with
  | .empty => pure true
  | c => do
    match ← LSet.fastIsEmptyC n c with
    | some b => pure b
    | none => do
      let i ← LSet.rangeC n c
      let (_, ok) ← LIter.nextC n i
      pure (!ok)

/-- `LIter.countLoop` -/
def LIter.countLoopC : Nat → LIter T → (k limit : Int) → LProg T Int
  | 0, _, _, _ => .noFuel
  | n + 1, i, k, limit =>
    if k < limit then do
      let (i, ok) ← LIter.nextC n i
      if ok then LIter.countLoopC n i (k + 1) limit else pure k
    else pure k

mutual

/-- `LSet.fastCountUpTo`; set_memo.go:84-86 reads the field. -/
def LSet.fastCountUpToC : Nat → LSet T → Int → LProg T (Option Int)
  | 0, _, _ => .noFuel
  | _ + 1, .empty, _ => .done (some 0)
  | _ + 1, .frozen s, limit => .done (some (if s.count < limit then s.count else limit))
  | n + 1, .memo k, limit => do
    let c ← LSet.derefC (.memo k)
    LSet.fastCountUpToC n c limit
  | n + 1, .union a b, limit => do
    if (← LSet.fastIsEmptyC n a) = some true then do
      let c ← LSet.countUpToC n b limit
      pure (some c)
    else if (← LSet.fastIsEmptyC n b) = some true then do
      let c ← LSet.countUpToC n a limit
      pure (some c)
    else do
      let c ← LSet.fastCountUpToC n a limit
      if c = some limit then pure (some limit)
      else do
        let c ← LSet.fastCountUpToC n b limit
        if c = some limit then pure (some limit) else pure none
  | _ + 1, _, _ => .done none

/-- `LSet.countUpTo`; set_memo.go:66 reads the field. -/
def LSet.countUpToC : Nat → LSet T → Int → LProg T Int
  | 0, _, _ => .noFuel
  | n + 1, s, limit => do
    match ← LSet.derefC s with
    | .empty => pure 0
    | c => do
      match ← LSet.fastCountUpToC n c limit with
      | some k => pure k
      | none => do
        let i ← LSet.rangeC n c
        LIter.countLoopC n i 0 limit

end

/-- `LSet.count`; set_memo.go:64 reads the field. -/
def LSet.countC (n : Nat) (s : LSet T) : LProg T Int := do
  let c ← LSet.derefC s
  match ← LSet.fastCountC c with
  | some k => pure k
  | none => LSet.countUpToC n c maxInt

/-- `LIter.equalLoop` -/
def LIter.equalLoopC (s : FSet T) : Nat → LIter T → (k : Int) → LProg T Bool
  | 0, _, _ => .noFuel
  | n + 1, i, k =>
    if k > 0 then do
      let (i, ok) ← LIter.nextC n i
      if ok then do
        let v ← .lift i.value
        if ← .lift (s.has v) then LIter.equalLoopC s n i (k - 1) else pure false
      else pure false
    else if k = 0 then do
      let (_, ok) ← LIter.nextC n i
      pure (!ok)
    else pure false

mutual

/-- `LSet.equalSet`; set_memo.go:70 reads the field. -/
def LSet.equalSetC : Nat → (s t : LSet T) → LProg T Bool
  | 0, _, _ => .noFuel
  | n + 1, s, t => do
    match ← LSet.derefC s with
    | .empty => LSet.isEmptyC n t
    | .frozen f =>
      match t with
      | .frozen g => do
        let b ← .lift (f.equal g)
        pure b
      | t => do
        let i ← LSet.rangeC n t
        LIter.equalLoopC f n i f.count
    | c => do
      let x ← LSet.freezeC n c
      let y ← LSet.freezeC n t
      LSet.equalC n x y

/-- `LSet.equal`; set_memo.go:69 reads the field. -/
def LSet.equalC : Nat → (s t : LSet T) → LProg T Bool
  | 0, _, _ => .noFuel
  | n + 1, s, t => do
    match ← LSet.derefC s with
    | .empty => LSet.equalSetC n t t
    | c => LSet.equalSetC n c t

end

/-- `LIter.subsetLoop` -/
def LIter.subsetLoopC (s : FSet T) : Nat → LIter T → (k : Int) → LProg T Bool
  | 0, _, _ => .noFuel
  | n + 1, i, k =>
    if k > 0 then do
      let (i, ok) ← LIter.nextC n i
      if ok then do
        let v ← .lift i.value
        if ← .lift (s.has v) then LIter.subsetLoopC s n i (k - 1) else LIter.subsetLoopC s n i k
      else pure (decide (k = 0))
    else pure (decide (k = 0))

/-- `frozenIsSubsetOf`; set_frozen.go:55 reads the field of the argument, and `Range` reads it again. -/
def frozenIsSubsetOfC (n : Nat) (f : FSet T) (t : LSet T) : LProg T Bool := do
  let i ← match t with
    | .memo k => do
      match ← LSet.derefC (.memo k) with
      | .frozen g => LSet.rangeC n (.frozen g)
      | _ => LSet.rangeC n (.memo k)
    | t => LSet.rangeC n t
  LIter.subsetLoopC f n i f.count

/-- `LSet.isSubsetOf`; set_memo.go:71 reads the field. -/
def LSet.isSubsetOfC (n : Nat) (s t : LSet T) : LProg T Bool := do
  match ← LSet.derefC s with
  | .empty => pure true
  | .frozen f => frozenIsSubsetOfC n f t
  | c => do
    let x ← LSet.freezeC n c
    let y ← LSet.freezeC n t
    match x with
    | .frozen f => frozenIsSubsetOfC n f y
    | _ => .panic (.msg "not frozen")

end Frozen
