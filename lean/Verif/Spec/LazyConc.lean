import Verif.Model.LazyConc

/-!
# Specification of lazy sets shared by goroutines

Some sets are made, and handed to any number of goroutines. Each goroutine then works through a list of calls of its own: it makes
further sets, makes iterators, advances them, and asks questions, and notes the answers. A schedule says whose turn it is; a turn is
one access to a memo cell, together with the work that follows it and touches no cell.
-/

namespace Frozen

variable {T : Type} [GoKey T]

/-- What a call returns, besides sets and iterators. -/
inductive LAnswer where
  | none
  | bool (b : Bool)
  | int (k : Int)
  deriving DecidableEq

/-- What a goroutine holds: its sets, its iterators, and the answers it has got, in the order of its calls. -/
structure LLocal (T : Type) where
  sets : List (LSet T)
  iters : List (LCursor T)
  answers : List LAnswer

namespace LLocal

/-- The set at `i`. -/
def get (loc : LLocal T) (i : Nat) : LProg T (LSet T) :=
  match loc.sets[i]? with
  | some s => .done s
  | none => .panic .nilDeref

/-- Keep a set. -/
def push (loc : LLocal T) (s : LSet T) : LLocal T := ⟨loc.sets ++ [s], loc.iters, loc.answers ++ [.none]⟩

/-- Note an answer. -/
def note (loc : LLocal T) (a : LAnswer) : LLocal T := ⟨loc.sets, loc.iters, loc.answers ++ [a]⟩

/-- `it.Next()`, and `it.Value()` if it returned true: `LCursor.advance`. -/
def advance (n : Nat) (c : LCursor T) : LProg T (LCursor T) :=
  if c.ended then .done c
  else do
    let (it, ok) ← LIter.nextC n c.iter
    if ok then do
      let v ← .lift it.value
      pure ⟨it, c.src, c.got ++ [v], false⟩
    else pure ⟨it, c.src, c.got, true⟩

/-- One call: `LState.step`. -/
def step (n : Nat) (loc : LLocal T) : LCmd T → LProg T (LLocal T)
  | .empty => .done (loc.push .empty)
  | .frozen s => .done (loc.push (.frozen s.1))
  | .where i p => do
    let s ← loc.get i
    let r ← LSet.whereC s p
    pure (loc.push r)
  | .map i m => do
    let s ← loc.get i
    let r ← LSet.mapC s m
    pure (loc.push r)
  | .union i j => do
    let s ← loc.get i
    let t ← loc.get j
    let r ← LSet.unionC s t
    pure (loc.push r)
  | .inter i j => do
    let s ← loc.get i
    let t ← loc.get j
    let r ← LSet.interC n s t
    pure (loc.push r)
  | .diff i j => do
    let s ← loc.get i
    let t ← loc.get j
    let r ← LSet.diffC n s t
    pure (loc.push r)
  | .symm i j => do
    let s ← loc.get i
    let t ← loc.get j
    let r ← LSet.symmC n s t
    pure (loc.push r)
  | .with i v => do
    let s ← loc.get i
    let r ← LSet.withC s v
    pure (loc.push r)
  | .without i v => do
    let s ← loc.get i
    let r ← LSet.withoutC n s v
    pure (loc.push r)
  | .freeze i => do
    let s ← loc.get i
    let r ← LSet.freezeC n s
    pure (loc.push r)
  | .range i => do
    let s ← loc.get i
    let it ← LSet.rangeC n s
    pure ⟨loc.sets, loc.iters ++ [⟨it, i, [], false⟩], loc.answers ++ [.none]⟩
  | .advance k =>
    match loc.iters[k]? with
    | none => .panic .nilDeref
    | some c => do
      let c ← advance n c
      pure ⟨loc.sets, loc.iters.set k c, loc.answers ++ [.none]⟩
  | .has i v => do
    let s ← loc.get i
    let b ← LSet.hasC n s v
    pure (loc.note (.bool b))
  | .isEmpty i => do
    let s ← loc.get i
    let b ← LSet.isEmptyC n s
    pure (loc.note (.bool b))
  | .count i => do
    let s ← loc.get i
    let k ← LSet.countC n s
    pure (loc.note (.int k))
  | .equalSet i j => do
    let s ← loc.get i
    let t ← loc.get j
    let b ← LSet.equalSetC n s t
    pure (loc.note (.bool b))
  | .isSubsetOf i j => do
    let s ← loc.get i
    let t ← loc.get j
    let b ← LSet.isSubsetOfC n s t
    pure (loc.note (.bool b))

/-- A list of calls, each with fuel `n`. -/
def run (n : Nat) (loc : LLocal T) : List (LCmd T) → LProg T (LLocal T)
  | [] => .done loc
  | c :: cs => do
    let loc ← loc.step n c
    loc.run n cs

end LLocal

/-- The memo cells, and what each goroutine has left to do. -/
structure LMachine (T : Type) where
  store : LStore T
  gs : List (LProg T (LLocal T))

namespace LMachine

/-- Every goroutine is handed the sets in `st`, and begins its calls. -/
def start (n : Nat) (st : LState T) (css : List (List (LCmd T))) : LMachine T :=
  ⟨st.store, css.map fun cs => (LLocal.mk st.sets [] []).run n cs⟩

/-- Goroutine `g` takes a turn. -/
def step (m : LMachine T) (g : Nat) : LMachine T :=
  match m.gs[g]? with
  | none => m
  | some p => ⟨(p.step m.store).1, m.gs.set g (p.step m.store).2⟩

/-- The first `t` turns of a schedule. -/
def after (m : LMachine T) (sched : Nat → Nat) : Nat → LMachine T
  | 0 => m
  | t + 1 => (m.after sched t).step (sched t)

end LMachine

/-- The answer a call should give when the sets of the goroutine denote `S`. -/
def AnswerOk (S : List (LSpec T)) : LCmd T → LAnswer → Prop
  | .has i v, a => ∃ b, a = .bool b ∧ ((specAt S i).safe → (b = true ↔ (specAt S i).den v))
  | .isEmpty i, a => ∃ b, a = .bool b ∧ (b = true ↔ ∀ w, ¬ (specAt S i).den w)
  | .count i, a => ∃ k, a = .int k ∧ ((specAt S i).plain → ∀ l : List T, Lists l (specAt S i).den → (l.length : Int) ≤ maxInt → k = (l.length : Int))
  | .equalSet i j, a => ∃ b, a = .bool b ∧ ((specAt S j).once → (b = true ↔ ∀ w, (specAt S i).den w ↔ (specAt S j).den w))
  | .isSubsetOf i j, a => ∃ b, a = .bool b ∧ ((specAt S j).once → (b = true ↔ ∀ w, (specAt S i).den w → (specAt S j).den w))
  | _, a => a = .none

/-- The answers a list of calls should give. -/
def AnswersOk (S : List (LSpec T)) : List (LCmd T) → List LAnswer → Prop
  | [], as => as = []
  | c :: cs, as => ∃ a rest, as = a :: rest ∧ AnswerOk S c a ∧ AnswersOk (specStep S c) cs rest

/-- The values an iterator should have delivered: elements of its set; no two equal ones, for sets that promise that; and all of
them if `Next` has returned false. -/
structure CursorOk (S : List (LSpec T)) (c : LCursor T) : Prop where
  member : ∀ v ∈ c.got, (specAt S c.src).den v
  once : (specAt S c.src).once → c.got.Pairwise fun a b => GoKey.eq a b = false
  all : c.ended = true → ∀ w, (specAt S c.src).den w → ∃ v ∈ c.got, GoKey.eq v w = true

end Frozen
