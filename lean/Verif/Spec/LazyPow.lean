import Verif.Model.LazyPow
import Verif.Spec.Lazy

/-!
# Specification of lazy powersets

A client makes lazy sets as in `Spec/Lazy.lean`, takes powersets of some of them, makes iterators over the powersets and advances all
iterators in any order.
-/

namespace Frozen

variable {T : Type} [GoKey T]

/-- `e` is in the set that is an element of a powerset. -/
def PVal.holds (x : PVal T) (e : T) : Prop := x.has e = .ok true

/-- Two elements of a powerset are the same set. -/
def PVal.Same (x y : PVal T) : Prop := ∀ e, x.holds e ↔ y.holds e

/-- One call. Powersets and iterators over powersets are named by their positions in lists of their own. -/
inductive PCmd (T : Type) [GoKey T] where
  | base (c : LCmd T)
  | powerset (i : Nat)
  | range (p : Nat)
  | advance (k : Nat)

/-- An iterator over a powerset: the powerset it was made from, the values it has delivered, and whether its `Next` has returned
false. -/
structure PCursor (T : Type) where
  iter : PIter T
  src : Nat
  got : List (PVal T)
  ended : Bool

/-- What a client holds. -/
structure PState (T : Type) where
  base : LState T
  cells : PStore T
  pows : List (PSet T)
  iters : List (PCursor T)

/-- Nothing made. -/
def PState.init : PState T := ⟨LState.init, [], [], []⟩

/-- The same client with other memo cells of its lazy sets. -/
def LState.withStore (st : LState T) (σ : LStore T) : LState T := ⟨σ, st.sets, st.iters⟩

variable [GoHash]

/-- `it.Next()`, and `it.Value()` if it returned true, by a client that does not call `Next` again once it has returned false. -/
def PCursor.advance (n : Nat) (σ : LStore T) (κ : PStore T) (c : PCursor T) : Go (PCursor T × LStore T × PStore T) :=
  if c.ended then .ok (c, σ, κ)
  else do
    let (it, ok, σ, κ) ← PIter.next n σ κ c.iter
    if ok then do
      let v ← it.value
      pure (⟨it, c.src, c.got ++ [v], false⟩, σ, κ)
    else pure (⟨it, c.src, c.got, true⟩, σ, κ)

/-- Perform one call, with fuel `n`. -/
def PState.step (n : Nat) (st : PState T) : PCmd T → Go (PState T)
  | .base c => do
    let b ← st.base.step n c
    pure ⟨b, st.cells, st.pows, st.iters⟩
  | .powerset i => do
    let s ← st.base.get i
    let (p, κ) ← LSet.powersetM st.base.store st.cells s
    pure ⟨st.base, κ, st.pows ++ [p], st.iters⟩
  | .range p =>
    match st.pows[p]? with
    | none => .error .nilDeref
    | some s => do
      let it ← PSet.range n st.base.store st.cells s
      pure ⟨st.base, st.cells, st.pows, st.iters ++ [⟨it, p, [], false⟩]⟩
  | .advance k =>
    match st.iters[k]? with
    | none => .error .nilDeref
    | some c => do
      let (c, σ, κ) ← c.advance n st.base.store st.cells
      pure ⟨st.base.withStore σ, κ, st.pows, st.iters.set k c⟩

/-- Perform a list of calls, each with fuel `n`. -/
def PState.run (n : Nat) (st : PState T) : List (PCmd T) → Go (PState T)
  | [] => .ok st
  | c :: cs => do
    let st ← st.step n c
    st.run n cs

omit [GoHash]

/-- What is known of the client's sets, and of the sets it has taken powersets of. -/
structure PSpec (T : Type) where
  sets : List (LSpec T)
  srcs : List (LSpec T)

/-- The effect of a call. Iterating changes nothing. -/
def PSpec.step (S : PSpec T) : PCmd T → PSpec T
  | .base c => ⟨specStep S.sets c, S.srcs⟩
  | .powerset i => ⟨S.sets, S.srcs ++ [specAt S.sets i]⟩
  | _ => S

/-- The effect of a list of calls. -/
def PSpec.run (S : PSpec T) (cs : List (PCmd T)) : PSpec T := cs.foldl PSpec.step S

/-- Nothing made. -/
def PSpec.init : PSpec T := ⟨[], []⟩

/-- How many iterators over lazy sets, and over powersets, a call adds. -/
def PCmd.iters : PCmd T → Nat × Nat
  | .base c => (c.iters, 0)
  | .range _ => (0, 1)
  | _ => (0, 0)

/-- The calls the theorems cover: those of `LCmd.Good`, and calls that name sets, powersets and iterators that exist. -/
def PCmd.Good (S : PSpec T) (iters piters : Nat) : PCmd T → Prop
  | .base c => c.Good S.sets iters
  | .powerset i => i < S.sets.length
  | .range p => p < S.srcs.length
  | .advance k => k < piters

/-- Every call is covered. -/
def GoodPRun (S : PSpec T) (iters piters : Nat) : List (PCmd T) → Prop
  | [] => True
  | c :: cs => c.Good S iters piters ∧ GoodPRun (S.step c) (iters + c.iters.1) (piters + c.iters.2) cs

/-- Powersets are taken only of sets of fewer than 64 elements that can be iterated without repetition. -/
def SmallPRun (S : PSpec T) : List (PCmd T) → Prop
  | [] => True
  | c :: cs => (∀ i, c = .powerset i → (specAt S.sets i).plain ∧ ∃ m : Nat, m < 64 ∧ HasCard (specAt S.sets i).den m) ∧ SmallPRun (S.step c) cs

end Frozen
