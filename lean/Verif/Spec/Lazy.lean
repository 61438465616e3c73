import Verif.Model.Lazy
import Verif.Spec.Set
import Verif.Spec.SetProg
import Verif.Spec.Nested

/-!
# Specification of lazy sets

A client of package `lazy` makes sets out of earlier sets, makes iterators over them and advances these in any order. Each set made
denotes a mathematical set, given by `LSpec.den` with the textbook operations. The other fields of `LSpec` say for which sets the
theorems make a promise about a given method; they depend on how a set was made, never on what was done with it since.
-/

namespace Frozen

variable {T : Type} [GoKey T]

/-- The call returns `a`. The functions of `Model/Lazy.lean` recurse on a number `n`, their fuel, because Lean must see that they
end; the Go code has no such number. A call that runs out of fuel fails, so `Runs f a` says that the call ends and returns `a`:
every large enough `n` gives that answer. -/
def Runs {α : Type} (f : Nat → Go α) (a : α) : Prop := ∃ N, ∀ n, N ≤ n → f n = .ok a

/-- `m` maps no two different elements of the set `P` to equal ones. -/
def OneToOne (m : T → T) (P : T → Prop) : Prop := ∀ x y, P x → P y → GoKey.eq (m x) (m y) = true → GoKey.eq x y = true

/-- What is known of a lazy set from the way it was made. -/
structure LSpec (T : Type) where
  /-- the elements -/
  den : T → Prop
  /-- held outright: made by `Frozen`, `Freeze` or from such sets by `With`, `Without`, `Map` -/
  eager : Prop
  /-- `Has` is right -/
  safe : Prop
  /-- `FastHas` is right when it answers -/
  fast : Prop
  /-- `Count` is right -/
  plain : Prop
  /-- an iteration sees no element twice -/
  once : Prop

namespace LSpec

/-- `Frozen(s)`, `EmptySet{}` and what `Freeze` returns -/
def frozen (P : T → Prop) : LSpec T := ⟨P, True, True, True, True, True⟩

/-- `a.Where(p)` -/
def «where» (a : LSpec T) (p : T → Bool) : LSpec T := ⟨fun w => a.den w ∧ p w = true, False, a.safe, True, a.plain, True⟩

/-- `a.Map(m)`: `Count` counts the arguments, not the values. -/
def map (a : LSpec T) (m : T → T) : LSpec T :=
  ⟨fun w => ∃ v, a.den v ∧ GoKey.eq (m v) w = true, a.eager, True, True, a.eager ∨ (a.plain ∧ OneToOne m a.den), True⟩

/-- `a.Union(b)`: `Has` is right if it is for both; `Count` counts twice what is in both. -/
def union (a b : LSpec T) : LSpec T :=
  ⟨fun w => a.den w ∨ b.den w, False, a.safe ∧ b.safe, False, a.plain ∧ b.plain ∧ ∀ w, ¬ (a.den w ∧ b.den w), (∃ w, a.den w) ∨ b.once⟩

/-- `a.Intersection(b)` -/
def inter (a b : LSpec T) : LSpec T :=
  ⟨fun w => a.den w ∧ b.den w, False, a.safe ∧ b.safe, a.fast ∧ b.fast, a.plain, True⟩

/-- `a.Difference(b)`: no promise about `Has`; elements may be seen twice if `b` is empty. -/
def diff (a b : LSpec T) : LSpec T :=
  ⟨fun w => a.den w ∧ ¬ b.den w, False, False, False, a.plain, a.plain ∨ ∃ w, b.den w⟩

/-- `a.SymmetricDifference(b)` -/
def symm (a b : LSpec T) : LSpec T :=
  ⟨fun w => (a.den w ∧ ¬ b.den w) ∨ (b.den w ∧ ¬ a.den w), False, False, False, a.plain ∧ b.plain, (∃ w, a.den w) ∨ b.once⟩

/-- `a.With(v)`: `Count` counts `v` twice if it was there already. -/
def «with» (a : LSpec T) (v : T) : LSpec T :=
  ⟨fun w => a.den w ∨ GoKey.eq v w = true, a.eager, a.safe, a.eager, a.eager ∨ (a.plain ∧ ¬ a.den v), True⟩

/-- `a.Without(v)` -/
def without (a : LSpec T) (v : T) : LSpec T :=
  ⟨fun w => a.den w ∧ ¬ GoKey.eq v w = true, a.eager, a.eager, a.eager, a.plain, True⟩

end LSpec

/-- One call. Sets and iterators are named by their position in the client's lists. -/
inductive LCmd (T : Type) [GoKey T] where
  | empty
  | frozen (s : SetVal T)
  | where (i : Nat) (p : T → Bool)
  | map (i : Nat) (m : T → T)
  | union (i j : Nat)
  | inter (i j : Nat)
  | diff (i j : Nat)
  | symm (i j : Nat)
  | with (i : Nat) (v : T)
  | without (i : Nat) (v : T)
  | freeze (i : Nat)
  | range (i : Nat)
  | advance (k : Nat)
  | has (i : Nat) (v : T)
  | isEmpty (i : Nat)
  | count (i : Nat)
  | equalSet (i j : Nat)
  | isSubsetOf (i j : Nat)

/-- An iterator a client holds: the set it was made from, the values it has delivered, and whether its `Next` has returned false. -/
structure LCursor (T : Type) where
  iter : LIter T
  src : Nat
  got : List T
  ended : Bool

/-- What a client holds, and the memo cells. -/
structure LState (T : Type) where
  store : LStore T
  sets : List (LSet T)
  iters : List (LCursor T)

/-- Nothing made. -/
def LState.init : LState T := ⟨[], [], []⟩

/-- The set at `i`; a client cannot name another. -/
def LState.get (st : LState T) (i : Nat) : Go (LSet T) :=
  match st.sets[i]? with
  | some s => .ok s
  | none => .error .nilDeref

/-- Keep a set. -/
def LState.push (st : LState T) (r : LSet T × LStore T) : LState T := ⟨r.2, st.sets ++ [r.1], st.iters⟩

/-- `it.Next()`, and `it.Value()` if it returned true, by a client that does not call `Next` again once it has returned false. -/
def LCursor.advance (n : Nat) (σ : LStore T) (c : LCursor T) : Go (LCursor T × LStore T) :=
  if c.ended then .ok (c, σ)
  else do
    let (it, ok, σ) ← LIter.next n σ c.iter
    if ok then do
      let v ← it.value
      pure (⟨it, c.src, c.got ++ [v], false⟩, σ)
    else pure (⟨it, c.src, c.got, true⟩, σ)

/-- Perform one call, with fuel `n`. -/
def LState.step (n : Nat) (st : LState T) : LCmd T → Go (LState T)
  | .empty => .ok (st.push (.empty, st.store))
  | .frozen s => .ok (st.push (.frozen s.1, st.store))
  | .where i p => do
    let s ← st.get i
    let r ← LSet.whereM st.store s p
    pure (st.push r)
  | .map i m => do
    let s ← st.get i
    let r ← LSet.mapM st.store s m
    pure (st.push r)
  | .union i j => do
    let s ← st.get i
    let t ← st.get j
    let r ← LSet.unionM st.store s t
    pure (st.push r)
  | .inter i j => do
    let s ← st.get i
    let t ← st.get j
    let r ← LSet.interM n st.store s t
    pure (st.push r)
  | .diff i j => do
    let s ← st.get i
    let t ← st.get j
    let r ← LSet.diffM n st.store s t
    pure (st.push r)
  | .symm i j => do
    let s ← st.get i
    let t ← st.get j
    let r ← LSet.symmM n st.store s t
    pure (st.push r)
  | .with i v => do
    let s ← st.get i
    let r ← LSet.withM st.store s v
    pure (st.push r)
  | .without i v => do
    let s ← st.get i
    let r ← LSet.withoutM n st.store s v
    pure (st.push r)
  | .freeze i => do
    let s ← st.get i
    let r ← LSet.freeze n st.store s
    pure (st.push r)
  | .range i => do
    let s ← st.get i
    let it ← LSet.range st.store n s
    pure ⟨st.store, st.sets, st.iters ++ [⟨it, i, [], false⟩]⟩
  | .advance k =>
    match st.iters[k]? with
    | none => .error .nilDeref
    | some c => do
      let (c, σ) ← c.advance n st.store
      pure ⟨σ, st.sets, st.iters.set k c⟩
  | .has i v => do
    let s ← st.get i
    let r ← LSet.has n st.store s v
    pure ⟨r.2, st.sets, st.iters⟩
  | .isEmpty i => do
    let s ← st.get i
    let r ← LSet.isEmpty n st.store s
    pure ⟨r.2, st.sets, st.iters⟩
  | .count i => do
    let s ← st.get i
    let r ← LSet.count n st.store s
    pure ⟨r.2, st.sets, st.iters⟩
  | .equalSet i j => do
    let s ← st.get i
    let t ← st.get j
    let r ← LSet.equalSet n st.store s t
    pure ⟨r.2, st.sets, st.iters⟩
  | .isSubsetOf i j => do
    let s ← st.get i
    let t ← st.get j
    let r ← LSet.isSubsetOf n st.store s t
    pure ⟨r.2, st.sets, st.iters⟩

/-- Perform a list of calls, each with fuel `n`. -/
def LState.run (n : Nat) (st : LState T) : List (LCmd T) → Go (LState T)
  | [] => .ok st
  | c :: cs => do
    let st ← st.step n c
    st.run n cs

/-- The spec of the set at `i`. -/
def specAt (S : List (LSpec T)) (i : Nat) : LSpec T := (S[i]?).getD (LSpec.frozen (fun _ => False))

/-- What the client's sets denote after a call. Iterating, freezing and asking change nothing. -/
def specStep (S : List (LSpec T)) : LCmd T → List (LSpec T)
  | .empty => S ++ [LSpec.frozen (fun _ => False)]
  | .frozen s => S ++ [LSpec.frozen s.1.Mem]
  | .where i p => S ++ [(specAt S i).where p]
  | .map i m => S ++ [(specAt S i).map m]
  | .union i j => S ++ [(specAt S i).union (specAt S j)]
  | .inter i j => S ++ [(specAt S i).inter (specAt S j)]
  | .diff i j => S ++ [(specAt S i).diff (specAt S j)]
  | .symm i j => S ++ [(specAt S i).symm (specAt S j)]
  | .with i v => S ++ [(specAt S i).with v]
  | .without i v => S ++ [(specAt S i).without v]
  | .freeze i => S ++ [LSpec.frozen (specAt S i).den]
  | _ => S

/-- What the client's sets denote after a list of calls. -/
def specRun (S : List (LSpec T)) (cs : List (LCmd T)) : List (LSpec T) := cs.foldl specStep S

/-- How many iterators a call adds. -/
def LCmd.iters : LCmd T → Nat
  | .range _ => 1
  | _ => 0

/-- The calls the theorems cover: they name sets and iterators that exist, predicates and mappers respect `Equal` (as
lazy/set.go:3-9 demands), and the right operand of `Intersection` and `Difference`, and both operands of `SymmetricDifference`, are
sets on which `Has` is right. -/
def LCmd.Good (S : List (LSpec T)) (iters : Nat) : LCmd T → Prop
  | .empty => True
  | .frozen _ => True
  | .where i p => i < S.length ∧ ∀ a b, GoKey.eq a b = true → p a = p b
  | .map i m => i < S.length ∧ ∀ a b, GoKey.eq a b = true → GoKey.eq (m a) (m b) = true
  | .union i j => i < S.length ∧ j < S.length
  | .inter i j => i < S.length ∧ j < S.length ∧ (specAt S j).safe
  | .diff i j => i < S.length ∧ j < S.length ∧ (specAt S j).safe
  | .symm i j => i < S.length ∧ j < S.length ∧ (specAt S i).safe ∧ (specAt S j).safe
  | .with i _ => i < S.length
  | .without i _ => i < S.length
  | .freeze i => i < S.length
  | .range i => i < S.length
  | .advance k => k < iters
  | .has i _ => i < S.length
  | .isEmpty i => i < S.length
  | .count i => i < S.length
  | .equalSet i j => i < S.length ∧ j < S.length
  | .isSubsetOf i j => i < S.length ∧ j < S.length

/-- The calls the library's documentation allows: `Good` without the conditions about `Has`. The full properties range over these. -/
def LCmd.Allowed (S : List (LSpec T)) (iters : Nat) : LCmd T → Prop
  | .inter i j => i < S.length ∧ j < S.length
  | .diff i j => i < S.length ∧ j < S.length
  | .symm i j => i < S.length ∧ j < S.length
  | c => c.Good S iters

/-- Every call is allowed. -/
def AllowedRun (S : List (LSpec T)) (iters : Nat) : List (LCmd T) → Prop
  | [] => True
  | c :: cs => c.Allowed S iters ∧ AllowedRun (specStep S c) (iters + c.iters) cs

/-- Every call is covered. -/
def GoodRun (S : List (LSpec T)) (iters : Nat) : List (LCmd T) → Prop
  | [] => True
  | c :: cs => c.Good S iters ∧ GoodRun (specStep S c) (iters + c.iters) cs

end Frozen
