import Verif.Spec.IntHistory

/-!
# What an IntSet really holds

`Verif/Spec/IntProg.lean` says what set a program should denote. A set of signed integers keeps to that only if no integer that is
negative and not a multiple of 64 is put into it. This file says what happens for all integers. It mentions no tree and no bit mask:
an IntSet is a set of integers, a set of blocks (of 64 consecutive integers each) for which it keeps a cell, and an error in its count.
-/

namespace Frozen

variable {w : Nat}

instance (sg : Bool) (i : BitVec w) : Decidable (Storable sg i) := by unfold Storable; infer_instance

/-- What an IntSet really holds. -/
structure IntState (w : Nat) where
  /-- The integers that `Has` reports. -/
  has : BitVec w → Prop
  /-- The blocks for which there is a cell, possibly an empty one. -/
  blocks : BitVec w → Prop
  /-- By how much `Count` exceeds the number of integers that `Has` reports. -/
  extra : Int

/-- The block has a cell that holds nothing. -/
def IntState.Hollow (sg : Bool) (S : IntState w) (c : BitVec w) : Prop := S.blocks c ∧ ∀ n, S.has n → block sg n ≠ c

/-- The first integer after a block. (It may wrap around.) -/
def afterBlock (c : BitVec w) : BitVec w := BitVec.ofInt w ((c.toInt + 1) * 64)

/-- The integers that `Elements` and iterators report: those that the set has and, for each empty cell, the first integer after its
block. -/
def IntState.Reported (sg : Bool) (S : IntState w) (n : BitVec w) : Prop := S.has n ∨ ∃ c, S.Hollow sg c ∧ n = afterBlock c

/-- What `NewIntSet` makes of the integers in `P`. -/
def IntState.new (sg : Bool) (P : BitVec w → Prop) : IntState w where
  has n := P n ∧ Storable sg n
  blocks c := ∃ n, P n ∧ block sg n = c
  extra := 0

/-- Exactly the integers in `P`, cells for their blocks only. -/
def IntState.exact (sg : Bool) (P : BitVec w → Prop) : IntState w where
  has := P
  blocks c := ∃ n, P n ∧ block sg n = c
  extra := 0

/-- What `With` makes of it. -/
def IntState.with (sg : Bool) (S : IntState w) (i : BitVec w) : IntState w where
  has n := (n = i ∧ Storable sg i) ∨ S.has n
  blocks c := c = block sg i ∨ S.blocks c
  extra := S.extra + if Storable sg i then 0 else 1

/-- What `Without` makes of it: the cell of the last integer in a block goes with it. -/
def IntState.without (sg : Bool) (S : IntState w) (i : BitVec w) : IntState w where
  has n := S.has n ∧ n ≠ i
  blocks c := S.blocks c ∧ (S.has i → c = block sg i → ∃ n, (S.has n ∧ n ≠ i) ∧ block sg n = c)
  extra := S.extra

/-- What `Where` makes of it. -/
def IntState.where (sg : Bool) (S : IntState w) (pred : BitVec w → Bool) : IntState w := .exact sg (fun n => S.has n ∧ pred n = true)

/-- What `Map` makes of it. -/
def IntState.map (sg : Bool) (S : IntState w) (f : BitVec w → BitVec w) : IntState w := .new sg (fun n => ∃ m, S.Reported sg m ∧ f m = n)

/-- What `Union` makes of two. -/
def IntState.union (S T : IntState w) : IntState w where
  has n := S.has n ∨ T.has n
  blocks c := S.blocks c ∨ T.blocks c
  extra := S.extra

/-- What `Intersection` makes of two. -/
def IntState.intersection (sg : Bool) (S T : IntState w) : IntState w := .exact sg (fun n => S.has n ∧ T.has n)

/-- What the set that a program makes really holds. -/
def IntProg.actual (sg : Bool) : IntProg w → IntState w
  | .new _ _ is => .new sg (· ∈ is)
  | .with p i => (p.actual sg).with sg i
  | .without p i => (p.actual sg).without sg i
  | .where p pred => (p.actual sg).where sg pred
  | .map p _ _ f => (p.actual sg).map sg f
  | .union p q => (p.actual sg).union (q.actual sg)
  | .intersection p q => (p.actual sg).intersection sg (q.actual sg)

/-- The program does not call `Map`. -/
def IntProg.MapFree : IntProg w → Prop
  | .new _ _ _ => True
  | .with p _ => p.MapFree
  | .without p _ => p.MapFree
  | .where p _ => p.MapFree
  | .map _ _ _ _ => False
  | .union p q => p.MapFree ∧ q.MapFree
  | .intersection p q => p.MapFree ∧ q.MapFree

/-! ## Histories -/

/-- One call (of `Verif/Spec/IntHistory.lean`). -/
def stateStep (sg : Bool) (l : List (IntState w)) : IntOp w → List (IntState w)
  | .new _ is => l ++ [.new sg (· ∈ is)]
  | .with i n => match l[i]? with | some S => l ++ [S.with sg n] | none => l
  | .without i n => match l[i]? with | some S => l ++ [S.without sg n] | none => l
  | .where i p => match l[i]? with | some S => l ++ [S.where sg p] | none => l
  | .map i _ f => match l[i]? with | some S => l ++ [S.map sg f] | none => l
  | .union i j => match l[i]?, l[j]? with | some S, some T => l ++ [S.union T] | _, _ => l
  | .intersection i j => match l[i]?, l[j]? with | some S, some T => l ++ [S.intersection sg T] | _, _ => l

/-- All calls in order. -/
def stateRun (sg : Bool) (ops : List (IntOp w)) : List (IntState w) := ops.foldl (stateStep sg) []

/-- The call visits every entry of a Go map once. -/
def IntOp.Orderly : IntOp w → Prop
  | .new order _ => ∀ m, (order m).Perm m
  | .map _ order _ => ∀ m, (order m).Perm m
  | _ => True

/-- The set does not have cells for four blocks with one hash. -/
def IntState.Roomy [GoKey (BitVec w)] (S : IntState w) : Prop := ∀ c, S.blocks c → ¬ Crowded S.blocks c

end Frozen
