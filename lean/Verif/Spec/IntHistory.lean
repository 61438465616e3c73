import Verif.Model.IntMem
import Verif.Spec.IntProg
import Verif.Spec.MapProg

/-!
# Histories of IntSet calls over one memory, and on values

Sets are named by position. `signed` and `w` describe the integer type; the order of iteration over a Go map may differ from call to
call.
-/

namespace Frozen

variable {w : Nat}

/-- One call that returns an IntSet. -/
inductive IntOp (w : Nat) where
  | new (order : List (BitVec w × CellMask) → List (BitVec w × CellMask)) (is : List (BitVec w))
  | with (i : Nat) (n : BitVec w)
  | without (i : Nat) (n : BitVec w)
  | where (i : Nat) (pred : BitVec w → Bool)
  | map (i : Nat) (order : List (BitVec w × CellMask) → List (BitVec w × CellMask)) (f : BitVec w → BitVec w)
  | union (i j : Nat)
  | intersection (i j : Nat)

/-- What a client holds: the memory with the maps in it, and the sets. -/
structure IntWorld (w : Nat) where
  maps : IntMaps w
  sets : List MInt

/-- Nothing allocated, nothing held. -/
def IntWorld.init : IntWorld w := ⟨World.init, []⟩

/-- Keep the set a call returned. -/
def IntWorld.keep (x : IntWorld w) (f : IM w MInt) : IntWorld w :=
  match f x.maps with
  | .ok (s, W) => ⟨W, x.sets ++ [s]⟩
  | .error _ => x

/-- One call in memory; `G` is how `append` grows arrays. -/
def IntWorld.step [GoKey (BitVec w)] (G : Growth) (sg : Bool) (x : IntWorld w) : IntOp w → IntWorld w
  | .new order is => x.keep (mNewIntSet G sg order is)
  | .with i n => match x.sets[i]? with | some s => x.keep (s.with G sg n) | none => x
  | .without i n => match x.sets[i]? with | some s => x.keep (s.without G sg n) | none => x
  | .where i p => match x.sets[i]? with | some s => x.keep (s.where G p) | none => x
  | .map i order f => match x.sets[i]? with | some s => x.keep (s.map G sg order f) | none => x
  | .union i j => match x.sets[i]?, x.sets[j]? with | some s, some t => x.keep (s.union G t) | _, _ => x
  | .intersection i j => match x.sets[i]?, x.sets[j]? with | some s, some t => x.keep (s.intersection G t) | _, _ => x

/-- All calls in order. -/
def IntWorld.run [GoKey (BitVec w)] (G : Growth) (sg : Bool) (x : IntWorld w) (ops : List (IntOp w)) : IntWorld w :=
  ops.foldl (IntWorld.step G sg) x

/-- What a piece of code that only asks answers. -/
def IntWorld.ask {α : Type} (x : IntWorld w) (f : IM w α) : Go α := (f x.maps).map (·.1)

/-! ## On values -/

/-- Keep the set a call returned. -/
def keepInt (l : List (IntSet w)) (r : Go (IntSet w)) : List (IntSet w) :=
  match r with
  | .ok s => l ++ [s]
  | .error _ => l

/-- One call, with the IntSet API of Model/IntSet.lean. -/
def intStep [GoKey (BitVec w)] (sg : Bool) (l : List (IntSet w)) : IntOp w → List (IntSet w)
  | .new order is => keepInt l (newIntSet sg order is)
  | .with i n => match l[i]? with | some s => keepInt l (s.with sg n) | none => l
  | .without i n => match l[i]? with | some s => keepInt l (s.without sg n) | none => l
  | .where i p => match l[i]? with | some s => keepInt l (s.where p) | none => l
  | .map i order f => match l[i]? with | some s => keepInt l (s.map sg order f) | none => l
  | .union i j => match l[i]?, l[j]? with | some s, some t => keepInt l (s.union t) | _, _ => l
  | .intersection i j => match l[i]?, l[j]? with | some s, some t => keepInt l (s.intersection t) | _, _ => l

/-- All calls in order. -/
def intRun [GoKey (BitVec w)] (sg : Bool) (ops : List (IntOp w)) : List (IntSet w) := ops.foldl (intStep sg) []

/-- The call adds no cell (a block of 64 integers that share a bit mask) to a set that has three others with the same 64-bit hash. -/
def IntOp.Roomy [GoKey (BitVec w)] (sg : Bool) (l : List (IntSet w)) : IntOp w → Prop
  | .with i n => ∀ s, l[i]? = some s → s.data.HasKey (locateCell sg n).1 ∨ ¬ Crowded s.data.HasKey (locateCell sg n).1
  | .union i j => ∀ s t, l[i]? = some s → l[j]? = some t → ∀ c, t.data.HasKey c → s.data.HasKey c ∨
      ¬ Crowded (fun k => s.data.HasKey k ∨ t.data.HasKey k) c
  | _ => True

/-- No call does, the sets so far being `l`. -/
def RoomyFrom [GoKey (BitVec w)] (sg : Bool) (l : List (IntSet w)) : List (IntOp w) → Prop
  | [] => True
  | op :: ops => op.Roomy sg l ∧ RoomyFrom sg (intStep sg l op) ops

/-! ## On sets of integers -/

/-- The block of 64 integers that `n` is in. -/
def block (sg : Bool) (n : BitVec w) : BitVec w := BitVec.ofInt w ((if sg then n.toInt else n.toNat) / 64)

/-- The set does not have integers in four blocks with one hash. -/
def RoomySet [GoKey (BitVec w)] (sg : Bool) (P : BitVec w → Prop) : Prop :=
  ∀ n, P n → ¬ Crowded (fun c => ∃ m, P m ∧ block sg m = c) (block sg n)

/-- One call, on mathematical sets: no hashes, no cells, no memory. -/
def setStep (l : List (BitVec w → Prop)) : IntOp w → List (BitVec w → Prop)
  | .new _ is => l ++ [fun j => j ∈ is]
  | .with i n => match l[i]? with | some P => l ++ [fun j => j = n ∨ P j] | none => l
  | .without i n => match l[i]? with | some P => l ++ [fun j => P j ∧ j ≠ n] | none => l
  | .where i p => match l[i]? with | some P => l ++ [fun j => P j ∧ p j = true] | none => l
  | .map i _ f => match l[i]? with | some P => l ++ [fun j => ∃ k, P k ∧ f k = j] | none => l
  | .union i j => match l[i]?, l[j]? with | some P, some Q => l ++ [fun k => P k ∨ Q k] | _, _ => l
  | .intersection i j => match l[i]?, l[j]? with | some P, some Q => l ++ [fun k => P k ∧ Q k] | _, _ => l

/-- All calls in order. -/
def setRun (ops : List (IntOp w)) : List (BitVec w → Prop) := ops.foldl setStep []

/-- The call puts only integers into a set that an IntSet can hold, and visits every entry of a Go map once. -/
def IntOp.Fits (sg : Bool) (l : List (BitVec w → Prop)) : IntOp w → Prop
  | .new order is => (∀ m, (order m).Perm m) ∧ ∀ i ∈ is, Storable sg i
  | .with _ n => Storable sg n
  | .map i order f => (∀ m, (order m).Perm m) ∧ ∀ P, l[i]? = some P → ∀ j, P j → Storable sg (f j)
  | _ => True

/-- All calls do, the sets so far being `l`. -/
def FitsFrom (sg : Bool) (l : List (BitVec w → Prop)) : List (IntOp w) → Prop
  | [] => True
  | op :: ops => op.Fits sg l ∧ FitsFrom sg (setStep l op) ops

end Frozen
