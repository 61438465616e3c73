import Verif.Model.Memory
import Verif.Model.Tree
import Verif.Spec.Set

/-!
# Histories of calls over one memory

A client holds any number of sets and builders and calls methods on them in any order; every result is kept and stays observable.
The same calls on a `Map` are calls on its tree, with entries for elements (map.go), so histories with `T` an entry type are
histories of maps and map builders.
-/

namespace Frozen

variable {T : Type}

/-- One call. Sets and builders are named by their position in the client's lists. -/
inductive HOp (T : Type) where
  | empty
  | with (i : Nat) (v : T)
  | without (i : Nat) (v : T)
  | where (i : Nat) (p : T → Bool)
  | merge (i j : Nat) (f : T → T → T)
  | intersection (i j : Nat)
  | difference (i j : Nat)
  | newBuilder
  | add (k : Nat) (v : T)
  | remove (k : Nat) (v : T)
  | finish (k : Nat)

/-- `Set.Union` (set.go:256-259) -/
def HOp.union (i j : Nat) : HOp T := .merge i j (fun _ b => b)

/-- The memory and what the client holds. -/
structure World (T : Type) where
  mem : Mem T
  sets : List MTree
  builders : List MTree

/-- Nothing allocated, nothing held. -/
def World.init : World T := ⟨Mem.empty, [], []⟩

/-- Keep the set a call returned; after a panic there is none. -/
def World.push (w : World T) (r : Go MTree × Mem T) : World T :=
  match r.1 with
  | .ok t => ⟨r.2, w.sets ++ [t], w.builders⟩
  | .error _ => ⟨r.2, w.sets, w.builders⟩

/-- Replace the builder on which a method was called. -/
def World.update (w : World T) (k : Nat) (r : Go MTree × Mem T) : World T :=
  match r.1 with
  | .ok b => ⟨r.2, w.sets, w.builders.set k b⟩
  | .error _ => ⟨r.2, w.sets, w.builders⟩

/-- A call on the set at `i`. -/
def World.on (w : World T) (i : Nat) (f : MTree → MM T MTree) : World T :=
  match w.sets[i]? with
  | some s => w.push (f s w.mem)
  | none => w

/-- A call on two sets. -/
def World.on2 (w : World T) (i j : Nat) (f : MTree → MTree → MM T MTree) : World T :=
  match w.sets[i]?, w.sets[j]? with
  | some s, some t => w.push (f s t w.mem)
  | _, _ => w

/-- A call on the builder at `k`. -/
def World.onBuilder (w : World T) (k : Nat) (f : MTree → MM T MTree) : World T :=
  match w.builders[k]? with
  | some b => w.update k (f b w.mem)
  | none => w

variable [GoKey T]

/-- Perform one call; `G` is how `append` grows arrays. -/
def World.step (G : Growth) (w : World T) : HOp T → World T
  | .empty => ⟨w.mem, w.sets ++ [MTree.zero], w.builders⟩
  | .with i v => w.on i (fun s => s.with G v)
  | .without i v => w.on i (fun s => s.without G v)
  | .where i p => w.on i (fun s => s.where G p)
  | .merge i j f => w.on2 i j (fun s t => s.combine G ⟨GoKey.eq, f⟩ t)
  | .intersection i j => w.on2 i j (fun s t => s.intersection G t)
  | .difference i j => w.on2 i j (fun s t => s.difference G t)
  | .newBuilder => ⟨w.mem, w.sets, w.builders ++ [MTree.zero]⟩
  | .add k v => w.onBuilder k (fun b => b.add G v)
  | .remove k v => w.onBuilder k (fun b => b.remove G v)
  | .finish k =>
    match w.builders[k]? with
    | some b => ⟨w.mem, w.sets ++ [b], w.builders.set k MTree.zero⟩
    | none => w

/-- Perform the calls in order. -/
def World.run (G : Growth) (w : World T) (ops : List (HOp T)) : World T := ops.foldl (World.step G) w

/-- The same client when every set and builder is a value of its own: the trees of the value model, no memory. -/
structure VWorld (T : Type) where
  sets : List (Tree T)
  builders : List (Builder T)

/-- Keep the set a call returned. -/
def VWorld.push (w : VWorld T) (r : Go (Tree T)) : VWorld T :=
  match r with
  | .ok t => ⟨w.sets ++ [t], w.builders⟩
  | .error _ => w

/-- A call on the set at `i`. -/
def VWorld.on (w : VWorld T) (i : Nat) (f : Tree T → Go (Tree T)) : VWorld T :=
  match w.sets[i]? with
  | some s => w.push (f s)
  | none => w

/-- A call on two sets. -/
def VWorld.on2 (w : VWorld T) (i j : Nat) (f : Tree T → Tree T → Go (Tree T)) : VWorld T :=
  match w.sets[i]?, w.sets[j]? with
  | some s, some t => w.push (f s t)
  | _, _ => w

/-- Replace the builder on which a method was called. -/
def VWorld.update (w : VWorld T) (k : Nat) (r : Go (Builder T)) : VWorld T :=
  match r with
  | .ok b => ⟨w.sets, w.builders.set k b⟩
  | .error _ => w

/-- A call on the builder at `k`. -/
def VWorld.onBuilder (w : VWorld T) (k : Nat) (f : Builder T → Go (Builder T)) : VWorld T :=
  match w.builders[k]? with
  | some b => w.update k (f b)
  | none => w

/-- Perform one call on values. -/
def VWorld.step (w : VWorld T) : HOp T → VWorld T
  | .empty => ⟨w.sets ++ [Tree.zero], w.builders⟩
  | .with i v => w.on i (fun s => s.with v)
  | .without i v => w.on i (fun s => s.without v)
  | .where i p => w.on i (fun s => s.where p)
  | .merge i j f => w.on2 i j (fun s t => s.combine ⟨GoKey.eq, f⟩ t)
  | .intersection i j => w.on2 i j (fun s t => s.intersection t)
  | .difference i j => w.on2 i j (fun s t => s.difference t)
  | .newBuilder => ⟨w.sets, w.builders ++ [Tree.zero]⟩
  | .add k v => w.onBuilder k (fun b => Builder.add b v)
  | .remove k v => w.onBuilder k (fun b => Builder.remove b v)
  | .finish k =>
    match w.builders[k]? with
    | some b => ⟨w.sets ++ [b], w.builders.set k Tree.zero⟩
    | none => w

/-- Perform the calls in order on values. -/
def VWorld.run (w : VWorld T) (ops : List (HOp T)) : VWorld T := ops.foldl VWorld.step w

/-- What a client sees of a set (or of a builder) is the same in two memories: for each value the element found, or none, and the
elements visited by an iteration. The count is part of the set itself. -/
structure SameView (H H' : Mem T) (s : MTree) : Prop where
  get : ∀ v, s.get H' v = s.get H v
  /-- `Get` does not panic. -/
  ok : ∀ v, ∃ r, s.get H v = .ok r
  elems : s.elems H' = s.elems H
  /-- Iterating does not panic. -/
  elemsOk : ∃ l, s.elems H = .ok l

/-- The set contains a value. -/
def MTree.Has (s : MTree) (H : Mem T) (v : T) : Prop := ∃ e, s.get H v = .ok (some e)

/-- At least three other elements of the set share the 64-bit hash of `v`. -/
def Crowded (P : T → Prop) (v : T) : Prop := AtLeast 3 (fun w => P w ∧ GoKey.eq w v = false ∧ hash0 w = hash0 v)

/-- The call adds no element to a set that has three others with the same 64-bit hash. The function given to a merge returns an
element equal to its arguments (it may change the value of a map entry, not its key). -/
def Uncrowded (w : World T) : HOp T → Prop
  | .with i v => ∀ s, w.sets[i]? = some s → s.Has w.mem v ∨ ¬ Crowded (s.Has w.mem) v
  | .merge i j f => (∀ a b, GoKey.eq a b = true → GoKey.eq (f a b) a = true) ∧
      ∀ s t, w.sets[i]? = some s → w.sets[j]? = some t → ∀ v, (s.Has w.mem v ↔ t.Has w.mem v) ∨
        ¬ Crowded (fun u => s.Has w.mem u ∨ t.Has w.mem u) v
  | _ => True

/-- Every call of the history adds no element to a crowded set. -/
def UncrowdedRun (G : Growth) (w : World T) : List (HOp T) → Prop
  | [] => True
  | op :: ops => Uncrowded w op ∧ UncrowdedRun G (w.step G op) ops

/-- The calls that can append to an array in place: `With` and the merges. -/
def HOp.mayAppend : HOp T → Bool
  | .with _ _ => true
  | .merge _ _ _ => true
  | _ => false

/-- The calls on builders. -/
def HOp.isBuilderCall : HOp T → Bool
  | .newBuilder => true
  | .add _ _ => true
  | .remove _ _ => true
  | .finish _ => true
  | _ => false

/-- The builder the call is on. -/
def HOp.builder : HOp T → Option Nat
  | .add k _ => some k
  | .remove k _ => some k
  | .finish k => some k
  | _ => none

/-- What `Get(v)` on the builder at `k` returns after these calls if it returned `r` before: the last call about `v` decides. -/
def lastCall (k : Nat) (v : T) : List (HOp T) → Option T → Option T
  | [], r => r
  | .add j x :: ops, r => lastCall k v ops (if j = k ∧ GoKey.eq x v = true then some x else r)
  | .remove j x :: ops, r => lastCall k v ops (if j = k ∧ GoKey.eq x v = true then none else r)
  | .finish j :: ops, r => lastCall k v ops (if j = k then none else r)
  | _ :: ops, r => lastCall k v ops r

end Frozen
