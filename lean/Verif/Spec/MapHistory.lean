import Verif.Spec.History
import Verif.Model.Map

/-!
# Histories of map calls over one memory

`Where`, `Map` and `Project` (map.go:143-173) read one map and put entries into a builder of their own; they are the histories
`newBuilder`, `put` …, `finish`.
-/

namespace Frozen

variable {K V : Type}

/-- One call on maps or map builders, named by position. -/
inductive MOp (K V : Type) where
  | empty
  | with (i : Nat) (k : K) (v : V)
  | without (i : Nat) (k : K)
  | merge (i j : Nat) (resolve : K → V → V → V)
  | update (i j : Nat)
  | newBuilder
  | put (b : Nat) (k : K) (v : V)
  | remove (b : Nat) (k : K)
  | finish (b : Nat)

/-- The call on the tree of entries that the map call makes: map.go:71-81, map.go:194-212, map_builder.go:22-29,
map_builder.go:48-50. -/
def MOp.call [Inhabited V] (w : World (Entry K V)) : MOp K V → HOp (Entry K V)
  | .empty => .empty
  | .with i k v => .with i ⟨k, v⟩
  | .without i k => .without i (newMapKey k)
  | .merge i j resolve => .merge i j (fun a b => ⟨a.key, resolve a.key a.value b.value⟩)
  | .update i j =>
    match w.sets[i]?, w.sets[j]? with
    | some m, some n => if m.count > n.count then .merge j i (fun a _ => a) else .merge i j (fun _ b => b)
    | _, _ => .merge i j (fun _ b => b)
  | .newBuilder => .newBuilder
  | .put b k v => .add b ⟨k, v⟩
  | .remove b k => .remove b (newMapKey k)
  | .finish b => .finish b

/-- Perform the map calls in order. -/
def World.runMap [GoKey K] [Inhabited V] (G : Growth) (w : World (Entry K V)) : List (MOp K V) → World (Entry K V)
  | [] => w
  | op :: ops => (w.step G (op.call w)).runMap G ops

/-- map.go:90-95 `Get` (and map_builder.go:38-46) in memory. -/
def MTree.mapGet [GoKey K] [Inhabited V] (m : MTree) (H : Mem (Entry K V)) (k : K) : Go (Option V) := do
  let r ← m.get H (newMapKey k)
  pure (r.map (·.value))

/-- The calls on map builders. -/
def MOp.isBuilderCall : MOp K V → Bool
  | .newBuilder => true
  | .put _ _ _ => true
  | .remove _ _ => true
  | .finish _ => true
  | _ => false

/-- The calls other than `With`, `Merge` and `Update`. -/
def MOp.mayAppend : MOp K V → Bool
  | .with _ _ _ => true
  | .merge _ _ _ => true
  | .update _ _ => true
  | _ => false

end Frozen
