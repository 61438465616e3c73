import Verif.Spec.MapHistory

/-! # Map histories that never add a key to a crowded map -/

namespace Frozen

variable {K V : Type} [GoKey K] [Inhabited V]

/-- The map has the key. -/
def MTree.HasKey (m : MTree) (H : Mem (Entry K V)) (k : K) : Prop := ∃ v : V, m.mapGet H k = .ok (some v)

/-- The call adds no key to a map that has three other keys with the same 64-bit hash. -/
def UncrowdedMap (w : World (Entry K V)) : MOp K V → Prop
  | .with i k _ => ∀ m, w.sets[i]? = some m → m.HasKey w.mem k ∨ ¬ Crowded (m.HasKey w.mem) k
  | .merge i j _ => ∀ m n, w.sets[i]? = some m → w.sets[j]? = some n → ∀ k, (m.HasKey w.mem k ↔ n.HasKey w.mem k) ∨
      ¬ Crowded (fun u => m.HasKey w.mem u ∨ n.HasKey w.mem u) k
  | .update i j => ∀ m n, w.sets[i]? = some m → w.sets[j]? = some n → ∀ k, (m.HasKey w.mem k ↔ n.HasKey w.mem k) ∨
      ¬ Crowded (fun u => m.HasKey w.mem u ∨ n.HasKey w.mem u) k
  | _ => True

/-- Every call of the history adds no key to a crowded map. -/
def UncrowdedMapRun (G : Growth) (w : World (Entry K V)) : List (MOp K V) → Prop
  | [] => True
  | op :: ops => UncrowdedMap w op ∧ UncrowdedMapRun G (w.step G (op.call w)) ops

end Frozen
