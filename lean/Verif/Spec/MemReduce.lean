import Verif.Model.MemReduce
import Verif.Spec.Set

/-! # Functions passed to `Reduce` -/

namespace Frozen

variable {T : Type}

/-- The slice after the assignments. -/
def applyEdits (l : List T) (es : List (Nat × T)) : List T := es.foldl (fun l e => l.set e.1 e.2) l

/-- The function only reorders the elements of the slice it is given, by sorting it, say. -/
def Reducer.Reorders (R : Reducer T) : Prop := ∀ l, (∀ e ∈ R.edits l, e.1 < l.length) ∧ (applyEdits l (R.edits l)).Perm l

/-- The function does not write to the slice it is given. -/
def Reducer.ReadOnly (R : Reducer T) : Prop := ∀ l, R.edits l = []

/-- No three pairwise different values share a 64-bit hash. -/
def NoTriples (T : Type) [GoKey T] : Prop := ∀ v : T, ¬ AtLeast 2 (fun w => GoKey.eq w v = false ∧ hash0 w = hash0 v)

end Frozen
