import Verif.Model.Parallel
import Verif.Spec.Set
import Mathlib.Logic.Basic

/-! # Goroutines after a call, and races inside a call: specification -/

namespace Frozen

variable {X : Type}

/-- Whenever the call returns an `a` with `P a`, all goroutines it has started have ended: none is still computing, and so none calls a
function of the user any more. -/
def Call.EndedIf {α : Type} (P : α → Prop) : Call α → Prop
  | .seq _ => True
  | .run c k => ∀ s r a, Reaches c s → s.result = some r → k r = .ok a → P a → s.finished

/-- When the call returns, all goroutines it has started have ended. -/
def Call.Ended {α : Type} (c : Call α) : Prop := c.EndedIf (fun _ => True)

/-- The code of a goroutine that has been started and not yet run at all is somewhere in the state. -/
def St.unrun : St X → Prop
  | .idle => False
  | .start _ => True
  | .done _ => False
  | .par _ kids _ => ∃ i, (kids i).unrun

/-- What the goroutines of one `Parallel` share: the mask and the slots of the node they fill. -/
inductive Shared where
  | mask
  | slot (i : Fin 8)
deriving DecidableEq

/-- The shared variable that goroutine `i` accesses with its next step, and whether it writes it. -/
def Phase.access (i : Fin 8) : Phase → Option (Shared × Bool)
  | .readMask => some (.mask, false)
  | .writeMask _ => some (.mask, true)
  | .store => some (.slot i, true)
  | _ => none

/-- Two goroutines are about to access the same variable, and one of them writes it; or the caller is about to read all of them when a
goroutine still writes. Nothing orders the two accesses, for neither goroutine waits for the other. -/
def St.races : St X → Prop
  | .par _ kids v =>
    (∃ i j x w, i ≠ j ∧ (v.phase i).access i = some (x, true) ∧ (v.phase j).access j = some (x, w)) ∨
    (v.todo = [] ∧ v.res = none ∧ v.want = 0 ∧ ∃ i, ((v.phase i).access i).isSome) ∨
    ∃ i, (kids i).races
  | _ => False

/-- No schedule leads to a race. -/
def Call.RaceFree {α : Type} : Call α → Prop
  | .seq _ => True
  | .run c _ => ∀ s, Reaches c s → ¬ s.races

/-- Exactly one of the two sets has an element whose hash begins with the bits `h`. -/
def FSet.Alone {T : Type} [GoKey T] (s t : FSet T) (h : BitVec 64) : Prop :=
  Xor' (∃ a, s.has a = .ok true ∧ hash0 a >>> 61 = h) (∃ a, t.has a = .ok true ∧ hash0 a >>> 61 = h)

end Frozen
