import Verif.Proof.IntLiveCut
import Verif.Props.IntCrash

/-!
# C50 and C54 inside the library: a call of `Where` on an integer set that is abandoned

Model/IntLiveCut.lean calls `Next` between the puts of `Where`, as the code does; Model/IntCrash.lean, which the other theorems about
abandoned calls speak of, reads the map when the loop starts.
-/

set_option linter.unusedSectionVars false

namespace Frozen

section
variable {w : Nat} [GoKey (BitVec w)] [PrimKey (BitVec w)]

/-- C50, C54: after any history of calls, abandoned ones included, that never adds a block of 64 integers to a set that has three others
with the same 64-bit hash: a call of `Where` that is abandoned after `n` blocks leaves the memory it would leave if it had read all blocks
before the first put. Missing: the other histories. -/
theorem C54_intset_abandoned_loop_partial (G : Growth) (sg : Bool) (es : List (IntEvent w)) (hr : RoomyFrom sg [] (completed es)) :
    let x := (IntWorld.init : IntWorld w).events G sg es
    ∀ s ∈ x.sets, ∀ pred n, s.whereLiveCut G pred n x.maps = s.whereCut G pred n x.maps := by
  intro x s hs pred n
  obtain ⟨V, h1, _, h3⟩ := IntSim.events G sg es IntSim.init hr
  obtain ⟨i, hi⟩ := List.mem_iff_getElem?.1 hs
  obtain ⟨v, _, hv⟩ := h3 i s hi
  exact whereLiveCut_eq G h1 hv pred n

end

/-! ## The hypotheses can be met -/

section
attribute [local instance] exampleIntKey

/-- `Where` on {1, 2, 200}, abandoned after one block, leaves a builder with an entry. -/
example :
    let x := (IntWorld.init : IntWorld 16).events goGrowth true [.call (.new id [1#16, 2#16, 200#16]), .cut 0 (fun n => n != 1#16) 1]
    (match x.sets[0]? with
      | some s => (match s.whereLiveCut goGrowth (fun n => n != 2#16) 1 x.maps with
        | .ok (_, W) => W.builders.length == x.maps.builders.length + 1 && W.builders.any (fun b => b.root.isSome)
        | .error _ => false)
      | none => false) = true := by
  decide +kernel

/-- The hypothesis is met: this hash has no collisions. -/
example : RoomyFrom true [] (completed ([.call (.new id [1#16, 2#16, 200#16]), .cut 0 (fun n => n != 1#16) 1, .call (.with 0 300#16)] :
    List (IntEvent 16))) := roomy_of_few (exampleIntKey_few (by decide)) true _ _

end

end Frozen
