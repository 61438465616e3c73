import Verif.Proof.IntLive

/-!
# C54 inside the library: loops over an integer set that make other calls

`Where`, `Union` and `Intersection` of integer sets make calls on maps and map builders while they iterate over a map. Model/IntLive.lean
calls `Next` between those calls, as the code does; Model/IntMem.lean reads the map when the loop starts.
-/

set_option linter.unusedSectionVars false

namespace Frozen

section
variable {w : Nat} [GoKey (BitVec w)] [PrimKey (BitVec w)]

/-- C54 for the loops of `Where`, `Union` and `Intersection`, after a history that never adds a cell (a block of 64 integers) to a set that
has three others with the same 64-bit hash: the iterator that is under way delivers what the map had when the loop started, whatever the
loop body did to memory. So the result is the one of a loop over a list of the entries, and so is the memory. The loop ends: a number `N` of
calls of `Next` suffices. For `Union` the call itself must not add such a cell either. Missing: the other histories. -/
theorem C54_intset_loops_partial (G : Growth) (sg : Bool) (ops : List (IntOp w)) (hr : RoomyFrom sg [] ops) :
    let x := (IntWorld.init : IntWorld w).run G sg ops
    ∀ (i j : Nat) (s t : MInt), x.sets[i]? = some s → x.sets[j]? = some t → ∃ N : Nat, ∀ n, N < n →
      ((IntOp.union i j).Roomy sg (intRun sg ops) → s.unionLive G n t x.maps = s.union G t x.maps) ∧
      s.intersectionLive G n t x.maps = s.intersection G t x.maps ∧
      ∀ pred, t.whereLive G n pred x.maps = t.where G pred x.maps := by
  intro x i j s t hs ht
  obtain ⟨V, h1, _, h3⟩ := IntSim.run G sg ops IntSim.init hr
  obtain ⟨v, hv, hsv⟩ := h3 i s hs
  obtain ⟨u, hu, htu⟩ := h3 j t ht
  exact ⟨u.data.tree.list.length, fun n hn => ⟨fun hU => unionLive_eq G h1 hsv htu (hU v u hv hu) n hn,
    intersectionLive_eq G h1 s htu n hn, fun pred => whereLive_eq G h1 htu pred n hn⟩⟩

end

/-! ## The hypotheses can be met -/

section
attribute [local instance] exampleIntKey

/-- Two sets that share a block of integers, and their union with the iterator under way: three calls of `Next` suffice. -/
example :
    let x := (IntWorld.init : IntWorld 16).run goGrowth true [.new id [1#16, 2#16, 200#16], .new id [3#16, 300#16]]
    (match x.sets[0]?, x.sets[1]? with
    | some s, some t =>
      match s.unionLive goGrowth 3 t x.maps with
      | .ok (r, W) => decide (r.count = 5) && isOk (IntWorld.ask ⟨W, []⟩ (r.has true 300#16)) true
      | .error _ => false
    | _, _ => false) = true := by
  decide +kernel

/-- The hypotheses are met: this hash has no collisions. -/
example : let ops : List (IntOp 16) := [.new id [1#16, 2#16, 200#16], .new id [3#16, 300#16]]
    RoomyFrom true [] ops ∧ (IntOp.union 0 1 : IntOp 16).Roomy true (intRun true ops) :=
  ⟨roomy_of_few (exampleIntKey_few (by decide)) true _ _, fun _ _ _ _ c _ => .inr (crowded_few (exampleIntKey_few (by decide)) _ c)⟩

end

end Frozen
