import Verif.Props.IntMem
import Verif.Props.Footprint

/-!
# C65 for integer sets that share memory

What an integer set keeps alive in any history over one memory (Spec/IntHistory.lean), whichever integers were put into it.
-/

set_option linter.unusedSectionVars false

namespace Frozen

variable {w : Nat} [GoKey (BitVec w)] [PrimKey (BitVec w)]

omit [GoKey (BitVec w)] [PrimKey (BitVec w)] in
theorem length_cellsOut (es : List (Entry (BitVec w) CellMask)) : es.length ≤ (cellsOut es).length := by
  induction es with
  | nil => exact Nat.zero_le _
  | cons e es ih =>
    simp only [cellsOut, List.flatMap_cons, List.length_append, List.length_cons] at ih ⊢
    omega

/-- C65: an integer set keeps at most 25/3 nodes and arrays alive for each element its `Elements` has now, whatever larger sets it was made
from. (As long as no call adds a block of integers to a set that has three others with the same 64-bit hash, C71.) -/
theorem C65_intset_memory (G : Growth) (sg : Bool) (ops : List (IntOp w)) (hr : RoomyFrom sg [] ops) (i : Nat) (s : MInt)
    (hs : ((IntWorld.init : IntWorld w).run G sg ops).sets[i]? = some s) :
    let x := (IntWorld.init : IntWorld w).run G sg ops
    ∃ m l, x.maps.sets[s.data]? = some m ∧ x.ask s.elements = .ok l ∧ x.maps.mem.KeepsAtMost m.root (25 * l.length / 3) := by
  intro x
  obtain ⟨V, h1, h2, h3⟩ := IntSim.run G sg ops IntSim.init hr
  obtain ⟨v, _, k2⟩ := h3 i s hs
  obtain ⟨m, hm, _, he, hv, S, n, hn, hval⟩ := h1.at k2.1
  have hel : x.ask s.elements = .ok (cellsOut v.data.tree.list) := by
    unfold IntWorld.ask MInt.elements
    obtain ⟨r, W', V', ⟨g1, _⟩, _, _, _, rfl⟩ := runs_range h1 k2.1
    rw [IM.bind_ok g1]; rfl
  refine ⟨m, _, hm, hel, ?_⟩
  obtain ⟨L, l1, l2⟩ := keeps_parts hn
  have hroot : v.data.tree.root = n := by rw [← hval]; rfl
  have hwf := hv.wf
  rw [hroot] at hwf
  have p1 := parts_le n 0 hwf
  have h22 : maxTreeDepth = 22 := rfl
  rw [h22] at p1
  have p2 := length_cellsOut v.data.tree.list
  have p3 : v.data.tree.list.length = (elems n).length := by rw [← hval]; rfl
  exact ⟨L, by omega, l2⟩

/-- C65: an integer set without elements keeps nothing alive. -/
theorem C65_intset_memory_empty (G : Growth) (sg : Bool) (ops : List (IntOp w)) (hr : RoomyFrom sg [] ops) (i : Nat) (s : MInt)
    (hs : ((IntWorld.init : IntWorld w).run G sg ops).sets[i]? = some s)
    (h0 : ((IntWorld.init : IntWorld w).run G sg ops).ask s.elements = .ok []) :
    let x := (IntWorld.init : IntWorld w).run G sg ops
    ∃ m, x.maps.sets[s.data]? = some m ∧ ∀ a, ¬ x.maps.mem.Keeps m.root a := by
  intro x
  obtain ⟨m, l, h1, h2, L, h3, h4⟩ := C65_intset_memory G sg ops hr i s hs
  rw [h0] at h2
  cases h2
  refine ⟨m, h1, fun a ha => ?_⟩
  cases List.length_eq_zero_iff.1 (show L.length = 0 by simpa using h3)
  exact absurd (h4 a ha) (by simp)

/-! ## The hypotheses can be met -/

section
attribute [local instance] exampleIntKey

/-- A set of three integers in three blocks, the set without them, and a set that has one of them. -/
example :
    let x := (IntWorld.init : IntWorld 64).run goGrowth true [.new id [1#64, 100#64, 200#64], .where 0 (fun _ => false), .without 0 1#64,
      .without 2 100#64]
    x.sets.map (·.count) = [3, 0, 2, 1] ∧ x.sets[1]?.any (fun s => isOk (x.ask s.elements) []) = true ∧
      x.sets[3]?.any (fun s => isOk (x.ask s.elements) [200#64]) = true := by
  decide +kernel

/-- Histories without `With` and `Union` add nothing to a set. -/
example : RoomyFrom true [] ([.new id [1#64, 100#64, 200#64], .where 0 (fun _ => false), .without 0 1#64, .without 2 100#64] :
    List (IntOp 64)) := ⟨trivial, trivial, trivial, trivial, trivial⟩

end

end Frozen
