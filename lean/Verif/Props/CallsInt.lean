import Verif.Proof.CallsInt
import Verif.Spec.Calls
import Verif.Props.Calls
import Verif.Props.IntSet

/-! # C55 for integer sets

`IntSet.whereE` and `IntSet.mapE` (`Model/CallsInt.lean`) are `Where` and `Map` with their calls of the user's function. -/

set_option linter.unusedSectionVars false

namespace Frozen

variable {w : Nat} [GoKey (BitVec w)] [PrimKey (BitVec w)]

/-- C55 for `IntSet.Where`: the predicate is called on each element exactly once, in iteration order, whatever it answers. The result
is the set of the integers for which it answered true. (Every program is `AllStorable` if the type is unsigned; see C21 for what
negative integers do to a set.) -/
theorem C55_intWhere (hw : 8 ≤ w) (hw2 : w ≤ 64) (sg : Bool) (p : IntProg w) (hp : p.AllStorable sg) : ∃ s l, p.run sg = .ok s ∧
    s.elements = .ok l ∧ CB.Asks l (fun as r => IsIntSet sg r (fun i => (i, true) ∈ l.zip as)) s.whereE := by
  obtain ⟨s, F, h1, h2, h3⟩ := IntProg.run_spec hw hw2 p hp
  refine ⟨s, _, h1, h2.cells.elements, ?_⟩
  refine CB.Makes.asks (IntSet.makes_whereE h2.cells) h2.cells.nodup_elems (fun f => ?_)
  obtain ⟨r, G, g1, g2, g3⟩ := h2.where hw hw2 f
  refine ⟨r, by rw [IntSet.eval_whereE, g1], g2.isIntSet hw hw2 (fun i => ?_)⟩
  rw [g3, mem_zip_map, h2.cells.mem_elems hw hw2]
  exact and_congr_right (fun _ => ⟨Eq.symm, Eq.symm⟩)

theorem newIntSet_total (sg : Bool) (order : List (BitVec w × CellMask) → List (BitVec w × CellMask)) (is : List (BitVec w)) :
    ∃ s, newIntSet sg order is = .ok s := by
  obtain ⟨m, h1, _⟩ := buildMap_spec ((order (is.foldl (intSetCell sg) [])).map (fun e => (⟨e.1, e.2⟩ : KeyValue (BitVec w) CellMask)))
  simp only [newIntSet, h1, bind, Except.bind, pure, Except.pure]
  exact ⟨_, rfl⟩

/-- C55 for `IntSet.Map`: the function is called on each element exactly once, in iteration order, whatever it answers, in whatever
`order` the runtime iterates over Go maps. The result is the set of the answers, if all can be stored in a set. -/
theorem C55_intMap (hw : 8 ≤ w) (hw2 : w ≤ 64) (sg : Bool) (p : IntProg w) (hp : p.AllStorable sg)
    (order : List (BitVec w × CellMask) → List (BitVec w × CellMask)) (ho : ∀ l, (order l).Perm l) : ∃ s l, p.run sg = .ok s ∧
    s.elements = .ok l ∧ CB.Asks l (fun as r => (∀ a ∈ as, Storable sg a) → IsIntSet sg r (fun i => i ∈ as)) (s.mapE sg order) := by
  obtain ⟨s, F, h1, h2, h3⟩ := IntProg.run_spec hw hw2 p hp
  refine ⟨s, _, h1, h2.cells.elements, ?_⟩
  refine CB.Makes.asks (IntSet.makes_mapE h2.cells order) h2.cells.nodup_elems (fun f => ?_)
  obtain ⟨r, g1⟩ := newIntSet_total sg order ((cellElems s.data.tree.list).map f)
  refine ⟨r, ?_, fun hs => ?_⟩
  · rw [IntSet.eval_mapE]
    simp only [IntSet.map, h2.cells.elements, bind, Except.bind, g1]
  · obtain ⟨r', G, k1, k2, k3⟩ := newIntSet_spec hw hw2 order ho _ hs
    rw [g1] at k1; cases k1
    exact k2.isIntSet hw hw2 k3

/-- With a pure function these are the functions C21 is about. -/
theorem C55_int_pure (sg : Bool) (order : List (BitVec w × CellMask) → List (BitVec w × CellMask)) (s : IntSet w) (p : BitVec w → Bool)
    (f : BitVec w → BitVec w) : s.whereE.eval p = s.where p ∧ (s.mapE sg order).eval f = s.map sg order f :=
  ⟨IntSet.eval_whereE s p, IntSet.eval_mapE sg order s f⟩

section
attribute [local instance] exampleIntKey

/-- Five integers in three cells; a predicate that notes its argument and accepts every other call is called once for each integer, in
the order of `Elements()`, and the result has three elements. -/
example : okAnd ((IntProg.with (.new (w := 16) id (fun l => List.Perm.refl l) [1#16, 5#16, 64#16, 1000#16]) 63#16).run false) (fun s =>
    let out := (s.whereE.perform (fun x => do
      let (l, b) ← MonadState.get
      set (l ++ [x], !b)
      pure b) : StateM (List (BitVec 16) × Bool) _).run ([], true)
    okAnd s.elements (fun l => decide (out.2.1 = l) && decide (l.length = 5)) && okAnd out.1 (fun r => decide (r.count = 3))) = true := by
  decide +kernel

end

end Frozen
