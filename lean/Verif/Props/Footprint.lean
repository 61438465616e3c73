import Verif.Proof.Footprint
import Verif.Props.MapWork
import Verif.Props.IntSet

/-!
# The memory a collection keeps alive

Property C65. A set, map or builder keeps at most 25/3 nodes and arrays alive for each element it has now, whatever it was made from:
removing elements gives their memory back. The sets in memory are those of any history as in C10, the builders those of any history.
-/

set_option linter.unusedSectionVars false

namespace Frozen

section sets
variable {T : Type} [GoKey T] [LawfulGoKey T]

/-- C65: the nodes and arrays a set in memory keeps alive. -/
theorem C65_set (G : Growth) (ops : List (HOp T)) (hu : UncrowdedRun G World.init ops) (i : Nat) (s : MTree)
    (hs : (World.init.run G ops).sets[i]? = some s) : (World.init.run G ops).mem.KeepsAtMost s.root (25 * s.count.toNat / 3) := by
  obtain ⟨S, B, h⟩ := run_inv G ops (HistInv.init true) (fun _ => hu)
  obtain ⟨n, hn, hv⟩ := h.sets i s hs
  obtain ⟨L, h1, h2⟩ := keeps_parts hn
  have h3 := parts_le n 0 (hv rfl).2.wf
  have h4 : s.count = (elems n).length := (hv rfl).2.count
  have h22 : maxTreeDepth = 22 := rfl
  rw [h22] at h3
  exact ⟨L, by omega, h2⟩

/-- C65: the nodes and arrays a builder keeps alive, in any history. -/
theorem C65_builder (G : Growth) (ops : List (HOp T)) (k : Nat) (b : MTree) (hb : (World.init.run G ops).builders[k]? = some b) :
    (World.init.run G ops).mem.KeepsAtMost b.root (25 * b.count.toNat / 3) := by
  obtain ⟨S, B, h⟩ := run_inv G ops (HistInv.init false) (nomatch ·)
  obtain ⟨n, hn, _, hv⟩ := h.blds k b hb
  obtain ⟨L, h1, h2⟩ := keeps_parts hn.rep
  have h3 := parts_le n 0 hv.wf
  have h4 : b.count = (elems n).length := hv.count
  have h22 : maxTreeDepth = 22 := rfl
  rw [h22] at h3
  exact ⟨L, by omega, h2⟩

/-- C65: the empty set keeps nothing alive, however large it was. -/
theorem C65_empty (G : Growth) (ops : List (HOp T)) (hu : UncrowdedRun G World.init ops) (i : Nat) (s : MTree)
    (hs : (World.init.run G ops).sets[i]? = some s) (h0 : s.count = 0) : ∀ l, ¬ (World.init.run G ops).mem.Keeps s.root l := by
  obtain ⟨L, h1, h2⟩ := C65_set G ops hu i s hs
  rw [h0] at h1
  intro l hl
  cases List.length_eq_zero_iff.1 (Nat.le_zero.1 h1)
  exact absurd (h2 l hl) (by simp)

/-- C65: the nodes and arrays of the tree of any set that a program over the set API can make. -/
theorem C65_set_programs (s : FSet T) (hs : s.Reachable) : 3 * s.tree.root.parts ≤ 25 * s.count.toNat := by
  have h3 := parts_le s.tree.root 0 hs.valid.wf
  have h4 : s.count = (elems s.tree.root).length := hs.valid.count
  have h22 : maxTreeDepth = 22 := rfl
  rw [h22] at h3
  omega

end sets

section maps
variable {K V : Type} [GoKey K] [LawfulGoKey K] [Inhabited V]

/-- C65: the nodes and arrays a map in memory keeps alive. -/
theorem C65_map (G : Growth) (ops : List (MOp K V)) (hu : UncrowdedMapRun G World.init ops) (i : Nat) (m : MTree)
    (hm : (World.init.runMap G ops).sets[i]? = some m) :
    (World.init.runMap G ops).mem.KeepsAtMost m.root (25 * m.count.toNat / 3) := by
  have hu' := uncrowded_calls G _ _ hu
  rw [runMap_eq] at hm ⊢
  exact C65_set G _ hu' i m hm

/-- C65: the nodes and arrays a map builder keeps alive, in any history. -/
theorem C65_map_builder (G : Growth) (ops : List (MOp K V)) (k : Nat) (b : MTree)
    (hb : (World.init.runMap G ops).builders[k]? = some b) :
    (World.init.runMap G ops).mem.KeepsAtMost b.root (25 * b.count.toNat / 3) := by
  rw [runMap_eq] at hb ⊢
  exact C65_builder G _ k b hb

/-- C65: the nodes and arrays of the tree of any map that a program over the map API can make. -/
theorem C65_map_programs (m : FMap K V) (hm : m.Reachable) : 3 * m.tree.root.parts ≤ 25 * m.count.toNat := by
  have h3 := parts_le m.tree.root 0 hm.valid.wf
  have h4 : m.count = (elems m.tree.root).length := hm.valid.count
  have h22 : maxTreeDepth = 22 := rfl
  rw [h22] at h3
  omega

end maps

section ints
variable {w : Nat} [GoKey (BitVec w)] [PrimKey (BitVec w)]

/-- C65: the nodes and arrays of an integer set. -/
theorem C65_intset (hw : 8 ≤ w) (hw2 : w ≤ 64) (sg : Bool) (p : IntProg w) (hp : p.AllStorable sg) :
    ∃ s, p.run sg = .ok s ∧ 3 * s.data.tree.root.parts ≤ 25 * s.count.toNat := by
  obtain ⟨s, F, h1, h2, _⟩ := IntProg.run_spec hw hw2 p hp
  refine ⟨s, h1, ?_⟩
  have h3 := parts_le s.data.tree.root 0 h2.cells.valid.wf
  have h4 : s.count = (cellElems s.data.tree.list).length := by rw [h2.count, h2.cells.total_list, cellElems_length]
  have h5 : s.data.tree.list.length ≤ (cellElems s.data.tree.list).length := by
    have : ∀ l : List (Entry (BitVec w) CellMask), (∀ e ∈ l, e.value.bits ≠ 0#64) → l.length ≤ (cellElems l).length := by
      intro l
      induction l with
      | nil => intro _; exact Nat.zero_le _
      | cons e l ih =>
        intro h
        have i1 := ih (fun e he => h e (by simp [he]))
        have i2 : 1 ≤ (bitsOf e.value.bits).length :=
          List.length_pos_iff.2 (fun hc => h e (by simp) (bitsOf_eq_nil.1 hc))
        simp only [cellElems, List.flatMap_cons, List.length_append, List.length_cons, List.length_map] at i1 ⊢
        omega
    exact this _ (fun e he => (h2.cells.mem_list.1 he).2)
  have h22 : maxTreeDepth = 22 := rfl
  have h6 : s.data.tree.list.length = (elems s.data.tree.root).length := rfl
  rw [h22] at h3
  omega

end ints

/-! ## The hypotheses can be met, and the bound is nearly reached -/

/-- The sets and builders of `mixedHistory` are ones the theorems speak about. -/
example : UncrowdedRun goGrowth World.init mixedHistory ∧ ((World.init.run goGrowth mixedHistory).sets[4]?).isSome = true ∧
    ((World.init.run goGrowth mixedHistory).builders[1]?).isSome = true :=
  ⟨uncrowded_of_few mod100_few _ _ _ mixed_mergesOk, by decide +kernel⟩

/-- Three elements with one hash: 24 of the 25 nodes and arrays allowed. Without one of them a single leaf is left. -/
example : okAnd (newSet [(⟨1⟩ : Coll), ⟨2⟩, ⟨3⟩]) (fun s => decide (s.count = 3 ∧ s.tree.root.parts = 24) &&
    okAnd (s.without ⟨2⟩) (fun t => decide (t.count = 2 ∧ t.tree.root.parts = 1))) = true := by decide +kernel

end Frozen
