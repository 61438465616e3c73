import Verif.Proof.MemKeeps
import Verif.Proof.MemSafe
import Verif.Proof.Tree

/-! The tree methods in memory. -/

set_option linter.unusedSectionVars false

namespace Frozen

variable {T : Type} [GoKey T] [PerGoKey T]

/-- The value a tree in memory stands for, given the node at its root. -/
def MTree.val (t : MTree) (n : Node T) : Tree T := ⟨n, t.count⟩

/-- What the result of a tree method is related to. -/
def TreeRes (H : Mem T) (S : Set Loc) (r : MTree) (s : Tree T) (H' : Mem T) : Prop :=
  r.count = s.count ∧ Rep H' (S ∪ New H H') 0 r.root s.root

theorem MTree.get_eq {H : Mem T} {S : Set Loc} {t : MTree} {n : Node T} (h : Rep H S 0 t.root n) (v : T) :
    t.get H v = (t.val n).get v := by
  unfold MTree.get Tree.get MTree.val
  rw [h.isNone]
  by_cases hn : n.isNil = true
  · rw [if_pos hn, if_pos hn]
  · rw [if_neg hn, if_neg hn]; exact getM_eq h memFuel v _ (fuelOk_mem 0)

theorem MTree.with_sim (G : Growth) {H : Mem T} {S W : Set Loc} {t : MTree} {n : Node T} (h : Rep H S 0 t.root n) (hl : Live H S)
    (v : T) (hW : ∀ a, Loc.cell a ∉ W) (hna : NoAppend GoKey.eq n v (newHasher v 0) ∨ arrs S ⊆ W) :
    Sim W H (t.with G v) ((t.val n).with v) (fun r s H' => r.count = s.count ∧ (W = ∅ → Rep H' (S ∪ New H H') 0 r.root s.root) ∧
      ∃ n', Rep H' (S ∪ New H H') 0 r.root n') := by
  unfold MTree.with Tree.with MTree.val
  rw [h.isNone]
  by_cases hn : n.isNil = true
  · rw [if_pos hn, if_pos hn]
    have hr : Rep ⟨H.cells ++ [Cell.leaf1 v], H.arrays, H.log⟩ (S ∪ New H ⟨H.cells ++ [Cell.leaf1 v], H.arrays, H.log⟩) 0 (some H.cells.length)
        (.leaf1 v) := .leaf1 cells_new (.inr new_cell)
    exact Sim.step rfl (changes_alloc _ _ _) (Sim.pure ⟨rfl, fun _ => hr, _, hr⟩)
  · rw [if_neg hn, if_neg hn, withFast_eq]
    refine Sim.bind (withM_sim G fastArgs memFuel H S W 0 t.root n v _ h hl (fuelOk_mem 0) hW hna) ?_
    rintro ⟨p, ms⟩ ⟨n', ms'⟩ H1 hc ⟨h1, _, h2, h3⟩
    obtain rfl : ms = ms' := h1
    exact Sim.pure ⟨rfl, h2, h3⟩

theorem MTree.without_sim (G : Growth) {H : Mem T} {S : Set Loc} {t : MTree} {n : Node T} (h : Rep H S 0 t.root n) (hl : Live H S)
    (v : T) : Sim ∅ H (t.without G v) ((t.val n).without v) (TreeRes H S) := by
  unfold MTree.without Tree.without MTree.val
  rw [h.isNone]
  by_cases hn : n.isNil = true
  · rw [if_pos hn, if_pos hn]
    exact Sim.pure ⟨rfl, h.mono Set.subset_union_left⟩
  · rw [if_neg hn, if_neg hn]
    refine Sim.bind (withoutM_sim G memFuel H S 0 t.root n v _ h hl (fuelOk_mem 0)) ?_
    rintro ⟨p, ms⟩ ⟨n', ms', sm⟩ H1 hc ⟨h1, h2, _⟩
    obtain rfl : ms = ms' := h1
    exact Sim.pure ⟨rfl, h2⟩

theorem MTree.where_sim (G : Growth) {H : Mem T} {S : Set Loc} {t : MTree} {n : Node T} (h : Rep H S 0 t.root n) (hl : Live H S)
    (p : T → Bool) : Sim ∅ H (t.where G p) ((t.val n).where p) (TreeRes H S) := by
  unfold MTree.where Tree.where MTree.val
  rw [h.isNone]
  by_cases hn : n.isNil = true
  · rw [if_pos hn, if_pos hn]
    exact Sim.pure ⟨rfl, h.mono Set.subset_union_left⟩
  · rw [if_neg hn, if_neg hn]
    refine Sim.bind (whereM_sim G p memFuel H S 0 t.root n h hl (fuelOk_mem 0)) ?_
    rintro ⟨p, ms⟩ ⟨n', ms', sm⟩ H1 hc ⟨h1, h2, _⟩
    obtain rfl : ms = ms' := h1
    exact Sim.pure ⟨rfl, h2⟩

theorem MTree.difference_sim (G : Growth) {H : Mem T} {S : Set Loc} {t u : MTree} {n m : Node T} (h : Rep H S 0 t.root n)
    (hu : Rep H S 0 u.root m) (hl : Live H S) :
    Sim ∅ H (t.difference G u) ((t.val n).difference (u.val m)) (TreeRes H S) := by
  unfold MTree.difference Tree.difference MTree.val
  rw [h.isNone, hu.isNone]
  by_cases hn : (n.isNil || m.isNil) = true
  · rw [if_pos hn, if_pos hn]
    exact Sim.pure ⟨rfl, h.mono Set.subset_union_left⟩
  · rw [if_neg hn, if_neg hn]
    refine Sim.bind (differenceM_sim G memFuel H S 0 t.root u.root n m h hu hl (fuelOk_mem 0)) ?_
    rintro ⟨p, ms⟩ ⟨n', ms'⟩ H1 hc ⟨h1, h2⟩
    obtain rfl : ms = ms' := h1
    exact Sim.pure ⟨rfl, h2⟩

theorem MTree.intersection_sim (G : Growth) {H : Mem T} {S : Set Loc} {t u : MTree} {n m : Node T} (h : Rep H S 0 t.root n)
    (hu : Rep H S 0 u.root m) (hl : Live H S) :
    Sim ∅ H (t.intersection G u) ((t.val n).intersection (u.val m)) (TreeRes H S) := by
  unfold MTree.intersection Tree.intersection MTree.val
  rw [h.isNone, hu.isNone]
  by_cases hn : (n.isNil || m.isNil) = true
  · rw [if_pos hn, if_pos hn]
    exact Sim.pure ⟨rfl, .nil _⟩
  · rw [if_neg hn, if_neg hn]
    dsimp only
    by_cases hc : t.count > u.count
    · simp only [if_pos hc]
      refine Sim.bind (intersectionM_sim G memFuel H S 0 u.root t.root m n hu h hl (fuelOk_mem 0)) ?_
      rintro ⟨p, ms⟩ ⟨n', ms'⟩ H1 hc ⟨h1, h2⟩
      obtain rfl : ms = ms' := h1
      exact Sim.pure ⟨rfl, h2⟩
    · simp only [if_neg hc]
      refine Sim.bind (intersectionM_sim G memFuel H S 0 t.root u.root n m h hu hl (fuelOk_mem 0)) ?_
      rintro ⟨p, ms⟩ ⟨n', ms'⟩ H1 hc ⟨h1, h2⟩
      obtain rfl : ms = ms' := h1
      exact Sim.pure ⟨rfl, h2⟩

theorem MTree.combine_sim (G : Growth) {H : Mem T} {S : Set Loc} {t u : MTree} {n m : Node T} (h : Rep H S 0 t.root n)
    (hu : Rep H S 0 u.root m) (hl : Live H S) (args : CombineArgs T) (hs : CombineSafe n args m 0) :
    Sim ∅ H (t.combine G args u) ((t.val n).combine args (u.val m)) (TreeRes H S) := by
  unfold MTree.combine Tree.combine MTree.val
  rw [h.isNone, hu.isNone]
  by_cases hn : n.isNil = true
  · rw [if_pos hn, if_pos hn]
    exact Sim.pure ⟨rfl, hu.mono Set.subset_union_left⟩
  · rw [if_neg hn, if_neg hn]
    by_cases hn2 : m.isNil = true
    · rw [if_pos hn2, if_pos hn2]
      exact Sim.pure ⟨rfl, h.mono Set.subset_union_left⟩
    · rw [if_neg hn2, if_neg hn2]
      refine Sim.bind (combineM_sim G memFuel H S 0 t.root u.root n m args h hu hl (fuelOk_mem 0) hs) ?_
      rintro ⟨p, ms⟩ ⟨n', ms'⟩ H1 hc ⟨h1, h2⟩
      obtain rfl : ms = ms' := h1
      exact Sim.pure ⟨rfl, h2⟩

theorem MTree.combine_keeps (G : Growth) {H : Mem T} {S : Set Loc} {t u : MTree} {n m : Node T} (h : Rep H S 0 t.root n)
    (hu : Rep H S 0 u.root m) (hl : Live H S) (args : CombineArgs T) :
    Keeps (arrs S) H (t.combine G args u) (fun r H' => ∃ n', Rep H' (S ∪ New H H') 0 r.root n') := by
  unfold MTree.combine
  by_cases hn : t.root.isNone = true
  · rw [if_pos hn]
    exact Keeps.pure ⟨_, hu.mono Set.subset_union_left⟩
  · rw [if_neg hn]
    by_cases hn2 : u.root.isNone = true
    · rw [if_pos hn2]
      exact Keeps.pure ⟨_, h.mono Set.subset_union_left⟩
    · rw [if_neg hn2]
      refine Keeps.bind (combineM_keeps G memFuel H S 0 t.root u.root n m args h hu hl (fuelOk_mem 0)) ?_
      rintro ⟨p, ms⟩ H1 hc ⟨n', hn'⟩
      exact Keeps.pure ⟨n', hn'⟩

theorem MTree.add_sim (G : Growth) {H : Mem T} {F : Set Loc} {t : MTree} {n : Node T} (h : Own H F 0 t.root n) (hl : Live H F)
    (v : T) : Sim F H (t.add G v) (Builder.add (t.val n) v)
      (fun r s H' => r.count = s.count ∧ Own H' (F ∪ New H H') 0 r.root s.root) := by
  unfold MTree.add Builder.add MTree.val
  rw [h.rep.isNone]
  by_cases hn : n.isNil = true
  · rw [if_pos hn, if_pos hn]
    exact Sim.step rfl (changes_alloc _ _ _) (Sim.pure ⟨rfl, .leaf1 cells_new (.inr new_cell)⟩)
  · rw [if_neg hn, if_neg hn]
    refine Sim.bind (addFastM_sim G memFuel H F 0 t.root n v _ h hl ?_ (by decide)) ?_
    · unfold addNeed memFuel; have : maxTreeDepth = 22 := rfl; split <;> omega
    · rintro ⟨p, ms⟩ ⟨n', ms'⟩ H1 hc ⟨h1, h2, _⟩
      obtain rfl : ms = ms' := h1
      exact Sim.pure ⟨rfl, h2⟩

theorem MTree.remove_sim (G : Growth) {H : Mem T} {F : Set Loc} {t : MTree} {n : Node T} (h : Own H F 0 t.root n) (hl : Live H F)
    (v : T) : Sim F H (t.remove G v) (Builder.remove (t.val n) v)
      (fun r s H' => r.count = s.count ∧ Own H' (F ∪ New H H') 0 r.root s.root) := by
  unfold MTree.remove Builder.remove MTree.val
  rw [h.rep.isNone]
  by_cases hn : n.isNil = true
  · rw [if_pos hn, if_pos hn]
    exact Sim.pure ⟨rfl, h.mono Set.subset_union_left⟩
  · rw [if_neg hn, if_neg hn]
    refine Sim.bind (removeM_sim G memFuel H F 0 t.root n v _ h hl (fuelOk_mem 0)) ?_
    rintro ⟨p, ms⟩ ⟨n', ms'⟩ H1 hc ⟨h1, h2⟩
    obtain rfl : ms = ms' := h1
    exact Sim.pure ⟨rfl, h2⟩

end Frozen
