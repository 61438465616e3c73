import Verif.Proof.ParallelOps
import Verif.Proof.Map
import Verif.Props.Witness

/-! # C11: parallel execution is unobservable

`Call.Behaves` (`Spec/Parallel.lean`): for every schedule, same results and same panics as the sequential run, no divergence, no deadlock
and no goroutine left blocked. The gauge `g` is arbitrary, so the statements hold whatever GOMAXPROCS, FROZEN_CONCURRENCY and the counts. -/

set_option linter.unusedSectionVars false

namespace Frozen

section
variable {T : Type} [GoKey T] [LawfulGoKey T]

/-- C11 for `Union`. The goroutines' unsynchronised updates of the packer's mask do not matter. -/
theorem C11_union {s t : FSet T} (hs : s.Reachable) (ht : t.Reachable) (g : Int) : (s.unionC g t).Behaves (s.union t) :=
  (Tree.combineC_behaves g hs.valid ht.valid _).map FSet.mk

/-- C11 for `Intersection`. -/
theorem C11_intersection {s t : FSet T} (hs : s.Reachable) (ht : t.Reachable) (g : Int) :
    (s.intersectionC g t).Behaves (s.intersection t) :=
  (Tree.intersectionC_behaves g hs.valid ht.valid).map FSet.mk

/-- C11 for `Difference` (which passes a gauge that disables parallelism, but could pass any). -/
theorem C11_difference {s t : FSet T} (hs : s.Reachable) (g : Int) : (s.differenceC g t).Behaves (s.difference t) :=
  (Tree.differenceC_behaves g hs.valid).map FSet.mk

/-- C11 for `Where`, for a predicate without side effects. -/
theorem C11_where {s : FSet T} (hs : s.Reachable) (pred : T → Bool) (g : Int) : (s.whereC g pred).Behaves (s.where pred) :=
  (Tree.whereC_behaves g hs.valid pred).map FSet.mk

/-- C11 for `Equal`, which returns as soon as one goroutine reports a difference, while the others go on. -/
theorem C11_equal {s t : FSet T} (hs : s.Reachable) (ht : t.Reachable) (g : Int) : (s.equalC g t).Behaves (s.equal t) :=
  Tree.equalC_behaves g hs.valid ht.valid (fun _ _ h => h)

/-- C11 for `IsSubsetOf`, which also returns early. -/
theorem C11_isSubsetOf {s t : FSet T} (hs : s.Reachable) (ht : t.Reachable) (g : Int) :
    (s.isSubsetOfC g t).Behaves (s.isSubsetOf t) :=
  Tree.subsetOfC_behaves g hs.valid ht.valid

/-- C11 for `Reduce`, for a function without side effects. -/
theorem C11_reduce [Inhabited T] {s : FSet T} (hs : s.Reachable) (r : List T → T) (g : Int) : (s.reduceC g r).Behaves (s.reduce r) :=
  Tree.reduceC_behaves g hs.valid r

end

section
variable {K V : Type} [GoKey K] [LawfulGoKey K] [Inhabited V]

/-- C11 for `Map.Merge`. -/
theorem C11_merge {m n : FMap K V} (hm : m.Reachable) (hn : n.Reachable) (resolve : K → V → V → V) (g : Int) :
    (m.mergeC g n resolve).Behaves (m.merge n resolve) :=
  (Tree.combineC_behaves g hm.valid hn.valid _).map FMap.mk

/-- C11 for `Map.Update`. -/
theorem C11_update {m n : FMap K V} (hm : m.Reachable) (hn : n.Reachable) (g : Int) : (m.updateC g n).Behaves (m.update n) := by
  unfold FMap.updateC FMap.update
  split
  · exact (Tree.combineC_behaves g hn.valid hm.valid _).map FMap.mk
  · exact (Tree.combineC_behaves g hm.valid hn.valid _).map FMap.mk

/-- C11 for `Map.Equal`. -/
theorem C11_mapEqual [GoKey V] {m n : FMap K V} (hm : m.Reachable) (hn : n.Reachable) (g : Int) :
    (m.equalC g n).Behaves (m.equal n) :=
  Tree.equalC_behaves g hm.valid hn.valid (fun a b h => by
    simp only [mapEntryEqual, Bool.and_eq_true] at h; exact h.1)

end

/-! ### Concrete cases -/

/-- Elements whose hashes differ in their leading bits. -/
structure Spread where
  n : Nat
deriving DecidableEq, Inhabited

instance : GoKey Spread where
  eq a b := decide (a = b)
  hash seed a := BitVec.ofNat 64 (a.n * 11400714819323198485) ^^^ seed

instance : LawfulGoKey Spread where
  refl a := by simp [GoKey.eq]
  symm h := by simpa [GoKey.eq, Eq.comm] using h
  trans h g := by simp only [GoKey.eq, decide_eq_true_eq] at *; exact h.trans g
  hash_congr seed _ _ h := by simp only [GoKey.eq, decide_eq_true_eq] at h; rw [h]

/-- The number of goroutines that the call's outermost `Parallel` starts. -/
def Call.fanout {α : Type} : Call α → Nat
  | .run (.par mask _ _ _) _ => mask.indices.length
  | _ => 0

example : ∃ s t u : FSet Spread, s.Reachable ∧ t.Reachable ∧ (s.unionC 1 t).fanout ≥ 3 ∧ (s.intersectionC 1 t).fanout ≥ 2 ∧
    (s.differenceC 1 t).fanout ≥ 3 ∧ (s.whereC 1 (fun a => a.n > 3)).fanout ≥ 3 ∧ (s.equalC 1 s).fanout ≥ 3 ∧
    (s.isSubsetOfC 1 t).fanout ≥ 3 ∧ (s.reduceC 1 List.head!).fanout ≥ 3 ∧
    s.union t = .ok u ∧ u.count = 9 ∧ (s.unionC 1 t).Returns u := by
  obtain ⟨s, h1, h2⟩ := of_okAnd (r := newSet ([1, 2, 3, 4, 5, 6].map Spread.mk)) (test := fun s =>
    okAnd (newSet ([4, 5, 6, 7, 8, 9].map Spread.mk)) (fun t => okAnd (s.union t) (fun u =>
      decide (u.count = 9 ∧ (s.unionC 1 t).fanout ≥ 3 ∧ (s.intersectionC 1 t).fanout ≥ 2 ∧ (s.differenceC 1 t).fanout ≥ 3 ∧
        (s.whereC 1 (fun a => a.n > 3)).fanout ≥ 3 ∧ (s.equalC 1 s).fanout ≥ 3 ∧ (s.isSubsetOfC 1 t).fanout ≥ 3 ∧
        (s.reduceC 1 List.head!).fanout ≥ 3)))) (by decide +kernel)
  obtain ⟨t, h3, h4⟩ := of_okAnd h2
  obtain ⟨u, h5, h6⟩ := of_okAnd h4
  obtain ⟨g1, g2, g3, g4, g5, g6, g7, g8⟩ := of_decide_eq_true h6
  have hs : s.Reachable := ⟨.newSet _, h1⟩
  have ht : t.Reachable := ⟨.newSet _, h3⟩
  exact ⟨s, t, u, hs, ht, g2, g3, g4, g5, g6, g7, g8, h5, g1, ((C11_union hs ht 1).returns u).2 h5⟩

/-- Two goroutines that both call `SetNonNilChild`. -/
def raceComp : Comp Unit :=
  .par 3#16 (fun _ => .seq (.ok ((), true, 0))) (fun _ => true) (fun _ _ _ _ => .ok ((), true, 0))

/-- The race on the packer's mask is in the model: both goroutines have set their bit, and one bit is lost. -/
example : ∃ fr kids v, Reaches raceComp (.par fr kids v) ∧ v.phase 0 = .store ∧ v.phase 1 = .store ∧ v.mask = 2#16 := by
  have hi : Masker.indices 3#16 = [0, 1] := by decide +kernel
  have h0 : Reaches raceComp _ := .step .start (.enter 3#16 _ _ _)
  have h1 := h0.step (.spawn _ _ _ 0 [1] hi)
  have h2 := h1.step (.spawn _ _ _ 1 [] rfl)
  have h3 := h2.step (.kid _ _ _ 0 _ (.seqOk ((), true, 0)))
  have h4 := h3.step (.kid _ _ _ 1 _ (.seqOk ((), true, 0)))
  have h5 := h4.step (.computed _ _ _ 0 ((), true, 0) rfl rfl)
  have h6 := h5.step (.computed _ _ _ 1 ((), true, 0) rfl rfl)
  have h7 := h6.step (.readMask _ _ _ 0 rfl)
  have h8 := h7.step (.readMask _ _ _ 1 rfl)
  have h9 := h8.step (.writeMask _ _ _ 0 0#16 rfl)
  have h10 := h9.step (.writeMask _ _ _ 1 0#16 rfl)
  exact ⟨_, _, _, h10, rfl, rfl, rfl⟩

example : ∃ m n : FMap Spread Spread, m.Reachable ∧ n.Reachable ∧ (m.updateC 1 n).fanout ≥ 3 ∧ (m.mergeC 1 n (fun _ a _ => a)).fanout ≥ 3 ∧
    (m.equalC 1 m).fanout ≥ 2 := by
  obtain ⟨m, h1, h2⟩ := of_okAnd (r := newMap ([1, 2, 3, 4].map (fun i => (⟨⟨i⟩, ⟨i⟩⟩ : KeyValue Spread Spread))))
    (test := fun m => okAnd (newMap ([4, 5, 6, 7, 8].map (fun i => (⟨⟨i⟩, ⟨i + 1⟩⟩ : KeyValue Spread Spread)))) (fun n =>
      decide ((m.updateC 1 n).fanout ≥ 3 ∧ (m.mergeC 1 n (fun _ a _ => a)).fanout ≥ 3 ∧ (m.equalC 1 m).fanout ≥ 2))) (by decide +kernel)
  obtain ⟨n, h3, h4⟩ := of_okAnd h2
  exact ⟨m, n, ⟨.newMap _, h1⟩, ⟨.newMap _, h3⟩, of_decide_eq_true h4⟩

end Frozen
