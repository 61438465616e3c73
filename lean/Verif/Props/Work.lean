import Verif.Proof.Work
import Verif.Props.MapPersist

/-!
# The work a call does

Property C52. Work is counted in single memory accesses (Spec/Work.lean) of the code in Model/Memory.lean: nodes and array elements
read, nodes and arrays allocated, writes. It never depends on the size of the collection, only on how many of its elements share the
64-bit hash of the argument. The sets are those of any history in which no element is added to a set that has three others with the
same hash (C10); the builders are those of any history at all.
-/

set_option linter.unusedSectionVars false

namespace Frozen

variable {T : Type} [GoKey T] [LawfulGoKey T]

theorem set_rep {G : Growth} {ops : List (HOp T)} (hu : UncrowdedRun G World.init ops) {i : Nat} {s : MTree}
    (hs : (World.init.run G ops).sets[i]? = some s) :
    ∃ S n, Rep (World.init.run G ops).mem S 0 s.root n ∧ Live (World.init.run G ops).mem S ∧ WF 0 n ∧
      s.elems (World.init.run G ops).mem = .ok (elems n) := by
  obtain ⟨S, B, h⟩ := run_inv G ops (HistInv.init true) (fun _ => hu)
  obtain ⟨n, hn, hv⟩ := h.sets i s hs
  exact ⟨S, n, hn, h.live, (hv rfl).2.wf, elemsM_eq hn memFuel (fuelOk_mem 0)⟩

theorem builder_own {G : Growth} {ops : List (HOp T)} {k : Nat} {b : MTree} (hb : (World.init.run G ops).builders[k]? = some b) :
    ∃ F n, Own (World.init.run G ops).mem F 0 b.root n ∧ Live (World.init.run G ops).mem F ∧ WF 0 n ∧
      b.elems (World.init.run G ops).mem = .ok (elems n) := by
  obtain ⟨S, B, h⟩ := run_inv G ops (HistInv.init false) (nomatch ·)
  obtain ⟨n, ho, _, hv⟩ := h.blds k b hb
  exact ⟨B k, n, ho, h.blive k, hv.wf, elemsM_eq ho.rep memFuel (fuelOk_mem 0)⟩

/-- C52: looking an element up takes at most 23 accesses, and one for each element with the same hash. -/
theorem C52_has_work (G : Growth) (ops : List (HOp T)) (hu : UncrowdedRun G World.init ops) (i : Nat) (s : MTree)
    (hs : (World.init.run G ops).sets[i]? = some s) (v : T) :
    ∃ l, s.elems (World.init.run G ops).mem = .ok l ∧ (s.getP v).accesses (World.init.run G ops).mem ≤ 23 + sameHash v l := by
  obtain ⟨S, n, h1, h2, h3, h4⟩ := set_rep hu hs
  exact ⟨_, h4, acc_tree_get h1 v h3⟩

/-- C52: `With` takes at most 336 accesses, and three for each element with the same hash. -/
theorem C52_with_work (G : Growth) (ops : List (HOp T)) (hu : UncrowdedRun G World.init ops) (i : Nat) (s : MTree)
    (hs : (World.init.run G ops).sets[i]? = some s) (v : T) :
    ∃ l, s.elems (World.init.run G ops).mem = .ok l ∧ (s.with G v).accesses (World.init.run G ops).mem ≤ 336 + 3 * sameHash v l := by
  obtain ⟨S, n, h1, h2, h3, h4⟩ := set_rep hu hs
  exact ⟨_, h4, acc_tree_with G h1 v h3⟩

/-- C52: `Without` takes at most 708 accesses, and three for each element with the same hash. -/
theorem C52_without_work (G : Growth) (ops : List (HOp T)) (hu : UncrowdedRun G World.init ops) (i : Nat) (s : MTree)
    (hs : (World.init.run G ops).sets[i]? = some s) (v : T) :
    ∃ l, s.elems (World.init.run G ops).mem = .ok l ∧ (s.without G v).accesses (World.init.run G ops).mem ≤ 708 + 3 * sameHash v l := by
  obtain ⟨S, n, h1, h2, h3, h4⟩ := set_rep hu hs
  exact ⟨_, h4, acc_tree_without G h1 h2 v h3⟩

/-- C52: a new version shares its memory with the old one: `With` and `Without` make at most so many new nodes and arrays, however
large the set. -/
theorem C52_versions_share (G : Growth) (ops : List (HOp T)) (hu : UncrowdedRun G World.init ops) (i : Nat) (s : MTree)
    (hs : (World.init.run G ops).sets[i]? = some s) (v : T) :
    ∃ l, s.elems (World.init.run G ops).mem = .ok l ∧ ∀ op, op = HOp.with i v ∨ op = HOp.without i v →
      (World.init.run G (ops ++ [op])).mem.cells.length + (World.init.run G (ops ++ [op])).mem.arrays.length ≤
        (World.init.run G ops).mem.cells.length + (World.init.run G ops).mem.arrays.length + (708 + 3 * sameHash v l) := by
  obtain ⟨S, n, h1, h2, h3, h4⟩ := set_rep hu hs
  refine ⟨_, h4, ?_⟩
  have key : ∀ (x : MM T MTree) (C : Nat), x.accesses (World.init.run G ops).mem ≤ C →
      ((World.init.run G ops).push (x (World.init.run G ops).mem)).mem.cells.length +
        ((World.init.run G ops).push (x (World.init.run G ops).mem)).mem.arrays.length ≤
        (World.init.run G ops).mem.cells.length + (World.init.run G ops).mem.arrays.length + C := by
    intro x C hx
    have h5 := alloc_le x (World.init.run G ops).mem
    have h6 : ((World.init.run G ops).push (x (World.init.run G ops).mem)).mem = (x (World.init.run G ops).mem).2 := by
      unfold World.push; cases (x (World.init.run G ops).mem).1 <;> rfl
    rw [h6]
    omega
  have hstep : ∀ op, World.init.run G (ops ++ [op]) = (World.init.run G ops).step G op := fun op => by rw [run_append]; rfl
  rintro op (rfl | rfl)
  · rw [hstep]
    simp only [World.step, World.on, hs]
    refine key _ _ (Nat.le_trans (acc_tree_with G h1 v h3) ?_)
    show 336 + 3 * sameHash v (elems n) ≤ _
    omega
  · rw [hstep]
    simp only [World.step, World.on, hs]
    exact key _ _ (acc_tree_without G h1 h2 v h3)

/-- C52: iterating over a whole set takes at most 24 accesses for each element. -/
theorem C52_iteration_work (G : Growth) (ops : List (HOp T)) (hu : UncrowdedRun G World.init ops) (i : Nat) (s : MTree)
    (hs : (World.init.run G ops).sets[i]? = some s) :
    ∃ l, s.elems (World.init.run G ops).mem = .ok l ∧ s.elemsP.accesses (World.init.run G ops).mem ≤ 24 * l.length := by
  obtain ⟨S, n, h1, h2, h3, h4⟩ := set_rep hu hs
  exact ⟨_, h4, acc_elems h1 memFuel h3 (fuelOk_mem 0)⟩

/-- C52: `Add` on a builder takes at most 335 accesses, and two for each element with the same hash, in any history. -/
theorem C52_builder_add_work (G : Growth) (ops : List (HOp T)) (k : Nat) (b : MTree)
    (hb : (World.init.run G ops).builders[k]? = some b) (v : T) :
    ∃ l, b.elems (World.init.run G ops).mem = .ok l ∧ (b.add G v).accesses (World.init.run G ops).mem ≤ 335 + 2 * sameHash v l := by
  obtain ⟨S, n, h1, h2, h3, h4⟩ := builder_own hb
  exact ⟨_, h4, acc_tree_add G h1 h2 v h3⟩

/-- C52: `Remove` on a builder takes at most 708 accesses, and two for each element with the same hash, in any history. -/
theorem C52_builder_remove_work (G : Growth) (ops : List (HOp T)) (k : Nat) (b : MTree)
    (hb : (World.init.run G ops).builders[k]? = some b) (v : T) :
    ∃ l, b.elems (World.init.run G ops).mem = .ok l ∧ (b.remove G v).accesses (World.init.run G ops).mem ≤ 708 + 2 * sameHash v l := by
  obtain ⟨S, n, h1, h2, h3, h4⟩ := builder_own hb
  exact ⟨_, h4, acc_tree_remove G h1 h2 v h3⟩

/-- C52: looking an element up in a builder, in any history. -/
theorem C52_builder_has_work (G : Growth) (ops : List (HOp T)) (k : Nat) (b : MTree)
    (hb : (World.init.run G ops).builders[k]? = some b) (v : T) :
    ∃ l, b.elems (World.init.run G ops).mem = .ok l ∧ (b.getP v).accesses (World.init.run G ops).mem ≤ 23 + sameHash v l := by
  obtain ⟨S, n, h1, h2, h3, h4⟩ := builder_own hb
  exact ⟨_, h4, acc_tree_get h1.rep v h3⟩

/-- With few collisions few elements of a tree share a hash. -/
theorem sameHash_few (hT : FewCollisions T) {n : Node T} (hw : WF 0 n) (v : T) : sameHash v (elems n) ≤ 3 := by
  by_contra hlt
  have hp : ((elems n).filter (fun e => decide (hash0 e = hash0 v))).Pairwise (fun a b => GoKey.eq a b = false) :=
    (WF.distinct hw).filter _
  have hm : ∀ e ∈ (elems n).filter (fun e => decide (hash0 e = hash0 v)), hash0 e = hash0 v := fun e he =>
    of_decide_eq_true (List.mem_filter.1 he).2
  unfold sameHash at hlt
  revert hp hm hlt
  generalize (elems n).filter (fun e => decide (hash0 e = hash0 v)) = l
  intro hlt hp hm
  cases l with
  | nil => simp at hlt
  | cons x l =>
    rw [List.pairwise_cons] at hp
    refine hT x ⟨l.take 3, by simp at hlt ⊢; omega, hp.2.sublist (List.take_sublist 3 l), fun w hw => ?_⟩
    have hw := List.mem_of_mem_take hw
    refine ⟨?_, ?_⟩
    · have h1 := hp.1 w hw
      cases h2 : GoKey.eq w x with
      | false => rfl
      | true => rw [PerGoKey.symm h2] at h1; cases h1
    · rw [hm w (by simp [hw]), hm x (by simp)]

/-- C52: when no four different values share a hash, each of these calls takes a constant number of accesses. -/
theorem C52_constant_work (hT : FewCollisions T) (G : Growth) (ops : List (HOp T)) (hm : ∀ op ∈ ops, op.MergesOk) :
    (∀ (i : Nat) (s : MTree), (World.init.run G ops).sets[i]? = some s → ∀ v,
      (s.getP v).accesses (World.init.run G ops).mem ≤ 26 ∧ (s.with G v).accesses (World.init.run G ops).mem ≤ 345 ∧
      (s.without G v).accesses (World.init.run G ops).mem ≤ 717) ∧
    (∀ (k : Nat) (b : MTree), (World.init.run G ops).builders[k]? = some b → ∀ v,
      (b.getP v).accesses (World.init.run G ops).mem ≤ 26 ∧ (b.add G v).accesses (World.init.run G ops).mem ≤ 341 ∧
      (b.remove G v).accesses (World.init.run G ops).mem ≤ 714) := by
  refine ⟨fun i s hs v => ?_, fun k b hb v => ?_⟩
  · obtain ⟨S, n, h1, h2, h3, h4⟩ := set_rep (uncrowded_of_few hT G _ _ hm) hs
    have hf : ((elems n).filter (fun e => decide (hash0 e = hash0 v))).length ≤ 3 := sameHash_few hT h3 v
    have g1 := acc_tree_get h1 v h3
    have g2 := acc_tree_with G h1 v h3
    have g3 := acc_tree_without G h1 h2 v h3
    exact ⟨by omega, by omega, by omega⟩
  · obtain ⟨S, n, h1, h2, h3, h4⟩ := builder_own hb
    have hf : ((elems n).filter (fun e => decide (hash0 e = hash0 v))).length ≤ 3 := sameHash_few hT h3 v
    have g1 := acc_tree_get h1.rep v h3
    have g2 := acc_tree_add G h1 h2 v h3
    have g3 := acc_tree_remove G h1 h2 v h3
    exact ⟨by omega, by omega, by omega⟩

/-- C52 for maps: `Get`, `With` and `Without` on maps and `Get`, `Put` and `Remove` on map builders. -/
theorem C52_map_constant_work {K V : Type} [GoKey K] [LawfulGoKey K] [Inhabited V] (hK : FewCollisions K) (G : Growth)
    (ops : List (MOp K V)) :
    (∀ (i : Nat) (m : MTree), (World.init.runMap G ops).sets[i]? = some m → ∀ (k : K) (v : V),
      (m.getP (newMapKey k : Entry K V)).accesses (World.init.runMap G ops).mem ≤ 26 ∧
      (m.with G (⟨k, v⟩ : Entry K V)).accesses (World.init.runMap G ops).mem ≤ 345 ∧
      (m.without G (newMapKey k : Entry K V)).accesses (World.init.runMap G ops).mem ≤ 717) ∧
    (∀ (i : Nat) (b : MTree), (World.init.runMap G ops).builders[i]? = some b → ∀ (k : K) (v : V),
      (b.getP (newMapKey k : Entry K V)).accesses (World.init.runMap G ops).mem ≤ 26 ∧
      (b.add G (⟨k, v⟩ : Entry K V)).accesses (World.init.runMap G ops).mem ≤ 341 ∧
      (b.remove G (newMapKey k : Entry K V)).accesses (World.init.runMap G ops).mem ≤ 714) := by
  rw [runMap_eq]
  obtain ⟨h1, h2⟩ := C52_constant_work (entry_few hK) G (mapCalls G World.init ops)
    (mapCalls_all G _ _ (fun op _ w => call_mergesOk op w))
  exact ⟨fun i m hm k v => ⟨(h1 i m hm (newMapKey k)).1, (h1 i m hm ⟨k, v⟩).2.1, (h1 i m hm (newMapKey k)).2.2⟩,
    fun i b hb k v => ⟨(h2 i b hb (newMapKey k)).1, (h2 i b hb ⟨k, v⟩).2.1, (h2 i b hb (newMapKey k)).2.2⟩⟩

/-! ## The hypotheses can be met, and the count is not trivially small -/

/-- The sets and builders of `mixedHistory` are ones the theorems speak about. -/
example : UncrowdedRun goGrowth World.init mixedHistory ∧ ((World.init.run goGrowth mixedHistory).sets[4]?).isSome = true ∧
    ((World.init.run goGrowth mixedHistory).builders[1]?).isSome = true :=
  ⟨uncrowded_of_few mod100_few _ _ _ mixed_mergesOk, by decide +kernel⟩

/-- The history that makes a set of three elements with one hash. -/
def threeHistory : List (HOp Coll) := [.empty, .with 0 ⟨1⟩, .with 1 ⟨2⟩, .with 2 ⟨3⟩]

/-- The third element costs 311 accesses, most of them for the 22 levels it adds; looking one up in the result takes all 23 + 3. -/
example : ((World.init.run goGrowth (threeHistory.take 3)).sets[2]?).any (fun s =>
      decide ((s.with goGrowth (⟨3⟩ : Coll)).accesses (World.init.run goGrowth (threeHistory.take 3)).mem = 311)) = true ∧
    ((World.init.run goGrowth threeHistory).sets[3]?).any (fun s =>
      decide ((s.getP (⟨3⟩ : Coll)).accesses (World.init.run goGrowth threeHistory).mem = 26)) = true := by decide +kernel

end Frozen
