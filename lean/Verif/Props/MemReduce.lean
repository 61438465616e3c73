import Verif.Proof.MemReduce
import Verif.Props.Persist

/-!
# `Reduce` and the slices it hands out

Property C58. `Reduce` passes slices of the set's own storage to the function of the caller (Model/MemReduce.lean). `G` is any way of
growing arrays.
-/

set_option linter.unusedSectionVars false

namespace Frozen

variable {T : Type} [GoKey T] [LawfulGoKey T]

/-- C58, the part about functions that do not write to their slice: `Reduce` returns what it returns when every set is a value of its
own, and changes nothing at all. Missing: functions that write (`C58_accumulate_refuted`), and the histories that already break C10. -/
theorem C58_read_only_partial [Inhabited T] (G : Growth) (ops : List (HOp T)) (hu : UncrowdedRun G World.init ops) (R : Reducer T)
    (hR : R.ReadOnly) (i : Nat) (s : MTree) (hs : (World.init.run G ops).sets[i]? = some s) :
    ∃ t : Tree T, (VWorld.run ⟨[], []⟩ ops).sets[i]? = some t ∧
      s.reduce R (World.init.run G ops).mem = (t.reduce R.result, (World.init.run G ops).mem) := by
  obtain ⟨S, B, h⟩ := run_inv G ops (HistInv.init true) (fun _ => hu)
  obtain ⟨n, hn, hv⟩ := h.sets i s hs
  exact ⟨s.val n, (hv rfl).1, MTree.reduce_readOnly hR hn (hv rfl).2⟩

/-- C58, the part about functions that sort their slice, or reorder it otherwise, and whose result does not depend on the order: if no
three different values share a 64-bit hash, then `Reduce` returns what it returns on values, and every set keeps its answers and its
elements; at most the order of iteration changes. Missing: types with three such values (`C58_sort_refuted`). -/
theorem C58_reorder_partial [Inhabited T] (hT : NoTriples T) (G : Growth) (ops : List (HOp T)) (hu : UncrowdedRun G World.init ops)
    (R : Reducer T) (hR : R.Reorders) (hr : ∀ l l', l.Perm l' → R.result l = R.result l')
    (i : Nat) (s : MTree) (hs : (World.init.run G ops).sets[i]? = some s) :
    (∃ t : Tree T, (VWorld.run ⟨[], []⟩ ops).sets[i]? = some t ∧ (s.reduce R (World.init.run G ops).mem).1 = t.reduce R.result) ∧
    ∀ (j : Nat) (s' : MTree), (World.init.run G ops).sets[j]? = some s' →
      (∀ v, s'.get (s.reduce R (World.init.run G ops).mem).2 v = s'.get (World.init.run G ops).mem v) ∧
      ∃ l l', s'.elems (World.init.run G ops).mem = .ok l ∧ s'.elems (s.reduce R (World.init.run G ops).mem).2 = .ok l' ∧ l'.Perm l := by
  obtain ⟨S, B, h⟩ := run_inv G ops (HistInv.init true) (fun _ => hu)
  obtain ⟨n, hn, hv⟩ := h.sets i s hs
  have ht : NoTwig n := noTwig_of_few hT n 0 (hv rfl).2.wf (Nat.zero_le _) (fun x _ y _ => by
    rw [agree_iff]; exact fun j _ h => absurd h (Nat.not_lt_zero _))
  obtain ⟨h1, h2⟩ := MTree.reduce_swapped hR hr hn (hv rfl).2 ht
  refine ⟨⟨s.val n, (hv rfl).1, h1⟩, fun j s' hs' => ?_⟩
  obtain ⟨n', hn', hv'⟩ := h.sets j s' hs'
  obtain ⟨n2, hn2, hsw⟩ := hn'.swapped h2
  refine ⟨fun v => ?_, _, _, elemsM_eq hn' memFuel (fuelOk_mem 0), elemsM_eq hn2 memFuel (fuelOk_mem 0), hsw.elems⟩
  rw [MTree.get_eq hn2, MTree.get_eq hn']
  unfold Tree.get MTree.val
  rw [hsw.isNil, hsw.get (hv' rfl).2.wf]

/-- C58, the part that holds of every history and every function, whatever it writes: `Reduce` leaves every builder as it is. -/
theorem C58_builders_keep_partial (G : Growth) (ops : List (HOp T)) (R : Reducer T) (i : Nat) (s : MTree)
    (hs : (World.init.run G ops).sets[i]? = some s) (k : Nat) (b : MTree) (hb : (World.init.run G ops).builders[k]? = some b) :
    SameView (World.init.run G ops).mem (s.reduce R (World.init.run G ops).mem).2 b := by
  obtain ⟨S, B, h⟩ := run_inv G ops (HistInv.init false) (nomatch ·)
  obtain ⟨n, hn, _⟩ := h.sets i s hs
  obtain ⟨n', hn', _⟩ := h.blds k b hb
  exact sameView_of hn'.rep (hn'.rep.frame (MTree.tame_reduce R ⟨n, hn⟩).1 (h.dis k))

/-- C58, the part that holds of every history and every function: whatever it writes, every set can still be asked and iterated
without a panic. -/
theorem C58_no_panic_partial (G : Growth) (ops : List (HOp T)) (R : Reducer T) (i : Nat) (s : MTree)
    (hs : (World.init.run G ops).sets[i]? = some s) (j : Nat) (s' : MTree) (hs' : (World.init.run G ops).sets[j]? = some s') :
    SameView (s.reduce R (World.init.run G ops).mem).2 (s.reduce R (World.init.run G ops).mem).2 s' := by
  obtain ⟨S, B, h⟩ := run_inv G ops (HistInv.init false) (nomatch ·)
  obtain ⟨n, hn, _⟩ := h.sets i s hs
  obtain ⟨n', hn', _⟩ := h.sets j s' hs'
  obtain ⟨n2, hn2⟩ := (MTree.tame_reduce R ⟨n, hn⟩).2 0 s'.root ⟨n', hn'⟩
  exact sameView_of hn2 hn2

/-- C58 in any history: a function that does not write changes nothing at all. -/
theorem C58_read_only_keeps_partial (G : Growth) (ops : List (HOp T)) (R : Reducer T) (hR : R.ReadOnly) (i : Nat) (s : MTree)
    (_ : (World.init.run G ops).sets[i]? = some s) :
    (s.reduce R (World.init.run G ops).mem).2 = (World.init.run G ops).mem := by
  unfold MTree.reduce
  split
  · rfl
  · exact bind_mem (reduceM_mem hR _ _ _) (fun _ => rfl)

/-! ## Functions that write -/

/-- A function that adds its numbers up in the first element of its slice and returns that element. -/
def accumulate : Reducer Mod100 := ⟨fun l => ⟨(l.map Mod100.n).sum⟩, fun l => [(0, ⟨(l.map Mod100.n).sum⟩)]⟩

/-- {1, 2, 50}, and that set with 90. -/
def accHistory : List (HOp Mod100) := [.empty, .with 0 ⟨1⟩, .with 1 ⟨2⟩, .with 2 ⟨50⟩, .with 3 ⟨90⟩]

theorem acc_mergesOk : ∀ op ∈ accHistory, op.MergesOk := by
  intro op h
  simp only [accHistory, List.mem_cons, List.not_mem_nil, or_false] at h
  rcases h with rfl | rfl | rfl | rfl | rfl <;> exact trivial

/-- C58 is false of the code (leaf2.go:168-170): a function that uses its slice as an accumulator changes the set it is applied to, and
another set that shares its nodes. {1, 2, 50} has become {3, 2, 50}; no element type or hash is to blame. -/
theorem C58_accumulate_refuted : ∃ (ops : List (HOp Mod100)) (s s' : MTree), UncrowdedRun goGrowth World.init ops ∧
    (World.init.run goGrowth ops).sets[4]? = some s ∧ (World.init.run goGrowth ops).sets[3]? = some s' ∧
    s'.elems (World.init.run goGrowth ops).mem = .ok [⟨1⟩, ⟨2⟩, ⟨50⟩] ∧
    (s.reduce accumulate (World.init.run goGrowth ops).mem).1 = .ok (some ⟨143⟩) ∧
    s'.elems (s.reduce accumulate (World.init.run goGrowth ops).mem).2 = .ok [⟨3⟩, ⟨2⟩, ⟨50⟩] := by
  have h : ((World.init.run goGrowth accHistory).sets[4]?).any (fun s => ((World.init.run goGrowth accHistory).sets[3]?).any (fun s' =>
      isOk (s'.elems (World.init.run goGrowth accHistory).mem) [⟨1⟩, ⟨2⟩, ⟨50⟩] &&
      isOk (s.reduce accumulate (World.init.run goGrowth accHistory).mem).1 (some ⟨143⟩) &&
      isOk (s'.elems (s.reduce accumulate (World.init.run goGrowth accHistory).mem).2) [⟨3⟩, ⟨2⟩, ⟨50⟩])) = true := by decide +kernel
  refine ⟨accHistory, ?_⟩
  cases hs : (World.init.run goGrowth accHistory).sets[4]? with
  | none => rw [hs] at h; cases h
  | some s =>
    cases hs' : (World.init.run goGrowth accHistory).sets[3]? with
    | none => rw [hs, hs'] at h; cases h
    | some s' =>
      rw [hs, hs'] at h
      simp only [Option.any_some, Bool.and_eq_true] at h
      exact ⟨s, s', uncrowded_of_few mod100_few _ _ _ acc_mergesOk, rfl, rfl, of_isOk h.1.1, of_isOk h.1.2, of_isOk h.2⟩

/-- Insertion into a sorted list. -/
def insertSorted (n : Nat) : List Nat → List Nat
  | [] => [n]
  | m :: l => if n ≤ m then n :: m :: l else m :: insertSorted n l

/-- A function that sorts its slice and returns the sum. -/
def sortColl : Reducer Coll :=
  ⟨fun l => ⟨(l.map Coll.n).sum⟩, fun l => ((l.map Coll.n).foldr insertSorted []).zipIdx.map (fun p => (p.2, ⟨p.1⟩))⟩

/-- C58 is false of the code even for functions that only sort (twig.go:216-218): the set {1, 2, 3, 4} shares its array with
{0, 1, 2, 3, 4}; sorting the slice of the larger one makes the smaller one {0, 1, 2, 3}. -/
theorem C58_sort_refuted : ∃ (ops : List (HOp Coll)) (s s' : MTree),
    (World.init.run goGrowth ops).sets[5]? = some s ∧ (World.init.run goGrowth ops).sets[4]? = some s' ∧
    s.elems (World.init.run goGrowth ops).mem = .ok [⟨1⟩, ⟨2⟩, ⟨3⟩, ⟨4⟩, ⟨0⟩] ∧
    s'.elems (World.init.run goGrowth ops).mem = .ok [⟨1⟩, ⟨2⟩, ⟨3⟩, ⟨4⟩] ∧
    s'.elems (s.reduce sortColl (World.init.run goGrowth ops).mem).2 = .ok [⟨0⟩, ⟨1⟩, ⟨2⟩, ⟨3⟩] := by
  refine ⟨[.empty, .with 0 ⟨1⟩, .with 1 ⟨2⟩, .with 2 ⟨3⟩, .with 3 ⟨4⟩, .with 4 ⟨0⟩], ?_⟩
  generalize hops : ([.empty, .with 0 ⟨1⟩, .with 1 ⟨2⟩, .with 2 ⟨3⟩, .with 3 ⟨4⟩, .with 4 ⟨0⟩] : List (HOp Coll)) = ops
  have h : ((World.init.run goGrowth ops).sets[5]?).any (fun s => ((World.init.run goGrowth ops).sets[4]?).any (fun s' =>
      isOk (s.elems (World.init.run goGrowth ops).mem) [⟨1⟩, ⟨2⟩, ⟨3⟩, ⟨4⟩, ⟨0⟩] &&
      isOk (s'.elems (World.init.run goGrowth ops).mem) [⟨1⟩, ⟨2⟩, ⟨3⟩, ⟨4⟩] &&
      isOk (s'.elems (s.reduce sortColl (World.init.run goGrowth ops).mem).2) [⟨0⟩, ⟨1⟩, ⟨2⟩, ⟨3⟩])) = true := by
    rw [← hops]; decide +kernel
  cases hs : (World.init.run goGrowth ops).sets[5]? with
  | none => rw [hs] at h; cases h
  | some s =>
    cases hs' : (World.init.run goGrowth ops).sets[4]? with
    | none => rw [hs, hs'] at h; cases h
    | some s' =>
      rw [hs, hs'] at h
      simp only [Option.any_some, Bool.and_eq_true] at h
      exact ⟨s, s', rfl, rfl, of_isOk h.1.1, of_isOk h.1.2, of_isOk h.2⟩

/-- A function that appends the number 9 to its slice and returns the sum of what it was given. -/
def appendColl : Reducer Coll := ⟨fun l => ⟨(l.map Coll.n).sum⟩, fun l => [(l.length, ⟨9⟩)]⟩

/-- C58 is false of the code even for functions that only append (twig.go:216-218): after `Reduce` on {1, 2, 3, 4}, which shares its
array with {0, 1, 2, 3, 4}, the larger set has 9 where it had 0. -/
theorem C58_append_refuted : ∃ (ops : List (HOp Coll)) (s s' : MTree),
    (World.init.run goGrowth ops).sets[4]? = some s ∧ (World.init.run goGrowth ops).sets[5]? = some s' ∧
    s.elems (World.init.run goGrowth ops).mem = .ok [⟨1⟩, ⟨2⟩, ⟨3⟩, ⟨4⟩] ∧
    s'.elems (World.init.run goGrowth ops).mem = .ok [⟨1⟩, ⟨2⟩, ⟨3⟩, ⟨4⟩, ⟨0⟩] ∧
    s'.elems (s.reduce appendColl (World.init.run goGrowth ops).mem).2 = .ok [⟨1⟩, ⟨2⟩, ⟨3⟩, ⟨4⟩, ⟨9⟩] := by
  refine ⟨[.empty, .with 0 ⟨1⟩, .with 1 ⟨2⟩, .with 2 ⟨3⟩, .with 3 ⟨4⟩, .with 4 ⟨0⟩], ?_⟩
  generalize hops : ([.empty, .with 0 ⟨1⟩, .with 1 ⟨2⟩, .with 2 ⟨3⟩, .with 3 ⟨4⟩, .with 4 ⟨0⟩] : List (HOp Coll)) = ops
  have h : ((World.init.run goGrowth ops).sets[4]?).any (fun s => ((World.init.run goGrowth ops).sets[5]?).any (fun s' =>
      isOk (s.elems (World.init.run goGrowth ops).mem) [⟨1⟩, ⟨2⟩, ⟨3⟩, ⟨4⟩] &&
      isOk (s'.elems (World.init.run goGrowth ops).mem) [⟨1⟩, ⟨2⟩, ⟨3⟩, ⟨4⟩, ⟨0⟩] &&
      isOk (s'.elems (s.reduce appendColl (World.init.run goGrowth ops).mem).2) [⟨1⟩, ⟨2⟩, ⟨3⟩, ⟨4⟩, ⟨9⟩])) = true := by
    rw [← hops]; decide +kernel
  cases hs : (World.init.run goGrowth ops).sets[4]? with
  | none => rw [hs] at h; cases h
  | some s =>
    cases hs' : (World.init.run goGrowth ops).sets[5]? with
    | none => rw [hs, hs'] at h; cases h
    | some s' =>
      rw [hs, hs'] at h
      simp only [Option.any_some, Bool.and_eq_true] at h
      exact ⟨s, s', rfl, rfl, of_isOk h.1.1, of_isOk h.1.2, of_isOk h.2⟩

/-! ## The hypotheses can be met -/

theorem mod100_noTriples : NoTriples Mod100 := by
  rintro v ⟨l, h1, h2, h3⟩
  cases l with
  | nil => cases h1
  | cons a l =>
    obtain ⟨ha, hh⟩ := h3 a (by simp)
    simp only [GoKey.eq, decide_eq_false_iff_not] at ha
    exact ha (mod100_hash hh)

/-- A function that adds up without writing. -/
def plainSum : Reducer Mod100 := ⟨fun l => ⟨(l.map Mod100.n).sum⟩, fun _ => []⟩

/-- A function that swaps the two elements of its slice, if there are two, and returns the sum. -/
def swapSum : Reducer Mod100 := ⟨fun l => ⟨(l.map Mod100.n).sum⟩, fun l => match l with
  | [x, y] => [(0, y), (1, x)]
  | _ => []⟩

example : plainSum.ReadOnly := fun _ => rfl

example : swapSum.Reorders ∧ ∀ l l', l.Perm l' → swapSum.result l = swapSum.result l' := by
  refine ⟨fun l => ?_, fun l l' h => ?_⟩
  · simp only [swapSum]
    split
    · exact ⟨by simp, List.Perm.swap _ _ _⟩
    · exact ⟨by simp, List.Perm.refl _⟩
  · simp only [swapSum, (h.map Mod100.n).sum_nat]

example : UncrowdedRun goGrowth World.init accHistory := uncrowded_of_few mod100_few _ _ _ acc_mergesOk

/-- The swap does take place, in the set it is applied to and in the one that shares its nodes. -/
example : ((World.init.run goGrowth accHistory).sets[4]?).any (fun s => ((World.init.run goGrowth accHistory).sets[3]?).any (fun s' =>
    isOk (s.reduce plainSum (World.init.run goGrowth accHistory).mem).1 (some ⟨143⟩) &&
    isOk (s.reduce swapSum (World.init.run goGrowth accHistory).mem).1 (some ⟨143⟩) &&
    isOk (s'.elems (s.reduce swapSum (World.init.run goGrowth accHistory).mem).2) [⟨2⟩, ⟨1⟩, ⟨50⟩])) = true := by decide +kernel

/-- A history with two builders, for `C58_builders_keep_partial`. -/
example : (World.init.run goGrowth mixedHistory).sets.length = 8 ∧ (World.init.run goGrowth mixedHistory).builders.length = 2 := by
  decide +kernel

end Frozen
