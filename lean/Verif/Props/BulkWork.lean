import Verif.Proof.BulkOps
import Verif.Props.Work

/-!
# The work of calls on whole sets

Property C59. As in C52, work is counted in single memory accesses. The work of `Union`, `Difference` and `Intersection` is in proportion
to the smaller of the two operands, however large the other one is, and what they return shares the rest of its memory with the
operands. `Where` goes over its set once. Maps are sets of entries, so `Merge` and `Update` of maps are covered too.
-/

set_option linter.unusedSectionVars false

namespace Frozen

variable {T : Type} [GoKey T] [LawfulGoKey T]

/-- At most `c` elements of `l` share any one hash. -/
def Collide (c : Nat) (l : List T) : Prop := ∀ v : T, sameHash v l ≤ c

theorem Collide.few {c : Nat} {n : Node T} (h : Collide c (elems n)) : Few c 0 n := few_of_hash h

theorem sets_rep {G : Growth} {ops : List (HOp T)} (hu : UncrowdedRun G World.init ops) :
    ∃ S, Live (World.init.run G ops).mem S ∧ ∀ (i : Nat) (s : MTree), (World.init.run G ops).sets[i]? = some s →
      ∃ n, Rep (World.init.run G ops).mem S 0 s.root n ∧ (s.val n).Valid ∧
        s.elems (World.init.run G ops).mem = .ok (elems n) := by
  obtain ⟨S, B, h⟩ := run_inv G ops (HistInv.init true) (fun _ => hu)
  refine ⟨S, h.live, fun i s hs => ?_⟩
  obtain ⟨n, hn, hv⟩ := h.sets i s hs
  exact ⟨n, hn, (hv rfl).2, elemsM_eq hn memFuel (fuelOk_mem 0)⟩

/-- C59: `Union`, and any merge, takes at most 493 + 3·c accesses for each element of the smaller operand, where c is the largest number
of elements in one operand that share a hash. -/
theorem C59_union_work (G : Growth) (ops : List (HOp T)) (hu : UncrowdedRun G World.init ops) (i j : Nat) (s t : MTree)
    (hs : (World.init.run G ops).sets[i]? = some s) (ht : (World.init.run G ops).sets[j]? = some t) (f : T → T → T)
    (hm : Uncrowded (World.init.run G ops) (.merge i j f)) :
    ∃ l l', s.elems (World.init.run G ops).mem = .ok l ∧ t.elems (World.init.run G ops).mem = .ok l' ∧
      ∀ c, Collide c l → Collide c l' →
        (s.combine G ⟨GoKey.eq, f⟩ t).accesses (World.init.run G ops).mem ≤ (493 + 3 * c) * min l.length l'.length := by
  obtain ⟨S, hl, hrep⟩ := sets_rep hu
  obtain ⟨n, hr, hV, he⟩ := hrep i s hs
  obtain ⟨n2, hr2, hV2, he2⟩ := hrep j t ht
  refine ⟨_, _, he, he2, fun c hc hc' => ?_⟩
  obtain ⟨hf, hcr⟩ := hm
  have hsafe : SafeAt 0 (memL (elems n)) (memL (elems n2)) := by
    intro e hin hcd
    rcases hcr s t hs ht e with hh | hh
    · rw [tree_has hr hV, tree_has hr2 hV2] at hh
      rcases hin with hin | hin
      · exact hin.2 (hh.1 hin.1)
      · exact hin.2 (hh.2 hin.1)
    · exact hh ((crowded_iff (fun u => by rw [tree_has hr hV, tree_has hr2 hV2]) e).2 hcd)
  exact acc_tree_combine G (args := ⟨GoKey.eq, f⟩) rfl hf hr hr2 hl
    (combineSafe_of (args := ⟨GoKey.eq, f⟩) rfl hf n 0 n2 hV.wf hV2.wf hsafe) hV.wf hV2.wf hc.few hc'.few

/-- C59: `Difference` takes at most 1084 + 4·c + 2·c² accesses for each element of the smaller operand. -/
theorem C59_difference_work (G : Growth) (ops : List (HOp T)) (hu : UncrowdedRun G World.init ops) (i j : Nat) (s t : MTree)
    (hs : (World.init.run G ops).sets[i]? = some s) (ht : (World.init.run G ops).sets[j]? = some t) :
    ∃ l l', s.elems (World.init.run G ops).mem = .ok l ∧ t.elems (World.init.run G ops).mem = .ok l' ∧
      ∀ c, Collide c l → Collide c l' →
        (s.difference G t).accesses (World.init.run G ops).mem ≤ (1084 + 4 * c + 2 * (c * c)) * min l.length l'.length := by
  obtain ⟨S, hl, hrep⟩ := sets_rep hu
  obtain ⟨n, hr, hV, he⟩ := hrep i s hs
  obtain ⟨n2, hr2, hV2, he2⟩ := hrep j t ht
  exact ⟨_, _, he, he2, fun c hc hc' => acc_tree_difference G hr hr2 hl hV.wf hV2.wf hc.few hc'.few⟩

/-- C59: `Intersection` takes at most 423 + 4·c + 2·c² accesses for each element of the smaller operand. -/
theorem C59_intersection_work (G : Growth) (ops : List (HOp T)) (hu : UncrowdedRun G World.init ops) (i j : Nat) (s t : MTree)
    (hs : (World.init.run G ops).sets[i]? = some s) (ht : (World.init.run G ops).sets[j]? = some t) :
    ∃ l l', s.elems (World.init.run G ops).mem = .ok l ∧ t.elems (World.init.run G ops).mem = .ok l' ∧
      ∀ c, Collide c l → Collide c l' →
        (s.intersection G t).accesses (World.init.run G ops).mem ≤ (423 + 4 * c + 2 * (c * c)) * min l.length l'.length := by
  obtain ⟨S, hl, hrep⟩ := sets_rep hu
  obtain ⟨n, hr, hV, he⟩ := hrep i s hs
  obtain ⟨n2, hr2, hV2, he2⟩ := hrep j t ht
  exact ⟨_, _, he, he2, fun c hc hc' => acc_tree_intersection G hr hr2 hl hV.wf hV2.wf hc.few hc'.few⟩

/-- C59: `Where` takes at most 400 + c accesses for each element. -/
theorem C59_where_work (G : Growth) (ops : List (HOp T)) (hu : UncrowdedRun G World.init ops) (i : Nat) (s : MTree)
    (hs : (World.init.run G ops).sets[i]? = some s) (p : T → Bool) :
    ∃ l, s.elems (World.init.run G ops).mem = .ok l ∧
      ∀ c, Collide c l → (s.where G p).accesses (World.init.run G ops).mem ≤ (400 + c) * l.length := by
  obtain ⟨S, hl, hrep⟩ := sets_rep hu
  obtain ⟨n, hr, hV, he⟩ := hrep i s hs
  exact ⟨_, he, fun c hc => acc_tree_where G p hr hl hV.wf hc.few⟩

/-- Nodes and arrays the client's memory holds. -/
def World.size (w : World T) : Nat := w.mem.cells.length + w.mem.arrays.length

theorem size_push (w : World T) (x : MM T MTree) {C : Nat} (hx : x.accesses w.mem ≤ C) : (w.push (x w.mem)).size ≤ w.size + C := by
  have h5 := alloc_le x w.mem
  have h6 : (w.push (x w.mem)).mem = (x w.mem).2 := by unfold World.push; cases (x w.mem).1 <;> rfl
  unfold World.size
  rw [h6]
  omega

/-- C59: when no four different values share a hash, the work of each of these calls, and with it the number of nodes and arrays it makes,
is at most a constant times the size of the smaller operand; the rest of the result is memory of the operands. -/
theorem C59_linear_in_smaller (hT : FewCollisions T) (G : Growth) (ops : List (HOp T)) (hm : ∀ op ∈ ops, op.MergesOk) (i j : Nat) (s t : MTree)
    (hs : (World.init.run G ops).sets[i]? = some s) (ht : (World.init.run G ops).sets[j]? = some t) :
    ∃ l l', s.elems (World.init.run G ops).mem = .ok l ∧ t.elems (World.init.run G ops).mem = .ok l' ∧
      (∀ f : T → T → T, (∀ a b, GoKey.eq a b = true → GoKey.eq (f a b) a = true) →
        (s.combine G ⟨GoKey.eq, f⟩ t).accesses (World.init.run G ops).mem ≤ 502 * min l.length l'.length ∧
        (World.init.run G (ops ++ [.merge i j f])).size ≤ (World.init.run G ops).size + 502 * min l.length l'.length) ∧
      ((s.difference G t).accesses (World.init.run G ops).mem ≤ 1114 * min l.length l'.length ∧
        (World.init.run G (ops ++ [.difference i j])).size ≤ (World.init.run G ops).size + 1114 * min l.length l'.length) ∧
      ((s.intersection G t).accesses (World.init.run G ops).mem ≤ 453 * min l.length l'.length ∧
        (World.init.run G (ops ++ [.intersection i j])).size ≤ (World.init.run G ops).size + 453 * min l.length l'.length) ∧
      ∀ p, (s.where G p).accesses (World.init.run G ops).mem ≤ 403 * l.length := by
  obtain ⟨S, hl, hrep⟩ := sets_rep (uncrowded_of_few hT G _ _ hm)
  obtain ⟨n, hr, hV, he⟩ := hrep i s hs
  obtain ⟨n2, hr2, hV2, he2⟩ := hrep j t ht
  have hc : Collide 3 (elems n) := sameHash_few hT hV.wf
  have hc2 : Collide 3 (elems n2) := sameHash_few hT hV2.wf
  have hu := uncrowded_of_few hT G _ World.init hm
  have hstep : ∀ op, World.init.run G (ops ++ [op]) = (World.init.run G ops).step G op := fun op => by rw [run_append]; rfl
  refine ⟨_, _, he, he2, ?_, ?_, ?_, ?_⟩
  · intro f hf
    obtain ⟨l, l', h1, h2, h3⟩ := C59_union_work G ops hu i j s t hs ht f
      ⟨hf, fun s t _ _ v => .inr (fun hc => hT v (AtLeast.imp hc (fun _ hw => hw.2)))⟩
    rw [he] at h1; rw [he2] at h2
    cases h1; cases h2
    have h4 := h3 3 hc hc2
    refine ⟨h4, ?_⟩
    rw [hstep]
    simp only [World.step, World.on2, hs, ht]
    exact size_push _ _ h4
  · have h4 := acc_tree_difference G hr hr2 hl hV.wf hV2.wf hc.few hc2.few
    refine ⟨h4, ?_⟩
    rw [hstep]
    simp only [World.step, World.on2, hs, ht]
    exact size_push _ _ h4
  · have h4 := acc_tree_intersection G hr hr2 hl hV.wf hV2.wf hc.few hc2.few
    refine ⟨h4, ?_⟩
    rw [hstep]
    simp only [World.step, World.on2, hs, ht]
    exact size_push _ _ h4
  · intro p
    exact acc_tree_where G p hr hl hV.wf hc.few

/-- C59 for maps: `Merge` and `Update` make at most 502 nodes and arrays for each entry of the smaller map. -/
theorem C59_map_linear_in_smaller {K V : Type} [GoKey K] [LawfulGoKey K] [Inhabited V] (hK : FewCollisions K) (G : Growth)
    (ops : List (MOp K V)) (i j : Nat) (m m' : MTree)
    (hm : (World.init.runMap G ops).sets[i]? = some m) (hm' : (World.init.runMap G ops).sets[j]? = some m') :
    ∃ l l', m.elems (World.init.runMap G ops).mem = .ok l ∧ m'.elems (World.init.runMap G ops).mem = .ok l' ∧
      (∀ resolve, (World.init.runMap G (ops ++ [.merge i j resolve])).size ≤
        (World.init.runMap G ops).size + 502 * min l.length l'.length) ∧
      (World.init.runMap G (ops ++ [.update i j])).size ≤ (World.init.runMap G ops).size + 502 * min l.length l'.length := by
  have happ : ∀ op : MOp K V, World.init.runMap G (ops ++ [op]) =
      (World.init.runMap G ops).step G (op.call (World.init.runMap G ops)) := by
    intro op
    rw [runMap_eq, mapCalls_append, run_append, ← runMap_eq]
    rfl
  have hmo := mapCalls_all G ops World.init (fun op _ w => call_mergesOk op w)
  have hstep : ∀ op, (World.init.runMap G ops).step G op = World.init.run G (mapCalls G World.init ops ++ [op]) := by
    intro op
    rw [run_append, ← runMap_eq]
    rfl
  have hm1 := hm
  have hm1' := hm'
  rw [runMap_eq] at hm1 hm1'
  obtain ⟨l, l', h1, h2, h3, -⟩ := C59_linear_in_smaller (entry_few hK) G _ hmo i j m m' hm1 hm1'
  obtain ⟨k, k', g1, g2, g3, -⟩ := C59_linear_in_smaller (entry_few hK) G _ hmo j i m' m hm1' hm1
  rw [← runMap_eq] at h1 h2 h3 g1 g2 g3
  rw [h2] at g1; rw [h1] at g2
  cases g1; cases g2
  refine ⟨l, l', h1, h2, fun resolve => ?_, ?_⟩
  · rw [happ, hstep]
    exact (h3 (fun a b => ⟨a.key, resolve a.key a.value b.value⟩) (fun a b h => LawfulGoKey.refl (T := K) a.key)).2
  · rw [happ]
    simp only [MOp.call, hm, hm']
    split
    · rw [hstep, Nat.min_comm]
      exact (g3 _ (fun a b h => LawfulGoKey.refl _)).2
    · rw [hstep]
      exact (h3 _ (fun a b h => PerGoKey.symm h)).2

/-! ## The hypotheses can be met -/

/-- A set with 60 elements and one with two. -/
def bigSmall : List (HOp Mod100) :=
  [.newBuilder] ++ (List.range 60).map (fun k => .add 0 ⟨k⟩) ++ [.finish 0, .newBuilder, .add 1 ⟨7⟩, .add 1 ⟨90⟩, .finish 1]

theorem bigSmall_mergesOk : ∀ op ∈ bigSmall, op.MergesOk := by
  intro op h
  simp only [bigSmall, List.mem_append, List.mem_cons, List.not_mem_nil, or_false, List.mem_map] at h
  rcases h with (rfl | ⟨k, _, rfl⟩) | rfl | rfl | rfl | rfl | rfl <;> exact trivial

/-- The theorems speak about these two sets. -/
example : UncrowdedRun goGrowth World.init bigSmall := uncrowded_of_few mod100_few _ _ _ bigSmall_mergesOk

/-- And so they do about any two sets of `mixedHistory`, which shares nodes between its sets. -/
example : ∃ s t l l', (World.init.run goGrowth mixedHistory).sets[4]? = some s ∧ (World.init.run goGrowth mixedHistory).sets[1]? = some t ∧
    s.elems (World.init.run goGrowth mixedHistory).mem = .ok l ∧ t.elems (World.init.run goGrowth mixedHistory).mem = .ok l' ∧
    (s.difference goGrowth t).accesses (World.init.run goGrowth mixedHistory).mem ≤ 1114 * min l.length l'.length := by
  have h4 : ((World.init.run goGrowth mixedHistory).sets[4]?).isSome = true := by decide +kernel
  have h1 : ((World.init.run goGrowth mixedHistory).sets[1]?).isSome = true := by decide +kernel
  obtain ⟨s, hs⟩ := Option.isSome_iff_exists.1 h4
  obtain ⟨t, ht⟩ := Option.isSome_iff_exists.1 h1
  obtain ⟨l, l', e1, e2, _, ⟨e3, _⟩, _⟩ := C59_linear_in_smaller mod100_few goGrowth _ mixed_mergesOk 4 1 s t hs ht
  exact ⟨s, t, l, l', hs, ht, e1, e2, e3⟩

/-- What the calls on 60 and two elements take: 25, 58, 13 and 13 accesses, when reading all 60 elements takes 76; `Where` on the 60 takes 343. -/
example : ((World.init.run goGrowth bigSmall).sets[0]?).any (fun s => ((World.init.run goGrowth bigSmall).sets[1]?).any (fun t =>
    decide (s.count = 60 ∧ t.count = 2 ∧
      (s.combine goGrowth ⟨GoKey.eq, fun _ b => b⟩ t).accesses (World.init.run goGrowth bigSmall).mem = 25 ∧
      (s.difference goGrowth t).accesses (World.init.run goGrowth bigSmall).mem = 58 ∧
      (t.difference goGrowth s).accesses (World.init.run goGrowth bigSmall).mem = 13 ∧
      (s.intersection goGrowth t).accesses (World.init.run goGrowth bigSmall).mem = 13 ∧
      s.elemsP.accesses (World.init.run goGrowth bigSmall).mem = 76 ∧
      (s.where goGrowth (fun e => decide (e.n > 7))).accesses (World.init.run goGrowth bigSmall).mem = 343))) = true := by decide +kernel

end Frozen
