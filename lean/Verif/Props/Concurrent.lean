import Verif.Proof.Concurrent
import Verif.Props.Persist

/-!
# Goroutines that share sets

Properties C48 and C49 (Spec/Concurrent.lean).
-/

set_option linter.unusedSectionVars false

namespace Frozen

variable {T : Type} [GoKey T] [LawfulGoKey T]

/-- C48: goroutines that call anything but `With` and the merges on the sets they share, under any schedule of their single accesses:
the memory they share never changes, and a goroutine that has come to its end has seen and holds exactly what it would alone. The
sets may have come about in any way. -/
theorem C48_undisturbed (G : Growth) (ops : List (HOp T)) (hs : List (List (GOp T)))
    (ho : ∀ h ∈ hs, ∀ op ∈ GOp.calls h, op.mayAppend = false) (sched : List Nat) :
    ((fork G (World.init.run G ops) hs).run sched).shared = (World.init.run G ops).mem ∧
    ∀ (i : Nat) (h : List (GOp T)), hs[i]? = some h → ∃ g, ((fork G (World.init.run G ops) hs).run sched).gs[i]? = some g ∧
      ∀ r, g.code = .done r → r = alone G (World.init.run G ops) h := by
  obtain ⟨S, B, hinv⟩ := run_inv G ops (HistInv.init false) (nomatch ·)
  obtain ⟨h1, h2⟩ := fork_run G (World.init.run G ops) hs (fun h hh => (start_ok G hinv h (nomatch ·) (.inr (ho h hh))).1) sched
  refine ⟨h1, fun i h hi => ?_⟩
  obtain ⟨g, h3, h4, _⟩ := h2 i h hi
  exact ⟨g, h3, h4⟩

/-- C48: there is no data race: whatever the schedule so far, no goroutine's next access writes to a location that another goroutine
knows, that is, one that existed when they were started. -/
theorem C48_no_race (G : Growth) (ops : List (HOp T)) (hs : List (List (GOp T)))
    (ho : ∀ h ∈ hs, ∀ op ∈ GOp.calls h, op.mayAppend = false) (sched : List Nat) (i : Nat) (g : Goroutine T)
    (hg : ((fork G (World.init.run G ops) hs).run sched).gs[i]? = some g) (l : Loc) (hl : g.code.nextWrite = some l) :
    ¬ (World.init.run G ops).mem.HasLoc l := by
  obtain ⟨S, B, hinv⟩ := run_inv G ops (HistInv.init false) (nomatch ·)
  have hq := fun h hh => (start_ok G hinv h (nomatch ·) (.inr (ho h hh))).1
  exact fork_no_race G _ hs hq sched i g hg l hl

/-- C48: every goroutine ends without a panic of its own if it gets enough turns, whatever the others do and even if they never get
any. -/
theorem C48_ends (G : Growth) (ops : List (HOp T)) (hs : List (List (GOp T)))
    (ho : ∀ h ∈ hs, ∀ op ∈ GOp.calls h, op.mayAppend = false) (i : Nat) (h : List (GOp T)) (hi : hs[i]? = some h) :
    ∃ n, ∀ sched : List Nat, n ≤ sched.count i → ∃ g c, ((fork G (World.init.run G ops) hs).run sched).gs[i]? = some g ∧
      g.code = .done (.ok c) := by
  obtain ⟨S, B, hinv⟩ := run_inv G ops (HistInv.init false) (nomatch ·)
  have hq := fun h hh => start_ok G hinv h (nomatch ·) (.inr (ho h hh))
  obtain ⟨n, hn⟩ := fork_finishes G _ hs (fun h hh => (hq h hh).1) i h hi
  obtain ⟨c, hc, _⟩ := (hq h (List.mem_of_getElem? hi)).2
  refine ⟨n, fun sched hsched => ?_⟩
  obtain ⟨g, h1, h2⟩ := hn sched hsched
  exact ⟨g, c, h1, by rw [h2, hc]⟩

/-- What a goroutine does alone is what a history (Spec/History.lean) does: it comes to hold the same sets and builders in the same
memory. -/
theorem C48_alone (G : Growth) (ops : List (HOp T)) (h : List (GOp T)) (ho : ∀ op ∈ GOp.calls h, op.mayAppend = false) :
    ∃ c, alone G (World.init.run G ops) h = .ok c ∧
      c.sets = (World.run G ⟨(World.init.run G ops).mem, (World.init.run G ops).sets, []⟩ (GOp.calls h)).sets ∧
      c.builders = (World.run G ⟨(World.init.run G ops).mem, (World.init.run G ops).sets, []⟩ (GOp.calls h)).builders := by
  obtain ⟨S, B, hinv⟩ := run_inv G ops (HistInv.init false) (nomatch ·)
  obtain ⟨c, H', h1, h2, _⟩ := goroutine_ok G h (c := ⟨(World.init.run G ops).sets, [], []⟩) (H := (World.init.run G ops).mem) hinv.start
    (nomatch ·) (.inr ho)
  refine ⟨c, by unfold alone; rw [h1], ?_, ?_⟩
  · exact congrArg World.sets h2
  · exact congrArg World.builders h2

/-- C49, the part that holds: goroutines may call everything on the sets they share, under any schedule of their single accesses, as
long as none of them (nor the goroutine that made the sets) adds an element to a set having three others with the same 64-bit hash.
The shared memory never changes, no goroutine's next access writes to it, and a goroutine that has come to its end has seen what it
sees when every set is a value of its own. Missing: the other additions; they break the property (`C49_shared_with_refuted`). -/
theorem C49_undisturbed_partial (G : Growth) (ops : List (HOp T)) (hs : List (List (GOp T))) (hu : UncrowdedRun G World.init ops)
    (hus : ∀ h ∈ hs, UncrowdedRun G ⟨(World.init.run G ops).mem, (World.init.run G ops).sets, []⟩ (GOp.calls h)) (sched : List Nat) :
    ((fork G (World.init.run G ops) hs).run sched).shared = (World.init.run G ops).mem ∧
    ∀ (i : Nat) (h : List (GOp T)), hs[i]? = some h → ∃ g, ((fork G (World.init.run G ops) hs).run sched).gs[i]? = some g ∧
      (∀ l, g.code.nextWrite = some l → ¬ (World.init.run G ops).mem.HasLoc l) ∧
      ∀ r, g.code = .done r → ∃ c, r = .ok c ∧ .ok c = alone G (World.init.run G ops) h ∧
        c.seen = (VClient.run ⟨⟨(VWorld.run ⟨[], []⟩ ops).sets, []⟩, []⟩ h).seen := by
  obtain ⟨S, B, hinv⟩ := run_inv G ops (HistInv.init true) (fun _ => hu)
  have hq := fun h hh => start_ok G hinv h (fun _ => hus h hh) (.inl rfl)
  obtain ⟨h1, h2⟩ := fork_run G (World.init.run G ops) hs (fun h hh => (hq h hh).1) sched
  refine ⟨h1, fun i h hi => ?_⟩
  obtain ⟨g, h3, h4, h5, _⟩ := h2 i h hi
  refine ⟨g, h3, h5, fun r hr => ?_⟩
  obtain ⟨c, hc, hseen⟩ := (hq h (List.mem_of_getElem? hi)).2
  exact ⟨c, by rw [h4 r hr, hc], hc.symm, hseen rfl⟩

/-- C49, the part that holds: such a goroutine ends if it gets enough turns. -/
theorem C49_ends_partial (G : Growth) (ops : List (HOp T)) (hs : List (List (GOp T))) (hu : UncrowdedRun G World.init ops)
    (hus : ∀ h ∈ hs, UncrowdedRun G ⟨(World.init.run G ops).mem, (World.init.run G ops).sets, []⟩ (GOp.calls h))
    (i : Nat) (h : List (GOp T)) (hi : hs[i]? = some h) :
    ∃ n, ∀ sched : List Nat, n ≤ sched.count i → ∃ g c, ((fork G (World.init.run G ops) hs).run sched).gs[i]? = some g ∧
      g.code = .done (.ok c) := by
  obtain ⟨S, B, hinv⟩ := run_inv G ops (HistInv.init true) (fun _ => hu)
  have hq := fun h hh => start_ok G hinv h (fun _ => hus h hh) (.inl rfl)
  obtain ⟨n, hn⟩ := fork_finishes G _ hs (fun h hh => (hq h hh).1) i h hi
  obtain ⟨c, hc, _⟩ := (hq h (List.mem_of_getElem? hi)).2
  refine ⟨n, fun sched hsched => ?_⟩
  obtain ⟨g, h1, h2⟩ := hn sched hsched
  exact ⟨g, c, h1, by rw [h2, hc]⟩

/-- C49 for element types whose hash has few collisions: then goroutines may call everything. -/
theorem C49_few_collisions_partial (hT : FewCollisions T) (G : Growth) (ops : List (HOp T)) (hs : List (List (GOp T)))
    (hm : ∀ op ∈ ops, op.MergesOk) (hms : ∀ h ∈ hs, ∀ op ∈ GOp.calls h, op.MergesOk) (sched : List Nat)
    (i : Nat) (h : List (GOp T)) (hi : hs[i]? = some h) (g : Goroutine T)
    (hg : ((fork G (World.init.run G ops) hs).run sched).gs[i]? = some g) (r : Go (Client T)) (hr : g.code = .done r) :
    ∃ c, r = .ok c ∧ c.seen = (VClient.run ⟨⟨(VWorld.run ⟨[], []⟩ ops).sets, []⟩, []⟩ h).seen := by
  obtain ⟨_, h2⟩ := C49_undisturbed_partial G ops hs (uncrowded_of_few hT G _ _ hm)
    (fun h hh => uncrowded_of_few hT G _ _ (hms h hh)) sched
  obtain ⟨g', h3, _, h4⟩ := h2 i h hi
  rw [hg] at h3
  cases h3
  obtain ⟨c, h5, _, h6⟩ := h4 r hr
  exact ⟨c, h5, h6⟩

/-! ## The property fails when goroutines add to a crowded set -/

/-- The code has come to its end. -/
def MM.result? {α : Type} : MM T α → Option (Go α)
  | .done r => some r
  | _ => none

theorem MM.of_result? {α : Type} {x : MM T α} {r : Go α} (h : x.result? = some r) : x = .done r := by
  cases x <;> simp [MM.result?] at h
  rw [h]

/-- The answer is that `Get` found `v`, or found nothing. -/
def Answer.isFound [DecidableEq T] (v : Option T) : Answer T → Bool
  | .found (.ok r) => decide (r = v)
  | _ => false

/-- The goroutine has ended having seen exactly one answer, and it is `v`. -/
def sawOnly [DecidableEq T] (v : Option T) : Option (Go (Client T)) → Bool
  | some (.ok c) => match c.seen with
    | [a] => a.isFound v
    | _ => false
  | _ => false

/-- Four elements with one hash. -/
def crowdedStart : List (HOp Coll) := [.empty, .with 0 ⟨1⟩, .with 1 ⟨2⟩, .with 2 ⟨3⟩, .with 3 ⟨4⟩]

/-- Two goroutines: one adds 5 and looks whether it is there, the other adds 6 to the same set. -/
def crowdedGos : List (List (GOp Coll)) := [[.call (.with 4 ⟨5⟩), .get 5 ⟨5⟩], [.call (.with 4 ⟨6⟩)]]

/-- The second goroutine runs between the two steps of the first. -/
def badSchedule : List Nat := List.replicate 56 0 ++ List.replicate 56 1 ++ List.replicate 28 0

/-- C49 is false of the code: a goroutine computes `t := s.With(5)` and then finds that 5 is not in `t`, because another goroutine has
computed `s.With(6)` meanwhile. Alone it finds 5. -/
theorem C49_shared_with_refuted : ∃ (ops : List (HOp Coll)) (hs : List (List (GOp Coll))) (sched : List Nat) (i : Nat)
    (h : List (GOp Coll)) (g : Goroutine Coll) (r : Go (Client Coll)),
    hs[i]? = some h ∧ ((fork goGrowth (World.init.run goGrowth ops) hs).run sched).gs[i]? = some g ∧ g.code = .done r ∧
    sawOnly none (some r) = true ∧ sawOnly (some ⟨5⟩) (some (alone goGrowth (World.init.run goGrowth ops) h)) = true := by
  refine ⟨crowdedStart, crowdedGos, badSchedule, 0, [.call (.with 4 ⟨5⟩), .get 5 ⟨5⟩], ?_⟩
  have hk : ((((fork goGrowth (World.init.run goGrowth crowdedStart) crowdedGos).run badSchedule).gs[0]?).any (fun g =>
      g.code.result?.any (fun r => sawOnly none (some r)))) = true := by decide +kernel
  have ha : sawOnly (some ⟨5⟩) (some (alone goGrowth (World.init.run goGrowth crowdedStart)
      [.call (.with 4 ⟨5⟩), .get 5 ⟨5⟩])) = true := by decide +kernel
  cases hg : ((fork goGrowth (World.init.run goGrowth crowdedStart) crowdedGos).run badSchedule).gs[0]? with
  | none => rw [hg] at hk; cases hk
  | some g =>
    rw [hg, Option.any_some] at hk
    cases hr : g.code.result? with
    | none => rw [hr] at hk; cases hk
    | some r =>
      rw [hr, Option.any_some] at hk
      exact ⟨g, r, rfl, rfl, MM.of_result? hr, hk, ha⟩

/-- It is a data race: there is a schedule after which the next access of either goroutine writes to the same array, which existed
before they were started. -/
theorem C49_data_race : ∃ (ops : List (HOp Coll)) (hs : List (List (GOp Coll))) (sched : List Nat) (g0 g1 : Goroutine Coll) (a : Nat),
    ((fork goGrowth (World.init.run goGrowth ops) hs).run sched).gs = [g0, g1] ∧ g0.code.nextWrite = some (.arr a) ∧
    g1.code.nextWrite = some (.arr a) ∧ (World.init.run goGrowth ops).mem.HasLoc (.arr a) := by
  have hk : (match ((fork goGrowth (World.init.run goGrowth crowdedStart) crowdedGos).run
      (List.replicate 27 0 ++ List.replicate 27 1)).gs with
    | [g0, g1] => match g0.code.nextWrite, g1.code.nextWrite with
      | some (.arr a), some (.arr b) => decide (a = b) && decide (a < (World.init.run goGrowth crowdedStart).mem.arrays.length)
      | _, _ => false
    | _ => false) = true := by decide +kernel
  split at hk
  · rename_i g0 g1 hgs
    split at hk
    · rename_i a b h0 h1
      rw [Bool.and_eq_true] at hk
      have hab := of_decide_eq_true hk.1
      subst hab
      exact ⟨crowdedStart, crowdedGos, _, g0, g1, a, hgs, h0, h1, show a < _ from of_decide_eq_true hk.2⟩
    · cases hk
  · cases hk

/-! ## The hypotheses can be met -/

/-- Two goroutines that filter, subtract, remove and build from the sets of `mixedHistory`, and look at the results. -/
def readerGos : List (List (GOp Mod100)) :=
  [[.call (.where 4 (fun e => decide (e.n > 2))), .range 8, .call (.difference 4 2), .get 9 ⟨2⟩, .call (.without 4 ⟨7⟩), .get 10 ⟨7⟩],
    [.call .newBuilder, .call (.add 0 ⟨60⟩), .call (.add 0 ⟨160⟩), .call (.finish 0), .get 8 ⟨60⟩, .call (.intersection 4 8), .range 9]]

example : ∀ h ∈ readerGos, ∀ op ∈ GOp.calls h, op.mayAppend = false := by decide

/-- Taking turns, both end, having seen three answers and two. -/
example : (((fork goGrowth (World.init.run goGrowth mixedHistory) readerGos).run
    ((List.replicate 300 [0, 1]).flatten)).gs.map (fun g => g.code.result?.map (fun r =>
      match r with
      | .ok c => c.seen.length
      | .error _ => 0))) = [some 3, some 2] := by decide +kernel

/-- Two goroutines that add to the same set and unite sets. -/
def writerGos : List (List (GOp Mod100)) :=
  [[.call (.with 4 ⟨55⟩), .get 8 ⟨55⟩, .call (HOp.union 8 1), .range 9], [.call (.with 4 ⟨56⟩), .get 8 ⟨55⟩, .get 8 ⟨56⟩]]

example : ∀ h ∈ writerGos, UncrowdedRun goGrowth
    ⟨(World.init.run goGrowth mixedHistory).mem, (World.init.run goGrowth mixedHistory).sets, []⟩ (GOp.calls h) := by
  intro h hh
  refine uncrowded_of_few mod100_few _ _ _ (fun op hop => ?_)
  simp only [writerGos, List.mem_cons, List.not_mem_nil, or_false] at hh
  rcases hh with rfl | rfl
  · simp only [GOp.calls, List.filterMap_cons, List.filterMap_nil, List.mem_cons, List.not_mem_nil, or_false] at hop
    rcases hop with rfl | rfl
    · exact trivial
    · exact fun a b h => PerGoKey.symm h
  · simp only [GOp.calls, List.filterMap_cons, List.filterMap_nil, List.mem_cons, List.not_mem_nil, or_false] at hop
    subst hop
    exact trivial

/-- Taking turns, both end; the second does not find the element that the first added to the same set. -/
example : (((fork goGrowth (World.init.run goGrowth mixedHistory) writerGos).run
    ((List.replicate 300 [0, 1]).flatten)).gs.map (fun g => g.code.result?.map (fun r =>
      match r with
      | .ok c => c.seen.map (Answer.isFound none)
      | .error _ => []))) = [some [false, false], some [true, false]] := by decide +kernel

end Frozen
