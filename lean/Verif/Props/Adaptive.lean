import Verif.Proof.Adaptive
import Verif.Proof.MapValues
import Verif.Props.Concurrent
import Verif.Props.MapWork

/-!
# Goroutines that decide as they go, and goroutines that share maps

C48 and C49 for programs in which every decision depends on what was seen before; property C64.
-/

set_option linter.unusedSectionVars false

namespace Frozen

section Sets

variable {T : Type} [GoKey T] [LawfulGoKey T]

/-- C48 for goroutines that decide as they go: if none of them calls `With` or a merge, then under any schedule the shared memory never
changes, no next access writes to it, and a goroutine that has ended has come, without a panic, to what it comes to alone. -/
theorem C48_adaptive (G : Growth) (ops : List (HOp T)) (ps : List (GProg T)) (ho : ∀ p ∈ ps, p.NoAppend) (sched : List Nat) :
    ((forkProgs G (World.init.run G ops) ps).run sched).shared = (World.init.run G ops).mem ∧
    ∀ (i : Nat) (p : GProg T), ps[i]? = some p → ∃ g, ((forkProgs G (World.init.run G ops) ps).run sched).gs[i]? = some g ∧
      (∀ l, g.code.nextWrite = some l → ¬ (World.init.run G ops).mem.HasLoc l) ∧
      ∀ r, g.code = .done r → r = aloneProg G (World.init.run G ops) p ∧ ∃ c, r = .ok c := by
  obtain ⟨S, B, hinv⟩ := run_inv G ops (HistInv.init false) (nomatch ·)
  have hq := fun p hp => startProg_ok G hinv p (nomatch ·) (.inr (ho p hp))
  obtain ⟨h1, h2⟩ := forkProgs_run G (World.init.run G ops) ps (fun p hp => (hq p hp).1) sched
  refine ⟨h1, fun i p hi => ?_⟩
  obtain ⟨g, h3, h4, h5, _⟩ := h2 i p hi
  obtain ⟨c, hc, _⟩ := (hq p (List.mem_of_getElem? hi)).2
  exact ⟨g, h3, h5, fun r hr => ⟨h4 r hr, c, by rw [h4 r hr, hc]⟩⟩

/-- C48 for goroutines that decide as they go: each ends if it gets enough turns. -/
theorem C48_adaptive_ends (G : Growth) (ops : List (HOp T)) (ps : List (GProg T)) (ho : ∀ p ∈ ps, p.NoAppend) (i : Nat) (p : GProg T)
    (hi : ps[i]? = some p) :
    ∃ n, ∀ sched : List Nat, n ≤ sched.count i → ∃ g c, ((forkProgs G (World.init.run G ops) ps).run sched).gs[i]? = some g ∧
      g.code = .done (.ok c) := by
  obtain ⟨S, B, hinv⟩ := run_inv G ops (HistInv.init false) (nomatch ·)
  have hq := fun p hp => startProg_ok G hinv p (nomatch ·) (.inr (ho p hp))
  obtain ⟨n, hn⟩ := forkProgs_finishes G _ ps (fun p hp => (hq p hp).1) i p hi
  obtain ⟨c, hc, _⟩ := (hq p (List.mem_of_getElem? hi)).2
  refine ⟨n, fun sched hsched => ?_⟩
  obtain ⟨g, h1, h2⟩ := hn sched hsched
  exact ⟨g, c, h1, by rw [h2, hc]⟩

/-- C49 for goroutines that decide as they go, the part that holds: if nobody adds an element to a set having three others with the
same 64-bit hash, then under any schedule the shared memory never changes, no next access writes to it, and a goroutine that has ended
knows what it knows when every set is a value of its own. Missing: the other additions (`C49_shared_with_refuted`). -/
theorem C49_adaptive_partial (G : Growth) (ops : List (HOp T)) (ps : List (GProg T)) (hu : UncrowdedRun G World.init ops)
    (hus : ∀ p ∈ ps, UncrowdedProg G ⟨(World.init.run G ops).sets, [], []⟩ (World.init.run G ops).mem p) (sched : List Nat) :
    ((forkProgs G (World.init.run G ops) ps).run sched).shared = (World.init.run G ops).mem ∧
    ∀ (i : Nat) (p : GProg T), ps[i]? = some p → ∃ g, ((forkProgs G (World.init.run G ops) ps).run sched).gs[i]? = some g ∧
      (∀ l, g.code.nextWrite = some l → ¬ (World.init.run G ops).mem.HasLoc l) ∧
      ∀ r, g.code = .done r → ∃ c, r = .ok c ∧
        c.view = (VClient.follow ⟨⟨(VWorld.run ⟨[], []⟩ ops).sets, []⟩, []⟩ p).view := by
  obtain ⟨S, B, hinv⟩ := run_inv G ops (HistInv.init true) (fun _ => hu)
  have hq := fun p hp => startProg_ok G hinv p (fun _ => hus p hp) (.inl rfl)
  obtain ⟨h1, h2⟩ := forkProgs_run G (World.init.run G ops) ps (fun p hp => (hq p hp).1) sched
  refine ⟨h1, fun i p hi => ?_⟩
  obtain ⟨g, h3, h4, h5, _⟩ := h2 i p hi
  obtain ⟨c, hc, hview⟩ := (hq p (List.mem_of_getElem? hi)).2
  exact ⟨g, h3, h5, fun r hr => ⟨c, by rw [h4 r hr, hc], hview rfl⟩⟩

/-- C49 for goroutines that decide as they go: such a goroutine ends if it gets enough turns. -/
theorem C49_adaptive_ends_partial (G : Growth) (ops : List (HOp T)) (ps : List (GProg T)) (hu : UncrowdedRun G World.init ops)
    (hus : ∀ p ∈ ps, UncrowdedProg G ⟨(World.init.run G ops).sets, [], []⟩ (World.init.run G ops).mem p)
    (i : Nat) (p : GProg T) (hi : ps[i]? = some p) :
    ∃ n, ∀ sched : List Nat, n ≤ sched.count i → ∃ g c, ((forkProgs G (World.init.run G ops) ps).run sched).gs[i]? = some g ∧
      g.code = .done (.ok c) := by
  obtain ⟨S, B, hinv⟩ := run_inv G ops (HistInv.init true) (fun _ => hu)
  have hq := fun p hp => startProg_ok G hinv p (fun _ => hus p hp) (.inl rfl)
  obtain ⟨n, hn⟩ := forkProgs_finishes G _ ps (fun p hp => (hq p hp).1) i p hi
  obtain ⟨c, hc, _⟩ := (hq p (List.mem_of_getElem? hi)).2
  refine ⟨n, fun sched hsched => ?_⟩
  obtain ⟨g, h1, h2⟩ := hn sched hsched
  exact ⟨g, c, h1, by rw [h2, hc]⟩

/-- The functions given to merges return an element equal to their arguments. -/
def GProg.MergesOk : GProg T → Prop
  | .stop => True
  | .look next => ∀ v, (next v).MergesOk
  | .act op rest => (∀ o, op = .call o → o.MergesOk) ∧ rest.MergesOk

theorem uncrowded_few (hT : FewCollisions T) (w : World T) (o : HOp T) (h : o.MergesOk) : Uncrowded w o := by
  cases o with
  | «with» i v => exact fun s _ => .inr (fun hc => hT v (AtLeast.imp hc (fun _ hw => hw.2)))
  | merge i j f => exact ⟨h, fun s t _ _ v => .inr (fun hc => hT v (AtLeast.imp hc (fun _ hw => hw.2)))⟩
  | _ => trivial

theorem uncrowdedProg_of_few (hT : FewCollisions T) (G : Growth) (p : GProg T) : ∀ (c : Client T) (H : Mem T), p.MergesOk →
    UncrowdedProg G c H p := by
  induction p with
  | stop => exact fun _ _ _ => trivial
  | look k ih => exact fun c H h => ih c.view c H (h _)
  | act op p ih => exact fun c H h => ⟨fun o ho => uncrowded_few hT _ o (h.1 o ho), fun c' H' _ => ih c' H' h.2⟩

/-- C49 for goroutines that decide as they go and element types whose hash has few collisions: they may call everything. -/
theorem C49_adaptive_few_collisions_partial (hT : FewCollisions T) (G : Growth) (ops : List (HOp T)) (ps : List (GProg T))
    (hm : ∀ op ∈ ops, op.MergesOk) (hms : ∀ p ∈ ps, p.MergesOk) (sched : List Nat)
    (i : Nat) (p : GProg T) (hi : ps[i]? = some p) (g : Goroutine T)
    (hg : ((forkProgs G (World.init.run G ops) ps).run sched).gs[i]? = some g) (r : Go (Client T)) (hr : g.code = .done r) :
    ∃ c, r = .ok c ∧ c.view = (VClient.follow ⟨⟨(VWorld.run ⟨[], []⟩ ops).sets, []⟩, []⟩ p).view := by
  obtain ⟨_, h2⟩ := C49_adaptive_partial G ops ps (uncrowded_of_few hT G _ _ hm)
    (fun p hp => uncrowdedProg_of_few hT G p _ _ (hms p hp)) sched
  obtain ⟨g', h3, _, h4⟩ := h2 i p hi
  rw [hg] at h3
  cases h3
  exact h4 r hr

/-- The number of elements seen. -/
def Answer.size : Answer T → Nat
  | .found (.ok (some _)) => 1
  | .visited (.ok l) => l.length
  | .truth (.ok true) => 1
  | _ => 0

/-- A goroutine that looks for `v` in a set; if it is not there, it adds it, and goes on according to the number of elements
it has then; if it is there, it removes it. -/
def decider (v : Mod100) : GProg Mod100 :=
  .act (.get 4 v) (.look (fun w =>
    if w.seen.map Answer.size = [0] then
      .act (.call (.with 4 v)) (.look (fun w => if w.counts[8]? = some 5 then .act (.call (.with 8 ⟨56⟩)) (.act (.range 9) .stop)
        else .act (.call (HOp.union 8 1)) (.act (.range 9) .stop)))
    else .act (.call (.without 4 v)) (.act (.range 8) .stop)))

theorem decider_mergesOk (v : Mod100) : (decider v).MergesOk := by
  refine ⟨fun o ho => (nomatch ho), fun w => ?_⟩
  dsimp only
  split
  · refine ⟨fun o ho => by cases ho; trivial, fun w => ?_⟩
    dsimp only
    split
    · exact ⟨fun o ho => by cases ho; trivial, fun o ho => (nomatch ho), trivial⟩
    · exact ⟨fun o ho => by cases ho; exact fun a b h => PerGoKey.symm h, fun o ho => (nomatch ho), trivial⟩
  · exact ⟨fun o ho => by cases ho; trivial, fun o ho => (nomatch ho), trivial⟩

/-- Two such goroutines, taking turns, go different ways and both end. -/
example : (((forkProgs goGrowth (World.init.run goGrowth mixedHistory) [decider ⟨55⟩, decider ⟨7⟩]).run
    ((List.replicate 300 [0, 1]).flatten)).gs.map (fun g => g.code.result?.map (fun r =>
      match r with
      | .ok c => c.seen.map Answer.size
      | .error _ => []))) = [some [0, 6], some [1, 3]] := by decide +kernel

/-- A goroutine that compares sets: the set at 4 with one of its subsets, and with itself after taking an element away and adding it
again. -/
def comparer (v w : Mod100) : GProg Mod100 :=
  .act (.call (.without 4 v)) (.act (.subset 8 4) (.act (.subset 4 8) (.act (.call (.with 8 w)) (.act (.equal GoKey.eq 9 4) (.look (fun u =>
    if u.seen.map Answer.size = [1, 0, 1] then .act (.call (.with 9 ⟨56⟩)) (.act (.equal GoKey.eq 10 4) (.act (.subset 4 10) .stop))
    else .stop))))))

theorem comparer_mergesOk (v w : Mod100) : (comparer v w).MergesOk := by
  refine ⟨fun o ho => by cases ho; trivial, fun o ho => (nomatch ho), fun o ho => (nomatch ho), fun o ho => by cases ho; trivial,
    fun o ho => (nomatch ho), fun u => ?_⟩
  dsimp only
  split
  · exact ⟨fun o ho => by cases ho; trivial, fun o ho => (nomatch ho), fun o ho => (nomatch ho), trivial⟩
  · trivial

example : (((forkProgs goGrowth (World.init.run goGrowth mixedHistory) [comparer ⟨7⟩ ⟨7⟩, comparer ⟨7⟩ ⟨55⟩]).run
    ((List.replicate 300 [0, 1]).flatten)).gs.map (fun g => g.code.result?.map (fun r =>
      match r with
      | .ok c => c.seen.map Answer.size
      | .error _ => []))) = [some [1, 0, 1, 0, 1], some [1, 0, 0]] := by decide +kernel

end Sets

section Maps

variable {K V : Type} [GoKey K] [LawfulGoKey K] [Inhabited V]

theorem callAt_eq (w : World (Entry K V)) (op : MOp K V) : op.callAt (w.sets.map (·.count)) = op.call w := by
  cases op with
  | update i j =>
    simp only [MOp.callAt, MOp.call, List.getElem?_map]
    cases w.sets[i]? with
    | none => rfl
    | some m => cases w.sets[j]? <;> rfl
  | _ => rfl

theorem runMap_inv (G : Growth) : ∀ (ops : List (MOp K V)) {w : World (Entry K V)} {vw : VWorld (Entry K V)} {S : Set Loc}
    {B : Nat → Set Loc}, HistInv true w vw S B → UncrowdedMapRun G w ops → ∃ S' B', HistInv true (w.runMap G ops) (vw.runMap ops) S' B'
  | [], _, _, S, B, h, _ => ⟨S, B, h⟩
  | op :: ops, w, vw, S, B, h, hu => by
    obtain ⟨⟨S', B', _, h'⟩, _⟩ := step_ok G h (op.call w) (fun _ => uncrowded_call op hu.1)
    show ∃ S' B', HistInv true ((w.step G (op.call w)).runMap G ops) ((vw.step (op.callAt (vw.sets.map (·.count)))).runMap ops) S' B'
    rw [← view_eq h, callAt_eq]
    exact runMap_inv G ops h' hu.2

variable [GoKey V]

theorem noAppend_trees (p : MGProg K V) (h : p.NoAppend) : p.trees.NoAppend := by
  induction p with
  | stop => trivial
  | look k ih => exact fun v => ih _ (h _)
  | act op p ih =>
    refine fun v => ⟨fun o ho => ?_, ih h.2⟩
    cases op with
    | call op =>
      cases ho
      have := h.1 op rfl
      cases op <;> first | rfl | cases this
    | get i k => cases ho
    | range i => cases ho
    | equal i j => cases ho

theorem uncrowded_trees (G : Growth) (p : MGProg K V) : ∀ (c : Client (Entry K V)) (H : Mem (Entry K V)), UncrowdedMapProg G c H p →
    UncrowdedProg G c H p.trees := by
  induction p with
  | stop => exact fun _ _ _ => trivial
  | look k ih => exact fun c H h => ih _ c H h
  | act op p ih =>
    intro c H h
    refine ⟨fun o ho => ?_, fun c' H' hp => ih c' H' (h.2 c' H' hp)⟩
    cases op with
    | call op =>
      cases ho
      show Uncrowded (c.world H) (op.callAt ((c.world H).sets.map (·.count)))
      rw [callAt_eq]
      exact uncrowded_call op (h.1 op rfl)
    | get i k => cases ho
    | range i => cases ho
    | equal i j => cases ho

/-- C64 for goroutines that do not call `With`, `Merge` or `Update`: whatever maps they share and whatever they decide, under any
schedule the shared memory never changes, no next access writes to it, and a goroutine that has ended has come, without a panic, to what
it comes to alone. -/
theorem C64_undisturbed (G : Growth) (ops : List (MOp K V)) (ps : List (MGProg K V)) (ho : ∀ p ∈ ps, p.NoAppend) (sched : List Nat) :
    ((forkProgs G (World.init.runMap G ops) (ps.map MGProg.trees)).run sched).shared = (World.init.runMap G ops).mem ∧
    ∀ (i : Nat) (p : MGProg K V), ps[i]? = some p →
      ∃ g, ((forkProgs G (World.init.runMap G ops) (ps.map MGProg.trees)).run sched).gs[i]? = some g ∧
      (∀ l, g.code.nextWrite = some l → ¬ (World.init.runMap G ops).mem.HasLoc l) ∧
      ∀ r, g.code = .done r → r = aloneProg G (World.init.runMap G ops) p.trees ∧ ∃ c, r = .ok c := by
  rw [runMap_eq]
  obtain ⟨h1, h2⟩ := C48_adaptive G (mapCalls G World.init ops) (ps.map MGProg.trees) (by
    intro q hq
    obtain ⟨p, hp, rfl⟩ := List.mem_map.1 hq
    exact noAppend_trees p (ho p hp)) sched
  exact ⟨h1, fun i p hi => h2 i p.trees (by rw [List.getElem?_map, hi]; rfl)⟩

/-- C64 for such goroutines: each ends if it gets enough turns, whatever the others do. -/
theorem C64_ends (G : Growth) (ops : List (MOp K V)) (ps : List (MGProg K V)) (ho : ∀ p ∈ ps, p.NoAppend) (i : Nat) (p : MGProg K V)
    (hi : ps[i]? = some p) :
    ∃ n, ∀ sched : List Nat, n ≤ sched.count i →
      ∃ g c, ((forkProgs G (World.init.runMap G ops) (ps.map MGProg.trees)).run sched).gs[i]? = some g ∧ g.code = .done (.ok c) := by
  rw [runMap_eq]
  exact C48_adaptive_ends G (mapCalls G World.init ops) (ps.map MGProg.trees) (by
    intro q hq
    obtain ⟨p, hp, rfl⟩ := List.mem_map.1 hq
    exact noAppend_trees p (ho p hp)) i p.trees (by rw [List.getElem?_map, hi]; rfl)

/-- C64, the part that holds of all calls: goroutines may call everything on the maps they share, and decide what to call by what they
have seen, as long as nobody adds a key to a map that has three other keys with the same 64-bit hash. Under any schedule the shared
memory never changes, no next access writes to it, and a goroutine that has ended knows what it knows when every map is a value of its
own. Missing: the other additions; they break the property (`C64_refuted`). -/
theorem C64_answers_partial (G : Growth) (ops : List (MOp K V)) (ps : List (MGProg K V)) (hu : UncrowdedMapRun G World.init ops)
    (hus : ∀ p ∈ ps, UncrowdedMapProg G ⟨(World.init.runMap G ops).sets, [], []⟩ (World.init.runMap G ops).mem p) (sched : List Nat) :
    ((forkProgs G (World.init.runMap G ops) (ps.map MGProg.trees)).run sched).shared = (World.init.runMap G ops).mem ∧
    ∀ (i : Nat) (p : MGProg K V), ps[i]? = some p →
      ∃ g, ((forkProgs G (World.init.runMap G ops) (ps.map MGProg.trees)).run sched).gs[i]? = some g ∧
      (∀ l, g.code.nextWrite = some l → ¬ (World.init.runMap G ops).mem.HasLoc l) ∧
      ∀ r, g.code = .done r → ∃ c, r = .ok c ∧
        c.view.ofMaps = (VMapClient.follow ⟨⟨(VMaps.run ⟨[], []⟩ ops).maps, []⟩, []⟩ p).view := by
  obtain ⟨S, B, hinv⟩ := runMap_inv G ops (HistInv.init true) hu
  have hq := fun p hp => startProg_ok G hinv (MGProg.trees p) (fun _ => uncrowded_trees G p _ _ (hus p hp)) (.inl rfl)
  obtain ⟨h1, h2⟩ := forkProgs_run G (World.init.runMap G ops) (ps.map MGProg.trees) (by
    intro q hq'
    obtain ⟨p, hp, rfl⟩ := List.mem_map.1 hq'
    exact (hq p hp).1) sched
  refine ⟨h1, fun i p hi => ?_⟩
  obtain ⟨g, h3, h4, h5, _⟩ := h2 i p.trees (by rw [List.getElem?_map, hi]; rfl)
  obtain ⟨c, hc, hview⟩ := (hq p (List.mem_of_getElem? hi)).2
  refine ⟨g, h3, h5, fun r hr => ⟨c, by rw [h4 r hr, hc], ?_⟩⟩
  have hm : MapsAre (VMaps.run ⟨[], []⟩ ops) (VWorld.runMap ⟨[], []⟩ ops) := MapsAre.run ops ⟨rfl, rfl⟩
  rw [hview rfl]
  exact (ClientsAre.follow p (c := ⟨⟨(VMaps.run ⟨[], []⟩ ops).maps, []⟩, []⟩) ⟨⟨hm.sets, rfl⟩, rfl⟩).view

/-- C64, the part that holds of all calls: such a goroutine ends if it gets enough turns. -/
theorem C64_all_calls_end_partial (G : Growth) (ops : List (MOp K V)) (ps : List (MGProg K V)) (hu : UncrowdedMapRun G World.init ops)
    (hus : ∀ p ∈ ps, UncrowdedMapProg G ⟨(World.init.runMap G ops).sets, [], []⟩ (World.init.runMap G ops).mem p)
    (i : Nat) (p : MGProg K V) (hi : ps[i]? = some p) :
    ∃ n, ∀ sched : List Nat, n ≤ sched.count i →
      ∃ g c, ((forkProgs G (World.init.runMap G ops) (ps.map MGProg.trees)).run sched).gs[i]? = some g ∧ g.code = .done (.ok c) := by
  obtain ⟨S, B, hinv⟩ := runMap_inv G ops (HistInv.init true) hu
  have hq := fun p hp => startProg_ok G hinv (MGProg.trees p) (fun _ => uncrowded_trees G p _ _ (hus p hp)) (.inl rfl)
  obtain ⟨n, hn⟩ := forkProgs_finishes G (World.init.runMap G ops) (ps.map MGProg.trees) (by
    intro q hq'
    obtain ⟨p, hp, rfl⟩ := List.mem_map.1 hq'
    exact (hq p hp).1) i p.trees (by rw [List.getElem?_map, hi]; rfl)
  obtain ⟨c, hc, _⟩ := (hq p (List.mem_of_getElem? hi)).2
  refine ⟨n, fun sched hsched => ?_⟩
  obtain ⟨g, h1, h2⟩ := hn sched hsched
  exact ⟨g, c, h1, by rw [h2, hc]⟩

theorem uncrowdedMap_few (hK : FewCollisions K) (w : World (Entry K V)) (o : MOp K V) : UncrowdedMap w o :=
  (uncrowdedMap_of_few hK goGrowth [o] w).1

theorem uncrowdedMapProg_of_few (hK : FewCollisions K) (G : Growth) (p : MGProg K V) : ∀ (c : Client (Entry K V)) (H : Mem (Entry K V)),
    UncrowdedMapProg G c H p := by
  induction p with
  | stop => exact fun _ _ => trivial
  | look k ih => exact fun c H => ih _ c H
  | act op p ih => exact fun c H => ⟨fun o _ => uncrowdedMap_few hK _ o, fun c' H' _ => ih c' H'⟩

/-- C64 for key types whose hash has few collisions: goroutines may call everything. -/
theorem C64_few_collisions_partial (hK : FewCollisions K) (G : Growth) (ops : List (MOp K V)) (ps : List (MGProg K V))
    (sched : List Nat) (i : Nat) (p : MGProg K V) (hi : ps[i]? = some p) (g : Goroutine (Entry K V))
    (hg : ((forkProgs G (World.init.runMap G ops) (ps.map MGProg.trees)).run sched).gs[i]? = some g)
    (r : Go (Client (Entry K V))) (hr : g.code = .done r) :
    ∃ c, r = .ok c ∧ c.view.ofMaps = (VMapClient.follow ⟨⟨(VMaps.run ⟨[], []⟩ ops).maps, []⟩, []⟩ p).view := by
  obtain ⟨_, h2⟩ := C64_answers_partial G ops ps (uncrowdedMap_of_few hK G ops _) (fun p _ => uncrowdedMapProg_of_few hK G p _ _) sched
  obtain ⟨g', h3, _, h4⟩ := h2 i p hi
  rw [hg] at h3
  cases h3
  exact h4 r hr

/-! ## The property fails when goroutines add to a crowded map -/

/-- Numbers as values of maps: compared with `==`. -/
instance natKey : GoKey Nat := ⟨fun a b => a == b, fun _ n => BitVec.ofNat 64 n⟩

/-- Four keys with one hash. -/
def crowdedMapStart : List (MOp Coll Nat) := [.empty, .with 0 ⟨1⟩ 10, .with 1 ⟨2⟩ 20, .with 2 ⟨3⟩ 30, .with 3 ⟨4⟩ 40]

/-- Two goroutines: one adds key 5 and looks it up, the other adds key 6 to the same map. -/
def crowdedMapGos : List (MGProg Coll Nat) :=
  [.act (.call (.with 4 ⟨5⟩ 50)) (.act (.get 5 ⟨5⟩) .stop), .act (.call (.with 4 ⟨6⟩ 60)) .stop]

/-- What the lookups found. -/
def MAnswer.values : MAnswer K V → List (Option V)
  | .found (.ok r) => [r]
  | _ => []

/-- What the lookups of the goroutine found, if it has ended. -/
def foundValues : Option (Go (Client (Entry K V))) → List (Option V)
  | some (.ok c) => c.view.ofMaps.seen.flatMap MAnswer.values
  | _ => []

/-- The results of `Equal`. -/
def MAnswer.truths : MAnswer K V → List Bool
  | .truth (.ok b) => [b]
  | _ => []

/-- The results of the comparisons of the goroutine, if it has ended. -/
def truthsOf : Option (Go (Client (Entry K V))) → List Bool
  | some (.ok c) => c.view.ofMaps.seen.flatMap MAnswer.truths
  | _ => []

/-- C64 is false of the code: a goroutine computes `n := m.With(5, 50)` and then finds that key 5 is not in `n`, because another goroutine
has computed `m.With(6, 60)` meanwhile. Alone it finds 50. -/
theorem C64_refuted : ∃ (ops : List (MOp Coll Nat)) (ps : List (MGProg Coll Nat)) (sched : List Nat) (i : Nat) (p : MGProg Coll Nat)
    (g : Goroutine (Entry Coll Nat)),
    ps[i]? = some p ∧ ((forkProgs goGrowth (World.init.runMap goGrowth ops) (ps.map MGProg.trees)).run sched).gs[i]? = some g ∧
    foundValues g.code.result? = [none] ∧
    foundValues (some (aloneProg goGrowth (World.init.runMap goGrowth ops) p.trees)) = [some 50] := by
  refine ⟨crowdedMapStart, crowdedMapGos, List.replicate 56 0 ++ List.replicate 56 1 ++ List.replicate 40 0, 0,
    .act (.call (.with 4 ⟨5⟩ 50)) (.act (.get 5 ⟨5⟩) .stop), ?_⟩
  have hk : ((((forkProgs goGrowth (World.init.runMap goGrowth crowdedMapStart) (crowdedMapGos.map MGProg.trees)).run
      (List.replicate 56 0 ++ List.replicate 56 1 ++ List.replicate 40 0)).gs[0]?).any (fun g =>
        decide (foundValues g.code.result? = [none]))) = true := by decide +kernel
  cases hg : ((forkProgs goGrowth (World.init.runMap goGrowth crowdedMapStart) (crowdedMapGos.map MGProg.trees)).run
      (List.replicate 56 0 ++ List.replicate 56 1 ++ List.replicate 40 0)).gs[0]? with
  | none => rw [hg] at hk; cases hk
  | some g =>
    rw [hg, Option.any_some] at hk
    exact ⟨g, rfl, rfl, of_decide_eq_true hk, by decide +kernel⟩

/-! ## The hypotheses can be met -/

/-- A goroutine that looks up a key, and if it is there updates one map with another, otherwise adds it and merges two maps; then it
looks at the result. -/
def mapDecider (k : Mod100) : MGProg Mod100 Nat :=
  .act (.get 1 k) (.look (fun w =>
    if w.seen.flatMap MAnswer.values = [none] then
      .act (.call (.with 1 k 99)) (.act (.call (.merge 5 0 (fun _ a b => a + b))) (.act (.get 6 k) (.act (.get 6 ⟨1⟩) .stop)))
    else .act (.call (.update 0 1)) (.act (.get 5 k) (.act (.call (.update 1 2)) (.act (.get 6 ⟨1⟩) .stop)))))

/-- Two such goroutines, taking turns, go different ways and both end with the right values: 99 for the key added, 20 for key 1, whose
two values are added up, and 500 and 10 for the updates. -/
example : ((forkProgs goGrowth (World.init.runMap goGrowth mixedMapHistory) ([mapDecider ⟨55⟩, mapDecider ⟨50⟩].map MGProg.trees)).run
    ((List.replicate 200 [0, 1]).flatten)).gs.map (fun g => foundValues g.code.result?) =
    [[none, some 99, some 20], [some 500, some 500, some 10]] := by decide +kernel

example : UncrowdedMapRun goGrowth World.init mixedMapHistory ∧ ∀ k, UncrowdedMapProg goGrowth
    ⟨(World.init.runMap goGrowth mixedMapHistory).sets, [], []⟩ (World.init.runMap goGrowth mixedMapHistory).mem (mapDecider k) :=
  ⟨uncrowdedMap_of_few mod100_few _ _ _, fun _ => uncrowdedMapProg_of_few mod100_few _ _ _ _⟩

/-- A goroutine that compares maps, and removes a key from one of two equal maps. -/
def mapComparer : MGProg Mod100 Nat :=
  .act (.call (.with 1 ⟨55⟩ 1)) (.act (.call (.without 5 ⟨55⟩)) (.act (.equal 1 6) (.act (.equal 1 5) (.look (fun w =>
    if w.seen.flatMap MAnswer.truths = [true, false] then .act (.call (.with 6 ⟨50⟩ 501)) (.act (.equal 7 1) .stop) else .stop)))))

example : ((forkProgs goGrowth (World.init.runMap goGrowth mixedMapHistory) ([mapComparer, mapDecider ⟨50⟩].map MGProg.trees)).run
    ((List.replicate 250 [0, 1]).flatten)).gs.map (fun g => truthsOf g.code.result?) = [[true, false, false], []] := by decide +kernel

/-- A goroutine that only reads, removes and builds. -/
def mapReader : MGProg Mod100 Nat :=
  .act (.get 1 ⟨50⟩) (.look (fun w => if w.counts[1]? = some 3 then .act (.call (.without 1 ⟨50⟩)) (.act (.get 5 ⟨50⟩) .stop)
    else .act (.call .newBuilder) (.act (.call (.put 0 ⟨9⟩ 90)) (.act (.call (.finish 0)) (.act (.get 5 ⟨9⟩) .stop)))))

example : mapReader.NoAppend := by
  refine ⟨fun o ho => (nomatch ho), fun w => ?_⟩
  dsimp only
  split
  · exact ⟨fun o ho => by cases ho; rfl, fun o ho => (nomatch ho), trivial⟩
  · exact ⟨fun o ho => by cases ho; rfl, fun o ho => by cases ho; rfl, fun o ho => by cases ho; rfl, fun o ho => (nomatch ho), trivial⟩

example : ((forkProgs goGrowth (World.init.runMap goGrowth mixedMapHistory) ([mapReader, mapReader].map MGProg.trees)).run
    ((List.replicate 150 [0, 1]).flatten)).gs.map (fun g => foundValues g.code.result?) =
    [[some 500, none], [some 500, none]] := by decide +kernel

end Maps

end Frozen
