import Verif.Proof.MemParHistory
import Verif.Props.ForkJoin

/-!
# Goroutines that a call starts itself, over shared memory

Property C60 (Spec/MemParallel.lean). `Union`, `Merge`, `Update`, `Difference`, `Intersection` and `Where` handle the children of a
branch by goroutines down to some depth, the gauge. A client makes a history of calls, each with any gauge and any schedule in which
it returns. The memory is shared; a goroutine sees what existed when it was started and what it has allocated itself. `G` is any way
of growing arrays.
-/

set_option linter.unusedSectionVars false

namespace Frozen

variable {T : Type} [GoKey T] [LawfulGoKey T]

/-- C60: whatever the gauges and the schedules, the client has the sets it has when every set is a value of its own and no goroutines
are started. -/
theorem C60_values (G : Growth) (cs : List (GCall T)) (hu : UncrowdedCalls G World.init cs) (hr : AllReturn G World.init cs) :
    AsValues (World.init.gruns G cs) (VWorld.run ⟨[], []⟩ (cs.map (·.op))) := by
  obtain ⟨S, B, h⟩ := gruns_inv G cs (HistInv.init true) (fun _ => hu) (.inl rfl) hr
  exact h.asValues

/-- C60: two clients that make the same calls have the same sets, whatever their gauges and schedules: as many, and each with the same
count, the same answers and the same iteration. -/
theorem C60_gauges (G : Growth) (cs cs' : List (GCall T)) (ho : cs.map (·.op) = cs'.map (·.op)) (hu : UncrowdedCalls G World.init cs)
    (hu' : UncrowdedCalls G World.init cs') (hr : AllReturn G World.init cs) (hr' : AllReturn G World.init cs') :
    (World.init.gruns G cs).sets.length = (World.init.gruns G cs').sets.length ∧
    ∀ (i : Nat) (s s' : MTree), (World.init.gruns G cs).sets[i]? = some s → (World.init.gruns G cs').sets[i]? = some s' →
      s.count = s'.count ∧ (∀ v, s.get (World.init.gruns G cs).mem v = s'.get (World.init.gruns G cs').mem v) ∧
      s.elems (World.init.gruns G cs).mem = s'.elems (World.init.gruns G cs').mem := by
  have h := C60_values G cs hu hr
  have h' := C60_values G cs' hu' hr'
  rw [← ho] at h'
  refine ⟨h.sets.trans h'.sets.symm, fun i s s' hs hs' => ?_⟩
  obtain ⟨t, e1, e2, e3, l, e4, e5⟩ := h.set i s hs
  obtain ⟨t', e1', e2', e3', l', e4', e5'⟩ := h'.set i s' hs'
  rw [e1] at e1'
  cases e1'
  rw [e5] at e5'
  cases e5'
  exact ⟨e2.trans e2'.symm, fun v => (e3 v).trans (e3' v).symm, e4.trans e4'.symm⟩

/-- C60: with the same gauges, even the memory is the same at the end of all schedules. -/
theorem C60_schedule (G : Growth) (cs cs' : List (GCall T)) (hp : cs.map (fun c => (c.op, c.gauge)) = cs'.map (fun c => (c.op, c.gauge)))
    (hu : UncrowdedCalls G World.init cs) (hr : AllReturn G World.init cs) (hr' : AllReturn G World.init cs') :
    World.init.gruns G cs = World.init.gruns G cs' :=
  gruns_schedule G cs cs' (HistInv.init true) (fun _ => hu) (.inl rfl) hr hr' hp

/-- C60: every set keeps its place, its answers and its iteration, whatever the goroutines of later calls do. -/
theorem C60_keeps (G : Growth) (cs cs' : List (GCall T)) (hu : UncrowdedCalls G World.init (cs ++ cs'))
    (hr : AllReturn G World.init (cs ++ cs')) (i : Nat) (s : MTree) (hs : (World.init.gruns G cs).sets[i]? = some s) :
    (World.init.gruns G (cs ++ cs')).sets[i]? = some s ∧
      SameView (World.init.gruns G cs).mem (World.init.gruns G (cs ++ cs')).mem s := by
  obtain ⟨hu1, hu2⟩ := uncrowdedCalls_append G cs cs' _ hu
  obtain ⟨hr1, hr2⟩ := allReturn_append G cs cs' _ hr
  obtain ⟨S, B, h⟩ := gruns_inv G cs (HistInv.init true) (fun _ => hu1) (.inl rfl) hr1
  rw [gruns_append]
  exact gruns_view G cs' h (fun _ => hu2) (.inl rfl) hr2 hs

/-- C60: at every moment of every schedule of a further call, the memory of the client is as it was before the call, and none of the
goroutines, however deeply nested, is about to write to memory that existed when it was started. -/
theorem C60_no_shared_writes (G : Growth) (cs : List (GCall T)) (hu : UncrowdedCalls G World.init cs) (hr : AllReturn G World.init cs)
    (c : GCall T) (hc : Uncrowded (World.init.gruns G cs) c.op) (x : PCall T) (hx : (World.init.gruns G cs).code G c = some x)
    (sched : List (List (Fin 8))) :
    (PSt.exec (PSt.start x.code (World.init.gruns G cs).mem) sched).2 = (World.init.gruns G cs).mem ∧
    ∀ (path : List (Fin 8)) (l : Loc) (H : Mem T),
      (PSt.exec (PSt.start x.code (World.init.gruns G cs).mem) sched).1.nextWrite (World.init.gruns G cs).mem path = some (l, H) →
      ¬ H.HasLoc l := by
  obtain ⟨S, B, h⟩ := gruns_inv G cs (HistInv.init true) (fun _ => hu) (.inl rfl) hr
  obtain ⟨hq, _⟩ := code_ok G h c (fun _ => hc) (.inl rfl) hx
  obtain ⟨h1, n, h2, _⟩ := PSt.Good.exec sched hq.start
  exact ⟨h1, h2.nextWrite⟩

/-- A call gets on under every schedule: unless it has returned some goroutine can make a step, every schedule can be continued to
one in which the call returns, and there is a bound after which it has returned however its goroutines take turns. -/
def GetsOn (x : PC T) (H : Mem T) : Prop :=
  (∀ sched, (PSt.exec (PSt.start x H) sched).1.result = none → ∃ path, (PSt.exec (PSt.start x H) sched).1.ready path) ∧
  (∀ sched, ∃ more, (PSt.exec (PSt.start x H) (sched ++ more)).1.result.isSome) ∧
  ∃ n, ∀ sched, PSt.Busy (PSt.start x H) sched → sched.length ≤ n ∧
    (sched.length = n → (PSt.exec (PSt.start x H) sched).1.result.isSome)

theorem PC.Quiet.getsOn {x : PC T} {H : Mem T} (hq : x.Quiet H H) : GetsOn x H := by
  refine ⟨fun sched hn => ?_, fun sched => ?_, x.size H, fun sched hb => ?_⟩
  · obtain ⟨_, n, h2, _⟩ := PSt.Good.exec sched hq.start
    exact h2.progress hn
  · obtain ⟨h1, n, h2, _⟩ := PSt.Good.exec sched hq.start
    obtain ⟨more, hm⟩ := h2.finishes
    refine ⟨more, ?_⟩
    have he : PSt.exec (PSt.start x H) (sched ++ more) = PSt.exec ((PSt.exec (PSt.start x H) sched).1, H) more := by
      have : PSt.exec (PSt.start x H) sched = ((PSt.exec (PSt.start x H) sched).1, H) := Prod.ext rfl h1
      rw [← this]
      exact List.foldl_append
    rw [he]
    exact Option.isSome_iff_exists.2 ⟨_, hm⟩
  · obtain ⟨_, n, h2, _, h4⟩ := PSt.Good.exec sched hq.start
    have h5 := h4 hb
    refine ⟨by omega, fun he => ?_⟩
    obtain rfl : n = 0 := by omega
    exact Option.isSome_iff_exists.2 h2.ended

/-- C60: no call deadlocks or runs forever. -/
theorem C60_gets_on (G : Growth) (cs : List (GCall T)) (hu : UncrowdedCalls G World.init cs) (hr : AllReturn G World.init cs)
    (c : GCall T) (hc : Uncrowded (World.init.gruns G cs) c.op) (x : PCall T) (hx : (World.init.gruns G cs).code G c = some x) :
    GetsOn x.code (World.init.gruns G cs).mem := by
  obtain ⟨S, B, h⟩ := gruns_inv G cs (HistInv.init true) (fun _ => hu) (.inl rfl) hr
  exact (code_ok G h c (fun _ => hc) (.inl rfl) hx).1.getsOn

/-! ## Without the proviso, when no merges are called -/

/-- C60 in any history without merges, whatever the sets have been through: the schedules make no difference. -/
theorem C60_schedule_other_calls (G : Growth) (cs cs' : List (GCall T))
    (hp : cs.map (fun c => (c.op, c.gauge)) = cs'.map (fun c => (c.op, c.gauge))) (hm : ∀ c ∈ cs, c.op.isMerge = false)
    (hr : AllReturn G World.init cs) (hr' : AllReturn G World.init cs') :
    World.init.gruns G cs = World.init.gruns G cs' :=
  gruns_schedule G cs cs' (HistInv.init false) (nomatch ·) (.inr hm) hr hr' hp

/-- C60 in any history without merges: no goroutine ever writes to memory that existed when it was started, and no call deadlocks. -/
theorem C60_no_shared_writes_other_calls (G : Growth) (cs : List (GCall T)) (hm : ∀ c ∈ cs, c.op.isMerge = false)
    (hr : AllReturn G World.init cs) (c : GCall T) (hc : c.op.isMerge = false) (x : PCall T)
    (hx : (World.init.gruns G cs).code G c = some x) :
    (∀ (sched : List (List (Fin 8))), (PSt.exec (PSt.start x.code (World.init.gruns G cs).mem) sched).2 = (World.init.gruns G cs).mem ∧
      ∀ (path : List (Fin 8)) (l : Loc) (H : Mem T),
        (PSt.exec (PSt.start x.code (World.init.gruns G cs).mem) sched).1.nextWrite (World.init.gruns G cs).mem path = some (l, H) →
        ¬ H.HasLoc l) ∧
    GetsOn x.code (World.init.gruns G cs).mem := by
  obtain ⟨S, B, h⟩ := gruns_inv G cs (HistInv.init false) (nomatch ·) (.inr hm) hr
  have hq := (code_ok G h c (nomatch ·) (.inr hc) hx).1
  refine ⟨fun sched => ?_, hq.getsOn⟩
  obtain ⟨h1, n, h2, _⟩ := PSt.Good.exec sched hq.start
  exact ⟨h1, h2.nextWrite⟩

/-! ## Element types whose hash has few collisions -/

theorem uncrowdedCalls_of_few (hT : FewCollisions T) (G : Growth) : ∀ (cs : List (GCall T)) (w : World T), (∀ c ∈ cs, c.op.MergesOk) →
    UncrowdedCalls G w cs
  | [], _, _ => trivial
  | c :: cs, w, h => ⟨(uncrowded_of_few hT G [c.op] w (by simpa using h c (by simp))).1,
      uncrowdedCalls_of_few hT G cs _ (fun p hp => h p (by simp [hp]))⟩

/-- C60 for element types whose hash has few collisions: every history. -/
theorem C60_values_few_collisions (hT : FewCollisions T) (G : Growth) (cs : List (GCall T)) (hm : ∀ c ∈ cs, c.op.MergesOk)
    (hr : AllReturn G World.init cs) : AsValues (World.init.gruns G cs) (VWorld.run ⟨[], []⟩ (cs.map (·.op))) :=
  C60_values G cs (uncrowdedCalls_of_few hT G cs _ hm) hr

/-! ## The hypotheses can be met -/

/-- Numbers modulo 100, with a hash that spreads them over the slots of the root. -/
structure Fan where
  n : Nat
deriving DecidableEq

instance : GoKey Fan where
  eq a b := decide (a.n % 100 = b.n % 100)
  hash seed a := (BitVec.ofNat 64 (a.n % 100) * 11400714819323198485#64) ^^^ seed

instance : LawfulGoKey Fan where
  refl a := by simp [GoKey.eq]
  symm h := by simpa [GoKey.eq, Eq.comm] using h
  trans h g := by simp only [GoKey.eq, decide_eq_true_eq] at *; exact h.trans g
  hash_congr seed _ _ h := by simp only [GoKey.eq, decide_eq_true_eq, GoKey.hash] at *; rw [h]

theorem fan_hash {a v : Fan} (h : hash0 a = hash0 v) : a.n % 100 = v.n % 100 := by
  simp only [hash0, GoKey.hash, BitVec.xor_zero] at h
  have h1 := congrArg (· * 17428512612931826493#64) h
  simp only [BitVec.mul_assoc, show (11400714819323198485#64 * 17428512612931826493#64) = 1#64 by decide, BitVec.mul_one] at h1
  have h2 := congrArg BitVec.toNat h1
  rw [BitVec.toNat_ofNat, BitVec.toNat_ofNat] at h2
  omega

theorem fan_few : FewCollisions Fan := by
  rintro v ⟨l, h1, h2, h3⟩
  cases l with
  | nil => cases h1
  | cons a l =>
    obtain ⟨ha, hh⟩ := h3 a (by simp)
    simp only [GoKey.eq, decide_eq_false_iff_not] at ha
    exact ha (fan_hash hh)

/-- Check that every call returns. -/
def allReturn (G : Growth) (w : World T) : List (GCall T) → Bool
  | [] => true
  | c :: cs => (match w.code G c with
    | none => true
    | some x => (x.outcome w.mem c.sched).isSome) && allReturn G (w.gstep G c) cs

theorem of_allReturn (G : Growth) : ∀ (cs : List (GCall T)) (w : World T), allReturn G w cs = true → AllReturn G w cs
  | [], _, _ => trivial
  | c :: cs, w, h => by
    unfold allReturn at h
    rw [Bool.and_eq_true] at h
    refine ⟨fun x hx => ?_, of_allReturn G cs _ h.2⟩
    have := h.1
    rw [hx] at this
    exact this

/-- The call, its goroutines and theirs. -/
def turnsOf : List (List (Fin 8)) := [[], [0], [2], [6], [0, 0], [0, 2], [0, 5], [2, 1], [2, 4], [2, 7]]

/-- All take turns, or all take turns in the opposite order. -/
def inTurn : List (List (Fin 8)) := (List.replicate 36 turnsOf).flatten

def backwards : List (List (Fin 8)) := (List.replicate 36 turnsOf.reverse).flatten

/-- Two sets of seven elements, four of them the same. -/
def fanStart : List (HOp Fan) :=
  [.newBuilder, .add 0 ⟨0⟩, .add 0 ⟨5⟩, .add 0 ⟨13⟩, .add 0 ⟨7⟩, .add 0 ⟨15⟩, .add 0 ⟨20⟩, .add 0 ⟨3⟩, .finish 0,
    .newBuilder, .add 1 ⟨5⟩, .add 1 ⟨13⟩, .add 1 ⟨26⟩, .add 1 ⟨7⟩, .add 1 ⟨15⟩, .add 1 ⟨28⟩, .add 1 ⟨8⟩, .finish 1]

/-- Then calls on them with goroutines on two levels. -/
def fanCalls : List (HOp Fan) :=
  fanStart ++ [HOp.union 0 1, .intersection 0 1, .difference 0 1, .where 0 (fun x => decide (x.n % 2 = 0)), HOp.union 4 5]

def fanHistory (gauge : Int) (sched : List (List (Fin 8))) : List (GCall Fan) := fanCalls.map (⟨·, gauge, sched⟩)

theorem fan_mergesOk (gauge : Int) (sched : List (List (Fin 8))) : ∀ c ∈ fanHistory gauge sched, c.op.MergesOk := by
  intro c hc
  obtain ⟨op, hop, rfl⟩ := List.mem_map.1 hc
  simp only [fanCalls, fanStart, List.cons_append, List.nil_append, List.mem_cons, List.not_mem_nil, or_false] at hop
  rcases hop with rfl | rfl | rfl | rfl | rfl | rfl | rfl | rfl | rfl | rfl | rfl | rfl | rfl | rfl | rfl | rfl | rfl | rfl | rfl | rfl |
    rfl | rfl | rfl <;>
    first
    | exact trivial
    | exact fun a b h => PerGoKey.symm h

theorem fan_returns : AllReturn goGrowth World.init (fanHistory 2 inTurn) := of_allReturn _ _ _ (by decide +kernel)

theorem fan_returns' : AllReturn goGrowth World.init (fanHistory 2 backwards) := of_allReturn _ _ _ (by decide +kernel)

theorem fan_returns_alone : AllReturn goGrowth World.init (fanHistory 0 (List.replicate 300 [])) := of_allReturn _ _ _ (by decide +kernel)

example : World.init.gruns goGrowth (fanHistory 2 inTurn) = World.init.gruns goGrowth (fanHistory 2 backwards) :=
  C60_schedule _ _ _ rfl (uncrowdedCalls_of_few fan_few _ _ _ (fan_mergesOk _ _)) fan_returns fan_returns'

example : AsValues (World.init.gruns goGrowth (fanHistory 2 inTurn)) (VWorld.run ⟨[], []⟩ ((fanHistory 2 inTurn).map (·.op))) :=
  C60_values_few_collisions fan_few _ _ (fan_mergesOk _ _) fan_returns

/-- What the calls return, with goroutines and without. -/
example : (World.init.gruns goGrowth (fanHistory 2 inTurn)).sets.map MTree.count = [7, 7, 10, 4, 3, 2, 3] ∧
    (World.init.gruns goGrowth (fanHistory 0 (List.replicate 300 []))).sets.map MTree.count = [7, 7, 10, 4, 3, 2, 3] :=
  ⟨by decide +kernel, by decide +kernel⟩

/-- In the middle of the first call two goroutines, started by the same branch, are about to write. -/
example : ((World.init.gruns goGrowth (fanStart.map (⟨·, 0, []⟩))).code goGrowth ⟨HOp.union 0 1, 2, []⟩).any (fun x =>
      let s := PSt.exec (PSt.start x.code (World.init.gruns goGrowth (fanStart.map (⟨·, 0, []⟩))).mem) (inTurn.take 120)
      (s.1.nextWrite s.2 [0]).isSome && (s.1.nextWrite s.2 [2]).isSome) = true := by decide +kernel

/-- A history that has damaged sets; then goroutines, one in the other, subtract. -/
def fanDamaged (sched : List (List (Fin 8))) : List (GCall Coll) :=
  damagedHistory.map (⟨·, 0, []⟩) ++ [⟨.difference 5 3, 2, sched⟩]

def inside : List (List (Fin 8)) :=
  List.replicate 6 [] ++ List.replicate 6 [0] ++ List.replicate 360 [0, 0] ++ List.replicate 40 [0] ++ List.replicate 40 []

example : ∀ c ∈ fanDamaged inside, c.op.isMerge = false := by decide

example : AllReturn goGrowth World.init (fanDamaged inside) := of_allReturn _ _ _ (by decide +kernel)

end Frozen
