import Verif.Spec.Adaptive
import Verif.Proof.Concurrent

/-! Goroutines that decide as they go: what one does alone, and under any schedule. -/

set_option linter.unusedSectionVars false

namespace Frozen

variable {T : Type} [GoKey T]

theorem follow_act (G : Growth) (c : Client T) (op : GOp T) (p : GProg T) :
    c.follow G (.act op p) = c.perform G op >>= fun c' => c'.follow G p := rfl

theorem follow_look (G : Growth) (c : Client T) (k : View T → GProg T) : c.follow G (.look k) = c.follow G (k c.view) := rfl

variable [LawfulGoKey T]

/-- In strict mode the goroutine knows what it knows on values. -/
theorem view_eq {w : World T} {vw : VWorld T} {S : Set Loc} {B : Nat → Set Loc} (h : HistInv true w vw S B) :
    w.sets.map (·.count) = vw.sets.map (·.count) := by
  apply List.ext_getElem?
  intro i
  rw [List.getElem?_map, List.getElem?_map]
  cases hs : w.sets[i]? with
  | none => rw [none_sets h hs]; rfl
  | some s =>
    obtain ⟨n, _, hv⟩ := h.sets i s hs
    rw [(hv rfl).1]; rfl

/-- One operation of a goroutine, alone. -/
theorem perform_ok (G : Growth) {strict : Bool} (op : GOp T) {c : Client T} {H : Mem T} {vw : VWorld T} {S : Set Loc} {B : Nat → Set Loc}
    (h : HistInv strict (c.world H) vw S B) (hu : strict = true → ∀ o, op = .call o → Uncrowded (c.world H) o)
    (ho : strict = true ∨ ∀ o, op = .call o → o.mayAppend = false) :
    ∃ c' H', c.perform G op H = (.ok c', H') ∧
      (∃ S' B', S ⊆ S' ∧ HistInv strict (c'.world H') (VClient.perform ⟨vw, c.seen⟩ op).world S' B') ∧
      (∃ L, H'.log = L ++ H.log ∧ ∀ l ∈ L, l ∉ S) ∧
      (strict = true → c'.seen = (VClient.perform ⟨vw, c.seen⟩ op).seen) := by
  have hgo : goroutine G c [op] H = c.perform G op H := by
    rw [goroutine_cons]
    rcases hp : c.perform G op H with ⟨r, H'⟩
    cases r with
    | ok c' => rw [run_bind hp]; rfl
    | error e => rw [MM.run_andThen, hp]
  cases op with
  | call o =>
    obtain ⟨c', H', h1, h2, h3, h4⟩ := goroutine_ok G [.call o] h (fun hs => ⟨hu hs o rfl, trivial⟩)
      (ho.imp id (fun hh p hp => by rw [List.mem_singleton.1 (show p ∈ [o] from hp)]; exact hh o rfl))
    rw [hgo] at h1
    refine ⟨c', H', h1, ?_, h3, h4⟩
    obtain ⟨⟨S', B', ⟨hsub, _, _⟩, h'⟩, _, _, _⟩ := step_ok G h o (fun hs => hu hs o rfl)
    exact ⟨S', B', hsub, by rw [h2]; exact h'⟩
  | get i v =>
    obtain ⟨c', H', h1, h2, h3, h4⟩ := goroutine_ok G [.get i v] h (fun _ => trivial) (.inr (fun _ hp => nomatch hp))
    rw [hgo] at h1
    refine ⟨c', H', h1, ⟨S, B, subset_rfl, ?_⟩, h3, h4⟩
    rw [h2]
    have : (VClient.perform ⟨vw, c.seen⟩ (.get i v)).world = vw := by
      simp only [VClient.perform]; split <;> rfl
    rw [this]; exact h
  | range i =>
    obtain ⟨c', H', h1, h2, h3, h4⟩ := goroutine_ok G [.range i] h (fun _ => trivial) (.inr (fun _ hp => nomatch hp))
    rw [hgo] at h1
    refine ⟨c', H', h1, ⟨S, B, subset_rfl, ?_⟩, h3, h4⟩
    rw [h2]
    have : (VClient.perform ⟨vw, c.seen⟩ (.range i)).world = vw := by
      simp only [VClient.perform]; split <;> rfl
    rw [this]; exact h
  | equal eq i j =>
    obtain ⟨c', H', h1, h2, h3, h4⟩ := goroutine_ok G [.equal eq i j] h (fun _ => trivial) (.inr (fun _ hp => nomatch hp))
    rw [hgo] at h1
    refine ⟨c', H', h1, ⟨S, B, subset_rfl, ?_⟩, h3, h4⟩
    rw [h2]
    have : (VClient.perform ⟨vw, c.seen⟩ (.equal eq i j)).world = vw := by
      simp only [VClient.perform, VClient.compare]; split <;> rfl
    rw [this]; exact h
  | subset i j =>
    obtain ⟨c', H', h1, h2, h3, h4⟩ := goroutine_ok G [.subset i j] h (fun _ => trivial) (.inr (fun _ hp => nomatch hp))
    rw [hgo] at h1
    refine ⟨c', H', h1, ⟨S, B, subset_rfl, ?_⟩, h3, h4⟩
    rw [h2]
    have : (VClient.perform ⟨vw, c.seen⟩ (.subset i j)).world = vw := by
      simp only [VClient.perform, VClient.compare]; split <;> rfl
    rw [this]; exact h

/-- What a goroutine does alone: it ends, nothing of `S` is written, and in strict mode it sees what the value model says. -/
theorem follow_ok (G : Growth) {strict : Bool} : ∀ (p : GProg T) {c : Client T} {H : Mem T} {vw : VWorld T} {S : Set Loc}
    {B : Nat → Set Loc}, HistInv strict (c.world H) vw S B → (strict = true → UncrowdedProg G c H p) →
    (strict = true ∨ p.NoAppend) →
    ∃ c' H', c.follow G p H = (.ok c', H') ∧ (∃ L, H'.log = L ++ H.log ∧ ∀ l ∈ L, l ∉ S) ∧
      (strict = true → c'.view = (VClient.follow ⟨vw, c.seen⟩ p).view) := by
  intro p
  induction p with
  | stop =>
    intro c H vw S B h _ _
    refine ⟨c, H, rfl, ⟨[], rfl, by simp⟩, fun hs => ?_⟩
    subst hs
    show View.mk _ _ = View.mk _ _
    rw [show c.sets.map (·.count) = vw.sets.map (·.count) from view_eq h]
    rfl
  | look k ih =>
    intro c H vw S B h hu ho
    rw [follow_look]
    obtain ⟨c', H', h1, h2, h3⟩ := ih c.view h hu (ho.imp id (fun hh => hh _))
    refine ⟨c', H', h1, h2, fun hs => ?_⟩
    rw [h3 hs]
    subst hs
    have : c.view = VClient.view ⟨vw, c.seen⟩ := by
      show View.mk _ _ = View.mk _ _
      rw [show c.sets.map (·.count) = vw.sets.map (·.count) from view_eq h]
    rw [this]; rfl
  | act op p ih =>
    intro c H vw S B h hu ho
    rw [follow_act]
    obtain ⟨c1, H1, h1, ⟨S1, B1, hsub, hinv⟩, ⟨L1, h2, h3⟩, h4⟩ := perform_ok G op h (fun hs => (hu hs).1) (ho.imp id (fun hh => hh.1))
    rw [run_bind h1]
    obtain ⟨c', H', h5, ⟨L, h6, h7⟩, h8⟩ := ih hinv (fun hs => (hu hs).2 c1 H1 h1) (ho.imp id (fun hh => hh.2))
    refine ⟨c', H', h5, ⟨L ++ L1, by rw [h6, h2, List.append_assoc], fun l hl hS => ?_⟩, fun hs => ?_⟩
    · rcases List.mem_append.1 hl with hl | hl
      · exact h7 l hl (hsub hS)
      · exact h3 l hl hS
    · rw [h8 hs, h4 hs]; rfl

/-- A goroutine as started by `forkProgs`, alone. -/
theorem startProg_ok (G : Growth) {strict : Bool} {w : World T} {vw : VWorld T} {S : Set Loc} {B : Nat → Set Loc}
    (h : HistInv strict w vw S B) (p : GProg T) (hu : strict = true → UncrowdedProg G ⟨w.sets, [], []⟩ w.mem p)
    (ho : strict = true ∨ p.NoAppend) :
    Quiet w.mem (Client.follow G ⟨w.sets, [], []⟩ p) ∧ ∃ c, aloneProg G w p = .ok c ∧
      (strict = true → c.view = (VClient.follow ⟨⟨vw.sets, []⟩, []⟩ p).view) := by
  obtain ⟨c, H', h1, ⟨L, h2, h3⟩, h4⟩ := follow_ok G p (c := ⟨w.sets, [], []⟩) (H := w.mem) h.start hu ho
  refine ⟨⟨L, by rw [h1]; exact h2, fun l hl hh => h3 l hl (hasLoc_iff.1 hh)⟩, c, ?_, h4⟩
  unfold aloneProg; rw [h1]

theorem forkProgs_at (G : Growth) (w : World T) (ps : List (GProg T)) :
    (forkProgs G w ps).At w.mem (ps.map (fun p => Client.follow G ⟨w.sets, [], []⟩ p)) (fun _ => 0) := by
  refine ⟨rfl, by simp [forkProgs], fun i x g hx hg => ?_⟩
  simp only [forkProgs, List.getElem?_map, Option.map_eq_some_iff] at hx hg
  obtain ⟨a, ha, rfl⟩ := hx
  obtain ⟨b, hb, rfl⟩ := hg
  rw [ha] at hb
  cases hb
  have : w.mem.plus ⟨[], [], w.mem.log⟩ = w.mem := by simp [Mem.plus]
  rw [this]
  exact ⟨rfl, List.prefix_refl _, List.prefix_refl _⟩

/-- Quiet goroutines under any schedule. -/
theorem forkProgs_run (G : Growth) (w : World T) (ps : List (GProg T))
    (hq : ∀ p ∈ ps, Quiet w.mem (Client.follow G ⟨w.sets, [], []⟩ p)) (sched : List Nat) :
    ((forkProgs G w ps).run sched).shared = w.mem ∧
    ∀ (i : Nat) (p : GProg T), ps[i]? = some p → ∃ g, ((forkProgs G w ps).run sched).gs[i]? = some g ∧
      (∀ r, g.code = .done r → r = aloneProg G w p) ∧ (∀ l, g.code.nextWrite = some l → ¬ w.mem.HasLoc l) ∧
      g.code = ((Client.follow G ⟨w.sets, [], []⟩ p).steps w.mem (sched.count i)).1 := by
  have hat := Machine.run_at (S := w.mem) (xs := ps.map (fun p => Client.follow G ⟨w.sets, [], []⟩ p)) (by
    intro x hx
    obtain ⟨p, hp, rfl⟩ := List.mem_map.1 hx
    exact hq p hp) sched (forkProgs_at G w ps)
  obtain ⟨h1, h2, h3⟩ := hat
  refine ⟨h1, fun i p hi => ?_⟩
  have hlt := getElem?_lt hi
  have hg := List.getElem?_eq_getElem (l := ((forkProgs G w ps).run sched).gs) (i := i) (by rw [h2, List.length_map]; exact hlt)
  obtain ⟨h4, h5⟩ := h3 i _ _ (by rw [List.getElem?_map, hi]; rfl) hg
  simp only [Nat.zero_add] at h4
  have hc := congrArg Prod.fst h4
  refine ⟨_, hg, fun r hr => ?_, fun l hl => ?_, hc⟩
  · have := MM.run_steps (Client.follow G ⟨w.sets, [], []⟩ p) w.mem (sched.count i)
    rw [← h4] at this
    unfold aloneProg
    rw [← this]
    dsimp only
    rw [hr]; rfl
  · exact (hq p (List.mem_of_getElem? hi)).nextWrite (sched.count i) l (by rw [← hc]; exact hl)

/-- A quiet goroutine that gets enough turns ends. -/
theorem forkProgs_finishes (G : Growth) (w : World T) (ps : List (GProg T))
    (hq : ∀ p ∈ ps, Quiet w.mem (Client.follow G ⟨w.sets, [], []⟩ p)) (i : Nat) (p : GProg T) (hi : ps[i]? = some p) :
    ∃ n, ∀ sched : List Nat, n ≤ sched.count i →
      ∃ g, ((forkProgs G w ps).run sched).gs[i]? = some g ∧ g.code = .done (aloneProg G w p) := by
  obtain ⟨n, hn⟩ := MM.finishes (Client.follow G ⟨w.sets, [], []⟩ p) w.mem
  refine ⟨n, fun sched hsched => ?_⟩
  obtain ⟨_, h2⟩ := forkProgs_run G w ps hq sched
  obtain ⟨g, h3, _, _, h4⟩ := h2 i p hi
  exact ⟨g, h3, by rw [h4, hn _ hsched]; rfl⟩

end Frozen
