import Verif.Spec.JoinProg
import Verif.Proof.Adaptive
import Verif.Proof.ForkJoin

/-! Programs that start goroutines, wait for them, and decide as they go. -/

set_option linter.unusedSectionVars false

namespace Frozen

variable {T : Type} [GoKey T] [LawfulGoKey T]

/-- What one operation leaves alone. -/
structure OpKept (c : Client T) (H : Mem T) (S : Set Loc) (c' : Client T) (H' : Mem T) : Prop where
  sets : ∀ (i : Nat) (s : MTree), c.sets[i]? = some s → c'.sets[i]? = some s ∧ SameView H H' s
  chg : ∃ W, Changes W H H' ∧ ∀ l ∈ S, l ∉ W

/-- One operation, alone, with the memory it uses. -/
theorem perform_grown (G : Growth) (op : GOp T) {c : Client T} {H : Mem T} {vc : VClient T} {S : Set Loc} {B : Nat → Set Loc}
    (h : HistInv true (c.world H) vc.world S B) (hseen : c.seen = vc.seen) (hu : ∀ o, op = .call o → Uncrowded (c.world H) o) :
    ∃ c' H', c.perform G op H = (.ok c', H') ∧
      (∃ S' B', Grown H S B S' B' ∧ HistInv true (c'.world H') (vc.perform op).world S' B') ∧
      OpKept c H S c' H' ∧ c'.seen = (vc.perform op).seen := by
  have hgo : goroutine G c [op] H = c.perform G op H := by
    rw [goroutine_cons]
    rcases hp : c.perform G op H with ⟨r, H'⟩
    cases r with
    | ok c' => rw [run_bind hp]; rfl
    | error e => rw [MM.run_andThen, hp]
  have hvc : vc = ⟨vc.world, c.seen⟩ := by rw [hseen]
  have read : ∀ (hc : ∀ o, op ≠ .call o), (vc.perform op).world = vc.world →
      ∃ c' H', c.perform G op H = (.ok c', H') ∧
      (∃ S' B', Grown H S B S' B' ∧ HistInv true (c'.world H') (vc.perform op).world S' B') ∧
      OpKept c H S c' H' ∧ c'.seen = (vc.perform op).seen := by
    intro hc hw
    have hcalls : GOp.calls [op] = [] := by
      cases op with
      | call o => exact absurd rfl (hc o)
      | _ => rfl
    obtain ⟨c', H', h1, h2, h3, h4⟩ := goroutine_ok G [op] h (by rw [hcalls]; exact fun _ => trivial) (.inl rfl)
    rw [hgo] at h1
    rw [hcalls] at h2
    have h2' : c'.world H' = c.world H := h2
    refine ⟨c', H', h1, ⟨S, B, Grown.refl _ _ _, by rw [h2', hw]; exact h⟩, ?_, ?_⟩
    · have e1 : H' = H := congrArg World.mem h2'
      have e2 : c'.sets = c.sets := congrArg World.sets h2'
      subst e1
      refine ⟨fun i s hs => ?_, ∅, ext_changes ⟨List.prefix_refl _, List.prefix_refl _⟩ rfl, fun _ _ h => h⟩
      obtain ⟨n, hn, _⟩ := h.sets i s hs
      exact ⟨by rw [e2]; exact hs, sameView_of hn hn⟩
    · rw [hvc]; exact h4 rfl
  cases op with
  | call o =>
    obtain ⟨c', H', h1, h2, h3, h4⟩ := goroutine_ok G [.call o] h (fun hs => ⟨hu o rfl, trivial⟩) (.inl rfl)
    rw [hgo] at h1
    have h2' : c'.world H' = (c.world H).step G o := h2
    obtain ⟨⟨S', B', hg, h'⟩, ⟨W, hc, hW, _⟩, _, _⟩ := step_ok G h o (fun _ => hu o rfl)
    refine ⟨c', H', h1, ⟨S', B', hg, by rw [h2']; exact h'⟩, ⟨fun i s hs => ?_, W, ?_, hW (.inr rfl)⟩, ?_⟩
    · obtain ⟨h5, h6⟩ := run_view G [o] h (fun _ => ⟨hu o rfl, trivial⟩) (.inl rfl) (i := i) (s := s) hs
      have h5' : (c'.world H').sets[i]? = some s := by rw [h2]; exact h5
      have h6' : SameView H (c'.world H').mem s := by rw [h2]; exact h6
      exact ⟨h5', h6'⟩
    · have : H' = ((c.world H).step G o).mem := congrArg World.mem h2'
      rw [this]; exact hc
    · rw [hvc]; exact h4 rfl
  | get i v => exact read (fun _ => by simp) (by simp only [VClient.perform]; split <;> rfl)
  | range i => exact read (fun _ => by simp) (by simp only [VClient.perform]; split <;> rfl)
  | equal eq i j => exact read (fun _ => by simp) (by simp only [VClient.perform, VClient.compare]; split <;> rfl)
  | subset i j => exact read (fun _ => by simp) (by simp only [VClient.perform, VClient.compare]; split <;> rfl)

theorem view_of {c : Client T} {H : Mem T} {vc : VClient T} {S : Set Loc} {B : Nat → Set Loc} (h : HistInv true (c.world H) vc.world S B)
    (hseen : c.seen = vc.seen) : c.view = vc.view := by
  show View.mk _ _ = View.mk _ _
  rw [show c.sets.map (·.count) = vc.world.sets.map (·.count) from view_eq h, hseen]

/-- A goroutine, alone, with the memory it uses. -/
theorem follow_grown (G : Growth) : ∀ (p : GProg T) {c : Client T} {H : Mem T} {vc : VClient T} {S : Set Loc} {B : Nat → Set Loc},
    HistInv true (c.world H) vc.world S B → c.seen = vc.seen → UncrowdedProg G c H p →
    ∃ c' H', c.follow G p H = (.ok c', H') ∧
      (∃ S' B', Grown H S B S' B' ∧ HistInv true (c'.world H') (vc.follow p).world S' B') ∧
      c'.seen = (vc.follow p).seen := by
  intro p
  induction p with
  | stop => exact fun h hseen _ => ⟨_, _, rfl, ⟨_, _, Grown.refl _ _ _, h⟩, hseen⟩
  | look k ih =>
    intro c H vc S B h hseen hu
    rw [follow_look]
    show ∃ c' H', c.follow G (k c.view) H = (.ok c', H') ∧
      (∃ S' B', Grown H S B S' B' ∧ HistInv true (c'.world H') (vc.follow (k vc.view)).world S' B') ∧
      c'.seen = (vc.follow (k vc.view)).seen
    rw [← view_of h hseen]
    exact ih c.view h hseen hu
  | act op p ih =>
    intro c H vc S B h hseen hu
    rw [follow_act]
    obtain ⟨c1, H1, h1, ⟨S1, B1, hg, hinv⟩, ⟨_, W, hc, _⟩, h4⟩ := perform_grown G op h hseen hu.1
    rw [run_bind h1]
    obtain ⟨c', H', h5, ⟨S2, B2, hg2, h6⟩, h7⟩ := ih hinv h4 (hu.2 c1 H1 h1)
    exact ⟨c', H', h5, ⟨S2, B2, hg.trans hc hg2, h6⟩, h7⟩

/-! ## All goroutines at their end -/

/-- The goroutine at its end. -/
def endProg (G : Growth) (w : World T) (p : GProg T) : Goroutine T :=
  ⟨.done (Client.follow G ⟨w.sets, [], []⟩ p w.mem).1, w.mem.high (Client.follow G ⟨w.sets, [], []⟩ p w.mem).2⟩

/-- Quiet goroutines that have ended are at their end, whatever the schedule was. -/
theorem endedProgs (G : Growth) (w : World T) (ps : List (GProg T))
    (hq : ∀ p ∈ ps, Quiet w.mem (Client.follow G ⟨w.sets, [], []⟩ p)) (sched : List Nat) (he : ((forkProgs G w ps).run sched).Ended) :
    (forkProgs G w ps).run sched = ⟨w.mem, ps.map (endProg G w)⟩ := by
  have hat := Machine.run_at (S := w.mem) (xs := ps.map (fun p => Client.follow G ⟨w.sets, [], []⟩ p)) (by
    intro x hx
    obtain ⟨p, hp, rfl⟩ := List.mem_map.1 hx
    exact hq p hp) sched (forkProgs_at G w ps)
  obtain ⟨h1, h2, h3⟩ := hat
  have hgs : ((forkProgs G w ps).run sched).gs = ps.map (endProg G w) := by
    apply List.ext_getElem?
    intro i
    cases hg : ((forkProgs G w ps).run sched).gs[i]? with
    | none =>
      rw [List.getElem?_eq_none_iff, h2, List.length_map] at hg
      rw [List.getElem?_eq_none_iff.2 (by rw [List.length_map]; exact hg)]
    | some g =>
      have hlt : i < ps.length := by
        have := getElem?_lt hg
        rwa [h2, List.length_map] at this
      have hops := List.getElem?_eq_getElem hlt
      rw [List.getElem?_map, hops]
      obtain ⟨h4, h5⟩ := h3 i _ g (by rw [List.getElem?_map, hops]; rfl) hg
      simp only [Nat.zero_add] at h4
      obtain ⟨r, hr⟩ := he g (List.mem_of_getElem? hg)
      have hrun := MM.run_steps (Client.follow G ⟨w.sets, [], []⟩ ps[i]) w.mem (sched.count i)
      rw [← h4] at hrun
      dsimp only at hrun
      rw [hr] at hrun
      have e1 : r = (Client.follow G ⟨w.sets, [], []⟩ ps[i] w.mem).1 := congrArg Prod.fst hrun
      have e2 : w.mem.plus g.own = (Client.follow G ⟨w.sets, [], []⟩ ps[i] w.mem).2 := congrArg Prod.snd hrun
      show some g = some (endProg G w ps[i])
      congr 1
      unfold endProg
      rw [← e1, ← e2, ← hr, high_plus]
  cases hm : (forkProgs G w ps).run sched with
  | mk sh gs =>
    rw [hm] at h1 hgs
    dsimp only at h1 hgs
    rw [h1, hgs]

/-- A goroutine at its end: what it holds, and in which memory. -/
theorem endProg_ok (G : Growth) {w : World T} {vw : VWorld T} {S : Set Loc} {B : Nat → Set Loc} (h : HistInv true w vw S B)
    (p : GProg T) (hu : UncrowdedProg G ⟨w.sets, [], []⟩ w.mem p) :
    ∃ c own Sg Bg, endProg G w p = ⟨.done (.ok c), own⟩ ∧
      HistInv true (c.world (w.mem.plus own)) (VClient.follow ⟨⟨vw.sets, []⟩, []⟩ p).world Sg Bg ∧
      (∀ l ∈ Sg, l ∈ Frozen.core w.mem S ∨ l ∈ Fresh w.mem) ∧ (∀ k, ∀ l ∈ Bg k, l ∈ Fresh w.mem) ∧
      c.seen = (VClient.follow ⟨⟨vw.sets, []⟩, []⟩ p).seen := by
  have hstart : HistInv true ⟨w.mem, w.sets, []⟩ ⟨vw.sets, []⟩ (Frozen.core w.mem S) (fun _ => ∅) :=
    ⟨fun l hl => h.live l hl.1, fun i s hs => by
        obtain ⟨n, hn, hv⟩ := h.sets i s hs
        exact ⟨n, hn.core, hv⟩,
      h.setsLen, rfl, fun _ _ hb => by simp at hb, fun _ => live_empty _, fun _ _ h => h.elim, fun _ _ _ _ h => h.elim⟩
  obtain ⟨c, H', h1, ⟨Sg, Bg, hgr, hinv⟩, hs⟩ := follow_grown G p (c := ⟨w.sets, [], []⟩) (H := w.mem)
    (vc := ⟨⟨vw.sets, []⟩, []⟩) hstart rfl hu
  have hq : Quiet w.mem (Client.follow G ⟨w.sets, [], []⟩ p) := (startProg_ok G h p (fun _ => hu) (.inl rfl)).1
  have hext : MemExt w.mem H' := by
    obtain ⟨n, hn⟩ := MM.finishes (Client.follow G ⟨w.sets, [], []⟩ p) w.mem
    have hk : ∀ n, MemExt w.mem ((Client.follow G ⟨w.sets, [], []⟩ p).steps w.mem n).2 := by
      intro n
      induction n with
      | zero => exact ⟨List.prefix_refl _, List.prefix_refl _⟩
      | succ n ih => exact ih.step _ (fun l hl => hq.nextWrite n l hl)
    have := hk n
    rw [hn n (Nat.le_refl _), h1] at this
    exact this
  refine ⟨c, w.mem.high H', Sg, Bg, ?_, ?_, ?_, ?_, hs⟩
  · unfold endProg; rw [h1]
  · rw [hext.plus_high]; exact hinv
  · intro l hl
    rcases hgr.up l hl with h | ⟨k, h⟩ | h
    · exact .inl h
    · exact h.elim
    · exact .inr h
  · intro k l hl
    rcases hgr.bup k l hl with h | h
    · exact h.elim
    · exact h

/-- Taking over from goroutines at their end. -/
theorem takesProgs_inv (G : Growth) {w : World T} {vw : VWorld T} {S : Set Loc} {B : Nat → Set Loc} (h : HistInv true w vw S B) :
    ∀ (ps : List (GProg T)) (J : World T) (vJ : VWorld T) (SJ : Set Loc) (BJ : Nat → Set Loc),
    (∀ p ∈ ps, UncrowdedProg G ⟨w.sets, [], []⟩ w.mem p) → HistInv true J vJ SJ BJ → MemExt w.mem J.mem → S ⊆ SJ →
    ∃ SK BK, HistInv true ((ps.map (endProg G w)).foldl w.take J)
      (ps.foldl (fun J p =>
        let r := (VClient.follow ⟨⟨vw.sets, []⟩, []⟩ p).world
        ⟨J.sets ++ r.sets.drop vw.sets.length, J.builders ++ r.builders⟩) vJ) SK BK ∧
      J.sets <+: ((ps.map (endProg G w)).foldl w.take J).sets ∧
      MemExt J.mem ((ps.map (endProg G w)).foldl w.take J).mem ∧ ((ps.map (endProg G w)).foldl w.take J).mem.log = J.mem.log
  | [], J, vJ, SJ, BJ, _, hJ, _, _ => ⟨SJ, BJ, hJ, List.prefix_refl _, ⟨List.prefix_refl _, List.prefix_refl _⟩, rfl⟩
  | p :: ps, J, vJ, SJ, BJ, hu, hJ, hext, hSJ => by
    obtain ⟨c, own, Sg, Bg, h1, h2, h3, h4, _⟩ := endProg_ok G h p (hu p (by simp))
    have hi := take_inv h.live h.setsLen hJ hext hSJ h2 h3 h4
    obtain ⟨SK, BK, h5, h6, h8, h9⟩ := takesProgs_inv G h ps (w.take J (endProg G w p)) _ _ _ (fun o ho => hu o (by simp [ho]))
      (by rw [h1]; exact hi) (by rw [h1]; exact hext.trans (ext_laid w.mem J.mem own)) (hSJ.trans Set.subset_union_left)
    rw [List.map_cons, List.foldl_cons, List.foldl_cons]
    refine ⟨SK, BK, h5, ?_, ?_, ?_⟩
    · refine List.IsPrefix.trans ?_ h6
      rw [h1]; exact List.prefix_append _ _
    · refine MemExt.trans ?_ h8
      rw [h1]; exact ext_laid w.mem J.mem own
    · rw [h9, h1]; rfl

theorem seenProgs (G : Growth) {w : World T} {vw : VWorld T} {S : Set Loc} {B : Nat → Set Loc} (h : HistInv true w vw S B) :
    ∀ (ps : List (GProg T)), (∀ p ∈ ps, UncrowdedProg G ⟨w.sets, [], []⟩ w.mem p) →
    (ps.map (endProg G w)).flatMap Goroutine.seen = ps.flatMap (fun p => (VClient.follow ⟨⟨vw.sets, []⟩, []⟩ p).seen)
  | [], _ => rfl
  | p :: ps, hu => by
    obtain ⟨c, own, Sg, Bg, h1, _, _, _, h5⟩ := endProg_ok G h p (hu p (by simp))
    rw [List.map_cons, List.flatMap_cons, List.flatMap_cons, seenProgs G h ps (fun o ho => hu o (by simp [ho])), h1, ← h5]
    rfl

/-! ## Programs -/

/-- What holds in all states of a program. -/
structure JInv (G : Growth) (s : JState T) (vc : VClient T) : Prop where
  inv : ∃ S B, HistInv true (s.client.world s.mem) vc.world S B
  seen : s.client.seen = vc.seen
  unc : UncrowdedJoin G s.client s.mem s.prog

/-- The state after waiting, without the schedule. -/
def JState.waited (G : Growth) (c : Client T) (H : Mem T) (ps : List (GProg T)) (p : JProg T) : JState T :=
  JState.joined c H ⟨H, ps.map (endProg G ⟨H, c.sets, c.builders⟩)⟩ p

theorem joined_eq (G : Growth) {c : Client T} {H : Mem T} {vw : VWorld T} {S : Set Loc} {B : Nat → Set Loc}
    (h : HistInv true (c.world H) vw S B) (ps : List (GProg T)) (p : JProg T) (hu : ∀ p ∈ ps, UncrowdedProg G ⟨c.sets, [], []⟩ H p)
    (sched : List Nat) (he : ((forkProgs G ⟨H, c.sets, c.builders⟩ ps).run sched).Ended) :
    JState.joined c H ((forkProgs G ⟨H, c.sets, c.builders⟩ ps).run sched) p = JState.waited G c H ps p := by
  unfold JState.waited
  rw [endedProgs G ⟨H, c.sets, c.builders⟩ ps (fun p hp => (startProg_ok G h p (fun _ => hu p hp) (.inl rfl)).1) sched he]

theorem waited_ok (G : Growth) {c : Client T} {H : Mem T} {vc : VClient T} {S : Set Loc} {B : Nat → Set Loc}
    (h : HistInv true (c.world H) vc.world S B) (hseen : c.seen = vc.seen) (ps : List (GProg T)) (p : JProg T)
    (hu : ∀ p ∈ ps, UncrowdedProg G ⟨c.sets, [], []⟩ H p) :
    (∃ S' B', HistInv true ((JState.waited G c H ps p).client.world (JState.waited G c H ps p).mem) (vc.par ps).world S' B') ∧
    (JState.waited G c H ps p).client.seen = (vc.par ps).seen ∧
    ∀ (i : Nat) (s : MTree), c.sets[i]? = some s → (JState.waited G c H ps p).client.sets[i]? = some s ∧
      SameView H (JState.waited G c H ps p).mem s := by
  obtain ⟨SK, BK, h1, h2, h4, h5⟩ := takesProgs_inv G h ps (c.world H) vc.world S B hu h ⟨List.prefix_refl _, List.prefix_refl _⟩
    (fun _ h => h)
  refine ⟨⟨SK, BK, h1⟩, ?_, fun i s hs => ?_⟩
  · show c.seen ++ _ = vc.seen ++ _
    rw [hseen]
    congr 1
    exact seenProgs G h ps hu
  · obtain ⟨n, hn, _⟩ := h.sets i s hs
    refine ⟨?_, sameView_of hn (hn.next (ext_changes h4 h5))⟩
    obtain ⟨l, hl⟩ := h2
    have : ((c.world H).sets ++ l)[i]? = some s := by exact (List.getElem?_append_left (getElem?_lt (l := (c.world H).sets) hs)).trans hs
    rw [hl] at this
    exact this

/-- One step. -/
theorem JInv.step {G : Growth} {s s' : JState T} {vc : VClient T} (h : JInv G s vc) (hs : JStep G s s') :
    (∃ vc', JInv G s' vc' ∧ vc'.join s'.prog = vc.join s.prog) ∧
    ∀ (i : Nat) (t : MTree), s.client.sets[i]? = some t → s'.client.sets[i]? = some t ∧ SameView s.mem s'.mem t := by
  obtain ⟨⟨S, B, hinv⟩, hseen, hunc⟩ := h
  cases hs with
  | look c H k =>
    refine ⟨⟨vc, ⟨⟨S, B, hinv⟩, hseen, hunc⟩, ?_⟩, fun i t ht => ?_⟩
    · show vc.join (k c.view) = vc.join (k vc.view)
      rw [view_of hinv hseen]
    · obtain ⟨n, hn, _⟩ := hinv.sets i t ht
      exact ⟨ht, sameView_of hn hn⟩
  | @act c c' H H' op p hp =>
    obtain ⟨c1, H1, h1, ⟨S1, B1, _, h2⟩, h3, h4⟩ := perform_grown G op hinv hseen hunc.1
    rw [hp] at h1
    cases h1
    exact ⟨⟨vc.perform op, ⟨⟨S1, B1, h2⟩, h4, hunc.2 _ _ hp⟩, rfl⟩, h3.sets⟩
  | @par c H ps p sched he =>
    have hu := hunc.2 sched he
    rw [joined_eq G hinv ps p hunc.1 sched he] at hu ⊢
    obtain ⟨h1, h2, h3⟩ := waited_ok G hinv hseen ps p hunc.1
    exact ⟨⟨vc.par ps, ⟨h1, h2, hu⟩, rfl⟩, h3⟩

theorem JReach.inv {G : Growth} {s s' : JState T} {vc : VClient T} (h : JInv G s vc) (hs : JReach G s s') :
    (∃ vc', JInv G s' vc' ∧ vc'.join s'.prog = vc.join s.prog) ∧
    ∀ (i : Nat) (t : MTree), s.client.sets[i]? = some t → s'.client.sets[i]? = some t ∧ SameView s.mem s'.mem t := by
  induction hs with
  | refl =>
    refine ⟨⟨vc, h, rfl⟩, fun i t ht => ?_⟩
    obtain ⟨S, B, hinv⟩ := h.inv
    obtain ⟨n, hn, _⟩ := hinv.sets i t ht
    exact ⟨ht, sameView_of hn hn⟩
  | step _ h' ih =>
    obtain ⟨⟨vc1, h1, h2⟩, h3⟩ := ih
    obtain ⟨⟨vc2, h4, h5⟩, h6⟩ := h1.step h'
    refine ⟨⟨vc2, h4, h5.trans h2⟩, fun i t ht => ?_⟩
    obtain ⟨h7, h8⟩ := h3 i t ht
    obtain ⟨h9, h10⟩ := h6 i t h7
    exact ⟨h9, h8.trans h10⟩

theorem JInv.init (G : Growth) (p : JProg T) (hu : UncrowdedJoin G ⟨[], [], []⟩ ⟨[], [], []⟩ p) :
    JInv G (JState.init p) ⟨⟨[], []⟩, []⟩ := ⟨⟨_, _, HistInv.init true⟩, rfl, hu⟩

/-- There is only one way to go on. -/
theorem JInv.det {G : Growth} {s s1 s2 : JState T} {vc : VClient T} (h : JInv G s vc) (h1 : JStep G s s1) (h2 : JStep G s s2) : s1 = s2 := by
  obtain ⟨⟨S, B, hinv⟩, hseen, hunc⟩ := h
  cases h1 with
  | look c H k => cases h2; rfl
  | act p hp =>
    cases h2 with
    | act _ hp' => rw [hp] at hp'; cases hp'; rfl
  | par p sched he =>
    generalize hx : JState.joined _ _ _ p = x
    cases h2 with
    | par _ sched' he' => rw [← hx, joined_eq G hinv _ p hunc.1 sched he, joined_eq G hinv _ p hunc.1 sched' he']

/-! ## Programs whose goroutines do not append -/

/-- One operation, alone, whatever the sets have become. -/
theorem perform_loose (G : Growth) (op : GOp T) {c : Client T} {H : Mem T} {vw : VWorld T} {S : Set Loc} {B : Nat → Set Loc}
    (h : HistInv false (c.world H) vw S B) :
    ∃ c' H', c.perform G op H = (.ok c', H') ∧
      (∃ vw' S' B' W, Grown H S B S' B' ∧ HistInv false (c'.world H') vw' S' B' ∧ Changes W H H') ∧
      ((∀ o, op = .call o → o.mayAppend = false) →
        ∀ (i : Nat) (s : MTree), c.sets[i]? = some s → c'.sets[i]? = some s ∧ SameView H H' s) := by
  by_cases hc : ∃ o, op = .call o
  · obtain ⟨o, rfl⟩ := hc
    obtain ⟨⟨S', B', hg, h'⟩, ⟨W, hc, hW, _⟩, _, _⟩ := step_ok G h o (nomatch ·)
    have hrun : c.perform G (.call o) H = _ := c.call_run G o H
    refine ⟨_, _, hrun, ⟨_, S', B', W, hg, h', hc⟩, fun ho i s hs => ?_⟩
    exact run_view G [o] h (nomatch ·) (.inr (fun p hp => by rw [List.mem_singleton.1 hp]; exact ho o rfl)) (i := i) (s := s) hs
  · have hcalls : GOp.calls [op] = [] := by
      cases op with
      | call o => exact absurd ⟨o, rfl⟩ hc
      | _ => rfl
    have hgo : goroutine G c [op] H = c.perform G op H := by
      rw [goroutine_cons]
      rcases hp : c.perform G op H with ⟨r, H'⟩
      cases r with
      | ok c' => rw [run_bind hp]; rfl
      | error e => rw [MM.run_andThen, hp]
    obtain ⟨c', H', h1, h2, _, _⟩ := goroutine_ok G [op] h (nomatch ·) (.inr (by rw [hcalls]; exact fun _ hp => nomatch hp))
    rw [hgo] at h1
    rw [hcalls] at h2
    have h2' : c'.world H' = c.world H := h2
    have e1 : H' = H := congrArg World.mem h2'
    have e2 : c'.sets = c.sets := congrArg World.sets h2'
    subst e1
    refine ⟨c', H', h1, ⟨vw, S, B, ∅, Grown.refl _ _ _, by rw [h2']; exact h,
      ext_changes ⟨List.prefix_refl _, List.prefix_refl _⟩ rfl⟩, fun _ i s hs => ?_⟩
    obtain ⟨n, hn, _⟩ := h.sets i s hs
    exact ⟨by rw [e2]; exact hs, sameView_of hn hn⟩

theorem follow_loose (G : Growth) : ∀ (p : GProg T) {c : Client T} {H : Mem T} {vw : VWorld T} {S : Set Loc} {B : Nat → Set Loc},
    HistInv false (c.world H) vw S B →
    ∃ c' H', c.follow G p H = (.ok c', H') ∧ ∃ vw' S' B', Grown H S B S' B' ∧ HistInv false (c'.world H') vw' S' B' := by
  intro p
  induction p with
  | stop => exact fun h => ⟨_, _, rfl, _, _, _, Grown.refl _ _ _, h⟩
  | look k ih => exact fun {c} _ _ _ _ h => ih c.view h
  | act op p ih =>
    intro c H vw S B h
    rw [follow_act]
    obtain ⟨c1, H1, h1, ⟨vw1, S1, B1, W, hg, hinv, hc⟩, _⟩ := perform_loose G op h
    rw [run_bind h1]
    obtain ⟨c', H', h5, vw2, S2, B2, hg2, h6⟩ := ih hinv
    exact ⟨c', H', h5, vw2, S2, B2, hg.trans hc hg2, h6⟩

theorem endProg_loose (G : Growth) {w : World T} {vw : VWorld T} {S : Set Loc} {B : Nat → Set Loc} (h : HistInv false w vw S B)
    (p : GProg T) (ho : p.NoAppend) :
    ∃ c own vc Sg Bg, endProg G w p = ⟨.done (.ok c), own⟩ ∧ HistInv false (c.world (w.mem.plus own)) vc Sg Bg ∧
      (∀ l ∈ Sg, l ∈ Frozen.core w.mem S ∨ l ∈ Fresh w.mem) ∧ ∀ k, ∀ l ∈ Bg k, l ∈ Fresh w.mem := by
  have hstart : HistInv false ⟨w.mem, w.sets, []⟩ ⟨vw.sets, []⟩ (Frozen.core w.mem S) (fun _ => ∅) :=
    ⟨fun l hl => h.live l hl.1, fun i s hs => by
        obtain ⟨n, hn, hv⟩ := h.sets i s hs
        exact ⟨n, hn.core, hv⟩,
      h.setsLen, rfl, fun _ _ hb => by simp at hb, fun _ => live_empty _, fun _ _ h => h.elim, fun _ _ _ _ h => h.elim⟩
  obtain ⟨c, H', h1, vc, Sg, Bg, hgr, hinv⟩ := follow_loose G p (c := ⟨w.sets, [], []⟩) (H := w.mem) hstart
  have hq : Quiet w.mem (Client.follow G ⟨w.sets, [], []⟩ p) := (startProg_ok G h p (nomatch ·) (.inr ho)).1
  have hext : MemExt w.mem H' := by
    obtain ⟨n, hn⟩ := MM.finishes (Client.follow G ⟨w.sets, [], []⟩ p) w.mem
    have hk : ∀ n, MemExt w.mem ((Client.follow G ⟨w.sets, [], []⟩ p).steps w.mem n).2 := by
      intro n
      induction n with
      | zero => exact ⟨List.prefix_refl _, List.prefix_refl _⟩
      | succ n ih => exact ih.step _ (fun l hl => hq.nextWrite n l hl)
    have := hk n
    rw [hn n (Nat.le_refl _), h1] at this
    exact this
  refine ⟨c, w.mem.high H', vc, Sg, Bg, ?_, ?_, ?_, ?_⟩
  · unfold endProg; rw [h1]
  · rw [hext.plus_high]; exact hinv
  · intro l hl
    rcases hgr.up l hl with h | ⟨k, h⟩ | h
    · exact .inl h
    · exact h.elim
    · exact .inr h
  · intro k l hl
    rcases hgr.bup k l hl with h | h
    · exact h.elim
    · exact h

theorem takesProgs_loose (G : Growth) {w : World T} {vw : VWorld T} {S : Set Loc} {B : Nat → Set Loc} (h : HistInv false w vw S B) :
    ∀ (ps : List (GProg T)) (J : World T) (vJ : VWorld T) (SJ : Set Loc) (BJ : Nat → Set Loc),
    (∀ p ∈ ps, p.NoAppend) → HistInv false J vJ SJ BJ → MemExt w.mem J.mem → S ⊆ SJ →
    ∃ vK SK BK, HistInv false ((ps.map (endProg G w)).foldl w.take J) vK SK BK ∧
      J.sets <+: ((ps.map (endProg G w)).foldl w.take J).sets ∧
      MemExt J.mem ((ps.map (endProg G w)).foldl w.take J).mem ∧ ((ps.map (endProg G w)).foldl w.take J).mem.log = J.mem.log
  | [], J, vJ, SJ, BJ, _, hJ, _, _ => ⟨vJ, SJ, BJ, hJ, List.prefix_refl _, ⟨List.prefix_refl _, List.prefix_refl _⟩, rfl⟩
  | p :: ps, J, vJ, SJ, BJ, ho, hJ, hext, hSJ => by
    obtain ⟨c, own, vc, Sg, Bg, h1, h2, h3, h4⟩ := endProg_loose G h p (ho p (by simp))
    have hi := take_inv h.live h.setsLen hJ hext hSJ h2 h3 h4
    obtain ⟨vK, SK, BK, h5, h6, h8, h9⟩ := takesProgs_loose G h ps (w.take J (endProg G w p)) _ _ _ (fun o ho' => ho o (by simp [ho']))
      (by rw [h1]; exact hi) (by rw [h1]; exact hext.trans (ext_laid w.mem J.mem own)) (hSJ.trans Set.subset_union_left)
    rw [List.map_cons, List.foldl_cons]
    refine ⟨vK, SK, BK, h5, ?_, ?_, ?_⟩
    · refine List.IsPrefix.trans ?_ h6
      rw [h1]; exact List.prefix_append _ _
    · refine MemExt.trans ?_ h8
      rw [h1]; exact ext_laid w.mem J.mem own
    · rw [h9, h1]; rfl

/-- What holds in all states of a program whose goroutines do not append. -/
structure JLoose (s : JState T) : Prop where
  inv : ∃ vw S B, HistInv false (s.client.world s.mem) vw S B
  go : s.prog.GoNoAppend

theorem joined_loose (G : Growth) {c : Client T} {H : Mem T} {vw : VWorld T} {S : Set Loc} {B : Nat → Set Loc}
    (h : HistInv false (c.world H) vw S B) (ps : List (GProg T)) (p : JProg T) (ho : ∀ p ∈ ps, p.NoAppend)
    (sched : List Nat) (he : ((forkProgs G ⟨H, c.sets, c.builders⟩ ps).run sched).Ended) :
    JState.joined c H ((forkProgs G ⟨H, c.sets, c.builders⟩ ps).run sched) p = JState.waited G c H ps p := by
  unfold JState.waited
  rw [endedProgs G ⟨H, c.sets, c.builders⟩ ps (fun p hp => (startProg_ok G h p (nomatch ·) (.inr (ho p hp))).1) sched he]

theorem JLoose.step {G : Growth} {s s' : JState T} (h : JLoose s) (hs : JStep G s s') :
    JLoose s' ∧ (s.prog.NoAppend → s'.prog.NoAppend ∧
      ∀ (i : Nat) (t : MTree), s.client.sets[i]? = some t → s'.client.sets[i]? = some t ∧ SameView s.mem s'.mem t) := by
  obtain ⟨⟨vw, S, B, hinv⟩, hgo⟩ := h
  cases hs with
  | look c H k =>
    refine ⟨⟨⟨vw, S, B, hinv⟩, hgo _⟩, fun hn => ⟨hn _, fun i t ht => ?_⟩⟩
    obtain ⟨n, hn, _⟩ := hinv.sets i t ht
    exact ⟨ht, sameView_of hn hn⟩
  | @act c c' H H' op p hp =>
    obtain ⟨c1, H1, h1, ⟨vw1, S1, B1, _, _, h2, _⟩, h3⟩ := perform_loose G op hinv
    rw [hp] at h1
    cases h1
    exact ⟨⟨⟨vw1, S1, B1, h2⟩, hgo⟩, fun hn => ⟨hn.2, h3 hn.1⟩⟩
  | @par c H ps p sched he =>
    rw [joined_loose G hinv ps p hgo.1 sched he]
    obtain ⟨vK, SK, BK, h1, h2, h4, h5⟩ := takesProgs_loose G hinv ps (c.world H) vw S B hgo.1 hinv
      ⟨List.prefix_refl _, List.prefix_refl _⟩ (fun _ h => h)
    refine ⟨⟨⟨vK, SK, BK, h1⟩, hgo.2⟩, fun hn => ⟨hn.2, fun i s hs => ?_⟩⟩
    obtain ⟨n, hn, _⟩ := hinv.sets i s hs
    refine ⟨?_, sameView_of hn (hn.next (ext_changes h4 h5))⟩
    obtain ⟨l, hl⟩ := h2
    have : ((c.world H).sets ++ l)[i]? = some s := (List.getElem?_append_left (getElem?_lt (l := (c.world H).sets) hs)).trans hs
    rw [hl] at this
    exact this

theorem JReach.loose {G : Growth} {s s' : JState T} (h : JLoose s) (hs : JReach G s s') :
    JLoose s' ∧ (s.prog.NoAppend → s'.prog.NoAppend ∧
      ∀ (i : Nat) (t : MTree), s.client.sets[i]? = some t → s'.client.sets[i]? = some t ∧ SameView s.mem s'.mem t) := by
  induction hs with
  | refl =>
    refine ⟨h, fun hn => ⟨hn, fun i t ht => ?_⟩⟩
    obtain ⟨vw, S, B, hinv⟩ := h.inv
    obtain ⟨n, hn, _⟩ := hinv.sets i t ht
    exact ⟨ht, sameView_of hn hn⟩
  | step _ h' ih =>
    obtain ⟨h1, h2⟩ := ih
    obtain ⟨h3, h4⟩ := h1.step h'
    refine ⟨h3, fun hn => ⟨(h4 (h2 hn).1).1, fun i t ht => ?_⟩⟩
    obtain ⟨h7, h8⟩ := (h2 hn).2 i t ht
    obtain ⟨h9, h10⟩ := (h4 (h2 hn).1).2 i t h7
    exact ⟨h9, h8.trans h10⟩

theorem JLoose.init (p : JProg T) (hg : p.GoNoAppend) : JLoose (JState.init p) := ⟨⟨_, _, _, HistInv.init false⟩, hg⟩

theorem JLoose.det {G : Growth} {s s1 s2 : JState T} (h : JLoose s) (h1 : JStep G s s1) (h2 : JStep G s s2) : s1 = s2 := by
  obtain ⟨⟨vw, S, B, hinv⟩, hgo⟩ := h
  cases h1 with
  | look c H k => cases h2; rfl
  | act p hp =>
    cases h2 with
    | act _ hp' => rw [hp] at hp'; cases hp'; rfl
  | par p sched he =>
    generalize hx : JState.joined _ _ _ p = x
    cases h2 with
    | par _ sched' he' => rw [← hx, joined_loose G hinv _ p hgo.1 sched he, joined_loose G hinv _ p hgo.1 sched' he']

theorem JReach.head {G : Growth} {s s1 s2 : JState T} (h1 : JStep G s s1) (h2 : JReach G s1 s2) : JReach G s s2 := by
  induction h2 with
  | refl => exact .step .refl h1
  | step _ h ih => exact .step ih h

theorem JReach.trans {G : Growth} {s s1 s2 : JState T} (h1 : JReach G s s1) (h2 : JReach G s1 s2) : JReach G s s2 := by
  induction h2 with
  | refl => exact h1
  | step _ h ih => exact .step ih h

end Frozen
