import Verif.Proof.JoinProg
import Verif.Props.Adaptive
import Verif.Props.ForkJoin

/-!
# Programs that start goroutines, wait for them, and decide as they go

C57 for programs in which every decision depends on what was seen before; property C69, the same for maps (Spec/JoinProg.lean).
-/

set_option linter.unusedSectionVars false

namespace Frozen

section Sets

variable {T : Type} [GoKey T] [LawfulGoKey T]

/-- C57 for programs that decide as they go: when the program has ended, whatever the scheduler did, its sets and builders are those it
has when every set is a value of its own and the goroutines run one after the other, and so is what it and its goroutines have seen. -/
theorem C57_adaptive_values (G : Growth) (p : JProg T) (hu : UncrowdedJoin G ⟨[], [], []⟩ ⟨[], [], []⟩ p) (s : JState T)
    (hs : JReach G (JState.init p) s) (hp : s.prog = .stop) :
    AsValues s.world (VClient.join ⟨⟨[], []⟩, []⟩ p).world ∧ s.client.seen = (VClient.join ⟨⟨[], []⟩, []⟩ p).seen := by
  obtain ⟨⟨vc, h1, h2⟩, _⟩ := hs.inv (JInv.init G p hu)
  rw [hp] at h2
  have h2' : vc = VClient.join ⟨⟨[], []⟩, []⟩ p := h2
  obtain ⟨S, B, hinv⟩ := h1.inv
  rw [← h2']
  exact ⟨hinv.asValues, h1.seen⟩

/-- C57 for programs that decide as they go: in every state there is at most one way to go on, so the scheduler has no influence. -/
theorem C57_adaptive_schedule (G : Growth) (p : JProg T) (hu : UncrowdedJoin G ⟨[], [], []⟩ ⟨[], [], []⟩ p) (s s1 s2 : JState T)
    (hs : JReach G (JState.init p) s) (h1 : JStep G s s1) (h2 : JStep G s s2) : s1 = s2 := by
  obtain ⟨⟨vc, h, _⟩, _⟩ := hs.inv (JInv.init G p hu)
  exact h.det h1 h2

/-- C57 for programs that decide as they go: every set the program holds, made by itself or taken over, keeps its place, its answers and
its iteration, whatever it and its goroutines do afterwards. -/
theorem C57_adaptive_keeps (G : Growth) (p : JProg T) (hu : UncrowdedJoin G ⟨[], [], []⟩ ⟨[], [], []⟩ p) (s s' : JState T)
    (hs : JReach G (JState.init p) s) (hs' : JReach G s s') (i : Nat) (t : MTree) (ht : s.client.sets[i]? = some t) :
    s'.client.sets[i]? = some t ∧ SameView s.mem s'.mem t := by
  obtain ⟨⟨vc, h, _⟩, _⟩ := hs.inv (JInv.init G p hu)
  exact (hs'.inv h).2 i t ht

theorem endedProgs_of_quiet (G : Growth) {w : World T} (ps : List (GProg T))
    (hq : ∀ p ∈ ps, Quiet w.mem (Client.follow G ⟨w.sets, [], []⟩ p) ∧ ∃ c, aloneProg G w p = .ok c) :
    ∃ n, ∀ sched : List Nat, (∀ i < ps.length, n ≤ sched.count i) →
      ∀ g ∈ ((forkProgs G w ps).run sched).gs, ∃ c, g.code = .done (.ok c) := by
  have hex : ∀ i, ∃ n, ∀ p, ps[i]? = some p → ∀ sched : List Nat, n ≤ sched.count i →
      ∃ g c, ((forkProgs G w ps).run sched).gs[i]? = some g ∧ g.code = .done (.ok c) := by
    intro i
    cases hi : ps[i]? with
    | none => exact ⟨0, fun p hp => by cases hp⟩
    | some p =>
      obtain ⟨n, hn⟩ := forkProgs_finishes G _ ps (fun p hp => (hq p hp).1) i p hi
      obtain ⟨c, hc⟩ := (hq p (List.mem_of_getElem? hi)).2
      refine ⟨n, fun p' hp sched hsched => ?_⟩
      obtain ⟨g, h1, h2⟩ := hn sched hsched
      exact ⟨g, c, h1, by rw [h2, hc]⟩
  choose f hf using hex
  obtain ⟨N, hN⟩ := exists_bound f ps.length
  refine ⟨N, fun sched hsched g hg => ?_⟩
  obtain ⟨i, hi⟩ := List.getElem?_of_mem hg
  have hlen : ((forkProgs G w ps).run sched).gs.length = ps.length := by
    obtain ⟨_, h2, _⟩ := Machine.run_at (S := w.mem) (xs := ps.map (fun p => Client.follow G ⟨w.sets, [], []⟩ p)) (by
      intro x hx
      obtain ⟨p, hp, rfl⟩ := List.mem_map.1 hx
      exact (hq p hp).1) sched (forkProgs_at G w ps)
    rw [h2, List.length_map]
  have hlt : i < ps.length := by rw [← hlen]; exact getElem?_lt hi
  obtain ⟨g', c, h1, h2⟩ := hf i _ (List.getElem?_eq_getElem hlt) sched
    (Nat.le_trans (hN i hlt) (hsched i hlt))
  rw [hi] at h1
  cases h1
  exact ⟨c, h2⟩

theorem JInv.quiet {G : Growth} {s : JState T} {vc : VClient T} (h : JInv G s vc) {ps : List (GProg T)} {q : JProg T}
    (hp : s.prog = .par ps q) : ∀ p ∈ ps, Quiet s.world.mem (Client.follow G ⟨s.world.sets, [], []⟩ p) ∧ ∃ c, aloneProg G s.world p = .ok c := by
  intro p hpm
  obtain ⟨S, B, hinv⟩ := h.inv
  have hunc := h.unc
  rw [hp] at hunc
  obtain ⟨h1, c, h2, _⟩ := startProg_ok G (w := s.world) hinv p (fun _ => hunc.1 p hpm) (.inl rfl)
  exact ⟨h1, c, h2⟩

theorem JLoose.quiet (G : Growth) {s : JState T} (h : JLoose s) {ps : List (GProg T)} {q : JProg T}
    (hp : s.prog = .par ps q) : ∀ p ∈ ps, Quiet s.world.mem (Client.follow G ⟨s.world.sets, [], []⟩ p) ∧ ∃ c, aloneProg G s.world p = .ok c := by
  intro p hpm
  obtain ⟨vw, S, B, hinv⟩ := h.inv
  have hgo := h.go
  rw [hp] at hgo
  obtain ⟨h1, c, h2, _⟩ := startProg_ok G (w := s.world) hinv p (nomatch ·) (.inr (hgo.1 p hpm))
  exact ⟨h1, c, h2⟩

/-- C57 for programs that decide as they go: waiting comes to an end: all goroutines have ended, without a panic, once each has had
enough turns. -/
theorem C57_adaptive_ends (G : Growth) (p : JProg T) (hu : UncrowdedJoin G ⟨[], [], []⟩ ⟨[], [], []⟩ p) (s : JState T)
    (hs : JReach G (JState.init p) s) (ps : List (GProg T)) (q : JProg T) (hp : s.prog = .par ps q) :
    ∃ n, ∀ sched : List Nat, (∀ i < ps.length, n ≤ sched.count i) →
      ∀ g ∈ ((forkProgs G s.world ps).run sched).gs, ∃ c, g.code = .done (.ok c) := by
  obtain ⟨⟨vc, h, _⟩, _⟩ := hs.inv (JInv.init G p hu)
  exact endedProgs_of_quiet G ps (h.quiet hp)

/-- A property of states that is kept by steps and under which nothing gets stuck. -/
theorem finishes_of (G : Growth) (I : JState T → Prop) (hstep : ∀ s s', I s → JStep G s s' → I s')
    (hact : ∀ c H op p, I ⟨c, H, .act op p⟩ → ∃ c' H', c.perform G op H = (.ok c', H'))
    (hpar : ∀ s ps q, I s → s.prog = .par ps q →
      ∀ p ∈ ps, Quiet s.world.mem (Client.follow G ⟨s.world.sets, [], []⟩ p) ∧ ∃ c, aloneProg G s.world p = .ok c) :
    ∀ (p : JProg T) (c : Client T) (H : Mem T), I ⟨c, H, p⟩ → ∃ s, JReach G ⟨c, H, p⟩ s ∧ s.prog = .stop := by
  intro p
  induction p with
  | stop => exact fun c H _ => ⟨_, .refl, rfl⟩
  | look k ih =>
    intro c H h
    have hst : JStep G (⟨c, H, .look k⟩ : JState T) ⟨c, H, k c.view⟩ := .look c H k
    obtain ⟨s, h1, h2⟩ := ih c.view c H (hstep _ _ h hst)
    exact ⟨s, .head hst h1, h2⟩
  | act op p ih =>
    intro c H h
    obtain ⟨c1, H1, h1⟩ := hact c H op p h
    have hst : JStep G (⟨c, H, .act op p⟩ : JState T) ⟨c1, H1, p⟩ := .act p h1
    obtain ⟨s, h2, h3⟩ := ih c1 H1 (hstep _ _ h hst)
    exact ⟨s, .head hst h2, h3⟩
  | par ps p ih =>
    intro c H h
    obtain ⟨n, hn⟩ := endedProgs_of_quiet G ps (hpar _ ps p h rfl)
    have hcount : ∀ (n m i : Nat), i < m → n ≤ ((List.replicate n (List.range m)).flatten).count i := by
      intro n m i hi
      induction n with
      | zero => exact Nat.zero_le _
      | succ n ih =>
        rw [List.replicate_succ, List.flatten_cons, List.count_append]
        have : 0 < (List.range m).count i := List.count_pos_iff.2 (List.mem_range.2 hi)
        omega
    have he := hn _ (fun i hi => hcount n ps.length i hi)
    have hst := JStep.par (G := G) (c := c) (H := H) (ps := ps) p _ (fun g hg => by
      obtain ⟨c, hc⟩ := he g hg
      exact ⟨_, hc⟩)
    obtain ⟨s, h2, h3⟩ := ih _ _ (hstep _ _ h hst)
    exact ⟨s, .head hst h2, h3⟩

/-- C57 for programs that decide as they go: nothing that happened so far keeps the program from coming to its end. -/
theorem C57_adaptive_completes (G : Growth) (p : JProg T) (hu : UncrowdedJoin G ⟨[], [], []⟩ ⟨[], [], []⟩ p) (s : JState T)
    (hs : JReach G (JState.init p) s) : ∃ s', JReach G s s' ∧ s'.prog = .stop := by
  obtain ⟨⟨vc, h, _⟩, _⟩ := hs.inv (JInv.init G p hu)
  refine finishes_of G (fun s => ∃ vc, JInv G s vc) ?_ ?_ ?_ s.prog s.client s.mem ⟨vc, h⟩
  · rintro s s' ⟨vc, h⟩ hst
    obtain ⟨⟨vc', h', _⟩, _⟩ := h.step hst
    exact ⟨vc', h'⟩
  · rintro c H op p ⟨vc, h⟩
    obtain ⟨S, B, hinv⟩ := h.inv
    obtain ⟨c1, H1, h1, _⟩ := perform_grown G op hinv h.seen h.unc.1
    exact ⟨c1, H1, h1⟩
  · rintro s ps q ⟨vc, h⟩ hp
    exact h.quiet hp

/-- The functions given to merges return an element equal to their arguments, whoever calls them. -/
def JProg.MergesOk : JProg T → Prop
  | .stop => True
  | .look next => ∀ v, (next v).MergesOk
  | .act op rest => (∀ o, op = .call o → o.MergesOk) ∧ rest.MergesOk
  | .par ps rest => (∀ p ∈ ps, p.MergesOk) ∧ rest.MergesOk

theorem uncrowdedJoin_of_few (hT : FewCollisions T) (G : Growth) (p : JProg T) : ∀ (c : Client T) (H : Mem T), p.MergesOk →
    UncrowdedJoin G c H p := by
  induction p with
  | stop => exact fun _ _ _ => trivial
  | look k ih => exact fun c H h => ih c.view c H (h _)
  | act op p ih => exact fun c H h => ⟨fun o ho => uncrowded_few hT _ o (h.1 o ho), fun c' H' _ => ih c' H' h.2⟩
  | par ps p ih => exact fun c H h => ⟨fun q hq => uncrowdedProg_of_few hT G q _ _ (h.1 q hq), fun _ _ => ih _ _ h.2⟩

/-- C57 for programs that decide as they go and element types whose hash has few collisions: every program. -/
theorem C57_adaptive_few_collisions (hT : FewCollisions T) (G : Growth) (p : JProg T) (hm : p.MergesOk) (s : JState T)
    (hs : JReach G (JState.init p) s) (hp : s.prog = .stop) :
    AsValues s.world (VClient.join ⟨⟨[], []⟩, []⟩ p).world ∧ s.client.seen = (VClient.join ⟨⟨[], []⟩, []⟩ p).seen :=
  C57_adaptive_values G p (uncrowdedJoin_of_few hT G p _ _ hm) s hs hp

/-! ### Without the proviso, when goroutines do not call `With` or a merge -/

/-- C57 for programs that decide as they go and in which only the main goroutine calls `With` and the merges: the scheduler has no
influence. -/
theorem C57_adaptive_schedule_other_calls (G : Growth) (p : JProg T) (hg : p.GoNoAppend) (s s1 s2 : JState T)
    (hs : JReach G (JState.init p) s) (h1 : JStep G s s1) (h2 : JStep G s s2) : s1 = s2 :=
  (hs.loose (JLoose.init p hg)).1.det h1 h2

/-- C57 for such programs: from a state on in which nobody will call `With` or a merge, every set keeps its place, its answers and its
iteration. -/
theorem C57_adaptive_keeps_other_calls (G : Growth) (p : JProg T) (hg : p.GoNoAppend) (s s' : JState T) (hs : JReach G (JState.init p) s)
    (hn : s.prog.NoAppend) (hs' : JReach G s s') (i : Nat) (t : MTree) (ht : s.client.sets[i]? = some t) :
    s'.client.sets[i]? = some t ∧ SameView s.mem s'.mem t :=
  ((hs'.loose (hs.loose (JLoose.init p hg)).1).2 hn).2 i t ht

/-- C57 for such programs: waiting comes to an end. -/
theorem C57_adaptive_ends_other_calls (G : Growth) (p : JProg T) (hg : p.GoNoAppend) (s : JState T) (hs : JReach G (JState.init p) s)
    (ps : List (GProg T)) (q : JProg T) (hp : s.prog = .par ps q) :
    ∃ n, ∀ sched : List Nat, (∀ i < ps.length, n ≤ sched.count i) →
      ∀ g ∈ ((forkProgs G s.world ps).run sched).gs, ∃ c, g.code = .done (.ok c) :=
  endedProgs_of_quiet G ps ((hs.loose (JLoose.init p hg)).1.quiet G hp)

/-- C57 for such programs: nothing that happened so far keeps the program from coming to its end. -/
theorem C57_adaptive_completes_other_calls (G : Growth) (p : JProg T) (hg : p.GoNoAppend) (s : JState T)
    (hs : JReach G (JState.init p) s) : ∃ s', JReach G s s' ∧ s'.prog = .stop := by
  refine finishes_of G JLoose (fun s s' h hst => (h.step hst).1) ?_ (fun s ps q h hp => h.quiet G hp) s.prog s.client s.mem
    (hs.loose (JLoose.init p hg)).1
  intro c H op p h
  obtain ⟨vw, S, B, hinv⟩ := h.inv
  obtain ⟨c1, H1, h1, _⟩ := perform_loose G op hinv
  exact ⟨c1, H1, h1⟩

end Sets

section Maps

variable {K V : Type} [GoKey K] [LawfulGoKey K] [Inhabited V] [GoKey V]

/-- What a program finds in its memory: as many maps and map builders as on values, and each with the count, the values and the
iteration of its value. -/
structure MapsAsValues (w : World (Entry K V)) (vw : VMaps K V) : Prop where
  maps : w.sets.length = vw.maps.length
  map : ∀ (i : Nat) (s : MTree), w.sets[i]? = some s → ∃ m : FMap K V, vw.maps[i]? = some m ∧ s.count = m.count ∧
    (∀ k, s.mapGet w.mem k = m.get k) ∧ ∃ l, s.elems w.mem = .ok l ∧ m.rangeList = .ok l
  builders : w.builders.length = vw.builders.length
  builder : ∀ (k : Nat) (b : MTree), w.builders[k]? = some b → ∃ t : MapBuilder K V, vw.builders[k]? = some t ∧ b.count = t.count ∧
    ∀ k, b.mapGet w.mem k = t.get k

theorem AsValues.maps {w : World (Entry K V)} {vw : VWorld (Entry K V)} {m : VMaps K V} (h : AsValues w vw) (hm : MapsAre m vw) :
    MapsAsValues w m := by
  refine ⟨?_, fun i s hs => ?_, ?_, ?_⟩
  · rw [h.sets, hm.sets, List.length_map]
  · obtain ⟨t, h1, h2, h3, l, h4, h5⟩ := h.set i s hs
    rw [hm.at, Option.map_eq_some_iff] at h1
    obtain ⟨x, hx, rfl⟩ := h1
    refine ⟨x, hx, h2, fun k => ?_, l, h4, h5⟩
    unfold MTree.mapGet FMap.get
    rw [h3]
  · rw [h.builders, hm.builders]
  · intro k b hb
    obtain ⟨t, h1, h2, h3, _⟩ := h.builder k b hb
    rw [hm.builders] at h1
    refine ⟨t, h1, h2, fun k => ?_⟩
    unfold MTree.mapGet MapBuilder.get
    rw [h3]

theorem VClient.par_maps {c : VMapClient K V} {d : VClient (Entry K V)} (h : ClientsAre c d) (ps : List (MGProg K V)) :
    ClientsAre (c.par ps) (d.par (ps.map MGProg.trees)) := by
  have hf : ∀ p : MGProg K V, ClientsAre (VMapClient.follow ⟨⟨c.world.maps, []⟩, []⟩ p) (VClient.follow ⟨⟨d.world.sets, []⟩, []⟩ p.trees) :=
    fun p => ClientsAre.follow p ⟨⟨h.world.sets, rfl⟩, rfl⟩
  have hlen : d.world.sets.length = c.world.maps.length := by rw [h.world.sets, List.length_map]
  refine ⟨?_, ?_⟩
  · have : ∀ (ps : List (MGProg K V)) (J : VMaps K V) (J' : VWorld (Entry K V)), MapsAre J J' → MapsAre
        (ps.foldl (fun J p =>
          let r := (VMapClient.follow ⟨⟨c.world.maps, []⟩, []⟩ p).world
          ⟨J.maps ++ r.maps.drop c.world.maps.length, J.builders ++ r.builders⟩) J)
        ((ps.map MGProg.trees).foldl (fun J p =>
          let r := (VClient.follow ⟨⟨d.world.sets, []⟩, []⟩ p).world
          ⟨J.sets ++ r.sets.drop d.world.sets.length, J.builders ++ r.builders⟩) J') := by
      intro ps
      induction ps with
      | nil => exact fun J J' hJ => hJ
      | cons p ps ih =>
        intro J J' hJ
        rw [List.map_cons, List.foldl_cons, List.foldl_cons]
        refine ih _ _ ⟨?_, ?_⟩
        · show J'.sets ++ _ = List.map _ (J.maps ++ _)
          rw [hJ.sets, List.map_append, List.map_drop, ← hlen, (hf p).world.sets]
        · show J'.builders ++ _ = J.builders ++ _
          rw [hJ.builders, (hf p).world.builders]
    exact this ps _ _ h.world
  · show List.map _ (d.seen ++ _) = c.seen ++ _
    rw [List.map_append, h.seen]
    congr 1
    induction ps with
    | nil => rfl
    | cons p ps ih => rw [List.map_cons, List.flatMap_cons, List.flatMap_cons, List.map_append, ih, (hf p).seen]

theorem ClientsAre.join (p : MJProg K V) : ∀ {c : VMapClient K V} {d : VClient (Entry K V)}, ClientsAre c d →
    ClientsAre (c.join p) (d.join p.trees) := by
  induction p with
  | stop => exact fun h => h
  | look k ih =>
    intro c d h
    show ClientsAre (c.join (k c.view)) (d.join (k d.view.ofMaps).trees)
    rw [h.view]
    exact ih _ h
  | act op p ih => exact fun h => ih (h.perform op)
  | par ps p ih => exact fun h => ih (VClient.par_maps h ps)

theorem uncrowdedJoin_trees (G : Growth) (p : MJProg K V) : ∀ (c : Client (Entry K V)) (H : Mem (Entry K V)), UncrowdedMapJoin G c H p →
    UncrowdedJoin G c H p.trees := by
  induction p with
  | stop => exact fun _ _ _ => trivial
  | look k ih => exact fun c H h => ih _ c H h
  | act op p ih =>
    intro c H h
    refine ⟨fun o ho => ?_, fun c' H' hp => ih c' H' (h.2 c' H' hp)⟩
    cases op with
    | call op =>
      cases ho
      show Uncrowded (c.world H) (op.callAt ((c.world H).sets.map (·.count)))
      rw [callAt_eq]
      exact uncrowded_call op (h.1 op rfl)
    | get i k => cases ho
    | range i => cases ho
    | equal i j => cases ho
  | par ps p ih =>
    intro c H h
    refine ⟨fun q hq => ?_, fun sched he => ih _ _ (h.2 sched he)⟩
    obtain ⟨q, hq', rfl⟩ := List.mem_map.1 hq
    exact uncrowded_trees G q _ _ (h.1 q hq')

/-- C69, the part that holds: when the program has ended, whatever the scheduler did, its maps and builders are those it has when every
map is a value of its own and the goroutines run one after the other, and so is what it and its goroutines have seen. Missing: programs
that add a key to a map having three other keys with the same 64-bit hash (`C69_refuted`). -/
theorem C69_values_partial (G : Growth) (p : MJProg K V) (hu : UncrowdedMapJoin G ⟨[], [], []⟩ ⟨[], [], []⟩ p) (s : JState (Entry K V))
    (hs : JReach G (JState.init p.trees) s) (hp : s.prog = .stop) :
    MapsAsValues s.world (VMapClient.join ⟨⟨[], []⟩, []⟩ p).world ∧
      s.client.seen.map Answer.ofMap = (VMapClient.join ⟨⟨[], []⟩, []⟩ p).seen := by
  obtain ⟨h1, h2⟩ := C57_adaptive_values G p.trees (uncrowdedJoin_trees G p _ _ hu) s hs hp
  have h3 : ClientsAre (VMapClient.join ⟨⟨[], []⟩, []⟩ p) (VClient.join ⟨⟨[], []⟩, []⟩ p.trees) := ClientsAre.join p ⟨⟨rfl, rfl⟩, rfl⟩
  exact ⟨h1.maps h3.world, by rw [h2, h3.seen]⟩

/-- C69, the part that holds: in every state there is at most one way to go on, so the scheduler has no influence. -/
theorem C69_schedule_partial (G : Growth) (p : MJProg K V) (hu : UncrowdedMapJoin G ⟨[], [], []⟩ ⟨[], [], []⟩ p)
    (s s1 s2 : JState (Entry K V)) (hs : JReach G (JState.init p.trees) s) (h1 : JStep G s s1) (h2 : JStep G s s2) : s1 = s2 :=
  C57_adaptive_schedule G p.trees (uncrowdedJoin_trees G p _ _ hu) s s1 s2 hs h1 h2

/-- C69, the part that holds: every map the program holds, made by itself or taken over, keeps its place, its answers and its iteration,
whatever it and its goroutines do afterwards. -/
theorem C69_keeps_partial (G : Growth) (p : MJProg K V) (hu : UncrowdedMapJoin G ⟨[], [], []⟩ ⟨[], [], []⟩ p) (s s' : JState (Entry K V))
    (hs : JReach G (JState.init p.trees) s) (hs' : JReach G s s') (i : Nat) (t : MTree) (ht : s.client.sets[i]? = some t) :
    s'.client.sets[i]? = some t ∧ SameView s.mem s'.mem t :=
  C57_adaptive_keeps G p.trees (uncrowdedJoin_trees G p _ _ hu) s s' hs hs' i t ht

/-- C69, the part that holds: waiting comes to an end: all goroutines have ended, without a panic, once each has had enough turns. -/
theorem C69_ends_partial (G : Growth) (p : MJProg K V) (hu : UncrowdedMapJoin G ⟨[], [], []⟩ ⟨[], [], []⟩ p) (s : JState (Entry K V))
    (hs : JReach G (JState.init p.trees) s) (ps : List (GProg (Entry K V))) (q : JProg (Entry K V)) (hp : s.prog = .par ps q) :
    ∃ n, ∀ sched : List Nat, (∀ i < ps.length, n ≤ sched.count i) →
      ∀ g ∈ ((forkProgs G s.world ps).run sched).gs, ∃ c, g.code = .done (.ok c) :=
  C57_adaptive_ends G p.trees (uncrowdedJoin_trees G p _ _ hu) s hs ps q hp

/-- C69, the part that holds: nothing that happened so far keeps the program from coming to its end. -/
theorem C69_completes_partial (G : Growth) (p : MJProg K V) (hu : UncrowdedMapJoin G ⟨[], [], []⟩ ⟨[], [], []⟩ p) (s : JState (Entry K V))
    (hs : JReach G (JState.init p.trees) s) : ∃ s', JReach G s s' ∧ s'.prog = .stop :=
  C57_adaptive_completes G p.trees (uncrowdedJoin_trees G p _ _ hu) s hs

theorem uncrowdedMapJoin_of_few (hK : FewCollisions K) (G : Growth) (p : MJProg K V) : ∀ (c : Client (Entry K V)) (H : Mem (Entry K V)),
    UncrowdedMapJoin G c H p := by
  induction p with
  | stop => exact fun _ _ => trivial
  | look k ih => exact fun c H => ih _ c H
  | act op p ih => exact fun c H => ⟨fun o _ => uncrowdedMap_few hK _ o, fun c' H' _ => ih c' H'⟩
  | par ps p ih => exact fun c H => ⟨fun q _ => uncrowdedMapProg_of_few hK G q _ _, fun _ _ => ih _ _⟩

/-- C69 for key types whose hash has few collisions: every program. -/
theorem C69_few_collisions_partial (hK : FewCollisions K) (G : Growth) (p : MJProg K V) (s : JState (Entry K V))
    (hs : JReach G (JState.init p.trees) s) (hp : s.prog = .stop) :
    MapsAsValues s.world (VMapClient.join ⟨⟨[], []⟩, []⟩ p).world ∧
      s.client.seen.map Answer.ofMap = (VMapClient.join ⟨⟨[], []⟩, []⟩ p).seen :=
  C69_values_partial G p (uncrowdedMapJoin_of_few hK G p _ _) s hs hp

theorem goNoAppend_trees (p : MJProg K V) (h : p.GoNoAppend) : p.trees.GoNoAppend := by
  induction p with
  | stop => trivial
  | look k ih => exact fun v => ih _ (h _)
  | act op p ih => exact fun v => ih h
  | par ps p ih =>
    refine ⟨fun q hq => ?_, ih h.2⟩
    obtain ⟨q, hq', rfl⟩ := List.mem_map.1 hq
    exact noAppend_trees q (h.1 q hq')

/-- C69 for programs in which only the main goroutine calls `With`, `Merge` and `Update`, on any maps whatsoever: the scheduler has no
influence. -/
theorem C69_schedule_other_calls (G : Growth) (p : MJProg K V) (hg : p.GoNoAppend) (s s1 s2 : JState (Entry K V))
    (hs : JReach G (JState.init p.trees) s) (h1 : JStep G s s1) (h2 : JStep G s s2) : s1 = s2 :=
  C57_adaptive_schedule_other_calls G p.trees (goNoAppend_trees p hg) s s1 s2 hs h1 h2

/-- C69 for such programs: from a state on in which nobody will call `With`, `Merge` or `Update`, every map keeps its place, its answers
and its iteration. -/
theorem C69_keeps_other_calls (G : Growth) (p : MJProg K V) (hg : p.GoNoAppend) (s s' : JState (Entry K V))
    (hs : JReach G (JState.init p.trees) s) (hn : s.prog.NoAppend) (hs' : JReach G s s') (i : Nat) (t : MTree)
    (ht : s.client.sets[i]? = some t) : s'.client.sets[i]? = some t ∧ SameView s.mem s'.mem t :=
  C57_adaptive_keeps_other_calls G p.trees (goNoAppend_trees p hg) s s' hs hn hs' i t ht

/-- C69 for such programs: nothing that happened so far keeps the program from coming to its end. -/
theorem C69_completes_other_calls (G : Growth) (p : MJProg K V) (hg : p.GoNoAppend) (s : JState (Entry K V))
    (hs : JReach G (JState.init p.trees) s) : ∃ s', JReach G s s' ∧ s'.prog = .stop :=
  C57_adaptive_completes_other_calls G p.trees (goNoAppend_trees p hg) s hs

end Maps

section Runs

variable {T : Type} [GoKey T] [LawfulGoKey T]

/-- Run the program, with the given schedules while waiting. -/
def execJ (G : Growth) (c : Client T) (H : Mem T) : JProg T → List (List Nat) → Option (Client T × Mem T)
  | .stop, _ => some (c, H)
  | .look k, scheds => execJ G c H (k c.view) scheds
  | .act op p, scheds =>
    match c.perform G op H with
    | (.ok c', H') => execJ G c' H' p scheds
    | (.error _, _) => none
  | .par _ _, [] => none
  | .par ps p, sched :: scheds =>
    match (forkProgs G ⟨H, c.sets, c.builders⟩ ps).run sched with
    | m => if m.ended then execJ G (JState.joined c H m p).client (JState.joined c H m p).mem p scheds else none

theorem execJ_reach (G : Growth) (p : JProg T) : ∀ (c : Client T) (H : Mem T) (scheds : List (List Nat)) (c' : Client T) (H' : Mem T),
    execJ G c H p scheds = some (c', H') → JReach G ⟨c, H, p⟩ ⟨c', H', .stop⟩ := by
  induction p with
  | stop => intro c H scheds c' H' h; unfold execJ at h; cases h; exact .refl
  | look k ih => exact fun c H scheds c' H' h => .head (.look c H k) (ih _ c H scheds c' H' (by unfold execJ at h; exact h))
  | act op p ih =>
    intro c H scheds c' H' h
    unfold execJ at h
    split at h
    · rename_i c1 H1 h1
      exact .head (.act p h1) (ih _ _ _ _ _ h)
    · cases h
  | par ps p ih =>
    intro c H scheds c' H' h
    cases scheds with
    | nil => unfold execJ at h; cases h
    | cons sched scheds =>
      unfold execJ at h
      dsimp only at h
      split at h
      · rename_i he
        exact .head (.par p sched (Machine.of_ended he)) (ih _ _ _ _ _ h)
      · cases h

/-- The program comes to an end with the given schedules, and then the check succeeds. -/
def endsWith (G : Growth) (p : JProg T) (scheds : List (List Nat)) (f : JState T → Bool) : Bool :=
  (execJ G ⟨[], [], []⟩ ⟨[], [], []⟩ p scheds).any (fun r => f ⟨r.1, r.2, .stop⟩)

theorem of_endsWith {G : Growth} {p : JProg T} {scheds : List (List Nat)} {f : JState T → Bool} (h : endsWith G p scheds f = true) :
    ∃ s, JReach G (JState.init p) s ∧ s.prog = .stop ∧ f s = true := by
  unfold endsWith at h
  cases hx : execJ G ⟨[], [], []⟩ ⟨[], [], []⟩ p scheds with
  | none => rw [hx] at h; cases h
  | some r =>
    rw [hx] at h
    exact ⟨⟨r.1, r.2, .stop⟩, execJ_reach G p _ _ _ _ _ hx, rfl, h⟩

end Runs

/-! ## The property fails when somebody adds to a crowded map -/

/-- Perform the calls, then go on. -/
def callsThen {K V : Type} (ops : List (MOp K V)) (p : MJProg K V) : MJProg K V := ops.foldr (fun op p => .act (.call op) p) p

/-- The values found by lookups. -/
def valuesSeen {K V : Type} (s : JState (Entry K V)) : List (Option V) :=
  (s.client.seen.map Answer.ofMap).flatMap MAnswer.values

/-- The program makes a map of four keys with one hash, and two goroutines each add a key to it. Then it looks the keys up in what it has
taken over. -/
def crowdedJoin : MJProg Coll Nat :=
  callsThen crowdedMapStart (.par [.act (.call (.with 4 ⟨5⟩ 50)) .stop, .act (.call (.with 4 ⟨6⟩ 60)) .stop]
    (.act (.get 5 ⟨5⟩) (.act (.get 6 ⟨6⟩) .stop)))

/-- C69 is false of the code: of the maps that the two goroutines return, the first has lost the key that was added to it. On values
it has it. -/
theorem C69_refuted : ∃ (p : MJProg Coll Nat) (s : JState (Entry Coll Nat)), JReach goGrowth (JState.init p.trees) s ∧ s.prog = .stop ∧
    valuesSeen s = [none, some 60] ∧ (VMapClient.join ⟨⟨[], []⟩, []⟩ p).seen.flatMap MAnswer.values = [some 50, some 60] := by
  have h : endsWith goGrowth crowdedJoin.trees [List.replicate 60 0 ++ List.replicate 60 1]
      (fun s => decide (valuesSeen s = [none, some 60])) = true := by decide +kernel
  obtain ⟨s, h1, h2, h3⟩ := of_endsWith h
  exact ⟨crowdedJoin, s, h1, h2, of_decide_eq_true h3, by decide +kernel⟩

/-! ## The hypotheses can be met -/

/-- Two goroutines work on shared maps, one of them filling a builder as well; the program decides by what they have found how to merge
what they have made, puts more into the builder it has taken over, and starts two more goroutines. -/
def joinExample : MJProg Mod100 Nat :=
  callsThen mixedMapHistory (.par [mapDecider ⟨55⟩, .act (.get 1 ⟨50⟩) (.act (.call .newBuilder) (.act (.call (.put 0 ⟨9⟩ 90)) .stop))]
    (.look (fun v =>
      if v.seen.flatMap MAnswer.values = [none, some 99, some 20, some 500] then
        .act (.call (.put 1 ⟨8⟩ 80)) (.act (.call (.finish 1)) (.act (.call (.update 6 7))
          (.par [.act (.get 8 ⟨9⟩) .stop, .act (.call (.without 8 ⟨55⟩)) (.act (.get 9 ⟨55⟩) .stop)]
            (.act (.get 8 ⟨8⟩) (.act (.get 8 ⟨55⟩) (.act (.get 9 ⟨55⟩) .stop))))))
      else .stop)))

/-- With two different schedules the program ends, and has seen the same: 90 is what a goroutine put into the builder, 80 what the program
added to it, 99 what another goroutine added. -/
example : ∃ s, JReach goGrowth (JState.init joinExample.trees) s ∧ s.prog = .stop ∧
    decide (valuesSeen s = [none, some 99, some 20, some 500, some 90, none, some 80, some 99, none]) = true :=
  of_endsWith (scheds := [turns 100, oneByOne 40]) (by decide +kernel)

example : ∃ s, JReach goGrowth (JState.init joinExample.trees) s ∧ s.prog = .stop ∧
    decide (valuesSeen s = [none, some 99, some 20, some 500, some 90, none, some 80, some 99, none]) = true :=
  of_endsWith (scheds := [oneByOne 100, turns 40]) (by decide +kernel)

example : (VMapClient.join ⟨⟨[], []⟩, []⟩ joinExample).seen.flatMap MAnswer.values =
    [none, some 99, some 20, some 500, some 90, none, some 80, some 99, none] := by decide +kernel

example : UncrowdedMapJoin goGrowth ⟨[], [], []⟩ ⟨[], [], []⟩ joinExample := uncrowdedMapJoin_of_few mod100_few _ _ _ _

/-- The same for sets: two goroutines each add an element; the program unites what they have made if both have found what they looked
for. -/
def joinSets : JProg Mod100 :=
  .act (.call .empty) (.act (.call (.with 0 ⟨1⟩)) (.par [.act (.call (.with 1 ⟨2⟩)) (.act (.get 2 ⟨102⟩) .stop),
    .act (.call (.with 1 ⟨3⟩)) (.act (.get 2 ⟨3⟩) .stop)]
    (.look (fun v => if v.seen.map Answer.size = [1, 1] then .act (.call (HOp.union 2 3)) (.act (.range 4) .stop) else .stop))))

theorem joinSets_mergesOk : joinSets.MergesOk := by
  refine ⟨fun o ho => by cases ho; trivial, fun o ho => by cases ho; trivial, fun p hp => ?_, fun v => ?_⟩
  · rcases List.mem_cons.1 hp with rfl | hp
    · exact ⟨fun o ho => by cases ho; trivial, fun o ho => (nomatch ho), trivial⟩
    · rw [List.mem_singleton.1 hp]
      exact ⟨fun o ho => by cases ho; trivial, fun o ho => (nomatch ho), trivial⟩
  · dsimp only
    split
    · exact ⟨fun o ho => by cases ho; exact fun a b h => PerGoKey.symm h, fun o ho => (nomatch ho), trivial⟩
    · trivial

example : ∃ s, JReach goGrowth (JState.init joinSets) s ∧ s.prog = .stop ∧
    decide (s.client.seen.map Answer.size = [1, 1, 3]) = true :=
  of_endsWith (scheds := [turns 40]) (by decide +kernel)

example : UncrowdedJoin goGrowth ⟨[], [], []⟩ ⟨[], [], []⟩ joinSets := uncrowdedJoin_of_few mod100_few _ _ _ _ joinSets_mergesOk

/-- The main goroutine spoils a crowded map; its goroutines look up, remove and build. -/
def joinDamaged : MJProg Coll Nat :=
  callsThen (crowdedMapStart ++ [.with 4 ⟨5⟩ 50, .with 4 ⟨6⟩ 60]) (.par [.act (.get 5 ⟨5⟩) (.act (.call (.without 5 ⟨6⟩)) .stop),
    .act (.call .newBuilder) (.act (.call (.put 0 ⟨9⟩ 90)) (.act (.call (.finish 0)) .stop))] (.act (.get 7 ⟨1⟩) (.act (.get 8 ⟨9⟩) .stop)))

example : joinDamaged.GoNoAppend := by
  refine ⟨fun p hp => ?_, trivial⟩
  rcases List.mem_cons.1 hp with rfl | hp
  · exact ⟨fun o ho => (nomatch ho), fun o ho => by cases ho; rfl, trivial⟩
  · rw [List.mem_singleton.1 hp]
    exact ⟨fun o ho => by cases ho; rfl, fun o ho => by cases ho; rfl, fun o ho => by cases ho; rfl, trivial⟩

example : ∃ s, JReach goGrowth (JState.init joinDamaged.trees) s ∧ s.prog = .stop ∧
    decide (valuesSeen s = [none, some 10, some 90]) = true :=
  of_endsWith (scheds := [List.replicate 400 0 ++ List.replicate 40 1]) (by decide +kernel)

end Frozen
