import Verif.Proof.MemParOps
import Verif.Proof.MemHistory

/-! Histories of calls that run goroutines. -/

set_option linter.unusedSectionVars false

namespace Frozen

variable {T : Type}

theorem PCall.outcome_eq {x : PCall T} {H : Mem T} (hq : x.code.Quiet H H) {sched : List (List (Fin 8))} {r : Go MTree × Mem T}
    (h : x.outcome H sched = some r) : r = x.eval H := by
  obtain ⟨h1, n', h2, _, _⟩ := PSt.Good.exec sched hq.start
  unfold PCall.outcome at h
  dsimp only at h
  obtain ⟨r', hr', rfl⟩ := Option.map_eq_some_iff.1 h
  obtain ⟨e1, _⟩ := h2.result hr'
  have h1' : (PSt.exec (PSt.start x.code H) sched).2 = H := h1
  unfold PCall.eval
  rw [e1, h1']
  rfl

variable [GoKey T] [LawfulGoKey T]

theorem StepOk.csim {strict : Bool} {w : World T} {vw : VWorld T} {S : Set Loc} {B : Nat → Set Loc}
    (h : HistInv strict w vw S B) {op : HOp T} {x : PCall T} {v : Go (Tree T)} (hx : CSim w.mem S x v)
    (hv : strict = true → ∀ t, v = .ok t → t.Valid) :
    StepOk strict w S B op (w.push (x.eval w.mem)) (vw.push v) := by
  obtain ⟨hq, hr⟩ := hx
  have hc : Changes ∅ w.mem (x.eval w.mem).2 := hq.changes
  have hmem : (w.push (x.eval w.mem)).mem = (x.eval w.mem).2 := by unfold World.push; cases (x.eval w.mem).1 <;> rfl
  have hbl : (w.push (x.eval w.mem)).builders = w.builders := by unfold World.push; cases (x.eval w.mem).1 <;> rfl
  refine ⟨⟨_, _, ⟨Set.subset_union_left, fun l hl => hl.imp id (fun h => .inr h.1), fun _ _ h => .inl h⟩,
    h.push hc (fun _ h => h.elim) (fun _ => rfl) ?_ ?_⟩, ⟨∅, by rw [hmem]; exact hc, fun _ _ _ h => h, fun _ _ _ _ h => h, fun _ _ h => h⟩,
    fun i s hs => World.push_sets hs, fun k b _ hb => by rw [hbl]; exact hb⟩
  · intro t ht
    rw [ht] at hr
    cases v with
    | error e => exact hr.elim
    | ok t' =>
      refine ⟨t'.root, hr.2, fun hs => ?_⟩
      have : t' = t.val t'.root := by
        have h1 : t.count = t'.count := hr.1
        cases t'; simp only [MTree.val, h1]
      rw [← this]
      exact ⟨rfl, hv hs t' rfl⟩
  · intro _ e he
    rw [he] at hr
    cases v with
    | ok t' => exact hr.elim
    | error e' => obtain rfl : e = e' := hr; rfl

/-- The code of a call that runs goroutines is quiet, and what it comes to is one step of the history. -/
theorem code_ok (G : Growth) {strict : Bool} {w : World T} {vw : VWorld T} {S : Set Loc} {B : Nat → Set Loc}
    (h : HistInv strict w vw S B) (c : GCall T) (hu : strict = true → Uncrowded w c.op) (hm : strict = true ∨ c.op.isMerge = false)
    {x : PCall T} (hx : w.code G c = some x) :
    x.code.Quiet w.mem w.mem ∧ StepOk strict w S B c.op (w.push (x.eval w.mem)) (vw.step c.op) := by
  obtain ⟨op, gauge, sched⟩ := c
  cases op with
  | «where» i p =>
    obtain ⟨s, hs, rfl⟩ := Option.map_eq_some_iff.1 (show w.sets[i]?.map (fun s => s.whereP G gauge p) = some x from hx)
    obtain ⟨n, hr, hv⟩ := h.sets i s hs
    have hcs := MTree.whereP_sim G gauge hr h.live p
    refine ⟨hcs.1, ?_⟩
    cases strict with
    | false =>
      exact (StepOk.csim h hcs (nomatch ·)).loose ((vw.on_builders i (fun s => s.where p)).trans (vw.push_builders _).symm)
    | true =>
      have hw : vw.step (.where i p) = vw.push ((s.val n).where p) := by
        show vw.on i (fun s => s.where p) = _
        unfold VWorld.on; rw [(hv rfl).1]
      rw [hw]
      refine StepOk.csim h hcs (fun _ t ht => ?_)
      obtain ⟨t', h1, h2, _⟩ := Tree.where_spec (hv rfl).2 p
      rw [h1] at ht; cases ht; exact h2
  | difference i j =>
    obtain ⟨s, hs, hx⟩ := Option.bind_eq_some_iff.1 (show w.sets[i]?.bind (fun s => w.sets[j]?.map (fun t => s.differenceP G gauge t)) = some x from hx)
    obtain ⟨t, ht, rfl⟩ := Option.map_eq_some_iff.1 hx
    obtain ⟨n, hr, hv⟩ := h.sets i s hs
    obtain ⟨m, hr2, hv2⟩ := h.sets j t ht
    have hcs := MTree.differenceP_sim G gauge hr hr2 h.live
    refine ⟨hcs.1, ?_⟩
    cases strict with
    | false =>
      exact (StepOk.csim h hcs (nomatch ·)).loose ((vw.on2_builders i j (fun s t => s.difference t)).trans (vw.push_builders _).symm)
    | true =>
      have hw : vw.step (.difference i j) = vw.push ((s.val n).difference (t.val m)) := by
        show vw.on2 i j (fun s t => s.difference t) = _
        unfold VWorld.on2; rw [(hv rfl).1, (hv2 rfl).1]
      rw [hw]
      refine StepOk.csim h hcs (fun _ t ht => ?_)
      obtain ⟨t', h1, h2, _⟩ := Tree.difference_spec (hv rfl).2 (hv2 rfl).2
      rw [h1] at ht; cases ht; exact h2
  | intersection i j =>
    obtain ⟨s, hs, hx⟩ := Option.bind_eq_some_iff.1 (show w.sets[i]?.bind (fun s => w.sets[j]?.map (fun t => s.intersectionP G gauge t)) = some x from hx)
    obtain ⟨t, ht, rfl⟩ := Option.map_eq_some_iff.1 hx
    obtain ⟨n, hr, hv⟩ := h.sets i s hs
    obtain ⟨m, hr2, hv2⟩ := h.sets j t ht
    have hcs := MTree.intersectionP_sim G gauge hr hr2 h.live
    refine ⟨hcs.1, ?_⟩
    cases strict with
    | false =>
      exact (StepOk.csim h hcs (nomatch ·)).loose ((vw.on2_builders i j (fun s t => s.intersection t)).trans (vw.push_builders _).symm)
    | true =>
      have hw : vw.step (.intersection i j) = vw.push ((s.val n).intersection (t.val m)) := by
        show vw.on2 i j (fun s t => s.intersection t) = _
        unfold VWorld.on2; rw [(hv rfl).1, (hv2 rfl).1]
      rw [hw]
      refine StepOk.csim h hcs (fun _ t ht => ?_)
      obtain ⟨t', h1, h2, _⟩ := Tree.intersection_spec (hv rfl).2 (hv2 rfl).2
      rw [h1] at ht; cases ht; exact h2
  | merge i j f =>
    obtain rfl : strict = true := hm.resolve_right (by simp [HOp.isMerge])
    obtain ⟨s, hs, hx⟩ := Option.bind_eq_some_iff.1 (show w.sets[i]?.bind (fun s => w.sets[j]?.map (fun t => s.combineP G gauge ⟨GoKey.eq, f⟩ t)) = some x from hx)
    obtain ⟨t, ht, rfl⟩ := Option.map_eq_some_iff.1 hx
    obtain ⟨n, hr, hv⟩ := h.sets i s hs
    obtain ⟨m, hr2, hv2⟩ := h.sets j t ht
    have hw : vw.step (.merge i j f) = vw.push ((s.val n).combine ⟨GoKey.eq, f⟩ (t.val m)) := by
      show vw.on2 i j (fun s t => s.combine ⟨GoKey.eq, f⟩ t) = _
      unfold VWorld.on2; rw [(hv rfl).1, (hv2 rfl).1]
    have hV := (hv rfl).2
    have hV2 := (hv2 rfl).2
    obtain ⟨hf, hcr⟩ := hu rfl
    have hsafe : SafeAt 0 (memL (elems n)) (memL (elems m)) := by
      intro e he hc
      rcases hcr s t hs ht e with hh | hh
      · rw [tree_has hr hV, tree_has hr2 hV2] at hh
        rcases he with he | he
        · exact he.2 (hh.1 he.1)
        · exact he.2 (hh.2 he.1)
      · exact hh ((crowded_iff (fun u => by rw [tree_has hr hV, tree_has hr2 hV2]) e).2 hc)
    have hcs := MTree.combineP_sim G gauge hr hr2 h.live ⟨GoKey.eq, f⟩ (combineSafe_of (args := ⟨GoKey.eq, f⟩) rfl hf n 0 m hV.wf hV2.wf hsafe)
    rw [hw]
    refine ⟨hcs.1, StepOk.csim h hcs (fun _ t ht => ?_)⟩
    have hsp := Tree.combine_spec hV hV2 (args := ⟨GoKey.eq, f⟩) rfl hf
    by_cases hcl : Clash n m
    · rw [hsp.1 hcl] at ht; cases ht
    · obtain ⟨t', h1, h2, _⟩ := hsp.2 hcl
      rw [h1] at ht; cases ht; exact h2
  | _ => cases hx

theorem gstep_ok (G : Growth) {strict : Bool} {w : World T} {vw : VWorld T} {S : Set Loc} {B : Nat → Set Loc}
    (h : HistInv strict w vw S B) (c : GCall T) (hu : strict = true → Uncrowded w c.op) (hm : strict = true ∨ c.op.isMerge = false)
    (hr : w.Returns G c) : StepOk strict w S B c.op (w.gstep G c) (vw.step c.op) := by
  unfold World.gstep
  cases hx : w.code G c with
  | none => exact step_ok G h c.op hu
  | some x =>
    obtain ⟨hq, hs⟩ := code_ok G h c hu hm hx
    obtain ⟨r, ho⟩ := Option.isSome_iff_exists.1 (hr x hx)
    dsimp only
    rw [ho, PCall.outcome_eq hq ho]
    exact hs

theorem gruns_inv (G : Growth) {strict : Bool} : ∀ (cs : List (GCall T)) {w : World T} {vw : VWorld T} {S : Set Loc} {B : Nat → Set Loc},
    HistInv strict w vw S B → (strict = true → UncrowdedCalls G w cs) → (strict = true ∨ ∀ c ∈ cs, c.op.isMerge = false) →
    AllReturn G w cs → ∃ S' B', HistInv strict (w.gruns G cs) (vw.run (cs.map (·.op))) S' B'
  | [], _, _, S, B, h, _, _, _ => ⟨S, B, h⟩
  | c :: cs, w, vw, S, B, h, hu, hm, hr => by
    obtain ⟨⟨S', B', _, h'⟩, _⟩ := gstep_ok G h c (fun hs => (hu hs).1) (hm.imp id (fun h => h c (by simp))) hr.1
    exact gruns_inv G cs h' (fun hs => (hu hs).2) (hm.imp id (fun h c hc => h c (by simp [hc]))) hr.2

theorem gruns_view (G : Growth) {strict : Bool} : ∀ (cs : List (GCall T)) {w : World T} {vw : VWorld T} {S : Set Loc} {B : Nat → Set Loc},
    HistInv strict w vw S B → (strict = true → UncrowdedCalls G w cs) → (strict = true ∨ ∀ c ∈ cs, c.op.mayAppend = false) →
    AllReturn G w cs → ∀ {i : Nat} {s : MTree}, w.sets[i]? = some s →
    (w.gruns G cs).sets[i]? = some s ∧ SameView w.mem (w.gruns G cs).mem s
  | [], w, _, _, _, h, _, _, _, i, s, hs => by
    obtain ⟨n, hn, _⟩ := h.sets i s hs
    exact ⟨hs, sameView_of hn hn⟩
  | c :: cs, w, vw, S, B, h, hu, hm, hr, i, s, hs => by
    have hm' : strict = true ∨ c.op.mayAppend = false := hm.imp id (fun h => h c (by simp))
    have hst := gstep_ok G h c (fun hs => (hu hs).1) (hm'.imp id (fun h => by cases hc : c.op <;> rw [hc] at h <;> first | rfl | cases h)) hr.1
    have hv := hst.view h hm'.symm hs
    have hsets := hst.sets i s hs
    obtain ⟨⟨S', B', _, h'⟩, _⟩ := hst
    obtain ⟨h1, h2⟩ := gruns_view G cs h' (fun hs => (hu hs).2) (hm.imp id (fun h c hc => h c (by simp [hc]))) hr.2 hsets
    exact ⟨h1, hv.trans h2⟩

theorem gruns_append (G : Growth) (w : World T) (cs cs' : List (GCall T)) :
    w.gruns G (cs ++ cs') = (w.gruns G cs).gruns G cs' := List.foldl_append

theorem uncrowdedCalls_append (G : Growth) : ∀ (cs cs' : List (GCall T)) (w : World T), UncrowdedCalls G w (cs ++ cs') →
    UncrowdedCalls G w cs ∧ UncrowdedCalls G (w.gruns G cs) cs'
  | [], _, _, h => ⟨trivial, h⟩
  | c :: cs, cs', w, h => by
    obtain ⟨h1, h2⟩ := uncrowdedCalls_append G cs cs' _ h.2
    exact ⟨⟨h.1, h1⟩, h2⟩

theorem allReturn_append (G : Growth) : ∀ (cs cs' : List (GCall T)) (w : World T), AllReturn G w (cs ++ cs') →
    AllReturn G w cs ∧ AllReturn G (w.gruns G cs) cs'
  | [], _, _, h => ⟨trivial, h⟩
  | c :: cs, cs', w, h => by
    obtain ⟨h1, h2⟩ := allReturn_append G cs cs' _ h.2
    exact ⟨⟨h.1, h1⟩, h2⟩

theorem code_congr (G : Growth) (w : World T) {c c' : GCall T} (ho : c.op = c'.op) (hg : c.gauge = c'.gauge) : w.code G c = w.code G c' := by
  unfold World.code
  rw [ho, hg]

/-- With the same calls and gauges, the schedules make no difference. -/
theorem gruns_schedule (G : Growth) {strict : Bool} : ∀ (cs cs' : List (GCall T)) {w : World T} {vw : VWorld T} {S : Set Loc}
    {B : Nat → Set Loc}, HistInv strict w vw S B → (strict = true → UncrowdedCalls G w cs) →
    (strict = true ∨ ∀ c ∈ cs, c.op.isMerge = false) → AllReturn G w cs → AllReturn G w cs' →
    cs.map (fun c => (c.op, c.gauge)) = cs'.map (fun c => (c.op, c.gauge)) → w.gruns G cs = w.gruns G cs'
  | [], [], _, _, _, _, _, _, _, _, _, _ => rfl
  | [], _ :: _, _, _, _, _, _, _, _, _, _, he => by cases he
  | _ :: _, [], _, _, _, _, _, _, _, _, _, he => by cases he
  | c :: cs, c' :: cs', w, vw, S, B, h, hu, hm, hr, hr', he => by
    simp only [List.map_cons, List.cons.injEq, Prod.mk.injEq] at he
    obtain ⟨⟨ho, hg⟩, he⟩ := he
    have hm' := hm.imp id (fun h => h c (by simp))
    have hstep : w.gstep G c = w.gstep G c' := by
      have hr1 := hr.1
      have hr2 := hr'.1
      unfold World.Returns at hr1 hr2
      unfold World.gstep
      rw [← code_congr G w ho hg] at hr2 ⊢
      cases hx : w.code G c with
      | none => dsimp only; rw [ho]
      | some x =>
        obtain ⟨hq, _⟩ := code_ok G h c (fun hs => (hu hs).1) hm' hx
        obtain ⟨r, e1⟩ := Option.isSome_iff_exists.1 (hr1 x hx)
        obtain ⟨r', e2⟩ := Option.isSome_iff_exists.1 (hr2 x hx)
        dsimp only
        rw [e1, e2, PCall.outcome_eq hq e1, PCall.outcome_eq hq e2]
    obtain ⟨⟨S', B', _, h'⟩, _⟩ := gstep_ok G h c (fun hs => (hu hs).1) hm' hr.1
    show (w.gstep G c).gruns G cs = (w.gstep G c').gruns G cs'
    have hrr : AllReturn G (w.gstep G c') cs' := hr'.2
    rw [← hstep] at hrr ⊢
    exact gruns_schedule G cs cs' h' (fun hs => (hu hs).2) (hm.imp id (fun h c hc => h c (by simp [hc]))) hr.2 hrr he

end Frozen
