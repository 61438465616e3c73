import Verif.Proof.IterHist
import Verif.Proof.MapValues
import Verif.Props.MapWork
import Verif.Props.Adaptive
import Verif.Spec.MapIter

/-! Histories with map iterators. -/

set_option linter.unusedSectionVars false

namespace Frozen

variable {K V : Type} [GoKey K] [LawfulGoKey K] [Inhabited K] [Inhabited V]

theorem IInv.reset {T : Type} [GoKey T] [LawfulGoKey T] {w : IWorld T} {lw : LWorld T} {S : Set Loc} {B : Nat → Set Loc}
    (h : IInv true w lw S B) : IInv true ⟨w.world, w.iters, []⟩ ⟨lw.world, lw.iters, []⟩ S B :=
  ⟨h.inv, h.iters, h.ilen, fun _ => rfl, fun _ _ h => nomatch h⟩

/-- What holds after any number of calls. -/
def MIInv (w : MIWorld K V) (lw : LMWorld K V) : Prop :=
  ∃ vw S B, IInv true ⟨w.world, w.iters.map (·.i), []⟩ ⟨vw, lw.iters, []⟩ S B ∧ MapsAre lw.maps vw ∧
    (∀ (j : Nat) (it : MMapIter K V) (l : ListIter (Entry K V)), w.iters[j]? = some it → lw.iters[j]? = some l → it.entry = l.entry) ∧
    w.seen = lw.seen

theorem MIInv.init : MIInv (MIWorld.init : MIWorld K V) LMWorld.init :=
  ⟨⟨[], []⟩, _, _, IInv.init true, ⟨rfl, rfl⟩, fun j it l h => by simp [MIWorld.init] at h, rfl⟩

theorem MIInv.noIter {w : MIWorld K V} {lw : LMWorld K V} (h : MIInv w lw) {j : Nat} (hj : w.iters[j]? = none) : lw.iters[j]? = none := by
  obtain ⟨vw, S, B, h1, _⟩ := h
  have := h1.ilen rfl
  rw [List.getElem?_eq_none_iff] at hj ⊢
  simp only [List.length_map] at this
  omega

theorem MIInv.anIter {w : MIWorld K V} {lw : LMWorld K V} (h : MIInv w lw) {j : Nat} {it : MMapIter K V} (hj : w.iters[j]? = some it) :
    ∃ l, lw.iters[j]? = some l := by
  obtain ⟨vw, S, B, h1, _⟩ := h
  have := h1.ilen rfl
  have h2 := (List.getElem?_eq_some_iff.1 hj).1
  simp only [List.length_map] at this
  exact ⟨_, List.getElem?_eq_getElem (by omega)⟩

omit [GoKey K] [LawfulGoKey K] in
theorem entry_next_true (l : ListIter (Entry K V)) (h : l.next.2 = true) (e : Entry K V) (he : l.next.1.value = some e) :
    l.next.1.entry = (e.key, e.value) := by
  simp only [ListIter.next, decide_eq_true_eq] at h
  simp only [ListIter.next, ListIter.value, Nat.add_eq_zero_iff, Nat.succ_ne_self, and_false, if_false, Nat.add_sub_cancel] at he
  simp only [ListIter.entry, ListIter.next]
  have : (l.elems.take (l.calls + 1)).getLast? = some e := by
    rw [List.getLast?_eq_getElem?, List.length_take, Nat.min_eq_left (by omega), Nat.add_sub_cancel, List.getElem?_take, if_pos (by omega)]
    simpa using he
  rw [this]

omit [GoKey K] [LawfulGoKey K] in
theorem entry_next_false (l : ListIter (Entry K V)) (h : l.next.2 = false) : l.next.1.entry = l.entry := by
  simp only [ListIter.next, decide_eq_false_iff_not, Nat.not_lt] at h
  simp only [ListIter.entry, ListIter.next]
  rw [List.take_of_length_le (by omega), List.take_of_length_le (by omega)]

omit [GoKey K] [LawfulGoKey K] [Inhabited K] [Inhabited V] in
theorem value_next (l : ListIter (Entry K V)) (h : l.next.2 = true) : ∃ e, l.next.1.value = some e := by
  simp only [ListIter.next, decide_eq_true_eq] at h
  refine ⟨l.elems[l.calls], ?_⟩
  show (if l.calls + 1 = 0 then none else l.elems[l.calls + 1 - 1]?) = _
  rw [if_neg (by omega), Nat.add_sub_cancel]
  exact List.getElem?_eq_getElem h

theorem MIInv.step (G : Growth) {w : MIWorld K V} {lw : LMWorld K V} (h : MIInv w lw) (op : MIOp K V)
    (hu : ∀ o, op = .call o → UncrowdedMap w.world o) :
    MIInv (w.step G op) (lw.step op) ∧ ((w.step G op).world = match op with | .call o => w.world.step G (o.call w.world) | _ => w.world) := by
  have h0 := h
  obtain ⟨vw, S, B, hI, hM, hE, hS⟩ := h
  cases op with
  | call o =>
    obtain ⟨⟨S', B', _, h'⟩, _⟩ := istep_ok G hI (.call (o.call w.world)) (fun _ o' ho' => by cases ho'; exact uncrowded_call o (hu o rfl))
    refine ⟨⟨_, S', B', h', ?_, hE, hS⟩, rfl⟩
    show MapsAre (lw.maps.step o) (vw.step (o.call w.world))
    rw [← callAt_eq, view_eq hI.inv, hM.counts]
    exact hM.step o
  | range i =>
    obtain ⟨⟨S', B', _, h'⟩, hw⟩ := istep_ok G hI (.range i) (fun _ _ h => by cases h)
    cases hs : w.world.sets[i]? with
    | none =>
      have hv : vw.sets[i]? = none := none_sets hI.inv hs
      have hm : lw.maps.maps[i]? = none := by rw [hM.at] at hv; simpa using hv
      simp only [MIWorld.step, LMWorld.step, hs, hm]
      exact ⟨h0, trivial⟩
    | some m =>
      obtain ⟨n, hn, hv⟩ := hI.inv.sets i m hs
      obtain ⟨hv1, hv2⟩ := hv rfl
      obtain ⟨it, v, k1, k2, k3⟩ := MTree.iterator_eq G hn
      have hat := hM.at i
      rw [show vw.sets[i]? = _ from hv1] at hat
      obtain ⟨x, hx, hxt⟩ := Option.map_eq_some_iff.1 hat.symm
      have hrl : x.rangeList = .ok (elems n) := by
        show x.tree.rangeList = _
        rw [hxt]; exact rangeList_spec hv2.nodeOk
      have k2' : m.iterator G w.world.mem = (.ok it, w.world.mem) := k2
      simp only [MIWorld.step, LMWorld.step, hs, MTree.mapIterator, k2', hx, hrl]
      refine ⟨⟨vw, S', B', ?_, hM, ?_, hS⟩, trivial⟩
      · have e1 : (IWorld.mk w.world (w.iters.map (·.i)) []).step G (.range i) = ⟨w.world, w.iters.map (·.i) ++ [it], []⟩ := by
          simp only [IWorld.step, hs, k2']
        have e2 : (LWorld.mk vw lw.iters []).step (.range i) = ⟨vw, lw.iters ++ [⟨elems n, 0⟩], []⟩ := by
          simp only [LWorld.step, show vw.sets[i]? = _ from hv1, rangeList_spec hv2.nodeOk]; rfl
        rw [e1, e2] at h'
        simpa using h'
      · intro j it' l hj hl
        have hlen : w.iters.length = lw.iters.length := by simpa using hI.ilen rfl
        rcases getElem?_snoc hj with hj | ⟨rfl, rfl⟩
        · rw [List.getElem?_append_left (by rw [← hlen]; exact getElem?_lt hj)] at hl
          exact hE j it' l hj hl
        · rw [hlen, List.getElem?_append_right (Nat.le_refl _), Nat.sub_self] at hl
          cases hl; rfl
  | next j =>
    cases hj : w.iters[j]? with
    | none =>
      simp only [MIWorld.step, LMWorld.step, hj, h0.noIter hj]
      exact ⟨h0, trivial⟩
    | some it =>
      obtain ⟨l, hl⟩ := h0.anIter hj
      have hj' : (w.iters.map (·.i))[j]? = some it.i := by rw [List.getElem?_map, hj]; rfl
      obtain ⟨⟨S1, B1, _, h1⟩, hw1⟩ := istep_ok G hI (.next j) (fun _ _ h => by cases h)
      rcases e : it.i.next G w.world.mem with ⟨r, H⟩
      simp only [IWorld.step, hj', e, IOp.apply, LWorld.step, hl] at h1 hw1
      cases r with
      | error p =>
        have := h1.seen rfl
        simp at this
      | ok r =>
        obtain ⟨i', ok⟩ := r
        have hok : ok = l.next.2 := by
          have := h1.seen rfl
          simpa using this
        have hH : H = w.world.mem := congrArg World.mem hw1
        subst hH
        have h1' := h1.reset
        have hlt : j < w.iters.length := getElem?_lt hj
        have hlt' : j < lw.iters.length := getElem?_lt hl
        have hEs : ∀ (e' : Entry K V), (e'.key, e'.value) = l.next.1.entry → ∀ (k : Nat) (it' : MMapIter K V) (l' : ListIter (Entry K V)),
            (w.iters.set j ⟨i', e'⟩)[k]? = some it' → (lw.iters.set j l.next.1)[k]? = some l' → it'.entry = l'.entry := by
          intro e' he' k it' l' hk hk'
          by_cases hjk : j = k
          · subst hjk
            rw [List.getElem?_set_self hlt] at hk
            rw [List.getElem?_set_self hlt'] at hk'
            cases hk; cases hk'
            exact he'
          · rw [List.getElem?_set_ne hjk] at hk hk'
            exact hE k it' l' hk hk'
        cases ok with
        | false =>
          simp only [MIWorld.step, LMWorld.step, hj, hl, MMapIter.next, e]
          refine ⟨⟨vw, S1, B1, ?_, hM, hEs it.kv ?_, ?_⟩, trivial⟩
          · simpa [List.map_set] using h1'
          · rw [entry_next_false l hok.symm]; exact hE j it l hj hl
          · rw [hS, hok]
        | true =>
          obtain ⟨⟨S2, B2, _, h2⟩, hw2⟩ := istep_ok G h1' (.value j) (fun _ _ h => by cases h)
          have hj2 : ((w.iters.map (·.i)).set j i')[j]? = some i' := List.getElem?_set_self (by simpa using hlt)
          have hl2 : (lw.iters.set j l.next.1)[j]? = some l.next.1 := List.getElem?_set_self hlt'
          rcases e2 : i'.value w.world.mem with ⟨r2, H2⟩
          simp only [IWorld.step, hj2, e2, IOp.apply, LWorld.step, hl2] at h2 hw2
          have hH2 : H2 = w.world.mem := congrArg World.mem hw2
          subst hH2
          have hval : r2.toOption = l.next.1.value := by
            have := h2.seen rfl
            simpa using this
          have hsome := value_next l hok.symm
          obtain ⟨e', he'⟩ := hsome
          cases r2 with
          | error p => rw [he'] at hval; simp [Go.toOption] at hval
          | ok x =>
            have hx : x = e' := by rw [he'] at hval; simpa [Go.toOption] using hval
            subst hx
            simp only [MIWorld.step, LMWorld.step, hj, hl, MMapIter.next, e, e2]
            refine ⟨⟨vw, S2, B2, ?_, hM, hEs x (entry_next_true l hok.symm x he').symm, ?_⟩, trivial⟩
            · simpa [List.map_set] using h2.reset
            · rw [hS, hok]
  | entry j =>
    cases hj : w.iters[j]? with
    | none =>
      simp only [MIWorld.step, LMWorld.step, hj, h0.noIter hj]
      exact ⟨h0, trivial⟩
    | some it =>
      obtain ⟨l, hl⟩ := h0.anIter hj
      simp only [MIWorld.step, LMWorld.step, hj, hl]
      exact ⟨⟨vw, S, B, hI, hM, hE, by rw [hS, hE j it l hj hl]⟩, trivial⟩

theorem MIInv.run (G : Growth) : ∀ (ops : List (MIOp K V)) {w : MIWorld K V} {lw : LMWorld K V}, MIInv w lw →
    UncrowdedMapRun G w.world (MIOp.calls ops) → MIInv (w.run G ops) (lw.run ops) ∧ (w.run G ops).world = w.world.runMap G (MIOp.calls ops)
  | [], _, _, h, _ => ⟨h, rfl⟩
  | op :: ops, w, lw, h, hu => by
    obtain ⟨h1, h2⟩ := h.step G op (fun o ho => by subst ho; exact hu.1)
    have hw : UncrowdedMapRun G (w.step G op).world (MIOp.calls ops) := by
      rw [h2]
      cases op with
      | call o => exact hu.2
      | _ => exact hu
    obtain ⟨h3, h4⟩ := MIInv.run G ops h1 hw
    refine ⟨h3, ?_⟩
    show ((w.step G op).run G ops).world = _
    rw [h4, h2]
    cases op <;> rfl

/-! ### Any history -/

/-- What holds after any number of calls, crowded maps or not. -/
def MIAny (w : MIWorld K V) : Prop := ∃ lw S B, IInv false ⟨w.world, w.iters.map (·.i), []⟩ lw S B

theorem IInv.resetAny {T : Type} [GoKey T] [LawfulGoKey T] {w : IWorld T} {lw : LWorld T} {S : Set Loc} {B : Nat → Set Loc}
    (h : IInv false w lw S B) : IInv false ⟨w.world, w.iters, []⟩ lw S B :=
  ⟨h.inv, h.iters, (nomatch ·), (nomatch ·), fun _ _ h => nomatch h⟩

theorem MIAny.init : MIAny (MIWorld.init : MIWorld K V) := ⟨_, _, _, IInv.init false⟩

theorem MIAny.step (G : Growth) {w : MIWorld K V} (h : MIAny w) (op : MIOp K V) :
    MIAny (w.step G op) ∧ ((w.step G op).world = match op with | .call o => w.world.step G (o.call w.world) | _ => w.world) := by
  have h0 := h
  obtain ⟨lw, S, B, hI⟩ := h
  cases op with
  | call o =>
    obtain ⟨⟨S', B', _, h'⟩, _⟩ := istep_ok G hI (.call (o.call w.world)) (nomatch ·)
    exact ⟨⟨_, S', B', h'⟩, rfl⟩
  | range i =>
    obtain ⟨⟨S', B', _, h'⟩, hw⟩ := istep_ok G hI (.range i) (nomatch ·)
    cases hs : w.world.sets[i]? with
    | none => simp only [MIWorld.step, hs]; exact ⟨h0, trivial⟩
    | some m =>
      rcases e : m.iterator G w.world.mem with ⟨r, H⟩
      simp only [IWorld.step, hs, e, IOp.apply] at h' hw
      cases r with
      | error p =>
        have hH : H = w.world.mem := congrArg World.mem hw
        subst hH
        simp only [MIWorld.step, hs, MTree.mapIterator, e]
        exact ⟨h0, trivial⟩
      | ok it =>
        have hH : H = w.world.mem := congrArg World.mem hw
        subst hH
        simp only [MIWorld.step, hs, MTree.mapIterator, e]
        exact ⟨⟨_, S', B', by simpa using h'⟩, trivial⟩
  | next j =>
    cases hj : w.iters[j]? with
    | none => simp only [MIWorld.step, hj]; exact ⟨h0, trivial⟩
    | some it =>
      have hj' : (w.iters.map (·.i))[j]? = some it.i := by rw [List.getElem?_map, hj]; rfl
      obtain ⟨⟨S1, B1, _, h1⟩, hw1⟩ := istep_ok G hI (.next j) (nomatch ·)
      rcases e : it.i.next G w.world.mem with ⟨r, H⟩
      simp only [IWorld.step, hj', e, IOp.apply] at h1 hw1
      cases r with
      | error p =>
        have hH : H = w.world.mem := congrArg World.mem hw1
        subst hH
        simp only [MIWorld.step, hj, MMapIter.next, e]
        exact ⟨h0, trivial⟩
      | ok r =>
        obtain ⟨i', ok⟩ := r
        have hH : H = w.world.mem := congrArg World.mem hw1
        subst hH
        have h1' := h1.resetAny
        cases ok with
        | false =>
          simp only [MIWorld.step, hj, MMapIter.next, e]
          exact ⟨⟨_, S1, B1, by simpa [List.map_set] using h1'⟩, trivial⟩
        | true =>
          obtain ⟨_, hw2⟩ := istep_ok G h1' (.value j) (nomatch ·)
          have hj2 : ((w.iters.map (·.i)).set j i')[j]? = some i' := List.getElem?_set_self (by simpa using getElem?_lt hj)
          rcases e2 : i'.value w.world.mem with ⟨r2, H2⟩
          simp only [IWorld.step, hj2, e2, IOp.apply] at hw2
          have hH2 : H2 = w.world.mem := congrArg World.mem hw2
          subst hH2
          cases r2 with
          | error p =>
            simp only [MIWorld.step, hj, MMapIter.next, e, e2]
            exact ⟨h0, trivial⟩
          | ok x =>
            simp only [MIWorld.step, hj, MMapIter.next, e, e2]
            exact ⟨⟨_, S1, B1, by simpa [List.map_set] using h1'⟩, trivial⟩
  | entry j =>
    simp only [MIWorld.step]
    split <;> exact ⟨h0, rfl⟩

theorem MIAny.run (G : Growth) : ∀ (ops : List (MIOp K V)) {w : MIWorld K V}, MIAny w →
    (w.run G ops).world = w.world.runMap G (MIOp.calls ops)
  | [], _, _ => rfl
  | op :: ops, w, h => by
    obtain ⟨h1, h2⟩ := h.step G op
    show ((w.step G op).run G ops).world = _
    rw [MIAny.run G ops h1, h2]
    cases op <;> rfl

end Frozen
