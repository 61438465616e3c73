import Verif.Proof.MapIter
import Verif.Props.IntWork
import Verif.Props.IntMem
import Verif.Spec.IntIter

/-! Histories with iterators over integer sets. -/

set_option linter.unusedSectionVars false

namespace Frozen

variable {w : Nat} [GoKey (BitVec w)] [PrimKey (BitVec w)]

/-! ### A call on an integer set is a series of calls on maps -/

/-- The code only makes calls on maps and builders. -/
def ByCalls (G : Growth) {α : Type} (x : IM w α) : Prop :=
  ∀ (W : IntMaps w) (a : α) (W' : IntMaps w), x W = .ok (a, W') → ∃ mops, W' = W.runMap G mops

theorem ByCalls.pure (G : Growth) {α : Type} (a : α) : ByCalls G (Pure.pure a : IM w α) := fun W b W' h => by
  cases h; exact ⟨[], rfl⟩

theorem ByCalls.bind {G : Growth} {α β : Type} {x : IM w α} {f : α → IM w β} (hx : ByCalls G x) (hf : ∀ a, ByCalls G (f a)) :
    ByCalls G (x >>= f) := fun W b W' h => by
  cases hr : x W with
  | error e =>
    have : (x >>= f) W = .error e := by
      show (match x W with | .ok (a, W') => f a W' | .error e => .error e) = _
      rw [hr]
    rw [this] at h; cases h
  | ok r =>
    obtain ⟨a, W1⟩ := r
    rw [IM.bind_ok hr] at h
    obtain ⟨m1, rfl⟩ := hx W a W1 hr
    obtain ⟨m2, rfl⟩ := hf a _ b W' h
    exact ⟨m1 ++ m2, (runMap_append G m1 m2 W).symm⟩

theorem byCalls_get (G : Growth) (i : Nat) (k : BitVec w) : ByCalls G (IM.get i k) := fun W a W' h => by
  unfold IM.get at h
  split at h
  · split at h
    · cases h; exact ⟨[], rfl⟩
    · cases h
  · cases h

theorem byCalls_range (G : Growth) (i : Nat) : ByCalls G (IM.range (w := w) i) := fun W a W' h => by
  unfold IM.range at h
  split at h
  · split at h
    · cases h; exact ⟨[], rfl⟩
    · cases h
  · cases h

theorem byCalls_call (G : Growth) (op : MOp (BitVec w) CellMask) : ByCalls G (IM.call G op) := fun W a W' h => by
  unfold IM.call at h
  split at h
  · cases h; exact ⟨[op], rfl⟩
  · cases h

theorem byCalls_newBuilder (G : Growth) : ByCalls G (IM.newBuilder G : IM w Nat) := fun W a W' h => by
  unfold IM.newBuilder at h
  cases h; exact ⟨[.newBuilder], rfl⟩

theorem byCalls_put (G : Growth) (b : Nat) (k : BitVec w) (v : CellMask) : ByCalls G (IM.put G b k v) := fun W a W' h => by
  unfold IM.put at h
  cases h; exact ⟨[.put b k v], rfl⟩

theorem byCalls_fold {G : Growth} {α β : Type} {f : β → α → IM w β} (hf : ∀ b a, ByCalls G (f b a)) :
    ∀ (l : List α) (b : β), ByCalls G (l.foldlM f b)
  | [], b => ByCalls.pure G b
  | a :: l, b => by
    rw [List.foldlM_cons]
    exact (hf b a).bind (fun b' => byCalls_fold hf l b')

theorem byCalls_forM {G : Growth} {α : Type} {f : α → IM w Unit} (hf : ∀ a, ByCalls G (f a)) : ∀ (l : List α), ByCalls G (l.forM f)
  | [] => ByCalls.pure G ()
  | a :: l => (hf a).bind (fun _ => byCalls_forM hf l)

theorem byCalls_build (G : Growth) (kvs : List (KeyValue (BitVec w) CellMask)) : ByCalls G (IM.build G kvs) :=
  (byCalls_newBuilder G).bind (fun b => (byCalls_forM (fun kv => byCalls_put G b kv.key kv.value) kvs).bind (fun _ => byCalls_call G _))

theorem byCalls_new (G : Growth) (sg : Bool) (order : List (BitVec w × CellMask) → List (BitVec w × CellMask)) (is : List (BitVec w)) :
    ByCalls G (mNewIntSet G sg order is) := (byCalls_build G _).bind (fun _ => ByCalls.pure G _)

theorem byCalls_locate (G : Growth) (sg : Bool) (s : MInt) (i : BitVec w) : ByCalls G (s.locate sg i) :=
  (byCalls_get G _ _).bind (fun _ => ByCalls.pure G _)

theorem byCalls_with (G : Growth) (sg : Bool) (s : MInt) (i : BitVec w) : ByCalls G (s.with G sg i) := by
  refine (byCalls_locate G sg s i).bind (fun l => ?_)
  split
  · exact (byCalls_call G _).bind (fun _ => ByCalls.pure G _)
  · exact ByCalls.pure G _

theorem byCalls_without (G : Growth) (sg : Bool) (s : MInt) (i : BitVec w) : ByCalls G (s.without G sg i) := by
  refine (byCalls_locate G sg s i).bind (fun l => ?_)
  split
  · dsimp only
    split <;> exact (byCalls_call G _).bind (fun _ => ByCalls.pure G _)
  · exact ByCalls.pure G _

theorem byCalls_where (G : Growth) (s : MInt) (p : BitVec w → Bool) : ByCalls G (s.where G p) :=
  (byCalls_range G _).bind (fun _ => (byCalls_build G _).bind (fun _ => ByCalls.pure G _))

theorem byCalls_map (G : Growth) (sg : Bool) (order : List (BitVec w × CellMask) → List (BitVec w × CellMask)) (s : MInt)
    (f : BitVec w → BitVec w) : ByCalls G (s.map G sg order f) :=
  ((byCalls_range G _).bind (fun _ => ByCalls.pure G _)).bind (fun _ => byCalls_new G sg order _)

theorem byCalls_union (G : Growth) (s t : MInt) : ByCalls G (s.union G t : IM w MInt) := by
  refine (byCalls_range G _).bind (fun es => byCalls_fold (fun st e => ?_) es s)
  refine (byCalls_get G _ _).bind (fun g => ?_)
  split <;> exact (byCalls_call G _).bind (fun _ => ByCalls.pure G _)

theorem byCalls_intersection (G : Growth) (s t : MInt) : ByCalls G (s.intersection G t : IM w MInt) := by
  refine (byCalls_newBuilder G).bind (fun b => (byCalls_range G _).bind (fun es => ?_))
  refine (byCalls_fold (fun n e => ?_) es 0).bind (fun n => (byCalls_call G _).bind (fun _ => ByCalls.pure G _))
  refine (byCalls_get G _ _).bind (fun g => ?_)
  split
  · exact ByCalls.pure G _
  · split
    · exact (byCalls_put G _ _ _).bind (fun _ => ByCalls.pure G _)
    · exact ByCalls.pure G _

theorem IntWorld.byCalls_step (G : Growth) (sg : Bool) (x : IntWorld w) (op : IntOp w) :
    ∃ mops, (x.step G sg op).maps = x.maps.runMap G mops := by
  have keep : ∀ {f : IM w MInt}, ByCalls G f → ∃ mops, (x.keep f).maps = x.maps.runMap G mops := by
    intro f hf
    unfold IntWorld.keep
    split
    · rename_i s W' he
      exact hf _ s W' he
    · exact ⟨[], rfl⟩
  have no : ∃ mops, x.maps = x.maps.runMap G mops := ⟨[], rfl⟩
  cases op with
  | new order is => exact keep (byCalls_new G sg order is)
  | «with» i n => simp only [IntWorld.step]; split; exacts [keep (byCalls_with G sg _ n), no]
  | without i n => simp only [IntWorld.step]; split; exacts [keep (byCalls_without G sg _ n), no]
  | «where» i p => simp only [IntWorld.step]; split; exacts [keep (byCalls_where G _ p), no]
  | map i order f => simp only [IntWorld.step]; split; exacts [keep (byCalls_map G sg order _ f), no]
  | union i j => simp only [IntWorld.step]; split; exacts [keep (byCalls_union G _ _), no]
  | intersection i j => simp only [IntWorld.step]; split; exacts [keep (byCalls_intersection G _ _), no]

/-! ### Map iterators while calls are made -/

theorem MIWorld.run_calls (G : Growth) : ∀ (mops : List (MOp (BitVec w) CellMask)) (x : MIWorld (BitVec w) CellMask),
    x.run G (mops.map .call) = ⟨x.world.runMap G mops, x.iters, x.seen⟩
  | [], _ => rfl
  | op :: mops, x => MIWorld.run_calls G mops (x.step G (.call op))

theorem LMWorld.run_calls : ∀ (mops : List (MOp (BitVec w) CellMask)) (x : LMWorld (BitVec w) CellMask),
    (x.run (mops.map .call)).iters = x.iters ∧ (x.run (mops.map .call)).seen = x.seen
  | [], _ => ⟨rfl, rfl⟩
  | op :: mops, x => LMWorld.run_calls mops (x.step (.call op))

theorem calls_map {K V : Type} (mops : List (MOp K V)) : MIOp.calls (mops.map .call) = mops := by
  induction mops with
  | nil => rfl
  | cons op mops ih => show op :: MIOp.calls (mops.map .call) = _; rw [ih]

theorem MIInv.forget {x : MIWorld (BitVec w) CellMask} {l : LMWorld (BitVec w) CellMask} (h : MIInv x l) :
    MIInv ⟨x.world, x.iters, []⟩ ⟨l.maps, l.iters, []⟩ := by
  obtain ⟨vw, S, B, h1, h2, h3, _⟩ := h
  exact ⟨vw, S, B, h1, h2, h3, rfl⟩

theorem MIInv.sim {x : MIWorld (BitVec w) CellMask} {l : LMWorld (BitVec w) CellMask} (h : MIInv x l) : MSim x.world l.maps := by
  obtain ⟨vw, S, B, h1, h2, _⟩ := h
  exact ⟨vw, S, B, h1.inv, h2⟩

/-! ### The invariant -/

/-- The map iterators. -/
def IIWorld.cells (x : IIWorld w) : MIWorld (BitVec w) CellMask := ⟨x.world.maps, x.iters.map (·.cells), []⟩

/-- What the iterator has left to deliver. -/
def MIntIter.left (it : MIntIter w) (c : ListIter (Entry (BitVec w) CellMask)) : List (BitVec w) :=
  (bitsOf (clearLow it.cell)).map (cellVal it.first) ++ (c.elems.drop c.calls).flatMap cellOut

/-- What holds after any number of calls. -/
structure IIInv (x : IIWorld w) (l : LIWorld w) (m : LMWorld (BitVec w) CellMask) : Prop where
  sim : IntSim x.world l.sets
  cells : MIInv x.cells m
  len : x.iters.length = l.iters.length
  left : ∀ (j : Nat) (it : MIntIter w) (c : ListIter (Entry (BitVec w) CellMask)) (v : ListIter (BitVec w)), x.iters[j]? = some it →
    m.iters[j]? = some c → l.iters[j]? = some v → it.left c = v.elems.drop v.calls
  seen : x.seen = l.seen

theorem IIInv.init : IIInv (IIWorld.init : IIWorld w) LIWorld.init LMWorld.init :=
  ⟨IntSim.init, MIInv.init, rfl, fun j it c v h => by simp [IIWorld.init] at h, rfl⟩

theorem cellOut_next (e : Entry (BitVec w) CellMask) (es : List (Entry (BitVec w) CellMask)) :
    (e :: es).flatMap cellOut = cellVal e.key (tz e.value.bits) ::
      ((bitsOf (clearLow e.value.bits)).map (cellVal e.key) ++ es.flatMap cellOut) := by
  rw [List.flatMap_cons]
  unfold cellOut
  by_cases he : e.value.bits = 0#64
  · have : tz (0#64) = 64 := by decide
    rw [if_pos he, he, clearLow_zero, bitsOf_zero, this]; rfl
  · rw [if_neg he, bitsOf_cons he]; rfl

theorem IIInv.call (G : Growth) (sg : Bool) {x : IIWorld w} {l : LIWorld w} {m : LMWorld (BitVec w) CellMask} (h : IIInv x l m)
    (op : IntOp w) (hr : op.Roomy sg l.sets) : ∃ m', IIInv (x.step G sg (.call op)) (l.step sg (.call op)) m' := by
  obtain ⟨maps, h1⟩ := h.sim.clean G sg op hr _ m h.cells
  exact ⟨⟨maps, m.iters, []⟩, h.sim.step G sg op hr, h1, h.len, h.left, h.seen⟩

theorem IIInv.range (G : Growth) (sg : Bool) {x : IIWorld w} {l : LIWorld w} {m : LMWorld (BitVec w) CellMask} (h : IIInv x l m) (i : Nat) :
    (∃ m', IIInv (x.step G sg (.range i)) (l.step sg (.range i)) m') ∧ (x.step G sg (.range i)).world = x.world := by
  simp only [IIWorld.step, LIWorld.step]
  cases hi : x.world.sets[i]? with
  | none => rw [h.sim.none hi]; exact ⟨⟨m, h⟩, rfl⟩
  | some s =>
    obtain ⟨V, hV, _, hh⟩ := h.sim
    obtain ⟨v, hv, hs⟩ := hh i s hi
    have hM : MSim x.world.maps m.maps := h.cells.sim
    have hlt : s.data < V.maps.length := (List.getElem?_eq_some_iff.1 hs.1).1
    obtain ⟨mm, hmm⟩ : ∃ mm, m.maps.maps[s.data]? = some mm :=
      ⟨_, List.getElem?_eq_getElem (by have := hV.len; have := hM.len; omega)⟩
    obtain ⟨_, _, _, ⟨r1, _⟩, _, _, _, rfl⟩ := runs_range hV hs.1
    obtain ⟨_, _, _, ⟨r2, _⟩, _, _, _, rfl⟩ := runs_range hM hmm
    have hl : v.data.tree.list = mm.tree.list := (congrArg Prod.fst (Except.ok.inj (r1.symm.trans r2)) :)
    obtain ⟨ms, hms, _, _, hmv, _⟩ := hM.at hmm
    have hel := elements_spec0 (s := v) (hV.valid hs)
    obtain ⟨h1, h2⟩ := MIInv.step G h.cells (.range s.data) (fun _ h => nomatch h)
    have hms' : x.cells.world.sets[s.data]? = some ms := hms
    simp only [hv, hel]
    simp only [MIWorld.step, LMWorld.step, hms', hmm, FMap.rangeList_spec hmv] at h1 h2
    unfold MInt.range
    simp only [hms]
    cases hr : ms.mapIterator G x.cells.world.mem with
    | mk r H =>
      have hr' : ms.mapIterator G x.world.maps.mem = (r, H) := hr
      rw [hr] at h1 h2
      cases r with
      | error e =>
        exfalso
        obtain ⟨vw, S, B, k1, _⟩ := h1
        obtain ⟨vw', S', B', k2, _⟩ := h.cells
        have a := k1.ilen rfl
        have b := k2.ilen rfl
        simp only [List.length_map, List.length_append, List.length_cons, List.length_nil] at a b
        omega
      | ok it =>
        simp only [hr']
        have hw : (⟨H, x.world.maps.sets, x.world.maps.builders⟩ : IntMaps w) = x.world.maps := h2
        refine ⟨⟨⟨m.maps, m.iters ++ [⟨mm.tree.list, 0⟩], []⟩, ?_, ?_, ?_, ?_, h.seen⟩, by simp only [hw]⟩
        · show IntSim ⟨⟨H, x.world.maps.sets, x.world.maps.builders⟩, x.world.sets⟩ l.sets
          rw [hw]; exact h.sim
        · have := h1.forget
          simpa [IIWorld.cells] using this
        · simp [h.len]
        · intro j it' c u g1 g2 g3
          have hml : m.iters.length = x.iters.length := by
            obtain ⟨vw', S', B', k2, _⟩ := h.cells
            have b := k2.ilen rfl
            simpa [IIWorld.cells] using b.symm
          have hll := h.len
          replace g1 : (x.iters ++ [⟨it, 1#64, 0#w⟩])[j]? = some it' := g1
          replace g2 : (m.iters ++ [(⟨mm.tree.list, 0⟩ : ListIter _)])[j]? = some c := g2
          replace g3 : (l.iters ++ [(⟨v.data.tree.list.flatMap cellOut, 0⟩ : ListIter _)])[j]? = some u := g3
          by_cases hj : j < x.iters.length
          · rw [List.getElem?_append_left (by omega)] at g1 g2 g3
            exact h.left j it' c u g1 g2 g3
          · rw [List.getElem?_append_right (by omega)] at g1 g2 g3
            have hj' : j - x.iters.length = 0 := by
              have := (List.getElem?_eq_some_iff.1 g1).1
              simp at this; omega
            rw [hml, hj'] at g2; rw [← hll, hj'] at g3; rw [hj'] at g1
            cases g1; cases g2; cases g3
            have : clearLow (1#64) = 0#64 := by decide
            simp only [MIntIter.left, this, bitsOf_zero, List.map_nil, List.nil_append, List.drop_zero, hl]

omit [GoKey (BitVec w)] [PrimKey (BitVec w)] in
theorem drop_cons {T : Type} {l : List T} {n : Nat} {a : T} {t : List T} (h : l.drop n = a :: t) : l[n]? = some a ∧ l.drop (n + 1) = t := by
  have h1 : (l.drop n)[0]? = some a := by rw [h]; rfl
  refine ⟨by simpa using h1, ?_⟩
  rw [← List.drop_drop, h]; rfl

theorem IIInv.next (G : Growth) (sg : Bool) {x : IIWorld w} {l : LIWorld w} {m : LMWorld (BitVec w) CellMask} (h : IIInv x l m) (j : Nat) :
    (∃ m', IIInv (x.step G sg (.next j)) (l.step sg (.next j)) m') ∧ (x.step G sg (.next j)).world = x.world := by
  simp only [IIWorld.step, LIWorld.step]
  cases hj : x.iters[j]? with
  | none =>
    have : l.iters[j]? = none := by
      have := h.len
      rw [List.getElem?_eq_none_iff] at hj ⊢; omega
    rw [this]; exact ⟨⟨m, h⟩, rfl⟩
  | some it =>
    have hjl := (List.getElem?_eq_some_iff.1 hj).1
    have hlen := h.len
    obtain ⟨v, hv⟩ : ∃ v, l.iters[j]? = some v := ⟨_, List.getElem?_eq_getElem (by omega)⟩
    have hcj : x.cells.iters[j]? = some it.cells := by simp [IIWorld.cells, hj]
    obtain ⟨c, hc⟩ := h.cells.anIter hcj
    have hleft := h.left j it c v hj hc hv
    simp only [hv]
    unfold MIntIter.next
    by_cases hz : clearLow it.cell = 0#64
    · obtain ⟨h1, h2⟩ := MIInv.step G h.cells (.next j) (fun _ h => nomatch h)
      simp only [MIWorld.step, LMWorld.step, hcj, hc] at h1 h2
      simp only [if_pos hz]
      have hleft' : (c.elems.drop c.calls).flatMap cellOut = v.elems.drop v.calls := by
        rw [← hleft, MIntIter.left, hz, bitsOf_zero]; rfl
      cases hr : it.cells.next G x.cells.world.mem with
      | mk r H =>
        have hr' : it.cells.next G x.world.maps.mem = (r, H) := hr
        rw [hr] at h1 h2
        cases r with
        | error e =>
          exfalso
          obtain ⟨_, _, _, _, _, _, k⟩ := h1
          have k' := List.append_cancel_left (as := []) k
          simp [IIWorld.cells] at k
          obtain ⟨_, _, _, _, _, _, k0⟩ := h.cells
          rw [← k0] at k; simp [IIWorld.cells] at k
        | ok r =>
          obtain ⟨c', ok⟩ := r
          have hw : (⟨H, x.world.maps.sets, x.world.maps.builders⟩ : IntMaps w) = x.world.maps := h2
          have hok : ok = c.next.2 := by
            obtain ⟨_, _, _, _, _, _, k⟩ := h1
            obtain ⟨_, _, _, _, _, _, k0⟩ := h.cells
            rw [← k0] at k
            simpa [IIWorld.cells] using k
          have hmlen : j < m.iters.length := (List.getElem?_eq_some_iff.1 hc).1
          have hent : c'.entry = c.next.1.entry := by
            obtain ⟨_, _, _, _, _, k, _⟩ := h1
            exact k j c' c.next.1 (by simp [IIWorld.cells, hjl]) (by simp [hmlen])
          have hsim : IntSim ⟨⟨H, x.world.maps.sets, x.world.maps.builders⟩, x.world.sets⟩ l.sets := by rw [hw]; exact h.sim
          have hcells := h1.forget
          cases ok with
          | true =>
            simp only [hr']
            obtain ⟨e, he⟩ := value_next c hok.symm
            have hee := entry_next_true c hok.symm e he
            have hdr : c.elems.drop c.calls = e :: c.elems.drop (c.calls + 1) := by
              have hlt : c.calls < c.elems.length := by simpa [ListIter.next] using hok.symm
              have he' : c.elems[c.calls]? = some e := by simpa [ListIter.next, ListIter.value] using he
              rw [List.drop_eq_getElem_cons hlt]
              rw [List.getElem?_eq_getElem hlt] at he'
              rw [Option.some.inj he']
            rw [hdr, cellOut_next] at hleft'
            obtain ⟨d1, d2⟩ := drop_cons hleft'.symm
            refine ⟨⟨⟨m.maps, m.iters.set j c.next.1, []⟩, hsim, ?_, by simp [hlen], ?_, ?_⟩, by simp only [hw]⟩
            · simpa [IIWorld.cells, List.map_set] using hcells
            · intro k it' c2 u g1 g2 g3
              by_cases hk : k = j
              · subst hk
                simp [hjl] at g1; simp [hmlen] at g2; rw [List.getElem?_set_self (by omega)] at g3
                subst g1 g2; cases g3
                rw [hee] at hent
                simp only [MIntIter.left, ListIter.next, hent, d2]
              · simp only [List.getElem?_set_ne (Ne.symm hk)] at g1 g2 g3
                exact h.left k it' c2 u g1 g2 g3
            · simp only [if_true, h.seen, d1, MIntIter.value, hent, hee]
          | false =>
            simp only [hr']
            have hdr : c.elems.drop c.calls = [] := by
              have : c.elems.length ≤ c.calls := by simpa [ListIter.next] using hok.symm
              exact List.drop_eq_nil_of_le this
            rw [hdr] at hleft'
            have hvl : v.elems.length ≤ v.calls := List.drop_eq_nil_iff.1 hleft'.symm
            refine ⟨⟨⟨m.maps, m.iters.set j c.next.1, []⟩, hsim, ?_, by simp [hlen], ?_, ?_⟩, by simp only [hw]⟩
            · simpa [IIWorld.cells, List.map_set] using hcells
            · intro k it' c2 u g1 g2 g3
              by_cases hk : k = j
              · subst hk
                simp [hjl] at g1; simp [hmlen] at g2; rw [List.getElem?_set_self (by omega)] at g3
                subst g1 g2; cases g3
                have d3 : c.elems.drop (c.calls + 1) = [] := List.drop_eq_nil_of_le (by have := List.drop_eq_nil_iff.1 hdr; omega)
                have d4 : v.elems.drop (v.calls + 1) = [] := List.drop_eq_nil_of_le (by omega)
                simp only [MIntIter.left, ListIter.next, clearLow_zero, bitsOf_zero, d3, d4]; rfl
              · simp only [List.getElem?_set_ne (Ne.symm hk)] at g1 g2 g3
                exact h.left k it' c2 u g1 g2 g3
            · simp only [Bool.false_eq_true, if_false, h.seen, List.getElem?_eq_none hvl]
    · simp only [if_neg hz]
      rw [MIntIter.left, bitsOf_cons hz, List.map_cons, List.cons_append] at hleft
      obtain ⟨d1, d2⟩ := drop_cons hleft.symm
      refine ⟨⟨m, h.sim, ?_, by simp [hlen], ?_, ?_⟩, trivial⟩
      · have : (x.iters.set j ⟨it.cells, clearLow it.cell, it.first⟩).map (·.cells) = x.iters.map (·.cells) := by
          rw [List.map_set]
          apply List.ext_getElem?
          intro k
          by_cases hk : k = j
          · subst hk; rw [List.getElem?_set_self (by simpa using hjl), List.getElem?_map, hj]; rfl
          · rw [List.getElem?_set_ne (Ne.symm hk)]
        show MIInv ⟨x.world.maps, (x.iters.set j _).map (·.cells), []⟩ m
        rw [this]; exact h.cells
      · intro k it' c2 u g1 g2 g3
        by_cases hk : k = j
        · subst hk
          simp [hjl] at g1; rw [hc] at g2; rw [List.getElem?_set_self (by omega)] at g3
          subst g1; cases g2; cases g3
          simp only [MIntIter.left, ListIter.next, d2]
        · simp only [List.getElem?_set_ne (Ne.symm hk)] at g1 g3
          exact h.left k it' c2 u g1 g2 g3
      · simp only [if_true, h.seen, d1, MIntIter.value]

theorem IIInv.run (G : Growth) (sg : Bool) : ∀ (ops : List (IIOp w)) {x : IIWorld w} {l : LIWorld w} {m : LMWorld (BitVec w) CellMask},
    IIInv x l m → RoomyFrom sg l.sets (IIOp.calls ops) → ∃ m', IIInv (x.run G sg ops) (l.run sg ops) m'
  | [], _, _, m, h, _ => ⟨m, h⟩
  | .call op :: ops, _, _, _, h, hr => by
    obtain ⟨m', h'⟩ := h.call G sg op hr.1
    exact IIInv.run G sg ops h' hr.2
  | .range i :: ops, x, l, _, h, hr => by
    obtain ⟨⟨m', h'⟩, _⟩ := h.range G sg i
    refine IIInv.run G sg ops h' ?_
    have : (l.step sg (.range i)).sets = l.sets := by
      simp only [LIWorld.step]
      split
      · split <;> rfl
      · rfl
    rw [this]; exact hr
  | .next j :: ops, x, l, _, h, hr => by
    obtain ⟨⟨m', h'⟩, _⟩ := h.next G sg j
    refine IIInv.run G sg ops h' ?_
    have : (l.step sg (.next j)).sets = l.sets := by
      simp only [LIWorld.step]
      split <;> rfl
    rw [this]; exact hr

/-! ### Any history -/

theorem MIAny.calls (G : Growth) : ∀ (mops : List (MOp (BitVec w) CellMask)) {x : MIWorld (BitVec w) CellMask}, MIAny x →
    MIAny (x.run G (mops.map .call))
  | [], _, h => h
  | op :: mops, _, h => MIAny.calls G mops (h.step G (.call op)).1

theorem MIAny.forget {x : MIWorld (BitVec w) CellMask} (h : MIAny x) : MIAny ⟨x.world, x.iters, []⟩ := h

/-- Whatever the calls were, the next one keeps the map iterators intact, and only calls on sets change anything. -/
theorem IIWorld.step_any (G : Growth) (sg : Bool) (x : IIWorld w) (h : MIAny x.cells) (op : IIOp w) :
    MIAny (x.step G sg op).cells ∧ (x.step G sg op).world = match op with | .call o => x.world.step G sg o | _ => x.world := by
  cases op with
  | call o =>
    obtain ⟨mops, hm⟩ := x.world.byCalls_step G sg o
    have h1 := h.calls G mops
    rw [MIWorld.run_calls] at h1
    refine ⟨?_, rfl⟩
    show MIAny ⟨(x.world.step G sg o).maps, x.iters.map (·.cells), []⟩
    rw [hm]; exact h1
  | range i =>
    simp only [IIWorld.step]
    cases hi : x.world.sets[i]? with
    | none => exact ⟨h, rfl⟩
    | some s =>
      unfold MInt.range
      cases hs : x.world.maps.sets[s.data]? with
      | none => simp only [hs]; exact ⟨h, trivial⟩
      | some ms =>
        obtain ⟨h1, h2⟩ := h.step G (.range s.data)
        have hs' : x.cells.world.sets[s.data]? = some ms := hs
        simp only [MIWorld.step, hs'] at h1 h2
        cases hr : ms.mapIterator G x.cells.world.mem with
        | mk r H =>
          have hr' : ms.mapIterator G x.world.maps.mem = (r, H) := hr
          rw [hr] at h1 h2
          have hw : (⟨H, x.world.maps.sets, x.world.maps.builders⟩ : IntMaps w) = x.world.maps := by
            cases r <;> exact h2
          cases r with
          | ok it =>
            simp only [hs, hr']
            exact ⟨by simpa [IIWorld.cells] using h1.forget, by simp only [hw]⟩
          | error e =>
            simp only [hs, hr']
            exact ⟨by simpa [IIWorld.cells] using h1.forget, by simp only [hw]⟩
  | next j =>
    simp only [IIWorld.step]
    cases hj : x.iters[j]? with
    | none => exact ⟨h, rfl⟩
    | some it =>
      have hjl := (List.getElem?_eq_some_iff.1 hj).1
      have hcj : x.cells.iters[j]? = some it.cells := by simp [IIWorld.cells, hj]
      unfold MIntIter.next
      by_cases hz : clearLow it.cell = 0#64
      · obtain ⟨h1, h2⟩ := h.step G (.next j)
        simp only [MIWorld.step, hcj] at h1 h2
        simp only [if_pos hz]
        cases hr : it.cells.next G x.cells.world.mem with
        | mk r H =>
          have hr' : it.cells.next G x.world.maps.mem = (r, H) := hr
          rw [hr] at h1 h2
          have hw : (⟨H, x.world.maps.sets, x.world.maps.builders⟩ : IntMaps w) = x.world.maps := by
            rcases r with e | ⟨c, ok⟩ <;> exact h2
          rcases r with e | ⟨c, ok⟩
          · simp only [hr']
            exact ⟨by simpa [IIWorld.cells] using h1.forget, by simp only [hw]⟩
          · cases ok <;> simp only [hr'] <;> exact ⟨by simpa [IIWorld.cells, List.map_set] using h1.forget, by simp only [hw]⟩
      · simp only [if_neg hz]
        refine ⟨?_, trivial⟩
        have : (x.iters.set j ⟨it.cells, clearLow it.cell, it.first⟩).map (·.cells) = x.iters.map (·.cells) := by
          rw [List.map_set]
          apply List.ext_getElem?
          intro k
          by_cases hk : k = j
          · subst hk; rw [List.getElem?_set_self (by simpa using hjl), List.getElem?_map, hj]; rfl
          · rw [List.getElem?_set_ne (Ne.symm hk)]
        show MIAny ⟨x.world.maps, (x.iters.set j _).map (·.cells), []⟩
        rw [this]; exact h

theorem IIWorld.run_any (G : Growth) (sg : Bool) : ∀ (ops : List (IIOp w)) (x : IIWorld w), MIAny x.cells →
    (x.run G sg ops).world = x.world.run G sg (IIOp.calls ops)
  | [], _, _ => rfl
  | op :: ops, x, h => by
    obtain ⟨h1, h2⟩ := x.step_any G sg h op
    show ((x.step G sg op).run G sg ops).world = _
    rw [IIWorld.run_any G sg ops _ h1, h2]
    cases op <;> rfl

end Frozen
