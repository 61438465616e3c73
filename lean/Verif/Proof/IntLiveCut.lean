import Verif.Proof.IntLive
import Verif.Model.IntLiveCut

/-! Loops with an iterator under way, abandoned. -/

set_option linter.unusedSectionVars false

namespace Frozen

variable {w : Nat} [GoKey (BitVec w)] [PrimKey (BitVec w)]

theorem liveCut_eq {β : Type} (G : Growth) {body : β → Entry (BitVec w) CellMask → IM w β}
    {R : β → IntMaps w → List (Entry (BitVec w) CellMask) → Prop}
    (hb : ∀ b e es W b' W', R b W (e :: es) → body b e W = .ok (b', W') → Clean W W' ∧ R b' W' es) : ∀ (n : Nat) (it : MMapIter (BitVec w) CellMask) (b : β) (W : IntMaps w)
      (maps : VMaps (BitVec w) CellMask) (c : ListIter (Entry (BitVec w) CellMask)), MIInv ⟨W, [it], []⟩ ⟨maps, [c], []⟩ →
      R b W (c.elems.drop c.calls) →
        liveCut G body n it b W = (((c.elems.drop c.calls).take n).foldlM body b >>= fun _ => (pure () : IM w Unit)) W
  | 0, it, b, W, maps, c, h, hR => by
    obtain ⟨_, h2⟩ := MIInv.step G h (.next 0) (fun _ h => nomatch h)
    simp only [MIWorld.step, List.getElem?_cons_zero] at h2
    unfold liveCut
    have hw : (⟨(it.next G W.mem).2, W.sets, W.builders⟩ : IntMaps w) = W := by
      cases hr : it.next G W.mem with
      | mk r H =>
        rw [hr] at h2
        rcases r with e | ⟨it', ok⟩ <;> exact h2
    rw [hw]; rfl
  | n + 1, it, b, W, maps, c, h, hR => by
    obtain ⟨h1, h2⟩ := MIInv.step G h (.next 0) (fun _ h => nomatch h)
    simp only [MIWorld.step, LMWorld.step, List.getElem?_cons_zero] at h1 h2
    unfold liveCut
    cases hr : it.next G W.mem with
    | mk r H =>
      rw [hr] at h1 h2
      rcases r with e | ⟨it', ok⟩
      · exfalso
        obtain ⟨_, _, _, _, _, _, k⟩ := h1
        simp at k
      · have hw : (⟨H, W.sets, W.builders⟩ : IntMaps w) = W := h2
        have hok : ok = c.next.2 := by
          obtain ⟨_, _, _, _, _, _, k⟩ := h1
          simpa using k
        have hent : it'.entry = c.next.1.entry := by
          obtain ⟨_, _, _, _, _, k, _⟩ := h1
          exact k 0 it' c.next.1 rfl rfl
        have h3 : MIInv ⟨W, [it'], []⟩ ⟨maps, [c.next.1], []⟩ := by
          have := h1.forget
          simp only at this
          rw [hw] at this
          exact this
        cases ok with
        | true =>
          obtain ⟨e, he⟩ := value_next c hok.symm
          have hee := entry_next_true c hok.symm e he
          have hlt : c.calls < c.elems.length := by simpa [ListIter.next] using hok.symm
          have hdr : c.elems.drop c.calls = e :: c.elems.drop (c.calls + 1) := by
            have he' : c.elems[c.calls]? = some e := by simpa [ListIter.next, ListIter.value] using he
            rw [List.drop_eq_getElem_cons hlt]
            rw [List.getElem?_eq_getElem hlt] at he'
            rw [Option.some.inj he']
          rw [hdr] at hR
          rw [hdr, List.take_succ_cons, List.foldlM_cons, IM.bind_assoc]
          simp only [hw]
          have hE : (⟨it'.entry.1, it'.entry.2⟩ : Entry (BitVec w) CellMask) = e := by rw [hent, hee]
          rw [hE]
          cases hbody : body b e W with
          | error p =>
            have : ∀ f : β → IM w Unit, (body b e >>= f) W = .error p := by
              intro f
              show (match body b e W with | .ok (a, W') => f a W' | .error e => .error e) = _
              rw [hbody]
            rw [this]
          | ok r =>
            obtain ⟨b', W'⟩ := r
            rw [IM.bind_ok hbody]
            obtain ⟨hc, hR'⟩ := hb b e _ W b' W' hR hbody
            obtain ⟨maps', h4⟩ := hc _ _ h3
            exact liveCut_eq G hb n it' b' _ maps' c.next.1 h4 hR'
        | false =>
          have hdr : c.elems.drop c.calls = [] := by
            have : c.elems.length ≤ c.calls := by simpa [ListIter.next] using hok.symm
            exact List.drop_eq_nil_of_le this
          rw [hdr]
          simp only [hw]; rfl

theorem liveRangeCut_eq {β : Type} (G : Growth) {body : β → Entry (BitVec w) CellMask → IM w β}
    {R : β → IntMaps w → List (Entry (BitVec w) CellMask) → Prop}
    (hb : ∀ b e es W b' W', R b W (e :: es) → body b e W = .ok (b', W') → Clean W W' ∧ R b' W' es) {W : IntMaps w} {V : IntVals w} (hV : MSim W V) {i : Nat} {m : FMap (BitVec w) CellMask}
    (hi : V.maps[i]? = some m) (n : Nat) (b : β) (hR : R b W m.tree.list) :
    liveRangeCut G n i body b W = ((m.tree.list.take n).foldlM body b >>= fun _ => (pure () : IM w Unit)) W := by
  obtain ⟨vw, S, B, h1, h2⟩ := hV
  have hV : MSim W V := ⟨vw, S, B, h1, h2⟩
  have h : MIInv ⟨W, [], []⟩ ⟨V, [], []⟩ :=
    ⟨vw, S, B, ⟨h1, fun j it h => by simp at h, fun _ => rfl, fun _ => rfl, fun _ _ h => nomatch h⟩, h2, fun j it l h => by simp at h, rfl⟩
  obtain ⟨s, hs, _, _, hm, _⟩ := hV.at hi
  obtain ⟨g1, g2⟩ := MIInv.step G h (.range i) (fun _ h => nomatch h)
  simp only [MIWorld.step, LMWorld.step, hs, hi, FMap.rangeList_spec hm, List.nil_append] at g1 g2
  unfold liveRangeCut
  simp only [hs]
  cases hr : s.mapIterator G W.mem with
  | mk r H =>
    rw [hr] at g1 g2
    cases r with
    | error e =>
      exfalso
      obtain ⟨_, _, _, k, _⟩ := g1
      have := k.ilen rfl
      simp at this
    | ok it =>
      have hw : (⟨H, W.sets, W.builders⟩ : IntMaps w) = W := g2
      simp only [hw] at g1 ⊢
      exact liveCut_eq G hb n it b W V ⟨m.tree.list, 0⟩ g1 hR

theorem IM.bind_fail {α β : Type} {y : IM w α} {k : α → IM w β} {W : IntMaps w} {e : Panic} (h : y W = .error e) :
    (y >>= k) W = .error e := by
  show (match y W with | .ok (a, W') => k a W' | .error e => .error e) = _
  rw [h]

theorem IM.bind_unit (y : IM w Unit) (k : Unit → IM w Unit) (hk : ∀ a W, k a W = .ok ((), W)) (W : IntMaps w) : (y >>= k) W = y W := by
  cases h : y W with
  | error e => exact IM.bind_fail h
  | ok r =>
    obtain ⟨a, W'⟩ := r
    rw [IM.bind_ok h, hk]

theorem whereLiveCut_eq (G : Growth) {W : IntMaps w} {V : IntVals w} (hV : MSim W V) {s : MInt}
    {v : IntSet w} (hs : Holds V s v) (p : BitVec w → Bool) (n : Nat) : s.whereLiveCut G p n W = s.whereCut G p n W := by
  obtain ⟨W', V', n1, n2, n3⟩ := newBuilder_sim G hV
  unfold MInt.whereLiveCut MInt.whereCut
  rw [IM.bind_ok n1, IM.bind_ok (range_ok hV hs), IM.bind_ok n1]
  have h1 := liveRangeCut_eq G (R := fun _ _ _ => True) (fun b e es W b' W' _ h => ⟨tidy_whereStep G p _ b e W b' W' h, trivial⟩) n2
    (hs.mono n3).1 n 0 trivial (body := mWhereStep G p W.builders.length)
  rw [h1]
  refine (IM.bind_congr (whereLiveFold G p _ _ 0 W') (fun _ _ => rfl)).trans ?_
  rw [IM.bind_assoc]
  exact IM.bind_unit _ _ (fun _ _ => rfl) W'

end Frozen
