import Verif.Proof.IntIter
import Verif.Model.IntLive

/-! Loops with an iterator under way. -/

set_option linter.unusedSectionVars false

namespace Frozen

variable {w : Nat} [GoKey (BitVec w)] [PrimKey (BitVec w)]

theorem liveLoop_eq {β : Type} (G : Growth) {body : β → Entry (BitVec w) CellMask → IM w β}
    {R : β → IntMaps w → List (Entry (BitVec w) CellMask) → Prop}
    (hb : ∀ b e es W b' W', R b W (e :: es) → body b e W = .ok (b', W') → Clean W W' ∧ R b' W' es) : ∀ (fuel : Nat) (it : MMapIter (BitVec w) CellMask) (b : β) (W : IntMaps w)
      (maps : VMaps (BitVec w) CellMask) (c : ListIter (Entry (BitVec w) CellMask)), MIInv ⟨W, [it], []⟩ ⟨maps, [c], []⟩ →
      R b W (c.elems.drop c.calls) → (c.elems.drop c.calls).length < fuel → liveLoop G body fuel it b W = (c.elems.drop c.calls).foldlM body b W
  | 0, _, _, _, _, _, _, _, h => by omega
  | fuel + 1, it, b, W, maps, c, h, hR, hf => by
    obtain ⟨h1, h2⟩ := MIInv.step G h (.next 0) (fun _ h => nomatch h)
    simp only [MIWorld.step, LMWorld.step, List.getElem?_cons_zero] at h1 h2
    unfold liveLoop
    cases hr : it.next G W.mem with
    | mk r H =>
      rw [hr] at h1 h2
      rcases r with e | ⟨it', ok⟩
      · exfalso
        obtain ⟨_, _, _, _, _, _, k⟩ := h1
        simp at k
      · have hw : (⟨H, W.sets, W.builders⟩ : IntMaps w) = W := h2
        have hok : ok = c.next.2 := by
          obtain ⟨_, _, _, _, _, _, k⟩ := h1
          simpa using k
        have hent : it'.entry = c.next.1.entry := by
          obtain ⟨_, _, _, _, _, k, _⟩ := h1
          exact k 0 it' c.next.1 rfl rfl
        have h3 : MIInv ⟨W, [it'], []⟩ ⟨maps, [c.next.1], []⟩ := by
          have := h1.forget
          simp only at this
          rw [hw] at this
          exact this
        cases ok with
        | true =>
          obtain ⟨e, he⟩ := value_next c hok.symm
          have hee := entry_next_true c hok.symm e he
          have hlt : c.calls < c.elems.length := by simpa [ListIter.next] using hok.symm
          have hdr : c.elems.drop c.calls = e :: c.elems.drop (c.calls + 1) := by
            have he' : c.elems[c.calls]? = some e := by simpa [ListIter.next, ListIter.value] using he
            rw [List.drop_eq_getElem_cons hlt]
            rw [List.getElem?_eq_getElem hlt] at he'
            rw [Option.some.inj he']
          rw [hdr] at hR
          rw [hdr, List.foldlM_cons]
          simp only [hw]
          have hE : (⟨it'.entry.1, it'.entry.2⟩ : Entry (BitVec w) CellMask) = e := by rw [hent, hee]
          rw [hE]
          cases hbody : body b e W with
          | error p =>
            have : ∀ f : β → IM w β, (body b e >>= f) W = .error p := by
              intro f
              show (match body b e W with | .ok (a, W') => f a W' | .error e => .error e) = _
              rw [hbody]
            rw [this]
          | ok r =>
            obtain ⟨b', W'⟩ := r
            rw [IM.bind_ok hbody]
            obtain ⟨hc, hR'⟩ := hb b e _ W b' W' hR hbody
            obtain ⟨maps', h4⟩ := hc _ _ h3
            exact liveLoop_eq G hb fuel it' b' _ maps' c.next.1 h4 hR' (by
              rw [hdr] at hf
              simp only [List.length_cons] at hf
              simp only [ListIter.next]; omega)
        | false =>
          have hdr : c.elems.drop c.calls = [] := by
            have : c.elems.length ≤ c.calls := by simpa [ListIter.next] using hok.symm
            exact List.drop_eq_nil_of_le this
          rw [hdr]
          simp only [hw]; rfl

theorem liveRange_eq {β : Type} (G : Growth) {body : β → Entry (BitVec w) CellMask → IM w β}
    {R : β → IntMaps w → List (Entry (BitVec w) CellMask) → Prop}
    (hb : ∀ b e es W b' W', R b W (e :: es) → body b e W = .ok (b', W') → Clean W W' ∧ R b' W' es) {W : IntMaps w} {V : IntVals w} (hV : MSim W V) {i : Nat} {m : FMap (BitVec w) CellMask}
    (hi : V.maps[i]? = some m) (fuel : Nat) (hf : m.tree.list.length < fuel) (b : β) (hR : R b W m.tree.list) :
    liveRange G fuel i body b W = m.tree.list.foldlM body b W := by
  obtain ⟨vw, S, B, h1, h2⟩ := hV
  have hV : MSim W V := ⟨vw, S, B, h1, h2⟩
  have h : MIInv ⟨W, [], []⟩ ⟨V, [], []⟩ :=
    ⟨vw, S, B, ⟨h1, fun j it h => by simp at h, fun _ => rfl, fun _ => rfl, fun _ _ h => nomatch h⟩, h2, fun j it l h => by simp at h, rfl⟩
  obtain ⟨s, hs, _, _, hm, _⟩ := hV.at hi
  obtain ⟨g1, g2⟩ := MIInv.step G h (.range i) (fun _ h => nomatch h)
  simp only [MIWorld.step, LMWorld.step, hs, hi, FMap.rangeList_spec hm, List.nil_append] at g1 g2
  unfold liveRange
  simp only [hs]
  cases hr : s.mapIterator G W.mem with
  | mk r H =>
    rw [hr] at g1 g2
    cases r with
    | error e =>
      exfalso
      obtain ⟨_, _, _, k, _⟩ := g1
      have := k.ilen rfl
      simp at this
    | ok it =>
      have hw : (⟨H, W.sets, W.builders⟩ : IntMaps w) = W := g2
      simp only [hw] at g1 ⊢
      exact liveLoop_eq G hb fuel it b W V ⟨m.tree.list, 0⟩ g1 hR hf

theorem IM.bind_congr {α β : Type} {x y : IM w α} {f g : α → IM w β} {W : IntMaps w} (h : x W = y W) (hf : ∀ a W', f a W' = g a W') :
    (x >>= f) W = (y >>= g) W := by
  show (match x W with | .ok (a, W') => f a W' | .error e => .error e) = (match y W with | .ok (a, W') => g a W' | .error e => .error e)
  rw [h]
  cases y W with
  | error e => rfl
  | ok r => exact hf r.1 r.2

theorem IM.bind_assoc {α β γ : Type} (x : IM w α) (f : α → IM w β) (g : β → IM w γ) (W : IntMaps w) :
    ((x >>= f) >>= g) W = (x >>= fun a => f a >>= g) W := by
  cases h : x W with
  | error e =>
    have h1 : (x >>= f) W = .error e := by show (match x W with | .ok (a, W') => f a W' | .error e => .error e) = _; rw [h]
    show (match (x >>= f) W with | .ok (a, W') => g a W' | .error e => .error e) = (match x W with | .ok (a, W') => (f a >>= g) W' | .error e => .error e)
    rw [h1, h]
  | ok r =>
    rw [IM.bind_ok h]
    show (match (x >>= f) W with | .ok (a, W') => g a W' | .error e => .error e) = _
    rw [IM.bind_ok h]
    rfl

/-- Whenever the code ends, map iterators that are under way have not been disturbed. -/
def Tidy {α : Type} (x : IM w α) : Prop := ∀ (W : IntMaps w) (a : α) (W' : IntMaps w), x W = .ok (a, W') → Clean W W'

theorem Tidy.pure {α : Type} (a : α) : Tidy (Pure.pure a : IM w α) := fun W b W' h => by cases h; exact Clean.refl _

theorem Tidy.bind {α β : Type} {x : IM w α} {f : α → IM w β} (hx : Tidy x) (hf : ∀ a, Tidy (f a)) : Tidy (x >>= f) := fun W b W' h => by
  cases hr : x W with
  | error e =>
    have : (x >>= f) W = .error e := by
      show (match x W with | .ok (a, W') => f a W' | .error e => .error e) = _
      rw [hr]
    rw [this] at h; cases h
  | ok r =>
    obtain ⟨a, W1⟩ := r
    rw [IM.bind_ok hr] at h
    exact (hx W a W1 hr).trans (hf a _ b W' h)

theorem tidy_get (i : Nat) (k : BitVec w) : Tidy (IM.get i k) := fun W a W' h => by
  unfold IM.get at h
  split at h
  · split at h
    · cases h; exact Clean.refl _
    · cases h
  · cases h

theorem tidy_put (G : Growth) (b : Nat) (k : BitVec w) (v : CellMask) : Tidy (IM.put G b k v) := fun W a W' h => by
  unfold IM.put at h
  cases h; exact Clean.call G (op := .put b k v) trivial

theorem tidy_interStep (G : Growth) (s : MInt) (b : Nat) (n : Int) (e : Entry (BitVec w) CellMask) : Tidy (mInterStep G s b n e) := by
  refine (tidy_get _ _).bind (fun g => ?_)
  split
  · exact Tidy.pure _
  · split
    · exact (tidy_put G _ _ _).bind (fun _ => Tidy.pure _)
    · exact Tidy.pure _

theorem tidy_whereStep (G : Growth) (p : BitVec w → Bool) (b : Nat) (n : Int) (e : Entry (BitVec w) CellMask) :
    Tidy (mWhereStep G p b n e) := by
  unfold mWhereStep
  split
  · exact (tidy_put G _ _ _).bind (fun _ => Tidy.pure _)
  · exact Tidy.pure _

theorem range_ok {W : IntMaps w} {V : IntVals w} (hV : MSim W V) {t : MInt} {u : IntSet w} (ht : Holds V t u) :
    IM.range t.data W = .ok (u.data.tree.list, W) := by
  obtain ⟨m, k1, _, k3, _⟩ := hV.at ht.1
  unfold IM.range
  rw [k1]
  simp only [k3]

theorem unionLive_eq (G : Growth) {W : IntMaps w} {V : IntVals w} (hV : MSim W V) {s t : MInt} {v u : IntSet w} (hs : Holds V s v)
    (ht : Holds V t u)
    (hroom : ∀ c, u.data.HasKey c → v.data.HasKey c ∨ ¬ Crowded (fun k => v.data.HasKey k ∨ u.data.HasKey k) c)
    (fuel : Nat) (hf : u.data.tree.list.length < fuel) : s.unionLive G fuel t W = s.union G t W := by
  unfold MInt.unionLive MInt.union
  rw [IM.bind_ok (range_ok hV ht)]
  refine liveRange_eq G (R := fun st W es => ∃ V vt, MSim W V ∧ Holds V s v ∧ Holds V st vt ∧ (∀ e ∈ es, u.data.HasKey e.key) ∧
    (∀ k, v.data.HasKey k → vt.data.HasKey k) ∧ (∀ k, vt.data.HasKey k → v.data.HasKey k ∨ u.data.HasKey k)) ?_ hV ht.1 fuel hf s ?_
  · rintro st e es W st' W' ⟨V, vt, h, hs, hst, hes, h1, h2⟩ hb
    have he := hes e (by simp)
    have hr : Room vt.data e.key := by
      rcases hroom e.key he with h | h
      · exact .inl (h1 _ h)
      · exact .inr (fun hc => h (AtLeast.imp hc (fun x hx => ⟨h2 x hx.1, hx.2⟩)))
    obtain ⟨v', g1, g2, a, W2, V2, ⟨k1, k2⟩, k3, k4, k5⟩ := gives_unionStep G h hs hst e hr
    rw [hb] at k1
    cases k1
    refine ⟨k2, V2, v', k3, hs.mono k4, k5, fun x hx => hes x (by simp [hx]), fun k hk => (g2 k).2 (.inr (h1 k hk)), fun k hk => ?_⟩
    rcases (g2 k).1 hk with rfl | hk
    · exact .inr he
    · exact h2 k hk
  · refine ⟨V, v, hV, hs, hs, fun e he => ?_, fun _ h => h, fun _ h => .inl h⟩
    rw [FMap.hasKey_iff (hV.valid ht), (mem_list_lk (hV.valid ht)).1 he]; rfl

theorem newBuilder_sim (G : Growth) {W : IntMaps w} {V : IntVals w} (hV : MSim W V) :
    ∃ W' V', IM.newBuilder G W = .ok (W.builders.length, W') ∧ MSim W' V' ∧ V.maps <+: V'.maps :=
  ⟨W.runMap G [.newBuilder], V.step .newBuilder, rfl, hV.step G .newBuilder trivial, List.prefix_refl _⟩

theorem intersectionLive_eq (G : Growth) {W : IntMaps w} {V : IntVals w} (hV : MSim W V) (s : MInt) {t : MInt}
    {u : IntSet w} (ht : Holds V t u) (fuel : Nat) (hf : u.data.tree.list.length < fuel) :
    s.intersectionLive G fuel t W = s.intersection G t W := by
  obtain ⟨W', V', n1, n2, n3⟩ := newBuilder_sim G hV
  unfold MInt.intersectionLive MInt.intersection
  rw [IM.bind_ok n1, IM.bind_ok n1]
  have ht' := ht.mono n3
  rw [IM.bind_ok (range_ok n2 ht')]
  exact IM.bind_congr (liveRange_eq G (R := fun _ _ _ => True) (fun b e es W b' W' _ h => ⟨tidy_interStep G s _ b e W b' W' h, trivial⟩)
    n2 ht'.1 fuel hf 0 trivial) (fun _ _ => rfl)

theorem whereLiveFold (G : Growth) (p : BitVec w → Bool) (b : Nat) : ∀ (es : List (Entry (BitVec w) CellMask)) (n : Int) (W : IntMaps w),
    es.foldlM (mWhereStep G p b) n W =
      ((((es.map (fun e => (⟨e.key, ⟨whereCell p e.key e.value.bits⟩⟩ : KeyValue (BitVec w) CellMask))).filter
        (fun kv => kv.value.bits ≠ 0#64)).forM (fun kv => IM.put G b kv.key kv.value)) >>= fun _ =>
        (Pure.pure (n + (((es.map (fun e => (⟨e.key, ⟨whereCell p e.key e.value.bits⟩⟩ : KeyValue (BitVec w) CellMask))).filter
        (fun kv => kv.value.bits ≠ 0#64)).map (fun kv => (ones kv.value.bits : Int))).sum) : IM w Int)) W
  | [], n, W => by
    show Except.ok (n, W) = Except.ok (n + 0, W)
    rw [Int.add_zero]
  | e :: es, n, W => by
    rw [List.foldlM_cons]
    by_cases hz : whereCell p e.key e.value.bits ≠ 0#64
    · have h1 : mWhereStep G p b n e W = .ok (n + ones (whereCell p e.key e.value.bits),
          W.runMap G [.put b e.key ⟨whereCell p e.key e.value.bits⟩]) := by
        unfold mWhereStep; rw [if_pos hz]; rfl
      rw [IM.bind_ok h1, whereLiveFold G p b es]
      rw [List.map_cons, List.filter_cons_of_pos (by simpa using hz)]
      rw [List.map_cons, List.sum_cons]
      have h2 : IM.put G b e.key ⟨whereCell p e.key e.value.bits⟩ W =
        .ok ((), W.runMap G [.put b e.key ⟨whereCell p e.key e.value.bits⟩]) := rfl
      show _ = ((IM.put G b e.key ⟨whereCell p e.key e.value.bits⟩ >>= fun _ => List.forM _ _) >>= _) W
      rw [IM.bind_assoc, IM.bind_ok h2, Int.add_assoc]
    · have h1 : mWhereStep G p b n e W = .ok (n, W) := by
        unfold mWhereStep; rw [if_neg hz]; rfl
      rw [IM.bind_ok h1, whereLiveFold G p b es]
      rw [List.map_cons, List.filter_cons_of_neg (by simpa using hz)]

theorem whereLive_eq (G : Growth) {W : IntMaps w} {V : IntVals w} (hV : MSim W V) {s : MInt}
    {v : IntSet w} (hs : Holds V s v) (p : BitVec w → Bool) (fuel : Nat) (hf : v.data.tree.list.length < fuel) :
    s.whereLive G fuel p W = s.where G p W := by
  obtain ⟨W', V', n1, n2, n3⟩ := newBuilder_sim G hV
  unfold MInt.whereLive MInt.where IM.build
  rw [IM.bind_ok n1, IM.bind_ok (range_ok hV hs)]
  rw [IM.bind_assoc, IM.bind_ok n1]
  have h1 := liveRange_eq G (R := fun _ _ _ => True) (fun b e es W b' W' _ h => ⟨tidy_whereStep G p _ b e W b' W' h, trivial⟩) n2
    (hs.mono n3).1 fuel hf 0 trivial (body := mWhereStep G p W.builders.length)
  rw [whereLiveFold] at h1
  refine (IM.bind_congr h1 (fun _ _ => rfl)).trans ?_
  rw [IM.bind_assoc, IM.bind_assoc]
  refine IM.bind_congr rfl (fun _ W2 => ?_)
  rw [Int.zero_add]; rfl

end Frozen
