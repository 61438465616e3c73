import Verif.Spec.IntHistory
import Verif.Proof.IntPhantom
import Verif.Proof.MemCompare
import Verif.Props.MapValues
import Verif.Proof.MapIter

/-! # Integer sets in memory behave as integer sets that are values -/

set_option linter.unusedSectionVars false

namespace Frozen

variable {w : Nat} [GoKey (BitVec w)] [PrimKey (BitVec w)]

abbrev IntVals (w : Nat) := VMaps (BitVec w) CellMask

theorem okBind {α β : Type} (a : α) (f : α → Go β) : ((Except.ok a : Go α) >>= f) = f a := rfl

omit [GoKey (BitVec w)] [PrimKey (BitVec w)] in
theorem IM.bind_ok {α β : Type} {x : IM w α} {f : α → IM w β} {W W' : IntMaps w} {a : α} (h : x W = .ok (a, W')) :
    (x >>= f) W = f a W' := by
  show (match x W with | .ok (a, W') => f a W' | .error e => .error e) = _
  rw [h]

/-- The maps in memory are those values. -/
def MSim (W : IntMaps w) (V : IntVals w) : Prop := ∃ vw S B, HistInv true W vw S B ∧ MapsAre V vw

variable {W : IntMaps w} {V : IntVals w}

theorem MSim.init : MSim (World.init : IntMaps w) ⟨[], []⟩ := ⟨⟨[], []⟩, ∅, fun _ => ∅, HistInv.init true, ⟨rfl, rfl⟩⟩

theorem MSim.step (G : Growth) (h : MSim W V) (op : MOp (BitVec w) CellMask) (hu : UncrowdedMap W op) :
    MSim (W.runMap G [op]) (V.step op) := by
  obtain ⟨vw, S, B, h1, h2⟩ := h
  obtain ⟨S', B', h3⟩ := runMap_inv G [op] h1 ⟨hu, trivial⟩
  exact ⟨_, S', B', h3, MapsAre.run [op] h2⟩

theorem MSim.len (h : MSim W V) : W.sets.length = V.maps.length := by
  obtain ⟨vw, S, B, h1, h2⟩ := h
  rw [h1.setsLen rfl, h2.sets, List.length_map]

theorem MSim.blen (h : MSim W V) : W.builders.length = V.builders.length := by
  obtain ⟨vw, S, B, h1, h2⟩ := h
  rw [h1.blen, h2.builders]

theorem MSim.at (h : MSim W V) {i : Nat} {m : FMap (BitVec w) CellMask} (hi : V.maps[i]? = some m) :
    ∃ s, W.sets[i]? = some s ∧ (∀ k, s.mapGet W.mem k = m.get k) ∧ s.elems W.mem = .ok m.tree.list ∧ m.Valid ∧
      ∃ S n, Rep W.mem S 0 s.root n ∧ s.val n = m.tree := by
  have hlt : i < W.sets.length := by rw [h.len]; exact (List.getElem?_eq_some_iff.1 hi).1
  obtain ⟨vw, S, B, h1, h2⟩ := h
  obtain ⟨n, hn, hv⟩ := h1.sets i _ (List.getElem?_eq_getElem hlt)
  have h3 := (hv rfl).1
  rw [h2.at, hi] at h3
  have h4 : W.sets[i].val n = m.tree := (Option.some.inj h3).symm
  have hm : m.Valid := by
    show Tree.Valid m.tree
    rw [← h4]; exact (hv rfl).2
  refine ⟨_, List.getElem?_eq_getElem hlt, (asMap _ m hn h4).2, ?_, hm, S, n, hn, h4⟩
  have h5 : W.sets[i].elems W.mem = .ok (Frozen.elems n) := elemsM_eq hn memFuel (fuelOk_mem 0)
  rw [h5, ← h4]; rfl

/-- Map iterators that are under way in `W` go on in `W'` as if nothing had happened. -/
def Clean (W W' : IntMaps w) : Prop := ∀ (its : List (MMapIter (BitVec w) CellMask)) (l : LMWorld (BitVec w) CellMask),
  MIInv ⟨W, its, []⟩ l → ∃ maps, MIInv ⟨W', its, []⟩ ⟨maps, l.iters, []⟩

theorem Clean.refl (W : IntMaps w) : Clean W W := fun its l h => ⟨l.maps, by
  obtain ⟨vw, S, B, h1, h2, h3, _⟩ := h
  exact ⟨vw, S, B, h1, h2, h3, rfl⟩⟩

theorem Clean.trans {W W' W'' : IntMaps w} (h : Clean W W') (h' : Clean W' W'') : Clean W W'' := fun its l hl => by
  obtain ⟨m, hm⟩ := h its l hl
  exact h' its ⟨m, l.iters, []⟩ hm

theorem Clean.call (G : Growth) {W : IntMaps w} {op : MOp (BitVec w) CellMask} (hu : UncrowdedMap W op) : Clean W (W.runMap G [op]) :=
  fun its l hl => by
    have h := (MIInv.step G hl (.call op) (fun o ho => by cases ho; exact hu)).1
    obtain ⟨vw, S, B, h1, h2, h3, _⟩ := h
    exact ⟨(l.step (.call op)).maps, vw, S, B, h1, h2, h3, rfl⟩

/-- The code ends without a panic; map iterators are not disturbed; the maps in memory are still values, the earlier ones the same; and `Q` holds. -/
def MRuns {α : Type} (x : IM w α) (W : IntMaps w) (V : IntVals w) (Q : α → IntVals w → Prop) : Prop :=
  ∃ a W' V', (x W = .ok (a, W') ∧ Clean W W') ∧ MSim W' V' ∧ V.maps <+: V'.maps ∧ Q a V'

theorem MRuns.bind {α β : Type} {x : IM w α} {f : α → IM w β} {Q : α → IntVals w → Prop} {R : β → IntVals w → Prop}
    (h : MRuns x W V Q) (hf : ∀ a W' V', MSim W' V' → V.maps <+: V'.maps → Q a V' → MRuns (f a) W' V' R) : MRuns (x >>= f) W V R := by
  obtain ⟨a, W', V', h1, h2, h3, h4⟩ := h
  obtain ⟨b, W'', V'', g1, g2, g3, g4⟩ := hf a W' V' h2 h3 h4
  refine ⟨b, W'', V'', ⟨?_, h1.2.trans g1.2⟩, g2, h3.trans g3, g4⟩
  show (match x W with | .ok (a, W') => f a W' | .error e => .error e) = _
  rw [h1.1]; exact g1.1

theorem MRuns.pure {α : Type} {a : α} {Q : α → IntVals w → Prop} (h : MSim W V) (hQ : Q a V) : MRuns (Pure.pure a : IM w α) W V Q :=
  ⟨a, W, V, ⟨rfl, Clean.refl W⟩, h, List.prefix_refl _, hQ⟩

theorem MRuns.mono {α : Type} {x : IM w α} {Q R : α → IntVals w → Prop} (h : MRuns x W V Q) (hq : ∀ a V', V.maps <+: V'.maps → Q a V' → R a V') :
    MRuns x W V R := by
  obtain ⟨a, W', V', h1, h2, h3, h4⟩ := h
  exact ⟨a, W', V', h1, h2, h3, hq a V' h3 h4⟩

theorem at_mono {V V' : IntVals w} (h : V.maps <+: V'.maps) {i : Nat} {m : FMap (BitVec w) CellMask} (hi : V.maps[i]? = some m) :
    V'.maps[i]? = some m := by
  obtain ⟨l, hl⟩ := h
  rw [← hl, List.getElem?_append_left (List.getElem?_eq_some_iff.1 hi).1, hi]

theorem runs_get (h : MSim W V) {i : Nat} {m : FMap (BitVec w) CellMask} (hi : V.maps[i]? = some m) (k : BitVec w) :
    MRuns (IM.get i k) W V (fun r V' => V' = V ∧ r = m.tree.lk k) := by
  obtain ⟨s, h1, h2, _, hm, _⟩ := h.at hi
  refine ⟨m.tree.lk k, W, V, ⟨?_, Clean.refl W⟩, h, List.prefix_refl _, rfl, rfl⟩
  unfold IM.get
  rw [h1]
  simp only [h2, FMap.get_spec hm]

theorem runs_range (h : MSim W V) {i : Nat} {m : FMap (BitVec w) CellMask} (hi : V.maps[i]? = some m) :
    MRuns (IM.range i) W V (fun r V' => V' = V ∧ r = m.tree.list) := by
  obtain ⟨s, h1, _, h3, hm, _⟩ := h.at hi
  refine ⟨m.tree.list, W, V, ⟨?_, Clean.refl W⟩, h, List.prefix_refl _, rfl, rfl⟩
  unfold IM.range
  rw [h1]
  simp only [h3]

theorem runs_equal (h : MSim W V) {i j : Nat} {m n : FMap (BitVec w) CellMask} (hi : V.maps[i]? = some m) (hj : V.maps[j]? = some n) :
    MRuns (IM.equal i j) W V (fun r V' => V' = V ∧ m.equal n = .ok r) := by
  obtain ⟨s, h1, _, _, hm, S, a, h4, h5⟩ := h.at hi
  obtain ⟨t, k1, _, _, hn, S', b, k4, k5⟩ := h.at hj
  obtain ⟨r, hr, _⟩ := FMap.equal_spec hm hn
  refine ⟨r, W, V, ⟨?_, Clean.refl W⟩, h, List.prefix_refl _, rfl, hr⟩
  unfold IM.equal
  rw [h1, k1]
  simp only
  rw [MTree.equalP_eq mapEntryEqual (h4.mono (Set.subset_union_left (t := S'))) (k4.mono Set.subset_union_right), h5, k5]
  have : m.tree.equal mapEntryEqual n.tree = .ok r := hr
  simp only [this]

section
variable (G : Growth)

theorem runs_call (h : MSim W V) {op : MOp (BitVec w) CellMask} {m : FMap (BitVec w) CellMask} {bs : List (MapBuilder (BitVec w) CellMask)}
    (hop : V.step op = ⟨V.maps ++ [m], bs⟩) (hu : UncrowdedMap W op) :
    MRuns (IM.call G op) W V (fun i V' => V' = ⟨V.maps ++ [m], bs⟩ ∧ i = V.maps.length) := by
  have hs := h.step G op hu
  refine ⟨V.maps.length, W.runMap G [op], _, ⟨?_, Clean.call G hu⟩, hs, ?_, hop, rfl⟩
  · unfold IM.call
    rw [if_pos, h.len]
    rw [hs.len, h.len, hop]; simp
  · rw [hop]; exact List.prefix_append ..

/-- The map has the key, or not three others with its hash. -/
def Room (m : FMap (BitVec w) CellMask) (k : BitVec w) : Prop := m.HasKey k ∨ ¬ Crowded m.HasKey k

theorem MSim.room (h : MSim W V) {i : Nat} {m : FMap (BitVec w) CellMask} (hi : V.maps[i]? = some m) {k : BitVec w} (hr : Room m k)
    (c : CellMask) : UncrowdedMap W (.with i k c) := by
  obtain ⟨s, h1, h2, _, hm, _⟩ := h.at hi
  intro s' hs'
  obtain rfl : s = s' := Option.some.inj (h1.symm.trans hs')
  have he : s.HasKey W.mem = m.HasKey := by
    funext x
    unfold MTree.HasKey
    rw [FMap.hasKey_iff hm, h2, FMap.get_spec hm]
    simp only [Except.ok.injEq, eq_iff_iff, Option.isSome_iff_exists]
  rw [he]; exact hr

theorem runs_with (h : MSim W V) {i : Nat} {m : FMap (BitVec w) CellMask} (hi : V.maps[i]? = some m) (k : BitVec w) (c : CellMask)
    (hr : Room m k) :
    ∃ m', m.with k c = .ok m' ∧ m'.Valid ∧ (∀ k', m'.HasKey k' ↔ k' = k ∨ m.HasKey k') ∧ MRuns (IM.call G (.with i k c)) W V (fun j V' => V'.maps[j]? = some m') := by
  obtain ⟨_, _, _, _, hm, _⟩ := h.at hi
  obtain ⟨m', h1, h2, h3⟩ := FMap.with_spec hm k c
  refine ⟨m', h1, h2, fun k' => ?_, (runs_call G h (m := m') (bs := V.builders) ?_ (h.room hi hr c)).mono ?_⟩
  · rw [FMap.hasKey_iff h2, FMap.hasKey_iff hm, h3, setKey_prim]
    by_cases hk : k = k'
    · subst hk; simp
    · rw [if_neg hk]
      constructor
      · exact .inr
      · rintro (h | h)
        · exact absurd h.symm hk
        · exact h
  · simp only [VMaps.step, VMaps.on, hi, h1, VMaps.push]
  · rintro j V' _ ⟨rfl, rfl⟩; simp

theorem runs_without (h : MSim W V) {i : Nat} {m : FMap (BitVec w) CellMask} (hi : V.maps[i]? = some m) (k : BitVec w) :
    ∃ m', m.without k = .ok m' ∧ m'.Valid ∧ MRuns (IM.call G (.without i k)) W V (fun j V' => V'.maps[j]? = some m') := by
  obtain ⟨_, _, _, _, hm, _⟩ := h.at hi
  obtain ⟨m', h1, h2, _⟩ := FMap.without_spec hm k
  refine ⟨m', h1, h2, (runs_call G h (op := .without i k) (m := m') (bs := V.builders) ?_ trivial).mono ?_⟩
  · simp only [VMaps.step, VMaps.on, hi, h1, VMaps.push]
  · rintro j V' _ ⟨rfl, rfl⟩; simp

theorem runs_newBuilder (h : MSim W V) :
    MRuns (IM.newBuilder G) W V (fun b V' => V'.maps = V.maps ∧ V'.builders[b]? = some (Tree.zero : MapBuilder (BitVec w) CellMask)) := by
  refine ⟨W.builders.length, W.runMap G [.newBuilder], _, ⟨rfl, Clean.call G (op := .newBuilder) trivial⟩, h.step G .newBuilder trivial, List.prefix_refl _, rfl, ?_⟩
  rw [h.blen]; simp [VMaps.step]

theorem runs_put (h : MSim W V) {b : Nat} {x : MapBuilder (BitVec w) CellMask} (hb : V.builders[b]? = some x) (hx : Tree.Valid x)
    (k : BitVec w) (c : CellMask) : ∃ y, MapBuilder.put x k c = .ok y ∧ Tree.Valid y ∧
      MRuns (IM.put G b k c) W V (fun _ V' => V'.maps = V.maps ∧ V'.builders[b]? = some y) := by
  obtain ⟨y, h1, h2, _⟩ := MapBuilder.put_spec hx k c
  have hs : V.step (.put b k c) = ⟨V.maps, V.builders.set b y⟩ := by
    simp only [VMaps.step, VMaps.onBuilder, hb, h1]
  refine ⟨y, h1, h2, (), _, _, ⟨rfl, Clean.call G (op := .put b k c) trivial⟩, h.step G (.put b k c) trivial, ?_, ?_, ?_⟩
  · rw [hs]
  · rw [hs]
  · rw [hs]
    simp [List.getElem?_set_self (List.getElem?_eq_some_iff.1 hb).1]

theorem runs_finish (h : MSim W V) {b : Nat} {x : MapBuilder (BitVec w) CellMask} (hb : V.builders[b]? = some x) :
    MRuns (IM.call G (.finish b)) W V (fun j V' => V'.maps[j]? = some (MapBuilder.finish x).1) := by
  refine (runs_call G h (op := .finish b) (m := (MapBuilder.finish x).1) (bs := V.builders.set b (MapBuilder.finish x).2) ?_ trivial).mono ?_
  · simp only [VMaps.step, hb]
  · rintro j V' _ ⟨rfl, rfl⟩; simp

theorem runs_puts : ∀ (kvs : List (KeyValue (BitVec w) CellMask)) {W : IntMaps w} {V : IntVals w} {b : Nat}
    {x : MapBuilder (BitVec w) CellMask}, MSim W V → V.builders[b]? = some x → Tree.Valid x →
    ∃ y, kvs.foldlM (fun b kv => MapBuilder.put b kv.key kv.value) x = .ok y ∧ Tree.Valid y ∧
      MRuns (kvs.forM (fun kv => IM.put G b kv.key kv.value)) W V (fun _ V' => V'.builders[b]? = some y)
  | [], W, V, b, x, h, hb, hx => ⟨x, rfl, hx, MRuns.pure h hb⟩
  | kv :: kvs, W, V, b, x, h, hb, hx => by
    obtain ⟨y, h1, h2, W1, h3⟩ := runs_put G h hb hx kv.key kv.value
    obtain ⟨W', V', e1, e2, e3, e4, e5⟩ := h3
    obtain ⟨z, g1, g2, g3⟩ := runs_puts kvs e2 e5 h2
    refine ⟨z, ?_, g2, ?_⟩
    · rw [List.foldlM_cons, h1]; exact g1
    · obtain ⟨a, W'', V'', f1, f2, f3, f4⟩ := g3
      refine ⟨a, W'', V'', ⟨?_, e1.2.trans f1.2⟩, f2, e3.trans f3, f4⟩
      show (IM.put G b kv.key kv.value >>= fun _ => kvs.forM (fun kv => IM.put G b kv.key kv.value)) W = _
      rw [IM.bind_ok e1.1]; exact f1.1

theorem runs_build (h : MSim W V) (kvs : List (KeyValue (BitVec w) CellMask)) : ∃ m, buildMap kvs = .ok m ∧ m.Valid ∧
    MRuns (IM.build G kvs) W V (fun j V' => V'.maps[j]? = some m) := by
  obtain ⟨m, h1, h2, _⟩ := buildMap_spec kvs
  refine ⟨m, h1, h2, ?_⟩
  unfold IM.build
  refine (runs_newBuilder G h).bind (fun b W' V' hs _ hQ => ?_)
  obtain ⟨y, g1, g2, g3⟩ := runs_puts G kvs hs hQ.2 Tree.valid_zero
  refine g3.bind (fun _ W'' V'' hs' _ hy => ?_)
  refine (runs_finish G hs' hy).mono (fun j V3 _ hj => ?_)
  rw [hj]
  unfold buildMap at h1
  rw [g1] at h1
  cases h1; rfl

end

/-! ### The methods -/

/-- The set in memory is the value `v`. -/
def Holds (V : IntVals w) (s : MInt) (v : IntSet w) : Prop := V.maps[s.data]? = some v.data ∧ s.count = v.count

theorem Holds.mono {V V' : IntVals w} {s : MInt} {v : IntSet w} (h : Holds V s v) (hp : V.maps <+: V'.maps) : Holds V' s v :=
  ⟨at_mono hp h.1, h.2⟩

theorem MSim.valid (h : MSim W V) {s : MInt} {v : IntSet w} (hs : Holds V s v) : v.data.Valid := by
  obtain ⟨_, _, _, _, hm, _⟩ := h.at hs.1
  exact hm

theorem locate_ok {sg : Bool} {v : IntSet w} (hv : v.data.Valid) (i : BitVec w) :
    v.locate sg i = .ok (((v.data.tree.lk (locateCell sg i).1).getD default).bits, locateCell sg i) := by
  unfold IntSet.locate
  rw [FMap.get_spec hv]; rfl

theorem runs_locate (h : MSim W V) {s : MInt} {v : IntSet w} (hs : Holds V s v) (sg : Bool) (i : BitVec w) :
    MRuns (s.locate sg i) W V (fun r V' => V' = V ∧ r = (((v.data.tree.lk (locateCell sg i).1).getD default).bits, locateCell sg i)) := by
  unfold MInt.locate
  refine (runs_get h hs.1 _).bind (fun r W' V' hs' _ hQ => ?_)
  obtain ⟨rfl, rfl⟩ := hQ
  exact MRuns.pure hs' ⟨rfl, rfl⟩

theorem runs_has (h : MSim W V) {s : MInt} {v : IntSet w} (hs : Holds V s v) (sg : Bool) (i : BitVec w) :
    MRuns (s.has sg i) W V (fun r _ => v.has sg i = .ok r) := by
  unfold MInt.has
  refine (runs_locate h hs sg i).bind (fun r W' V' hs' _ hQ => ?_)
  obtain ⟨rfl, rfl⟩ := hQ
  refine MRuns.pure hs' ?_
  unfold IntSet.has
  rw [locate_ok (h.valid hs)]; rfl

theorem cellsOut_eq (es : List (Entry (BitVec w) CellMask)) : cellsOut es = es.flatMap cellOut := by
  unfold cellsOut
  congr 1; funext e
  unfold cellOut
  split
  · rename_i h0
    have h1 : tz (0#64) = 64 := by decide
    rw [h0, clearLow_zero, h1, bitLoop_eq]
    have := bitsOf_zero (w := 64)
    unfold bitsOf at this
    rw [this]; rfl
  · rename_i h0
    rw [bitsOf_cons h0, bitLoop_eq]; rfl

theorem runs_elements (h : MSim W V) {s : MInt} {v : IntSet w} (hs : Holds V s v) :
    MRuns s.elements W V (fun r V' => V' = V ∧ v.elements = .ok r) := by
  unfold MInt.elements
  refine (runs_range h hs.1).bind (fun r W' V' hs' _ hQ => ?_)
  obtain ⟨rfl, rfl⟩ := hQ
  exact MRuns.pure hs' ⟨rfl, by rw [elements_spec0 (h.valid hs), cellsOut_eq]⟩

theorem runs_subsetLoop {t : MInt} {u : IntSet w} : ∀ (es : List (Entry (BitVec w) CellMask)) {W : IntMaps w} {V : IntVals w}, MSim W V →
    Holds V t u → MRuns (mSubsetLoop t es) W V (fun r _ => intSubsetLoop u es = .ok r)
  | [], W, V, h, _ => MRuns.pure h rfl
  | e :: es, W, V, h, ht => by
    unfold mSubsetLoop intSubsetLoop
    refine (runs_get h ht.1 e.key).bind (fun r W' V' hs' _ hQ => ?_)
    obtain ⟨rfl, rfl⟩ := hQ
    rw [FMap.get_spec (h.valid ht)]
    rw [okBind]
    cases u.data.tree.lk e.key with
    | none => exact MRuns.pure hs' rfl
    | some tc =>
      simp only
      split
      · exact MRuns.pure hs' rfl
      · exact runs_subsetLoop es hs' ht

theorem runs_isSubsetOf (h : MSim W V) {s t : MInt} {v u : IntSet w} (hs : Holds V s v) (ht : Holds V t u) :
    MRuns (s.isSubsetOf t) W V (fun r _ => v.isSubsetOf u = .ok r) := by
  unfold MInt.isSubsetOf IntSet.isSubsetOf
  refine (runs_range h hs.1).bind (fun r W' V' hs' _ hQ => ?_)
  obtain ⟨rfl, rfl⟩ := hQ
  rw [FMap.rangeList_spec (h.valid hs)]
  exact runs_subsetLoop _ hs' ht

section
variable (G : Growth)

/-- The code returns what the function on values returns. -/
def Gives (x : IM w MInt) (W : IntMaps w) (V : IntVals w) (r : Go (IntSet w)) : Prop :=
  ∃ v', r = .ok v' ∧ MRuns x W V (fun s' V' => Holds V' s' v')

theorem MRuns.gives {α : Type} {x : IM w α} {f : α → IM w MInt} {Q : α → IntVals w → Prop} {r : Go (IntSet w)} (h : MRuns x W V Q)
    (hf : ∀ a W' V', MSim W' V' → V.maps <+: V'.maps → Q a V' → Gives (f a) W' V' r) : Gives (x >>= f) W V r := by
  obtain ⟨a, W', V', h1, h2, h3, h4⟩ := h
  obtain ⟨v', g1, g2⟩ := hf a W' V' h2 h3 h4
  refine ⟨v', g1, ?_⟩
  obtain ⟨b, W'', V'', k1, k2, k3, k4⟩ := g2
  refine ⟨b, W'', V'', ⟨?_, h1.2.trans k1.2⟩, k2, h3.trans k3, k4⟩
  show (match x W with | .ok (a, W') => f a W' | .error e => .error e) = _
  rw [h1.1]; exact k1.1

theorem gives_with (h : MSim W V) {s : MInt} {v : IntSet w} (hs : Holds V s v) (sg : Bool) (i : BitVec w)
    (hr : Room v.data (locateCell sg i).1) :
    Gives (s.with G sg i) W V (v.with sg i) := by
  unfold MInt.with IntSet.with
  refine (runs_locate h hs sg i).gives (fun r W' V' hs' _ hQ => ?_)
  obtain ⟨rfl, rfl⟩ := hQ
  rw [locate_ok (h.valid hs)]
  rw [okBind]
  dsimp only
  split
  · obtain ⟨m', g1, g2, _, g3⟩ := runs_with G hs' hs.1 (locateCell sg i).1
      (⟨((v.data.tree.lk (locateCell sg i).1).getD default).bits ||| (locateCell sg i).2⟩ : CellMask) hr
    refine g3.gives (fun d W'' V'' hs'' _ hd => ⟨⟨m', v.count + 1⟩, ?_, MRuns.pure hs'' ⟨hd, ?_⟩⟩)
    · rw [g1]; rfl
    · rw [← hs.2]
  · exact ⟨v, rfl, MRuns.pure hs' hs⟩

theorem gives_without (h : MSim W V) {s : MInt} {v : IntSet w} (hs : Holds V s v) (sg : Bool) (i : BitVec w) :
    Gives (s.without G sg i) W V (v.without sg i) := by
  unfold MInt.without IntSet.without
  refine (runs_locate h hs sg i).gives (fun r W' V' hs' _ hQ => ?_)
  obtain ⟨rfl, rfl⟩ := hQ
  rw [locate_ok (h.valid hs)]
  rw [okBind]
  dsimp only
  split
  · rename_i hbit
    split
    · have hr : Room v.data (locateCell sg i).1 := by
        refine .inl ((FMap.hasKey_iff (h.valid hs) _).2 ?_)
        cases hl : v.data.tree.lk (locateCell sg i).1 with
        | some x => rfl
        | none =>
          rw [hl] at hbit
          exact absurd (BitVec.zero_and) hbit
      obtain ⟨m', g1, g2, _, g3⟩ := runs_with G hs' hs.1 (locateCell sg i).1
        (⟨((v.data.tree.lk (locateCell sg i).1).getD default).bits &&& ~~~(locateCell sg i).2⟩ : CellMask) hr
      refine g3.gives (fun d W'' V'' hs'' _ hd => ⟨⟨m', v.count - 1⟩, ?_, MRuns.pure hs'' ⟨hd, ?_⟩⟩)
      · rw [g1]; rfl
      · rw [← hs.2]
    · obtain ⟨m', g1, g2, g3⟩ := runs_without G hs' hs.1 (locateCell sg i).1
      refine g3.gives (fun d W'' V'' hs'' _ hd => ⟨⟨m', v.count - 1⟩, ?_, MRuns.pure hs'' ⟨hd, ?_⟩⟩)
      · rw [g1]; rfl
      · rw [← hs.2]
  · exact ⟨v, rfl, MRuns.pure hs' hs⟩

theorem gives_new (h : MSim W V) (sg : Bool) (order : List (BitVec w × CellMask) → List (BitVec w × CellMask)) (is : List (BitVec w)) :
    Gives (mNewIntSet G sg order is) W V (newIntSet sg order is) := by
  unfold mNewIntSet newIntSet
  dsimp only
  obtain ⟨m, g1, g2, g3⟩ := runs_build G h ((order (is.foldl (intSetCell sg) [])).map (fun e => (⟨e.1, e.2⟩ : KeyValue (BitVec w) CellMask)))
  refine g3.gives (fun d W'' V'' hs'' _ hd => ⟨⟨m, _⟩, ?_, MRuns.pure hs'' ⟨hd, rfl⟩⟩)
  rw [g1]; rfl

theorem gives_where (h : MSim W V) {s : MInt} {v : IntSet w} (hs : Holds V s v) (p : BitVec w → Bool) :
    Gives (s.where G p) W V (v.where p) := by
  unfold MInt.where IntSet.where
  refine (runs_range h hs.1).gives (fun r W' V' hs' _ hQ => ?_)
  obtain ⟨rfl, rfl⟩ := hQ
  rw [FMap.rangeList_spec (h.valid hs)]
  obtain ⟨m, g1, g2, g3⟩ := runs_build G hs' ((v.data.tree.list.map (fun e => (⟨e.key, ⟨whereCell p e.key e.value.bits⟩⟩ :
    KeyValue (BitVec w) CellMask))).filter (fun kv => kv.value.bits ≠ 0#64))
  refine g3.gives (fun d W'' V'' hs'' _ hd => ⟨⟨m, _⟩, ?_, MRuns.pure hs'' ⟨hd, rfl⟩⟩)
  rw [okBind]; dsimp only; rw [g1]; rfl

theorem gives_map (h : MSim W V) {s : MInt} {v : IntSet w} (hs : Holds V s v) (sg : Bool)
    (order : List (BitVec w × CellMask) → List (BitVec w × CellMask)) (f : BitVec w → BitVec w) :
    Gives (s.map G sg order f) W V (v.map sg order f) := by
  unfold MInt.map IntSet.map
  refine (runs_elements h hs).gives (fun r W' V' hs' _ hQ => ?_)
  obtain ⟨rfl, hr⟩ := hQ
  rw [hr]
  exact gives_new G hs' sg order _

theorem runs_inter {s : MInt} {v : IntSet w} : ∀ (es : List (Entry (BitVec w) CellMask)) {W : IntMaps w} {V : IntVals w} {b : Nat}
    {x : MapBuilder (BitVec w) CellMask} (n : Int), MSim W V → Holds V s v → V.builders[b]? = some x → Tree.Valid x →
    ∃ y k, es.foldlM (interStep v) (x, n) = .ok (y, k) ∧ Tree.Valid y ∧
      MRuns (es.foldlM (mInterStep G s b) n) W V (fun k' V' => k' = k ∧ V'.builders[b]? = some y)
  | [], W, V, b, x, n, h, _, hb, hx => ⟨x, n, rfl, hx, MRuns.pure h ⟨rfl, hb⟩⟩
  | e :: es, W, V, b, x, n, h, hs, hb, hx => by
    have hstep : ∃ y k, interStep v (x, n) e = .ok (y, k) ∧ Tree.Valid y ∧
        MRuns (mInterStep G s b n e) W V (fun k' V' => k' = k ∧ V'.builders[b]? = some y) := by
      unfold mInterStep interStep
      rw [FMap.get_spec (h.valid hs)]
      rw [okBind]
      dsimp only
      cases hl : v.data.tree.lk e.key with
      | none =>
        refine ⟨x, n, rfl, hx, (runs_get h hs.1 e.key).bind (fun r W' V' hs' _ hQ => ?_)⟩
        obtain ⟨rfl, rfl⟩ := hQ
        rw [hl]
        exact MRuns.pure hs' ⟨rfl, hb⟩
      | some sc =>
        simp only
        by_cases hz : sc.bits &&& e.value.bits = 0#64
        · rw [if_neg (by simp [hz])]
          refine ⟨x, n, rfl, hx, (runs_get h hs.1 e.key).bind (fun r W' V' hs' _ hQ => ?_)⟩
          obtain ⟨rfl, rfl⟩ := hQ
          rw [hl]
          simp only
          rw [if_neg (by simp [hz])]
          exact MRuns.pure hs' ⟨rfl, hb⟩
        · rw [if_pos hz]
          obtain ⟨y, g1, g2, g3⟩ := runs_put G h hb hx e.key (⟨sc.bits &&& e.value.bits⟩ : CellMask)
          refine ⟨y, n + ones (sc.bits &&& e.value.bits), by rw [g1]; rfl, g2, ?_⟩
          obtain ⟨a, W1, V1, ⟨k1, _⟩, k2, k3, k4, k5⟩ := runs_get h hs.1 e.key
          subst k4; subst k5
          obtain ⟨a2, W2, V2, j1, j2, j3, j4⟩ := g3
          have hW : W1 = W := by
            obtain ⟨s0, h1, h2, _, hm, _⟩ := h.at hs.1
            unfold IM.get at k1
            rw [h1] at k1
            simp only [h2, FMap.get_spec hm, Except.ok.injEq, Prod.mk.injEq] at k1
            exact k1.2.symm
          subst hW
          refine ⟨n + ones (sc.bits &&& e.value.bits), W2, V2, ⟨?_, j1.2⟩, j2, j3, rfl, j4.2⟩
          rw [IM.bind_ok k1, hl]
          simp only
          rw [if_pos hz]
          rw [IM.bind_ok j1.1]; rfl
    obtain ⟨y, k, h1, h2, h3⟩ := hstep
    obtain ⟨k', W', V', e1, e2, e3, e4, e5⟩ := h3
    subst e4
    obtain ⟨z, k2, g1, g2, g3⟩ := runs_inter es k' e2 (hs.mono e3) e5 h2
    refine ⟨z, k2, ?_, g2, ?_⟩
    · rw [List.foldlM_cons, h1]; exact g1
    · obtain ⟨a, W'', V'', f1, f2, f3, f4⟩ := g3
      refine ⟨a, W'', V'', ⟨?_, e1.2.trans f1.2⟩, f2, e3.trans f3, f4⟩
      rw [List.foldlM_cons]
      rw [IM.bind_ok e1.1]; exact f1.1

theorem gives_intersection (h : MSim W V) {s t : MInt} {v u : IntSet w} (hs : Holds V s v) (ht : Holds V t u) :
    Gives (s.intersection G t) W V (v.intersection u) := by
  unfold MInt.intersection IntSet.intersection
  refine (runs_newBuilder G h).gives (fun b W1 V1 hs1 hp1 hQ1 => ?_)
  refine (runs_range hs1 (ht.mono hp1).1).gives (fun r W' V' hs' hp hQ => ?_)
  obtain ⟨rfl, rfl⟩ := hQ
  rw [FMap.rangeList_spec (h.valid ht)]
  obtain ⟨y, k, g1, g2, g3⟩ := runs_inter G u.data.tree.list 0 hs' (hs.mono hp1) hQ1.2 Tree.valid_zero
  refine g3.gives (fun n W2 V2 hs2 hp2 hQ2 => ?_)
  obtain ⟨rfl, hy⟩ := hQ2
  refine (runs_finish G hs2 hy).gives (fun d W3 V3 hs3 hp3 hd => ⟨⟨(MapBuilder.finish y).1, n⟩, ?_, MRuns.pure hs3 ⟨hd, rfl⟩⟩)
  rw [okBind, g1]; rfl

theorem gives_unionStep (h : MSim W V) {s st : MInt} {v vt : IntSet w} (hs : Holds V s v) (hst : Holds V st vt)
    (e : Entry (BitVec w) CellMask) (hr : Room vt.data e.key) :
    ∃ v', unionStep v vt e = .ok v' ∧ (∀ k, v'.data.HasKey k ↔ k = e.key ∨ vt.data.HasKey k) ∧
      MRuns (mUnionStep G s st e) W V (fun s' V' => Holds V' s' v') := by
  unfold mUnionStep unionStep
  rw [FMap.get_spec (h.valid hs)]
  rw [okBind]
  cases hl : v.data.tree.lk e.key with
  | none =>
    obtain ⟨m', g1, g2, g3, g4⟩ := runs_with G h hst.1 e.key e.value hr
    refine ⟨⟨m', vt.count + ones e.value.bits⟩, by dsimp only; rw [g1]; rfl, g3,
      (runs_get h hs.1 e.key).bind (fun r W' V' hs' _ hQ => ?_)⟩
    obtain ⟨rfl, rfl⟩ := hQ
    rw [hl]
    obtain ⟨m2, k1, _, _, k4⟩ := runs_with G hs' hst.1 e.key e.value hr
    obtain rfl : m' = m2 := Except.ok.inj (g1.symm.trans k1)
    exact k4.bind (fun d W'' V'' hs'' _ hd => MRuns.pure hs'' ⟨hd, by rw [← hst.2]⟩)
  | some sc =>
    obtain ⟨m', g1, g2, g3, g4⟩ := runs_with G h hst.1 e.key (⟨sc.bits ||| e.value.bits⟩ : CellMask) hr
    refine ⟨⟨m', vt.count + ones ((sc.bits ||| e.value.bits) ^^^ sc.bits)⟩, by dsimp only; rw [g1]; rfl, g3,
      (runs_get h hs.1 e.key).bind (fun r W' V' hs' _ hQ => ?_)⟩
    obtain ⟨rfl, rfl⟩ := hQ
    rw [hl]
    obtain ⟨m2, k1, _, _, k4⟩ := runs_with G hs' hst.1 e.key (⟨sc.bits ||| e.value.bits⟩ : CellMask) hr
    obtain rfl : m' = m2 := Except.ok.inj (g1.symm.trans k1)
    exact k4.bind (fun d W'' V'' hs'' _ hd => MRuns.pure hs'' ⟨hd, by rw [← hst.2]⟩)

theorem gives_unionLoop {s : MInt} {v u : IntSet w}
    (hroom : ∀ c, u.data.HasKey c → v.data.HasKey c ∨ ¬ Crowded (fun k => v.data.HasKey k ∨ u.data.HasKey k) c) :
    ∀ (es : List (Entry (BitVec w) CellMask)) {W : IntMaps w} {V : IntVals w} {st : MInt} {vt : IntSet w}, MSim W V → Holds V s v →
      Holds V st vt → (∀ e ∈ es, u.data.HasKey e.key) → (∀ k, v.data.HasKey k → vt.data.HasKey k) →
      (∀ k, vt.data.HasKey k → v.data.HasKey k ∨ u.data.HasKey k) →
      Gives (es.foldlM (mUnionStep G s) st) W V (es.foldlM (unionStep v) vt)
  | [], W, V, st, vt, h, _, hst, _, _, _ => ⟨vt, rfl, MRuns.pure h hst⟩
  | e :: es, W, V, st, vt, h, hs, hst, hes, h1, h2 => by
    have he := hes e (by simp)
    have hr : Room vt.data e.key := by
      rcases hroom e.key he with h | h
      · exact .inl (h1 _ h)
      · exact .inr (fun hc => h (AtLeast.imp hc (fun x hx => ⟨h2 x hx.1, hx.2⟩)))
    obtain ⟨v', g1, g2, g3⟩ := gives_unionStep G h hs hst e hr
    rw [List.foldlM_cons, List.foldlM_cons, g1]
    refine g3.gives (fun st' W' V' hs' hp hQ => gives_unionLoop hroom es hs' (hs.mono hp) hQ (fun x hx => hes x (by simp [hx])) ?_ ?_)
    · exact fun k hk => (g2 k).2 (.inr (h1 k hk))
    · intro k hk
      rcases (g2 k).1 hk with rfl | hk
      · exact .inr he
      · exact h2 k hk

theorem gives_union (h : MSim W V) {s t : MInt} {v u : IntSet w} (hs : Holds V s v) (ht : Holds V t u)
    (hroom : ∀ c, u.data.HasKey c → v.data.HasKey c ∨ ¬ Crowded (fun k => v.data.HasKey k ∨ u.data.HasKey k) c) :
    Gives (s.union G t) W V (v.union u) := by
  unfold MInt.union IntSet.union
  refine (runs_range h ht.1).gives (fun r W' V' hs' hp hQ => ?_)
  obtain ⟨rfl, rfl⟩ := hQ
  rw [FMap.rangeList_spec (h.valid ht)]
  refine gives_unionLoop G hroom _ hs' hs hs (fun e he => ?_) (fun _ h => h) (fun _ h => .inl h)
  rw [FMap.hasKey_iff (h.valid ht), (mem_list_lk (h.valid ht)).1 he]; rfl

/-! ### Histories -/

/-- The sets of the client are those values. -/
def IntSim (x : IntWorld w) (l : List (IntSet w)) : Prop :=
  ∃ V, MSim x.maps V ∧ x.sets.length = l.length ∧ ∀ (i : Nat) (s : MInt), x.sets[i]? = some s → ∃ v, l[i]? = some v ∧ Holds V s v

theorem IntSim.none {x : IntWorld w} {l : List (IntSet w)} (h : IntSim x l) {i : Nat} (hi : x.sets[i]? = none) : l[i]? = none := by
  obtain ⟨V, _, h2, _⟩ := h
  rw [List.getElem?_eq_none_iff] at *
  omega

theorem IntSim.keep {x : IntWorld w} {l : List (IntSet w)} {V : IntVals w} (h2 : x.sets.length = l.length)
    (h3 : ∀ (i : Nat) (s : MInt), x.sets[i]? = some s → ∃ v, l[i]? = some v ∧ Holds V s v) {f : IM w MInt} {r : Go (IntSet w)}
    (hg : Gives f x.maps V r) : IntSim (x.keep f) (keepInt l r) := by
  obtain ⟨v', rfl, s', W', V', ⟨h4, _⟩, h5, h6, h7⟩ := hg
  have hk : x.keep f = ⟨W', x.sets ++ [s']⟩ := by unfold IntWorld.keep; rw [h4]
  rw [hk]
  refine ⟨V', h5, by simp [keepInt, h2], fun i s hi => ?_⟩
  rw [List.getElem?_append] at hi
  show ∃ v, (l ++ [v'])[i]? = some v ∧ _
  split at hi
  · rename_i hlt
    obtain ⟨v, k1, k2⟩ := h3 i s hi
    exact ⟨v, by rw [List.getElem?_append_left (by omega), k1], k2.mono h6⟩
  · rename_i hlt
    have hi' := List.getElem?_eq_some_iff.1 hi
    obtain ⟨hi1, hi2⟩ := hi'
    have : i = l.length := by simp at hi1; omega
    subst this
    refine ⟨v', by simp, ?_⟩
    simp at hi2
    rw [← hi2]; exact h7

theorem IntSim.step (sg : Bool) {x : IntWorld w} {l : List (IntSet w)} (h : IntSim x l) (op : IntOp w)
    (hr : op.Roomy sg l) : IntSim (x.step G sg op) (intStep sg l op) := by
  have hx := h
  obtain ⟨V, h1, h2, h3⟩ := h
  cases op with
  | new order is => exact IntSim.keep h2 h3 (gives_new G h1 sg order is)
  | «with» i n =>
    simp only [IntWorld.step, intStep]
    cases hi : x.sets[i]? with
    | none => rw [hx.none hi]; exact hx
    | some s =>
      obtain ⟨v, k1, k2⟩ := h3 i s hi
      rw [k1]; exact IntSim.keep h2 h3 (gives_with G h1 k2 sg n (hr v k1))
  | without i n =>
    simp only [IntWorld.step, intStep]
    cases hi : x.sets[i]? with
    | none => rw [hx.none hi]; exact hx
    | some s =>
      obtain ⟨v, k1, k2⟩ := h3 i s hi
      rw [k1]; exact IntSim.keep h2 h3 (gives_without G h1 k2 sg n)
  | «where» i p =>
    simp only [IntWorld.step, intStep]
    cases hi : x.sets[i]? with
    | none => rw [hx.none hi]; exact hx
    | some s =>
      obtain ⟨v, k1, k2⟩ := h3 i s hi
      rw [k1]; exact IntSim.keep h2 h3 (gives_where G h1 k2 p)
  | map i order f =>
    simp only [IntWorld.step, intStep]
    cases hi : x.sets[i]? with
    | none => rw [hx.none hi]; exact hx
    | some s =>
      obtain ⟨v, k1, k2⟩ := h3 i s hi
      rw [k1]; exact IntSim.keep h2 h3 (gives_map G h1 k2 sg order f)
  | union i j =>
    simp only [IntWorld.step, intStep]
    cases hi : x.sets[i]? with
    | none => rw [hx.none hi]; exact hx
    | some s =>
      obtain ⟨v, k1, k2⟩ := h3 i s hi
      rw [k1]
      cases hj : x.sets[j]? with
      | none => rw [hx.none hj]; exact hx
      | some t =>
        obtain ⟨u, j1, j2⟩ := h3 j t hj
        rw [j1]; exact IntSim.keep h2 h3 (gives_union G h1 k2 j2 (hr v u k1 j1))
  | intersection i j =>
    simp only [IntWorld.step, intStep]
    cases hi : x.sets[i]? with
    | none => rw [hx.none hi]; exact hx
    | some s =>
      obtain ⟨v, k1, k2⟩ := h3 i s hi
      rw [k1]
      cases hj : x.sets[j]? with
      | none => rw [hx.none hj]; exact hx
      | some t =>
        obtain ⟨u, j1, j2⟩ := h3 j t hj
        rw [j1]; exact IntSim.keep h2 h3 (gives_intersection G h1 k2 j2)

theorem Gives.clean {x : IntWorld w} {V : IntVals w} {f : IM w MInt} {r : Go (IntSet w)} (hg : Gives f x.maps V r) :
    Clean x.maps (x.keep f).maps := by
  obtain ⟨v', _, s', W', V', ⟨h4, h5⟩, _⟩ := hg
  have hk : x.keep f = ⟨W', x.sets ++ [s']⟩ := by unfold IntWorld.keep; rw [h4]
  rw [hk]; exact h5

/-- Map iterators that are under way are not disturbed by such a call. -/
theorem IntSim.clean (sg : Bool) {x : IntWorld w} {l : List (IntSet w)} (h : IntSim x l) (op : IntOp w)
    (hr : op.Roomy sg l) : Clean x.maps (x.step G sg op).maps := by
  obtain ⟨V, h1, h2, h3⟩ := h
  cases op with
  | new order is => exact Gives.clean (gives_new G h1 sg order is)
  | «with» i n =>
    simp only [IntWorld.step]
    cases hi : x.sets[i]? with
    | none => exact Clean.refl _
    | some s =>
      obtain ⟨v, k1, k2⟩ := h3 i s hi
      exact Gives.clean (gives_with G h1 k2 sg n (hr v k1))
  | without i n =>
    simp only [IntWorld.step]
    cases hi : x.sets[i]? with
    | none => exact Clean.refl _
    | some s =>
      obtain ⟨v, k1, k2⟩ := h3 i s hi
      exact Gives.clean (gives_without G h1 k2 sg n)
  | «where» i p =>
    simp only [IntWorld.step]
    cases hi : x.sets[i]? with
    | none => exact Clean.refl _
    | some s =>
      obtain ⟨v, k1, k2⟩ := h3 i s hi
      exact Gives.clean (gives_where G h1 k2 p)
  | map i order f =>
    simp only [IntWorld.step]
    cases hi : x.sets[i]? with
    | none => exact Clean.refl _
    | some s =>
      obtain ⟨v, k1, k2⟩ := h3 i s hi
      exact Gives.clean (gives_map G h1 k2 sg order f)
  | union i j =>
    simp only [IntWorld.step]
    cases hi : x.sets[i]? with
    | none => exact Clean.refl _
    | some s =>
      obtain ⟨v, k1, k2⟩ := h3 i s hi
      cases hj : x.sets[j]? with
      | none => exact Clean.refl _
      | some t =>
        obtain ⟨u, j1, j2⟩ := h3 j t hj
        exact Gives.clean (gives_union G h1 k2 j2 (hr v u k1 j1))
  | intersection i j =>
    simp only [IntWorld.step]
    cases hi : x.sets[i]? with
    | none => exact Clean.refl _
    | some s =>
      obtain ⟨v, k1, k2⟩ := h3 i s hi
      cases hj : x.sets[j]? with
      | none => exact Clean.refl _
      | some t =>
        obtain ⟨u, j1, j2⟩ := h3 j t hj
        exact Gives.clean (gives_intersection G h1 k2 j2)

theorem IntSim.run (sg : Bool) : ∀ (ops : List (IntOp w)) {x : IntWorld w} {l : List (IntSet w)}, IntSim x l →
    RoomyFrom sg l ops → IntSim (x.run G sg ops) (ops.foldl (intStep sg) l)
  | [], _, _, h, _ => h
  | op :: ops, _, _, h, hr => IntSim.run sg ops (h.step G sg op hr.1) hr.2

end

theorem IntSim.init : IntSim (IntWorld.init : IntWorld w) [] := ⟨_, MSim.init, rfl, fun i s h => by simp [IntWorld.init] at h⟩

end Frozen
