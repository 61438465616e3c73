import Verif.Spec.Calls
import Verif.Proof.CallsMerge
import Verif.Proof.Reduce
import Verif.Props.Map
import Verif.Props.Nested
import Verif.Props.Witness

/-! # C55: the user's function is called exactly once per element

`CB Q A R` (`Model/Calls.lean`) is a computation that calls the user's function on values of `Q`, goes on with the answers of type `A`
and returns an `R`. Nothing is assumed about the answers: two calls on the same argument may be answered differently. -/

set_option linter.unusedSectionVars false

namespace Frozen

variable {T U K V : Type} [GoKey T] [LawfulGoKey T] [GoKey U] [LawfulGoKey U] [GoKey K] [LawfulGoKey K]

theorem mem_zip_map {X Y : Type} {l : List X} {f : X → Y} {x : X} {y : Y} : (x, y) ∈ l.zip (l.map f) ↔ x ∈ l ∧ y = f x := by
  induction l with
  | nil => simp
  | cons a l ih =>
    simp only [List.map_cons, List.zip_cons_cons, List.mem_cons, Prod.mk.injEq, ih]
    constructor
    · rintro (⟨rfl, rfl⟩ | ⟨h, rfl⟩) <;> simp [*]
    · rintro ⟨rfl | h, rfl⟩ <;> simp [*]

theorem zip_map_filter {X : Type} (l : List X) (f : X → Bool) : ((l.zip (l.map f)).filter (·.2)).map (·.1) = l.filter f := by
  induction l with
  | nil => rfl
  | cons a l ih =>
    simp only [List.map_cons, List.zip_cons_cons, List.filter_cons]
    cases f a <;> simp [ih]

/-- C55 for `Where`: the predicate is called on each element exactly once, in iteration order, whatever it answers. The result has
exactly the elements for which it answered true. -/
theorem C55_where (s : FSet T) (hs : s.Reachable) : ∃ l, s.elements = .ok l ∧
    CB.Asks l (fun as r => ∃ l', r.elements = .ok l' ∧ l'.Perm (((l.zip as).filter (·.2)).map (·.1)) ∧
      ∀ v, r.Mem v ↔ ∃ x, (x, true) ∈ l.zip as ∧ GoKey.eq x v = true) s.whereE := by
  have h := hs.valid
  refine ⟨s.tree.list, FSet.elements_spec h, ?_⟩
  refine CB.Makes.asks ((Tree.makes_whereE h).bind' (fun _ => trivial)) h.distinct.nodup (fun f => ?_)
  obtain ⟨t', h1, h2, _, h4⟩ := Tree.where_spec h f
  refine ⟨⟨t'⟩, ?_, t'.list, FSet.elements_spec (s := ⟨t'⟩) h2, ?_, fun v => ?_⟩
  · simp only [FSet.whereE, CB.bind_def, CB.eval_bind, Tree.eval_whereE, h1]; rfl
  · rw [zip_map_filter]; exact h4
  · rw [FSet.mem_iff_list (s := ⟨t'⟩) h2]
    constructor
    · rintro ⟨x, hx, hv⟩
      have := List.mem_filter.1 (h4.mem_iff.1 hx)
      exact ⟨x, mem_zip_map.2 ⟨this.1, this.2.symm⟩, hv⟩
    · rintro ⟨x, hx, hv⟩
      obtain ⟨h5, h6⟩ := mem_zip_map.1 hx
      exact ⟨x, h4.mem_iff.2 (List.mem_filter.2 ⟨h5, h6.symm⟩), hv⟩

/-- C55 for `SetMap`. -/
theorem C55_setMap [Nonempty U] (s : FSet T) (hs : s.Reachable) : ∃ l, s.elements = .ok l ∧
    CB.Asks l (fun as (r : FSet U) => r.Reachable ∧ ∀ u, r.Mem u ↔ ∃ a ∈ as, GoKey.eq a u = true) (setMapE s) := by
  have h := hs.valid
  refine ⟨s.tree.list, FSet.elements_spec h, ?_⟩
  refine CB.Makes.asks (makes_setMapE h) h.distinct.nodup (fun f => ?_)
  obtain ⟨r, h1, h2⟩ := setMap_spec h f
  obtain ⟨r', g1, g2, g3⟩ := buildSet_spec (s.tree.list.map f)
  rw [h2] at g1; cases g1
  exact ⟨r, by rw [eval_setMapE, h1], ⟨.newSet _, h2⟩, g3.2⟩

/-- C55 for `SetGroupBy`. -/
theorem C55_groupBy [Nonempty K] (s : FSet T) (hs : s.Reachable) : ∃ l, s.elements = .ok l ∧
    CB.Asks l (fun ks (r : FMap K (FSet T)) => r.Reachable ∧ (∀ k, r.HasKey k ↔ ∃ k' ∈ ks, GoKey.eq k' k = true) ∧
      ∀ k g, r.Gets k (some g) → ∀ v, g.Mem v ↔ ∃ x k', (x, k') ∈ l.zip ks ∧ GoKey.eq k' k = true ∧ GoKey.eq x v = true)
      (setGroupByE s) := by
  have h := hs.valid
  refine ⟨s.tree.list, FSet.elements_spec h, ?_⟩
  refine CB.Makes.asks (makes_setGroupByE h) h.distinct.nodup (fun f => ?_)
  obtain ⟨m, h1, h2, h3, h4⟩ := C20_groupBy s hs f _ (FSet.elements_spec h)
  refine ⟨m, by rw [eval_setGroupByE, h1], h2, fun k => ?_, fun k g hg v => ?_⟩
  · rw [h3]
    constructor
    · rintro ⟨e, he, hk⟩; exact ⟨f e, List.mem_map_of_mem he, hk⟩
    · rintro ⟨k', hk', hk⟩
      obtain ⟨e, he, rfl⟩ := List.mem_map.1 hk'
      exact ⟨e, he, hk⟩
  · obtain ⟨hr, l, hl, hp⟩ := h4 k g hg
    rw [FSet.elements_spec hr.valid] at hl
    cases hl
    rw [FSet.mem_iff_list hr.valid]
    constructor
    · rintro ⟨x, hx, hv⟩
      obtain ⟨h5, h6⟩ := List.mem_filter.1 (hp.mem_iff.1 hx)
      exact ⟨x, f x, mem_zip_map.2 ⟨h5, rfl⟩, h6, hv⟩
    · rintro ⟨x, k', hx, hk, hv⟩
      obtain ⟨h5, rfl⟩ := mem_zip_map.1 hx
      exact ⟨x, hp.mem_iff.2 (List.mem_filter.2 ⟨h5, hk⟩), hv⟩

/-- C55 for `NewMapFromKeys`. -/
theorem C55_newMapFromKeys [Inhabited V] (s : FSet K) (hs : s.Reachable) : ∃ l, s.elements = .ok l ∧
    CB.Asks l (fun vs (r : FMap K V) => r.Reachable ∧ ∀ k v, r.HasEntry k v ↔ (k, v) ∈ l.zip vs) (newMapFromKeysE s) := by
  have h := hs.valid
  refine ⟨s.tree.list, FSet.elements_spec h, ?_⟩
  refine CB.Makes.asks (makes_newMapFromKeysE h) h.distinct.nodup (fun f => ?_)
  obtain ⟨r, l, h1, h2, h3, h4, _⟩ := C15_newMapFromKeys s hs f
  rw [FSet.elements_spec h] at h3; cases h3
  exact ⟨r, by rw [eval_newMapFromKeysE, h1], h2, fun k v => by rw [h4, mem_zip_map]⟩

theorem nodup_entries [Inhabited V] {m : FMap K V} (h : m.Valid) : (m.tree.list.map fun e => (e.key, e.value)).Nodup := by
  refine List.Nodup.map (fun a b he => ?_) h.distinct.nodup
  cases a; cases b; simpa using he

/-- C55 for `Map.Where`: the predicate is called on each key with its value. -/
theorem C55_mapWhere [Inhabited V] (m : FMap K V) (hm : m.Reachable) : ∃ l, m.rangeList = .ok l ∧
    CB.Asks (l.map fun e => (e.key, e.value)) (fun as r => r.Reachable ∧
      ∀ k v, r.HasEntry k v ↔ ((k, v), true) ∈ (l.map fun e => (e.key, e.value)).zip as) m.whereE := by
  have h := hm.valid
  refine ⟨m.tree.list, FMap.rangeList_spec h, ?_⟩
  refine CB.Makes.asks (FMap.makes_whereE h) (nodup_entries h) (fun f => ?_)
  obtain ⟨r, h1, h2, h3⟩ := C15_where m hm (fun k v => f (k, v))
  refine ⟨r, ?_, h2, fun k v => ?_⟩
  · rw [← h1, ← FMap.eval_whereE]
  · rw [h3, mem_zip_map, FMap.hasEntry_iff h]
    constructor
    · rintro ⟨h5, h6⟩; exact ⟨List.mem_map.2 ⟨_, h5, rfl⟩, h6.symm⟩
    · rintro ⟨h5, h6⟩
      obtain ⟨e, he, h7⟩ := List.mem_map.1 h5
      cases e; cases h7
      exact ⟨he, h6.symm⟩

/-- C55 for `MapMap`. -/
theorem C55_mapMap [Inhabited V] [Inhabited U] (m : FMap K V) (hm : m.Reachable) : ∃ l, m.rangeList = .ok l ∧
    CB.Asks (l.map fun e => (e.key, e.value)) (fun us (r : FMap K U) => r.Reachable ∧
      ∀ k u, r.HasEntry k u ↔ ∃ v, ((k, v), u) ∈ (l.map fun e => (e.key, e.value)).zip us) (mapMapE m) := by
  have h := hm.valid
  refine ⟨m.tree.list, FMap.rangeList_spec h, ?_⟩
  refine CB.Makes.asks (makes_mapMapE h) (nodup_entries h) (fun f => ?_)
  obtain ⟨r, h1, h2, _, h3⟩ := C15_mapMap m hm (fun k v => f (k, v))
  refine ⟨r, ?_, h2, fun k u => ?_⟩
  · rw [← h1, ← eval_mapMapE]
  · rw [h3]
    refine exists_congr (fun v => ?_)
    rw [mem_zip_map, FMap.hasEntry_iff h]
    constructor
    · rintro ⟨h5, h6⟩; exact ⟨List.mem_map.2 ⟨_, h5, rfl⟩, h6⟩
    · rintro ⟨h5, h6⟩
      obtain ⟨e, he, h7⟩ := List.mem_map.1 h5
      cases e; cases h7
      exact ⟨he, h6⟩

/-- C55 for `Reduce`: starting from the elements, each call takes at least one value out of the pool and puts its answer in; at the end
only the result is left. So each element, and each answer but the last, is passed exactly once. -/
theorem C55_reduce [Inhabited T] (s : FSet T) (hs : s.Reachable) : ∃ l, s.elements = .ok l ∧ CB.Spends id l s.reduceE :=
  ⟨_, FSet.elements_spec hs.valid, FSet.spends_reduceE hs.valid⟩

/-- C55 for `Reduce2`: each call takes two values. -/
theorem C55_reduce2 [Inhabited T] (s : FSet T) (hs : s.Reachable) :
    ∃ l, s.elements = .ok l ∧ CB.Spends (fun p : T × T => [p.1, p.2]) l s.reduce2E :=
  ⟨_, FSet.elements_spec hs.valid, spends_reduce2 _ _ (FSet.spends_reduceE hs.valid)⟩

theorem comm_entries [Inhabited V] {m n : FMap K V} (hv : m.Valid) (hw : n.Valid) {L : List (Entry K V × Entry K V)}
    (h1 : Comm m.tree.list n.tree.list L) :
    (L.map fun p => (p.1.key, p.1.value, p.2.value)).Pairwise (fun p q => GoKey.eq p.1 q.1 = false) ∧
    ∀ k v w, (k, v, w) ∈ L.map (fun p => (p.1.key, p.1.value, p.2.value)) ↔ m.HasEntry k v ∧ n.Gets k (some w) := by
  have hu : ∀ {t : FMap K V}, t.Valid → ∀ {a b : Entry K V}, a ∈ t.tree.list → b ∈ t.tree.list → GoKey.eq a b = true → a = b := by
    intro t ht a b ha hb he
    have e1 : t.tree.look b = some a := (mem_look ht.wf).2 ⟨ha, he⟩
    have e2 : t.tree.look b = some b := (mem_look ht.wf).2 ⟨hb, LawfulGoKey.refl b.key⟩
    rw [e1] at e2; exact Option.some.inj e2
  have hmem : ∀ k v w, (k, v, w) ∈ L.map (fun p => (p.1.key, p.1.value, p.2.value)) ↔ m.HasEntry k v ∧ n.Gets k (some w) := by
    intro k v w
    rw [FMap.hasEntry_iff hv, FMap.gets_iff hw, Tree.lk_some hw]
    constructor
    · intro h
      obtain ⟨⟨a, b⟩, hp, he⟩ := List.mem_map.1 h
      obtain ⟨g1, g2, g3⟩ := (h1.2 _).1 hp
      cases he
      exact ⟨g1, b, g2, PerGoKey.symm g3, rfl⟩
    · rintro ⟨g1, b, g2, g3, rfl⟩
      exact List.mem_map.2 ⟨(⟨k, v⟩, b), (h1.2 _).2 ⟨g1, g2, PerGoKey.symm g3⟩, rfl⟩
  have hpw : (L.map fun p => (p.1.key, p.1.value, p.2.value)).Pairwise (fun p q => GoKey.eq p.1 q.1 = false) := by
    rw [List.pairwise_map]
    refine List.Pairwise.imp_of_mem (fun {p q} hp hq hpq => ?_) h1.1
    obtain ⟨g1, g2, g3⟩ := (h1.2 _).1 hp
    obtain ⟨f1, f2, f3⟩ := (h1.2 _).1 hq
    by_contra hcon
    rw [Bool.not_eq_false] at hcon
    refine hpq (Prod.ext (hu hv g1 f1 hcon) (hu hw g2 f2 ?_))
    exact PerGoKey.trans (PerGoKey.symm g3) (PerGoKey.trans hcon f3)
  exact ⟨hpw, hmem⟩

/-- C55 for `Merge`, where it returns (C13): `resolve` is called exactly once for each key of both maps, with the first map's key and
value and the second map's value, in some order. The answer becomes the value of the key, and the other entries stay. For key
sets with the collision pattern `TripleClash`, and only then, `Merge` panics (`C13_panics`). -/
theorem C55_merge [Inhabited V] (m n : FMap K V) (hm : m.Reachable) (hn : n.Reachable) (hc : ¬ TripleClash m.HasKey n.HasKey) :
    ∃ l : List (K × V × V), l.Pairwise (fun p q => GoKey.eq p.1 q.1 = false) ∧
      (∀ k v w, (k, v, w) ∈ l ↔ m.HasEntry k v ∧ n.Gets k (some w)) ∧
      CB.Asks l (fun vs r => (∀ k v w u, ((k, v, w), u) ∈ l.zip vs → r.HasEntry k u) ∧
        (∀ k v, m.HasEntry k v → n.Gets k none → r.HasEntry k v) ∧ (∀ k v, n.HasEntry k v → m.Gets k none → r.HasEntry k v) ∧
        (∀ k, r.HasKey k ↔ m.HasKey k ∨ n.HasKey k)) (m.mergeE n) := by
  have hv := hm.valid
  have hw := hn.valid
  obtain ⟨L, h1, h2⟩ := FMap.makes_mergeE hv hw hc
  obtain ⟨hpw, hmem⟩ := comm_entries hv hw h1
  refine ⟨_, hpw, hmem, CB.Makes.asks h2 ?_ (fun f => ?_)⟩
  · refine hpw.imp (fun {p q} hpq he => ?_)
    subst he
    rw [LawfulGoKey.refl] at hpq; cases hpq
  · obtain ⟨r, g1, g2, g3, g4, g5⟩ := C13_merge_partial m n hm hn (fun k v w => f (k, v, w)) hc
    refine ⟨r, by rw [← g1, ← FMap.eval_mergeE], fun k v w u hz => ?_, g3, g4, g5⟩
    obtain ⟨f1, rfl⟩ := mem_zip_map.1 hz
    obtain ⟨f2, f3⟩ := (hmem k v w).1 f1
    exact g2 k v w f2 f3

/-- With a pure function the computations are the functions the other properties are about. -/
theorem C55_pure [Inhabited T] (s : FSet T) (m n : FMap K V) (ks : FSet K) (p : T → Bool) (f : T → U) (g : T → K) (v : K → V)
    (q : K → V → Bool) (h : K → V → U) (red : List T → T) (res : K → V → V → V) :
    s.whereE.eval p = s.where p ∧ (setMapE s).eval f = setMap s f ∧ (setGroupByE s).eval g = setGroupBy s g ∧
    (newMapFromKeysE ks).eval v = newMapFromKeys ks v ∧ m.whereE.eval (fun e => q e.1 e.2) = m.where q ∧
    (mapMapE m).eval (fun e => h e.1 e.2) = mapMap m h ∧ s.reduceE.eval red = s.reduce red ∧
    (m.mergeE n).eval (fun e => res e.1 e.2.1 e.2.2) = m.merge n res := by
  refine ⟨?_, eval_setMapE s f, eval_setGroupByE s g, eval_newMapFromKeysE ks v, FMap.eval_whereE m q, eval_mapMapE m h, ?_,
    FMap.eval_mergeE m n res⟩
  · simp only [FSet.whereE, CB.bind_def, CB.eval_bind, Tree.eval_whereE]; rfl
  · simp only [FSet.reduceE, Tree.reduceE, CB.eval_ite, CB.bind_def, CB.eval_bind, eval_reduceE]; rfl

/-- C55 for functions with effects, in any monad `M`: calling `Where` with such a function does what calling the function on the
elements one after the other does, and nothing else. If the function panics, this is a panic at the same place (`M` may have panics). -/
theorem C55_effects {M : Type → Type} [Monad M] [LawfulMonad M] (s : FSet T) (hs : s.Reachable) (f : T → M Bool) :
    ∃ l, s.elements = .ok l ∧ ∃ F : List Bool → FSet T, s.whereE.perform f = (do let as ← l.mapM f; pure (.ok (F as))) ∧
      ∀ as, as.length = l.length → ∀ v, (F as).Mem v ↔ ∃ x, (x, true) ∈ l.zip as ∧ GoKey.eq x v = true := by
  obtain ⟨l, h1, h2⟩ := C55_where s hs
  have : Nonempty (FSet T) := ⟨s⟩
  obtain ⟨F, h3, h4⟩ := h2.perform f
  exact ⟨l, h1, F, h4, fun as ha v => (h3 as ha).choose_spec.2.2 v⟩

/-! ### Concrete cases -/

/-- A function that notes its argument and accepts every other call. -/
def noteAndAlternate (x : Mod100) : StateM (List Nat × Bool) Bool := do
  let (l, b) ← MonadState.get
  set (l ++ [x.n], !b)
  pure b

/-- A set with five elements; the function is called on each once, in iteration order, and the
result has the three elements of the first, third and fifth call. -/
example : okAnd (newSet [(⟨1⟩ : Mod100), ⟨2⟩, ⟨44⟩, ⟨3⟩, ⟨57⟩]) (fun s =>
    let out := (s.whereE.perform noteAndAlternate).run ([], true)
    okAnd s.elements (fun l => decide (out.2.1 = l.map (·.n))) && okAnd out.1 (fun r => decide (r.count = 3))) = true := by
  decide +kernel

/-- The same set summed by `Reduce`, noting how many arguments each call gets: 5 elements and all answers but the last are passed. -/
example : okAnd (newSet [(⟨1⟩ : Mod100), ⟨2⟩, ⟨44⟩, ⟨3⟩, ⟨57⟩]) (fun s =>
    let out := (s.reduceE.perform (fun l => do
      modify (· ++ [l.length])
      pure ⟨(l.map (·.n)).sum⟩) : StateM (List Nat) _).run []
    okAnd out.1 (fun r => decide (r.map (·.n) = some 107)) && decide (out.2.sum = 5 + (out.2.length - 1))) = true := by
  decide +kernel

/-- Two maps with the common keys 1, 7 and 9: `resolve` is called three times. -/
example : okAnd (newMap [(⟨⟨1⟩, 10⟩ : KeyValue Mod100 Nat), ⟨⟨2⟩, 20⟩, ⟨⟨7⟩, 70⟩, ⟨⟨9⟩, 90⟩]) (fun m =>
    okAnd (newMap [(⟨⟨9⟩, 900⟩ : KeyValue Mod100 Nat), ⟨⟨7⟩, 700⟩, ⟨⟨3⟩, 300⟩, ⟨⟨1⟩, 100⟩]) (fun n =>
      let out := ((m.mergeE n).perform (fun e => do
        modify (· + 1)
        pure (e.2.1 + e.2.2)) : StateM Nat _).run 0
      decide (out.2 = 3) && okAnd out.1 (fun r => okAnd (r.get ⟨7⟩) (fun v => decide (v = some 770))))) = true := by
  decide +kernel

end Frozen
