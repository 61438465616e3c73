import Verif.Spec.Rel
import Verif.Proof.Nested
import Verif.Proof.SetElems
import Mathlib.Tactic.Choose

/-! # Lemmas on relations: tuples, callbacks, Cartesian products, joins -/

set_option linter.unusedSectionVars false

namespace Frozen

/-! ### Lifting and callbacks -/

section
variable {T U K V W : Type} [GoKey T] [GoKey U] [GoKey K] [LawfulGoKey T] [LawfulGoKey U] [LawfulGoKey K] [Inhabited V] [Inhabited W]

theorem SetVal.lift_ok {r : Go (FSet T)} {h : ∀ s, r = .ok s → s.Reachable} {s : FSet T} (hr : r = .ok s) :
    ∃ v : SetVal T, SetVal.lift r h = .ok v ∧ v.1 = s := by subst hr; exact ⟨⟨s, h s rfl⟩, rfl, rfl⟩

theorem MapVal.lift_ok {r : Go (FMap K V)} {h : ∀ s, r = .ok s → s.Reachable} {s : FMap K V} (hr : r = .ok s) :
    ∃ v : MapVal K V, MapVal.lift r h = .ok v ∧ v.1 = s := by subst hr; exact ⟨⟨s, h s rfl⟩, rfl, rfl⟩

theorem MapVal.lift_error {r : Go (FMap K V)} {h : ∀ s, r = .ok s → s.Reachable} {e : Panic} (hr : r = .error e) :
    MapVal.lift r h = .error e := by subst hr; rfl

/-- A loop whose body fails at once fails. -/
theorem foldlM_head_error {B X : Type} {f : B → X → Go B} {b : B} {x : X} {xs : List X} {e : Panic} (h : f b x = .error e) :
    (x :: xs).foldlM f b = .error e := by
  rw [List.foldlM_cons, h]; rfl

/-- A loop whose body adds a list of values adds all of them. -/
theorem foldlM_flatMap {X : Type} {f : SetBuilder U → X → Go (SetBuilder U)} {ts : X → List U} : ∀ (vs : List X),
    (∀ v ∈ vs, ∀ b, f b v = (ts v).foldlM (fun b u => SetBuilder.add b u) b) →
    ∀ b, vs.foldlM f b = (vs.flatMap ts).foldlM (fun b u => SetBuilder.add b u) b
  | [], _, b => rfl
  | v :: vs, h, b => by
    rw [List.foldlM_cons, List.flatMap_cons, List.foldlM_append, h v (by simp)]
    cases (ts v).foldlM (fun b u => SetBuilder.add b u) b with
    | error e => rfl
    | ok b' => exact foldlM_flatMap vs (fun v hv => h v (by simp [hv])) b'

theorem foldlM_add_map {f : T → Go U} {g : T → U} : ∀ (vs : List T), (∀ v ∈ vs, f v = .ok (g v)) → ∀ b : SetBuilder U,
    vs.foldlM (fun b v => do let u ← f v; SetBuilder.add b u) b = (vs.map g).foldlM (fun b u => SetBuilder.add b u) b
  | [], _, b => rfl
  | v :: vs, h, b => by
    rw [List.foldlM_cons, List.map_cons, List.foldlM_cons, h v (by simp)]
    simp only [bind, Except.bind]
    cases SetBuilder.add b (g v) with
    | error e => rfl
    | ok b' =>
      have := foldlM_add_map vs (fun v hv => h v (by simp [hv])) b'
      simp only [bind, Except.bind] at this
      exact this

theorem setMapM_eq {s : FSet T} (hs : s.Valid) {f : T → Go U} {g : T → U} (hf : ∀ v ∈ s.tree.list, f v = .ok (g v)) :
    setMapM s f = buildSet (s.tree.list.map g) := by
  unfold setMapM
  split
  · next h =>
    have : s.tree.list = [] := by
      cases hr : s.tree.root with
      | nil => unfold Tree.list; rw [hr]; rfl
      | _ => rw [hr] at h; cases h
    rw [this]; rfl
  · rw [FSet.rangeList_spec hs]
    have := foldlM_add_map s.tree.list hf (Tree.zero : SetBuilder U)
    simp only [bind, Except.bind] at this ⊢
    rw [this]
    rfl

theorem setGroupByM_eq {s : FSet T} (hs : s.Valid) {f : T → Go K} {g : T → K} (hf : ∀ v ∈ s.tree.list, f v = .ok (g v)) :
    setGroupByM s f = setGroupBy s g := by
  have key : ∀ (vs : List T), (∀ v ∈ vs, f v = .ok (g v)) → ∀ g0 : Groups K T, vs.foldlM (groupStepM f) g0 = vs.foldlM (groupStep g) g0 := by
    intro vs
    induction vs with
    | nil => intro _ _; rfl
    | cons v vs ih =>
      intro h g0
      have h1 : groupStepM f g0 v = groupStep g g0 v := by
        unfold groupStepM; rw [h v (by simp)]; rfl
      rw [List.foldlM_cons, List.foldlM_cons, h1]
      cases groupStep g g0 v with
      | error e => rfl
      | ok g1 => exact ih (fun v hv => h v (by simp [hv])) g1
  unfold setGroupByM setGroupBy
  rw [FSet.rangeList_spec hs]
  simp only [bind, Except.bind]
  rw [key _ hf]

theorem mapMapM_eq {m : FMap K V} (hm : m.Valid) {f : K → V → Go W} {g : K → V → W}
    (hf : ∀ e ∈ m.tree.list, f e.key e.value = .ok (g e.key e.value)) : mapMapM m f = mapMap m g := by
  have key : ∀ (es : List (Entry K V)), (∀ e ∈ es, f e.key e.value = .ok (g e.key e.value)) → ∀ b : MapBuilder K W,
      es.foldlM (fun b e => do let w ← f e.key e.value; MapBuilder.put b e.key w) b =
      (es.map (fun e => (⟨e.key, g e.key e.value⟩ : KeyValue K W))).foldlM (fun b kv => MapBuilder.put b kv.key kv.value) b := by
    intro es
    induction es with
    | nil => intro _ _; rfl
    | cons e es ih =>
      intro h b
      rw [List.foldlM_cons, List.map_cons, List.foldlM_cons, h e (by simp)]
      simp only [bind, Except.bind]
      cases MapBuilder.put b e.key (g e.key e.value) with
      | error e => rfl
      | ok b' =>
        have := ih (fun v hv => h v (by simp [hv])) b'
        simp only [bind, Except.bind] at this
        exact this
  unfold mapMapM mapMap buildMap
  rw [FMap.rangeList_spec hm]
  have := key _ hf (Tree.zero : MapBuilder K W)
  simp only [bind, Except.bind] at this ⊢
  rw [this]

theorem FMap.keys_spec {m : FMap K V} (hm : m.Valid) : ∃ ks, m.keys = .ok ks ∧ ks.Valid ∧ ∀ k, ks.Mem k ↔ (m.tree.lk k).isSome = true := by
  obtain ⟨ks, h1, h2, _, h4⟩ := buildSet_spec (m.tree.list.map (·.key))
  refine ⟨ks, ?_, h2, fun k => ?_⟩
  · unfold FMap.keys; rw [FMap.rangeList_spec hm]; exact h1
  · rw [h4]; exact ((Tree.keys_lists hm).covers k).symm

theorem FMap.values_spec [GoKey V] [LawfulGoKey V] {m : FMap K V} (hm : m.Valid) : ∃ vs, m.values = .ok vs ∧ vs.Reachable ∧
    ∀ v, vs.Mem v ↔ ∃ k w, m.tree.lk k = some w ∧ GoKey.eq w v = true := by
  obtain ⟨vs, h1, h2, _, h4⟩ := buildSet_spec (m.tree.list.map (·.value))
  refine ⟨vs, ?_, reachable_newSet h1, fun v => ?_⟩
  · unfold FMap.values; rw [FMap.rangeList_spec hm]; exact h1
  · rw [h4]
    constructor
    · rintro ⟨w, hw, hv⟩
      obtain ⟨e, he, rfl⟩ := List.mem_map.1 hw
      exact ⟨e.key, e.value, (Tree.lk_some hm).2 ⟨e, he, LawfulGoKey.refl _, rfl⟩, hv⟩
    · rintro ⟨k, w, hk, hv⟩
      obtain ⟨e, he, _, rfl⟩ := (Tree.lk_some hm).1 hk
      exact ⟨e.value, List.mem_map.2 ⟨e, he, rfl⟩, hv⟩

theorem FSet.mem_of_list {s : FSet T} (h : s.Valid) {e : T} (he : e ∈ s.tree.list) : s.Mem e :=
  (FSet.mem_iff_list h e).2 ⟨e, he, LawfulGoKey.refl e⟩

theorem FSet.isEmpty_iff {s : FSet T} (h : s.Valid) : s.isEmpty = true ↔ s.tree.list = [] := by
  unfold FSet.isEmpty
  rw [beq_iff_eq, h.count_eq]
  rw [← List.length_eq_zero_iff]
  omega

theorem FSet.isEmpty_iff_mem {s : FSet T} (h : s.Valid) : s.isEmpty = true ↔ ∀ v, ¬ s.Mem v := by
  rw [FSet.isEmpty_iff h]
  constructor
  · intro hl v hv
    obtain ⟨e, he, _⟩ := (FSet.mem_iff_list h v).1 hv
    rw [hl] at he; cases he
  · intro hv
    cases hl : s.tree.list with
    | nil => rfl
    | cons e l => exact absurd (FSet.mem_of_list h (by rw [hl]; simp)) (hv e)

theorem FSet.exists_any {s : FSet T} (h : s.Valid) (hne : ∃ v, s.Mem v) : ∃ x l, s.tree.list = x :: l ∧ s.any = .ok x ∧ s.Mem x := by
  have := FSet.any_spec h
  cases hl : s.tree.list with
  | nil =>
    obtain ⟨v, hv⟩ := hne
    obtain ⟨e, he, _⟩ := (FSet.mem_iff_list h v).1 hv
    rw [hl] at he; cases he
  | cons x l =>
    rw [hl] at this
    exact ⟨x, l, rfl, this, FSet.mem_of_list h (by rw [hl]; simp)⟩

/-- What grouping by a key function that respects equality returns. -/
theorem group_mem {s : FSet T} (hs : s.Valid) (kf : T → K) (hkf : ∀ a b, GoKey.eq a b = true → GoKey.eq (kf a) (kf b) = true) :
    ∃ m, setGroupBy s kf = .ok m ∧ m.Valid ∧
      (∀ k, (m.tree.lk k).isSome = true ↔ ∃ x, s.Mem x ∧ GoKey.eq (kf x) k = true) ∧
      (∀ k g, m.tree.lk k = some g → g.Reachable ∧ ∀ x, g.Mem x ↔ s.Mem x ∧ GoKey.eq (kf x) k = true) := by
  obtain ⟨m, h1, h2, kvs, _, h4⟩ := setGroupBy_spec hs kf
  have hw : ∀ k x, (∃ v ∈ withKey kf k s.tree.list, GoKey.eq v x = true) ↔ s.Mem x ∧ GoKey.eq (kf x) k = true := by
    intro k x
    unfold withKey
    rw [FSet.mem_iff_list hs]
    constructor
    · rintro ⟨v, hv, hvx⟩
      rw [List.mem_filter] at hv
      exact ⟨⟨v, hv.1, hvx⟩, PerGoKey.trans (PerGoKey.symm (hkf v x hvx)) hv.2⟩
    · rintro ⟨⟨v, hv, hvx⟩, hk⟩
      exact ⟨v, List.mem_filter.2 ⟨hv, PerGoKey.trans (hkf v x hvx) hk⟩, hvx⟩
  refine ⟨m, h1, h2, fun k => ?_, fun k g hg => ?_⟩
  · by_cases hc : withKey kf k s.tree.list = []
    · rw [(h4 k).1 hc]
      constructor
      · intro h; cases h
      · rintro ⟨x, hx⟩
        obtain ⟨v, hv, _⟩ := (hw k x).2 hx
        rw [hc] at hv; cases hv
    · obtain ⟨g, hg, _⟩ := (h4 k).2 hc
      rw [hg]
      refine ⟨fun _ => ?_, fun _ => rfl⟩
      obtain ⟨v, hv⟩ := List.exists_mem_of_ne_nil _ hc
      exact ⟨v, (hw k v).1 ⟨v, hv, LawfulGoKey.refl v⟩⟩
  · by_cases hc : withKey kf k s.tree.list = []
    · rw [(h4 k).1 hc] at hg; cases hg
    · obtain ⟨g', k1, k2⟩ := (h4 k).2 hc
      rw [hg] at k1; cases k1
      obtain ⟨g2, b1, b2, b3, b4⟩ := buildSet_spec (withKey kf k s.tree.list)
      have k2 : buildSet (withKey kf k s.tree.list) = .ok g := k2
      rw [k2] at b1; cases b1
      exact ⟨reachable_newSet k2, fun x => by rw [b4]; exact hw k x⟩

end

/-! ### Tuples -/

section
variable {A V : Type} [GoKey A] [LawfulGoKey A] [Inhabited V]

theorem Tuple.val_lk (t : Tuple A V) (a : A) : t.val a = t.1.tree.lk a := by
  unfold Tuple.val
  rw [FMap.get_spec t.2.valid]

theorem Tuple.val_congr (t : Tuple A V) {a b : A} (h : GoKey.eq a b = true) : t.val a = t.val b := by
  rw [Tuple.val_lk, Tuple.val_lk, Tree.lk_congr _ h]

theorem Tuple.hasKey_iff (t : Tuple A V) (a : A) : t.1.HasKey a ↔ t.Has a := by
  rw [FMap.hasKey_iff t.2.valid]; unfold Tuple.Has; rw [Tuple.val_lk]

theorem Tuple.val_empty (a : A) : (Tuple.empty : Tuple A V).val a = none := by rw [Tuple.val_lk]; rfl

theorem Tuple.not_has {t : Tuple A V} {a : A} : ¬ t.Has a ↔ t.val a = none := by
  unfold Tuple.Has; cases t.val a <;> simp

theorem Tuple.with_spec (t : Tuple A V) (a : A) (v : V) : ∃ t', Tuple.with t a v = .ok t' ∧
    ∀ b, t'.val b = if GoKey.eq a b = true then some v else t.val b := by
  obtain ⟨m, h1, _, h3⟩ := FMap.with_spec t.2.valid a v
  obtain ⟨t', g1, g2⟩ := MapVal.lift_ok h1
  refine ⟨t', g1, fun b => ?_⟩
  rw [Tuple.val_lk t', g2, Tuple.val_lk, h3]; rfl

theorem Tuple.without_spec (t : Tuple A V) (a : A) : ∃ t', Tuple.without t a = .ok t' ∧
    ∀ b, t'.val b = if GoKey.eq a b = true then none else t.val b := by
  obtain ⟨m, h1, _, h3⟩ := FMap.without_spec t.2.valid a
  obtain ⟨t', g1, g2⟩ := MapVal.lift_ok h1
  refine ⟨t', g1, fun b => ?_⟩
  rw [Tuple.val_lk t', g2, Tuple.val_lk, h3]; rfl

theorem Tuple.project_spec (t : Tuple A V) (as : List A) : ∃ t', Tuple.project t as = .ok t' ∧
    ∀ b, t'.val b = if as.any (fun a => GoKey.eq a b) = true then t.val b else none := by
  obtain ⟨m, h1, _, h3⟩ := FMap.project_spec t.2.valid as
  obtain ⟨t', g1, g2⟩ := MapVal.lift_ok h1
  refine ⟨t', g1, fun b => ?_⟩
  rw [Tuple.val_lk t', g2, Tuple.val_lk, h3]

theorem Tuple.clash_congr {t u : Tuple A V} {P Q : A → Prop} (hP : ∀ a, t.Has a ↔ P a) (hQ : ∀ a, u.Has a ↔ Q a) :
    TripleClash t.1.HasKey u.1.HasKey ↔ TripleClash P Q :=
  TripleClash.congr (fun a => (Tuple.hasKey_iff t a).trans (hP a)) (fun a => (Tuple.hasKey_iff u a).trans (hQ a))

theorem Tuple.update_spec (t u : Tuple A V) (h : ¬ TripleClash t.Has u.Has) : ∃ t', Tuple.update t u = .ok t' ∧
    ∀ b, t'.val b = mergeAt (fun _ y => y) (t.val b) (u.val b) := by
  rw [← Tuple.clash_congr (fun _ => Iff.rfl) (fun _ => Iff.rfl)] at h
  obtain ⟨m, h1, _, h3⟩ := (FMap.update_spec t.2.valid u.2.valid).2 h
  obtain ⟨t', g1, g2⟩ := MapVal.lift_ok h1
  refine ⟨t', g1, fun b => ?_⟩
  rw [Tuple.val_lk t', g2, Tuple.val_lk, Tuple.val_lk, h3]

theorem Tuple.update_error (t u : Tuple A V) (h : TripleClash t.Has u.Has) : Tuple.update t u = .error .wtf := by
  rw [← Tuple.clash_congr (fun _ => Iff.rfl) (fun _ => Iff.rfl)] at h
  exact MapVal.lift_error ((FMap.update_spec t.2.valid u.2.valid).1 h)

theorem not_clash_empty (Q : A → Prop) : ¬ TripleClash (fun _ => False) Q := by
  rintro ⟨_, _, hx, _⟩; exact hx

theorem mergeAt_isSome (f : V → V → V) (o o' : Option V) : (mergeAt f o o').isSome = true ↔ o.isSome = true ∨ o'.isSome = true := by
  cases o <;> cases o' <;> simp [mergeAt]

end

section
variable {A V : Type} [GoKey A] [LawfulGoKey A] [Inhabited V] [GoKey V] [LawfulGoKey V] [GoHash]

theorem SameVal.isSome {o o' : Option V} (h : SameVal o o') : o.isSome = true ↔ o'.isSome = true := by
  cases o <;> cases o' <;> simp_all [SameVal]

theorem SameVal.none_iff {o : Option V} : SameVal o none ↔ o = none := by
  cases o <;> simp [SameVal]

theorem Tuple.eq_iff (t u : Tuple A V) : GoKey.eq t u = true ↔ ∀ a, SameVal (t.val a) (u.val a) := by
  rw [MapVal.eq_iff]
  simp only [Tuple.val_lk]

theorem mergeAt_congr {o o' p p' : Option V} (h : SameVal o o') (h' : SameVal p p') :
    SameVal (mergeAt (fun _ y => y) o p) (mergeAt (fun _ y => y) o' p') := by
  cases o <;> cases o' <;> cases p <;> cases p' <;> simp_all [SameVal, mergeAt]

theorem foldl_merge_congr (a : A) : ∀ (xs : List (Tuple A V)) {o o' : Option V}, SameVal o o' →
    SameVal (xs.foldl (fun o x => mergeAt (fun _ b => b) o (x.val a)) o) (xs.foldl (fun o x => mergeAt (fun _ b => b) o (x.val a)) o')
  | [], _, _, h => h
  | x :: xs, _, _, h => foldl_merge_congr a xs (mergeAt_congr h (SameVal.refl _))

theorem MergesOk.congr {P P' : A → Prop} (h : ∀ a, P a ↔ P' a) {rs : List (Rel A V)} (hm : MergesOk P rs) : MergesOk P' rs := by
  have : P = P' := funext fun a => propext (h a)
  rwa [← this]

/-- The tuples `buildCartesianProduct` adds. -/
theorem bcp_list : ∀ (rs : List (Rel A V)) (t : Tuple A V), (∀ r ∈ rs, r.Valid) → MergesOk t.Has rs →
    ∃ ts : List (Tuple A V), (∀ b, buildCartesianProduct b t rs = ts.foldlM (fun b u => SetBuilder.add b u) b) ∧
      (∀ w ∈ ts, ∃ xs, List.Forall₂ (fun (r : Rel A V) x => r.Mem x) rs xs ∧
        ∀ a, SameVal (w.val a) (xs.foldl (fun o x => mergeAt (fun _ b => b) o (x.val a)) (t.val a))) ∧
      (∀ xs, List.Forall₂ (fun (r : Rel A V) x => r.Mem x) rs xs → ∃ w ∈ ts,
        ∀ a, SameVal (w.val a) (xs.foldl (fun o x => mergeAt (fun _ b => b) o (x.val a)) (t.val a)))
  | [], t, _, _ => by
    refine ⟨[t], fun b => ?_, ?_, ?_⟩
    · rw [buildCartesianProduct, List.foldlM_cons]
      cases SetBuilder.add b t <;> rfl
    · intro w hw
      rw [List.mem_singleton] at hw
      subst hw
      exact ⟨[], .nil, fun a => SameVal.refl _⟩
    · intro xs hxs
      cases hxs
      exact ⟨t, by simp, fun a => SameVal.refl _⟩
  | r :: rs, t, hv, hm => by
    have hr : r.Valid := hv r (by simp)
    have step : ∀ v, r.Mem v → ∃ ts : List (Tuple A V),
        (∀ b, (do let t' ← Tuple.update t v; buildCartesianProduct b t' rs) = ts.foldlM (fun b u => SetBuilder.add b u) b) ∧
        (∀ w ∈ ts, ∃ xs, List.Forall₂ (fun (r : Rel A V) x => r.Mem x) rs xs ∧
          ∀ a, SameVal (w.val a) ((v :: xs).foldl (fun o x => mergeAt (fun _ b => b) o (x.val a)) (t.val a))) ∧
        (∀ xs, List.Forall₂ (fun (r : Rel A V) x => r.Mem x) rs xs → ∃ w ∈ ts,
          ∀ a, SameVal (w.val a) ((v :: xs).foldl (fun o x => mergeAt (fun _ b => b) o (x.val a)) (t.val a))) := by
      intro v hmem
      obtain ⟨c1, c2⟩ := hm v hmem
      obtain ⟨t', u1, u2⟩ := Tuple.update_spec t v c1
      obtain ⟨ts, i1, i2, i3⟩ := bcp_list rs t' (fun r hr => hv r (by simp [hr])) (c2.congr (fun a => by
        show t.Has a ∨ v.Has a ↔ (t'.val a).isSome = true
        rw [u2, mergeAt_isSome]; rfl))
      simp only [u2] at i2 i3
      exact ⟨ts, fun b => by rw [u1]; exact i1 b, i2, i3⟩
    choose! tsf s1 s2 s3 using step
    refine ⟨r.tree.list.flatMap tsf, fun b => ?_, ?_, ?_⟩
    · rw [buildCartesianProduct, FSet.rangeList_spec hr]
      exact foldlM_flatMap _ (fun v hv b => s1 v (FSet.mem_of_list hr hv) b) b
    · intro w hw
      obtain ⟨v, hv, hw⟩ := List.mem_flatMap.1 hw
      obtain ⟨xs, x1, x2⟩ := s2 v (FSet.mem_of_list hr hv) w hw
      exact ⟨v :: xs, .cons (FSet.mem_of_list hr hv) x1, x2⟩
    · intro xs hxs
      cases hxs with
      | @cons _ x _ xs hx hxs =>
        obtain ⟨e, he, hex⟩ := (FSet.mem_iff_list hr x).1 hx
        obtain ⟨w, hw, hww⟩ := s3 e (FSet.mem_of_list hr he) xs hxs
        refine ⟨w, List.mem_flatMap.2 ⟨e, he, hw⟩, fun a => (hww a).trans ?_⟩
        rw [List.foldl_cons, List.foldl_cons]
        exact foldl_merge_congr a xs (mergeAt_congr (SameVal.refl _) ((Tuple.eq_iff e x).1 hex a))

/-- The set built from the tuples added to a builder. -/
theorem adds_spec (ts : List (Tuple A V)) : ∃ r, (do let b ← ts.foldlM (fun b u => SetBuilder.add b u) (Tree.zero : SetBuilder (Tuple A V)); pure (SetBuilder.finish b).1) = .ok r ∧
    r.Reachable ∧ ∀ u, r.Mem u ↔ ∃ w ∈ ts, ∀ a, SameVal (u.val a) (w.val a) := by
  obtain ⟨r, h1, _, _, h4⟩ := buildSet_spec ts
  refine ⟨r, h1, reachable_newSet h1, fun u => ?_⟩
  rw [h4]
  constructor
  · rintro ⟨w, hw, h⟩
    exact ⟨w, hw, (Tuple.eq_iff u w).1 (PerGoKey.symm h)⟩
  · rintro ⟨w, hw, h⟩
    exact ⟨w, hw, PerGoKey.symm ((Tuple.eq_iff u w).2 h)⟩

theorem cartesianProduct_spec (rs : List (Rel A V)) (hv : ∀ r ∈ rs, r.Valid) (hm : MergesOk (fun _ => False) rs) :
    ∃ r, cartesianProduct rs = .ok r ∧ r.Reachable ∧
      ∀ u, r.Mem u ↔ ∃ xs, List.Forall₂ (fun (r : Rel A V) x => r.Mem x) rs xs ∧ ∀ a, SameVal (u.val a) (lastVal xs a) := by
  obtain ⟨ts, h1, h2, h3⟩ := bcp_list rs Tuple.empty hv (hm.congr (fun a => by
    show False ↔ (Tuple.val _ a).isSome = true
    rw [Tuple.val_empty]; simp))
  obtain ⟨r, r1, r2, r3⟩ := adds_spec ts
  simp only [Tuple.val_empty] at h2 h3
  refine ⟨r, by unfold cartesianProduct; rw [h1]; exact r1, r2, fun u => ?_⟩
  rw [r3]
  constructor
  · rintro ⟨w, hw, huw⟩
    obtain ⟨xs, x1, x2⟩ := h2 w hw
    exact ⟨xs, x1, fun a => (huw a).trans (x2 a)⟩
  · rintro ⟨xs, x1, x2⟩
    obtain ⟨w, hw, hww⟩ := h3 xs x1
    exact ⟨w, hw, fun a => (x2 a).trans (hww a).symm⟩

/-! ### Joins -/

theorem JoinOf.agree {x y u : Tuple A V} (h : JoinOf x y u) : Agree x y := fun a hx hy =>
  ((h a).1 hx).symm.trans ((h a).2.1 hy)

theorem joinOf_iff {x y : Tuple A V} (h : Agree x y) (u : Tuple A V) :
    JoinOf x y u ↔ ∀ a, SameVal (u.val a) (mergeAt (fun _ b => b) (x.val a) (y.val a)) := by
  constructor
  · intro hj a
    obtain ⟨h1, h2, h3⟩ := hj a
    by_cases hy : y.Has a
    · have := h2 hy
      unfold Tuple.Has at hy
      cases hyv : y.val a with
      | none => rw [hyv] at hy; cases hy
      | some v => rw [hyv] at this; cases x.val a <;> exact this
    · have hyn := Tuple.not_has.1 hy
      rw [hyn]
      by_cases hx : x.Has a
      · have := h1 hx
        unfold Tuple.Has at hx
        cases hxv : x.val a with
        | none => rw [hxv] at hx; cases hx
        | some v => rw [hxv] at this; exact this
      · have hun := Tuple.not_has.1 (h3 hx hy)
        rw [Tuple.not_has.1 hx, hun]
        exact SameVal.refl _
  · intro hj a
    have := hj a
    refine ⟨fun hx => ?_, fun hy => ?_, fun hx hy => ?_⟩
    · by_cases hy : y.Has a
      · have hag := h a hx hy
        unfold Tuple.Has at hx hy
        cases hxv : x.val a with
        | none => rw [hxv] at hx; cases hx
        | some v =>
          cases hyv : y.val a with
          | none => rw [hyv] at hy; cases hy
          | some v' =>
            rw [hxv, hyv] at this hag
            exact this.trans hag.symm
      · rw [Tuple.not_has.1 hy] at this
        cases hxv : x.val a with
        | none => rw [hxv] at this; exact this
        | some v => rw [hxv] at this; exact this
    · unfold Tuple.Has at hy
      cases hyv : y.val a with
      | none => rw [hyv] at hy; cases hy
      | some v' => rw [hyv] at this; cases hxv : x.val a <;> rw [hxv] at this <;> exact this
    · rw [Tuple.not_has.1 hx, Tuple.not_has.1 hy] at this
      rw [Tuple.not_has]
      exact SameVal.none_iff.1 this

theorem JoinOf.congr {x y u x' y' u' : Tuple A V} (hx : ∀ a, SameVal (x.val a) (x'.val a)) (hy : ∀ a, SameVal (y.val a) (y'.val a))
    (hu : ∀ a, SameVal (u.val a) (u'.val a)) (h : JoinOf x y u) : JoinOf x' y' u' := by
  intro a
  obtain ⟨h1, h2, h3⟩ := h a
  refine ⟨fun g => ?_, fun g => ?_, fun g g' k => ?_⟩
  · exact (hu a).symm.trans ((h1 ((hx a).isSome.2 g)).trans (hx a))
  · exact (hu a).symm.trans ((h2 ((hy a).isSome.2 g)).trans (hy a))
  · exact h3 (fun q => g ((hx a).isSome.1 q)) (fun q => g' ((hy a).isSome.1 q)) ((hu a).isSome.2 k)

theorem JoinOf.has {x y u : Tuple A V} (h : JoinOf x y u) (a : A) : u.Has a ↔ x.Has a ∨ y.Has a := by
  obtain ⟨h1, h2, h3⟩ := h a
  constructor
  · intro hu
    by_cases hx : x.Has a
    · exact .inl hx
    · by_cases hy : y.Has a
      · exact .inr hy
      · exact absurd hu (h3 hx hy)
  · rintro (hx | hy)
    · exact (h1 hx).isSome.2 hx
    · exact (h2 hy).isSome.2 hy

theorem mergesOk_pair {s t : Rel A V} {P Q : A → Prop} (hP : Uniform s P) (hQ : Uniform t Q) (hc : ¬ TripleClash P Q) :
    MergesOk (fun _ => False) [s, t] := by
  intro x hx
  refine ⟨not_clash_empty _, fun y hy => ⟨fun h => hc ?_, trivial⟩⟩
  refine (TripleClash.congr (fun a => ?_) (fun a => hQ y hy a)).1 h
  rw [false_or]; exact hP x hx a

theorem Uniform.sub {s s' : Rel A V} {P : A → Prop} (h : Uniform s P) (hs : ∀ x, s'.Mem x → s.Mem x) : Uniform s' P :=
  fun t ht => h t (hs t ht)

/-- The merges of pairs. -/
theorem pair_spec {s t : Rel A V} (hs : s.Valid) (ht : t.Valid) {P Q : A → Prop} (hP : Uniform s P) (hQ : Uniform t Q)
    (hc : ¬ TripleClash P Q) : ∃ ts : List (Tuple A V),
    (∀ b, buildCartesianProduct b Tuple.empty [s, t] = ts.foldlM (fun b u => SetBuilder.add b u) b) ∧
    ∀ u : Tuple A V, (∃ w ∈ ts, ∀ a, SameVal (u.val a) (w.val a)) ↔
      ∃ x y, s.Mem x ∧ t.Mem y ∧ ∀ a, SameVal (u.val a) (mergeAt (fun _ b => b) (x.val a) (y.val a)) := by
  obtain ⟨ts, h1, h2, h3⟩ := bcp_list [s, t] Tuple.empty (by simp [hs, ht]) ((mergesOk_pair hP hQ hc).congr (fun a => by
    show False ↔ (Tuple.val _ a).isSome = true
    rw [Tuple.val_empty]; simp))
  simp only [Tuple.val_empty] at h2 h3
  refine ⟨ts, h1, fun u => ?_⟩
  constructor
  · rintro ⟨w, hw, huw⟩
    obtain ⟨xs, x1, x2⟩ := h2 w hw
    obtain ⟨x, l1, k1, k2, rfl⟩ := List.forall₂_cons_left_iff.1 x1
    obtain ⟨y, l2, k3, k4, rfl⟩ := List.forall₂_cons_left_iff.1 k2
    cases k4
    exact ⟨x, y, k1, k3, fun a => (huw a).trans (x2 a)⟩
  · rintro ⟨x, y, k1, k2, k3⟩
    obtain ⟨w, hw, hww⟩ := h3 [x, y] (.cons k1 (.cons k2 .nil))
    exact ⟨w, hw, fun a => (k3 a).trans (hww a).symm⟩

theorem projected_eq_iff {cs : List A} {P Q : A → Prop} (hcs : ∀ a, cs.any (fun c => GoKey.eq c a) = true ↔ P a ∧ Q a)
    {x y x' y' : Tuple A V} (hx : ∀ b, x'.val b = if cs.any (fun c => GoKey.eq c b) = true then x.val b else none)
    (hy : ∀ b, y'.val b = if cs.any (fun c => GoKey.eq c b) = true then y.val b else none) :
    GoKey.eq x' y' = true ↔ ∀ a, P a → Q a → SameVal (x.val a) (y.val a) := by
  rw [Tuple.eq_iff]
  constructor
  · intro h a hp hq
    have := h a
    rw [hx, hy] at this
    simp only [(hcs a).2 ⟨hp, hq⟩, if_true] at this
    exact this
  · intro h a
    rw [hx, hy]
    by_cases hc : cs.any (fun c => GoKey.eq c a) = true
    · simp only [hc, if_true]
      exact h a ((hcs a).1 hc).1 ((hcs a).1 hc).2
    · simp only [hc]
      exact SameVal.refl _

theorem joinCommon_spec {s t : Rel A V} (hs : s.Valid) (ht : t.Valid) {P Q : A → Prop} (hP : Uniform s P) (hQ : Uniform t Q)
    {cs : List A} (hcs : ∀ a, cs.any (fun c => GoKey.eq c a) = true ↔ P a ∧ Q a) :
    (¬ TripleClash P Q → ∃ r, joinCommon s t cs = .ok r ∧ r.Reachable ∧ ∀ u, r.Mem u ↔ ∃ x y, s.Mem x ∧ t.Mem y ∧ JoinOf x y u) ∧
    (TripleClash P Q → (∃ x y, s.Mem x ∧ t.Mem y ∧ Agree x y) → joinCommon s t cs = .error .wtf) := by
  choose kf k1 k2 using fun t : Tuple A V => Tuple.project_spec t cs
  have kcong : ∀ a b, GoKey.eq a b = true → GoKey.eq (kf a) (kf b) = true := by
    intro a b hab
    rw [projected_eq_iff hcs (k2 a) (k2 b)]
    exact fun c _ _ => (Tuple.eq_iff a b).1 hab c
  have kagree : ∀ x y, s.Mem x → t.Mem y → (GoKey.eq (kf x) (kf y) = true ↔ Agree x y) := by
    intro x y hx hy
    rw [projected_eq_iff hcs (k2 x) (k2 y)]
    unfold Agree
    constructor
    · exact fun h a ha hb => h a ((hP x hx a).1 ha) ((hQ y hy a).1 hb)
    · exact fun h a ha hb => h a ((hP x hx a).2 ha) ((hQ y hy a).2 hb)
  obtain ⟨sg, s1, s2, s3, s4⟩ := group_mem hs kf kcong
  obtain ⟨tg, t1, t2, t3, t4⟩ := group_mem ht kf kcong
  obtain ⟨sk, a1, a2, a3⟩ := FMap.keys_spec s2
  obtain ⟨tk, b1, b2, b3⟩ := FMap.keys_spec t2
  obtain ⟨ck, c1, c2, c3, _⟩ := FSet.intersection_spec a2 b2
  have hck : ∀ k, ck.Mem k ↔ (∃ x, s.Mem x ∧ GoKey.eq (kf x) k = true) ∧ ∃ y, t.Mem y ∧ GoKey.eq (kf y) k = true := by
    intro k; rw [c3, a3, b3, s3, t3]
  have hgroups : ∀ k, ck.Mem k → ∃ a b, sg.tree.lk k = some a ∧ tg.tree.lk k = some b := by
    intro k hk
    rw [c3, a3, b3] at hk
    exact ⟨_, _, (Option.some_get hk.1).symm, (Option.some_get hk.2).symm⟩
  have hfun : ∀ (rb : SetBuilder (Tuple A V)) k a b, sg.tree.lk k = some a → tg.tree.lk k = some b →
      joinStep sg tg rb k = buildCartesianProduct rb Tuple.empty [a, b] := by
    intro rb k a b ha hb
    unfold joinStep
    rw [FMap.get_spec s2, ha]
    simp only [bind, Except.bind]
    rw [FMap.get_spec t2, hb]
  have hrun : joinCommon s t cs = (do
      let rb ← ck.tree.list.foldlM (joinStep sg tg) (Tree.zero : SetBuilder (Tuple A V))
      pure (SetBuilder.finish rb).1) := by
    unfold joinCommon
    rw [setGroupByM_eq hs (fun v _ => k1 v), setGroupByM_eq ht (fun v _ => k1 v), s1, t1]
    simp only [bind, Except.bind, a1, b1, c1, FSet.rangeList_spec c2]
  constructor
  · intro hc
    have step : ∀ k, ck.Mem k → ∃ ts : List (Tuple A V),
        (∀ rb, joinStep sg tg rb k = ts.foldlM (fun b u => SetBuilder.add b u) rb) ∧
        ∀ u : Tuple A V, (∃ w ∈ ts, ∀ a, SameVal (u.val a) (w.val a)) ↔
          ∃ x y, (s.Mem x ∧ GoKey.eq (kf x) k = true) ∧ (t.Mem y ∧ GoKey.eq (kf y) k = true) ∧
            ∀ a, SameVal (u.val a) (mergeAt (fun _ b => b) (x.val a) (y.val a)) := by
      intro k hk
      obtain ⟨a, b, ha, hb⟩ := hgroups k hk
      obtain ⟨g1, g2⟩ := s4 k a ha
      obtain ⟨g3, g4⟩ := t4 k b hb
      obtain ⟨ts, p1, p2⟩ := pair_spec g1.valid g3.valid (hP.sub (fun x hx => ((g2 x).1 hx).1)) (hQ.sub (fun x hx => ((g4 x).1 hx).1)) hc
      refine ⟨ts, fun rb => by rw [hfun rb k a b ha hb, p1], fun u => ?_⟩
      rw [p2]
      simp only [g2, g4]
    choose! tsf e1 e2 using step
    obtain ⟨r, r1, r2, r3⟩ := adds_spec (ck.tree.list.flatMap tsf)
    refine ⟨r, ?_, r2, fun u => ?_⟩
    · rw [hrun, foldlM_flatMap _ (fun k hk b => e1 k (FSet.mem_of_list c2 hk) b)]
      exact r1
    · rw [r3]
      constructor
      · rintro ⟨w, hw, huw⟩
        obtain ⟨k, hk, hw⟩ := List.mem_flatMap.1 hw
        obtain ⟨x, y, ⟨m1, m2⟩, ⟨m3, m4⟩, m5⟩ := (e2 k (FSet.mem_of_list c2 hk) u).1 ⟨w, hw, huw⟩
        refine ⟨x, y, m1, m3, (joinOf_iff ?_ u).2 m5⟩
        exact (kagree x y m1 m3).1 (PerGoKey.trans m2 (PerGoKey.symm m4))
      · rintro ⟨x, y, m1, m2, m3⟩
        have hk : ck.Mem (kf x) := (hck _).2 ⟨⟨x, m1, LawfulGoKey.refl _⟩, y, m2, PerGoKey.symm ((kagree x y m1 m2).2 m3.agree)⟩
        obtain ⟨k, hk1, hk2⟩ := (FSet.mem_iff_list c2 _).1 hk
        have hkm := FSet.mem_of_list c2 hk1
        obtain ⟨w, hw, huw⟩ := (e2 k hkm u).2 ⟨x, y, ⟨m1, PerGoKey.symm hk2⟩,
          ⟨m2, PerGoKey.trans (PerGoKey.symm ((kagree x y m1 m2).2 m3.agree)) (PerGoKey.symm hk2)⟩, (joinOf_iff m3.agree u).1 m3⟩
        exact ⟨w, List.mem_flatMap.2 ⟨k, hk1, hw⟩, huw⟩
  · rintro hc ⟨x, y, m1, m2, m3⟩
    have hk : ck.Mem (kf x) := (hck _).2 ⟨⟨x, m1, LawfulGoKey.refl _⟩, y, m2, PerGoKey.symm ((kagree x y m1 m2).2 m3)⟩
    obtain ⟨k, l, hl, _, hkm⟩ := FSet.exists_any c2 ⟨_, hk⟩
    obtain ⟨a, b, ha, hb⟩ := hgroups k hkm
    obtain ⟨g1, g2⟩ := s4 k a ha
    obtain ⟨g3, g4⟩ := t4 k b hb
    obtain ⟨⟨x', hx'⟩, ⟨y', hy'⟩⟩ := (hck k).1 hkm
    obtain ⟨x0, lx, hlx, _, hx0⟩ := FSet.exists_any g1.valid ⟨x', (g2 x').2 hx'⟩
    obtain ⟨y0, ly, hly, _, hy0⟩ := FSet.exists_any g3.valid ⟨y', (g4 y').2 hy'⟩
    have : joinStep sg tg (Tree.zero : SetBuilder (Tuple A V)) k = .error .wtf := by
      rw [hfun _ k a b ha hb, buildCartesianProduct, FSet.rangeList_spec g1.valid, hlx]
      obtain ⟨e, e1, e2⟩ := Tuple.update_spec Tuple.empty x0 (fun h => not_clash_empty _ ((TripleClash.congr (fun a => by
        unfold Tuple.Has; rw [Tuple.val_empty]; simp) (fun a => Iff.rfl)).1 h))
      simp only [bind, Except.bind]
      apply foldlM_head_error
      simp only [e1, bind, Except.bind]
      rw [buildCartesianProduct, FSet.rangeList_spec g3.valid, hly]
      simp only [bind, Except.bind]
      apply foldlM_head_error
      have := Tuple.update_error e y0 ((TripleClash.congr (fun a => by
        unfold Tuple.Has; rw [e2, Tuple.val_empty]; exact (hP x0 ((g2 x0).1 hx0).1 a).symm) (fun a => (hQ y0 ((g4 y0).1 hy0).1 a).symm)).1 hc)
      simp only [this, bind, Except.bind]
    rw [hrun, hl, foldlM_head_error this]
    rfl

theorem trueSet_spec : ∃ r : Rel A V, trueSet = .ok r ∧ r.Valid ∧ ∀ u, r.Mem u ↔ ∀ a, u.val a = none := by
  obtain ⟨r, h1, h2, _, h4⟩ := buildSet_spec [(Tuple.empty : Tuple A V)]
  refine ⟨r, h1, h2, fun u => ?_⟩
  rw [h4]
  constructor
  · rintro ⟨v, hv, h⟩ a
    rw [List.mem_singleton] at hv
    subst hv
    have := (Tuple.eq_iff _ u).1 h a
    rw [Tuple.val_empty] at this
    exact SameVal.none_iff.1 this.symm
  · intro h
    refine ⟨_, List.mem_singleton_self _, (Tuple.eq_iff _ u).2 (fun a => ?_)⟩
    rw [Tuple.val_empty, h a]
    exact SameVal.refl _

/-- Which pairs have common attributes at all. -/
theorem joinGeneral_spec {s t : Rel A V} (hs : s.Valid) (ht : t.Valid) {P Q : A → Prop} (hP : Uniform s P) (hQ : Uniform t Q)
    (hns : ∃ x, s.Mem x) (hnt : ∃ y, t.Mem y) :
    (¬ TripleClash P Q → ∃ r, joinGeneral s t = .ok r ∧ r.Reachable ∧ ∀ u, r.Mem u ↔ ∃ x y, s.Mem x ∧ t.Mem y ∧ JoinOf x y u) ∧
    (TripleClash P Q → (∃ x y, s.Mem x ∧ t.Mem y ∧ Agree x y) → joinGeneral s t = .error .wtf) := by
  obtain ⟨x0, lx, hlx, ax, hx0⟩ := FSet.exists_any hs hns
  obtain ⟨y0, ly, hly, ay, hy0⟩ := FSet.exists_any ht hnt
  obtain ⟨sk, a1, a2, a3⟩ := FMap.keys_spec x0.2.valid
  obtain ⟨tk, b1, b2, b3⟩ := FMap.keys_spec y0.2.valid
  obtain ⟨ck, c1, c2, c3, _⟩ := FSet.intersection_spec a2 b2
  have hcs : ∀ a, ck.tree.list.any (fun c => GoKey.eq c a) = true ↔ P a ∧ Q a := by
    intro a
    have h1 : ck.tree.list.any (fun c => GoKey.eq c a) = true ↔ ck.Mem a := by
      rw [FSet.mem_iff_list c2, List.any_eq_true]
    rw [h1, c3, a3, b3, ← hP x0 hx0, ← hQ y0 hy0]
    unfold Tuple.Has
    rw [Tuple.val_lk, Tuple.val_lk]
  have hrun : joinGeneral s t = if ck.tree.list.length = 0 then cartesianProduct [s, t] else joinCommon s t ck.tree.list := by
    unfold joinGeneral
    simp only [ax, a1, ay, b1, c1, FSet.elements_spec c2, bind, Except.bind]
  by_cases hl : ck.tree.list.length = 0
  · rw [if_pos hl] at hrun
    have hno : ∀ a, ¬ (P a ∧ Q a) := by
      intro a h
      have := (hcs a).2 h
      rw [List.length_eq_zero_iff.1 hl] at this; cases this
    have hag : ∀ x y, s.Mem x → t.Mem y → Agree x y := fun x y hx hy a h1 h2 =>
      absurd ⟨(hP x hx a).1 h1, (hQ y hy a).1 h2⟩ (hno a)
    constructor
    · intro hc
      obtain ⟨ts, p1, p2⟩ := pair_spec hs ht hP hQ hc
      obtain ⟨r, r1, r2, r3⟩ := adds_spec ts
      refine ⟨r, by rw [hrun]; unfold cartesianProduct; rw [p1]; exact r1, r2, fun u => ?_⟩
      rw [r3, p2]
      constructor
      · rintro ⟨x, y, k1, k2, k3⟩
        exact ⟨x, y, k1, k2, (joinOf_iff (hag x y k1 k2) u).2 k3⟩
      · rintro ⟨x, y, k1, k2, k3⟩
        exact ⟨x, y, k1, k2, (joinOf_iff (hag x y k1 k2) u).1 k3⟩
    · intro hc _
      rw [hrun]
      unfold cartesianProduct
      have : buildCartesianProduct (Tree.zero : SetBuilder (Tuple A V)) Tuple.empty [s, t] = .error .wtf := by
        rw [buildCartesianProduct, FSet.rangeList_spec hs, hlx]
        obtain ⟨e, e1, e2⟩ := Tuple.update_spec Tuple.empty x0 (fun h => not_clash_empty _ ((TripleClash.congr (fun a => by
          unfold Tuple.Has; rw [Tuple.val_empty]; simp) (fun a => Iff.rfl)).1 h))
        simp only [bind, Except.bind]
        apply foldlM_head_error
        simp only [e1, bind, Except.bind]
        rw [buildCartesianProduct, FSet.rangeList_spec ht, hly]
        simp only [bind, Except.bind]
        apply foldlM_head_error
        have := Tuple.update_error e y0 ((TripleClash.congr (fun a => by
          unfold Tuple.Has; rw [e2, Tuple.val_empty]; exact (hP x0 hx0 a).symm) (fun a => (hQ y0 hy0 a).symm)).1 hc)
        simp only [this, bind, Except.bind]
      rw [this]; rfl
  · rw [if_neg hl] at hrun
    rw [hrun]
    exact joinCommon_spec hs ht hP hQ hcs

theorem join_empty {s t : Rel A V} (h : s.isEmpty = true ∨ t.isEmpty = true) : join s t = .ok s := by
  unfold join
  rw [if_pos (by simpa using h)]

theorem join_spec {s t : Rel A V} (hs : s.Reachable) (ht : t.Reachable) {P Q : A → Prop} (hP : Uniform s P) (hQ : Uniform t Q)
    (hne : (∃ y, t.Mem y) ∨ ∀ x, ¬ s.Mem x) :
    (¬ TripleClash P Q → ∃ r, join s t = .ok r ∧ r.Reachable ∧ ∀ u, r.Mem u ↔ ∃ x y, s.Mem x ∧ t.Mem y ∧ JoinOf x y u) ∧
    (TripleClash P Q → (∃ x y, s.Mem x ∧ t.Mem y ∧ Agree x y) → join s t = .error .wtf) := by
  by_cases hes : s.isEmpty = true
  · have hno := (FSet.isEmpty_iff_mem hs.valid).1 hes
    refine ⟨fun _ => ⟨s, join_empty (.inl hes), hs, fun u => ?_⟩, ?_⟩
    · exact ⟨fun h => absurd h (hno u), fun ⟨x, _, h, _⟩ => absurd h (hno x)⟩
    · rintro _ ⟨x, _, h, _⟩; exact absurd h (hno x)
  · have hns : ∃ x, s.Mem x := by
      rw [FSet.isEmpty_iff_mem hs.valid] at hes
      exact Classical.not_forall_not.1 hes
    have hnt : ∃ y, t.Mem y := by
      rcases hne with h | h
      · exact h
      · obtain ⟨x, hx⟩ := hns; exact absurd hx (h x)
    have het : ¬ t.isEmpty = true := by
      rw [FSet.isEmpty_iff_mem ht.valid]
      intro h; obtain ⟨y, hy⟩ := hnt; exact h y hy
    obtain ⟨tr, t1, t2, t3⟩ := trueSet_spec (A := A) (V := V)
    obtain ⟨b1, e1, e2⟩ := FSet.equal_spec hs.valid t2
    obtain ⟨b2, f1, f2⟩ := FSet.equal_spec ht.valid t2
    have hrun : join s t = if b1 = true then .ok t else if b2 = true then .ok s else joinGeneral s t := by
      unfold join
      rw [if_neg (by simp [hes, het])]
      simp only [t1, e1, f1, bind, Except.bind]
    by_cases hb1 : b1 = true
    · rw [if_pos hb1] at hrun
      have hst : ∀ x, s.Mem x ↔ ∀ a, x.val a = none := fun x => (e2.1 hb1 x).trans (t3 x)
      have hnoP : ∀ a, ¬ P a := by
        intro a ha
        obtain ⟨x, hx⟩ := hns
        have := (hP x hx a).2 ha
        rw [Tuple.Has, (hst x).1 hx a] at this; cases this
      refine ⟨fun _ => ⟨t, hrun, ht, fun u => ?_⟩, fun hc => ?_⟩
      · constructor
        · intro hu
          obtain ⟨x, hx⟩ := hns
          have hxn := (hst x).1 hx
          refine ⟨x, u, hx, hu, fun a => ⟨fun h => ?_, fun _ => SameVal.refl _, fun _ h => h⟩⟩
          rw [Tuple.Has, hxn a] at h; cases h
        · rintro ⟨x, y, hx, hy, hj⟩
          refine (FSet.mem_congr ht.valid ((Tuple.eq_iff y u).2 (fun a => ?_))).1 hy
          have hag := (joinOf_iff hj.agree u).1 hj a
          rw [(hst x).1 hx a] at hag
          exact hag.symm
      · obtain ⟨x, _, hx, _⟩ := hc
        exact absurd hx (hnoP x)
    · rw [if_neg hb1] at hrun
      by_cases hb2 : b2 = true
      · rw [if_pos hb2] at hrun
        have hst : ∀ x, t.Mem x ↔ ∀ a, x.val a = none := fun x => (f2.1 hb2 x).trans (t3 x)
        have hnoQ : ∀ a, ¬ Q a := by
          intro a ha
          obtain ⟨x, hx⟩ := hnt
          have := (hQ x hx a).2 ha
          rw [Tuple.Has, (hst x).1 hx a] at this; cases this
        refine ⟨fun _ => ⟨s, hrun, hs, fun u => ?_⟩, fun hc => ?_⟩
        · constructor
          · intro hu
            obtain ⟨y, hy⟩ := hnt
            have hyn := (hst y).1 hy
            refine ⟨u, y, hu, hy, fun a => ⟨fun _ => SameVal.refl _, fun h => ?_, fun h _ => h⟩⟩
            rw [Tuple.Has, hyn a] at h; cases h
          · rintro ⟨x, y, hx, hy, hj⟩
            refine (FSet.mem_congr hs.valid ((Tuple.eq_iff x u).2 (fun a => ?_))).1 hx
            have hag := (joinOf_iff hj.agree u).1 hj a
            rw [(hst y).1 hy a] at hag
            cases hxa : x.val a <;> rw [hxa] at hag <;> exact hag.symm
        · obtain ⟨_, y, _, hy, _⟩ := hc
          exact absurd hy (hnoQ y)
      · rw [if_neg hb2] at hrun
        rw [hrun]
        exact joinGeneral_spec hs.valid ht.valid hP hQ hns hnt

end

end Frozen
