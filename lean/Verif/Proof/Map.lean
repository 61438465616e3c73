import Verif.Proof.SetElems
import Verif.Spec.MapProg

/-! Maps: the tree over entries compared by key refines finite maps. -/

set_option linter.unusedSectionVars false

namespace Frozen

variable {K V U : Type} [GoKey K] [LawfulGoKey K] [Inhabited V] [Inhabited U]

instance : LawfulGoKey (Entry K V) where
  refl a := LawfulGoKey.refl a.key
  symm h := PerGoKey.symm (a := Entry.key _) h
  trans h g := PerGoKey.trans (a := Entry.key _) h g
  hash_congr s _ _ h := PerGoKey.hash_congr (a := Entry.key _) s h

instance [GoKey V] [LawfulGoKey V] : LawfulGoKey (KeyValue K V) where
  refl a := by simp [GoKey.eq, LawfulGoKey.refl]
  symm h := by
    simp only [GoKey.eq, Bool.and_eq_true] at *
    exact ⟨PerGoKey.symm h.1, PerGoKey.symm h.2⟩
  trans h g := by
    simp only [GoKey.eq, Bool.and_eq_true] at *
    exact ⟨PerGoKey.trans h.1 g.1, PerGoKey.trans h.2 g.2⟩
  hash_congr s _ _ h := by
    simp only [GoKey.eq, GoKey.hash, Bool.and_eq_true] at *
    exact PerGoKey.hash_congr s h.1

/-- The value stored for a key. -/
def Tree.lk (t : Tree (Entry K V)) (k : K) : Option V := (t.look (newMapKey k)).map (·.value)

def FMap.Valid (m : FMap K V) : Prop := m.tree.Valid

theorem Tree.lk_congr (t : Tree (Entry K V)) {a b : K} (h : GoKey.eq a b = true) : t.lk a = t.lk b := by
  unfold Tree.lk
  rw [Tree.look_congr t (v := newMapKey a) (w := newMapKey b) h]

theorem Tree.look_key (t : Tree (Entry K V)) (e : Entry K V) : t.look e = t.look (newMapKey e.key) :=
  Tree.look_congr t (v := e) (w := newMapKey e.key) (LawfulGoKey.refl e.key)

theorem Tree.lk_eq (t : Tree (Entry K V)) (e : Entry K V) : t.lk e.key = (t.look e).map (·.value) := by
  rw [Tree.look_key]; rfl

theorem Tree.lk_find (t : Tree (Entry K V)) (k : K) : t.lk k = (t.list.find? (fun e => GoKey.eq e.key k)).map (·.value) := rfl

theorem Tree.lk_zero (k : K) : (Tree.zero : Tree (Entry K V)).lk k = none := rfl

theorem Tree.lk_isSome (t : Tree (Entry K V)) (k : K) : (t.lk k).isSome = (t.look (newMapKey k)).isSome := by
  unfold Tree.lk; simp

theorem FMap.get_spec {m : FMap K V} (h : m.Valid) (k : K) : m.get k = .ok (m.tree.lk k) := by
  unfold FMap.get
  rw [Tree.get_spec h]; rfl

theorem FMap.has_spec {m : FMap K V} (h : m.Valid) (k : K) : m.has k = .ok (m.tree.lk k).isSome := by
  unfold FMap.has
  rw [FMap.get_spec h]; rfl

theorem FMap.gets_iff {m : FMap K V} (h : m.Valid) (k : K) (o : Option V) : m.Gets k o ↔ m.tree.lk k = o := by
  unfold FMap.Gets
  rw [FMap.get_spec h]
  simp

theorem FMap.hasKey_iff {m : FMap K V} (h : m.Valid) (k : K) : m.HasKey k ↔ (m.tree.lk k).isSome = true := by
  unfold FMap.HasKey
  rw [FMap.has_spec h]
  simp

theorem FMap.rangeList_spec {m : FMap K V} (h : m.Valid) : m.rangeList = .ok m.tree.list := h.rangeList

/-- The keys of the entries list the key set. -/
theorem Tree.keys_lists {t : Tree (Entry K V)} (h : t.Valid) :
    Lists (t.list.map (·.key)) (fun k => (t.lk k).isSome = true) := by
  constructor
  · unfold PairwiseDifferent
    rw [List.pairwise_map]
    exact h.distinct
  · intro k
    rw [Tree.lk_find]
    simp [List.find?_isSome]

theorem Tree.keys_card {t : Tree (Entry K V)} (h : t.Valid) : HasCard (fun k => (t.lk k).isSome = true) t.count :=
  ⟨_, Tree.keys_lists h, by rw [List.length_map]; exact h.count_eq.symm⟩

/-- An entry is stored exactly if its key has its value, up to the stored representative of the key. -/
theorem Tree.lk_some {t : Tree (Entry K V)} (h : t.Valid) {k : K} {v : V} :
    t.lk k = some v ↔ ∃ e ∈ t.list, GoKey.eq e.key k = true ∧ e.value = v := by
  rw [Tree.lk_find]
  constructor
  · intro hk
    rw [Option.map_eq_some_iff] at hk
    obtain ⟨e, he, hv⟩ := hk
    exact ⟨e, List.mem_of_find?_eq_some he, by simpa using List.find?_some he, hv⟩
  · rintro ⟨e, he, hk, rfl⟩
    have := h.distinct.find?_of_eq (v := newMapKey k) he hk
    have h2 : t.list.find? (fun e => GoKey.eq e.key k) = some e := this
    rw [h2]; rfl

/-! ### Builders -/

theorem MapBuilder.put_spec {b : MapBuilder K V} (h : Tree.Valid b) (k : K) (v : V) :
    ∃ b', MapBuilder.put b k v = .ok b' ∧ Tree.Valid b' ∧ ∀ k', Tree.lk b' k' = setKey (Tree.lk b) k (some v) k' := by
  obtain ⟨b', h1, h2, h3, _⟩ := Builder.add_spec h (⟨k, v⟩ : Entry K V)
  refine ⟨b', h1, h2, fun k' => ?_⟩
  unfold Tree.lk setKey
  rw [h3]
  by_cases hk : GoKey.eq k k' = true
  · rw [if_pos hk, if_pos (show GoKey.eq (⟨k, v⟩ : Entry K V) (newMapKey k') = true from hk)]; rfl
  · rw [if_neg hk, if_neg (show ¬ GoKey.eq (⟨k, v⟩ : Entry K V) (newMapKey k') = true from hk)]

theorem MapBuilder.remove_spec {b : MapBuilder K V} (h : Tree.Valid b) (k : K) :
    ∃ b', MapBuilder.remove b k = .ok b' ∧ Tree.Valid b' ∧ ∀ k', Tree.lk b' k' = setKey (Tree.lk b) k none k' := by
  obtain ⟨b', h1, h2, h3, _⟩ := Builder.remove_spec h (newMapKey k : Entry K V)
  refine ⟨b', h1, h2, fun k' => ?_⟩
  unfold Tree.lk setKey
  rw [h3]
  by_cases hk : GoKey.eq k k' = true
  · rw [if_pos hk, if_pos (show GoKey.eq (newMapKey k : Entry K V) (newMapKey k') = true from hk)]; rfl
  · rw [if_neg hk, if_neg (show ¬ GoKey.eq (newMapKey k : Entry K V) (newMapKey k') = true from hk)]

theorem buildMap_aux : ∀ (kvs : List (KeyValue K V)) {b : MapBuilder K V}, Tree.Valid b →
    ∃ b', kvs.foldlM (fun b kv => MapBuilder.put b kv.key kv.value) b = .ok b' ∧ Tree.Valid b' ∧
      ∀ k, Tree.lk b' k = kvs.foldl (fun m kv => setKey m kv.key (some kv.value)) (Tree.lk b) k
  | [], b, h => ⟨b, rfl, h, fun _ => rfl⟩
  | kv :: kvs, b, h => by
    obtain ⟨b1, h1, h2, h3⟩ := MapBuilder.put_spec h kv.key kv.value
    obtain ⟨b', g1, g2, g3⟩ := buildMap_aux kvs h2
    refine ⟨b', by rw [List.foldlM_cons, h1]; exact g1, g2, fun k => ?_⟩
    rw [g3, List.foldl_cons]
    have : Tree.lk b1 = setKey (Tree.lk b) kv.key (some kv.value) := funext h3
    rw [this]

theorem buildMap_spec (kvs : List (KeyValue K V)) : ∃ m, buildMap kvs = .ok m ∧ m.Valid ∧
    ∀ k, m.tree.lk k = kvs.foldl (fun m kv => setKey m kv.key (some kv.value)) (fun _ => none) k := by
  obtain ⟨b', h1, h2, h3⟩ := buildMap_aux kvs (b := (Tree.zero : Tree (Entry K V))) Tree.valid_zero
  refine ⟨⟨b'⟩, ?_, h2, h3⟩
  simp only [buildMap, h1, bind, Except.bind, pure, Except.pure, MapBuilder.finish, Builder.finish]

omit [LawfulGoKey K] [Inhabited V] in
/-- The last binding of a key wins. -/
theorem foldl_setKey : ∀ (kvs : List (KeyValue K V)) (m : K → Option V) (k : K),
    kvs.foldl (fun m kv => setKey m kv.key (some kv.value)) m k =
      match kvs.reverse.find? (fun kv => GoKey.eq kv.key k) with
      | some kv => some kv.value
      | none => m k
  | [], _, _ => rfl
  | kv :: kvs, m, k => by
    rw [List.foldl_cons, foldl_setKey kvs, List.reverse_cons, List.find?_append]
    cases kvs.reverse.find? (fun kv => GoKey.eq kv.key k) with
    | some x => rfl
    | none =>
      by_cases hk : GoKey.eq kv.key k = true
      · simp [setKey, hk]
      · simp [setKey, hk]

/-- Rebuilding from entries with different keys. -/
theorem buildMap_distinct {es : List (Entry K V)} (hd : Distinct es) : ∃ m,
    buildMap (es.map (fun e => (⟨e.key, e.value⟩ : KeyValue K V))) = .ok m ∧ m.Valid ∧
      ∀ k, m.tree.lk k = (es.find? (fun e => GoKey.eq e.key k)).map (·.value) := by
  obtain ⟨m, h1, h2, h3⟩ := buildMap_spec (es.map (fun e => (⟨e.key, e.value⟩ : KeyValue K V)))
  refine ⟨m, h1, h2, fun k => ?_⟩
  rw [h3, foldl_setKey, ← List.map_reverse, List.find?_map]
  have hp := hd.find?_perm (List.reverse_perm es).symm (newMapKey k)
  have hp' : es.find? (fun e => GoKey.eq e.key k) = es.reverse.find? (fun e => GoKey.eq e.key k) := hp
  have hc : (fun kv : KeyValue K V => GoKey.eq kv.key k) ∘ (fun e : Entry K V => (⟨e.key, e.value⟩ : KeyValue K V)) =
      fun e => GoKey.eq e.key k := rfl
  rw [hc, hp']
  cases es.reverse.find? (fun e => GoKey.eq e.key k) <;> rfl

theorem buildMap_distinct_look {es : List (Entry K V)} (hd : Distinct es) : ∃ m,
    buildMap (es.map (fun e => (⟨e.key, e.value⟩ : KeyValue K V))) = .ok m ∧ m.Valid ∧ m.tree.list.Perm es := by
  obtain ⟨b', h1, h2, h3⟩ := Builder.addAll_spec es (t := (Tree.zero : Tree (Entry K V))) Tree.valid_zero
  refine ⟨⟨b'⟩, ?_, h2, ?_⟩
  · have h1' : (es.map (fun e => (⟨e.key, e.value⟩ : KeyValue K V))).foldlM (fun b kv => MapBuilder.put b kv.key kv.value)
        (Tree.zero : MapBuilder K V) = .ok b' := by
      rw [List.foldlM_map]; exact h1
    simp only [buildMap, h1', bind, Except.bind, pure, Except.pure, MapBuilder.finish, Builder.finish]
  · have hm : ∀ e, e ∈ b'.list ↔ e ∈ es := by
      intro e
      have hl : e ∈ b'.list ↔ b'.look e = some e :=
        ⟨fun he => h2.distinct.find?_of_eq he (eq_refl e), fun he => List.mem_of_find?_eq_some he⟩
      have hs : e ∈ es ↔ es.find? (fun x => GoKey.eq x e) = some e :=
        ⟨fun he => hd.find?_of_eq he (eq_refl e), fun he => List.mem_of_find?_eq_some he⟩
      rw [hl, hs, h3, ← hd.find?_perm (List.reverse_perm es).symm e]
      cases es.find? (fun x => GoKey.eq x e) <;> simp [Tree.look_zero]
    have nd : ∀ {l : List (Entry K V)}, Distinct l → l.Nodup := by
      intro l h
      refine List.Pairwise.imp (fun {a b} hab => ?_) h
      rintro rfl
      rw [eq_refl] at hab; cases hab
    exact (List.perm_ext_iff_of_nodup (nd h2.distinct) (nd hd)).2 hm

/-! ### Operations -/

theorem FMap.with_spec {m : FMap K V} (h : m.Valid) (k : K) (v : V) : ∃ m', m.with k v = .ok m' ∧ m'.Valid ∧
    ∀ k', m'.tree.lk k' = setKey m.tree.lk k (some v) k' := by
  obtain ⟨t', h1, h2, h3, _⟩ := Tree.with_spec h (⟨k, v⟩ : Entry K V)
  refine ⟨⟨t'⟩, by simp [FMap.with, h1, bind, Except.bind, pure, Except.pure], h2, fun k' => ?_⟩
  unfold Tree.lk setKey
  rw [h3]
  by_cases hk : GoKey.eq k k' = true
  · rw [if_pos hk, if_pos (show GoKey.eq (⟨k, v⟩ : Entry K V) (newMapKey k') = true from hk)]; rfl
  · rw [if_neg hk, if_neg (show ¬ GoKey.eq (⟨k, v⟩ : Entry K V) (newMapKey k') = true from hk)]

theorem FMap.without_spec {m : FMap K V} (h : m.Valid) (k : K) : ∃ m', m.without k = .ok m' ∧ m'.Valid ∧
    ∀ k', m'.tree.lk k' = setKey m.tree.lk k none k' := by
  obtain ⟨t', h1, h2, h3, _⟩ := Tree.without_spec h (newMapKey k : Entry K V)
  refine ⟨⟨t'⟩, by simp [FMap.without, h1, bind, Except.bind, pure, Except.pure], h2, fun k' => ?_⟩
  unfold Tree.lk setKey
  rw [h3]
  by_cases hk : GoKey.eq k k' = true
  · rw [if_pos hk, if_pos (show GoKey.eq (newMapKey k : Entry K V) (newMapKey k') = true from hk)]; rfl
  · rw [if_neg hk, if_neg (show ¬ GoKey.eq (newMapKey k : Entry K V) (newMapKey k') = true from hk)]

theorem FMap.project_aux {m : FMap K V} (h : m.Valid) : ∀ (ks : List K) (done : List K) {b : MapBuilder K V}, Tree.Valid b →
    (∀ k, Tree.lk b k = if done.any (fun k' => GoKey.eq k' k) = true then m.tree.lk k else none) →
    ∃ b', ks.foldlM m.projectStep b = .ok b' ∧ Tree.Valid b' ∧
      ∀ k, Tree.lk b' k = if (done ++ ks).any (fun k' => GoKey.eq k' k) = true then m.tree.lk k else none
  | [], done, b, hb, hd => ⟨b, rfl, hb, by simpa using hd⟩
  | k :: ks, done, b, hb, hd => by
    have hstep : ∃ b1, m.projectStep b k = .ok b1 ∧ Tree.Valid b1 ∧
        ∀ k', Tree.lk b1 k' = if (done ++ [k]).any (fun x => GoKey.eq x k') = true then m.tree.lk k' else none := by
      cases hk : m.tree.lk k with
      | none =>
        refine ⟨b, by simp [FMap.projectStep, FMap.get_spec h, hk, bind, Except.bind, pure, Except.pure], hb, fun k' => ?_⟩
        rw [hd]
        by_cases hkk : GoKey.eq k k' = true
        · have : m.tree.lk k' = none := by rw [← Tree.lk_congr m.tree hkk, hk]
          simp [this]
        · simp [hkk]
      | some v =>
        obtain ⟨b1, h1, h2, h3⟩ := MapBuilder.put_spec hb k v
        refine ⟨b1, by simp [FMap.projectStep, FMap.get_spec h, hk, bind, Except.bind, h1], h2, fun k' => ?_⟩
        rw [h3]
        unfold setKey
        by_cases hkk : GoKey.eq k k' = true
        · have : m.tree.lk k' = some v := by rw [← Tree.lk_congr m.tree hkk, hk]
          simp [this, hkk]
        · simp [hkk, hd]
    obtain ⟨b1, h1, h2, h3⟩ := hstep
    obtain ⟨b', g1, g2, g3⟩ := FMap.project_aux h ks (done ++ [k]) h2 h3
    refine ⟨b', by rw [List.foldlM_cons, h1]; exact g1, g2, fun k' => ?_⟩
    rw [g3, List.append_assoc]; rfl

theorem FMap.project_spec {m : FMap K V} (h : m.Valid) (ks : List K) : ∃ m', m.project ks = .ok m' ∧ m'.Valid ∧
    ∀ k, m'.tree.lk k = if ks.any (fun k' => GoKey.eq k' k) = true then m.tree.lk k else none := by
  obtain ⟨b', h1, h2, h3⟩ := FMap.project_aux h ks [] (b := (Tree.zero : Tree (Entry K V))) Tree.valid_zero (fun k => rfl)
  exact ⟨⟨b'⟩, by simp only [FMap.project, h1, bind, Except.bind, pure, Except.pure, MapBuilder.finish, Builder.finish], h2, h3⟩

theorem FMap.where_spec {m : FMap K V} (h : m.Valid) (pred : K → V → Bool) : ∃ m', m.where pred = .ok m' ∧ m'.Valid ∧
    (∀ k, m'.tree.lk k = ((m.tree.look (newMapKey k)).filter (fun e => pred e.key e.value)).map (·.value)) ∧
    ((∀ a b v, GoKey.eq a b = true → pred a v = pred b v) → ∀ k, m'.tree.lk k = (m.tree.lk k).filter (pred k)) := by
  obtain ⟨m', h1, h2, h3⟩ := buildMap_distinct (h.distinct.filter (fun e => pred e.key e.value))
  have h4 : ∀ k, m'.tree.lk k = ((m.tree.look (newMapKey k)).filter (fun e => pred e.key e.value)).map (·.value) := by
    intro k
    rw [h3]
    have := h.distinct.find?_filter (fun e => pred e.key e.value) (newMapKey k)
    have h5 : (m.tree.list.filter (fun e => pred e.key e.value)).find? (fun e => GoKey.eq e.key k) =
      (m.tree.look (newMapKey k)).filter (fun e => pred e.key e.value) := this
    rw [h5]
  refine ⟨m', ?_, h2, h4, fun hp k => ?_⟩
  · simp only [FMap.where, FMap.rangeList_spec h, bind, Except.bind]
    exact h1
  · rw [h4]
    unfold Tree.lk
    cases hl : m.tree.look (newMapKey k) with
    | none => rfl
    | some e =>
      have he : GoKey.eq e (newMapKey k : Entry K V) = true := look_eq hl
      have he : GoKey.eq e.key k = true := he
      simp only [Option.filter_some, Option.map_some, hp e.key k e.value he]
      cases pred k e.value <;> rfl

theorem mapMap_spec {m : FMap K V} (h : m.Valid) (f : K → V → U) : ∃ m', mapMap m f = .ok m' ∧ m'.Valid ∧
    (∀ k, m'.tree.lk k = (m.tree.look (newMapKey k)).map (fun e => f e.key e.value)) ∧ m'.count = m.count := by
  have hd : Distinct (m.tree.list.map (fun e => (⟨e.key, f e.key e.value⟩ : Entry K U))) := by
    unfold Distinct
    rw [List.pairwise_map]
    exact h.distinct
  obtain ⟨m', h1, h2, h3⟩ := buildMap_distinct hd
  have h4 : ∀ k, m'.tree.lk k = (m.tree.look (newMapKey k)).map (fun e => f e.key e.value) := by
    intro k
    rw [h3, List.find?_map]
    have : (fun e : Entry K U => GoKey.eq e.key k) ∘ (fun e : Entry K V => (⟨e.key, f e.key e.value⟩ : Entry K U)) =
      fun e => GoKey.eq e.key k := rfl
    rw [this, Option.map_map]; rfl
  refine ⟨m', ?_, h2, h4, ?_⟩
  · simp only [mapMap, FMap.rangeList_spec h, bind, Except.bind]
    rw [List.map_map] at h1
    exact h1
  · apply HasCard.unique (Tree.keys_card h2)
    refine (Tree.keys_card h).congr (fun k => ?_)
    rw [h4]
    unfold Tree.lk
    simp

omit [LawfulGoKey K] in
theorem tripleClash_keys (P Q : K → Prop) :
    TripleClash (fun e : Entry K V => P e.key) (fun e => Q e.key) ↔ TripleClash P Q := by
  have al : ∀ (n : Nat) (R : K → Prop), AtLeast n (fun e : Entry K V => R e.key) ↔ AtLeast n R := by
    intro n R
    constructor
    · rintro ⟨l, h1, h2, h3⟩
      refine ⟨l.map (·.key), by simp [h1], ?_, ?_⟩
      · unfold PairwiseDifferent at *
        rw [List.pairwise_map]; exact h2
      · intro x hx
        obtain ⟨e, he, rfl⟩ := List.mem_map.1 hx
        exact h3 e he
    · rintro ⟨l, h1, h2, h3⟩
      refine ⟨l.map newMapKey, by simp [h1], ?_, ?_⟩
      · unfold PairwiseDifferent at *
        rw [List.pairwise_map]; exact h2
      · intro x hx
        obtain ⟨e, he, rfl⟩ := List.mem_map.1 hx
        exact h3 e he
  constructor
  · rintro ⟨x, y, h1, h2, h3, h4, h5, h6⟩
    exact ⟨x.key, y.key, h1, h2, h3, (al 3 (fun k => P k ∧ hash0 k >>> 1 = hash0 x.key >>> 1)).1 h4,
      (al 3 (fun k => Q k ∧ hash0 k >>> 1 = hash0 x.key >>> 1)).1 h5,
      h6.imp (al 3 (fun k => P k ∧ hash0 k = hash0 x.key)).1 (al 3 (fun k => Q k ∧ hash0 k = hash0 x.key)).1⟩
  · rintro ⟨x, y, h1, h2, h3, h4, h5, h6⟩
    exact ⟨newMapKey x, newMapKey y, h1, h2, h3, (al 3 (fun k => P k ∧ hash0 k >>> 1 = hash0 x >>> 1)).2 h4,
      (al 3 (fun k => Q k ∧ hash0 k >>> 1 = hash0 x >>> 1)).2 h5,
      h6.imp (al 3 (fun k => P k ∧ hash0 k = hash0 x)).2 (al 3 (fun k => Q k ∧ hash0 k = hash0 x)).2⟩

theorem FMap.clash_iff {m n : FMap K V} (h : m.Valid) (hn : n.Valid) :
    Clash m.tree.root n.tree.root ↔ TripleClash m.HasKey n.HasKey := by
  rw [Tree.clash_iff h hn]
  refine Iff.trans ?_ (tripleClash_keys (V := V) m.HasKey n.HasKey)
  apply TripleClash.congr
  · intro e; rw [FMap.hasKey_iff h, Tree.lk_eq]; simp
  · intro e; rw [FMap.hasKey_iff hn, Tree.lk_eq]; simp

theorem FMap.combine_spec {m n : FMap K V} (h : m.Valid) (hn : n.Valid) {f : Entry K V → Entry K V → Entry K V} (hf : ClassPres f) :
    (TripleClash m.HasKey n.HasKey → m.tree.combine ⟨mapEntryKeyEqual, f⟩ n.tree = .error .wtf) ∧
    (¬ TripleClash m.HasKey n.HasKey → ∃ t, m.tree.combine ⟨mapEntryKeyEqual, f⟩ n.tree = .ok t ∧ t.Valid ∧
      ∀ k, t.lk k = (combOpt f (m.tree.look (newMapKey k)) (n.tree.look (newMapKey k))).map (·.value)) := by
  obtain ⟨h1, h2⟩ := Tree.combine_spec h hn (args := ⟨mapEntryKeyEqual, f⟩) rfl hf
  rw [FMap.clash_iff h hn] at h1 h2
  refine ⟨h1, fun hc => ?_⟩
  obtain ⟨t, h3, h4, h5⟩ := h2 hc
  exact ⟨t, h3, h4, fun k => by unfold Tree.lk; rw [h5]⟩

theorem FMap.merge_spec {m n : FMap K V} (h : m.Valid) (hn : n.Valid) (resolve : K → V → V → V) :
    (TripleClash m.HasKey n.HasKey → m.merge n resolve = .error .wtf) ∧
    (¬ TripleClash m.HasKey n.HasKey → ∃ r, m.merge n resolve = .ok r ∧ r.Valid ∧
      (∀ k, r.tree.lk k = (combOpt (fun a b => ⟨a.key, resolve a.key a.value b.value⟩)
        (m.tree.look (newMapKey k)) (n.tree.look (newMapKey k))).map (·.value)) ∧
      ((∀ a b x y, GoKey.eq a b = true → resolve a x y = resolve b x y) →
        ∀ k, r.tree.lk k = mergeAt (resolve k) (m.tree.lk k) (n.tree.lk k))) := by
  have hf : ClassPres (fun a b : Entry K V => (⟨a.key, resolve a.key a.value b.value⟩ : Entry K V)) :=
    fun a b _ => LawfulGoKey.refl a.key
  obtain ⟨h1, h2⟩ := FMap.combine_spec h hn hf
  constructor
  · intro hc; simp [FMap.merge, h1 hc, bind, Except.bind]
  · intro hc
    obtain ⟨t, h3, h4, h5⟩ := h2 hc
    refine ⟨⟨t⟩, by simp [FMap.merge, h3, bind, Except.bind, pure, Except.pure], h4, h5, fun hr k => ?_⟩
    have h6 : (⟨t⟩ : FMap K V).tree.lk k = t.lk k := rfl
    rw [h6, h5]
    unfold Tree.lk
    cases ha : m.tree.look (newMapKey k) with
    | none => cases n.tree.look (newMapKey k) <;> rfl
    | some a =>
      cases n.tree.look (newMapKey k) with
      | none => rfl
      | some b =>
        have he : GoKey.eq a (newMapKey k : Entry K V) = true := look_eq ha
        simp only [combOpt, Option.map_some, mergeAt, hr a.key k _ _ he]

theorem FMap.update_spec {m n : FMap K V} (h : m.Valid) (hn : n.Valid) :
    (TripleClash m.HasKey n.HasKey → m.update n = .error .wtf) ∧
    (¬ TripleClash m.HasKey n.HasKey → ∃ r, m.update n = .ok r ∧ r.Valid ∧
      ∀ k, r.tree.lk k = mergeAt (fun _ b => b) (m.tree.lk k) (n.tree.lk k)) := by
  unfold FMap.update
  by_cases hc : m.count > n.count
  · rw [if_pos hc]
    have hf : ClassPres (useLHS : Entry K V → _ → _) := fun a b _ => eq_refl a
    obtain ⟨h1, h2⟩ := FMap.combine_spec hn h hf
    constructor
    · intro hcl; simp [h1 hcl.symm, bind, Except.bind]
    · intro hcl
      obtain ⟨t, h3, h4, h5⟩ := h2 (fun h => hcl h.symm)
      refine ⟨⟨t⟩, by simp [h3, bind, Except.bind, pure, Except.pure], h4, fun k => ?_⟩
      have h6 : (⟨t⟩ : FMap K V).tree.lk k = t.lk k := rfl
      rw [h6, h5]
      unfold Tree.lk
      cases m.tree.look (newMapKey k) <;> cases n.tree.look (newMapKey k) <;> rfl
  · rw [if_neg hc]
    have hf : ClassPres (useRHS : Entry K V → _ → _) := ClassPres.rhs
    obtain ⟨h1, h2⟩ := FMap.combine_spec h hn hf
    constructor
    · intro hcl; simp [h1 hcl, bind, Except.bind]
    · intro hcl
      obtain ⟨t, h3, h4, h5⟩ := h2 hcl
      refine ⟨⟨t⟩, by simp [h3, bind, Except.bind, pure, Except.pure], h4, fun k => ?_⟩
      have h6 : (⟨t⟩ : FMap K V).tree.lk k = t.lk k := rfl
      rw [h6, h5]
      unfold Tree.lk
      cases m.tree.look (newMapKey k) <;> cases n.tree.look (newMapKey k) <;> rfl

/-! ### Entries -/

theorem FMap.hasEntry_iff {m : FMap K V} (h : m.Valid) (k : K) (v : V) : m.HasEntry k v ↔ (⟨k, v⟩ : Entry K V) ∈ m.tree.list := by
  unfold FMap.HasEntry
  rw [FMap.rangeList_spec h]
  simp

theorem FMap.hasEntry_look {m : FMap K V} (h : m.Valid) (k : K) (v : V) :
    m.HasEntry k v ↔ m.tree.look (newMapKey k) = some ⟨k, v⟩ := by
  rw [FMap.hasEntry_iff h]
  constructor
  · intro hm
    exact h.distinct.find?_of_eq (v := newMapKey k) hm (LawfulGoKey.refl k)
  · exact fun hl => List.mem_of_find?_eq_some hl

theorem FMap.any_spec {m : FMap K V} (h : m.Valid) :
    match m.tree.list with
    | [] => m.any = .error (.msg "empty map")
    | x :: _ => m.any = .ok x := by
  obtain ⟨it, h1, h2, h3⟩ := iterator_spec h.nodeOk
  obtain ⟨g1, g2⟩ := next_spec it h3
  have h2' : it.rem = m.tree.list := h2
  unfold FMap.any
  rw [h1]
  cases hl : m.tree.list with
  | nil =>
    rw [hl] at h2'
    obtain ⟨it', e1, _, _⟩ := g1 h2'
    simp [e1, bind, Except.bind]
  | cons x xs =>
    rw [hl] at h2'
    obtain ⟨it', e1, _, e3, _⟩ := g2 x xs h2'
    simp [e1, e3, bind, Except.bind]

/-! ### Go maps -/

omit [LawfulGoKey K] [GoKey K] [Inhabited V] in
theorem goMapSet_fold [DecidableEq K] : ∀ (es : List (Entry K V)) (acc : List (K × V)),
    (es.map (·.key)).Nodup → (∀ e ∈ es, ∀ x ∈ acc, x.1 ≠ e.key) →
    es.foldl (fun r e => goMapSet r e.key e.value) acc = acc ++ es.map (fun e => (e.key, e.value))
  | [], acc, _, _ => by simp
  | e :: es, acc, hn, ha => by
    rw [List.map_cons, List.nodup_cons] at hn
    have h1 : goMapSet acc e.key e.value = acc ++ [(e.key, e.value)] := by
      unfold goMapSet
      rw [if_neg]
      intro h
      rw [List.any_eq_true] at h
      obtain ⟨x, hx, hxe⟩ := h
      exact ha e (by simp) x hx (by simpa using hxe)
    rw [List.foldl_cons, h1, goMapSet_fold es _ hn.2]
    · simp
    · intro e' he' x hx
      rw [List.mem_append] at hx
      rcases hx with hx | hx
      · exact ha e' (by simp [he']) x hx
      · simp only [List.mem_singleton] at hx
        subst hx
        intro h
        exact hn.1 (by rw [List.mem_map]; exact ⟨e', he', h.symm⟩)

theorem mapToGoMap_spec [DecidableEq K] (hK : ∀ a b : K, GoKey.eq a b = true ↔ a = b) {m : FMap K V} (h : m.Valid) :
    mapToGoMap m = .ok (m.tree.list.map (fun e => (e.key, e.value))) ∧ (m.tree.list.map (·.key)).Nodup := by
  have hn : (m.tree.list.map (·.key)).Nodup := by
    unfold List.Nodup
    rw [List.pairwise_map]
    refine List.Pairwise.imp (fun {a b} hab => ?_) h.distinct
    intro hk
    have hab : GoKey.eq a.key b.key = false := hab
    rw [(hK _ _).2 hk] at hab; cases hab
  refine ⟨?_, hn⟩
  simp only [mapToGoMap, FMap.rangeList_spec h, bind, Except.bind, pure, Except.pure]
  rw [goMapSet_fold _ _ hn (by simp)]
  simp

/-! ### Programs -/

theorem MapBuildOp.run_spec {b : MapBuilder K V} (h : Tree.Valid b) (op : MapBuildOp K V) : ∃ b', op.run b = .ok b' ∧
    Tree.Valid b' ∧ ∀ k, Tree.lk b' k = op.effect (Tree.lk b) k := by
  cases op with
  | put k v => exact MapBuilder.put_spec h k v
  | remove k => exact MapBuilder.remove_spec h k

theorem MapBuildOp.runAll_spec : ∀ (ops : List (MapBuildOp K V)) {b : MapBuilder K V}, Tree.Valid b →
    ∃ b', ops.foldlM (fun b op => op.run b) b = .ok b' ∧ Tree.Valid b' ∧
      ∀ k, Tree.lk b' k = ops.foldl MapBuildOp.effect (Tree.lk b) k
  | [], b, h => ⟨b, rfl, h, fun _ => rfl⟩
  | op :: ops, b, h => by
    obtain ⟨b1, h1, h2, h3⟩ := MapBuildOp.run_spec h op
    obtain ⟨b', g1, g2, g3⟩ := MapBuildOp.runAll_spec ops h2
    refine ⟨b', by rw [List.foldlM_cons, h1]; exact g1, g2, fun k => ?_⟩
    rw [g3, List.foldl_cons]
    have : Tree.lk b1 = op.effect (Tree.lk b) := funext h3
    rw [this]

/-- Running a program: either the collision panic, or a valid map that is what the program denotes. -/
theorem MapProg.run_spec : ∀ (p : MapProg K V),
    p.run = .error .wtf ∨ ∃ m, p.run = .ok m ∧ m.Valid ∧ ∀ k, m.tree.lk k = p.denote k
  | .newMap kvs => .inr (buildMap_spec kvs)
  | .build ops => by
    obtain ⟨b', h1, h2, h3⟩ := MapBuildOp.runAll_spec ops (b := (Tree.zero : Tree (Entry K V))) Tree.valid_zero
    exact .inr ⟨⟨b'⟩, by simp only [MapProg.run, h1, bind, Except.bind, pure, Except.pure, MapBuilder.finish, Builder.finish], h2, h3⟩
  | .with p k v => by
    rcases MapProg.run_spec p with hp | ⟨m, hp, hv, hd⟩
    · exact .inl (by simp [MapProg.run, hp, bind, Except.bind])
    · obtain ⟨m', h1, h2, h3⟩ := FMap.with_spec hv k v
      exact .inr ⟨m', by simp only [MapProg.run, hp, bind, Except.bind, h1], h2, fun k' => by
        rw [h3, show m.tree.lk = p.denote from funext hd]; rfl⟩
  | .without p k => by
    rcases MapProg.run_spec p with hp | ⟨m, hp, hv, hd⟩
    · exact .inl (by simp [MapProg.run, hp, bind, Except.bind])
    · obtain ⟨m', h1, h2, h3⟩ := FMap.without_spec hv k
      exact .inr ⟨m', by simp only [MapProg.run, hp, bind, Except.bind, h1], h2, fun k' => by
        rw [h3, show m.tree.lk = p.denote from funext hd]; rfl⟩
  | .project p ks => by
    rcases MapProg.run_spec p with hp | ⟨m, hp, hv, hd⟩
    · exact .inl (by simp [MapProg.run, hp, bind, Except.bind])
    · obtain ⟨m', h1, h2, h3⟩ := FMap.project_spec hv ks
      exact .inr ⟨m', by simp only [MapProg.run, hp, bind, Except.bind, h1], h2, fun k' => by
        rw [h3, hd]; rfl⟩
  | .where p pred hpred => by
    rcases MapProg.run_spec p with hp | ⟨m, hp, hv, hd⟩
    · exact .inl (by simp [MapProg.run, hp, bind, Except.bind])
    · obtain ⟨m', h1, h2, _, h3⟩ := FMap.where_spec hv pred
      exact .inr ⟨m', by simp only [MapProg.run, hp, bind, Except.bind, h1], h2, fun k' => by
        rw [h3 hpred, hd]; rfl⟩
  | .update p q => by
    rcases MapProg.run_spec p with hp | ⟨m, hp, hv, hd⟩
    · exact .inl (by simp [MapProg.run, hp, bind, Except.bind])
    · rcases MapProg.run_spec q with hq | ⟨n, hq, hvn, hdn⟩
      · exact .inl (by simp [MapProg.run, hp, hq, bind, Except.bind])
      · obtain ⟨h1, h2⟩ := FMap.update_spec hv hvn
        by_cases hc : TripleClash m.HasKey n.HasKey
        · exact .inl (by simp only [MapProg.run, hp, hq, bind, Except.bind, h1 hc])
        · obtain ⟨r, h3, h4, h5⟩ := h2 hc
          exact .inr ⟨r, by simp only [MapProg.run, hp, hq, bind, Except.bind, h3], h4, fun k => by rw [h5, hd, hdn]; rfl⟩
  | .merge p q resolve hr => by
    rcases MapProg.run_spec p with hp | ⟨m, hp, hv, hd⟩
    · exact .inl (by simp [MapProg.run, hp, bind, Except.bind])
    · rcases MapProg.run_spec q with hq | ⟨n, hq, hvn, hdn⟩
      · exact .inl (by simp [MapProg.run, hp, hq, bind, Except.bind])
      · obtain ⟨h1, h2⟩ := FMap.merge_spec hv hvn resolve
        by_cases hc : TripleClash m.HasKey n.HasKey
        · exact .inl (by simp only [MapProg.run, hp, hq, bind, Except.bind, h1 hc])
        · obtain ⟨r, h3, h4, _, h5⟩ := h2 hc
          exact .inr ⟨r, by simp only [MapProg.run, hp, hq, bind, Except.bind, h3], h4, fun k => by rw [h5 hr, hd, hdn]; rfl⟩

theorem FMap.Reachable.valid {m : FMap K V} (h : m.Reachable) : m.Valid := by
  obtain ⟨p, hp⟩ := h
  rcases MapProg.run_spec p with h1 | ⟨m', h1, h2, _⟩
  · rw [hp] at h1; cases h1
  · rw [hp] at h1; cases h1; exact h2

theorem FMap.reachable_of_build {m : FMap K V} {kvs : List (KeyValue K V)} (h : buildMap kvs = .ok m) : m.Reachable := ⟨.newMap kvs, h⟩

/-! ### Equality and hash -/

theorem FMap.equal_spec [GoKey V] [LawfulGoKey V] {m n : FMap K V} (h : m.Valid) (hn : n.Valid) :
    ∃ b, m.equal n = .ok b ∧ (b = true ↔ ∀ k, SameVal (m.tree.lk k) (n.tree.lk k)) := by
  obtain ⟨b, h1, h2⟩ := Tree.equal_spec h hn (eqv := mapEntryEqual) (fun a b hab => by
    simp only [mapEntryEqual, Bool.and_eq_true] at hab; exact hab.1)
  refine ⟨b, h1, h2.trans ?_⟩
  constructor
  · rintro ⟨hlen, hall⟩ k
    obtain ⟨b', e1, e2⟩ := Tree.equal_ext h hn
    obtain ⟨b2, f1, f2⟩ := Tree.equal_spec h hn (eqv := GoKey.eq) (fun _ _ h => h)
    have hb : b2 = true := f2.2 ⟨hlen, fun e he => by
      obtain ⟨e', he', hee⟩ := hall e he
      simp only [mapEntryEqual, Bool.and_eq_true] at hee
      exact ⟨e', he', hee.1⟩⟩
    rw [f1] at e1; cases e1
    have hsome := e2.1 hb (newMapKey k)
    cases hm : m.tree.lk k with
    | none =>
      have : (n.tree.lk k).isSome = false := by
        rw [Tree.lk_isSome, ← hsome, ← Tree.lk_isSome, hm]; rfl
      cases hx : n.tree.lk k with
      | none => trivial
      | some v => rw [hx] at this; cases this
    | some v =>
      obtain ⟨e, he, hek, hev⟩ := (Tree.lk_some h).1 hm
      obtain ⟨e', he', hee⟩ := hall e he
      simp only [mapEntryEqual, Bool.and_eq_true] at hee
      have : n.tree.lk k = some e'.value :=
        (Tree.lk_some hn).2 ⟨e', he', PerGoKey.trans (PerGoKey.symm hee.1) hek, rfl⟩
      rw [this]
      show GoKey.eq v e'.value = true
      rw [← hev]; exact hee.2
  · intro hall
    have hkeys : ∀ k, (m.tree.lk k).isSome = true ↔ (n.tree.lk k).isSome = true := by
      intro k
      have := hall k
      cases h1 : m.tree.lk k <;> cases h2 : n.tree.lk k <;> rw [h1, h2] at this <;> simp [SameVal] at *
    constructor
    · have := HasCard.unique ((Tree.keys_card h).congr hkeys) (Tree.keys_card hn)
      rw [h.count_eq, hn.count_eq] at this
      exact_mod_cast this
    · intro e he
      have h1 : m.tree.lk e.key = some e.value := (Tree.lk_some h).2 ⟨e, he, LawfulGoKey.refl _, rfl⟩
      have := hall e.key
      rw [h1] at this
      cases h2 : n.tree.lk e.key with
      | none => rw [h2] at this; exact this.elim
      | some v =>
        rw [h2] at this
        obtain ⟨e', he', hk, hv⟩ := (Tree.lk_some hn).1 h2
        refine ⟨e', he', ?_⟩
        simp only [mapEntryEqual, Bool.and_eq_true]
        exact ⟨PerGoKey.symm hk, by rw [hv]; exact this⟩

theorem FMap.hash_spec [GoKey V] [GoHash] {m : FMap K V} (h : m.Valid) (seed : BitVec 64) : m.hash seed =
    .ok ((m.tree.list.map (fun e => GoKey.hash (GoKey.hash seed e.key) e.value)).foldl (fun h v => h ^^^ v)
      (GoHash.uintptr 3167960924819262823#64 seed)) := by
  simp only [FMap.hash, FMap.rangeList_spec h, bind, Except.bind, pure, Except.pure]
  rw [← foldl_xor_map (T := Entry K V)]

theorem FMap.hash_ext [GoKey V] [LawfulGoKey V] [GoHash] {m n : FMap K V} (h : m.Valid) (hn : n.Valid)
    (hs : ∀ k, SameVal (m.tree.lk k) (n.tree.lk k)) (seed : BitVec 64) : m.hash seed = n.hash seed := by
  rw [FMap.hash_spec h, FMap.hash_spec hn]
  congr 1
  apply xor_perm
  -- entries as KeyValues, compared by key and value
  let toKV : Entry K V → KeyValue K V := fun e => ⟨e.key, e.value⟩
  have hl : ∀ (t : Tree (Entry K V)), t.Valid → Distinct (t.list.map toKV) := by
    intro t ht
    unfold Distinct
    rw [List.pairwise_map]
    refine List.Pairwise.imp (fun {a b} hab => ?_) ht.distinct
    have hab : GoKey.eq a.key b.key = false := hab
    show (GoKey.eq a.key b.key && _) = false
    rw [hab]; rfl
  have hc : ∀ w, (∃ e ∈ m.tree.list.map toKV, GoKey.eq e w = true) ↔ ∃ e ∈ n.tree.list.map toKV, GoKey.eq e w = true := by
    have key : ∀ {t u : Tree (Entry K V)}, t.Valid → u.Valid → (∀ k, SameVal (t.lk k) (u.lk k)) → ∀ w,
        (∃ e ∈ t.list.map toKV, GoKey.eq e w = true) → ∃ e ∈ u.list.map toKV, GoKey.eq e w = true := by
      rintro t u ht hu hs w ⟨x, hx, hxw⟩
      obtain ⟨e, he, rfl⟩ := List.mem_map.1 hx
      have hxw : (GoKey.eq e.key w.key && GoKey.eq e.value w.value) = true := hxw
      rw [Bool.and_eq_true] at hxw
      have h1 : t.lk e.key = some e.value := (Tree.lk_some ht).2 ⟨e, he, LawfulGoKey.refl _, rfl⟩
      have h2 := hs e.key
      rw [h1] at h2
      cases h3 : u.lk e.key with
      | none => rw [h3] at h2; exact h2.elim
      | some v =>
        rw [h3] at h2
        have h2 : GoKey.eq e.value v = true := h2
        obtain ⟨e', he', hk, rfl⟩ := (Tree.lk_some hu).1 h3
        refine ⟨toKV e', List.mem_map_of_mem he', ?_⟩
        show (GoKey.eq e'.key w.key && GoKey.eq e'.value w.value) = true
        rw [Bool.and_eq_true]
        exact ⟨PerGoKey.trans hk hxw.1, PerGoKey.trans (PerGoKey.symm h2) hxw.2⟩
    intro w
    refine ⟨key h hn hs w, key hn h (fun k => ?_) w⟩
    have := hs k
    cases h1 : m.tree.lk k <;> cases h2 : n.tree.lk k <;> rw [h1, h2] at this
    · trivial
    · exact this.elim
    · exact this.elim
    · exact PerGoKey.symm (a := (_ : V)) this
  obtain ⟨l'', g1, g2⟩ := Distinct.match (hl _ h) (hl _ hn) hc
  have hmap := forall₂_map_eq (f := fun kv : KeyValue K V => GoKey.hash (GoKey.hash seed kv.key) kv.value) (fun a b hab => by
    have hab : (GoKey.eq a.key b.key && GoKey.eq a.value b.value) = true := hab
    rw [Bool.and_eq_true] at hab
    show GoKey.hash (GoKey.hash seed a.key) a.value = GoKey.hash (GoKey.hash seed b.key) b.value
    rw [PerGoKey.hash_congr seed hab.1, PerGoKey.hash_congr _ hab.2]) g2
  have e1 : m.tree.list.map (fun e => GoKey.hash (GoKey.hash seed e.key) e.value) =
      (m.tree.list.map toKV).map (fun kv => GoKey.hash (GoKey.hash seed kv.key) kv.value) := by rw [List.map_map]; rfl
  have e2 : n.tree.list.map (fun e => GoKey.hash (GoKey.hash seed e.key) e.value) =
      (n.tree.list.map toKV).map (fun kv => GoKey.hash (GoKey.hash seed kv.key) kv.value) := by rw [List.map_map]; rfl
  rw [e1, e2, hmap]
  exact g1.map _

/-! ### Builder histories -/

theorem MapBuildOp.reachable (ops : List (MapBuildOp K V)) {b : MapBuilder K V}
    (h : ops.foldlM (fun b op => op.run b) (Tree.zero : MapBuilder K V) = .ok b) : (⟨b⟩ : FMap K V).Reachable :=
  ⟨.build ops, by simp only [MapProg.run, h, bind, Except.bind, pure, Except.pure, MapBuilder.finish, Builder.finish]⟩

theorem MapBuilder.get_spec {b : MapBuilder K V} (h : Tree.Valid b) (k : K) : MapBuilder.get b k = .ok (Tree.lk b k) := by
  unfold MapBuilder.get
  rw [Tree.get_spec h]; rfl

theorem mapBuilderCalls_spec : ∀ (cs : List (MapBuilderCall K V)) (b : MapBuilder K V) (ops : List (MapBuildOp K V)),
    ops.foldlM (fun b op => op.run b) (Tree.zero : MapBuilder K V) = .ok b →
    ∃ rs, runMapBuilderCalls b cs = .ok rs ∧ MapTraceOk (Tree.lk b) cs rs
  | [], b, ops, _ => ⟨[], rfl, trivial⟩
  | c :: cs, b, ops, hops => by
    have hr := MapBuildOp.reachable ops hops
    have hv : Tree.Valid b := hr.valid
    have step : ∀ (op : MapBuildOp K V) (b' : MapBuilder K V), op.run b = .ok b' →
        (ops ++ [op]).foldlM (fun b op => op.run b) (Tree.zero : MapBuilder K V) = .ok b' := by
      intro op b' hb'
      rw [List.foldlM_append, hops]
      simp only [bind, Except.bind, List.foldlM_cons, List.foldlM_nil, hb', pure, Except.pure]
    cases c with
    | put k v =>
      obtain ⟨b', g1, g2, g3⟩ := MapBuildOp.run_spec hv (.put k v)
      obtain ⟨rs, e1, e2⟩ := mapBuilderCalls_spec cs b' _ (step _ _ g1)
      rw [show Tree.lk b' = setKey (Tree.lk b) k (some v) from funext g3] at e2
      refine ⟨.unit :: rs, ?_, rfl, e2⟩
      have g1' : MapBuilder.put b k v = .ok b' := g1
      simp only [runMapBuilderCalls, MapBuilderCall.run, g1', e1, bind, Except.bind, pure, Except.pure]
    | remove k =>
      obtain ⟨b', g1, g2, g3⟩ := MapBuildOp.run_spec hv (.remove k)
      obtain ⟨rs, e1, e2⟩ := mapBuilderCalls_spec cs b' _ (step _ _ g1)
      rw [show Tree.lk b' = setKey (Tree.lk b) k none from funext g3] at e2
      refine ⟨.unit :: rs, ?_, rfl, e2⟩
      have g1' : MapBuilder.remove b k = .ok b' := g1
      simp only [runMapBuilderCalls, MapBuilderCall.run, g1', e1, bind, Except.bind, pure, Except.pure]
    | get k =>
      obtain ⟨rs, e1, e2⟩ := mapBuilderCalls_spec cs b ops hops
      refine ⟨.val (Tree.lk b k) :: rs, ?_, rfl, e2⟩
      simp only [runMapBuilderCalls, MapBuilderCall.run, MapBuilder.get_spec hv, e1, bind, Except.bind, pure, Except.pure]
    | has k =>
      obtain ⟨rs, e1, e2⟩ := mapBuilderCalls_spec cs b ops hops
      refine ⟨.bool (Tree.lk b k).isSome :: rs, ?_, rfl, e2⟩
      simp only [runMapBuilderCalls, MapBuilderCall.run, MapBuilder.has, MapBuilder.get_spec hv, e1, bind, Except.bind, pure,
        Except.pure]
    | count =>
      obtain ⟨rs, e1, e2⟩ := mapBuilderCalls_spec cs b ops hops
      refine ⟨.int (MapBuilder.count b) :: rs, ?_, ⟨_, rfl, Tree.keys_card hv⟩, e2⟩
      simp only [runMapBuilderCalls, MapBuilderCall.run, e1, bind, Except.bind, pure, Except.pure]
    | finish =>
      obtain ⟨rs, e1, e2⟩ := mapBuilderCalls_spec cs (Tree.zero : Tree (Entry K V)) [] rfl
      refine ⟨.map ⟨b⟩ :: rs, ?_, ⟨_, rfl, hr, fun k => (FMap.gets_iff (m := ⟨b⟩) hv k _).2 rfl, Tree.keys_card hv⟩, e2⟩
      simp only [runMapBuilderCalls, MapBuilderCall.run, MapBuilder.finish, Builder.finish, e1, bind, Except.bind, pure, Except.pure]

end Frozen
