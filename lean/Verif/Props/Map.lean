import Verif.Proof.Map
import Verif.Props.Witness

/-! # C12–C16, C25 and C26 for maps, C29, C42

`MapProg`, `MapProg.denote`, `FMap.Gets`, `FMap.HasKey`, `FMap.HasEntry`, `FMap.Reachable`, `MapTraceOk` are in `Spec/MapProg.lean`.
All theorems hold for every lawful key type and every value type. -/

set_option linter.unusedSectionVars false

namespace Frozen

variable {K V U : Type} [GoKey K] [LawfulGoKey K] [Inhabited V] [Inhabited U]

/-! ### C12 -/

/-- C12. A program that returns a map returns the finite map it denotes: `Get`, `Has` and `Count` agree with it for every key. -/
theorem C12_map_histories (p : MapProg K V) (m : FMap K V) (h : p.run = .ok m) :
    (∀ k, m.Gets k (p.denote k)) ∧ (∀ k, m.has k = .ok (p.denote k).isSome) ∧
      HasCard (fun k => (p.denote k).isSome = true) m.count ∧ (m.isEmpty = true ↔ ∀ k, p.denote k = none) := by
  rcases MapProg.run_spec p with h1 | ⟨m', h1, hv, hd⟩
  · rw [h] at h1; cases h1
  · rw [h] at h1; cases h1
    have hc : HasCard (fun k => (p.denote k).isSome = true) m.count := (Tree.keys_card hv).congr (fun k => by rw [hd])
    refine ⟨fun k => (FMap.gets_iff hv k _).2 (hd k), fun k => by rw [FMap.has_spec hv, hd], hc, ?_⟩
    unfold FMap.isEmpty
    rw [beq_iff_eq]
    obtain ⟨l, hl, hlen⟩ := hc
    have hcount : m.tree.count = m.count := rfl
    rw [hcount, ← hlen]
    constructor
    · intro h0 k
      have : l = [] := by simpa using h0
      subst this
      have := hl.covers k
      simp at this
      exact this
    · intro hn
      cases l with
      | nil => rfl
      | cons a l =>
        have := (hl.covers a).2 ⟨a, by simp, LawfulGoKey.refl a⟩
        rw [hn a] at this; cases this

/-- C12. The only way a program fails is the collision panic of `Merge` and `Update`. -/
theorem C12_map_failures (p : MapProg K V) (e : Panic) (h : p.run = .error e) : e = .wtf := by
  rcases MapProg.run_spec p with h1 | ⟨m', h1, _⟩
  · rw [h] at h1; cases h1; rfl
  · rw [h] at h1; cases h1

/-- C12. `MustGet`, `GetElse` and `GetElseFunc` agree with `Get`. -/
theorem C12_get_variants (m : FMap K V) (h : m.Reachable) (k : K) (d : V) (df : Unit → Go V) :
    ∃ o, m.Gets k o ∧
      m.mustGet k = (match o with | some v => .ok v | none => .error (.msg "key not found")) ∧
      m.getElse k d = .ok (o.getD d) ∧ m.getElseFunc k df = (match o with | some v => .ok v | none => df ()) := by
  refine ⟨_, FMap.get_spec h.valid k, ?_, ?_, ?_⟩
  · simp only [FMap.mustGet, FMap.get_spec h.valid, bind, Except.bind]
    cases m.tree.lk k <;> rfl
  · simp only [FMap.getElse, FMap.get_spec h.valid, bind, Except.bind]
    cases m.tree.lk k <;> rfl
  · simp only [FMap.getElseFunc, FMap.get_spec h.valid, bind, Except.bind]
    cases m.tree.lk k <;> rfl

/-- C12. `Any` returns an entry of a non-empty map and panics on the empty one. -/
theorem C12_any (m : FMap K V) (h : m.Reachable) :
    (m.isEmpty = false → ∃ e, m.any = .ok e ∧ m.HasEntry e.key e.value) ∧
    (m.isEmpty = true → m.any = .error (.msg "empty map")) := by
  have hv := h.valid
  have h1 := FMap.any_spec hv
  have hc : m.tree.count = m.tree.list.length := Tree.Valid.count_eq hv
  unfold FMap.isEmpty
  rw [hc]
  cases hl : m.tree.list with
  | nil => rw [hl] at h1; exact ⟨fun h => by simp at h, fun _ => h1⟩
  | cons x xs =>
    rw [hl] at h1
    refine ⟨fun _ => ⟨x, h1, (FMap.hasEntry_iff hv _ _).2 (by simp [hl])⟩, fun h => ?_⟩
    rw [beq_iff_eq] at h
    simp at h
    omega

/-- C12. Iterating over a map yields each of its keys once, with its value. -/
theorem C12_range (m : FMap K V) (h : m.Reachable) : ∃ l, m.rangeList = .ok l ∧ (l.length : Int) = m.count ∧
    Lists (l.map (·.key)) m.HasKey ∧ ∀ k v, m.Gets k (some v) ↔ ∃ e ∈ l, GoKey.eq e.key k = true ∧ e.value = v := by
  have hv := h.valid
  have hl := Tree.keys_lists hv
  refine ⟨_, FMap.rangeList_spec hv, (Tree.Valid.count_eq hv).symm, ⟨hl.different, fun k => ?_⟩, fun k v => ?_⟩
  · rw [FMap.hasKey_iff hv]; exact hl.covers k
  · rw [FMap.gets_iff hv]; exact Tree.lk_some hv

/-- C12, with the stored keys: `With` stores the given key and value and keeps the other entries as they are. -/
theorem C12_with_entries (m : FMap K V) (h : m.Reachable) (k : K) (v : V) : ∃ m', m.with k v = .ok m' ∧ m'.Reachable ∧
    ∀ k' v', m'.HasEntry k' v' ↔ (k' = k ∧ v' = v) ∨ (GoKey.eq k k' = false ∧ m.HasEntry k' v') := by
  obtain ⟨t', h1, h2, h3, _⟩ := Tree.with_spec h.valid (⟨k, v⟩ : Entry K V)
  have h1' : m.with k v = .ok ⟨t'⟩ := by simp [FMap.with, h1, bind, Except.bind, pure, Except.pure]
  have hv := h.valid
  obtain ⟨p, hp⟩ := h
  refine ⟨⟨t'⟩, h1', ⟨.with p k v, by simp only [MapProg.run, hp, bind, Except.bind]; exact h1'⟩, fun k' v' => ?_⟩
  rw [FMap.hasEntry_look (m := ⟨t'⟩) h2, FMap.hasEntry_look hv]
  show t'.look _ = _ ↔ _
  rw [h3]
  by_cases hk : GoKey.eq k k' = true
  · rw [if_pos (show GoKey.eq (⟨k, v⟩ : Entry K V) (newMapKey k') = true from hk)]
    simp only [Option.some.injEq, Entry.mk.injEq, hk, Bool.true_eq_false, false_and, or_false]
    constructor
    · rintro ⟨rfl, rfl⟩; exact ⟨rfl, rfl⟩
    · rintro ⟨rfl, rfl⟩; exact ⟨rfl, rfl⟩
  · rw [if_neg (show ¬ GoKey.eq (⟨k, v⟩ : Entry K V) (newMapKey k') = true from hk)]
    constructor
    · intro hl; exact .inr ⟨by simpa using hk, hl⟩
    · rintro (⟨rfl, rfl⟩ | ⟨_, hl⟩)
      · exact absurd (LawfulGoKey.refl _) hk
      · exact hl

/-- A program using every step, over keys that are equal modulo 100. -/
def exampleMapProg : MapProg Mod100 Nat :=
  .merge (.with (.newMap [⟨⟨1⟩, 10⟩, ⟨⟨2⟩, 20⟩, ⟨⟨101⟩, 11⟩]) ⟨7⟩ 70)
    (.update (.project (.without (.build [.put ⟨2⟩ 5, .put ⟨3⟩ 6, .remove ⟨3⟩, .put ⟨4⟩ 8]) ⟨4⟩) [⟨102⟩, ⟨9⟩])
      (.where (.newMap [⟨⟨7⟩, 1⟩, ⟨⟨8⟩, 2⟩]) (fun _ v => decide (v = 1)) (fun _ _ _ _ => rfl)))
    (fun _ a b => 100 * a + b) (fun _ _ _ _ _ => rfl)

example : ∃ m, exampleMapProg.run = .ok m ∧ m.count = 3 ∧ m.Gets ⟨401⟩ (some 11) ∧ m.Gets ⟨2⟩ (some 2005) ∧
    m.Gets ⟨7⟩ (some 7001) ∧ m.Gets ⟨8⟩ none := by
  obtain ⟨m, h1, h2⟩ := of_okAnd (r := exampleMapProg.run) (test := fun m => decide (m.count = 3) && isOk (m.get ⟨401⟩) (some 11) &&
    isOk (m.get ⟨2⟩) (some 2005) && isOk (m.get ⟨7⟩) (some 7001) && isOk (m.get ⟨8⟩) none) (by decide +kernel)
  simp only [Bool.and_eq_true] at h2
  exact ⟨m, h1, of_decide_eq_true h2.1.1.1.1, of_isOk h2.1.1.1.2, of_isOk h2.1.1.2, of_isOk h2.1.2, of_isOk h2.2⟩

/-! ### C13 -/

/-- C13, the provable part: unless the key sets have the collision pattern `TripleClash`, `Merge` returns a map whose entries are:
for a key of both maps, `m`'s key with `resolve(m's key, m's value, n's value)`; every other entry as it is. `resolve` is any
function, including one that tells `Equal` keys apart. Missing: totality, which is false (`C13_total_refuted`). -/
theorem C13_merge_partial (m n : FMap K V) (hm : m.Reachable) (hn : n.Reachable) (resolve : K → V → V → V)
    (hc : ¬ TripleClash m.HasKey n.HasKey) : ∃ r, m.merge n resolve = .ok r ∧
      (∀ k v w, m.HasEntry k v → n.Gets k (some w) → r.HasEntry k (resolve k v w)) ∧
      (∀ k v, m.HasEntry k v → n.Gets k none → r.HasEntry k v) ∧
      (∀ k v, n.HasEntry k v → m.Gets k none → r.HasEntry k v) ∧
      (∀ k, r.HasKey k ↔ m.HasKey k ∨ n.HasKey k) := by
  have hv := hm.valid
  have hw := hn.valid
  have hf : ClassPres (fun a b : Entry K V => (⟨a.key, resolve a.key a.value b.value⟩ : Entry K V)) :=
    fun a b _ => LawfulGoKey.refl a.key
  obtain ⟨_, h2⟩ := Tree.combine_spec hv hw (args := ⟨mapEntryKeyEqual, _⟩) rfl hf
  rw [FMap.clash_iff hv hw] at h2
  obtain ⟨t, h3, h4, h5⟩ := h2 hc
  have hr : (⟨t⟩ : FMap K V).Valid := h4
  refine ⟨⟨t⟩, by simp [FMap.merge, h3, bind, Except.bind, pure, Except.pure], ?_, ?_, ?_, ?_⟩
  · intro k v w h g
    rw [FMap.hasEntry_look hv] at h
    rw [FMap.gets_iff hw, Tree.lk, Option.map_eq_some_iff] at g
    obtain ⟨b, hb, rfl⟩ := g
    rw [FMap.hasEntry_look hr]
    show t.look _ = _
    rw [h5, h, hb]; rfl
  · intro k v h g
    rw [FMap.hasEntry_look hv] at h
    rw [FMap.gets_iff hw, Tree.lk, Option.map_eq_none_iff] at g
    rw [FMap.hasEntry_look hr]
    show t.look _ = _
    rw [h5, h, g]; rfl
  · intro k v h g
    rw [FMap.hasEntry_look hw] at h
    rw [FMap.gets_iff hv, Tree.lk, Option.map_eq_none_iff] at g
    rw [FMap.hasEntry_look hr]
    show t.look _ = _
    rw [h5, h, g]; rfl
  · intro k
    rw [FMap.hasKey_iff hr, FMap.hasKey_iff hv, FMap.hasKey_iff hw, Tree.lk_isSome, Tree.lk_isSome, Tree.lk_isSome]
    show (t.look _).isSome = true ↔ _
    rw [h5]
    cases m.tree.look (newMapKey k) <;> cases n.tree.look (newMapKey k) <;> simp [combOpt]

/-- C13, the provable part for `Update`: values of `n` win. -/
theorem C13_update_partial (m n : FMap K V) (hm : m.Reachable) (hn : n.Reachable) (hc : ¬ TripleClash m.HasKey n.HasKey) :
    ∃ r, m.update n = .ok r ∧ r.Reachable ∧
      ∀ k a b, m.Gets k a → n.Gets k b → r.Gets k (match b with | some v => some v | none => a) := by
  obtain ⟨r, h3, h4, h5⟩ := (FMap.update_spec hm.valid hn.valid).2 hc
  have hv := hm.valid
  have hw := hn.valid
  obtain ⟨p, hp⟩ := hm
  obtain ⟨q, hq⟩ := hn
  refine ⟨r, h3, ⟨.update p q, by simp only [MapProg.run, hp, hq, bind, Except.bind]; exact h3⟩, fun k a b ha hb => ?_⟩
  rw [FMap.gets_iff hv] at ha
  rw [FMap.gets_iff hw] at hb
  rw [FMap.gets_iff h4, h5, ha, hb]
  cases a <;> cases b <;> rfl

/-- Exactly when the key sets have the collision pattern, `Merge` panics, and so does `Update`. -/
theorem C13_panics (m n : FMap K V) (hm : m.Reachable) (hn : n.Reachable) (resolve : K → V → V → V) :
    (m.merge n resolve = .error .wtf ↔ TripleClash m.HasKey n.HasKey) ∧
    (m.update n = .error .wtf ↔ TripleClash m.HasKey n.HasKey) := by
  obtain ⟨h1, h2⟩ := FMap.merge_spec hm.valid hn.valid resolve
  obtain ⟨g1, g2⟩ := FMap.update_spec hm.valid hn.valid
  refine ⟨⟨fun he => ?_, h1⟩, ⟨fun he => ?_, g1⟩⟩
  · by_contra hc
    obtain ⟨r, h3, _⟩ := h2 hc
    rw [h3] at he; cases he
  · by_contra hc
    obtain ⟨r, h3, _⟩ := g2 hc
    rw [h3] at he; cases he

/-- C13 is false: for a legal hash there are maps whose `Update` and `Merge` panic. -/
theorem C13_total_refuted :
    ¬ ∀ (K V : Type) [GoKey K] [LawfulGoKey K] [Inhabited V] (m n : FMap K V), m.Reachable → n.Reachable → ∃ r, m.update n = .ok r := by
  intro hall
  obtain ⟨m, h1, h2⟩ := of_okAnd (r := newMap [(⟨⟨1⟩, 1⟩ : KeyValue Coll Nat), ⟨⟨2⟩, 2⟩, ⟨⟨3⟩, 3⟩])
    (test := fun m => match m.update m with | .error .wtf => true | _ => false) (by decide +kernel)
  obtain ⟨r, hr⟩ := hall Coll Nat m m ⟨.newMap _, h1⟩ ⟨.newMap _, h1⟩
  rw [hr] at h2; cases h2

/-- Maps without the pattern, overlapping, larger on the left and on the right. -/
example : ∃ m n : FMap Mod100 Nat, m.Reachable ∧ n.Reachable ∧ m.count = 3 ∧ n.count = 2 ∧ ¬ TripleClash m.HasKey n.HasKey ∧
    m.Gets ⟨1⟩ (some 10) ∧ n.Gets ⟨1⟩ (some 5) := by
  obtain ⟨m, h1, h2⟩ := of_okAnd (r := newMap [(⟨⟨1⟩, 10⟩ : KeyValue Mod100 Nat), ⟨⟨2⟩, 2⟩, ⟨⟨3⟩, 3⟩])
    (test := fun m => okAnd (newMap [(⟨⟨101⟩, 5⟩ : KeyValue Mod100 Nat), ⟨⟨9⟩, 2⟩]) (fun n => okAnd (m.update n) (fun _ =>
      decide (m.count = 3) && decide (n.count = 2) && isOk (m.get ⟨1⟩) (some 10) && isOk (n.get ⟨1⟩) (some 5)))) (by decide +kernel)
  obtain ⟨n, h3, h4⟩ := of_okAnd h2
  obtain ⟨r, h5, h6⟩ := of_okAnd h4
  simp only [Bool.and_eq_true] at h6
  refine ⟨m, n, ⟨.newMap _, h1⟩, ⟨.newMap _, h3⟩, of_decide_eq_true h6.1.1.1, of_decide_eq_true h6.1.1.2, ?_, of_isOk h6.1.2,
    of_isOk h6.2⟩
  rw [← (C13_panics m n ⟨.newMap _, h1⟩ ⟨.newMap _, h3⟩ (fun _ a _ => a)).2, h5]
  exact fun h => nomatch h

/-! ### C14 -/

/-- C14. `Equal` never panics and is true exactly if the maps have the same keys with `Equal` values. -/
theorem C14_equal [GoKey V] [LawfulGoKey V] (m n : FMap K V) (hm : m.Reachable) (hn : n.Reachable) :
    ∃ b, m.equal n = .ok b ∧ (b = true ↔ ∀ k a c, m.Gets k a → n.Gets k c → SameVal a c) := by
  obtain ⟨b, h1, h2⟩ := FMap.equal_spec hm.valid hn.valid
  refine ⟨b, h1, h2.trans ?_⟩
  constructor
  · intro h k a c ha hc
    rw [FMap.gets_iff hm.valid] at ha
    rw [FMap.gets_iff hn.valid] at hc
    rw [← ha, ← hc]; exact h k
  · intro h k
    exact h k _ _ (FMap.get_spec hm.valid k) (FMap.get_spec hn.valid k)

/-- C14. `Equal` maps have the same `Hash`, for every seed. -/
theorem C14_hash [GoKey V] [LawfulGoKey V] [GoHash] (m n : FMap K V) (hm : m.Reachable) (hn : n.Reachable)
    (he : m.equal n = .ok true) (seed : BitVec 64) : ∃ h, m.hash seed = .ok h ∧ n.hash seed = .ok h := by
  obtain ⟨b, h1, h2⟩ := FMap.equal_spec hm.valid hn.valid
  rw [he] at h1
  cases h1
  have := FMap.hash_ext hm.valid hn.valid (h2.1 rfl) seed
  exact ⟨_, by rw [this]; exact FMap.hash_spec hn.valid seed, FMap.hash_spec hn.valid seed⟩

/-- Equal maps with other representatives, values and insertion order; and unequal maps with the same keys. -/
example : okAnd (newMap [(⟨⟨1⟩, ⟨10⟩⟩ : KeyValue Mod100 Mod100), ⟨⟨2⟩, ⟨2⟩⟩, ⟨⟨3⟩, ⟨3⟩⟩]) (fun m =>
    okAnd (newMap [(⟨⟨203⟩, ⟨3⟩⟩ : KeyValue Mod100 Mod100), ⟨⟨2⟩, ⟨7⟩⟩, ⟨⟨1⟩, ⟨110⟩⟩]) (fun n =>
      okAnd (n.with ⟨2⟩ ⟨102⟩) (fun n' => isOk (m.equal n') true && isOk (m.equal n) false))) = true := by decide +kernel

/-! ### C15 -/

/-- C15. `Keys` is exactly the key set. -/
theorem C15_keys (m : FMap K V) (h : m.Reachable) :
    ∃ s, m.keys = .ok s ∧ s.Reachable ∧ (∀ k, s.Mem k ↔ m.HasKey k) ∧ s.count = m.count := by
  have hv := h.valid
  obtain ⟨s, h1, h2, _, h4⟩ := buildSet_spec (m.tree.list.map (·.key))
  have hm : ∀ k, s.Mem k ↔ m.HasKey k := fun k => by
    rw [h4, FMap.hasKey_iff hv]; exact ((Tree.keys_lists hv).covers k).symm
  exact ⟨s, by simp only [FMap.keys, FMap.rangeList_spec hv, bind, Except.bind]; exact h1, ⟨.newSet _, h1⟩, hm,
    HasCard.unique (FSet.hasCard h2) ((Tree.keys_card hv).congr (fun k => by rw [hm, FMap.hasKey_iff hv]))⟩

/-- C15. `Values` is exactly the set of values. -/
theorem C15_values [GoKey V] [LawfulGoKey V] (m : FMap K V) (h : m.Reachable) :
    ∃ s, m.values = .ok s ∧ s.Reachable ∧ ∀ v, s.Mem v ↔ ∃ k v', m.Gets k (some v') ∧ GoKey.eq v' v = true := by
  have hv := h.valid
  obtain ⟨s, h1, h2, _, h4⟩ := buildSet_spec (m.tree.list.map (·.value))
  refine ⟨s, by simp only [FMap.values, FMap.rangeList_spec hv, bind, Except.bind]; exact h1, ⟨.newSet _, h1⟩, fun v => ?_⟩
  rw [h4]
  constructor
  · rintro ⟨v', hv', hvv⟩
    obtain ⟨e, he, rfl⟩ := List.mem_map.1 hv'
    exact ⟨e.key, e.value, (FMap.gets_iff hv _ _).2 ((Tree.lk_some hv).2 ⟨e, he, LawfulGoKey.refl _, rfl⟩), hvv⟩
  · rintro ⟨k, v', hk, hvv⟩
    rw [FMap.gets_iff hv] at hk
    obtain ⟨e, he, _, rfl⟩ := (Tree.lk_some hv).1 hk
    exact ⟨_, List.mem_map_of_mem he, hvv⟩

/-- C15. `Project` keeps exactly the entries whose key is `Equal` to one of the given keys. -/
theorem C15_project (m : FMap K V) (h : m.Reachable) (ks : List K) : ∃ r, m.project ks = .ok r ∧ r.Reachable ∧
    ∀ k o, m.Gets k o → ((∃ k' ∈ ks, GoKey.eq k' k = true) → r.Gets k o) ∧ ((∀ k' ∈ ks, GoKey.eq k' k = false) → r.Gets k none) := by
  obtain ⟨r, h1, h2, h3⟩ := FMap.project_spec h.valid ks
  have hv := h.valid
  obtain ⟨p, hp⟩ := h
  refine ⟨r, h1, ⟨.project p ks, by simp only [MapProg.run, hp, bind, Except.bind]; exact h1⟩, fun k o hk => ?_⟩
  rw [FMap.gets_iff hv] at hk
  rw [FMap.gets_iff h2, FMap.gets_iff h2, h3, hk]
  constructor
  · intro hx; rw [if_pos (List.any_eq_true.2 hx)]
  · intro hx
    rw [if_neg]
    intro ha
    obtain ⟨k', hk', hkk⟩ := List.any_eq_true.1 ha
    rw [hx k' hk'] at hkk; cases hkk

/-- C15. `Where` keeps exactly the entries that satisfy the predicate; the predicate may tell `Equal` keys apart. -/
theorem C15_where (m : FMap K V) (h : m.Reachable) (pred : K → V → Bool) : ∃ r, m.where pred = .ok r ∧ r.Reachable ∧
    ∀ k v, r.HasEntry k v ↔ m.HasEntry k v ∧ pred k v = true := by
  have hv := h.valid
  obtain ⟨r, h1, h2, h3⟩ := buildMap_distinct_look (hv.distinct.filter (fun e => pred e.key e.value))
  refine ⟨r, ?_, ⟨.newMap _, h1⟩, fun k v => ?_⟩
  · simp only [FMap.where, FMap.rangeList_spec hv, bind, Except.bind]; exact h1
  · rw [FMap.hasEntry_iff hv, FMap.hasEntry_iff h2, h3.mem_iff]
    simp

/-- C15. `MapMap` keeps the keys and maps the values. -/
theorem C15_mapMap (m : FMap K V) (h : m.Reachable) (f : K → V → U) : ∃ r, mapMap m f = .ok r ∧ r.Reachable ∧ r.count = m.count ∧
    ∀ k u, r.HasEntry k u ↔ ∃ v, m.HasEntry k v ∧ u = f k v := by
  have hv := h.valid
  obtain ⟨r, h1, h2, _, h4⟩ := mapMap_spec hv f
  have hd : Distinct (m.tree.list.map (fun e => (⟨e.key, f e.key e.value⟩ : Entry K U))) := by
    unfold Distinct
    rw [List.pairwise_map]
    exact hv.distinct
  obtain ⟨r', g1, g2, g3⟩ := buildMap_distinct_look hd
  rw [List.map_map] at g1
  have h1' : mapMap m f = .ok r' := by
    simp only [mapMap, FMap.rangeList_spec hv, bind, Except.bind]; exact g1
  rw [h1] at h1'; cases h1'
  refine ⟨r, h1, ⟨.newMap _, g1⟩, h4, fun k u => ?_⟩
  rw [FMap.hasEntry_iff h2, g3.mem_iff]
  simp only [List.mem_map, Entry.mk.injEq]
  constructor
  · rintro ⟨e, he, rfl, rfl⟩; exact ⟨e.value, (FMap.hasEntry_iff hv _ _).2 he, rfl⟩
  · rintro ⟨v, hm, rfl⟩; exact ⟨⟨k, v⟩, (FMap.hasEntry_iff hv _ _).1 hm, rfl, rfl⟩

/-- C15. `NewMapFromKeys(ks, f)` has exactly the entries `(k, f(k))` for the elements `k` of `ks`. -/
theorem C15_newMapFromKeys (s : FSet K) (hs : s.Reachable) (f : K → V) : ∃ r l, newMapFromKeys s f = .ok r ∧ r.Reachable ∧
    s.elements = .ok l ∧ (∀ k v, r.HasEntry k v ↔ k ∈ l ∧ v = f k) ∧ (∀ k, r.HasKey k ↔ s.Mem k) ∧ r.count = s.count := by
  have hv := hs.valid
  have hd : Distinct (s.tree.list.map (fun k => (⟨k, f k⟩ : Entry K V))) := by
    unfold Distinct
    rw [List.pairwise_map]
    exact hv.distinct
  obtain ⟨r, h1, h2, h3⟩ := buildMap_distinct_look hd
  rw [List.map_map] at h1
  have hk : ∀ k, r.HasKey k ↔ s.Mem k := by
    intro k
    rw [FMap.hasKey_iff h2, FSet.mem_iff_list hv, (Tree.keys_lists h2).covers k]
    constructor
    · rintro ⟨x, hx, hxk⟩
      obtain ⟨e, he, rfl⟩ := List.mem_map.1 hx
      obtain ⟨y, hy, rfl⟩ := List.mem_map.1 (h3.mem_iff.1 he)
      exact ⟨y, hy, hxk⟩
    · rintro ⟨y, hy, hyk⟩
      exact ⟨y, List.mem_map.2 ⟨⟨y, f y⟩, h3.mem_iff.2 (List.mem_map_of_mem hy), rfl⟩, hyk⟩
  refine ⟨r, _, ?_, ⟨.newMap _, h1⟩, FSet.elements_spec hv, fun k v => ?_, hk, ?_⟩
  · simp only [newMapFromKeys, FSet.rangeList_spec hv, bind, Except.bind]; exact h1
  · rw [FMap.hasEntry_iff h2, h3.mem_iff]
    simp only [List.mem_map, Entry.mk.injEq]
    constructor
    · rintro ⟨x, hx, rfl, rfl⟩; exact ⟨hx, rfl⟩
    · rintro ⟨hx, rfl⟩; exact ⟨k, hx, rfl, rfl⟩
  · exact HasCard.unique (Tree.keys_card h2) ((FSet.hasCard hv).congr (fun k => by rw [← hk, FMap.hasKey_iff h2]))

/-- The hypotheses are met by a concrete map. -/
example : ∃ m : FMap Mod100 Nat, m.Reachable ∧ m.count = 3 := by
  obtain ⟨m, h1, h2⟩ := of_okAnd (r := exampleMapProg.run) (test := fun m => decide (m.count = 3)) (by decide +kernel)
  exact ⟨m, ⟨_, h1⟩, of_decide_eq_true h2⟩

/-! ### C16 -/

/-- C16. Every sequence of calls on a fresh map builder returns, with exactly the replies of a builder that holds the finite map of
the last `Put` per key not since removed. -/
theorem C16_builder (cs : List (MapBuilderCall K V)) :
    ∃ rs, runMapBuilderCalls (Tree.zero : MapBuilder K V) cs = .ok rs ∧ MapTraceOk (fun _ => none) cs rs :=
  mapBuilderCalls_spec cs _ [] rfl

/-- The specification of a trace discriminates: an overwritten and a removed key. -/
example (a b c : MapBuilderReply Mod100 Nat)
    (h : MapTraceOk (fun _ => none) [.put (⟨1⟩ : Mod100) 5, .put ⟨2⟩ 6, .put ⟨101⟩ 7, .remove ⟨2⟩, .get ⟨1⟩, .has ⟨2⟩, .finish, .get ⟨1⟩]
      [.unit, .unit, .unit, .unit, a, b, c, .val none]) : a = .val (some 7) ∧ b = .bool false := by
  obtain ⟨_, _, _, _, h1, h2, _⟩ := h
  constructor
  · rw [h1]; rfl
  · rw [h2]; rfl

/-! ### C25, C26 -/

/-- C25 for maps: a lookup passes at most 22 branches and compares at most two stored keys unless at least three keys of the map have
exactly the hash of `k`. -/
theorem C25_map_lookup_cost (m : FMap K V) (hm : m.Reachable) (k : K) :
    ∃ r levels compared, m.tree.getCost (newMapKey k) = .ok (r, levels, compared) ∧ m.Gets k (r.map (·.value)) ∧ levels ≤ 22 ∧
      (compared ≤ 2 ∨ ∃ l, PairwiseDifferent l ∧ 3 ≤ l.length ∧ (∀ x ∈ l, m.HasKey x ∧ hash0 x = hash0 k) ∧ compared ≤ l.length) := by
  have h := hm.valid
  obtain ⟨lv, cm, h1, h2, h3⟩ := Tree.getCost_spec h (newMapKey k)
  refine ⟨_, lv, cm, h1, FMap.get_spec h k, h2, h3.imp id ?_⟩
  rintro ⟨l, g1, g2, g3, g4⟩
  refine ⟨l.map (·.key), ?_, by simpa using g1, ?_, by simpa using g4⟩
  · unfold PairwiseDifferent
    rw [List.pairwise_map]
    exact List.Pairwise.sublist g2 h.distinct
  · intro x hx
    obtain ⟨e, he, rfl⟩ := List.mem_map.1 hx
    refine ⟨(FMap.hasKey_iff h _).2 (((Tree.keys_lists h).covers _).2 ⟨e.key, List.mem_map_of_mem (g2.subset he), LawfulGoKey.refl _⟩), g3 e he⟩

/-- C26 for maps: none of these calls panics on a reachable map. -/
theorem C26_map_no_panic [GoKey V] [LawfulGoKey V] [GoHash] (m n : FMap K V) (hm : m.Reachable) (hn : n.Reachable) (k : K) (v : V) (ks : List K)
    (pred : K → V → Bool) (f : K → V → U) (seed : BitVec 64) :
    (∃ x, m.with k v = .ok x) ∧ (∃ x, m.without k = .ok x) ∧ (∃ x, m.get k = .ok x) ∧ (∃ x, m.has k = .ok x) ∧
    (∃ x, m.keys = .ok x) ∧ (∃ x, m.values = .ok x) ∧ (∃ x, m.project ks = .ok x) ∧ (∃ x, m.where pred = .ok x) ∧
    (∃ x, mapMap m f = .ok x) ∧ (∃ x, m.equal n = .ok x) ∧ (∃ x, m.hash seed = .ok x) ∧ (∃ x, m.rangeList = .ok x) := by
  obtain ⟨_, h1, _⟩ := FMap.with_spec hm.valid k v
  obtain ⟨_, h2, _⟩ := FMap.without_spec hm.valid k
  obtain ⟨_, h3, _⟩ := C15_keys m hm
  obtain ⟨_, h4, _⟩ := C15_values m hm
  obtain ⟨_, h5, _⟩ := FMap.project_spec hm.valid ks
  obtain ⟨_, h6, _⟩ := FMap.where_spec hm.valid pred
  obtain ⟨_, h7, _⟩ := mapMap_spec hm.valid f
  obtain ⟨_, h8, _⟩ := FMap.equal_spec hm.valid hn.valid
  exact ⟨⟨_, h1⟩, ⟨_, h2⟩, ⟨_, FMap.get_spec hm.valid k⟩, ⟨_, FMap.has_spec hm.valid k⟩, ⟨_, h3⟩, ⟨_, h4⟩, ⟨_, h5⟩, ⟨_, h6⟩, ⟨_, h7⟩,
    ⟨_, h8⟩, ⟨_, FMap.hash_spec hm.valid seed⟩, ⟨_, FMap.rangeList_spec hm.valid⟩⟩

/-- C26. `Merge` and `Update` fail only if one map has three different keys that all have the hash of a key of the other. -/
theorem C26_map_panics_only (m n : FMap K V) (hm : m.Reachable) (hn : n.Reachable) (resolve : K → V → V → V) (e : Panic)
    (he : m.merge n resolve = .error e ∨ m.update n = .error e) :
    e = .wtf ∧ ((∃ y, n.HasKey y ∧ AtLeast 3 (fun x => m.HasKey x ∧ hash0 x = hash0 y)) ∨
      (∃ x, m.HasKey x ∧ AtLeast 3 (fun y => n.HasKey y ∧ hash0 y = hash0 x))) := by
  by_cases hc : TripleClash m.HasKey n.HasKey
  · obtain ⟨h1, h2⟩ := C13_panics m n hm hn resolve
    refine ⟨?_, ?_⟩
    · rcases he with he | he
      · rw [h1.2 hc] at he; cases he; rfl
      · rw [h2.2 hc] at he; cases he; rfl
    · obtain ⟨x, y, hx, hy, hxy, _, _, h5⟩ := hc
      rcases h5 with h5 | h5
      · exact .inl ⟨y, hy, by rw [← hxy]; exact h5⟩
      · exact .inr ⟨x, hx, h5⟩
  · obtain ⟨_, h3, _⟩ := (FMap.merge_spec hm.valid hn.valid resolve).2 hc
    obtain ⟨_, h4, _⟩ := (FMap.update_spec hm.valid hn.valid).2 hc
    rcases he with he | he
    · rw [h3] at he; cases he
    · rw [h4] at he; cases he

/-! ### C29

A Go map is the list of its entries, with different keys (by `==`, Lean equality), in the order the runtime happens to iterate; the
theorems hold for every order. The round trips need that the key type's `Equal` is `==`. -/

/-- C29. For keys whose `Equal` is `==`, converting a Go map, iterated in any order, to a `Map` and back gives the
same entries. -/
theorem C29_goMap [DecidableEq K] (hK : ∀ a b : K, GoKey.eq a b = true ↔ a = b) (g : List (K × V)) (hg : (g.map (·.1)).Nodup) :
    ∃ m g', newMapFromGoMap g = .ok m ∧ m.Reachable ∧ mapToGoMap m = .ok g' ∧ g'.Perm g := by
  have hd : Distinct (g.map (fun kv => (⟨kv.1, kv.2⟩ : Entry K V))) := by
    unfold Distinct
    rw [List.pairwise_map]
    unfold List.Nodup at hg
    rw [List.pairwise_map] at hg
    refine List.Pairwise.imp (fun {a b} hab => ?_) hg
    show GoKey.eq a.1 b.1 = false
    rw [Bool.eq_false_iff]
    exact fun h => hab ((hK _ _).1 h)
  obtain ⟨m, h1, h2, h3⟩ := buildMap_distinct_look hd
  rw [List.map_map] at h1
  refine ⟨m, _, h1, ⟨.newMap _, h1⟩, (mapToGoMap_spec hK h2).1, ?_⟩
  have := h3.map (fun e : Entry K V => (e.key, e.value))
  rw [List.map_map] at this
  have hid : ((fun e : Entry K V => (e.key, e.value)) ∘ fun kv : K × V => (⟨kv.1, kv.2⟩ : Entry K V)) = id := rfl
  rw [hid, List.map_id] at this
  exact this

/-- C29. Converting a `Map` to a Go map and back, whatever the iteration order, gives an `Equal` map. -/
theorem C29_map [DecidableEq K] [GoKey V] [LawfulGoKey V] (hK : ∀ a b : K, GoKey.eq a b = true ↔ a = b) (m : FMap K V) (hm : m.Reachable) :
    ∃ g, mapToGoMap m = .ok g ∧ (g.map (·.1)).Nodup ∧
      ∀ g', g'.Perm g → ∃ m', newMapFromGoMap g' = .ok m' ∧ m'.equal m = .ok true := by
  have hv := hm.valid
  obtain ⟨h1, h2⟩ := mapToGoMap_spec hK hv
  refine ⟨_, h1, by rw [List.map_map]; exact h2, fun g' hp => ?_⟩
  have hpl : (g'.map (fun kv => (⟨kv.1, kv.2⟩ : Entry K V))).Perm m.tree.list := by
    have := hp.map (fun kv : K × V => (⟨kv.1, kv.2⟩ : Entry K V))
    rw [List.map_map] at this
    have hid : ((fun kv : K × V => (⟨kv.1, kv.2⟩ : Entry K V)) ∘ fun e : Entry K V => (e.key, e.value)) = id := rfl
    rw [hid, List.map_id] at this
    exact this
  have hd : Distinct (g'.map (fun kv => (⟨kv.1, kv.2⟩ : Entry K V))) := hv.distinct.perm hpl.symm
  obtain ⟨m', e1, e2, e3⟩ := buildMap_distinct hd
  rw [List.map_map] at e1
  refine ⟨m', e1, ?_⟩
  obtain ⟨b, f1, f2⟩ := FMap.equal_spec e2 hv
  have hb : b = true := f2.2 (fun k => by
    rw [e3]
    have := hd.find?_perm hpl (newMapKey k)
    have h4 : (g'.map (fun kv => (⟨kv.1, kv.2⟩ : Entry K V))).find? (fun e => GoKey.eq e.key k) =
      m.tree.list.find? (fun e => GoKey.eq e.key k) := this
    rw [h4, ← Tree.lk_find]
    cases m.tree.lk k with
    | none => trivial
    | some v => exact LawfulGoKey.refl v)
  rw [f1, hb]

/-- C29 needs its hypothesis: the round trip fails for key types whose `Equal` identifies keys that `==` tells apart. -/
theorem C29_needs_identity : ¬ ∀ (K V : Type) [GoKey K] [LawfulGoKey K] [Inhabited V] [DecidableEq K] (g : List (K × V)), (g.map (·.1)).Nodup →
    ∃ m g', newMapFromGoMap g = .ok m ∧ mapToGoMap m = .ok g' ∧ g'.Perm g := by
  intro hall
  obtain ⟨m, g', h1, h2, h3⟩ := hall Mod100 Nat [(⟨1⟩, 1), (⟨101⟩, 2)] (by decide)
  obtain ⟨m', e1, e2⟩ := of_okAnd (r := newMapFromGoMap [((⟨1⟩ : Mod100), 1), (⟨101⟩, 2)])
    (test := fun m => okAnd (mapToGoMap m) (fun g => decide (g.length = 1))) (by decide +kernel)
  rw [h1] at e1; cases e1
  obtain ⟨g'', e3, e4⟩ := of_okAnd e2
  rw [h2] at e3; cases e3
  have := h3.length_eq
  rw [of_decide_eq_true e4] at this
  cases this

/-- Keys whose `Equal` is `==`, all colliding. -/
example : (∀ a b : Coll, GoKey.eq a b = true ↔ a = b) ∧ ([((⟨1⟩ : Coll), 1), (⟨2⟩, 2), (⟨3⟩, 1)].map (·.1)).Nodup :=
  ⟨fun a b => by simp [GoKey.eq], by decide⟩

/-! ### C42 -/

/-- C42. `KeyValue.Equal` is an equivalence that `Hash` respects, so sets of `KeyValue`s are lawful. -/
theorem C42_keyValue [GoKey V] [LawfulGoKey V] (a b c : KeyValue K V) (seed : BitVec 64) :
    GoKey.eq a a = true ∧ (GoKey.eq a b = true → GoKey.eq b a = true) ∧
    (GoKey.eq a b = true → GoKey.eq b c = true → GoKey.eq a c = true) ∧
    (GoKey.eq a b = true → GoKey.hash seed a = GoKey.hash seed b) ∧
    (GoKey.eq a b = true ↔ GoKey.eq a.key b.key = true ∧ GoKey.eq a.value b.value = true) :=
  ⟨LawfulGoKey.refl a, PerGoKey.symm, PerGoKey.trans, PerGoKey.hash_congr seed, by simp [GoKey.eq]⟩

/-- C42. Consequently a set of `KeyValue`s can hold several values for one key, and they share all hash bits: three such values make
`Union` panic. -/
theorem C42_keyValue_union_panics : ∃ (s : FSet (KeyValue Mod100 Mod100)), s.Reachable ∧ s.count = 3 ∧ s.union s = .error .wtf := by
  obtain ⟨s, h1, h2⟩ := of_okAnd (r := newSet [(⟨⟨1⟩, ⟨1⟩⟩ : KeyValue Mod100 Mod100), ⟨⟨1⟩, ⟨2⟩⟩, ⟨⟨1⟩, ⟨3⟩⟩])
    (test := fun s => decide (s.count = 3) && (match s.union s with | .error .wtf => true | _ => false)) (by decide +kernel)
  rw [Bool.and_eq_true] at h2
  refine ⟨s, ⟨.newSet _, h1⟩, of_decide_eq_true h2.1, ?_⟩
  have h3 := h2.2
  split at h3
  · assumption
  · cases h3

/-- C42. The entries of a map are compared and hashed by key only. -/
theorem C42_entry (a b : Entry K V) (seed : BitVec 64) :
    (GoKey.eq a b = true ↔ GoKey.eq a.key b.key = true) ∧ (GoKey.eq a b = true → GoKey.hash seed a = GoKey.hash seed b) :=
  ⟨Iff.rfl, fun h => PerGoKey.hash_congr seed h⟩

example : GoKey.eq (⟨⟨1⟩, ⟨2⟩⟩ : KeyValue Mod100 Mod100) ⟨⟨101⟩, ⟨102⟩⟩ = true ∧
    GoKey.eq (⟨⟨1⟩, ⟨2⟩⟩ : KeyValue Mod100 Mod100) ⟨⟨101⟩, ⟨103⟩⟩ = false := by decide

end Frozen
