import Verif.Proof.Powerset
import Verif.Props.Witness

/-! # C19, C20, C27: sets of sets, powerset, grouping -/

set_option linter.unusedSectionVars false

namespace Frozen

/-! ### C27 -/

section
variable {T : Type} [GoKey T] [LawfulGoKey T] [GoHash]

/-- C27. As an element, a set is compared and hashed by its methods `Equal` and `Hash`, which never panic. -/
theorem C27_setVal_methods (s t : SetVal T) (seed : BitVec 64) :
    s.1.equal t.1 = .ok (GoKey.eq s t) ∧ s.1.hash seed = .ok (GoKey.hash seed s) := by
  obtain ⟨b, h1, _⟩ := FSet.equal_spec s.2.valid t.2.valid
  exact ⟨by simp only [GoKey.eq, h1], SetVal.hash_eq s seed⟩

/-- C27. Sets are lawful elements and keys: `Equal` is an equivalence relation compatible with `Hash` for every seed. Every other
theorem about `Set[T]` and `Map[K, V]` therefore applies to `Set[Set[T]]` and `Map[Set[T], V]`. -/
theorem C27_sets_lawful :
    (∀ a : SetVal T, GoKey.eq a a = true) ∧ (∀ a b : SetVal T, GoKey.eq a b = true → GoKey.eq b a = true) ∧
    (∀ a b c : SetVal T, GoKey.eq a b = true → GoKey.eq b c = true → GoKey.eq a c = true) ∧
    (∀ (seed : BitVec 64) (a b : SetVal T), GoKey.eq a b = true → GoKey.hash seed a = GoKey.hash seed b) ∧
    LawfulGoKey (SetVal T) ∧ LawfulGoKey (SetVal (SetVal T)) :=
  ⟨LawfulGoKey.refl, fun _ _ h => PerGoKey.symm h, fun _ _ _ h g => PerGoKey.trans h g,
    fun seed _ _ h => PerGoKey.hash_congr seed h, inferInstance, inferInstance⟩

/-- C27. Two sets are the same element exactly if they have the same members. -/
theorem C27_sets_ext (s t : SetVal T) : GoKey.eq s t = true ↔ ∀ v, s.1.Mem v ↔ t.1.Mem v := SetVal.eq_iff s t

end

section
variable {K V : Type} [GoKey K] [LawfulGoKey K] [GoKey V] [LawfulGoKey V] [Inhabited V] [GoHash]

/-- C27. The same for maps. -/
theorem C27_mapVal_methods (m n : MapVal K V) (seed : BitVec 64) :
    m.1.equal n.1 = .ok (GoKey.eq m n) ∧ m.1.hash seed = .ok (GoKey.hash seed m) := by
  obtain ⟨b, h1, _⟩ := FMap.equal_spec m.2.valid n.2.valid
  exact ⟨by simp only [GoKey.eq, h1], MapVal.hash_eq m seed⟩

/-- C27. Maps are lawful elements and keys, also nested in sets and as values or keys of maps. -/
theorem C27_maps_lawful :
    (∀ a : MapVal K V, GoKey.eq a a = true) ∧ (∀ a b : MapVal K V, GoKey.eq a b = true → GoKey.eq b a = true) ∧
    (∀ a b c : MapVal K V, GoKey.eq a b = true → GoKey.eq b c = true → GoKey.eq a c = true) ∧
    (∀ (seed : BitVec 64) (a b : MapVal K V), GoKey.eq a b = true → GoKey.hash seed a = GoKey.hash seed b) ∧
    LawfulGoKey (MapVal K V) ∧ LawfulGoKey (SetVal (MapVal K V)) ∧ LawfulGoKey (MapVal (MapVal K V) V) :=
  ⟨LawfulGoKey.refl, fun _ _ h => PerGoKey.symm h, fun _ _ _ h g => PerGoKey.trans h g,
    fun seed _ _ h => PerGoKey.hash_congr seed h, inferInstance, inferInstance, inferInstance⟩

/-- C27. Two maps are the same element exactly if `Get` finds the same keys in both, with `Equal` values. -/
theorem C27_maps_ext (m n : MapVal K V) :
    GoKey.eq m n = true ↔ ∀ k o o', m.1.Gets k o → n.1.Gets k o' → SameVal o o' := by
  rw [MapVal.eq_iff]
  constructor
  · intro h k o o' h1 h2
    rw [FMap.gets_iff m.2.valid] at h1
    rw [FMap.gets_iff n.2.valid] at h2
    rw [← h1, ← h2]; exact h k
  · intro h k
    exact h k _ _ ((FMap.gets_iff m.2.valid _ _).2 rfl) ((FMap.gets_iff n.2.valid _ _).2 rfl)

end

/-! ### C19 -/

section
variable {T : Type} [GoKey T] [LawfulGoKey T] [GoHash]

/-- C19. The powerset of a set of at most 63 elements contains exactly its subsets, and its count is 2ⁿ. -/
theorem C19_powerset (s : FSet T) (hs : s.Reachable) (hn : s.count ≤ 63) :
    ∃ r, powerset s = .ok r ∧ (∀ t : SetVal T, r.Mem t ↔ ∀ e, t.1.Mem e → s.Mem e) ∧ r.count = 2 ^ s.count.toNat := by
  obtain ⟨r, h1, _, h3, h4⟩ := powerset_spec hs.valid hn
  exact ⟨r, h1, h3, h4⟩

/-- C19. The powerset of a larger set panics. -/
theorem C19_powerset_too_large (s : FSet T) (hn : s.count > 63) : powerset s = .error (.msg "set too large") := by
  unfold powerset
  simp only [if_pos hn]

end

/-- The powerset of a set of three colliding elements has eight members. -/
example : okAnd (newSet [(⟨1⟩ : Coll), ⟨2⟩, ⟨3⟩]) (fun s => okAnd (@powerset Coll _ ⟨fun x _ => x⟩ s) (fun r => decide (r.count = 8))) = true := by
  decide +kernel

/-! ### C20 -/

section
variable {T K : Type} [GoKey T] [LawfulGoKey T] [GoKey K] [LawfulGoKey K]

/-- C20. `SetGroupBy` partitions the set. `es` are the elements of `s` in iteration order. A key is in the result exactly if some
element has that key (up to `Equal`), and then its value is a set with exactly the elements with that key; these are the same values
as in `s`, not only equal ones. -/
theorem C20_groupBy (s : FSet T) (hs : s.Reachable) (key : T → K) (es : List T) (hes : s.elements = .ok es) :
    ∃ m, setGroupBy s key = .ok m ∧ m.Reachable ∧
      (∀ k, m.HasKey k ↔ ∃ e ∈ es, GoKey.eq (key e) k = true) ∧
      (∀ k g, m.Gets k (some g) → g.Reachable ∧
        ∃ l, g.elements = .ok l ∧ l.Perm (es.filter (fun e => GoKey.eq (key e) k))) := by
  have hes' : es = s.tree.list := by rw [FSet.elements_spec hs.valid] at hes; exact (Except.ok.inj hes).symm
  subst hes'
  obtain ⟨m, h1, h2, kvs, h3, h4⟩ := setGroupBy_spec hs.valid key
  have hmem : ∀ k, withKey key k s.tree.list ≠ [] ↔ ∃ e ∈ s.tree.list, GoKey.eq (key e) k = true := by
    intro k
    unfold withKey
    rw [Ne, List.filter_eq_nil_iff]
    simp
  refine ⟨m, h1, ⟨.newMap kvs, h3⟩, fun k => ?_, fun k g hg => ?_⟩
  · rw [FMap.hasKey_iff h2, ← hmem]
    constructor
    · intro hk hc
      rw [(h4 k).1 hc] at hk; cases hk
    · intro hc
      obtain ⟨g, hg, _⟩ := (h4 k).2 hc
      rw [hg]; rfl
  · rw [FMap.gets_iff h2] at hg
    by_cases hc : withKey key k s.tree.list = []
    · rw [(h4 k).1 hc] at hg; cases hg
    · obtain ⟨g', k1, k2⟩ := (h4 k).2 hc
      rw [hg] at k1
      cases k1
      have hr : g.Reachable := ⟨.newSet _, k2⟩
      refine ⟨hr, _, FSet.elements_spec hr.valid, ?_⟩
      have hd : Distinct (withKey key k s.tree.list) := hs.valid.distinct.filter _
      obtain ⟨g2, b1, b2, b3, b4⟩ := buildSet_spec (withKey key k s.tree.list)
      have k2 : buildSet (withKey key k s.tree.list) = .ok g := k2
      rw [k2] at b1; cases b1
      apply FSet.list_perm b2 hd
      intro e
      rw [b3]
      have hp := hd.find?_perm (List.reverse_perm (withKey key k s.tree.list)).symm e
      rw [← hp]
      constructor
      · exact fun he => List.mem_of_find?_eq_some he
      · exact fun he => hd.find?_mem he

/-- C20. If the key function does not tell `Equal` elements apart, membership in a group is membership in `s` and having that key. -/
theorem C20_groupBy_mem (s : FSet T) (hs : s.Reachable) (key : T → K)
    (hkey : ∀ a b, GoKey.eq a b = true → GoKey.eq (key a) (key b) = true) :
    ∃ m, setGroupBy s key = .ok m ∧
      (∀ k, m.HasKey k ↔ ∃ v, s.Mem v ∧ GoKey.eq (key v) k = true) ∧
      (∀ k g, m.Gets k (some g) → ∀ v, g.Mem v ↔ s.Mem v ∧ GoKey.eq (key v) k = true) := by
  obtain ⟨m, h1, _, h3, h4⟩ := C20_groupBy s hs key _ (FSet.elements_spec hs.valid)
  have hk : ∀ {a b : T} {k : K}, GoKey.eq a b = true → GoKey.eq (key a) k = true → GoKey.eq (key b) k = true :=
    fun hab ha => PerGoKey.trans (hkey _ _ (PerGoKey.symm hab)) ha
  refine ⟨m, h1, fun k => ?_, fun k g hg v => ?_⟩
  · rw [h3]
    constructor
    · rintro ⟨e, he, hek⟩
      exact ⟨e, (FSet.mem_iff_list hs.valid e).2 ⟨e, he, LawfulGoKey.refl e⟩, hek⟩
    · rintro ⟨v, hv, hvk⟩
      obtain ⟨e, he, hev⟩ := (FSet.mem_iff_list hs.valid v).1 hv
      exact ⟨e, he, hk (PerGoKey.symm hev) hvk⟩
  · obtain ⟨hr, l, hl, hp⟩ := h4 k g hg
    have hl' : l = g.tree.list := by rw [FSet.elements_spec hr.valid] at hl; exact (Except.ok.inj hl).symm
    subst hl'
    rw [FSet.mem_iff_list hr.valid, FSet.mem_iff_list hs.valid]
    constructor
    · rintro ⟨e, he, hev⟩
      have := List.mem_filter.1 (hp.mem_iff.1 he)
      exact ⟨⟨e, this.1, hev⟩, hk hev this.2⟩
    · rintro ⟨⟨e, he, hev⟩, hvk⟩
      exact ⟨e, hp.mem_iff.2 (List.mem_filter.2 ⟨he, hk (PerGoKey.symm hev) hvk⟩), hev⟩

end

/-- Grouping five numbers by parity, with colliding keys. -/
example : okAnd (newSet [(⟨1⟩ : Mod100), ⟨2⟩, ⟨3⟩, ⟨4⟩, ⟨5⟩]) (fun s => okAnd (setGroupBy s (fun e => (⟨e.n % 2⟩ : Coll)))
    (fun m => decide (m.count = 2) && okAnd (m.get ⟨1⟩) (fun g => match g with | some g => decide (g.count = 3) | none => false))) = true := by
  decide +kernel

end Frozen
