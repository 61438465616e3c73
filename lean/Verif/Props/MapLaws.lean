import Verif.Props.Map
import Verif.Proof.Rel

/-! # C68: laws of map operations

Both sides of a law are compared with the library's own `Equal` (C14 says that it is extensional). -/

set_option linter.unusedSectionVars false

namespace Frozen

section
variable {K V : Type} [GoKey K] [LawfulGoKey K] [Inhabited V] [GoKey V] [LawfulGoKey V]

theorem mapEqual_of_lk {m n : FMap K V} (hm : m.Valid) (hn : n.Valid) (h : ∀ k, m.tree.lk k = n.tree.lk k) : m.equal n = .ok true := by
  obtain ⟨b, h1, h2⟩ := FMap.equal_spec hm hn
  rw [h1, h2.2 (fun k => by rw [h]; exact SameVal.refl _)]

theorem update_ok {m n r : FMap K V} (hm : m.Valid) (hn : n.Valid) (h : m.update n = .ok r) :
    r.Valid ∧ ∀ k, r.tree.lk k = mergeAt (fun _ b => b) (m.tree.lk k) (n.tree.lk k) := by
  by_cases hc : TripleClash m.HasKey n.HasKey
  · rw [(FMap.update_spec hm hn).1 hc] at h; cases h
  · obtain ⟨r', h1, h2, h3⟩ := (FMap.update_spec hm hn).2 hc
    rw [h] at h1; cases h1; exact ⟨h2, h3⟩

theorem merge_ok {m n r : FMap K V} (hm : m.Valid) (hn : n.Valid) {f : K → V → V → V} (hf : ∀ a b x y, GoKey.eq a b = true → f a x y = f b x y)
    (h : m.merge n f = .ok r) : r.Valid ∧ ∀ k, r.tree.lk k = mergeAt (f k) (m.tree.lk k) (n.tree.lk k) := by
  by_cases hc : TripleClash m.HasKey n.HasKey
  · rw [(FMap.merge_spec hm hn f).1 hc] at h; cases h
  · obtain ⟨r', h1, h2, _, h3⟩ := (FMap.merge_spec hm hn f).2 hc
    rw [h] at h1; cases h1; exact ⟨h2, h3 hf⟩

omit [GoKey V] [LawfulGoKey V] in
theorem lk_of_entries {b c : FMap K V} (hb : b.Valid) (hc : c.Valid) (h : ∀ k v, b.HasEntry k v ↔ c.HasEntry k v) (k : K) :
    b.tree.lk k = c.tree.lk k := by
  have he : ∀ e : Entry K V, e ∈ b.tree.list ↔ e ∈ c.tree.list := by
    rintro ⟨k, v⟩
    rw [← FMap.hasEntry_iff hb, ← FMap.hasEntry_iff hc, h]
  cases h1 : b.tree.lk k with
  | some v =>
    obtain ⟨e, e1, e2, e3⟩ := (Tree.lk_some hb).1 h1
    exact ((Tree.lk_some hc).2 ⟨e, (he e).1 e1, e2, e3⟩).symm
  | none =>
    cases h2 : c.tree.lk k with
    | none => rfl
    | some v =>
      obtain ⟨e, e1, e2, e3⟩ := (Tree.lk_some hc).1 h2
      rw [(Tree.lk_some hb).2 ⟨e, (he e).2 e1, e2, e3⟩] at h1; cases h1

/-- C68. Of two `With` of the same key the last counts; `Without` undoes `With`; `With` undoes `Without`. -/
theorem C68_with_same (m : FMap K V) (h : m.Reachable) (k k' : K) (hk : GoKey.eq k k' = true) (v w : V) :
    ∃ a b c d e f, m.with k v = .ok a ∧ a.with k' w = .ok b ∧ m.with k' w = .ok c ∧ b.equal c = .ok true ∧
      a.without k' = .ok d ∧ m.without k = .ok e ∧ d.equal e = .ok true ∧ e.with k' w = .ok f ∧ f.equal c = .ok true := by
  obtain ⟨a, a1, a2, a3⟩ := FMap.with_spec h.valid k v
  obtain ⟨b, b1, b2, b3⟩ := FMap.with_spec a2 k' w
  obtain ⟨c, c1, c2, c3⟩ := FMap.with_spec h.valid k' w
  obtain ⟨d, d1, d2, d3⟩ := FMap.without_spec a2 k'
  obtain ⟨e, e1, e2, e3⟩ := FMap.without_spec h.valid k
  obtain ⟨f, f1, f2, f3⟩ := FMap.with_spec e2 k' w
  have hx : ∀ x, GoKey.eq k x = GoKey.eq k' x := fun x => by
    rw [Bool.eq_iff_iff]; exact ⟨fun g => PerGoKey.trans (PerGoKey.symm hk) g, fun g => PerGoKey.trans hk g⟩
  refine ⟨a, b, c, d, e, f, a1, b1, c1, mapEqual_of_lk b2 c2 ?_, d1, e1, mapEqual_of_lk d2 e2 ?_, f1, mapEqual_of_lk f2 c2 ?_⟩ <;> intro x
  · rw [b3, c3]; unfold setKey; rw [a3]; unfold setKey; rw [hx]; split <;> rfl
  · rw [d3, e3]; unfold setKey; rw [a3]; unfold setKey; rw [hx]; split <;> rfl
  · rw [f3, c3]; unfold setKey; rw [e3]; unfold setKey; rw [hx]; split <;> rfl

/-- C68. `With` and `Without` of different keys commute, in all combinations. -/
theorem C68_with_different (m : FMap K V) (h : m.Reachable) (k k' : K) (hk : GoKey.eq k k' = false) (v w : V) :
    (∃ a b c d, m.with k v = .ok a ∧ a.with k' w = .ok b ∧ m.with k' w = .ok c ∧ c.with k v = .ok d ∧ b.equal d = .ok true) ∧
    (∃ a b c d, m.with k v = .ok a ∧ a.without k' = .ok b ∧ m.without k' = .ok c ∧ c.with k v = .ok d ∧ b.equal d = .ok true) ∧
    (∃ a b c d, m.without k = .ok a ∧ a.without k' = .ok b ∧ m.without k' = .ok c ∧ c.without k = .ok d ∧ b.equal d = .ok true) := by
  obtain ⟨a, a1, a2, a3⟩ := FMap.with_spec h.valid k v
  obtain ⟨b, b1, b2, b3⟩ := FMap.with_spec a2 k' w
  obtain ⟨c, c1, c2, c3⟩ := FMap.with_spec h.valid k' w
  obtain ⟨d, d1, d2, d3⟩ := FMap.with_spec c2 k v
  obtain ⟨e, e1, e2, e3⟩ := FMap.without_spec a2 k'
  obtain ⟨f, f1, f2, f3⟩ := FMap.without_spec h.valid k'
  obtain ⟨g, g1, g2, g3⟩ := FMap.with_spec f2 k v
  obtain ⟨i, i1, i2, i3⟩ := FMap.without_spec h.valid k
  obtain ⟨j, j1, j2, j3⟩ := FMap.without_spec i2 k'
  obtain ⟨l, l1, l2, l3⟩ := FMap.without_spec f2 k
  have hx : ∀ x, ¬ (GoKey.eq k x = true ∧ GoKey.eq k' x = true) := fun x ⟨g1, g2⟩ => by
    rw [PerGoKey.trans g1 (PerGoKey.symm g2)] at hk; cases hk
  have sw : ∀ (q : K → Option V) (o o' : Option V) x, setKey (setKey q k o) k' o' x = setKey (setKey q k' o') k o x := by
    intro q o o' x
    unfold setKey
    by_cases h1 : GoKey.eq k x = true <;> by_cases h2 : GoKey.eq k' x = true <;> simp [h1, h2]
    exact absurd ⟨h1, h2⟩ (hx x)
  refine ⟨⟨a, b, c, d, a1, b1, c1, d1, mapEqual_of_lk b2 d2 (fun x => ?_)⟩, ⟨a, e, f, g, a1, e1, f1, g1, mapEqual_of_lk e2 g2 (fun x => ?_)⟩,
    ⟨i, j, f, l, i1, j1, f1, l1, mapEqual_of_lk j2 l2 (fun x => ?_)⟩⟩
  · rw [b3, d3, funext a3, funext c3, sw]
  · rw [e3, g3, funext a3, funext f3, sw]
  · rw [j3, l3, funext i3, funext f3, sw]

/-- C68. `With` of the value a key already has, and `Without` of a key that is not there, change nothing. -/
theorem C68_no_change (m : FMap K V) (h : m.Reachable) (k : K) :
    (∀ v, m.Gets k (some v) → ∃ a, m.with k v = .ok a ∧ a.equal m = .ok true) ∧
    (m.Gets k none → ∃ a, m.without k = .ok a ∧ a.equal m = .ok true) := by
  constructor
  · intro v hv
    obtain ⟨a, a1, a2, a3⟩ := FMap.with_spec h.valid k v
    refine ⟨a, a1, mapEqual_of_lk a2 h.valid (fun x => ?_)⟩
    rw [a3]; unfold setKey
    split
    · rename_i hx; rw [← Tree.lk_congr m.tree hx, (FMap.gets_iff h.valid _ _).1 hv]
    · rfl
  · intro hv
    obtain ⟨a, a1, a2, a3⟩ := FMap.without_spec h.valid k
    refine ⟨a, a1, mapEqual_of_lk a2 h.valid (fun x => ?_)⟩
    rw [a3]; unfold setKey
    split
    · rename_i hx; rw [← Tree.lk_congr m.tree hx, (FMap.gets_iff h.valid _ _).1 hv]
    · rfl

/-- C68. `Update` is associative, `m.Update(m)` is `m`, and the empty map is neutral. The first two hold when none of the calls panics
(C13 says when they do). -/
theorem C68_update (m n o : FMap K V) (hm : m.Reachable) (hn : n.Reachable) (ho : o.Reachable) :
    (∀ mn a no b, m.update n = .ok mn → mn.update o = .ok a → n.update o = .ok no → m.update no = .ok b → a.equal b = .ok true) ∧
    (∀ a, m.update m = .ok a → a.equal m = .ok true) ∧
    (∃ a b, m.update FMap.zero = .ok a ∧ FMap.zero.update m = .ok b ∧ a.equal m = .ok true ∧ b.equal m = .ok true) := by
  refine ⟨fun mn a no b h1 h2 h3 h4 => ?_, fun a h1 => ?_, ?_⟩
  · obtain ⟨a1, a2⟩ := update_ok hm.valid hn.valid h1
    obtain ⟨b1, b2⟩ := update_ok a1 ho.valid h2
    obtain ⟨c1, c2⟩ := update_ok hn.valid ho.valid h3
    obtain ⟨d1, d2⟩ := update_ok hm.valid c1 h4
    refine mapEqual_of_lk b1 d1 (fun k => ?_)
    rw [b2, a2, d2, c2]
    cases m.tree.lk k <;> cases n.tree.lk k <;> cases o.tree.lk k <;> rfl
  · obtain ⟨a1, a2⟩ := update_ok hm.valid hm.valid h1
    refine mapEqual_of_lk a1 hm.valid (fun k => ?_)
    rw [a2]
    cases m.tree.lk k <;> rfl
  · have z : (FMap.zero : FMap K V).Valid := FMap.Reachable.valid ⟨.newMap [], rfl⟩
    have zl : ∀ k, (FMap.zero : FMap K V).tree.lk k = none := fun k => rfl
    have hk : (FMap.zero : FMap K V).HasKey = fun _ => False := by
      funext k; exact propext ((FMap.hasKey_iff z k).trans (by rw [zl]; simp))
    have c1 : ¬ TripleClash (FMap.zero : FMap K V).HasKey m.HasKey := by
      rintro ⟨x, _, hx, _⟩; rw [hk] at hx; exact hx
    have c2 : ¬ TripleClash m.HasKey (FMap.zero : FMap K V).HasKey := by
      rintro ⟨_, x, _, hx, _⟩; rw [hk] at hx; exact hx
    obtain ⟨a, a1, a2, a3⟩ := (FMap.update_spec hm.valid z).2 c2
    obtain ⟨b, b1, b2, b3⟩ := (FMap.update_spec z hm.valid).2 c1
    refine ⟨a, b, a1, b1, mapEqual_of_lk a2 hm.valid (fun k => ?_), mapEqual_of_lk b2 hm.valid (fun k => ?_)⟩
    · rw [a3, zl]; cases m.tree.lk k <;> rfl
    · rw [b3, zl]; rfl

/-- C68. `Merge` with the arguments and the resolver turned round gives the same map; it is associative if the resolver is. The resolver has to
treat `Equal` keys alike. (When `Merge` panics is said by C13.) -/
theorem C68_merge (m n o : FMap K V) (hm : m.Reachable) (hn : n.Reachable) (ho : o.Reachable) (f : K → V → V → V)
    (hf : ∀ a b x y, GoKey.eq a b = true → f a x y = f b x y) :
    (∀ a b, m.merge n f = .ok a → n.merge m (fun k x y => f k y x) = .ok b → a.equal b = .ok true) ∧
    ((∀ k x y z, f k (f k x y) z = f k x (f k y z)) →
      ∀ mn a no b, m.merge n f = .ok mn → mn.merge o f = .ok a → n.merge o f = .ok no → m.merge no f = .ok b → a.equal b = .ok true) := by
  refine ⟨fun a b h1 h2 => ?_, fun hass mn a no b h1 h2 h3 h4 => ?_⟩
  · obtain ⟨a1, a2⟩ := merge_ok hm.valid hn.valid hf h1
    obtain ⟨b1, b2⟩ := merge_ok hn.valid hm.valid (fun a b x y h => hf a b y x h) h2
    refine mapEqual_of_lk a1 b1 (fun k => ?_)
    rw [a2, b2]
    cases m.tree.lk k <;> cases n.tree.lk k <;> rfl
  · obtain ⟨a1, a2⟩ := merge_ok hm.valid hn.valid hf h1
    obtain ⟨b1, b2⟩ := merge_ok a1 ho.valid hf h2
    obtain ⟨c1, c2⟩ := merge_ok hn.valid ho.valid hf h3
    obtain ⟨d1, d2⟩ := merge_ok hm.valid c1 hf h4
    refine mapEqual_of_lk b1 d1 (fun k => ?_)
    rw [b2, a2, d2, c2]
    cases m.tree.lk k <;> cases n.tree.lk k <;> cases o.tree.lk k <;> simp [mergeAt, hass]

/-- C68. One of two calls of `Update` or `Merge` with the arguments turned round panics exactly if the other does. -/
theorem C68_panics_symmetric (m n : FMap K V) (hm : m.Reachable) (hn : n.Reachable) (f : K → V → V → V) :
    (m.update n = .error .wtf ↔ n.update m = .error .wtf) ∧ (m.merge n f = .error .wtf ↔ n.merge m f = .error .wtf) := by
  have hs : ∀ P Q : K → Prop, TripleClash P Q → TripleClash Q P := by
    rintro P Q ⟨x, y, h1, h2, h3, h4, h5, h6⟩
    refine ⟨y, x, h2, h1, h3.symm, ?_, ?_, ?_⟩
    · rw [← h3]; exact h5
    · rw [← h3]; exact h4
    · rw [← h3]; exact h6.symm
  obtain ⟨a1, a2⟩ := C13_panics m n hm hn f
  obtain ⟨b1, b2⟩ := C13_panics n m hn hm f
  rw [a1, a2, b1, b2]
  exact ⟨⟨hs _ _, hs _ _⟩, ⟨hs _ _, hs _ _⟩⟩

/-- C68. `Where` twice is `Where` with both predicates. -/
theorem C68_where (m : FMap K V) (h : m.Reachable) (p q : K → V → Bool) :
    ∃ a b c, m.where p = .ok a ∧ a.where q = .ok b ∧ m.where (fun k v => p k v && q k v) = .ok c ∧ b.equal c = .ok true := by
  obtain ⟨a, a1, a2, a3⟩ := C15_where m h p
  obtain ⟨b, b1, b2, b3⟩ := C15_where a a2 q
  obtain ⟨c, c1, c2, c3⟩ := C15_where m h (fun k v => p k v && q k v)
  refine ⟨a, b, c, a1, b1, c1, mapEqual_of_lk b2.valid c2.valid (fun k => ?_)⟩
  exact lk_of_entries b2.valid c2.valid (fun k v => by rw [b3, a3, c3, Bool.and_eq_true, and_assoc]) k

/-- C68. `Project` twice is `Project` on the keys named both times. -/
theorem C68_project (m : FMap K V) (h : m.Reachable) (ks ls js : List K)
    (hj : ∀ k, (∃ j ∈ js, GoKey.eq j k = true) ↔ (∃ j ∈ ks, GoKey.eq j k = true) ∧ ∃ j ∈ ls, GoKey.eq j k = true) :
    ∃ a b c, m.project ks = .ok a ∧ a.project ls = .ok b ∧ m.project js = .ok c ∧ b.equal c = .ok true := by
  obtain ⟨a, a1, a2, a3⟩ := FMap.project_spec h.valid ks
  obtain ⟨b, b1, b2, b3⟩ := FMap.project_spec a2 ls
  obtain ⟨c, c1, c2, c3⟩ := FMap.project_spec h.valid js
  refine ⟨a, b, c, a1, b1, c1, mapEqual_of_lk b2 c2 (fun k => ?_)⟩
  have := hj k
  simp only [← List.any_eq_true (p := fun j => GoKey.eq j k)] at this
  rw [b3, a3, c3]
  by_cases g1 : (ks.any fun j => GoKey.eq j k) = true <;> by_cases g2 : (ls.any fun j => GoKey.eq j k) = true <;> simp [g1, g2, this]

/-- C68. `MapMap` twice is `MapMap` with the composition, and `MapMap` with the identity changes nothing. -/
theorem C68_mapMap {U W : Type} [Inhabited U] [Inhabited W] [GoKey W] [LawfulGoKey W] (m : FMap K V) (h : m.Reachable) (f : K → V → U)
    (g : K → U → W) :
    (∃ a b c, mapMap m f = .ok a ∧ mapMap a g = .ok b ∧ mapMap m (fun k v => g k (f k v)) = .ok c ∧ b.equal c = .ok true) ∧
    ∃ a, mapMap m (fun _ v => v) = .ok a ∧ a.equal m = .ok true := by
  obtain ⟨a, a1, a2, _, a3⟩ := C15_mapMap m h f
  obtain ⟨b, b1, b2, _, b3⟩ := C15_mapMap a a2 g
  obtain ⟨c, c1, c2, _, c3⟩ := C15_mapMap m h (fun k v => g k (f k v))
  obtain ⟨d, d1, d2, _, d3⟩ := C15_mapMap m h (fun _ v => v)
  refine ⟨⟨a, b, c, a1, b1, c1, mapEqual_of_lk b2.valid c2.valid (lk_of_entries b2.valid c2.valid (fun k v => ?_))⟩, d, d1,
    mapEqual_of_lk d2.valid h.valid (lk_of_entries d2.valid h.valid (fun k v => ?_))⟩
  · rw [b3, c3]
    constructor
    · rintro ⟨u, hu, rfl⟩
      obtain ⟨x, hx, rfl⟩ := (a3 k u).1 hu
      exact ⟨x, hx, rfl⟩
    · rintro ⟨x, hx, rfl⟩
      exact ⟨f k x, (a3 k _).2 ⟨x, hx, rfl⟩, rfl⟩
  · rw [d3]
    exact ⟨fun ⟨_, h, e⟩ => e ▸ h, fun h => ⟨v, h, rfl⟩⟩

/-- C68. `Keys` of `m.Update(n)` or `m.Merge(n, f)` are the union of the keys of `m` and `n`. -/
theorem C68_keys (m n : FMap K V) (hm : m.Reachable) (hn : n.Reachable) (f : K → V → V → V) (r : FMap K V)
    (hr : m.update n = .ok r ∨ m.merge n f = .ok r) :
    ∃ a b c, m.keys = .ok a ∧ n.keys = .ok b ∧ r.keys = .ok c ∧ ∀ d, a.union b = .ok d → c.equal d = .ok true := by
  have hrr : r.Valid ∧ ∀ k, r.HasKey k ↔ m.HasKey k ∨ n.HasKey k := by
    rcases hr with h | h
    · obtain ⟨h1, h2⟩ := update_ok hm.valid hn.valid h
      exact ⟨h1, fun k => by rw [FMap.hasKey_iff h1, FMap.hasKey_iff hm.valid, FMap.hasKey_iff hn.valid, h2, mergeAt_isSome]⟩
    · by_cases hc : TripleClash m.HasKey n.HasKey
      · rw [(FMap.merge_spec hm.valid hn.valid f).1 hc] at h; cases h
      · obtain ⟨r', h1, h2, _⟩ := (FMap.merge_spec hm.valid hn.valid f).2 hc
        obtain ⟨r'', g1, _, _, _, g2⟩ := C13_merge_partial m n hm hn f hc
        rw [h] at h1 g1; cases h1; cases g1
        exact ⟨h2, g2⟩
  obtain ⟨h1, h2⟩ := hrr
  obtain ⟨a, a1, a2, a3, _⟩ := C15_keys m hm
  obtain ⟨b, b1, b2, b3, _⟩ := C15_keys n hn
  obtain ⟨c, c1, c2, c3⟩ := FMap.keys_spec h1
  refine ⟨a, b, c, a1, b1, c1, fun d hd => ?_⟩
  by_cases hc : TripleClash a.Mem b.Mem
  · rw [(FSet.union_spec a2.valid b2.valid).1 hc] at hd; cases hd
  · obtain ⟨d', d1, d2, _, d3⟩ := (FSet.union_spec a2.valid b2.valid).2 hc
    rw [hd] at d1; cases d1
    obtain ⟨e, e1, e2⟩ := FSet.equal_spec c2 d2
    rw [e1, e2.2 (fun w => by rw [c3, ← FMap.hasKey_iff h1, h2, d3, a3, b3])]

end

/-! ### Witnesses -/

/-- Maps of 12, 12 and 12 entries that overlap, on which no call panics: `Update` both ways of bracketing, `Merge` both ways round. -/
example : okAnd (newMap ((List.range 12).map (fun i => (⟨⟨i⟩, i⟩ : KeyValue Mod100 Nat)))) (fun m =>
    okAnd (newMap ((List.range 12).map (fun i => (⟨⟨i + 6⟩, 100 + i⟩ : KeyValue Mod100 Nat)))) (fun n =>
      okAnd (newMap ((List.range 12).map (fun i => (⟨⟨i + 9⟩, 200 + i⟩ : KeyValue Mod100 Nat)))) (fun o =>
        okAnd (m.update n) (fun mn => okAnd (mn.update o) (fun a => okAnd (n.update o) (fun no => okAnd (m.update no) (fun b =>
          decide (a.count = 21 ∧ b.count = 21))))) &&
        okAnd (m.merge n (fun _ x y => x - y)) (fun a => okAnd (n.merge m (fun _ x y => y - x)) (fun b => decide (a.count = 18 ∧ b.count = 18)))))) =
    true := by decide +kernel

/-- The hypotheses of `C68_project` and `C68_with_different` can be met. -/
example : (∀ k : Coll, (∃ j ∈ [(⟨2⟩ : Coll)], GoKey.eq j k = true) ↔
    (∃ j ∈ [(⟨1⟩ : Coll), ⟨2⟩], GoKey.eq j k = true) ∧ ∃ j ∈ [(⟨2⟩ : Coll), ⟨3⟩], GoKey.eq j k = true) ∧
    GoKey.eq (⟨1⟩ : Coll) ⟨2⟩ = false := by
  refine ⟨fun k => ?_, by decide⟩
  have : ∀ a b : Coll, GoKey.eq a b = true ↔ a = b := fun a b => by simp [GoKey.eq]
  simp only [this]
  constructor
  · rintro ⟨j, hj, rfl⟩
    simp only [List.mem_cons, List.not_mem_nil, or_false] at hj
    subst hj
    exact ⟨⟨_, by simp, rfl⟩, ⟨_, by simp, rfl⟩⟩
  · rintro ⟨⟨j, hj, rfl⟩, l, hl, h⟩
    subst h
    simp at hj hl
    rcases hl with rfl | rfl <;> simp_all

end Frozen
