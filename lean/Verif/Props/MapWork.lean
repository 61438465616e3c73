import Verif.Spec.MapUncrowded
import Verif.Props.MapPersist
import Verif.Props.BulkWork
import Verif.Proof.Unlawful

/-!
# Maps whose keys may collide

C43, C52 and C59 for histories in which no key is added to a map that has three other keys with the same hash.
-/

set_option linter.unusedSectionVars false

namespace Frozen

variable {K V : Type} [GoKey K] [LawfulGoKey K] [Inhabited V]

/-! ### From keys to entries -/

theorem getM_congr {T : Type} [GoKey T] (H : Mem T) {v w : T} (he : ∀ x, GoKey.eq x v = GoKey.eq x w) :
    ∀ (fuel : Nat) (p : Ptr) (h : Hasher), getM H fuel p v h = getM H fuel p w h
  | 0, _, _ => rfl
  | _ + 1, none, _ => rfl
  | fuel + 1, some a, h => by
    simp only [getM, he, getM_congr H he fuel]

theorem get_key (m : MTree) (H : Mem (Entry K V)) (e : Entry K V) : m.get H e = m.get H (newMapKey e.key) := by
  unfold MTree.get
  split
  · rfl
  · exact getM_congr H (v := e) (w := newMapKey e.key) (fun _ => rfl) _ _ _

theorem has_iff_hasKey (m : MTree) (H : Mem (Entry K V)) (e : Entry K V) : m.Has H e ↔ m.HasKey H e.key := by
  unfold MTree.Has MTree.HasKey MTree.mapGet
  rw [get_key]
  constructor
  · rintro ⟨x, hx⟩
    exact ⟨x.value, by rw [hx]; rfl⟩
  · rintro ⟨v, hv⟩
    cases hr : m.get H (newMapKey e.key) with
    | error _ => rw [hr] at hv; cases hv
    | ok r =>
      cases r with
      | none => rw [hr] at hv; cases hv
      | some x => exact ⟨x, rfl⟩

theorem crowded_key {P : Entry K V → Prop} {Q : K → Prop} (hPQ : ∀ e, P e ↔ Q e.key) {e : Entry K V} (h : Crowded P e) : Crowded Q e.key := by
  obtain ⟨l, h1, h2, h3⟩ := h
  refine ⟨l.map (·.key), by rw [List.length_map]; exact h1, ?_, ?_⟩
  · exact List.pairwise_map.2 h2
  · intro x hx
    obtain ⟨a, ha, rfl⟩ := List.mem_map.1 hx
    obtain ⟨g1, g2, g3⟩ := h3 a ha
    exact ⟨(hPQ a).1 g1, g2, g3⟩

theorem uncrowded_merge {w : World (Entry K V)} {i j : Nat} {f : Entry K V → Entry K V → Entry K V}
    (hf : ∀ a b, GoKey.eq a b = true → GoKey.eq (f a b) a = true)
    (h : ∀ m n, w.sets[i]? = some m → w.sets[j]? = some n → ∀ k, (m.HasKey w.mem k ↔ n.HasKey w.mem k) ∨
      ¬ Crowded (fun u => m.HasKey w.mem u ∨ n.HasKey w.mem u) k) : Uncrowded w (.merge i j f) := by
  refine ⟨hf, fun s t hs ht v => ?_⟩
  rw [has_iff_hasKey, has_iff_hasKey]
  refine (h s t hs ht v.key).imp id (mt (crowded_key (fun e => ?_)))
  rw [has_iff_hasKey, has_iff_hasKey]

theorem uncrowded_call {w : World (Entry K V)} (op : MOp K V) (h : UncrowdedMap w op) : Uncrowded w (op.call w) := by
  have hm := call_mergesOk op w
  cases op with
  | «with» i k v =>
    intro s hs
    rw [has_iff_hasKey]
    exact (h s hs).imp id (mt (crowded_key (fun e => has_iff_hasKey s w.mem e)))
  | merge i j r => exact uncrowded_merge hm h
  | update i j =>
    have h' : ∀ m n, w.sets[j]? = some m → w.sets[i]? = some n → ∀ k, (m.HasKey w.mem k ↔ n.HasKey w.mem k) ∨
        ¬ Crowded (fun u => m.HasKey w.mem u ∨ n.HasKey w.mem u) k := by
      intro m n h1 h2 k
      have := h n m h2 h1 k
      simpa only [_root_.or_comm, iff_comm] using this
    simp only [MOp.call] at hm ⊢
    split
    · split
      · rename_i m n e1 e2 hlt
        rw [e1, e2] at hm
        simp only [if_pos hlt] at hm
        exact uncrowded_merge hm h'
      · rename_i m n e1 e2 hlt
        rw [e1, e2] at hm
        simp only [if_neg hlt] at hm
        exact uncrowded_merge hm h
    · exact uncrowded_merge (fun (a b : Entry K V) h => PerGoKey.symm (a := a.key) (b := b.key) h) h
  | _ => trivial

theorem uncrowded_calls (G : Growth) : ∀ (ops : List (MOp K V)) (w : World (Entry K V)), UncrowdedMapRun G w ops →
    UncrowdedRun G w (mapCalls G w ops)
  | [], _, _ => trivial
  | op :: ops, _, h => ⟨uncrowded_call op h.1, uncrowded_calls G ops _ h.2⟩

theorem uncrowdedMap_of_few (hK : FewCollisions K) (G : Growth) : ∀ (ops : List (MOp K V)) (w : World (Entry K V)), UncrowdedMapRun G w ops
  | [], _ => trivial
  | op :: ops, w => by
    have h : ∀ (P : K → Prop) (k : K), ¬ Crowded P k := by
      rintro P k ⟨l, h1, h2, h3⟩
      exact hK k ⟨l, h1, h2, fun x hx => (h3 x hx).2⟩
    refine ⟨?_, uncrowdedMap_of_few hK G ops _⟩
    cases op with
    | «with» i k v => exact fun m _ => .inr (h _ _)
    | merge i j r => exact fun m n _ _ k => .inr (h _ _)
    | update i j => exact fun m n _ _ k => .inr (h _ _)
    | _ => trivial

theorem sameHash_key (e : Entry K V) (l : List (Entry K V)) : sameHash e l = sameHash e.key (l.map (·.key)) := by
  unfold sameHash
  rw [List.filter_map, List.length_map]
  rfl

/-! ### The properties -/

/-- C43, the part that holds of all key types: in a history that never adds a key to a map having three other keys with the same 64-bit
hash, no call changes an existing map. Missing: the other histories, for which it is false (`C43_map_persistence_fails`). -/
theorem C43_map_persistence_partial (G : Growth) (ops ops' : List (MOp K V)) (hu : UncrowdedMapRun G World.init (ops ++ ops')) (i : Nat)
    (m : MTree) (hm : (World.init.runMap G ops).sets[i]? = some m) :
    (World.init.runMap G (ops ++ ops')).sets[i]? = some m ∧
      SameMapView (World.init.runMap G ops).mem (World.init.runMap G (ops ++ ops')).mem m := by
  have hu' := uncrowded_calls G _ _ hu
  rw [mapCalls_append] at hu'
  rw [runMap_eq] at hm
  rw [runMap_eq, runMap_eq, mapCalls_append]
  have h := C10_persistence_partial G (mapCalls G World.init ops) (mapCalls G (World.init.runMap G ops) ops') hu' i m hm
  exact ⟨h.1, h.2.map⟩

/-- C52 for maps with colliding keys: `Get`, `With` and `Without` take a constant number of accesses, and at most three for each key with
the same 64-bit hash. -/
theorem C52_map_work (G : Growth) (ops : List (MOp K V)) (hu : UncrowdedMapRun G World.init ops) (i : Nat) (m : MTree)
    (hm : (World.init.runMap G ops).sets[i]? = some m) (k : K) (v : V) :
    ∃ l : List (Entry K V), m.elems (World.init.runMap G ops).mem = .ok l ∧
      (m.getP (newMapKey k : Entry K V)).accesses (World.init.runMap G ops).mem ≤ 23 + sameHash k (l.map (·.key)) ∧
      (m.with G (⟨k, v⟩ : Entry K V)).accesses (World.init.runMap G ops).mem ≤ 336 + 3 * sameHash k (l.map (·.key)) ∧
      (m.without G (newMapKey k : Entry K V)).accesses (World.init.runMap G ops).mem ≤ 708 + 3 * sameHash k (l.map (·.key)) := by
  have hu' := uncrowded_calls G _ _ hu
  rw [runMap_eq] at hm ⊢
  obtain ⟨l, h1, h2⟩ := C52_has_work G _ hu' i m hm (newMapKey k)
  obtain ⟨l', h1', h3⟩ := C52_with_work G _ hu' i m hm ⟨k, v⟩
  obtain ⟨l'', h1'', h4⟩ := C52_without_work G _ hu' i m hm (newMapKey k)
  rw [h1] at h1' h1''
  cases h1'; cases h1''
  rw [sameHash_key] at h2 h3 h4
  exact ⟨l, h1, h2, h3, h4⟩

/-- C52 for map builders, in any history. -/
theorem C52_map_builder_work (G : Growth) (ops : List (MOp K V)) (i : Nat) (b : MTree)
    (hb : (World.init.runMap G ops).builders[i]? = some b) (k : K) (v : V) :
    ∃ l : List (Entry K V), b.elems (World.init.runMap G ops).mem = .ok l ∧
      (b.getP (newMapKey k : Entry K V)).accesses (World.init.runMap G ops).mem ≤ 23 + sameHash k (l.map (·.key)) ∧
      (b.add G (⟨k, v⟩ : Entry K V)).accesses (World.init.runMap G ops).mem ≤ 335 + 2 * sameHash k (l.map (·.key)) ∧
      (b.remove G (newMapKey k : Entry K V)).accesses (World.init.runMap G ops).mem ≤ 708 + 2 * sameHash k (l.map (·.key)) := by
  rw [runMap_eq] at hb ⊢
  obtain ⟨l, h1, h2⟩ := C52_builder_has_work G _ i b hb (newMapKey k)
  obtain ⟨l', h1', h3⟩ := C52_builder_add_work G _ i b hb ⟨k, v⟩
  obtain ⟨l'', h1'', h4⟩ := C52_builder_remove_work G _ i b hb (newMapKey k)
  rw [h1] at h1' h1''
  cases h1'; cases h1''
  rw [sameHash_key] at h2 h3 h4
  exact ⟨l, h1, h2, h3, h4⟩

theorem collide_key {c : Nat} {l : List (Entry K V)} (h : Collide c (l.map (·.key))) : Collide c l := by
  intro v
  rw [sameHash_key]
  exact h v.key

/-- C59 for maps with colliding keys: `Merge` takes at most 493 + 3·c accesses for each entry of the smaller map, if at most `c` keys of
a map share a hash. -/
theorem C59_map_merge_work (G : Growth) (ops : List (MOp K V)) (hu : UncrowdedMapRun G World.init ops) (i j : Nat) (m m' : MTree)
    (hm : (World.init.runMap G ops).sets[i]? = some m) (hm' : (World.init.runMap G ops).sets[j]? = some m') (resolve : K → V → V → V)
    (hc : UncrowdedMap (World.init.runMap G ops) (.merge i j resolve)) :
    ∃ l l' : List (Entry K V), m.elems (World.init.runMap G ops).mem = .ok l ∧ m'.elems (World.init.runMap G ops).mem = .ok l' ∧
      ∀ c, Collide c (l.map (·.key)) → Collide c (l'.map (·.key)) →
        (m.combine G ⟨GoKey.eq, fun a b => ⟨a.key, resolve a.key a.value b.value⟩⟩ m').accesses (World.init.runMap G ops).mem ≤
          (493 + 3 * c) * min l.length l'.length := by
  have hu' := uncrowded_calls G _ _ hu
  have hc' := uncrowded_call _ hc
  rw [runMap_eq] at hm hm' hc' ⊢
  obtain ⟨l, l', h1, h2, h3⟩ := C59_union_work G _ hu' i j m m' hm hm' _ hc'
  exact ⟨l, l', h1, h2, fun c hl hl' => h3 c (collide_key hl) (collide_key hl')⟩

/-! ## The hypotheses can be met -/

/-- Every kind of map call. -/
example : UncrowdedMapRun goGrowth World.init mixedMapHistory := uncrowdedMap_of_few mod100_few _ _ _

theorem not_crowded_of_two {P : K → Prop} {a b : K} (h : ∀ x, P x → GoKey.eq x a = true ∨ GoKey.eq x b = true) (k : K) : ¬ Crowded P k := by
  rintro ⟨l, h1, h2, h3⟩
  match l, h1 with
  | [x, y, z], _ =>
    have hx := h x (h3 x (by simp)).1
    have hy := h y (h3 y (by simp)).1
    have hz := h z (h3 z (by simp)).1
    unfold PairwiseDifferent at h2
    simp only [List.pairwise_cons, List.mem_cons, List.not_mem_nil, or_false, forall_eq_or_imp, forall_eq] at h2
    obtain ⟨⟨hxy, hxz⟩, hyz, -⟩ := h2
    have key : ∀ {x y c : K}, GoKey.eq x c = true → GoKey.eq y c = true → GoKey.eq x y = false → False := by
      intro x y c h1 h2 h3
      rw [PerGoKey.trans h1 (PerGoKey.symm h2)] at h3
      cases h3
    rcases hx with hx | hx <;> rcases hy with hy | hy <;> rcases hz with hz | hz <;>
      first | exact key hx hy hxy | exact key hx hz hxz | exact key hy hz hyz

theorem hasKey_elems (G : Growth) (ops : List (MOp K V)) {i : Nat} {m : MTree} (hm : (World.init.runMap G ops).sets[i]? = some m)
    {l : List (Entry K V)} (hl : m.elems (World.init.runMap G ops).mem = .ok l) {k : K} (hk : m.HasKey (World.init.runMap G ops).mem k) :
    ∃ e ∈ l, GoKey.eq k e.key = true := by
  rw [runMap_eq] at hm hl hk
  obtain ⟨S, B, h⟩ := run_inv G (mapCalls G World.init ops) (HistInv.init false) (nomatch ·)
  obtain ⟨n, hn, -⟩ := h.sets i m hm
  have hl' := elemsM_eq hn memFuel (fuelOk_mem 0)
  obtain ⟨e, he⟩ := (has_iff_hasKey m _ (newMapKey k)).2 hk
  rw [MTree.get_eq hn] at he
  have : l = elems n := by
    have := hl.symm.trans hl'
    cases this; rfl
  subst this
  unfold Tree.get MTree.val at he
  dsimp only at he
  split at he
  · cases he
  · rename_i hne
    obtain ⟨o, h1, h2⟩ := fine_get_total (v := (newMapKey k : Entry K V)) (n := n) (h := newHasher (newMapKey k : Entry K V) 0)
      (fun hc => hne (by rw [hc]; rfl))
    rw [h1] at he
    cases he
    obtain ⟨g1, g2⟩ := h2 e rfl
    exact ⟨e, g1, PerGoKey.symm (a := e.key) (b := k) g2⟩

theorem uncrowded_with_two (G : Growth) (ops : List (MOp Coll Nat)) (i : Nat) (k : Coll) (v : Nat) (a b : Coll)
    (h : ((World.init.runMap G ops).sets[i]?).all (fun m =>
      okAnd (m.elems (World.init.runMap G ops).mem) (fun l => l.all (fun e => GoKey.eq e.key a || GoKey.eq e.key b))) = true) :
    UncrowdedMap (World.init.runMap G ops) (.with i k v) := by
  intro m hm
  rw [hm] at h
  obtain ⟨l, hl, hall⟩ := of_okAnd h
  refine .inr (not_crowded_of_two (a := a) (b := b) (fun x hx => ?_) k)
  obtain ⟨e, he, hxe⟩ := hasKey_elems G ops hm hl hx
  have := List.all_eq_true.1 hall e he
  simp only [Bool.or_eq_true] at this
  exact this.imp (PerGoKey.trans hxe) (PerGoKey.trans hxe)

/-- Keys that all collide: a map with three of them, and one whose value is then replaced. -/
def threeMapHistory : List (MOp Coll Nat) := [.empty, .with 0 ⟨1⟩ 10, .with 1 ⟨2⟩ 20, .with 2 ⟨3⟩ 30, .with 3 ⟨1⟩ 11, .without 4 ⟨2⟩]

example : UncrowdedMapRun goGrowth World.init threeMapHistory := by
  refine ⟨trivial, uncrowded_with_two goGrowth (threeMapHistory.take 1) 0 ⟨1⟩ 10 ⟨1⟩ ⟨2⟩ (by decide +kernel),
    uncrowded_with_two goGrowth (threeMapHistory.take 2) 1 ⟨2⟩ 20 ⟨1⟩ ⟨2⟩ (by decide +kernel),
    uncrowded_with_two goGrowth (threeMapHistory.take 3) 2 ⟨3⟩ 30 ⟨1⟩ ⟨2⟩ (by decide +kernel), ?_, trivial, trivial⟩
  intro m hm
  have h : ((World.init.runMap goGrowth (threeMapHistory.take 4)).sets[3]?).all (fun m =>
    isOk (m.mapGet (World.init.runMap goGrowth (threeMapHistory.take 4)).mem ⟨1⟩) (some 10)) = true := by decide +kernel
  change (World.init.runMap goGrowth (threeMapHistory.take 4)).sets[3]? = some m at hm
  rw [hm] at h
  exact .inl ⟨10, of_isOk h⟩

/-- Every version keeps its own value. -/
example : (((World.init.runMap goGrowth threeMapHistory).sets.map (fun m =>
    isOk (m.mapGet (World.init.runMap goGrowth threeMapHistory).mem ⟨1⟩) (some 10))) = [false, true, true, true, false, false]) := by
  decide +kernel

end Frozen
