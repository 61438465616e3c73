import Verif.Proof.NanMap
import Verif.Props.Witness

/-!
# C53 — values that are not equal to themselves

The element type's equality need only be symmetric and transitive (`PerGoKey`); some values, such as a NaN, may be different from
themselves. The reference semantics is that of `Spec/Nan.lean`: a set is the list of its elements.
-/

namespace Frozen

variable {T : Type} [GoKey T] [PerGoKey T]

/-- A set made by any sequence of calls iterates over exactly the elements that the list semantics says, no two of them equal.
`Count` is their number and `Has` says whether one of them is equal to its argument. -/
theorem C53_elements (p : SetProg T) (s : FSet T) (hs : p.run = .ok s) :
    ∃ l, s.elements = .ok l ∧ p.Elems l ∧ PairwiseDifferent l ∧ s.count = l.length ∧ ∀ w, s.has w = .ok (hasL l w) := by
  obtain ⟨h1, h2⟩ := SetProg.run_list p hs
  exact ⟨s.tree.list, h1.rangeList, h2, h1.distinct, h1.count_eq, FSet.has_elems h1⟩

/-- Every sequence of calls without `Union` and `SymmetricDifference` returns. -/
theorem C53_total (p : SetProg T) (hp : p.NoUnion) : ∃ s, p.run = .ok s := SetProg.run_total p hp

/-- `Union` fails exactly on the collision pattern, in which values different from themselves count like all others. Otherwise it
returns the elements of the argument and those of the receiver that have no equal there. -/
theorem C53_union (s t : FSet T) (hs : s.Reachable) (ht : t.Reachable) : ∃ a b, s.elements = .ok a ∧ t.elements = .ok b ∧
    (ClashLists a b → s.union t = .error .wtf) ∧
    (¬ ClashLists a b → ∃ u l, s.union t = .ok u ∧ u.elements = .ok l ∧ l.Perm (minusL a b ++ b)) := by
  obtain ⟨p, hp⟩ := hs
  obtain ⟨q, hq⟩ := ht
  have h1 := (SetProg.run_list p hp).1
  have h2 := (SetProg.run_list q hq).1
  obtain ⟨g1, g2⟩ := FSet.union_elems h1 h2
  refine ⟨_, _, h1.rangeList, h2.rangeList, g1, fun hc => ?_⟩
  obtain ⟨u, k1, k2, k3⟩ := g2 hc
  exact ⟨u, _, k1, k2.rangeList, k3⟩

/-- A value that is not equal to itself is never found, adding it always adds an element, and removing it changes nothing. -/
theorem C53_odd_value (s : FSet T) (hs : s.Reachable) (v : T) (hv : GoKey.eq v v = false) : ∃ l, s.elements = .ok l ∧
    s.has v = .ok false ∧
    (∃ s' l', s.with v = .ok s' ∧ s'.elements = .ok l' ∧ l'.Perm (l ++ [v]) ∧ s'.count = s.count + 1) ∧
    (∃ s' l', s.without v = .ok s' ∧ s'.elements = .ok l' ∧ l'.Perm l ∧ s'.count = s.count) := by
  obtain ⟨p, hp⟩ := hs
  have h1 := (SetProg.run_list p hp).1
  have hno : ∀ e : T, GoKey.eq e v = false := fun e => by
    cases h : GoKey.eq e v with
    | false => rfl
    | true => rw [eq_self_right h] at hv; cases hv
  have herase : eraseL s.tree.list v = s.tree.list := by
    unfold eraseL
    rw [List.filter_eq_self]
    intro e _
    simp [hno e]
  obtain ⟨a, a1, a2, a3⟩ := FSet.with_elems h1 v
  obtain ⟨b, b1, b2, b3⟩ := FSet.without_elems h1 v
  unfold insertL at a3
  rw [herase] at a3 b3
  have hc := h1.count_eq
  refine ⟨_, h1.rangeList, ?_, ⟨a, _, a1, a2.rangeList, a3, ?_⟩, ⟨b, _, b1, b2.rangeList, b3, ?_⟩⟩
  · rw [FSet.has_elems h1]
    have : hasL s.tree.list v = false := by
      unfold hasL
      rw [List.any_eq_false]
      intro e _
      simp [hno e]
    rw [this]
  · have h2 := a3.length_eq
    have h3 := a2.count_eq
    rw [List.length_append, List.length_singleton] at h2
    unfold FSet.count
    omega
  · have h2 := b3.length_eq
    have h3 := b2.count_eq
    unfold FSet.count
    omega

/-- `Equal`: the same number of elements, each equal to one of the other set. `IsSubsetOf`: each equal to one of the other set. -/
theorem C53_equal (s t : FSet T) (hs : s.Reachable) (ht : t.Reachable) : ∃ a b, s.elements = .ok a ∧ t.elements = .ok b ∧
    (s.equal t = .ok (decide (a.length = b.length) && a.all (hasL b))) ∧ s.isSubsetOf t = .ok (a.all (hasL b)) := by
  obtain ⟨p, hp⟩ := hs
  obtain ⟨q, hq⟩ := ht
  have h1 := (SetProg.run_list p hp).1
  have h2 := (SetProg.run_list q hq).1
  refine ⟨_, _, h1.rangeList, h2.rangeList, ?_, FSet.isSubsetOf_elems h1 h2⟩
  obtain ⟨b, g1, g2⟩ := FSet.equal_elems h1 h2
  rw [g1]
  congr 1
  rw [Bool.eq_iff_iff, g2, Bool.and_eq_true, decide_eq_true_eq, List.all_eq_true]

/-- A set with an element that is not equal to itself is neither `Equal` to nor a subset of any set, itself included. -/
theorem C53_never_equal (s t : FSet T) (hs : s.Reachable) (ht : t.Reachable) {l : List T} (hl : s.elements = .ok l) {e : T} (he : e ∈ l)
    (ho : GoKey.eq e e = false) : s.equal t = .ok false ∧ s.isSubsetOf t = .ok false := by
  obtain ⟨a, b, h1, h2, h3, h4⟩ := C53_equal s t hs ht
  rw [hl] at h1
  cases h1
  have : l.all (hasL b) = false := by
    rw [List.all_eq_false]
    refine ⟨e, he, fun h => ?_⟩
    obtain ⟨x, _, hx⟩ := hasL_iff.1 h
    rw [eq_self_right hx] at ho; cases ho
  rw [h3, h4, this, Bool.and_false]
  exact ⟨rfl, rfl⟩

/-! ### Maps -/

section
variable {K V : Type} [GoKey K] [PerGoKey K] [Inhabited V]

/-- A map made by any sequence of calls iterates over exactly the entries that the list semantics says. `Count` is their number and
`Get` finds the entry with an equal key. -/
theorem C53_map_entries (p : MapProg K V) (m : FMap K V) (hm : p.run = .ok m) :
    ∃ l, m.rangeList = .ok l ∧ p.Entries l ∧ l.Pairwise (fun a b => GoKey.eq a.key b.key = false) ∧ m.count = l.length ∧
      ∀ k, m.get k = .ok (getK l k) := by
  obtain ⟨h1, h2⟩ := MapProg.run_list p hm
  exact ⟨m.tree.list, h1.rangeList, h2, h1.distinct, h1.count_eq, FMap.get_list h1⟩

/-- Every sequence of calls without `Update` and `Merge` returns. -/
theorem C53_map_total (p : MapProg K V) (hp : p.NoMerge) : ∃ m, p.run = .ok m := MapProg.run_total p hp

/-- A key that is not equal to itself is never found, and an entry with it is added every time. -/
theorem C53_map_odd_key (m : FMap K V) (hm : m.Reachable) (k : K) (hk : GoKey.eq k k = false) (v : V) : ∃ l, m.rangeList = .ok l ∧
    m.get k = .ok none ∧
    (∃ m' l', m.with k v = .ok m' ∧ m'.rangeList = .ok l' ∧ l'.Perm (l ++ [⟨k, v⟩]) ∧ m'.count = m.count + 1) ∧
    (∃ m' l', m.without k = .ok m' ∧ m'.rangeList = .ok l' ∧ l'.Perm l ∧ m'.count = m.count) := by
  obtain ⟨p, hp⟩ := hm
  have h1 := (MapProg.run_list p hp).1
  have hno : ∀ e : K, GoKey.eq e k = false := fun e => by
    cases h : GoKey.eq e k with
    | false => rfl
    | true => rw [eq_self_right h] at hk; cases hk
  have herase : eraseK m.tree.list k = m.tree.list := by
    unfold eraseK
    rw [List.filter_eq_self]
    intro e _
    simp [hno e.key]
  obtain ⟨a, a1, a2, a3⟩ := FMap.with_list h1 k v
  obtain ⟨b, b1, b2, b3⟩ := FMap.without_list h1 k
  unfold insertK at a3
  rw [herase] at a3 b3
  have hc := h1.count_eq
  refine ⟨_, h1.rangeList, ?_, ⟨a, _, a1, a2.rangeList, a3, ?_⟩, ⟨b, _, b1, b2.rangeList, b3, ?_⟩⟩
  · rw [FMap.get_list h1]
    have : m.tree.list.find? (fun e => GoKey.eq e.key k) = none := by
      rw [List.find?_eq_none]
      intro e _
      simp [hno e.key]
    unfold getK
    rw [this]; rfl
  · have h2 := a3.length_eq
    have h3 := a2.count_eq
    rw [List.length_append, List.length_singleton] at h2
    unfold FMap.count
    omega
  · have h2 := b3.length_eq
    have h3 := b2.count_eq
    unfold FMap.count
    omega

/-- `Update` and `Merge` fail exactly on the collision pattern. -/
theorem C53_map_merge (m n : FMap K V) (hm : m.Reachable) (hn : n.Reachable) (resolve : K → V → V → V) :
    ∃ a b, m.rangeList = .ok a ∧ n.rangeList = .ok b ∧
      (ClashLists a b → m.update n = .error .wtf ∧ m.merge n resolve = .error .wtf) ∧
      (¬ ClashLists a b → (∃ u l, m.update n = .ok u ∧ u.rangeList = .ok l ∧ l.Perm (minusK a b ++ b)) ∧
        ∃ u l, m.merge n resolve = .ok u ∧ u.rangeList = .ok l ∧ l.Perm (mergeK resolve a b)) := by
  obtain ⟨p, hp⟩ := hm
  obtain ⟨q, hq⟩ := hn
  have h1 := (MapProg.run_list p hp).1
  have h2 := (MapProg.run_list q hq).1
  obtain ⟨g1, g2⟩ := FMap.update_list h1 h2
  obtain ⟨k1, k2⟩ := FMap.merge_list h1 h2 resolve
  refine ⟨_, _, h1.rangeList, h2.rangeList, fun hc => ⟨g1 hc, k1 hc⟩, fun hc => ?_⟩
  obtain ⟨u, x1, x2, x3⟩ := g2 hc
  obtain ⟨w, y1, y2, y3⟩ := k2 hc
  exact ⟨⟨u, _, x1, x2.rangeList, x3⟩, ⟨w, _, y1, y2.rangeList, y3⟩⟩

/-- `Equal` of maps: the same number of entries, each with a partner of equal key and equal value. So a map with a key or a value
that is not equal to itself is not `Equal` to any map. -/
theorem C53_map_equal [GoKey V] (m n : FMap K V) (hm : m.Reachable) (hn : n.Reachable) : ∃ a b, m.rangeList = .ok a ∧
    n.rangeList = .ok b ∧ ∃ r, m.equal n = .ok r ∧ (r = true ↔ a.length = b.length ∧
      ∀ e ∈ a, ∃ x ∈ b, GoKey.eq e.key x.key = true ∧ GoKey.eq e.value x.value = true) := by
  obtain ⟨p, hp⟩ := hm
  obtain ⟨q, hq⟩ := hn
  have h1 := (MapProg.run_list p hp).1
  have h2 := (MapProg.run_list q hq).1
  exact ⟨_, _, h1.rangeList, h2.rangeList, FMap.equal_list h1 h2⟩

end

/-! ### Non-vacuity -/

/-- Numbers, of which those below ten are, like NaNs, not equal to themselves. -/
structure Nul where
  n : Nat
deriving DecidableEq

instance : GoKey Nul where
  eq a b := decide (a = b) && decide (10 ≤ a.n)
  hash seed a := BitVec.ofNat 64 (a.n * 2654435761 * 40503) ^^^ seed

instance : PerGoKey Nul where
  symm h := by simp only [GoKey.eq, Bool.and_eq_true, decide_eq_true_eq] at *; exact ⟨h.1.symm, h.1 ▸ h.2⟩
  trans h g := by simp only [GoKey.eq, Bool.and_eq_true, decide_eq_true_eq] at *; exact ⟨h.1.trans g.1, h.2⟩
  hash_congr seed _ _ h := by simp only [GoKey.eq, Bool.and_eq_true, decide_eq_true_eq] at h; rw [h.1]

/-- The type is not covered by the theorems that ask for an equivalence. -/
example : ¬ LawfulGoKey Nul := fun h => absurd (h.refl ⟨1⟩) (by decide)

/-- Three copies of a value that is not equal to itself and two others, in two sets that are united, intersected and subtracted. -/
def nulProg : SetProg Nul :=
  .difference (.union (.with (.newSet [⟨1⟩, ⟨12⟩, ⟨1⟩, ⟨12⟩]) ⟨1⟩) (.newSet [⟨2⟩, ⟨12⟩, ⟨30⟩, ⟨1⟩]))
    (.intersection (.newSet [⟨1⟩, ⟨30⟩]) (.without (.newSet [⟨30⟩, ⟨1⟩]) ⟨1⟩))

/-- The set holds four copies of 1, one 2 and 12; it answers `Has` for 12 only. -/
example : okAnd nulProg.run (fun s => okAnd s.elements (fun l => decide (l.count ⟨1⟩ = 4 ∧ l.count ⟨2⟩ = 1 ∧ l.count ⟨12⟩ = 1)) && s.count == 6 &&
    isOk (s.has ⟨12⟩) true && isOk (s.has ⟨1⟩) false && isOk (s.equal s) false && isOk (s.isSubsetOf s) false) = true := by
  decide +kernel

/-- The hypotheses of `C53_odd_value` and `C53_never_equal` are met. -/
example : ∃ s : FSet Nul, s.Reachable ∧ (∃ l, s.elements = .ok l ∧ (⟨1⟩ : Nul) ∈ l) ∧ GoKey.eq (⟨1⟩ : Nul) ⟨1⟩ = false := by
  obtain ⟨s, h1, h2⟩ := of_okAnd (r := nulProg.run) (test := fun s => okAnd s.elements (fun l => decide ((⟨1⟩ : Nul) ∈ l)))
    (by decide +kernel)
  obtain ⟨l, h3, h4⟩ := of_okAnd h2
  exact ⟨s, ⟨nulProg, h1⟩, ⟨l, h3, of_decide_eq_true h4⟩, rfl⟩

/-- Values that all hash alike and none of which is equal to itself: uniting three of them with one fails. -/
structure NulColl where
  n : Nat
deriving DecidableEq

instance : GoKey NulColl where
  eq a b := decide (a = b) && decide (10 ≤ a.n)
  hash _ _ := 7#64

instance : PerGoKey NulColl where
  symm h := by simp only [GoKey.eq, Bool.and_eq_true, decide_eq_true_eq] at *; exact ⟨h.1.symm, h.1 ▸ h.2⟩
  trans h g := by simp only [GoKey.eq, Bool.and_eq_true, decide_eq_true_eq] at *; exact ⟨h.1.trans g.1, h.2⟩
  hash_congr _ _ _ _ := rfl

/-- The collision pattern is met with a single value; without it the union returns. -/
example : ClashLists [(⟨1⟩ : NulColl), ⟨1⟩, ⟨1⟩] [⟨1⟩, ⟨1⟩, ⟨1⟩] ∧ ¬ ClashLists [(⟨1⟩ : NulColl), ⟨1⟩, ⟨1⟩] [⟨1⟩, ⟨1⟩] := by
  refine ⟨⟨⟨1⟩, by simp, ⟨1⟩, by simp, rfl, by decide, by decide, .inl (by decide)⟩, ?_⟩
  rintro ⟨x, _, y, _, _, _, h, _⟩
  have := List.length_filter_le (fun e => decide (hash0 e >>> 1 = hash0 x >>> 1)) [(⟨1⟩ : NulColl), ⟨1⟩]
  unfold nearL at h
  simp only [List.length_cons, List.length_nil] at this
  omega

/-- A map with the key 1, which is not equal to itself, three times, and one other key that is overwritten. -/
def nulMapProg : MapProg Nul Nat :=
  .merge (.update (.newMap [⟨⟨1⟩, 5⟩, ⟨⟨12⟩, 6⟩, ⟨⟨1⟩, 7⟩]) (.with (.newMap [⟨⟨12⟩, 8⟩]) ⟨1⟩ 9))
    (.project (.newMap [⟨⟨12⟩, 10⟩, ⟨⟨1⟩, 11⟩]) [⟨1⟩, ⟨12⟩]) (fun _ x y => x + y) (fun _ _ _ _ _ => rfl)

example : okAnd nulMapProg.run (fun m => okAnd m.rangeList (fun l => decide ((l.map (·.key)).count ⟨1⟩ = 3)) && m.count == 4 &&
    isOk (m.get ⟨12⟩) (some 18) && isOk (m.get ⟨1⟩) none && okAnd (m.without ⟨1⟩) (fun m' => m'.count == 4)) = true := by
  decide +kernel

end Frozen
