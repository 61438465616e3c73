import Verif.Proof.Rehash
import Verif.Props.Ordered

/-!
# C51: the hash function is unobservable

`A` is the `Equal` and the hash of the elements, `A.withHash h` the same `Equal` with the hash `h`; both are lawful. A program is run with
either (Spec/Rehash.lean).
-/

set_option linter.unusedSectionVars false

namespace Frozen

variable {T K V : Type}

/-- C51, the part that holds for sets: when the runs with the two hash functions return, the sets answer `Has`, `Count` and `IsEmpty`
alike. Missing: that both return (`C51_panic_refuted`). -/
theorem C51_set_answers_partial (A : GoKey T) (hA : @LawfulGoKey T A) (h : BitVec 64 → T → BitVec 64)
    (hB : @LawfulGoKey T (A.withHash h)) (p : @SetProg T A) (hp : @SetProg.NoAnyN T A p) (s s' : FSet T)
    (hs : @SetProg.run T A p = .ok s) (hs' : @SetProg.run T (A.withHash h) (p.rehash A h) = .ok s') :
    (∀ v, @FSet.has T A s v = @FSet.has T (A.withHash h) s' v) ∧ s.count = s'.count ∧ s.isEmpty = s'.isEmpty := by
  obtain ⟨d1, t1, _⟩ := @C01_set_histories T A hA p s hs
  obtain ⟨d2, t2, _⟩ := @C01_set_histories T (A.withHash h) hB _ s' hs'
  rw [rehash_describes] at d2
  have hm := @C01_description_unique T A hA p hp _ _ d1 d2
  have c1 := (@C02_count T A hA s ⟨p, hs⟩).1
  have c2 := (@C02_count T (A.withHash h) hB s' ⟨_, hs'⟩).1
  have hc : s.count = s'.count := by
    obtain ⟨l1, h1, e1⟩ := c1
    obtain ⟨l2, h2, e2⟩ := c2
    have h2' : @Lists T A l2 (@FSet.Mem T A s) := @Lists.mk T A _ _ (@Lists.different T (A.withHash h) _ _ h2)
      (fun w => (hm w).trans (@Lists.covers T (A.withHash h) _ _ h2 w))
    rw [← e1, ← e2, @Lists.length_eq T A hA _ _ _ h1 h2']
  refine ⟨fun v => ?_, hc, by unfold FSet.isEmpty; simp only [FSet.count] at hc; rw [hc]⟩
  obtain ⟨b1, g1⟩ := t1 v
  obtain ⟨b2, g2⟩ := t2 v
  have hv := hm v
  unfold FSet.Mem at hv
  rw [g1, g2] at hv ⊢
  cases b1 <;> cases b2 <;> simp_all

/-- C51 for comparisons: `Equal` and `IsSubsetOf` answer alike. -/
theorem C51_comparisons_partial (A : GoKey T) (hA : @LawfulGoKey T A) (h : BitVec 64 → T → BitVec 64)
    (hB : @LawfulGoKey T (A.withHash h)) (p q : @SetProg T A) (hp : @SetProg.NoAnyN T A p) (hq : @SetProg.NoAnyN T A q)
    (s s' t t' : FSet T) (hs : @SetProg.run T A p = .ok s) (hs' : @SetProg.run T (A.withHash h) (p.rehash A h) = .ok s')
    (ht : @SetProg.run T A q = .ok t) (ht' : @SetProg.run T (A.withHash h) (q.rehash A h) = .ok t') :
    @FSet.equal T A s t = @FSet.equal T (A.withHash h) s' t' ∧ @FSet.isSubsetOf T A s t = @FSet.isSubsetOf T (A.withHash h) s' t' := by
  have m1 := (C51_set_answers_partial A hA h hB p hp s s' hs hs').1
  have m2 := (C51_set_answers_partial A hA h hB q hq t t' ht ht').1
  have ms : ∀ v, @FSet.Mem T A s v ↔ @FSet.Mem T (A.withHash h) s' v := fun v => by unfold FSet.Mem; rw [m1]
  have mt : ∀ v, @FSet.Mem T A t v ↔ @FSet.Mem T (A.withHash h) t' v := fun v => by unfold FSet.Mem; rw [m2]
  constructor
  · obtain ⟨a, a1, a2⟩ := @C05_equal T A hA p q s t hs ht
    obtain ⟨b, b1, b2⟩ := @C05_equal T (A.withHash h) hB _ _ s' t' hs' ht'
    rw [a1, b1]
    have : a = true ↔ b = true := by
      rw [a2, b2]
      exact forall_congr' (fun w => by rw [ms, mt])
    cases a <;> cases b <;> simp_all
  · obtain ⟨a, a1, a2⟩ := @C06_isSubsetOf T A hA s t ⟨p, hs⟩ ⟨q, ht⟩
    obtain ⟨b, b1, b2⟩ := @C06_isSubsetOf T (A.withHash h) hB s' t' ⟨_, hs'⟩ ⟨_, ht'⟩
    rw [a1, b1]
    have : a = true ↔ b = true := by
      rw [a2, b2]
      exact forall_congr' (fun w => by rw [ms, mt])
    cases a <;> cases b <;> simp_all

/-- C51 and C01: which elements a set has, not only up to `Equal`. A program without `Intersection` and `AnyN` returns a set with exactly
the values that `kept` says, which does not mention the hash. -/
theorem C51_elements [GoKey T] [LawfulGoKey T] (p : SetProg T) (hp : p.NoAnyN) (hi : ¬ p.Intersects) (s : FSet T) (hs : p.run = .ok s) :
    ∃ l, s.elements = .ok l ∧ ∀ e, e ∈ l ↔ p.kept e = some e := by
  have hv := (SetProg.run_spec p hs).1
  exact ⟨_, FSet.elements_spec hv, fun e => by rw [← SetProg.run_kept p hs hp hi]; exact FSet.mem_list hv e⟩

/-- C51 for elements: the elements are the same values, in some order. -/
theorem C51_same_elements_partial (A : GoKey T) (hA : @LawfulGoKey T A) (h : BitVec 64 → T → BitVec 64)
    (hB : @LawfulGoKey T (A.withHash h)) (p : @SetProg T A) (hp : @SetProg.NoAnyN T A p) (hi : ¬ @SetProg.Intersects T A p) (s s' : FSet T)
    (hs : @SetProg.run T A p = .ok s) (hs' : @SetProg.run T (A.withHash h) (p.rehash A h) = .ok s') :
    ∃ l l', s.elements = .ok l ∧ s'.elements = .ok l' ∧ l.Perm l' := by
  have hp' := (rehash_noAnyN A h p).2 hp
  have hi' := fun x => hi ((rehash_intersects A h p).1 x)
  obtain ⟨l, h1, h2⟩ := @C51_elements T A hA p hp hi s hs
  obtain ⟨l', h1', h2'⟩ := @C51_elements T (A.withHash h) hB (p.rehash A h) hp' hi' s' hs'
  have hv := (@SetProg.run_spec T A hA p s hs).1
  have hv' := (@SetProg.run_spec T (A.withHash h) hB _ s' hs').1
  rw [@FSet.elements_spec T A hA s hv] at h1
  rw [@FSet.elements_spec T (A.withHash h) hB s' hv'] at h1'
  cases h1; cases h1'
  refine ⟨_, _, @FSet.elements_spec T A hA s hv, @FSet.elements_spec T (A.withHash h) hB s' hv', ?_⟩
  refine (List.perm_ext_iff_of_nodup ?_ ?_).2 (fun e => by rw [h2, h2', rehash_kept])
  · refine (@Lists.different T A _ _ (@FSet.lists T A hA s hv)).imp (fun {a b} hab => ?_)
    rintro rfl
    rw [@LawfulGoKey.refl T A hA a] at hab; cases hab
  · refine (@Lists.different T (A.withHash h) _ _ (@FSet.lists T (A.withHash h) hB s' hv')).imp (fun {a b} hab => ?_)
    rintro rfl
    rw [@LawfulGoKey.refl T (A.withHash h) hB a] at hab; cases hab

/-- C51 for ordered output: `OrderedElements` with an order that tells all different elements apart returns the same list, element by
element up to `Equal`. -/
theorem C51_ordered_partial [Inhabited T] (A : GoKey T) (hA : @LawfulGoKey T A) (h : BitVec 64 → T → BitVec 64)
    (hB : @LawfulGoKey T (A.withHash h)) (p : @SetProg T A) (hp : @SetProg.NoAnyN T A p) (s s' : FSet T)
    (hs : @SetProg.run T A p = .ok s) (hs' : @SetProg.run T (A.withHash h) (p.rehash A h) = .ok s')
    (less : T → T → Bool) (hl : @TotalOrderOn T A less) :
    ∃ l l', s.orderedElements less = .ok l ∧ s'.orderedElements less = .ok l' ∧ List.Forall₂ (fun a b => A.eq a b = true) l l' := by
  have hv := (@SetProg.run_spec T A hA p s hs).1
  have hv' := (@SetProg.run_spec T (A.withHash h) hB _ s' hs').1
  obtain ⟨l, h1, h2, h3, _⟩ := @C17_ordered T A hA _ s ⟨p, hs⟩ less hl.toStrictWeakOrder _ (@FSet.elements_spec T A hA s hv)
  obtain ⟨l', h1', h2', h3', _⟩ := @C17_ordered T (A.withHash h) hB _ s' ⟨_, hs'⟩ less hl.toStrictWeakOrder _
    (@FSet.elements_spec T (A.withHash h) hB s' hv')
  refine ⟨l, l', h1, h1', ?_⟩
  have m1 := (C51_set_answers_partial A hA h hB p hp s s' hs hs').1
  have L := @FSet.lists T A hA s hv
  have L' := @FSet.lists T (A.withHash h) hB s' hv'
  have hsym : ∀ {a b : T}, A.eq a b = false → A.eq b a = false := by
    intro a b hab
    cases hba : A.eq b a with
    | false => rfl
    | true => rw [@PerGoKey.symm T A (@LawfulGoKey.toPerGoKey T A hA) _ _ hba] at hab; cases hab
  refine @sorted_unique T A hA less hl l l' h3 h3' ?_ ?_ (fun w => ?_)
  · exact (h2.pairwise_iff (fun hab => hsym hab)).2 (@Lists.different T A _ _ L)
  · exact (h2'.pairwise_iff (fun hab => hsym hab)).2 (@Lists.different T (A.withHash h) _ _ L')
  · have e1 := @Lists.covers T A _ _ L w
    have e2 := @Lists.covers T (A.withHash h) _ _ L' w
    unfold FSet.Mem at e1 e2
    rw [m1] at e1
    simp only [h2.mem_iff, h2'.mem_iff]
    exact e1.symm.trans e2

/-- C51 for maps: when both runs return, `Get`, `Has` and `Count` answer alike. -/
theorem C51_map_answers_partial [Inhabited V] (A : GoKey K) (hA : @LawfulGoKey K A) (h : BitVec 64 → K → BitVec 64)
    (hB : @LawfulGoKey K (A.withHash h)) (p : @MapProg K V A) (m m' : FMap K V)
    (hm : @MapProg.run K V A _ p = .ok m) (hm' : @MapProg.run K V (A.withHash h) _ (p.rehash A h) = .ok m') :
    (∀ k o, @FMap.Gets K V A _ m k o ↔ @FMap.Gets K V (A.withHash h) _ m' k o) ∧
    (∀ k, @FMap.has K V A _ m k = @FMap.has K V (A.withHash h) _ m' k) ∧ m.count = m'.count ∧ m.isEmpty = m'.isEmpty := by
  obtain ⟨g, hh, ⟨l1, h1, e1⟩, he⟩ := @C12_map_histories K V A hA _ p m hm
  obtain ⟨g', hh', ⟨l2, h2, e2⟩, he'⟩ := @C12_map_histories K V (A.withHash h) hB _ _ m' hm'
  rw [rehash_denote] at g' hh' h2 he'
  refine ⟨fun k o => ?_, fun k => by rw [hh, hh'], ?_, ?_⟩
  · have a := g k
    have b := g' k
    unfold FMap.Gets at a b ⊢
    rw [a, b]
  · have h2' : @Lists K A l2 (fun k => (@MapProg.denote K V A p k).isSome = true) := @Lists.mk K A _ _
      (@Lists.different K (A.withHash h) _ _ h2) (@Lists.covers K (A.withHash h) _ _ h2)
    rw [← e1, ← e2, @Lists.length_eq K A hA _ _ _ h1 h2']
  · have : m.isEmpty = true ↔ m'.isEmpty = true := by rw [he, he']
    cases h1 : m.isEmpty <;> cases h2 : m'.isEmpty <;> simp_all

/-! ### Refutations -/

/-- Another hash for `Mod100`: the first slot is chosen by the number modulo 8. -/
def topHash (_ : BitVec 64) (a : Mod100) : BitVec 64 := BitVec.ofNat 64 (a.n % 100) <<< 61

theorem topHash_lawful : @LawfulGoKey Mod100 (GoKey.withHash inferInstance topHash) :=
  withHash_lawful inferInstance inferInstance topHash (fun _ a b h => by
    have h' : a.n % 100 = b.n % 100 := by simpa [GoKey.eq] using h
    simp only [topHash, h'])

/-- A hash for `Coll` that tells numbers apart. -/
def spreadHash (_ : BitVec 64) (a : Coll) : BitVec 64 := BitVec.ofNat 64 a.n <<< 61

theorem spreadHash_lawful : @LawfulGoKey Coll (GoKey.withHash inferInstance spreadHash) :=
  withHash_lawful inferInstance inferInstance spreadHash (fun _ a b h => by
    have h' : a = b := by simpa [GoKey.eq] using h
    rw [h'])

/-- C51 fails for whether a call returns: {1, 2, 3} ∪ {1, 2, 3} panics with one hash and not with another. -/
theorem C51_panic_refuted : ¬ ∀ (A : GoKey Coll) (_ : @LawfulGoKey Coll A) (h : BitVec 64 → Coll → BitVec 64)
    (_ : @LawfulGoKey Coll (A.withHash h)) (p : @SetProg Coll A), @SetProg.NoAnyN Coll A p →
    ((∃ s, @SetProg.run Coll A p = .ok s) ↔ ∃ s, @SetProg.run Coll (A.withHash h) (p.rehash A h) = .ok s) := by
  intro H
  have H := (H inferInstance inferInstance spreadHash spreadHash_lawful
    (.union (.newSet [⟨1⟩, ⟨2⟩, ⟨3⟩]) (.newSet [⟨1⟩, ⟨2⟩, ⟨3⟩])) ⟨trivial, trivial⟩).2
    ((of_okAnd (test := fun _ => true) (by decide +kernel)).imp (fun _ h => h.1))
  obtain ⟨s, hs⟩ := H
  have : okAnd (SetProg.run (T := Coll) (.union (.newSet [⟨1⟩, ⟨2⟩, ⟨3⟩]) (.newSet [⟨1⟩, ⟨2⟩, ⟨3⟩]))) (fun _ => true) = false := by decide +kernel
  rw [hs] at this
  cases this

/-- C51 fails for which of two `Equal` elements `Intersection` keeps: {1, 2, 3} ∩ {101, 5, 6} with numbers that are equal modulo 100 is
{101} with one hash and {1} with another. -/
theorem C51_intersection_refuted : ¬ ∀ (A : GoKey Mod100) (_ : @LawfulGoKey Mod100 A) (h : BitVec 64 → Mod100 → BitVec 64)
    (_ : @LawfulGoKey Mod100 (A.withHash h)) (p : @SetProg Mod100 A), @SetProg.NoAnyN Mod100 A p → ∀ s s' : FSet Mod100,
    @SetProg.run Mod100 A p = .ok s → @SetProg.run Mod100 (A.withHash h) (p.rehash A h) = .ok s' →
    ∃ l l', s.elements = .ok l ∧ s'.elements = .ok l' ∧ l.Perm l' := by
  intro H
  obtain ⟨s, h1, h2⟩ := of_okAnd (r := SetProg.run (T := Mod100) (.intersection (.newSet [⟨1⟩, ⟨2⟩, ⟨3⟩]) (.newSet [⟨101⟩, ⟨5⟩, ⟨6⟩])))
    (test := fun s => isOk s.elements [⟨101⟩]) (by decide +kernel)
  obtain ⟨s', h1', h2'⟩ := of_okAnd (r := @SetProg.run Mod100 (GoKey.withHash inferInstance topHash)
      (SetProg.rehash inferInstance topHash (.intersection (.newSet [⟨1⟩, ⟨2⟩, ⟨3⟩]) (.newSet [⟨101⟩, ⟨5⟩, ⟨6⟩]))))
    (test := fun s => isOk s.elements [⟨1⟩]) (by decide +kernel)
  obtain ⟨l, l', g, g', hp⟩ := H inferInstance inferInstance topHash topHash_lawful
    (.intersection (.newSet [⟨1⟩, ⟨2⟩, ⟨3⟩]) (.newSet [⟨101⟩, ⟨5⟩, ⟨6⟩])) ⟨trivial, trivial⟩ s s' h1 h1'
  rw [of_isOk h2] at g
  rw [of_isOk h2'] at g'
  cases g; cases g'
  have := hp.mem_iff (a := (⟨1⟩ : Mod100))
  simp at this

/-! ### Non-vacuity -/

/-- ({1, 2, 3, 9, 101} ∪ built) ∖ {102}, without an intersection. -/
def rehashExample : SetProg Mod100 :=
  .difference (.union (.newSet [⟨1⟩, ⟨2⟩, ⟨3⟩, ⟨9⟩, ⟨101⟩]) (.build [.add ⟨4⟩, .add ⟨203⟩, .remove ⟨104⟩])) (.newSet [⟨102⟩])

/-- The hypotheses of the theorems above are met; the two hash functions yield the elements in different orders. -/
example : ∃ s s', rehashExample.run = .ok s ∧
    @SetProg.run Mod100 (GoKey.withHash inferInstance topHash) (rehashExample.rehash inferInstance topHash) = .ok s' ∧
    rehashExample.NoAnyN ∧ ¬ rehashExample.Intersects ∧
    s.elements = .ok [⟨101⟩, ⟨203⟩, ⟨9⟩] ∧ s'.elements = .ok [⟨101⟩, ⟨9⟩, ⟨203⟩] := by
  obtain ⟨s, h1, h2⟩ := of_okAnd (r := rehashExample.run) (test := fun s => isOk s.elements [⟨101⟩, ⟨203⟩, ⟨9⟩]) (by decide +kernel)
  obtain ⟨s', h1', h2'⟩ := of_okAnd (r := @SetProg.run Mod100 (GoKey.withHash inferInstance topHash)
      (rehashExample.rehash inferInstance topHash)) (test := fun s => isOk s.elements [⟨101⟩, ⟨9⟩, ⟨203⟩]) (by decide +kernel)
  refine ⟨s, s', h1, h1', ?_, ?_, of_isOk h2, of_isOk h2'⟩ <;> simp [rehashExample, SetProg.NoAnyN, SetProg.Intersects]

/-- An order meeting the hypothesis of `C51_ordered_partial`. -/
example : TotalOrderOn (T := Mod100) (fun a b => decide (a.n % 100 < b.n % 100)) where
  irrefl a := by simp
  trans a b c h g := by simp only [decide_eq_true_eq] at *; omega
  incomp a b c h1 h2 h3 h4 := by simp only [decide_eq_false_iff_not] at *; omega
  decides a b h g := by simp only [decide_eq_false_iff_not, GoKey.eq, decide_eq_true_eq] at *; omega
  respects a b h := by simp only [decide_eq_false_iff_not, GoKey.eq, decide_eq_true_eq] at *; omega

/-- A map program with runs under both hash functions. -/
example : ∃ m m', (MapProg.with (.newMap [⟨⟨1⟩, 10⟩, ⟨⟨2⟩, 20⟩, ⟨⟨101⟩, 11⟩]) ⟨7⟩ 70 : MapProg Mod100 Nat).run = .ok m ∧
    @MapProg.run Mod100 Nat (GoKey.withHash inferInstance topHash) _
      (MapProg.rehash inferInstance topHash (.with (.newMap [⟨⟨1⟩, 10⟩, ⟨⟨2⟩, 20⟩, ⟨⟨101⟩, 11⟩]) ⟨7⟩ 70)) = .ok m' := by
  obtain ⟨m, h1, _⟩ := of_okAnd (r := (MapProg.with (.newMap [⟨⟨1⟩, 10⟩, ⟨⟨2⟩, 20⟩, ⟨⟨101⟩, 11⟩]) ⟨7⟩ 70 : MapProg Mod100 Nat).run)
    (test := fun m => decide (m.count = 3)) (by decide +kernel)
  obtain ⟨m', h1', _⟩ := of_okAnd (r := @MapProg.run Mod100 Nat (GoKey.withHash inferInstance topHash) _
      (MapProg.rehash inferInstance topHash (.with (.newMap [⟨⟨1⟩, 10⟩, ⟨⟨2⟩, 20⟩, ⟨⟨101⟩, 11⟩]) ⟨7⟩ 70)))
    (test := fun m => decide (m.count = 3)) (by decide +kernel)
  exact ⟨m, m', h1, h1'⟩

end Frozen
