import Verif.Props.SetMore
import Verif.Props.Witness
import Verif.Props.Nested
import Verif.Props.Ordered
import Verif.Props.Rehash
import Verif.Proof.Rel
import Verif.Proof.Calls

/-! # C70: laws of filtering, mapping, counting, grouping and sorting sets

Both sides of a law are compared with the library's own `Equal` (C05 says that it is extensional) or as lists. -/

set_option linter.unusedSectionVars false

namespace Frozen

section
variable {T : Type} [GoKey T] [LawfulGoKey T]

theorem where_valid {s a : FSet T} (hs : s.Valid) {p : T → Bool} (h : s.where p = .ok a) :
    a.Valid ∧ (∀ w, a.tree.look w = (s.tree.look w).filter p) ∧ a.tree.list.Perm (s.tree.list.filter p) ∧
      ((∀ a b, GoKey.eq a b = true → p a = p b) → ∀ w, a.Mem w ↔ s.Mem w ∧ p w = true) := by
  obtain ⟨a', h1, h2, h3, h4⟩ := FSet.where_spec hs p
  rw [h] at h1; cases h1
  exact ⟨h2, h3, FSet.where_list hs h2 h3, h4⟩

/-- C01. `Where` returns a reachable set whatever the predicate is, also if it tells `Equal` values apart: all that is proved of reachable
sets holds of it. -/
theorem C01_where_any (s : FSet T) (hs : s.Reachable) (p : T → Bool) : ∃ a, s.where p = .ok a ∧ a.Reachable := by
  let p' : T → Bool := fun x => match s.tree.look x with
    | some e => p e
    | none => false
  have hp' : ∀ a b, GoKey.eq a b = true → p' a = p' b := fun a b hab => by simp only [p', Tree.look_congr s.tree hab]
  have heq : s.tree.where p = s.tree.where p' := by
    rw [← Tree.eval_whereE, ← Tree.eval_whereE]
    refine (Tree.makes_whereE hs.valid).eval_congr (fun x hx => ?_)
    have : s.tree.look x = some x := by
      rw [Tree.look_eq_find]
      exact hs.valid.distinct.find?_self hx (eq_refl x)
    simp only [p', this]
  obtain ⟨a, a1, _⟩ := FSet.where_spec hs.valid p
  obtain ⟨q, hq⟩ := hs
  refine ⟨a, a1, .where q p' hp', ?_⟩
  have : s.where p' = .ok a := by rw [← a1]; unfold FSet.where; rw [heq]
  simp only [SetProg.run, hq, bind, Except.bind]
  exact this

/-- C70. Filtering twice is filtering once with both conditions, in any order. The predicates need not respect `Equal`. -/
theorem C70_where_twice (s : FSet T) (hs : s.Reachable) (p q : T → Bool) :
    ∃ a b c d e, s.where p = .ok a ∧ a.where q = .ok b ∧ s.where (fun x => p x && q x) = .ok c ∧ b.equal c = .ok true ∧
      s.where q = .ok d ∧ d.where p = .ok e ∧ b.equal e = .ok true := by
  obtain ⟨a, a1, a2, a3, _⟩ := FSet.where_spec hs.valid p
  obtain ⟨b, b1, b2, b3, _⟩ := FSet.where_spec a2 q
  obtain ⟨c, c1, c2, c3, _⟩ := FSet.where_spec hs.valid (fun x => p x && q x)
  obtain ⟨d, d1, d2, d3, _⟩ := FSet.where_spec hs.valid q
  obtain ⟨e, e1, e2, e3, _⟩ := FSet.where_spec d2 p
  refine ⟨a, b, c, d, e, a1, b1, c1, FSet.equal_of_mem b2 c2 (fun w => ?_), d1, e1, FSet.equal_of_mem b2 e2 (fun w => ?_)⟩
  · rw [FSet.mem_iff b2, FSet.mem_iff c2, b3, a3, c3]
    cases s.tree.look w with
    | none => rfl
    | some x => cases hp : p x <;> cases hq : q x <;> simp [Option.filter, hp, hq]
  · rw [FSet.mem_iff b2, FSet.mem_iff e2, b3, a3, e3, d3]
    cases s.tree.look w with
    | none => rfl
    | some x => cases hp : p x <;> cases hq : q x <;> simp [Option.filter, hp, hq]

/-- C70. A predicate and its negation split a set: nothing is in both parts, the counts add up, and their union, when it returns, is the
set. -/
theorem C70_where_split (s : FSet T) (hs : s.Reachable) (p : T → Bool) :
    ∃ a b c, s.where p = .ok a ∧ s.where (fun x => !p x) = .ok b ∧ a.intersection b = .ok c ∧ c.isEmpty = true ∧
      a.count + b.count = s.count ∧ ∀ d, a.union b = .ok d → d.equal s = .ok true := by
  obtain ⟨a, a1, a2, a3, _⟩ := FSet.where_spec hs.valid p
  obtain ⟨b, b1, b2, b3, _⟩ := FSet.where_spec hs.valid (fun x => !p x)
  obtain ⟨c, c1, c2, c3, _⟩ := FSet.intersection_spec a2 b2
  have l1 := FSet.where_list hs.valid a2 a3
  have l2 := FSet.where_list hs.valid b2 b3
  refine ⟨a, b, c, a1, b1, c1, ?_, ?_, fun d hd => ?_⟩
  · have hno : ∀ w, ¬ c.Mem w := by
      intro w hw
      rw [c3, FSet.mem_iff a2, FSet.mem_iff b2, a3, b3] at hw
      cases hx : s.tree.look w with
      | none => rw [hx] at hw; simp at hw
      | some x => rw [hx] at hw; cases hp : p x <;> simp [Option.filter, hp] at hw
    unfold FSet.isEmpty
    rw [beq_iff_eq, c2.count_eq]
    cases hl : c.tree.list with
    | nil => rfl
    | cons x l => exact absurd ((FSet.mem_iff_list c2 x).2 ⟨x, by rw [hl]; simp, eq_refl x⟩) (hno x)
  · have e1 : a.count = a.tree.list.length := a2.count_eq
    have e2 : b.count = b.tree.list.length := b2.count_eq
    have e3 : s.count = s.tree.list.length := hs.valid.count_eq
    have := List.length_eq_length_filter_add (l := s.tree.list) p
    rw [e1, e2, e3, l1.length_eq, l2.length_eq]
    omega
  · obtain ⟨d1, d2⟩ := FSet.union_ok a2 b2 hd
    refine FSet.equal_of_mem d1 hs.valid (fun w => ?_)
    rw [d2, FSet.mem_iff a2, FSet.mem_iff b2, FSet.mem_iff hs.valid, a3, b3]
    cases s.tree.look w with
    | none => simp
    | some x => cases hp : p x <;> simp [Option.filter, hp]

theorem TripleClash.mono {P P' Q Q' : T → Prop} (h1 : ∀ w, P w → P' w) (h2 : ∀ w, Q w → Q' w) (h : TripleClash P Q) : TripleClash P' Q' := by
  have at3 : ∀ {P P' : T → Prop} {c : T → Prop}, (∀ w, P w → P' w) → AtLeast 3 (fun e => P e ∧ c e) → AtLeast 3 (fun e => P' e ∧ c e) :=
    fun h ⟨l, e1, e2, e3⟩ => ⟨l, e1, e2, fun x hx => ⟨h x (e3 x hx).1, (e3 x hx).2⟩⟩
  obtain ⟨x, y, hx, hy, he, h3, h4, h5⟩ := h
  exact ⟨x, y, h1 x hx, h2 y hy, he, at3 h1 h3, at3 h2 h4, h5.imp (at3 h1) (at3 h2)⟩

/-- The counts of two sets with nothing in common add up. -/
theorem card_add {s t u : FSet T} (hs : s.Valid) (ht : t.Valid) (hu : u.Valid) (hd : ∀ w, s.Mem w → ¬ t.Mem w)
    (h : ∀ w, u.Mem w ↔ s.Mem w ∨ t.Mem w) : u.count = s.count + t.count := by
  have hl : Lists (s.tree.list ++ t.tree.list) u.Mem := by
    refine ⟨List.pairwise_append.2 ⟨(FSet.lists hs).different, (FSet.lists ht).different, fun a ha b hb => ?_⟩, fun w => ?_⟩
    · rw [Bool.eq_false_iff]
      intro hab
      exact hd b ((FSet.mem_iff_list hs b).2 ⟨a, ha, hab⟩) ((FSet.mem_iff_list ht b).2 ⟨b, hb, eq_refl b⟩)
    · rw [h, FSet.mem_iff_list hs, FSet.mem_iff_list ht]
      simp only [List.mem_append, or_and_right, exists_or]
  have := (FSet.lists hu).length_eq hl
  rw [List.length_append] at this
  have e1 : u.count = u.tree.list.length := hu.count_eq
  have e2 : s.count = s.tree.list.length := hs.count_eq
  have e3 : t.count = t.tree.list.length := ht.count_eq
  omega

/-- C70. Filtering may be done before or after `Union`, `Intersection` and `Difference`. If the union of the sets returns, so does that
of the filtered sets. -/
theorem C70_where_distributes (s t : FSet T) (hs : s.Reachable) (ht : t.Reachable) (p : T → Bool)
    (hp : ∀ a b, GoKey.eq a b = true → p a = p b) :
    ∃ a b, s.where p = .ok a ∧ t.where p = .ok b ∧
      (∀ u, s.union t = .ok u → ∃ c d, u.where p = .ok c ∧ a.union b = .ok d ∧ c.equal d = .ok true) ∧
      (∃ u c d, s.intersection t = .ok u ∧ u.where p = .ok c ∧ a.intersection b = .ok d ∧ c.equal d = .ok true) ∧
      (∃ u c d e, s.difference t = .ok u ∧ u.where p = .ok c ∧ a.difference b = .ok d ∧ a.difference t = .ok e ∧
        c.equal d = .ok true ∧ c.equal e = .ok true) := by
  obtain ⟨a, a1, a2, _, a3⟩ := FSet.where_spec hs.valid p
  obtain ⟨b, b1, b2, _, b3⟩ := FSet.where_spec ht.valid p
  have a3 := a3 hp
  have b3 := b3 hp
  refine ⟨a, b, a1, b1, fun u hu => ?_, ?_, ?_⟩
  · obtain ⟨u1, u2⟩ := FSet.union_ok hs.valid ht.valid hu
    obtain ⟨c, c1, c2, _, c3⟩ := FSet.where_spec u1 p
    have hn : ¬ TripleClash a.Mem b.Mem := fun h => by
      have : TripleClash s.Mem t.Mem := h.mono (fun w hw => ((a3 w).1 hw).1) (fun w hw => ((b3 w).1 hw).1)
      rw [(FSet.union_spec hs.valid ht.valid).1 this] at hu; cases hu
    obtain ⟨d, d1, d2, _, d3⟩ := (FSet.union_spec a2 b2).2 hn
    refine ⟨c, d, c1, d1, FSet.equal_of_mem c2 d2 (fun w => ?_)⟩
    rw [c3 hp, u2, d3, a3, b3, or_and_right]
  · obtain ⟨u, u1, u2, u3, _⟩ := FSet.intersection_spec hs.valid ht.valid
    obtain ⟨c, c1, c2, _, c3⟩ := FSet.where_spec u2 p
    obtain ⟨d, d1, d2, d3, _⟩ := FSet.intersection_spec a2 b2
    refine ⟨u, c, d, u1, c1, d1, FSet.equal_of_mem c2 d2 (fun w => ?_)⟩
    rw [c3 hp, u3, d3, a3, b3]
    tauto
  · obtain ⟨u, u1, u2, _, u3⟩ := FSet.difference_spec hs.valid ht.valid
    obtain ⟨c, c1, c2, _, c3⟩ := FSet.where_spec u2 p
    obtain ⟨d, d1, d2, _, d3⟩ := FSet.difference_spec a2 b2
    obtain ⟨e, e1, e2, _, e3⟩ := FSet.difference_spec a2 ht.valid
    refine ⟨u, c, d, e, u1, c1, d1, e1, FSet.equal_of_mem c2 d2 (fun w => ?_), FSet.equal_of_mem c2 e2 (fun w => ?_)⟩
    · rw [c3 hp, u3, d3, a3, b3]
      tauto
    · rw [c3 hp, u3, e3, a3]
      tauto

/-! ### Counting -/

/-- C70. Inclusion and exclusion: the counts of `Union`, `Intersection`, `Difference` and `SymmetricDifference` determine each other. -/
theorem C70_counts (s t : FSet T) (hs : s.Reachable) (ht : t.Reachable) :
    ∃ i d d', s.intersection t = .ok i ∧ s.difference t = .ok d ∧ t.difference s = .ok d' ∧
      d.count + i.count = s.count ∧ d'.count + i.count = t.count ∧
      (∀ u, s.union t = .ok u → u.count + i.count = s.count + t.count) ∧
      (∀ x, s.symmetricDifference t = .ok x → x.count = d.count + d'.count) := by
  obtain ⟨i, i1, i2, i3, _⟩ := FSet.intersection_spec hs.valid ht.valid
  obtain ⟨d, d1, d2, _, d3⟩ := FSet.difference_spec hs.valid ht.valid
  obtain ⟨e, e1, e2, _, e3⟩ := FSet.difference_spec ht.valid hs.valid
  have hd : s.count = d.count + i.count := card_add d2 i2 hs.valid (fun w => by rw [d3, i3]; tauto) (fun w => by rw [d3, i3]; tauto)
  have he : t.count = e.count + i.count := card_add e2 i2 ht.valid (fun w => by rw [e3, i3]; tauto) (fun w => by rw [e3, i3]; tauto)
  refine ⟨i, d, e, i1, d1, e1, hd.symm, he.symm, fun u hu => ?_, fun x hx => ?_⟩
  · obtain ⟨u1, u2⟩ := FSet.union_ok hs.valid ht.valid hu
    have : u.count = d.count + t.count := card_add d2 ht.valid u1 (fun w => by rw [d3]; tauto) (fun w => by rw [d3, u2]; tauto)
    omega
  · obtain ⟨x1, x2⟩ := FSet.symmetricDifference_ok hs.valid ht.valid hx
    exact card_add d2 e2 x1 (fun w => by rw [d3, e3]; tauto) (fun w => by rw [x2, d3, e3])

/-- C70. `IsSubsetOf` by other means: the intersection is the first set, the difference is empty, the union, when it returns, is the
second set. -/
theorem C70_subset (s t : FSet T) (hs : s.Reachable) (ht : t.Reachable) :
    ∃ i d, s.intersection t = .ok i ∧ s.difference t = .ok d ∧
      (s.isSubsetOf t = .ok true ↔ i.equal s = .ok true) ∧ (s.isSubsetOf t = .ok true ↔ d.isEmpty = true) ∧
      (∀ u, s.union t = .ok u → (s.isSubsetOf t = .ok true ↔ u.equal t = .ok true)) := by
  obtain ⟨i, i1, i2, i3, _⟩ := FSet.intersection_spec hs.valid ht.valid
  obtain ⟨d, d1, d2, _, d3⟩ := FSet.difference_spec hs.valid ht.valid
  have hsub : s.isSubsetOf t = .ok true ↔ ∀ w, s.Mem w → t.Mem w := by
    obtain ⟨b, b1, b2⟩ := FSet.isSubsetOf_spec hs.valid ht.valid
    rw [b1, ← b2]
    constructor
    · intro h; cases h; rfl
    · rintro rfl; rfl
  have heq : ∀ {x y : FSet T}, x.Valid → y.Valid → (x.equal y = .ok true ↔ ∀ w, x.Mem w ↔ y.Mem w) :=
    fun hx hy => ⟨FSet.mem_of_equal hx hy, FSet.equal_of_mem hx hy⟩
  refine ⟨i, d, i1, d1, ?_, ?_, fun u hu => ?_⟩
  · rw [hsub, heq i2 hs.valid]
    exact forall_congr' (fun w => by rw [i3]; tauto)
  · rw [hsub, FSet.isEmpty_iff_mem d2]
    exact forall_congr' (fun w => by rw [d3]; tauto)
  · obtain ⟨u1, u2⟩ := FSet.union_ok hs.valid ht.valid hu
    rw [hsub, heq u1 ht.valid]
    exact forall_congr' (fun w => by rw [u2]; tauto)

/-- C70. `SymmetricDifference` is the union without the intersection, and undoes itself, whenever the calls return. -/
theorem C70_symmetricDifference (s t x : FSet T) (hs : s.Reachable) (ht : t.Reachable) (hx : s.symmetricDifference t = .ok x) :
    (∀ u i d, s.union t = .ok u → s.intersection t = .ok i → u.difference i = .ok d → x.equal d = .ok true) ∧
    (∀ y, x.symmetricDifference t = .ok y → y.equal s = .ok true) := by
  obtain ⟨x1, x2⟩ := FSet.symmetricDifference_ok hs.valid ht.valid hx
  refine ⟨fun u i d hu hi hd => ?_, fun y hy => ?_⟩
  · obtain ⟨u1, u2⟩ := FSet.union_ok hs.valid ht.valid hu
    obtain ⟨i', i1, i2, i3, _⟩ := FSet.intersection_spec hs.valid ht.valid
    rw [hi] at i1; cases i1
    obtain ⟨d', d1, d2, _, d3⟩ := FSet.difference_spec u1 i2
    rw [hd] at d1; cases d1
    exact FSet.equal_of_mem x1 d2 (fun w => by rw [x2, d3, u2, i3]; tauto)
  · obtain ⟨y1, y2⟩ := FSet.symmetricDifference_ok x1 ht.valid hy
    exact FSet.equal_of_mem y1 hs.valid (fun w => by rw [y2, x2]; tauto)

/-! ### Mapping -/

section
variable {U W : Type} [GoKey U] [LawfulGoKey U] [GoKey W] [LawfulGoKey W]

theorem setMap_mem {s : FSet T} (hs : s.Valid) (f : T → U) :
    ∃ u, setMap s f = .ok u ∧ u.Valid ∧ (∀ w, u.Mem w ↔ ∃ e ∈ s.tree.list, GoKey.eq (f e) w = true) ∧
      ∀ x ∈ u.tree.list, ∃ e ∈ s.tree.list, x = f e := by
  obtain ⟨u, h1, h2⟩ := setMap_spec hs f
  obtain ⟨u', g1, g2, g3, g4⟩ := buildSet_spec (s.tree.list.map f)
  rw [h2] at g1; cases g1
  refine ⟨u, h1, g2, fun w => by rw [g4]; simp, fun x hx => ?_⟩
  have : u.tree.look x = some x := by
    rw [Tree.look_eq_find]
    exact g2.distinct.find?_self hx (eq_refl x)
  rw [g3] at this
  have := List.mem_of_find?_eq_some this
  obtain ⟨e, he, h⟩ := List.mem_map.1 (List.mem_reverse.1 this)
  exact ⟨e, he, h.symm⟩

/-- C70. Mapping twice is mapping once with the composed function, if the second function respects `Equal`; mapping the identity changes
nothing. -/
theorem C70_setMap_twice (s : FSet T) (hs : s.Reachable) (f : T → U) (g : U → W)
    (hg : ∀ a b, GoKey.eq a b = true → GoKey.eq (g a) (g b) = true) :
    (∃ a b c, setMap s f = .ok a ∧ setMap a g = .ok b ∧ setMap s (fun x => g (f x)) = .ok c ∧ b.equal c = .ok true) ∧
    ∃ a, setMap s (fun x => x) = .ok a ∧ a.equal s = .ok true := by
  obtain ⟨a, a1, a2, a3, a4⟩ := setMap_mem hs.valid f
  obtain ⟨b, b1, b2, b3, _⟩ := setMap_mem a2 g
  obtain ⟨c, c1, c2, c3, _⟩ := setMap_mem hs.valid (fun x => g (f x))
  obtain ⟨d, d1, d2, d3, _⟩ := setMap_mem hs.valid (fun x => x)
  refine ⟨⟨a, b, c, a1, b1, c1, FSet.equal_of_mem b2 c2 (fun w => ?_)⟩, d, d1, FSet.equal_of_mem d2 hs.valid (fun w => ?_)⟩
  · rw [b3, c3]
    constructor
    · rintro ⟨x, hx, hw⟩
      obtain ⟨e, he, rfl⟩ := a4 x hx
      exact ⟨e, he, hw⟩
    · rintro ⟨e, he, hw⟩
      obtain ⟨x, hx, hxe⟩ := (FSet.mem_iff_list a2 (f e)).1 ((a3 _).2 ⟨e, he, eq_refl _⟩)
      exact ⟨x, hx, PerGoKey.trans (hg _ _ hxe) hw⟩
  · rw [d3, FSet.mem_iff_list hs.valid]

/-- C70. Mapping may be done before or after `Union`, if the function respects `Equal` and the unions return. -/
theorem C70_setMap_union (s t u : FSet T) (hs : s.Reachable) (ht : t.Reachable) (hu : s.union t = .ok u) (f : T → U)
    (hf : ∀ a b, GoKey.eq a b = true → GoKey.eq (f a) (f b) = true) :
    ∃ a b c, setMap s f = .ok a ∧ setMap t f = .ok b ∧ setMap u f = .ok c ∧ ∀ d, a.union b = .ok d → c.equal d = .ok true := by
  obtain ⟨u1, u2⟩ := FSet.union_ok hs.valid ht.valid hu
  obtain ⟨a, a1, a2, a3, _⟩ := setMap_mem hs.valid f
  obtain ⟨b, b1, b2, b3, _⟩ := setMap_mem ht.valid f
  obtain ⟨c, c1, c2, c3, _⟩ := setMap_mem u1 f
  refine ⟨a, b, c, a1, b1, c1, fun d hd => ?_⟩
  obtain ⟨d1, d2⟩ := FSet.union_ok a2 b2 hd
  have key : ∀ {x : FSet T}, x.Valid → ∀ w, (∃ e ∈ x.tree.list, GoKey.eq (f e) w = true) ↔ ∃ e, x.Mem e ∧ GoKey.eq (f e) w = true := by
    intro x hx w
    constructor
    · rintro ⟨e, he, hw⟩
      exact ⟨e, (FSet.mem_iff_list hx e).2 ⟨e, he, eq_refl e⟩, hw⟩
    · rintro ⟨e, he, hw⟩
      obtain ⟨y, hy, hye⟩ := (FSet.mem_iff_list hx e).1 he
      exact ⟨y, hy, PerGoKey.trans (hf _ _ hye) hw⟩
  refine FSet.equal_of_mem c2 d1 (fun w => ?_)
  rw [c3, d2, a3, b3, key u1, key hs.valid, key ht.valid]
  simp only [u2, or_and_right, exists_or]

/-- C70. Filtering the mapped set is mapping the set filtered by the composed predicate, if the predicate respects `Equal`. -/
theorem C70_setMap_where (s : FSet T) (hs : s.Reachable) (f : T → U) (q : U → Bool) (hq : ∀ a b, GoKey.eq a b = true → q a = q b) :
    ∃ a b c d, setMap s f = .ok a ∧ a.where q = .ok b ∧ s.where (fun x => q (f x)) = .ok c ∧ setMap c f = .ok d ∧ b.equal d = .ok true := by
  obtain ⟨a, a1, a2, a3, _⟩ := setMap_mem hs.valid f
  obtain ⟨b, b1, b2, _, b3⟩ := FSet.where_spec a2 q
  obtain ⟨c, c1, c2, c3, _⟩ := FSet.where_spec hs.valid (fun x => q (f x))
  obtain ⟨d, d1, d2, d3, _⟩ := setMap_mem c2 f
  have hl := FSet.where_list hs.valid c2 c3
  refine ⟨a, b, c, d, a1, b1, c1, d1, FSet.equal_of_mem b2 d2 (fun w => ?_)⟩
  rw [b3 hq, a3, d3]
  constructor
  · rintro ⟨⟨e, he, hw⟩, hqw⟩
    exact ⟨e, hl.symm.subset (List.mem_filter.2 ⟨he, by rw [hq _ _ hw]; exact hqw⟩), hw⟩
  · rintro ⟨e, he, hw⟩
    obtain ⟨h1, h2⟩ := List.mem_filter.1 (hl.subset he)
    exact ⟨⟨e, h1, hw⟩, by rw [← hq _ _ hw]; exact h2⟩

end

/-! ### Grouping -/

section
variable {K : Type} [GoKey K] [LawfulGoKey K]

/-- C70. Each group that `SetGroupBy` makes is what `Where` would find with its key. -/
theorem C70_groupBy_where (s : FSet T) (hs : s.Reachable) (key : T → K)
    (hkey : ∀ a b, GoKey.eq a b = true → GoKey.eq (key a) (key b) = true) :
    ∃ m, setGroupBy s key = .ok m ∧ ∀ k g, m.Gets k (some g) →
      ∃ a, s.where (fun e => GoKey.eq (key e) k) = .ok a ∧ g.equal a = .ok true := by
  obtain ⟨m, h1, _, h3, h4⟩ := C20_groupBy s hs key _ (FSet.elements_spec hs.valid)
  obtain ⟨m', h1', _, h5⟩ := C20_groupBy_mem s hs key hkey
  rw [h1] at h1'; cases h1'
  refine ⟨m, h1, fun k g hg => ?_⟩
  obtain ⟨a, a1, a2, _, a3⟩ := FSet.where_spec hs.valid (fun e => GoKey.eq (key e) k)
  refine ⟨a, a1, FSet.equal_of_mem (h4 k g hg).1.valid a2 (fun w => ?_)⟩
  rw [h5 k g hg, a3 (fun a b hab => ?_)]
  rw [Bool.eq_iff_iff]
  exact ⟨PerGoKey.trans (hkey _ _ (PerGoKey.symm hab)), PerGoKey.trans (hkey _ _ hab)⟩

theorem sum_groups {key : T → K} : ∀ (es : List T) (ks : List K), PairwiseDifferent ks → (∀ e ∈ es, ∃ k ∈ ks, GoKey.eq (key e) k = true) →
    (ks.map (fun k => (es.filter (fun e => GoKey.eq (key e) k)).length)).sum = es.length
  | [], ks, _, _ => by induction ks <;> simp_all
  | e :: es, ks, hd, hk => by
    have ih := sum_groups es ks hd (fun x hx => hk x (by simp [hx]))
    have h1 : ∀ (ks : List K), PairwiseDifferent ks → (ks.filter (fun k => GoKey.eq (key e) k)).length ≤ 1 := by
      intro ks hd
      have h2 := List.Pairwise.filter (fun k => GoKey.eq (key e) k) hd
      match hf : ks.filter (fun k => GoKey.eq (key e) k) with
      | [] => simp
      | [_] => simp
      | a :: b :: l =>
        rw [hf] at h2
        have ha := (List.mem_filter.1 (show a ∈ ks.filter (fun k => GoKey.eq (key e) k) by rw [hf]; simp)).2
        have hb := (List.mem_filter.1 (show b ∈ ks.filter (fun k => GoKey.eq (key e) k) by rw [hf]; simp)).2
        have := (List.pairwise_cons.1 h2).1 b (by simp)
        rw [PerGoKey.trans (PerGoKey.symm ha) hb] at this; cases this
    have h2 : 1 ≤ (ks.filter (fun k => GoKey.eq (key e) k)).length := by
      obtain ⟨k, k1, k2⟩ := hk e (by simp)
      exact List.length_pos_of_mem (List.mem_filter.2 ⟨k1, k2⟩)
    have h3 : ∀ ks : List K, (ks.map (fun k => ((e :: es).filter (fun e => GoKey.eq (key e) k)).length)).sum =
        (ks.filter (fun k => GoKey.eq (key e) k)).length + (ks.map (fun k => (es.filter (fun e => GoKey.eq (key e) k)).length)).sum := by
      intro ks
      induction ks with
      | nil => rfl
      | cons k ks ih =>
        rw [List.map_cons, List.sum_cons, ih, List.map_cons, List.sum_cons]
        cases h : GoKey.eq (key e) k with
        | true =>
          rw [List.filter_cons_of_pos (p := fun e => GoKey.eq (key e) k) h, List.filter_cons_of_pos (p := fun k => GoKey.eq (key e) k) h]
          simp only [List.length_cons]
          omega
        | false =>
          rw [List.filter_cons_of_neg (p := fun e => GoKey.eq (key e) k) (by simp [h]),
            List.filter_cons_of_neg (p := fun k => GoKey.eq (key e) k) (by simp [h])]
          omega
    rw [h3, ih, List.length_cons]
    have := h1 ks hd
    omega

/-- C70. The counts of the groups add up to the count of the set. -/
theorem C70_groupBy_counts (s : FSet T) (hs : s.Reachable) (key : T → K) :
    ∃ m l, setGroupBy s key = .ok m ∧ m.rangeList = .ok l ∧ (l.map (fun e => e.value.count)).sum = s.count := by
  obtain ⟨m, h1, h2, h3, h4⟩ := C20_groupBy s hs key _ (FSet.elements_spec hs.valid)
  refine ⟨m, m.tree.list, h1, h2.valid.rangeList, ?_⟩
  have hd : PairwiseDifferent (m.tree.list.map (·.key)) := by
    unfold PairwiseDifferent
    rw [List.pairwise_map]
    exact h2.valid.distinct
  have hsum := sum_groups (key := key) s.tree.list (m.tree.list.map (·.key)) hd (fun e he => by
    have hk := (h3 (key e)).2 ⟨e, he, eq_refl _⟩
    rw [FMap.hasKey_iff h2.valid, Option.isSome_iff_exists] at hk
    obtain ⟨v, hv⟩ := hk
    obtain ⟨x, x1, x2, _⟩ := (Tree.lk_some h2.valid).1 hv
    exact ⟨x.key, List.mem_map.2 ⟨x, x1, rfl⟩, PerGoKey.symm x2⟩)
  have hc : s.count = s.tree.list.length := hs.valid.count_eq
  rw [hc, ← hsum, List.map_map]
  have hx : ∀ x ∈ m.tree.list, x.value.count = ((s.tree.list.filter (fun e => GoKey.eq (key e) x.key)).length : Int) := by
    intro x hx
    obtain ⟨g1, l, g2, g3⟩ := h4 x.key x.value ((FMap.gets_iff h2.valid _ _).2 ((Tree.lk_some h2.valid).2 ⟨x, hx, eq_refl _, rfl⟩))
    rw [FSet.elements_spec g1.valid] at g2; cases g2
    rw [← g3.length_eq]
    exact g1.valid.count_eq
  generalize m.tree.list = ml at hx
  clear hsum hd
  induction ml with
  | nil => rfl
  | cons x ml ih =>
    rw [List.map_cons, List.sum_cons, List.map_cons, List.sum_cons, hx x (by simp), ih (fun y hy => hx y (by simp [hy]))]
    simp

end

end

/-! ### Reducing -/

section
variable {T : Type} [GoKey T] [LawfulGoKey T] [Inhabited T]

/-- C70. Reducing the union of two sets with nothing in common is combining what each reduces to. -/
theorem C70_reduce_union (s t u : FSet T) (hs : s.Reachable) (ht : t.Reachable) (hu : s.union t = .ok u) (op : T → T → T)
    (assoc : ∀ a b c, op (op a b) c = op a (op b c)) (comm : ∀ a b, op a b = op b a) (hd : ∀ w, s.Mem w → ¬ t.Mem w)
    (h1 : s.isEmpty = false) (h2 : t.isEmpty = false) :
    ∃ x y, s.reduce2 op = .ok (some x) ∧ t.reduce2 op = .ok (some y) ∧ u.reduce2 op = .ok (some (op x y)) := by
  have hn : ¬ TripleClash s.Mem t.Mem := fun h => by rw [(FSet.union_spec hs.valid ht.valid).1 h] at hu; cases hu
  obtain ⟨u', u1, u2, u3, u4⟩ := (FSet.union_spec hs.valid ht.valid).2 hn
  rw [hu] at u1; cases u1
  have hur : u.Reachable := by
    obtain ⟨p, hp⟩ := hs
    obtain ⟨q, hq⟩ := ht
    exact ⟨.union p q, by simp only [SetProg.run, hp, hq, bind, Except.bind]; exact hu⟩
  have hdis : Distinct (s.tree.list ++ t.tree.list) := by
    refine List.pairwise_append.2 ⟨hs.valid.distinct, ht.valid.distinct, fun a ha b hb => ?_⟩
    rw [Bool.eq_false_iff]
    intro hab
    exact hd b ((FSet.mem_iff_list hs.valid b).2 ⟨a, ha, hab⟩) ((FSet.mem_iff_list ht.valid b).2 ⟨b, hb, eq_refl b⟩)
  have hp : u.tree.list.Perm (s.tree.list ++ t.tree.list) := by
    apply FSet.list_perm u2 hdis
    intro e
    rw [u3, List.mem_append]
    have look : ∀ {x : FSet T}, x.Valid → (x.tree.look e = some e ↔ e ∈ x.tree.list) := by
      intro x hx
      rw [Tree.look_eq_find]
      exact ⟨fun h => List.mem_of_find?_eq_some h, fun h => hx.distinct.find?_mem h⟩
    cases hl : t.tree.look e with
    | none =>
      have : e ∉ t.tree.list := fun h => by rw [(look ht.valid).2 h] at hl; cases hl
      simp only [this, or_false]
      exact look hs.valid
    | some e' =>
      have hm : t.Mem e := by rw [FSet.mem_iff ht.valid, hl]; rfl
      have : e ∉ s.tree.list := fun h => hd e ((FSet.mem_iff_list hs.valid e).2 ⟨e, h, eq_refl e⟩) hm
      simp only [this, false_or]
      rw [← look ht.valid, hl]
  have he : u.isEmpty = false := by
    rw [Bool.eq_false_iff] at h1 ⊢
    intro hc
    rw [FSet.isEmpty_iff u2] at hc
    rw [hc] at hp
    have := hp.symm.eq_nil
    exact h1 ((FSet.isEmpty_iff hs.valid).2 (List.append_eq_nil_iff.1 this).1)
  obtain ⟨ls, s1, s2⟩ := (C18_reduce2 s hs op assoc comm).2 h1
  obtain ⟨lt, t1, t2⟩ := (C18_reduce2 t ht op assoc comm).2 h2
  obtain ⟨lu, v1, v2⟩ := (C18_reduce2 u hur op assoc comm).2 he
  rw [FSet.elements_spec hs.valid] at s1; cases s1
  rw [FSet.elements_spec ht.valid] at t1; cases t1
  rw [FSet.elements_spec u2] at v1; cases v1
  have hfold : ∀ (l : List T) (x b : T), l.foldl op (op x b) = op x (l.foldl op b) := by
    intro l
    induction l with
    | nil => intros; rfl
    | cons c l ih => intro x b; rw [List.foldl_cons, List.foldl_cons, assoc, ih]
  cases hls : s.tree.list with
  | nil => rw [(FSet.isEmpty_iff hs.valid).2 hls] at h1; cases h1
  | cons a as =>
    cases hlt : t.tree.list with
    | nil => rw [(FSet.isEmpty_iff ht.valid).2 hlt] at h2; cases h2
    | cons b bs =>
      refine ⟨_, _, s2 a as (by rw [hls]), t2 b bs (by rw [hlt]), ?_⟩
      rw [v2 a (as ++ b :: bs) (by rw [hls, hlt] at hp; exact hp), List.foldl_append, List.foldl_cons, hfold]

end

/-! ### Powerset -/

section
variable {T : Type} [GoKey T] [LawfulGoKey T] [GoHash]

/-- C70. The subsets of the intersection are the common subsets. -/
theorem C70_powerset_intersection (s t : FSet T) (hs : s.Reachable) (ht : t.Reachable) (h1 : s.count ≤ 63) (h2 : t.count ≤ 63) :
    ∃ i a b c d, s.intersection t = .ok i ∧ powerset s = .ok a ∧ powerset t = .ok b ∧ powerset i = .ok c ∧ a.intersection b = .ok d ∧
      c.equal d = .ok true := by
  obtain ⟨i, d, _, e1, e3, _, e2, _⟩ := C70_counts s t hs ht
  obtain ⟨i', i1, i2, i3, _⟩ := FSet.intersection_spec hs.valid ht.valid
  rw [e1] at i1; cases i1
  have hle : i.count ≤ s.count := by
    have : 0 ≤ d.count := by
      obtain ⟨d', d1, d2, _⟩ := FSet.difference_spec hs.valid ht.valid
      rw [e3] at d1; cases d1
      have : d.count = d.tree.list.length := d2.count_eq
      omega
    omega
  obtain ⟨a, a1, a2, a3, _⟩ := powerset_spec hs.valid h1
  obtain ⟨b, b1, b2, b3, _⟩ := powerset_spec ht.valid h2
  obtain ⟨c, c1, c2, c3, _⟩ := powerset_spec i2 (by omega)
  obtain ⟨x, x1, x2, x3, _⟩ := FSet.intersection_spec a2 b2
  refine ⟨i, a, b, c, x, e1, a1, b1, c1, x1, FSet.equal_of_mem c2 x2 (fun w => ?_)⟩
  rw [c3, x3, a3, b3, ← forall_and]
  exact forall_congr' (fun e => by rw [i3]; tauto)

end

/-! ### Sorting -/

section
variable {T : Type} [GoKey T] [LawfulGoKey T] [Inhabited T]

/-- A list of different elements can be sorted in one way only. -/
theorem sorted_eq {less : T → T → Bool} (hl : TotalOrderOn less) {l l' : List T} (hd : PairwiseDifferent l) (hp : l.Perm l')
    (h1 : Sorted less l) (h2 : Sorted less l') : l = l' := by
  refine List.Perm.eq_of_pairwise (le := fun a b => less b a = false) (fun a b ha hb hab hba => ?_) h1 h2 hp
  by_contra hne
  have he := hl.decides a b hba hab
  have hb := hp.symm.subset hb
  have e1 := Distinct.find?_of_eq (l := l) hd ha he
  rw [Distinct.find?_self (l := l) hd hb (eq_refl b)] at e1
  exact hne (Option.some.inj e1).symm

/-- C70. Filtering and sorting may be done in either order. The predicate need not respect `Equal`. -/
theorem C70_ordered_where (s : FSet T) (hs : s.Reachable) (p : T → Bool) (less : T → T → Bool) (hl : TotalOrderOn less) :
    ∃ a l, s.where p = .ok a ∧ s.orderedElements less = .ok l ∧ a.orderedElements less = .ok (l.filter p) := by
  obtain ⟨a, a1, a2, a3, _⟩ := FSet.where_spec hs.valid p
  have hp : a.tree.list.Perm (s.tree.list.filter p) := FSet.where_list hs.valid a2 a3
  have ha : a.Reachable := by
    obtain ⟨b, b1, b2⟩ := C01_where_any s hs p
    rw [a1] at b1; cases b1; exact b2
  obtain ⟨l, l1, l2, l3, _⟩ := C17_ordered s hs less hl.toStrictWeakOrder _ (FSet.elements_spec hs.valid)
  obtain ⟨k, k1, k2, k3, _⟩ := C17_ordered a ha less hl.toStrictWeakOrder _ (FSet.elements_spec a2)
  refine ⟨a, l, a1, l1, ?_⟩
  rw [k1, sorted_eq hl (Distinct.perm (FSet.lists a2).different k2.symm) (k2.trans (hp.trans (l2.filter p).symm)) k3 (List.Pairwise.filter p l3)]

/-- C70. `OrderedFirstN` is the beginning of `OrderedElements`, `First` its first value. -/
theorem C70_orderedFirstN (s : FSet T) (hs : s.Reachable) (less : T → T → Bool) (hl : TotalOrderOn less) (n : Int) (hn : 0 ≤ n) :
    ∃ l, s.orderedElements less = .ok l ∧ s.orderedFirstN n less = .ok (l.take n.toNat) ∧ ∀ x, l.head? = some x → s.first less = .ok x := by
  have key : ∀ n : Int, 0 ≤ n → ∃ l, s.orderedElements less = .ok l ∧ s.orderedFirstN n less = .ok (l.take n.toNat) := by
    intro n hn
    obtain ⟨l, l1, l2, l3, _⟩ := C17_ordered s hs less hl.toStrictWeakOrder _ (FSet.elements_spec hs.valid)
    obtain ⟨k, rest, k1, k2, k3, k4, k5⟩ := C17_orderedFirstN s hs less hl.toStrictWeakOrder _ (FSet.elements_spec hs.valid) n hn
    have hr : (rest.mergeSort (fun a b => !less b a)).Pairwise (fun a b => less b a = false) := by
      refine (List.pairwise_mergeSort (le := fun a b => !less b a) ?_ ?_ rest).imp (fun h => by simpa using h)
      · intro a b c hab hbc
        simp only [Bool.not_eq_true'] at hab hbc ⊢
        by_contra hca
        rw [Bool.not_eq_false] at hca
        cases hab' : less a b with
        | true => rw [hl.trans _ _ _ hca hab'] at hbc; cases hbc
        | false =>
          cases hbc' : less b c with
          | true => rw [hl.trans _ _ _ hbc' hca] at hab; cases hab
          | false => rw [(hl.incomp a b c hab' hab hbc' hbc).2] at hca; cases hca
      · intro a b
        cases hab : less a b with
        | false => simp
        | true =>
          cases hba : less b a with
          | false => simp
          | true => have := hl.trans _ _ _ hab hba; rw [hl.irrefl] at this; cases this
    have hperm : (k ++ rest.mergeSort (fun a b => !less b a)).Perm s.tree.list := ((List.mergeSort_perm rest _).append_left k).trans k2
    have he : l = k ++ rest.mergeSort (fun a b => !less b a) := by
      refine sorted_eq hl (Distinct.perm (FSet.lists hs.valid).different l2.symm) (l2.trans hperm.symm) l3
        (List.pairwise_append.2 ⟨k4, hr, fun a ha b hb => k5 a ha b ((List.mergeSort_perm rest _).subset hb)⟩)
    refine ⟨l, l1, ?_⟩
    rw [k1, he]
    have hc : s.count = s.tree.list.length := hs.valid.count_eq
    have hlen := k2.length_eq
    rw [List.length_append] at hlen
    congr 1
    by_cases h : n ≤ s.count
    · rw [List.take_append_of_le_length (by omega), List.take_of_length_le (by omega)]
    · have : rest = [] := List.length_eq_zero_iff.1 (by omega)
      subst this
      rw [List.mergeSort_nil, List.append_nil, List.take_of_length_le (by omega)]
  obtain ⟨l, h1, h2⟩ := key n hn
  obtain ⟨l', h3, h4⟩ := key 1 (by decide)
  rw [h1] at h3; cases h3
  refine ⟨l, h1, h2, fun x hx => ?_⟩
  unfold FSet.first
  simp only [h4, bind, Except.bind]
  cases l with
  | nil => cases hx
  | cons y l => cases hx; rfl

/-- C70. The first `m` of the first `n` are the first `min(m, n)`. -/
theorem C70_firstN_twice (s : FSet T) (hs : s.Reachable) (less : T → T → Bool) (hl : TotalOrderOn less) (n m : Int) (hn : 0 ≤ n)
    (hm : 0 ≤ m) : ∃ a b c, s.firstN n less = .ok a ∧ a.firstN m less = .ok b ∧ s.firstN (min m n) less = .ok c ∧ b.equal c = .ok true := by
  obtain ⟨l1, a, a1, a2, a3, a4, _⟩ := C17_firstN s hs less hl.toStrictWeakOrder n hn
  obtain ⟨l2, b, b1, b2, b3, b4, _⟩ := C17_firstN a a3 less hl.toStrictWeakOrder m hm
  obtain ⟨l3, c, c1, c2, c3, c4, _⟩ := C17_firstN s hs less hl.toStrictWeakOrder (min m n) (by omega)
  obtain ⟨l, e1, e2, _⟩ := C70_orderedFirstN s hs less hl n hn
  obtain ⟨l', e1', e3, _⟩ := C70_orderedFirstN s hs less hl (min m n) (by omega)
  obtain ⟨k, k1, k2, _⟩ := C70_orderedFirstN a a3 less hl m hm
  rw [e1] at e1'; cases e1'
  rw [a1] at e2; cases e2
  rw [c1] at e3; cases e3
  rw [b1] at k2; cases k2
  obtain ⟨l0, f1, f2, f3, _⟩ := C17_ordered s hs less hl.toStrictWeakOrder _ (FSet.elements_spec hs.valid)
  rw [e1] at f1; cases f1
  obtain ⟨k0, g1, g2, g3, _⟩ := C17_ordered a a3 less hl.toStrictWeakOrder _ (FSet.elements_spec a3.valid)
  rw [k1] at g1; cases g1
  have hf : List.Forall₂ (fun x y => GoKey.eq x y = true) k (l.take n.toNat) := by
    refine sorted_unique hl k _ g3 (List.Pairwise.sublist (List.take_sublist _ _) f3) (Distinct.perm (FSet.lists a3.valid).different g2.symm)
      a4.different (fun w => ?_)
    rw [← a4.covers, FSet.mem_iff_list a3.valid]
    simp only [g2.mem_iff]
  have hf2 : List.Forall₂ (fun x y => GoKey.eq x y = true) (k.take m.toNat) (l.take (min m n).toNat) := by
    have : l.take (min m n).toNat = (l.take n.toNat).take m.toNat := by
      rw [List.take_take]; congr 1; omega
    rw [this]
    exact List.forall₂_take _ hf
  refine ⟨a, b, c, a2, b2, c2, FSet.equal_of_mem b3.valid c3.valid (fun w => ?_)⟩
  rw [b4.covers, c4.covers]
  generalize k.take m.toNat = x at hf2
  generalize l.take (min m n).toNat = y at hf2
  clear hf
  induction hf2 with
  | nil => rfl
  | cons h _ ih =>
    simp only [List.mem_cons, exists_eq_or_imp]
    refine or_congr ⟨fun h' => PerGoKey.trans (PerGoKey.symm h) h', fun h' => PerGoKey.trans h h'⟩ ih

end

/-! ### The hypotheses can be met -/

/-- An order that tells numbers modulo 100 apart. -/
theorem mod100_order : TotalOrderOn (T := Mod100) (fun a b => decide (a.n % 100 < b.n % 100)) where
  irrefl a := by simp
  trans a b c h1 h2 := by simp only [decide_eq_true_eq] at *; omega
  incomp a b c h1 h2 h3 h4 := by simp only [decide_eq_false_iff_not] at *; omega
  decides a b h1 h2 := by simp only [decide_eq_false_iff_not] at h1 h2; simp only [GoKey.eq, decide_eq_true_eq]; omega
  respects a b h := by simp only [GoKey.eq, decide_eq_true_eq] at h; simp only [decide_eq_false_iff_not]; omega

/-- Two sets with nothing in common, an order, a predicate and a function that respect `Equal`, and a union that returns. -/
example : ∃ s t u : FSet Mod100, s.Reachable ∧ t.Reachable ∧ s.count = 4 ∧ s.union t = .ok u ∧ u.count = 7 ∧ (∀ w, s.Mem w → ¬ t.Mem w) ∧
    s.isEmpty = false ∧ t.isEmpty = false ∧
    (∀ a b : Mod100, GoKey.eq a b = true → (fun x : Mod100 => decide (x.n % 100 < 3)) a = (fun x : Mod100 => decide (x.n % 100 < 3)) b) ∧
    (∀ a b : Mod100, GoKey.eq a b = true → GoKey.eq ((fun x => (⟨x.n % 100 / 2⟩ : Coll)) a) ((fun x => (⟨x.n % 100 / 2⟩ : Coll)) b) = true) := by
  obtain ⟨s, h1, h2⟩ := of_okAnd (r := newSet [(⟨1⟩ : Mod100), ⟨2⟩, ⟨3⟩, ⟨44⟩]) (test := fun s =>
    okAnd (newSet [(⟨5⟩ : Mod100), ⟨6⟩, ⟨107⟩]) (fun t => okAnd (s.union t) (fun u => okAnd (s.intersection t) (fun i =>
      decide (s.count = 4 ∧ u.count = 7 ∧ i.isEmpty = true ∧ s.isEmpty = false ∧ t.isEmpty = false))))) (by decide +kernel)
  obtain ⟨t, h3, h4⟩ := of_okAnd h2
  obtain ⟨u, h5, h6⟩ := of_okAnd h4
  obtain ⟨i, h7, h8⟩ := of_okAnd h6
  obtain ⟨k1, k2, k3, k4, k5⟩ := of_decide_eq_true h8
  have hs : s.Reachable := ⟨.newSet _, h1⟩
  have ht : t.Reachable := ⟨.newSet _, h3⟩
  obtain ⟨i', i1, i2, i3, _⟩ := FSet.intersection_spec hs.valid ht.valid
  rw [h7] at i1; cases i1
  refine ⟨s, t, u, hs, ht, k1, h5, k2, fun w hw hw' => (FSet.isEmpty_iff_mem i2).1 k3 w ((i3 w).2 ⟨hw, hw'⟩), k4, k5, ?_, ?_⟩
  · intro a b h
    simp only [GoKey.eq, decide_eq_true_eq] at h
    simp [h]
  · intro a b h
    simp only [GoKey.eq, decide_eq_true_eq] at h
    simp [GoKey.eq, h]

/-- A predicate that tells `Equal` values apart, and the set it leaves. -/
example : okAnd (newSet [(⟨1⟩ : Mod100), ⟨102⟩, ⟨3⟩]) (fun s => okAnd (s.where (fun x => decide (x.n < 50))) (fun a =>
    decide (a.count = 2) && isOk (a.has ⟨2⟩) false && isOk (a.has ⟨101⟩) true)) = true := by decide +kernel

/-- C70. Mapping twice needs a second function that respects `Equal`. -/
theorem C70_setMap_needs_respect : ¬ ∀ (T U W : Type) [GoKey T] [LawfulGoKey T] [GoKey U] [LawfulGoKey U] [GoKey W] [LawfulGoKey W]
    (s : FSet T), s.Reachable → ∀ (f : T → U) (g : U → W), ∃ a b c, setMap s f = .ok a ∧ setMap a g = .ok b ∧
      setMap s (fun x => g (f x)) = .ok c ∧ b.equal c = .ok true := by
  intro h
  obtain ⟨s, h1, h2⟩ := of_okAnd (r := newSet [(⟨1⟩ : Coll), ⟨101⟩]) (test := fun s =>
    okAnd (setMap s (fun x => (⟨x.n⟩ : Mod100))) (fun a => okAnd (setMap a (fun x => (⟨x.n⟩ : Coll))) (fun b =>
      okAnd (setMap s (fun x => (⟨x.n⟩ : Coll))) (fun c => isOk (b.equal c) false)))) (by decide +kernel)
  obtain ⟨a, a1, h3⟩ := of_okAnd h2
  obtain ⟨b, b1, h4⟩ := of_okAnd h3
  obtain ⟨c, c1, h5⟩ := of_okAnd h4
  obtain ⟨a', b', c', e1, e2, e3, e4⟩ := h Coll Mod100 Coll s ⟨.newSet _, h1⟩ (fun x => ⟨x.n⟩) (fun x => ⟨x.n⟩)
  rw [a1] at e1; cases e1
  rw [b1] at e2; cases e2
  rw [c1] at e3; cases e3
  rw [e4] at h5
  cases h5

end Frozen
