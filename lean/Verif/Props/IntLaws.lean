import Verif.Props.IntActual

/-! # C73: laws of integer sets

A computation on integer sets may be rewritten by the laws of sets without changing the result. `Agree` says what "the same result"
is. The laws are true for all programs of unsigned integers (`C73_unsigned`) and, for signed types, for programs that only put
`Storable` integers into sets. With other integers they fail (`C73_refuted`), but `Has` still obeys them (`C73_has`). -/

set_option linter.unusedSectionVars false

namespace Frozen

variable {w : Nat} [GoKey (BitVec w)] [PrimKey (BitVec w)]

/-- Both programs return, and what they return is the same in everything that can be observed but the order of the elements: `Equal` in
both directions, the same `Count`, the same `Hash` for every seed, the same answers of `Has`, and the same `Elements` in some order. -/
def IntProg.Agree (sg : Bool) (p q : IntProg w) : Prop :=
  ∃ s t, p.run sg = .ok s ∧ q.run sg = .ok t ∧ s.equal t = .ok true ∧ t.equal s = .ok true ∧ s.count = t.count ∧
    (∀ seed, ∃ h, s.hash seed = .ok h ∧ t.hash seed = .ok h) ∧ (∀ n, ∃ b, s.has sg n = .ok b ∧ t.has sg n = .ok b) ∧
    ∃ l l', s.elements = .ok l ∧ t.elements = .ok l' ∧ l.Perm l'

theorem IntProg.agree_of (hw : 8 ≤ w) (hw2 : w ≤ 64) {sg : Bool} {p q : IntProg w} (hp : p.AllStorable sg) (hq : q.AllStorable sg)
    (h : ∀ n, p.denote n ↔ q.denote n) : p.Agree sg q := by
  obtain ⟨s, t, h1, h2, ⟨b, h3, h4⟩, _, h6⟩ := C21_compare_partial hw hw2 sg p q hp hq
  obtain ⟨t', s', g1, g2, ⟨b', g3, g4⟩, _, _⟩ := C21_compare_partial hw hw2 sg q p hq hp
  rw [h2] at g1; cases g1
  rw [h1] at g2; cases g2
  obtain ⟨s', f1, f2⟩ := C21_intset_partial hw hw2 sg p hp
  rw [h1] at f1; cases f1
  obtain ⟨t', e1, e2⟩ := C21_intset_partial hw hw2 sg q hq
  rw [h2] at e1; cases e1
  cases h4.2 h
  cases g4.2 (fun n => (h n).symm)
  obtain ⟨l, a1, a2, a3, a4, _⟩ := f2.list
  obtain ⟨l', c1, c2, c3, c4, _⟩ := e2.list
  have hperm : l.Perm l' := (List.perm_ext_iff_of_nodup a1 c1).2 (fun n => by rw [a2, c2, h])
  refine ⟨s, t, h1, h2, h3, g3, by rw [a3, c3, hperm.length_eq], h6 h, fun n => ?_, l, l', a4, c4, hperm⟩
  obtain ⟨b, d1, d2⟩ := f2.has n
  obtain ⟨b', d3, d4⟩ := e2.has n
  refine ⟨b, d1, ?_⟩
  have : b = b' := Bool.eq_iff_iff.2 (d2.trans ((h n).trans d4.symm))
  rw [d3, this]

/-- For unsigned integer types, two programs that denote the same set agree, whatever they do. So every law of sets holds; the theorems
below list the common ones, for signed types also. -/
theorem C73_unsigned (hw : 8 ≤ w) (hw2 : w ≤ 64) (p q : IntProg w) (h : ∀ n, p.denote n ↔ q.denote n) : p.Agree false q := by
  have hp : ∀ p : IntProg w, p.AllStorable false := by
    intro p
    induction p with
    | new => exact fun _ _ => .inl rfl
    | «with» p i ih => exact ⟨ih, .inl rfl⟩
    | without p i ih => exact ih
    | «where» p pred ih => exact ih
    | map p o ho f ih => exact ⟨ih, fun _ _ => .inl rfl⟩
    | union p q ih1 ih2 => exact ⟨ih1, ih2⟩
    | intersection p q ih1 ih2 => exact ⟨ih1, ih2⟩
  exact IntProg.agree_of hw hw2 (hp p) (hp q) h

variable {sg : Bool} {p q r : IntProg w}

/-- `Union` is commutative, associative and idempotent, and the empty set is neutral. -/
theorem C73_union_partial (hw : 8 ≤ w) (hw2 : w ≤ 64) (hp : p.AllStorable sg) (hq : q.AllStorable sg) (hr : r.AllStorable sg)
    (o : List (BitVec w × CellMask) → List (BitVec w × CellMask)) (ho : ∀ l, (o l).Perm l) :
    (p.union q).Agree sg (q.union p) ∧ ((p.union q).union r).Agree sg (p.union (q.union r)) ∧ (p.union p).Agree sg p ∧
      (p.union (.new o ho [])).Agree sg p := by
  refine ⟨IntProg.agree_of hw hw2 ⟨hp, hq⟩ ⟨hq, hp⟩ fun n => or_comm, IntProg.agree_of hw hw2 ⟨⟨hp, hq⟩, hr⟩ ⟨hp, hq, hr⟩ fun n => or_assoc,
    IntProg.agree_of hw hw2 ⟨hp, hp⟩ hp fun n => or_self_iff, IntProg.agree_of hw hw2 ⟨hp, ?_⟩ hp fun n => ?_⟩
  · intro i hi; cases hi
  · simp [IntProg.denote]

/-- `Intersection` is commutative, associative and idempotent. -/
theorem C73_intersection_partial (hw : 8 ≤ w) (hw2 : w ≤ 64) (hp : p.AllStorable sg) (hq : q.AllStorable sg) (hr : r.AllStorable sg) :
    (p.intersection q).Agree sg (q.intersection p) ∧
      ((p.intersection q).intersection r).Agree sg (p.intersection (q.intersection r)) ∧ (p.intersection p).Agree sg p :=
  ⟨IntProg.agree_of hw hw2 ⟨hp, hq⟩ ⟨hq, hp⟩ fun _ => and_comm, IntProg.agree_of hw hw2 ⟨⟨hp, hq⟩, hr⟩ ⟨hp, hq, hr⟩ fun _ => and_assoc,
    IntProg.agree_of hw hw2 ⟨hp, hp⟩ hp fun _ => and_self_iff⟩

/-- `Union` and `Intersection` distribute over each other and absorb each other. -/
theorem C73_distributive_partial (hw : 8 ≤ w) (hw2 : w ≤ 64) (hp : p.AllStorable sg) (hq : q.AllStorable sg) (hr : r.AllStorable sg) :
    (p.intersection (q.union r)).Agree sg ((p.intersection q).union (p.intersection r)) ∧
      (p.union (q.intersection r)).Agree sg ((p.union q).intersection (p.union r)) ∧
      (p.union (p.intersection q)).Agree sg p ∧ (p.intersection (p.union q)).Agree sg p :=
  ⟨IntProg.agree_of hw hw2 ⟨hp, hq, hr⟩ ⟨⟨hp, hq⟩, hp, hr⟩ fun _ => and_or_left,
    IntProg.agree_of hw hw2 ⟨hp, hq, hr⟩ ⟨⟨hp, hq⟩, hp, hr⟩ fun _ => or_and_left,
    IntProg.agree_of hw hw2 ⟨hp, hp, hq⟩ hp fun _ => or_iff_left_of_imp And.left,
    IntProg.agree_of hw hw2 ⟨hp, hp, hq⟩ hp fun _ => and_iff_left_of_imp Or.inl⟩

/-- `With` and `Without` of integers commute unless they are about the same integer; of two about the same integer the last counts; and
where there is nothing to change they change nothing. -/
theorem C73_with_partial (hw : 8 ≤ w) (hw2 : w ≤ 64) (hp : p.AllStorable sg) (i j : BitVec w) (hi : Storable sg i) (hj : Storable sg j) :
    ((p.with i).with j).Agree sg ((p.with j).with i) ∧ ((p.without i).without j).Agree sg ((p.without j).without i) ∧
      (i ≠ j → ((p.with i).without j).Agree sg ((p.without j).with i)) ∧
      ((p.with i).without i).Agree sg (p.without i) ∧ ((p.without i).with i).Agree sg (p.with i) ∧
      (p.denote i → (p.with i).Agree sg p) ∧ (¬ p.denote i → (p.without i).Agree sg p) := by
  refine ⟨IntProg.agree_of hw hw2 ⟨⟨hp, hi⟩, hj⟩ ⟨⟨hp, hj⟩, hi⟩ fun _ => or_left_comm,
    IntProg.agree_of hw hw2 (p := (p.without i).without j) (q := (p.without j).without i) hp hp fun _ => and_right_comm,
    fun hij => IntProg.agree_of hw hw2 (p := (p.with i).without j) ⟨hp, hi⟩ ⟨hp, hi⟩ fun n => ?_,
    IntProg.agree_of hw hw2 (p := (p.with i).without i) (q := p.without i) ⟨hp, hi⟩ hp fun n => ?_,
    IntProg.agree_of hw hw2 ⟨hp, hi⟩ ⟨hp, hi⟩ fun n => ?_, fun hm => IntProg.agree_of hw hw2 ⟨hp, hi⟩ hp fun n => ?_,
    fun hm => IntProg.agree_of hw hw2 (p := p.without i) hp hp fun n => ?_⟩
  · show (n = i ∨ p.denote n) ∧ n ≠ j ↔ n = i ∨ p.denote n ∧ n ≠ j
    constructor
    · rintro ⟨h | h, h'⟩
      · exact .inl h
      · exact .inr ⟨h, h'⟩
    · rintro (h | h)
      · exact ⟨.inl h, by rw [h]; exact hij⟩
      · exact ⟨.inr h.1, h.2⟩
  · show (n = i ∨ p.denote n) ∧ n ≠ i ↔ p.denote n ∧ n ≠ i
    exact ⟨fun h => ⟨h.1.resolve_left h.2, h.2⟩, fun h => ⟨.inr h.1, h.2⟩⟩
  · show (n = i ∨ p.denote n ∧ n ≠ i) ↔ n = i ∨ p.denote n
    by_cases hn : n = i <;> simp [hn]
  · show (n = i ∨ p.denote n) ↔ p.denote n
    exact or_iff_right_of_imp (fun h => h ▸ hm)
  · show p.denote n ∧ n ≠ i ↔ p.denote n
    exact and_iff_left_of_imp (fun h hn => hm (hn ▸ h))

/-- `Where` twice is `Where` with both predicates; a predicate and its negation split a set; `Where` may be applied before or after
`Union` and `Intersection`. -/
theorem C73_where_partial (hw : 8 ≤ w) (hw2 : w ≤ 64) (hp : p.AllStorable sg) (hq : q.AllStorable sg) (f g : BitVec w → Bool) :
    ((p.where f).where g).Agree sg (p.where (fun n => f n && g n)) ∧
      ((p.where f).union (p.where (fun n => !f n))).Agree sg p ∧
      ((p.union q).where f).Agree sg ((p.where f).union (q.where f)) ∧
      ((p.intersection q).where f).Agree sg ((p.where f).intersection q) := by
  refine ⟨IntProg.agree_of hw hw2 (p := (p.where f).where g) (q := p.where (fun n => f n && g n)) hp hp fun n => ?_,
    IntProg.agree_of hw hw2 ⟨hp, hp⟩ hp fun n => ?_,
    IntProg.agree_of hw hw2 (p := (p.union q).where f) ⟨hp, hq⟩ ⟨hp, hq⟩ fun _ => or_and_right,
    IntProg.agree_of hw hw2 (p := (p.intersection q).where f) ⟨hp, hq⟩ ⟨hp, hq⟩ fun _ => and_right_comm⟩
  · simp [IntProg.denote, and_assoc]
  · simp only [IntProg.denote]
    cases f n <;> simp

/-- `Map` twice is `Map` of the composed function, in whatever order Go maps are iterated, and `Map` may be applied before or after `Union`. -/
theorem C73_map_partial (hw : 8 ≤ w) (hw2 : w ≤ 64) (hp : p.AllStorable sg) (hq : q.AllStorable sg) (f g : BitVec w → BitVec w)
    (hf : ∀ n, (p.denote n ∨ q.denote n) → Storable sg (f n) ∧ Storable sg (g (f n)))
    (o o' : List (BitVec w × CellMask) → List (BitVec w × CellMask)) (ho : ∀ l, (o l).Perm l) (ho' : ∀ l, (o' l).Perm l) :
    ((p.map o ho f).map o ho g).Agree sg (p.map o' ho' (fun n => g (f n))) ∧
      ((p.union q).map o ho f).Agree sg ((p.map o' ho' f).union (q.map o' ho' f)) := by
  refine ⟨IntProg.agree_of hw hw2 ⟨⟨hp, fun j hj => (hf j (.inl hj)).1⟩, ?_⟩ ⟨hp, fun j hj => (hf j (.inl hj)).2⟩ fun n => ?_,
    IntProg.agree_of hw hw2 ⟨⟨hp, hq⟩, fun j hj => (hf j hj).1⟩
      ⟨⟨hp, fun j hj => (hf j (.inl hj)).1⟩, hq, fun j hj => (hf j (.inr hj)).1⟩ fun n => ?_⟩
  · rintro j ⟨k, hk, rfl⟩
    exact (hf k (.inl hk)).2
  · simp only [IntProg.denote]
    constructor
    · rintro ⟨_, ⟨k, hk, rfl⟩, h⟩
      exact ⟨k, hk, h⟩
    · rintro ⟨k, hk, h⟩
      exact ⟨_, ⟨k, hk, rfl⟩, h⟩
  · simp only [IntProg.denote, or_and_right, exists_or]

/-- `Count` obeys inclusion and exclusion, and a predicate and its negation split it. -/
theorem C73_count_partial (hw : 8 ≤ w) (hw2 : w ≤ 64) (hp : p.AllStorable sg) (hq : q.AllStorable sg) (f : BitVec w → Bool) :
    ∃ s t, p.run sg = .ok s ∧ q.run sg = .ok t ∧
      (∃ u i, s.union t = .ok u ∧ s.intersection t = .ok i ∧ u.count + i.count = s.count + t.count) ∧
      ∃ y n, s.where f = .ok y ∧ s.where (fun x => !f x) = .ok n ∧ y.count + n.count = s.count := by
  obtain ⟨s, h1, h2⟩ := C21_intset_partial hw hw2 sg p hp
  obtain ⟨t, k1, k2⟩ := C21_intset_partial hw hw2 sg q hq
  obtain ⟨u, u1, u2⟩ := C21_intset_partial hw hw2 sg (p.union q) ⟨hp, hq⟩
  obtain ⟨i, i1, i2⟩ := C21_intset_partial hw hw2 sg (p.intersection q) ⟨hp, hq⟩
  obtain ⟨y, y1, y2⟩ := C21_intset_partial hw hw2 sg (p.where f) hp
  obtain ⟨n, n1, n2⟩ := C21_intset_partial hw hw2 sg (p.where (fun x => !f x)) hp
  simp only [IntProg.run, h1, k1, bind, Except.bind] at u1 i1 y1 n1
  obtain ⟨ls, s1, s2, s3, _⟩ := h2.list
  obtain ⟨lt, t1, t2, t3, _⟩ := k2.list
  obtain ⟨lu, a1, a2, a3, _⟩ := u2.list
  obtain ⟨li, b1, b2, b3, _⟩ := i2.list
  obtain ⟨ly, c1, c2, c3, _⟩ := y2.list
  obtain ⟨ln, d1, d2, d3, _⟩ := n2.list
  have hdec : ∀ l : List (BitVec w), l.Nodup → l.length = l.toFinset.card := fun l hl => (List.toFinset_card_of_nodup hl).symm
  refine ⟨s, t, h1, k1, ⟨u, i, u1, i1, ?_⟩, y, n, y1, n1, ?_⟩
  · have hu : lu.toFinset = ls.toFinset ∪ lt.toFinset := by
      ext x; simp only [List.mem_toFinset, Finset.mem_union, a2, s2, t2, IntProg.denote]
    have hi : li.toFinset = ls.toFinset ∩ lt.toFinset := by
      ext x; simp only [List.mem_toFinset, Finset.mem_inter, b2, s2, t2, IntProg.denote]
    have := Finset.card_union_add_card_inter ls.toFinset lt.toFinset
    rw [← hu, ← hi, ← hdec _ a1, ← hdec _ b1, ← hdec _ s1, ← hdec _ t1] at this
    rw [a3, b3, s3, t3]
    exact_mod_cast this
  · have hperm : (ly ++ ln).Perm ls := by
      refine (List.perm_ext_iff_of_nodup (List.nodup_append'.2 ⟨c1, d1, ?_⟩) s1).2 fun x => ?_
      · intro x hx hx'
        have h5 := ((c2 x).1 hx).2
        have h6 := ((d2 x).1 hx').2
        simp [h5] at h6
      · simp only [List.mem_append, c2, d2, s2, IntProg.denote]
        cases f x <;> simp
    have := hperm.length_eq
    rw [List.length_append] at this
    rw [c3, d3, s3]
    exact_mod_cast this

/-- `IsSubsetOf` is a partial order up to `Equal`, and it can be decided by `Union` or `Intersection`. -/
theorem C73_subset_partial (hw : 8 ≤ w) (hw2 : w ≤ 64) (hp : p.AllStorable sg) (hq : q.AllStorable sg) (hr : r.AllStorable sg) :
    ∃ s t u, p.run sg = .ok s ∧ q.run sg = .ok t ∧ r.run sg = .ok u ∧ s.isSubsetOf s = .ok true ∧
      (s.isSubsetOf t = .ok true → t.isSubsetOf u = .ok true → s.isSubsetOf u = .ok true) ∧
      (s.equal t = .ok true ↔ s.isSubsetOf t = .ok true ∧ t.isSubsetOf s = .ok true) ∧
      (s.isSubsetOf t = .ok true ↔ (p.union q).Agree sg q) ∧ (s.isSubsetOf t = .ok true ↔ (p.intersection q).Agree sg p) := by
  have key : ∀ {p q : IntProg w} (hp : p.AllStorable sg) (hq : q.AllStorable sg) {s t : IntSet w}, p.run sg = .ok s → q.run sg = .ok t →
      (s.isSubsetOf t = .ok true ↔ ∀ n, p.denote n → q.denote n) ∧ (s.equal t = .ok true ↔ ∀ n, p.denote n ↔ q.denote n) := by
    intro p q hp hq s t h1 h2
    obtain ⟨s', t', g1, g2, ⟨b, g3, g4⟩, ⟨b', g5, g6⟩, _⟩ := C21_compare_partial hw hw2 sg p q hp hq
    rw [h1] at g1; cases g1
    rw [h2] at g2; cases g2
    rw [g3, g5]
    refine ⟨Iff.trans ⟨fun h => by cases h; rfl, fun h => by rw [h]⟩ g6, Iff.trans ⟨fun h => by cases h; rfl, fun h => by rw [h]⟩ g4⟩
  have agree : ∀ {p q : IntProg w} (hp : p.AllStorable sg) (hq : q.AllStorable sg), p.Agree sg q ↔ ∀ n, p.denote n ↔ q.denote n :=
    fun hp hq => ⟨fun ⟨s, t, h1, h2, h3, _⟩ => (key hp hq h1 h2).2.1 h3, IntProg.agree_of hw hw2 hp hq⟩
  obtain ⟨s, h1, _⟩ := C21_intset_partial hw hw2 sg p hp
  obtain ⟨t, h2, _⟩ := C21_intset_partial hw hw2 sg q hq
  obtain ⟨u, h3, _⟩ := C21_intset_partial hw hw2 sg r hr
  refine ⟨s, t, u, h1, h2, h3, (key hp hp h1 h1).1.2 fun _ h => h, fun ha hb => ?_, ?_, ?_, ?_⟩
  · exact (key hp hr h1 h3).1.2 fun n hn => (key hq hr h2 h3).1.1 hb n ((key hp hq h1 h2).1.1 ha n hn)
  · rw [(key hp hq h1 h2).2, (key hp hq h1 h2).1, (key hq hp h2 h1).1]
    exact ⟨fun h => ⟨fun n => (h n).1, fun n => (h n).2⟩, fun h n => ⟨h.1 n, h.2 n⟩⟩
  · rw [(key hp hq h1 h2).1, agree (p := p.union q) ⟨hp, hq⟩ hq]
    exact forall_congr' fun n => or_iff_right_iff_imp.symm
  · rw [(key hp hq h1 h2).1, agree (p := p.intersection q) ⟨hp, hq⟩ hp]
    exact forall_congr' fun n => and_iff_left_iff_imp.symm

/-- `Has` obeys the laws for all integers: two programs without `Map` that denote the same set give the same answers, `Storable` or not. -/
theorem C73_has (hw : 8 ≤ w) (hw2 : w ≤ 64) (sg : Bool) (p q : IntProg w) (hp : p.MapFree) (hq : q.MapFree)
    (h : ∀ n, p.denote n ↔ q.denote n) :
    ∃ s t, p.run sg = .ok s ∧ q.run sg = .ok t ∧ ∀ n, ∃ b, s.has sg n = .ok b ∧ t.has sg n = .ok b := by
  obtain ⟨s, h1, h2, _⟩ := C72_others_kept hw hw2 sg p hp
  obtain ⟨t, k1, k2, _⟩ := C72_others_kept hw hw2 sg q hq
  refine ⟨s, t, h1, k1, fun n => ?_⟩
  obtain ⟨b, d1, d2⟩ := h2 n
  obtain ⟨b', d3, d4⟩ := k2 n
  have : b = b' := Bool.eq_iff_iff.2 (d2.trans ((and_congr_left' (h n)).trans d4.symm))
  exact ⟨b, d1, by rw [d3, this]⟩

/-- The laws fail for every integer that a set cannot hold: whatever set it is added to, adding it again makes a difference, and so does
the order of the operands of `Union`. (`Count` tells them apart.) -/
theorem C73_refuted (hw : 8 ≤ w) (hw2 : w ≤ 64) (sg : Bool) (p : IntProg w) (i : BitVec w) (hi : ¬ Storable sg i) :
    ¬ ((p.with i).with i).Agree sg (p.with i) ∧ ¬ ((p.with i).union p).Agree sg (p.union (p.with i)) := by
  have key : ∀ {p q : IntProg w}, (∀ n, (p.actual sg).has n ↔ (q.actual sg).has n) → (p.actual sg).extra ≠ (q.actual sg).extra →
      ¬ p.Agree sg q := by
    rintro p q he hx ⟨s, t, h1, h2, _, _, h3, _⟩
    obtain ⟨s', g1, g2⟩ := C21_actual hw hw2 sg p
    rw [h1] at g1; cases g1
    obtain ⟨t', f1, f2⟩ := C21_actual hw hw2 sg q
    rw [h2] at f1; cases f1
    obtain ⟨l, _, _, a1, a2, _, _, a5, _⟩ := g2.list
    obtain ⟨l', _, _, b1, b2, _, _, b5, _⟩ := f2.list
    have := ((List.perm_ext_iff_of_nodup a1 b1).2 (fun n => by rw [a2, b2, he])).length_eq
    omega
  constructor
  · refine key (fun n => ?_) ?_
    · simp [IntProg.actual, IntState.with, hi]
    · simp [IntProg.actual, IntState.with, hi]
  · refine key (fun n => ?_) ?_
    · simp [IntProg.actual, IntState.with, IntState.union, hi]
    · simp [IntProg.actual, IntState.with, IntState.union, hi]

section
attribute [local instance] exampleIntKey

/-- `-1` is such an integer, and the counts are 2 and 1. -/
example : ¬ Storable true (-1#64) ∧
    okAnd ((((IntProg.new (w := 64) id (fun l => List.Perm.refl l) []).with (-1#64)).with (-1#64)).run true) (fun s =>
      decide (s.count = 2)) = true ∧
    okAnd (((IntProg.new (w := 64) id (fun l => List.Perm.refl l) []).with (-1#64)).run true) (fun s => decide (s.count = 1)) = true := by
  decide +kernel

/-- Programs that meet the hypotheses, of signed integers: `{1, 70, -64}`, `{70, 5}` and what `Map` makes of the first. -/
example : (IntProg.new (w := 64) id (fun l => List.Perm.refl l) [1#64, 70#64, -64#64]).AllStorable true ∧
    (IntProg.new (w := 64) id (fun l => List.Perm.refl l) [70#64, 5#64]).AllStorable true ∧
    ((IntProg.new (w := 64) id (fun l => List.Perm.refl l) [1#64, 70#64, -64#64]).map id (fun l => List.Perm.refl l)
      (fun _ => 3#64)).AllStorable true := by
  have h1 : (IntProg.new (w := 64) id (fun l => List.Perm.refl l) [1#64, 70#64, -64#64]).AllStorable true := by
    intro i hi
    rcases List.mem_cons.1 hi with rfl | hi
    · exact .inr (.inl (by decide))
    rcases List.mem_cons.1 hi with rfl | hi
    · exact .inr (.inl (by decide))
    cases List.mem_singleton.1 hi
    exact .inr (.inr ⟨-1, by decide⟩)
  refine ⟨h1, ?_, h1, fun j _ => ?_⟩
  · intro i hi
    rcases List.mem_cons.1 hi with rfl | hi
    · exact .inr (.inl (by decide))
    cases List.mem_singleton.1 hi
    exact .inr (.inl (by decide))
  · exact .inr (.inl (show (0 : Int) ≤ (3#64).toInt by decide))

/-- And they do something: the union and the intersection of the first two. -/
example : okAnd (((IntProg.new (w := 64) id (fun l => List.Perm.refl l) [1#64, 70#64, -64#64]).union
      (.new id (fun l => List.Perm.refl l) [70#64, 5#64])).run true) (fun s => decide (s.count = 4)) = true ∧
    okAnd (((IntProg.new (w := 64) id (fun l => List.Perm.refl l) [1#64, 70#64, -64#64]).intersection
      (.new id (fun l => List.Perm.refl l) [70#64, 5#64])).run true) (fun s => decide (s.count = 1)) = true := by
  decide +kernel
end

end Frozen
