import Verif.Proof.SetElems
import Verif.Props.Witness

/-!
# C01–C06: sets behave like mathematical sets

`SetProg`, `SetProg.run`, `SetProg.Describes`, `FSet.Mem`, `FSet.Reachable` are in `Spec/SetProg.lean`; `HasCard`, `TripleClash` in
`Spec/Set.lean`. All theorems hold for every element type with a lawful `Equal`/`Hash`, whatever its collisions.
-/

set_option linter.unusedSectionVars false

namespace Frozen

variable {T : Type} [GoKey T] [LawfulGoKey T]

/-! ### C01 -/

/-- C01. Every program that returns a set returns one of the sets it describes; `Has` never panics and decides membership. -/
theorem C01_set_histories (p : SetProg T) (s : FSet T) (h : p.run = .ok s) :
    p.Describes s.Mem ∧ (∀ v, ∃ b, s.has v = .ok b) ∧ (∀ v w, GoKey.eq v w = true → (s.Mem v ↔ s.Mem w)) := by
  obtain ⟨hv, hd⟩ := SetProg.run_spec p h
  exact ⟨hd, fun v => ⟨_, FSet.has_spec hv v⟩, fun v w hvw => FSet.mem_congr hv hvw⟩

/-- Programs that do not use `AnyN`. -/
def SetProg.NoAnyN : SetProg T → Prop
  | .newSet _ | .build _ => True
  | .with p _ | .without p _ | .where p _ _ => p.NoAnyN
  | .union p q | .intersection p q | .difference p q | .symmetricDifference p q => p.NoAnyN ∧ q.NoAnyN
  | .anyN _ _ => False

/-- The specification is tight: a program without `AnyN` describes exactly one set. -/
theorem C01_description_unique : ∀ (p : SetProg T), p.NoAnyN → ∀ P Q, p.Describes P → p.Describes Q → ∀ w, P w ↔ Q w
  | .newSet vs, _, P, Q, hp, hq, w => (hp w).trans (hq w).symm
  | .build ops, _, P, Q, hp, hq, w => (hp w).trans (hq w).symm
  | .with p v, h, P, Q, ⟨P', hp, hp2⟩, ⟨Q', hq, hq2⟩, w => by
    rw [hp2, hq2, C01_description_unique p h P' Q' hp hq]
  | .without p v, h, P, Q, ⟨P', hp, hp2⟩, ⟨Q', hq, hq2⟩, w => by
    rw [hp2, hq2, C01_description_unique p h P' Q' hp hq]
  | .where p f _, h, P, Q, ⟨P', hp, hp2⟩, ⟨Q', hq, hq2⟩, w => by
    rw [hp2, hq2, C01_description_unique p h P' Q' hp hq]
  | .union p q, h, P, Q, ⟨P', R', hp, hr, hp2⟩, ⟨Q', S', hq, hs, hq2⟩, w => by
    rw [hp2, hq2, C01_description_unique p h.1 P' Q' hp hq, C01_description_unique q h.2 R' S' hr hs]
  | .intersection p q, h, P, Q, ⟨P', R', hp, hr, hp2⟩, ⟨Q', S', hq, hs, hq2⟩, w => by
    rw [hp2, hq2, C01_description_unique p h.1 P' Q' hp hq, C01_description_unique q h.2 R' S' hr hs]
  | .difference p q, h, P, Q, ⟨P', R', hp, hr, hp2⟩, ⟨Q', S', hq, hs, hq2⟩, w => by
    rw [hp2, hq2, C01_description_unique p h.1 P' Q' hp hq, C01_description_unique q h.2 R' S' hr hs]
  | .symmetricDifference p q, h, P, Q, ⟨P', R', hp, hr, hp2⟩, ⟨Q', S', hq, hs, hq2⟩, w => by
    rw [hp2, hq2, C01_description_unique p h.1 P' Q' hp hq, C01_description_unique q h.2 R' S' hr hs]

/-- C01, with the stored representatives: `With` replaces an `Equal` element, `Without` removes it, `Where` keeps exactly the stored
elements satisfying the predicate (any predicate). -/
theorem C01_with_elements {s : FSet T} (h : s.Reachable) (v : T) : ∃ s' l l', s.with v = .ok s' ∧ s'.Reachable ∧
    s.elements = .ok l ∧ s'.elements = .ok l' ∧ l'.Perm (v :: l.filter (fun e => !GoKey.eq v e)) := by
  obtain ⟨s', h1, h2, h3, _⟩ := FSet.with_spec h.valid v
  obtain ⟨p, hp⟩ := h
  exact ⟨s', _, _, h1, ⟨.with p v, by simp only [SetProg.run, hp, bind, Except.bind]; exact h1⟩, FSet.elements_spec
    (SetProg.run_spec p hp).1, FSet.elements_spec h2, FSet.with_list (SetProg.run_spec p hp).1 h2 h3⟩

theorem C01_without_elements {s : FSet T} (h : s.Reachable) (v : T) : ∃ s' l l', s.without v = .ok s' ∧ s'.Reachable ∧
    s.elements = .ok l ∧ s'.elements = .ok l' ∧ l'.Perm (l.filter (fun e => !GoKey.eq v e)) := by
  obtain ⟨s', h1, h2, h3, _⟩ := FSet.without_spec h.valid v
  obtain ⟨p, hp⟩ := h
  exact ⟨s', _, _, h1, ⟨.without p v, by simp only [SetProg.run, hp, bind, Except.bind]; exact h1⟩, FSet.elements_spec
    (SetProg.run_spec p hp).1, FSet.elements_spec h2, FSet.without_list (SetProg.run_spec p hp).1 h2 h3⟩

theorem C01_where_elements {s : FSet T} (h : s.Reachable) (pred : T → Bool) : ∃ s' l l', s.where pred = .ok s' ∧
    s.elements = .ok l ∧ s'.elements = .ok l' ∧ l'.Perm (l.filter pred) := by
  obtain ⟨s', h1, h2, h3, _⟩ := FSet.where_spec h.valid pred
  exact ⟨s', _, _, h1, FSet.elements_spec h.valid, FSet.elements_spec h2, FSet.where_list h.valid h2 h3⟩

/-- `NewSet(vs...)` keeps, of several `Equal` values, the last one given. -/
theorem C01_newSet_elements (vs : List T) : ∃ s l, newSet vs = .ok s ∧ s.elements = .ok l ∧
    (∀ e, e ∈ l ↔ vs.reverse.find? (fun x => GoKey.eq x e) = some e) := by
  obtain ⟨s, h1, h2, h3, _⟩ := buildSet_spec vs
  exact ⟨s, _, h1, FSet.elements_spec h2, fun e => by rw [← h3]; exact FSet.mem_list h2 e⟩

/-- A program that uses every kind of step, on colliding elements. -/
def exampleProg : SetProg Coll :=
  .anyN (.symmetricDifference (.union (.with (.newSet [⟨1⟩, ⟨2⟩]) ⟨3⟩) (.newSet [⟨9⟩]))
    (.difference (.intersection (.build [.add ⟨1⟩, .add ⟨5⟩, .remove ⟨1⟩]) (.newSet [⟨5⟩, ⟨1⟩]))
      (.where (.without (.newSet [⟨5⟩, ⟨6⟩]) ⟨5⟩) (fun c => decide (c.n = 6)) (by
        intro a b h; simp only [GoKey.eq, decide_eq_true_eq] at h; rw [h])))) 2

example : ∃ s : FSet Coll, exampleProg.run = .ok s ∧ s.count = 2 := by
  obtain ⟨s, h1, h2⟩ := of_okAnd (r := exampleProg.run) (test := fun s => decide (s.count = 2)) (by decide +kernel)
  exact ⟨s, h1, of_decide_eq_true h2⟩

/-! ### C02 -/

/-- C02. `Count` is the number of different elements; `IsEmpty` says whether there are none. -/
theorem C02_count (s : FSet T) (h : s.Reachable) :
    HasCard s.Mem s.count ∧ (s.isEmpty = true ↔ ∀ w, ¬ s.Mem w) := by
  have hv := h.valid
  refine ⟨FSet.hasCard hv, ?_⟩
  have hc : s.count = s.tree.list.length := Tree.Valid.count_eq hv
  have : s.isEmpty = true ↔ s.tree.list = [] := by
    unfold FSet.isEmpty
    rw [beq_iff_eq]
    have : s.tree.count = s.count := rfl
    rw [this, hc]
    simp
  rw [this]
  constructor
  · intro he w hw
    rw [FSet.mem_iff_list hv, he] at hw
    simp at hw
  · intro hw
    cases hl : s.tree.list with
    | nil => rfl
    | cons e l => exact absurd ((FSet.mem_iff_list hv e).2 ⟨e, by simp [hl], eq_refl e⟩) (hw e)

/-- The cardinality of a set is unique, so `HasCard` determines `Count`. -/
theorem C02_card_unique (P : T → Prop) (m n : Int) (hm : HasCard P m) (hn : HasCard P n) : m = n := hm.unique hn

example : ∃ s : FSet Mod100, s.Reachable ∧ s.count = 3 := by
  obtain ⟨s, h1, h2⟩ := of_okAnd (r := newSet [(⟨1⟩ : Mod100), ⟨2⟩, ⟨101⟩, ⟨3⟩]) (test := fun s => decide (s.count = 3))
    (by decide +kernel)
  exact ⟨s, ⟨.newSet _, h1⟩, of_decide_eq_true h2⟩

/-! ### C03 -/

/-- C03, the provable part: unless the operands have the collision pattern `TripleClash`, `Union` returns, with exactly the elements
of either operand, keeping `t`'s representative of an element in both. Missing: totality, which is false (`C03_union_total_refuted`);
`C03_union_panics` says exactly when. -/
theorem C03_union_partial (s t : FSet T) (hs : s.Reachable) (ht : t.Reachable) (hc : ¬ TripleClash s.Mem t.Mem) :
    ∃ u, s.union t = .ok u ∧ u.Reachable ∧ (∀ w, u.Mem w ↔ s.Mem w ∨ t.Mem w) ∧
      ∃ ls lt lu, s.elements = .ok ls ∧ t.elements = .ok lt ∧ u.elements = .ok lu ∧
        lu.Perm (lt ++ ls.filter (fun e => !lt.any (fun x => GoKey.eq x e))) := by
  obtain ⟨u, h1, h2, h3, h4⟩ := (FSet.union_spec hs.valid ht.valid).2 hc
  have hv := hs.valid
  have hv' := ht.valid
  obtain ⟨p, hp⟩ := hs
  obtain ⟨q, hq⟩ := ht
  exact ⟨u, h1, ⟨.union p q, by simp only [SetProg.run, hp, hq, bind, Except.bind]; exact h1⟩, h4, _, _, _, FSet.elements_spec hv,
    FSet.elements_spec hv', FSet.elements_spec h2, FSet.union_list hv hv' h2 h3⟩

/-- Exactly when the operands have the collision pattern, `Union` panics. -/
theorem C03_union_panics (s t : FSet T) (hs : s.Reachable) (ht : t.Reachable) :
    s.union t = .error .wtf ↔ TripleClash s.Mem t.Mem := by
  obtain ⟨h1, h2⟩ := FSet.union_spec hs.valid ht.valid
  refine ⟨fun he => ?_, h1⟩
  by_contra hc
  obtain ⟨u, h3, _⟩ := h2 hc
  rw [h3] at he; cases he

/-- C03 is false: for a legal hash there are sets whose `Union` panics. -/
theorem C03_union_total_refuted :
    ¬ ∀ (T : Type) [GoKey T] [LawfulGoKey T] (s t : FSet T), s.Reachable → t.Reachable → ∃ u, s.union t = .ok u := by
  intro hall
  obtain ⟨s, h1, h2, _, h4⟩ := buildSet_spec [(⟨1⟩ : Coll), ⟨2⟩, ⟨3⟩]
  have hr : s.Reachable := ⟨.newSet _, h1⟩
  obtain ⟨u, hu⟩ := hall Coll s s hr hr
  have hm : ∀ x ∈ [(⟨1⟩ : Coll), ⟨2⟩, ⟨3⟩], s.Mem x := fun x hx => (h4 x).2 ⟨x, hx, eq_refl x⟩
  have h3 : AtLeast 3 (fun e => s.Mem e ∧ hash0 e >>> 1 = hash0 (⟨1⟩ : Coll) >>> 1) :=
    ⟨[⟨1⟩, ⟨2⟩, ⟨3⟩], rfl, by simp [PairwiseDifferent, GoKey.eq], fun x hx => ⟨hm x hx, rfl⟩⟩
  have h3' : AtLeast 3 (fun e => s.Mem e ∧ hash0 e = hash0 (⟨1⟩ : Coll)) :=
    ⟨[⟨1⟩, ⟨2⟩, ⟨3⟩], rfl, by simp [PairwiseDifferent, GoKey.eq], fun x hx => ⟨hm x hx, rfl⟩⟩
  have hc : TripleClash s.Mem s.Mem := ⟨⟨1⟩, ⟨1⟩, hm _ (by simp), hm _ (by simp), rfl, h3, h3, .inl h3'⟩
  rw [(C03_union_panics s s hr hr).2 hc] at hu
  cases hu

/-- Sets without the pattern: all-colliding elements, one operand small. -/
example : ∃ s t : FSet Coll, s.Reachable ∧ t.Reachable ∧ s.count = 3 ∧ t.count = 2 ∧ ¬ TripleClash s.Mem t.Mem := by
  obtain ⟨s, h1, h2⟩ := of_okAnd (r := newSet [(⟨1⟩ : Coll), ⟨2⟩, ⟨3⟩]) (test := fun s =>
    okAnd (newSet [(⟨1⟩ : Coll), ⟨4⟩]) (fun t => okAnd (s.union t) (fun _ => decide (s.count = 3 ∧ t.count = 2)))) (by decide +kernel)
  obtain ⟨t, h3, h4⟩ := of_okAnd h2
  obtain ⟨u, h5, h6⟩ := of_okAnd h4
  have h6 := of_decide_eq_true h6
  refine ⟨s, t, ⟨.newSet _, h1⟩, ⟨.newSet _, h3⟩, h6.1, h6.2, ?_⟩
  rw [← C03_union_panics s t ⟨.newSet _, h1⟩ ⟨.newSet _, h3⟩, h5]
  exact fun h => nomatch h

/-! ### C04 -/

/-- C04. `Intersection` and `Difference` always return, with exactly the right elements; `Difference` keeps `s`'s representatives and
every element of `Intersection` is stored in `s` or in `t`. -/
theorem C04_intersection (s t : FSet T) (hs : s.Reachable) (ht : t.Reachable) :
    ∃ u, s.intersection t = .ok u ∧ u.Reachable ∧ (∀ w, u.Mem w ↔ s.Mem w ∧ t.Mem w) ∧
      ∃ ls lt lu, s.elements = .ok ls ∧ t.elements = .ok lt ∧ u.elements = .ok lu ∧ ∀ e ∈ lu, e ∈ ls ∨ e ∈ lt := by
  obtain ⟨u, h1, h2, h3, h4⟩ := FSet.intersection_spec hs.valid ht.valid
  have hv := hs.valid
  have hv' := ht.valid
  obtain ⟨p, hp⟩ := hs
  obtain ⟨q, hq⟩ := ht
  exact ⟨u, h1, ⟨.intersection p q, by simp only [SetProg.run, hp, hq, bind, Except.bind]; exact h1⟩, h3, _, _, _,
    FSet.elements_spec hv, FSet.elements_spec hv', FSet.elements_spec h2, h4⟩

theorem C04_difference (s t : FSet T) (hs : s.Reachable) (ht : t.Reachable) :
    ∃ u, s.difference t = .ok u ∧ u.Reachable ∧ (∀ w, u.Mem w ↔ s.Mem w ∧ ¬ t.Mem w) ∧
      ∃ ls lt lu, s.elements = .ok ls ∧ t.elements = .ok lt ∧ u.elements = .ok lu ∧
        lu.Perm (ls.filter (fun e => !lt.any (fun x => GoKey.eq x e))) := by
  obtain ⟨u, h1, h2, h3, h4⟩ := FSet.difference_spec hs.valid ht.valid
  have hv := hs.valid
  have hv' := ht.valid
  obtain ⟨p, hp⟩ := hs
  obtain ⟨q, hq⟩ := ht
  exact ⟨u, h1, ⟨.difference p q, by simp only [SetProg.run, hp, hq, bind, Except.bind]; exact h1⟩, h4, _, _, _,
    FSet.elements_spec hv, FSet.elements_spec hv', FSet.elements_spec h2, FSet.difference_list hv h2 h3⟩

/-- C04. Whenever `SymmetricDifference` returns it has exactly the elements in one operand but not both; it panics exactly when the
two differences have the collision pattern. -/
theorem C04_symmetricDifference (s t : FSet T) (hs : s.Reachable) (ht : t.Reachable) :
    (∀ u, s.symmetricDifference t = .ok u → u.Reachable ∧ ∀ w, u.Mem w ↔ (s.Mem w ∧ ¬ t.Mem w) ∨ (t.Mem w ∧ ¬ s.Mem w)) ∧
    (¬ TripleClash (fun w => s.Mem w ∧ ¬ t.Mem w) (fun w => t.Mem w ∧ ¬ s.Mem w) → ∃ u, s.symmetricDifference t = .ok u) ∧
    (TripleClash (fun w => s.Mem w ∧ ¬ t.Mem w) (fun w => t.Mem w ∧ ¬ s.Mem w) → s.symmetricDifference t = .error .wtf) := by
  have hv := hs.valid
  have hv' := ht.valid
  obtain ⟨h1, h2⟩ := FSet.symmetricDifference_spec hv hv'
  obtain ⟨p, hp⟩ := hs
  obtain ⟨q, hq⟩ := ht
  refine ⟨fun u hu => ⟨⟨.symmetricDifference p q, ?_⟩, (FSet.symmetricDifference_ok hv hv' hu).2⟩, fun hc => ?_, h1⟩
  · simp only [SetProg.run, hp, hq, bind, Except.bind]; exact hu
  · obtain ⟨u, hu, _⟩ := h2 hc; exact ⟨u, hu⟩

example : ∃ s t u : FSet Coll, s.Reachable ∧ t.Reachable ∧ s.symmetricDifference t = .ok u ∧ u.count = 3 := by
  obtain ⟨s, h1, h2⟩ := of_okAnd (r := newSet [(⟨1⟩ : Coll), ⟨2⟩, ⟨3⟩, ⟨4⟩]) (test := fun s =>
    okAnd (newSet [(⟨3⟩ : Coll), ⟨4⟩, ⟨5⟩]) (fun t => okAnd (s.symmetricDifference t) (fun u => decide (u.count = 3))))
    (by decide +kernel)
  obtain ⟨t, h3, h4⟩ := of_okAnd h2
  obtain ⟨u, h5, h6⟩ := of_okAnd h4
  exact ⟨s, t, u, ⟨.newSet _, h1⟩, ⟨.newSet _, h3⟩, h5, of_decide_eq_true h6⟩

/-! ### C05 -/

/-- C05. `Equal` never panics and is extensional equality, whatever programs built the two sets. -/
theorem C05_equal (p q : SetProg T) (s t : FSet T) (hs : p.run = .ok s) (ht : q.run = .ok t) :
    ∃ b, s.equal t = .ok b ∧ (b = true ↔ ∀ w, s.Mem w ↔ t.Mem w) :=
  FSet.equal_spec (SetProg.run_spec p hs).1 (SetProg.run_spec q ht).1

/-- Different histories, removals included, same set. -/
example : ∃ s t : FSet Coll, (SetProg.newSet [⟨2⟩, ⟨1⟩]).run = .ok s ∧
    (SetProg.build [.add ⟨1⟩, .add ⟨5⟩, .add ⟨2⟩, .remove ⟨5⟩]).run = .ok t ∧ s.equal t = .ok true := by
  obtain ⟨s, h1, h2⟩ := of_okAnd (r := (SetProg.newSet [(⟨2⟩ : Coll), ⟨1⟩]).run) (test := fun s =>
    okAnd (SetProg.build [.add (⟨1⟩ : Coll), .add ⟨5⟩, .add ⟨2⟩, .remove ⟨5⟩]).run (fun t => isOk (s.equal t) true)) (by decide +kernel)
  obtain ⟨t, h3, h4⟩ := of_okAnd h2
  exact ⟨s, t, h1, h3, of_isOk h4⟩

/-! ### C06 -/

/-- C06. `IsSubsetOf` never panics and is inclusion. -/
theorem C06_isSubsetOf (s t : FSet T) (hs : s.Reachable) (ht : t.Reachable) :
    ∃ b, s.isSubsetOf t = .ok b ∧ (b = true ↔ ∀ w, s.Mem w → t.Mem w) := FSet.isSubsetOf_spec hs.valid ht.valid

/-- C06. It is reflexive and transitive, and mutual inclusion coincides with `Equal`. -/
theorem C06_order (s t u : FSet T) (hs : s.Reachable) (ht : t.Reachable) (hu : u.Reachable) :
    s.isSubsetOf s = .ok true ∧
    (s.isSubsetOf t = .ok true → t.isSubsetOf u = .ok true → s.isSubsetOf u = .ok true) ∧
    (s.isSubsetOf t = .ok true ∧ t.isSubsetOf s = .ok true ↔ s.equal t = .ok true) := by
  have key : ∀ {a b : FSet T}, a.Reachable → b.Reachable → (a.isSubsetOf b = .ok true ↔ ∀ w, a.Mem w → b.Mem w) := by
    intro a b ha hb
    obtain ⟨x, h1, h2⟩ := C06_isSubsetOf a b ha hb
    rw [h1, ← h2]
    simp
  obtain ⟨b, h1, h2⟩ := FSet.equal_spec hs.valid ht.valid
  refine ⟨(key hs hs).2 (fun _ h => h), ?_, ?_⟩
  · rw [key hs ht, key ht hu, key hs hu]
    exact fun h g w hw => g w (h w hw)
  · rw [key hs ht, key ht hs, h1]
    have : (Except.ok b : Go Bool) = .ok true ↔ b = true := by simp
    rw [this, h2]
    exact ⟨fun h w => ⟨h.1 w, h.2 w⟩, fun h => ⟨fun w => (h w).1, fun w => (h w).2⟩⟩

example : ∃ s t : FSet Coll, s.Reachable ∧ t.Reachable ∧ s.isSubsetOf t = .ok true ∧ t.isSubsetOf s = .ok false := by
  obtain ⟨s, h1, h2⟩ := of_okAnd (r := newSet [(⟨1⟩ : Coll), ⟨2⟩, ⟨3⟩]) (test := fun s =>
    okAnd (newSet [(⟨3⟩ : Coll), ⟨4⟩, ⟨1⟩, ⟨2⟩]) (fun t => isOk (s.isSubsetOf t) true && isOk (t.isSubsetOf s) false))
    (by decide +kernel)
  obtain ⟨t, h3, h4⟩ := of_okAnd h2
  rw [Bool.and_eq_true] at h4
  exact ⟨s, t, ⟨.newSet _, h1⟩, ⟨.newSet _, h3⟩, of_isOk h4.1, of_isOk h4.2⟩

end Frozen
