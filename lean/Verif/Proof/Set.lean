import Verif.Proof.Tree
import Verif.Spec.SetProg

/-! Sets: every reachable set is valid, membership and listing. -/

set_option linter.unusedSectionVars false

namespace Frozen

variable {T : Type} [GoKey T] [LawfulGoKey T]

/-- The invariant on sets. -/
def FSet.Valid (s : FSet T) : Prop := s.tree.Valid

theorem FSet.has_spec {s : FSet T} (h : s.Valid) (v : T) : s.has v = .ok (s.tree.look v).isSome := by
  unfold FSet.has
  rw [Tree.get_spec h]; rfl

theorem FSet.mem_iff {s : FSet T} (h : s.Valid) (v : T) : s.Mem v ↔ (s.tree.look v).isSome = true := by
  unfold FSet.Mem
  rw [FSet.has_spec h]
  simp

theorem FSet.mem_iff_list {s : FSet T} (h : s.Valid) (v : T) : s.Mem v ↔ ∃ e ∈ s.tree.list, GoKey.eq e v = true := by
  rw [FSet.mem_iff h, Tree.look_eq_find]; simp [List.find?_isSome]

theorem FSet.mem_congr {s : FSet T} (h : s.Valid) {v w : T} (hvw : GoKey.eq v w = true) : s.Mem v ↔ s.Mem w := by
  rw [FSet.mem_iff h, FSet.mem_iff h, Tree.look_congr _ hvw]

theorem FSet.lists {s : FSet T} (h : s.Valid) : Lists s.tree.list s.Mem :=
  ⟨h.distinct, fun w => FSet.mem_iff_list h w⟩

theorem FSet.hasCard {s : FSet T} (h : s.Valid) : HasCard s.Mem s.count :=
  ⟨_, FSet.lists h, h.count_eq.symm⟩

theorem FSet.rangeList_spec {s : FSet T} (h : s.Valid) : s.rangeList = .ok s.tree.list := h.rangeList

/-- Cardinality is unique. -/
theorem Lists.length_eq {l l' : List T} {P : T → Prop} (h : Lists l P) (h' : Lists l' P) : l.length = l'.length := by
  have key : ∀ {a b : List T}, Lists a P → Lists b P → a.length ≤ b.length := by
    intro a b ha hb
    apply Distinct.length_le ha.different
    intro e he
    obtain ⟨x, hx, hxe⟩ := (hb.covers e).1 ((ha.covers e).2 ⟨e, he, eq_refl e⟩)
    exact ⟨x, hx, PerGoKey.symm hxe⟩
  exact Nat.le_antisymm (key h h') (key h' h)

theorem HasCard.unique {P : T → Prop} {m n : Int} (h : HasCard P m) (h' : HasCard P n) : m = n := by
  obtain ⟨l, h1, h2⟩ := h
  obtain ⟨l', h1', h2'⟩ := h'
  have := h1.length_eq h1'
  omega

theorem Lists.congr {l : List T} {P Q : T → Prop} (h : Lists l P) (hpq : ∀ w, P w ↔ Q w) : Lists l Q :=
  ⟨h.different, fun w => (hpq w).symm.trans (h.covers w)⟩

theorem HasCard.congr {P Q : T → Prop} {n : Int} (h : HasCard P n) (hpq : ∀ w, P w ↔ Q w) : HasCard Q n := by
  obtain ⟨l, h1, h2⟩ := h; exact ⟨l, h1.congr hpq, h2⟩

/-! ### Operations -/

theorem buildSet_spec (vs : List T) : ∃ s, buildSet vs = .ok s ∧ s.Valid ∧
    (∀ w, s.tree.look w = vs.reverse.find? (fun e => GoKey.eq e w)) ∧ (∀ w, s.Mem w ↔ ∃ v ∈ vs, GoKey.eq v w = true) := by
  obtain ⟨t', h1, h2, h3⟩ := Builder.addAll_spec vs (t := (Tree.zero : Tree T)) Tree.valid_zero
  have h3' : ∀ w, t'.look w = vs.reverse.find? (fun e => GoKey.eq e w) := by
    intro w
    rw [h3]
    cases vs.reverse.find? (fun e => GoKey.eq e w) <;> rfl
  refine ⟨⟨t'⟩, ?_, h2, h3', ?_⟩
  · have h1' : vs.foldlM (fun b v => SetBuilder.add b v) (Tree.zero : SetBuilder T) = .ok t' := h1
    simp only [buildSet, h1', bind, Except.bind, pure, Except.pure, SetBuilder.finish, Builder.finish]
  · intro w
    rw [FSet.mem_iff (s := ⟨t'⟩) h2, h3']
    simp [List.find?_isSome]

theorem FSet.with_spec {s : FSet T} (h : s.Valid) (v : T) : ∃ s', s.with v = .ok s' ∧ s'.Valid ∧
    (∀ w, s'.tree.look w = if GoKey.eq v w = true then some v else s.tree.look w) ∧
    (∀ w, s'.Mem w ↔ s.Mem w ∨ GoKey.eq v w = true) := by
  obtain ⟨t', h1, h2, h3, _⟩ := Tree.with_spec h v
  refine ⟨⟨t'⟩, by simp [FSet.with, h1, bind, Except.bind, pure, Except.pure], h2, h3, fun w => ?_⟩
  rw [FSet.mem_iff (s := ⟨t'⟩) h2, FSet.mem_iff h, h3]
  by_cases hv : GoKey.eq v w = true <;> simp [hv]

theorem FSet.without_spec {s : FSet T} (h : s.Valid) (v : T) : ∃ s', s.without v = .ok s' ∧ s'.Valid ∧
    (∀ w, s'.tree.look w = if GoKey.eq v w = true then none else s.tree.look w) ∧
    (∀ w, s'.Mem w ↔ s.Mem w ∧ ¬ GoKey.eq v w = true) := by
  obtain ⟨t', h1, h2, h3, _⟩ := Tree.without_spec h v
  refine ⟨⟨t'⟩, by simp [FSet.without, h1, bind, Except.bind, pure, Except.pure], h2, h3, fun w => ?_⟩
  rw [FSet.mem_iff (s := ⟨t'⟩) h2, FSet.mem_iff h, h3]
  by_cases hv : GoKey.eq v w = true <;> simp [hv]

theorem FSet.where_spec {s : FSet T} (h : s.Valid) (pred : T → Bool) : ∃ s', s.where pred = .ok s' ∧ s'.Valid ∧
    (∀ w, s'.tree.look w = (s.tree.look w).filter pred) ∧
    ((∀ a b, GoKey.eq a b = true → pred a = pred b) → ∀ w, s'.Mem w ↔ s.Mem w ∧ pred w = true) := by
  obtain ⟨t', h1, h2, h3, _⟩ := Tree.where_spec h pred
  refine ⟨⟨t'⟩, by simp [FSet.where, h1, bind, Except.bind, pure, Except.pure], h2, h3, fun hp w => ?_⟩
  rw [FSet.mem_iff (s := ⟨t'⟩) h2, FSet.mem_iff h, h3]
  cases hl : s.tree.look w with
  | none => simp
  | some e =>
    have he : GoKey.eq e w = true := look_eq hl
    rw [Option.filter_some, hp e w he]
    cases pred w <;> simp

theorem FSet.difference_spec {s t : FSet T} (h : s.Valid) (ht : t.Valid) : ∃ s', s.difference t = .ok s' ∧ s'.Valid ∧
    (∀ w, s'.tree.look w = if (t.tree.look w).isSome then none else s.tree.look w) ∧
    (∀ w, s'.Mem w ↔ s.Mem w ∧ ¬ t.Mem w) := by
  obtain ⟨t', h1, h2, h3⟩ := Tree.difference_spec h ht
  refine ⟨⟨t'⟩, by simp [FSet.difference, h1, bind, Except.bind, pure, Except.pure], h2, h3, fun w => ?_⟩
  rw [FSet.mem_iff (s := ⟨t'⟩) h2, FSet.mem_iff h, FSet.mem_iff ht, h3]
  by_cases hv : (t.tree.look w).isSome = true <;> simp [hv]

theorem FSet.intersection_spec {s t : FSet T} (h : s.Valid) (ht : t.Valid) : ∃ s', s.intersection t = .ok s' ∧ s'.Valid ∧
    (∀ w, s'.Mem w ↔ s.Mem w ∧ t.Mem w) ∧ (∀ e ∈ s'.tree.list, e ∈ s.tree.list ∨ e ∈ t.tree.list) := by
  obtain ⟨t', h1, h2, h3, h4⟩ := Tree.intersection_spec h ht
  refine ⟨⟨t'⟩, by simp [FSet.intersection, h1, bind, Except.bind, pure, Except.pure], h2, fun w => ?_, h4⟩
  rw [FSet.mem_iff (s := ⟨t'⟩) h2, FSet.mem_iff h, FSet.mem_iff ht, h3, Bool.and_eq_true]

theorem TripleClash.congr {P P' Q Q' : T → Prop} (h1 : ∀ w, P w ↔ P' w) (h2 : ∀ w, Q w ↔ Q' w) :
    TripleClash P Q ↔ TripleClash P' Q' := by
  have e1 : P = P' := by funext w; exact propext (h1 w)
  have e2 : Q = Q' := by funext w; exact propext (h2 w)
  rw [e1, e2]

theorem FSet.clash_iff {s t : FSet T} (h : s.Valid) (ht : t.Valid) :
    Clash s.tree.root t.tree.root ↔ TripleClash s.Mem t.Mem := by
  rw [Tree.clash_iff h ht]
  exact TripleClash.congr (fun w => (FSet.mem_iff h w).symm) (fun w => (FSet.mem_iff ht w).symm)

theorem FSet.union_spec {s t : FSet T} (h : s.Valid) (ht : t.Valid) :
    (TripleClash s.Mem t.Mem → s.union t = .error .wtf) ∧
    (¬ TripleClash s.Mem t.Mem → ∃ s', s.union t = .ok s' ∧ s'.Valid ∧
      (∀ w, s'.tree.look w = match t.tree.look w with | some e => some e | none => s.tree.look w) ∧
      (∀ w, s'.Mem w ↔ s.Mem w ∨ t.Mem w)) := by
  obtain ⟨h1, h2⟩ := Tree.combine_spec h ht (args := ⟨GoKey.eq, useRHS⟩) rfl ClassPres.rhs
  rw [FSet.clash_iff h ht] at h1 h2
  constructor
  · intro hc
    simp [FSet.union, h1 hc, bind, Except.bind]
  · intro hc
    obtain ⟨t', g1, g2, g3⟩ := h2 hc
    refine ⟨⟨t'⟩, by simp [FSet.union, g1, bind, Except.bind, pure, Except.pure], g2, fun w => ?_, fun w => ?_⟩
    · simp only [g3]
      cases s.tree.look w <;> cases t.tree.look w <;> rfl
    · rw [FSet.mem_iff (s := ⟨t'⟩) g2, FSet.mem_iff h, FSet.mem_iff ht, g3]
      cases s.tree.look w <;> cases t.tree.look w <;> simp [combOpt]

theorem FSet.union_ok {s t u : FSet T} (h : s.Valid) (ht : t.Valid) (hu : s.union t = .ok u) :
    u.Valid ∧ (∀ w, u.Mem w ↔ s.Mem w ∨ t.Mem w) := by
  obtain ⟨h1, h2⟩ := FSet.union_spec h ht
  by_cases hc : TripleClash s.Mem t.Mem
  · rw [h1 hc] at hu; cases hu
  · obtain ⟨s', g1, g2, _, g3⟩ := h2 hc
    rw [g1] at hu
    cases hu
    exact ⟨g2, g3⟩

theorem FSet.symmetricDifference_spec {s t : FSet T} (h : s.Valid) (ht : t.Valid) :
    (TripleClash (fun w => s.Mem w ∧ ¬ t.Mem w) (fun w => t.Mem w ∧ ¬ s.Mem w) → s.symmetricDifference t = .error .wtf) ∧
    (¬ TripleClash (fun w => s.Mem w ∧ ¬ t.Mem w) (fun w => t.Mem w ∧ ¬ s.Mem w) →
      ∃ s', s.symmetricDifference t = .ok s' ∧ s'.Valid ∧
        (∀ w, s'.Mem w ↔ (s.Mem w ∧ ¬ t.Mem w) ∨ (t.Mem w ∧ ¬ s.Mem w))) := by
  obtain ⟨a, a1, a2, _, a3⟩ := FSet.difference_spec h ht
  obtain ⟨b, b1, b2, _, b3⟩ := FSet.difference_spec ht h
  obtain ⟨h1, h2⟩ := FSet.union_spec a2 b2
  rw [TripleClash.congr a3 b3] at h1 h2
  have e : s.symmetricDifference t = a.union b := by
    simp [FSet.symmetricDifference, a1, b1, bind, Except.bind]
  rw [e]
  refine ⟨h1, fun hc => ?_⟩
  obtain ⟨s', g1, g2, _, g3⟩ := h2 hc
  exact ⟨s', g1, g2, fun w => by rw [g3, a3, b3]⟩

theorem FSet.symmetricDifference_ok {s t u : FSet T} (h : s.Valid) (ht : t.Valid) (hu : s.symmetricDifference t = .ok u) :
    u.Valid ∧ (∀ w, u.Mem w ↔ (s.Mem w ∧ ¬ t.Mem w) ∨ (t.Mem w ∧ ¬ s.Mem w)) := by
  obtain ⟨h1, h2⟩ := FSet.symmetricDifference_spec h ht
  by_cases hc : TripleClash (fun w => s.Mem w ∧ ¬ t.Mem w) (fun w => t.Mem w ∧ ¬ s.Mem w)
  · rw [h1 hc] at hu; cases hu
  · obtain ⟨s', g1, g2, g3⟩ := h2 hc
    rw [g1] at hu
    cases hu
    exact ⟨g2, g3⟩

theorem buildSet_length {vs : List T} (hd : Distinct vs) {s : FSet T} (h : s.Valid)
    (hm : ∀ w, s.Mem w ↔ ∃ v ∈ vs, GoKey.eq v w = true) : s.count = vs.length := by
  have := (FSet.lists h).length_eq (l' := vs) ⟨hd, hm⟩
  rw [FSet.count, Tree.Valid.count_eq h, this]

theorem FSet.anyN_spec {s : FSet T} (h : s.Valid) (n : Int) : ∃ s', s.anyN n = .ok s' ∧ s'.Valid ∧
    (∀ w, s'.Mem w → s.Mem w) ∧ s'.count = max 0 (min n s.count) := by
  unfold FSet.anyN
  by_cases hn : n > s.count
  · rw [if_pos hn]
    have hc : s.count = s.tree.list.length := Tree.Valid.count_eq h
    exact ⟨s, rfl, h, fun _ hw => hw, by omega⟩
  · rw [if_neg hn, FSet.rangeList_spec h]
    obtain ⟨s', h1, h2, h3, h4⟩ := buildSet_spec (s.tree.list.take n.toNat)
    have hd : Distinct (s.tree.list.take n.toNat) := (Tree.Valid.distinct h).sublist (List.take_sublist _ _)
    refine ⟨s', h1, h2, ?_, ?_⟩
    · intro w hw
      obtain ⟨v, hv, hvw⟩ := (h4 w).1 hw
      exact (FSet.mem_iff_list h w).2 ⟨v, List.mem_of_mem_take hv, hvw⟩
    · rw [buildSet_length hd h2 h4, List.length_take]
      have hc : s.count = s.tree.list.length := Tree.Valid.count_eq h
      omega

/-! ### Programs -/

theorem BuildOp.run_spec {b : SetBuilder T} (h : Tree.Valid b) (op : BuildOp T) : ∃ b', op.run b = .ok b' ∧ Tree.Valid b' ∧
    ∀ w, ((Tree.look b' w).isSome = true) ↔ op.effect (fun w => (Tree.look b w).isSome = true) w := by
  cases op with
  | add v =>
    obtain ⟨t', h1, h2, h3, _⟩ := Builder.add_spec h v
    refine ⟨t', h1, h2, fun w => ?_⟩
    rw [h3]
    by_cases hv : GoKey.eq v w = true <;> simp [BuildOp.effect, hv]
  | remove v =>
    obtain ⟨t', h1, h2, h3, _⟩ := Builder.remove_spec h v
    refine ⟨t', h1, h2, fun w => ?_⟩
    rw [h3]
    by_cases hv : GoKey.eq v w = true <;> simp [BuildOp.effect, hv]

theorem BuildOp.runAll_spec : ∀ (ops : List (BuildOp T)) {b : SetBuilder T}, Tree.Valid b →
    ∃ b', ops.foldlM (fun b op => op.run b) b = .ok b' ∧ Tree.Valid b' ∧
      ∀ w, ((Tree.look b' w).isSome = true) ↔ ops.foldl BuildOp.effect (fun w => (Tree.look b w).isSome = true) w
  | [], b, h => ⟨b, rfl, h, fun _ => Iff.rfl⟩
  | op :: ops, b, h => by
    obtain ⟨b1, h1, h2, h3⟩ := BuildOp.run_spec h op
    obtain ⟨b', g1, g2, g3⟩ := BuildOp.runAll_spec ops h2
    refine ⟨b', by rw [List.foldlM_cons, h1]; exact g1, g2, fun w => ?_⟩
    rw [g3, List.foldl_cons]
    have : (fun w => (Tree.look b1 w).isSome = true) = op.effect (fun w => (Tree.look b w).isSome = true) := by
      funext w; exact propext (h3 w)
    rw [this]

theorem SetProg.run_spec : ∀ (p : SetProg T) {s : FSet T}, p.run = .ok s → s.Valid ∧ p.Describes s.Mem
  | .newSet vs, s, h => by
    obtain ⟨s', h1, h2, h3, h4⟩ := buildSet_spec vs
    have : (SetProg.newSet vs).run = .ok s' := h1
    rw [this] at h; cases h
    exact ⟨h2, h4⟩
  | .build ops, s, h => by
    obtain ⟨b', h1, h2, h3⟩ := BuildOp.runAll_spec ops (b := (Tree.zero : Tree T)) Tree.valid_zero
    simp only [SetProg.run, h1, bind, Except.bind, pure, Except.pure, SetBuilder.finish, Builder.finish] at h
    cases h
    refine ⟨h2, fun w => ?_⟩
    rw [FSet.mem_iff (s := ⟨b'⟩) h2, h3]
    simp [Tree.look_zero]
  | .with p v, s, h => by
    cases hp : p.run with
    | error e => simp [SetProg.run, hp, bind, Except.bind] at h
    | ok a =>
      obtain ⟨ha, hd⟩ := SetProg.run_spec p hp
      obtain ⟨s', h1, h2, _, h3⟩ := FSet.with_spec ha v
      simp only [SetProg.run, hp, bind, Except.bind, h1] at h; cases h
      exact ⟨h2, _, hd, h3⟩
  | .without p v, s, h => by
    cases hp : p.run with
    | error e => simp [SetProg.run, hp, bind, Except.bind] at h
    | ok a =>
      obtain ⟨ha, hd⟩ := SetProg.run_spec p hp
      obtain ⟨s', h1, h2, _, h3⟩ := FSet.without_spec ha v
      simp only [SetProg.run, hp, bind, Except.bind, h1] at h; cases h
      exact ⟨h2, _, hd, h3⟩
  | .where p pred hpred, s, h => by
    cases hp : p.run with
    | error e => simp [SetProg.run, hp, bind, Except.bind] at h
    | ok a =>
      obtain ⟨ha, hd⟩ := SetProg.run_spec p hp
      obtain ⟨s', h1, h2, _, h3⟩ := FSet.where_spec ha pred
      simp only [SetProg.run, hp, bind, Except.bind, h1] at h; cases h
      exact ⟨h2, _, hd, h3 hpred⟩
  | .union p q, s, h => by
    cases hp : p.run with
    | error e => simp [SetProg.run, hp, bind, Except.bind] at h
    | ok a =>
      cases hq : q.run with
      | error e => simp [SetProg.run, hp, hq, bind, Except.bind] at h
      | ok b =>
        obtain ⟨ha, hd⟩ := SetProg.run_spec p hp
        obtain ⟨hb, hd2⟩ := SetProg.run_spec q hq
        simp only [SetProg.run, hp, hq, bind, Except.bind] at h
        obtain ⟨g1, g2⟩ := FSet.union_ok ha hb h
        exact ⟨g1, _, _, hd, hd2, g2⟩
  | .intersection p q, s, h => by
    cases hp : p.run with
    | error e => simp [SetProg.run, hp, bind, Except.bind] at h
    | ok a =>
      cases hq : q.run with
      | error e => simp [SetProg.run, hp, hq, bind, Except.bind] at h
      | ok b =>
        obtain ⟨ha, hd⟩ := SetProg.run_spec p hp
        obtain ⟨hb, hd2⟩ := SetProg.run_spec q hq
        obtain ⟨s', h1, h2, h3, _⟩ := FSet.intersection_spec ha hb
        simp only [SetProg.run, hp, hq, bind, Except.bind, h1] at h; cases h
        exact ⟨h2, _, _, hd, hd2, h3⟩
  | .difference p q, s, h => by
    cases hp : p.run with
    | error e => simp [SetProg.run, hp, bind, Except.bind] at h
    | ok a =>
      cases hq : q.run with
      | error e => simp [SetProg.run, hp, hq, bind, Except.bind] at h
      | ok b =>
        obtain ⟨ha, hd⟩ := SetProg.run_spec p hp
        obtain ⟨hb, hd2⟩ := SetProg.run_spec q hq
        obtain ⟨s', h1, h2, _, h3⟩ := FSet.difference_spec ha hb
        simp only [SetProg.run, hp, hq, bind, Except.bind, h1] at h; cases h
        exact ⟨h2, _, _, hd, hd2, h3⟩
  | .symmetricDifference p q, s, h => by
    cases hp : p.run with
    | error e => simp [SetProg.run, hp, bind, Except.bind] at h
    | ok a =>
      cases hq : q.run with
      | error e => simp [SetProg.run, hp, hq, bind, Except.bind] at h
      | ok b =>
        obtain ⟨ha, hd⟩ := SetProg.run_spec p hp
        obtain ⟨hb, hd2⟩ := SetProg.run_spec q hq
        simp only [SetProg.run, hp, hq, bind, Except.bind] at h
        obtain ⟨g1, g2⟩ := FSet.symmetricDifference_ok ha hb h
        exact ⟨g1, _, _, hd, hd2, g2⟩
  | .anyN p n, s, h => by
    cases hp : p.run with
    | error e => simp [SetProg.run, hp, bind, Except.bind] at h
    | ok a =>
      obtain ⟨ha, hd⟩ := SetProg.run_spec p hp
      obtain ⟨s', h1, h2, h3, h4⟩ := FSet.anyN_spec ha n
      simp only [SetProg.run, hp, bind, Except.bind, h1] at h; cases h
      refine ⟨h2, _, a.count, hd, FSet.hasCard ha, h3, ?_⟩
      rw [← h4]; exact FSet.hasCard h2

theorem FSet.Reachable.valid {s : FSet T} (h : s.Reachable) : s.Valid := by
  obtain ⟨p, hp⟩ := h
  exact (SetProg.run_spec p hp).1

theorem reachable_newSet {vs : List T} {s : FSet T} (h : buildSet vs = .ok s) : s.Reachable := ⟨.newSet vs, h⟩

theorem FSet.equal_spec {s t : FSet T} (h : s.Valid) (ht : t.Valid) :
    ∃ b, s.equal t = .ok b ∧ (b = true ↔ ∀ w, s.Mem w ↔ t.Mem w) := by
  obtain ⟨b, h1, h2⟩ := Tree.equal_ext h ht
  refine ⟨b, h1, h2.trans ?_⟩
  apply forall_congr'
  intro w
  rw [FSet.mem_iff h, FSet.mem_iff ht, Bool.eq_iff_iff]

theorem FSet.isSubsetOf_spec {s t : FSet T} (h : s.Valid) (ht : t.Valid) :
    ∃ b, s.isSubsetOf t = .ok b ∧ (b = true ↔ ∀ w, s.Mem w → t.Mem w) := by
  obtain ⟨b, h1, h2⟩ := Tree.subsetOf_spec h ht
  refine ⟨b, h1, h2.trans ?_⟩
  apply forall_congr'
  intro w
  rw [FSet.mem_iff h, FSet.mem_iff ht]

end Frozen
