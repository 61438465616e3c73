import Verif.Proof.Set
import Verif.Spec.SetTrace
import Verif.Model.Cost
import Verif.Proof.Clash

/-! Sets: hashing, iteration histories, builder histories, reduction, lookup cost. -/

set_option linter.unusedSectionVars false

namespace Frozen

variable {T : Type} [GoKey T] [LawfulGoKey T]

/-! ### Two listings of the same set -/

theorem Distinct.match : ∀ {l l' : List T}, Distinct l → Distinct l' →
    (∀ w, (∃ e ∈ l, GoKey.eq e w = true) ↔ ∃ e ∈ l', GoKey.eq e w = true) →
    ∃ l'' : List T, l''.Perm l' ∧ List.Forall₂ (fun a b => GoKey.eq a b = true) l l''
  | [], l', _, _, hc => by
    cases l' with
    | nil => exact ⟨[], .refl _, .nil⟩
    | cons b l' =>
      obtain ⟨e, he, _⟩ := (hc b).2 ⟨b, List.mem_cons_self, eq_refl b⟩
      simp at he
  | a :: l, l', h, h', hc => by
    unfold Distinct at h
    rw [List.pairwise_cons] at h
    obtain ⟨b, hb, hba⟩ := (hc a).1 ⟨a, List.mem_cons_self, eq_refl a⟩
    obtain ⟨s, t, rfl⟩ := List.append_of_mem hb
    have hp : (s ++ b :: t).Perm (b :: (s ++ t)) := List.perm_middle
    have h2 : Distinct (b :: (s ++ t)) := h'.perm hp
    unfold Distinct at h2
    rw [List.pairwise_cons] at h2
    obtain ⟨l'', g1, g2⟩ := Distinct.match (l := l) (l' := s ++ t) h.2 h2.2 (by
      intro w
      constructor
      · rintro ⟨e, he, hew⟩
        obtain ⟨e', he', hew'⟩ := (hc w).1 ⟨e, List.mem_cons_of_mem _ he, hew⟩
        rcases List.mem_cons.1 (hp.mem_iff.1 he') with rfl | h3
        · have : GoKey.eq a e = true :=
            PerGoKey.trans (PerGoKey.symm hba) (PerGoKey.trans hew' (PerGoKey.symm hew))
          rw [h.1 e he] at this; cases this
        · exact ⟨e', h3, hew'⟩
      · rintro ⟨e, he, hew⟩
        obtain ⟨e', he', hew'⟩ := (hc w).2 ⟨e, hp.mem_iff.2 (List.mem_cons_of_mem _ he), hew⟩
        rcases List.mem_cons.1 he' with rfl | h3
        · have : GoKey.eq b e = true :=
            PerGoKey.trans hba (PerGoKey.trans hew' (PerGoKey.symm hew))
          rw [h2.1 e he] at this; cases this
        · exact ⟨e', h3, hew'⟩)
    exact ⟨b :: l'', (List.Perm.cons b g1).trans hp.symm, .cons (PerGoKey.symm hba) g2⟩

theorem forall₂_map_eq {β : Type} {f : T → β} (hf : ∀ a b, GoKey.eq a b = true → f a = f b) :
    ∀ {l l' : List T}, List.Forall₂ (fun a b => GoKey.eq a b = true) l l' → l.map f = l'.map f
  | [], [], _ => rfl
  | a :: l, b :: l', .cons h1 h2 => by rw [List.map_cons, List.map_cons, hf a b h1, forall₂_map_eq hf h2]

/-- Two listings of the same set have the same images, up to order, under any function that respects `Equal`. -/
theorem Lists.map_perm {β : Type} {l l' : List T} {P : T → Prop} (h : Lists l P) (h' : Lists l' P) {f : T → β}
    (hf : ∀ a b, GoKey.eq a b = true → f a = f b) : (l.map f).Perm (l'.map f) := by
  obtain ⟨l'', g1, g2⟩ := Distinct.match h.different h'.different (fun w => (h.covers w).symm.trans (h'.covers w))
  rw [forall₂_map_eq hf g2]
  exact g1.map f

theorem foldl_xor_map (f : T → BitVec 64) : ∀ (l : List T) (z : BitVec 64),
    l.foldl (fun h v => h ^^^ f v) z = (l.map f).foldl (fun h v => h ^^^ v) z
  | [], _ => rfl
  | a :: l, z => by rw [List.foldl_cons, List.map_cons, List.foldl_cons, foldl_xor_map f l]

theorem xor_perm {l l' : List (BitVec 64)} (h : l.Perm l') (z : BitVec 64) :
    l.foldl (fun h v => h ^^^ v) z = l'.foldl (fun h v => h ^^^ v) z := by
  have : RightCommutative (fun h v : BitVec 64 => h ^^^ v) :=
    ⟨fun a b c => by show (a ^^^ b) ^^^ c = (a ^^^ c) ^^^ b; rw [BitVec.xor_assoc, BitVec.xor_comm b c, ← BitVec.xor_assoc]⟩
  exact h.foldl_eq z

theorem FSet.hash_spec [GoHash] {s : FSet T} (h : s.Valid) (seed : BitVec 64) : s.hash seed =
    .ok (s.tree.list.foldl (fun h v => h ^^^ GoKey.hash seed v) (GoHash.uintptr 10538386443025343807#64 seed)) := by
  simp only [FSet.hash, FSet.rangeList_spec h, bind, Except.bind, pure, Except.pure]

theorem FSet.hash_ext [GoHash] {s t : FSet T} (h : s.Valid) (ht : t.Valid) (hst : ∀ w, s.Mem w ↔ t.Mem w) (seed : BitVec 64) :
    s.hash seed = t.hash seed := by
  rw [FSet.hash_spec h, FSet.hash_spec ht, foldl_xor_map (T := T), foldl_xor_map (T := T) _ t.tree.list]
  congr 1
  apply xor_perm
  exact ((FSet.lists h).congr hst).map_perm (FSet.lists ht) (fun a b hab => PerGoKey.hash_congr seed hab)

/-! ### Iteration histories -/

omit [GoKey T] [LawfulGoKey T] in
theorem Iter.calls_spec : ∀ (n : Nat) (it : Iter T), it.Ok → it.calls n = .ok ((List.range n).map (fun i => it.rem[i]?))
  | 0, _, _ => rfl
  | n + 1, it, hok => by
    obtain ⟨h1, h2⟩ := next_spec it hok
    cases hr : it.rem with
    | nil =>
      obtain ⟨it', g1, g2, g3⟩ := h1 hr
      rw [Iter.calls, g1]
      simp only [bind, Except.bind, Bool.false_eq_true, if_false, Iter.calls_spec n it' g3, pure, Except.pure, g2]
      rw [List.range_succ_eq_map]
      simp [Function.comp_def]
    | cons x xs =>
      obtain ⟨it', g1, g2, g3, g4⟩ := h2 x xs hr
      rw [Iter.calls, g1]
      simp only [bind, Except.bind, if_true, g3, Iter.calls_spec n it' g4, pure, Except.pure, g2]
      rw [List.range_succ_eq_map]
      simp

/-! ### Builder histories -/

theorem BuildOp.reachable (ops : List (BuildOp T)) {b : SetBuilder T}
    (h : ops.foldlM (fun b op => op.run b) (Tree.zero : SetBuilder T) = .ok b) : (⟨b⟩ : FSet T).Reachable :=
  ⟨.build ops, by simp only [SetProg.run, h, bind, Except.bind, pure, Except.pure, SetBuilder.finish, Builder.finish]⟩

theorem builderCalls_spec : ∀ (cs : List (BuilderCall T)) (b : SetBuilder T) (ops : List (BuildOp T)) (P : T → Prop),
    ops.foldlM (fun b op => op.run b) (Tree.zero : SetBuilder T) = .ok b → (∀ w, P w ↔ (Tree.look b w).isSome = true) →
    ∃ rs, runBuilderCalls b cs = .ok rs ∧ TraceOk P cs rs
  | [], b, ops, P, _, _ => ⟨[], rfl, trivial⟩
  | c :: cs, b, ops, P, hops, hP => by
    have hv : Tree.Valid b := (BuildOp.reachable ops hops).valid
    have hmem : ∀ w, (⟨b⟩ : FSet T).Mem w ↔ P w := fun w => by rw [FSet.mem_iff (s := ⟨b⟩) hv, hP]
    have step : ∀ (op : BuildOp T) (b' : SetBuilder T), op.run b = .ok b' →
        (ops ++ [op]).foldlM (fun b op => op.run b) (Tree.zero : SetBuilder T) = .ok b' := by
      intro op b' hb'
      rw [List.foldlM_append, hops]
      simp only [bind, Except.bind, List.foldlM_cons, List.foldlM_nil, hb', pure, Except.pure]
    cases c with
    | add v =>
      obtain ⟨b', g1, g2, g3⟩ := BuildOp.run_spec hv (.add v)
      obtain ⟨rs, e1, e2⟩ := builderCalls_spec cs b' _ (BuilderCall.after P (.add v)) (step _ _ g1) (fun w => by
        rw [g3]; simp only [BuilderCall.after, BuildOp.effect, hP])
      refine ⟨.unit :: rs, ?_, rfl, e2⟩
      have g1' : SetBuilder.add b v = .ok b' := g1
      simp only [runBuilderCalls, BuilderCall.run, g1', e1, bind, Except.bind, pure, Except.pure]
    | remove v =>
      obtain ⟨b', g1, g2, g3⟩ := BuildOp.run_spec hv (.remove v)
      obtain ⟨rs, e1, e2⟩ := builderCalls_spec cs b' _ (BuilderCall.after P (.remove v)) (step _ _ g1) (fun w => by
        rw [g3]; simp only [BuilderCall.after, BuildOp.effect, hP])
      refine ⟨.unit :: rs, ?_, rfl, e2⟩
      have g1' : SetBuilder.remove b v = .ok b' := g1
      simp only [runBuilderCalls, BuilderCall.run, g1', e1, bind, Except.bind, pure, Except.pure]
    | has v =>
      obtain ⟨rs, e1, e2⟩ := builderCalls_spec cs b ops P hops hP
      refine ⟨.bool (Tree.look b v).isSome :: rs, ?_, ⟨_, rfl, (hP v).symm⟩, e2⟩
      simp only [runBuilderCalls, BuilderCall.run, SetBuilder.has, Tree.get_spec hv, e1, bind, Except.bind, pure, Except.pure]
    | count =>
      obtain ⟨rs, e1, e2⟩ := builderCalls_spec cs b ops P hops hP
      refine ⟨.int (SetBuilder.count b) :: rs, ?_, ⟨_, rfl, (FSet.hasCard (s := ⟨b⟩) hv).congr hmem⟩, e2⟩
      simp only [runBuilderCalls, BuilderCall.run, e1, bind, Except.bind, pure, Except.pure]
    | finish =>
      obtain ⟨rs, e1, e2⟩ := builderCalls_spec cs (Tree.zero : Tree T) [] (fun _ => False) rfl
        (fun w => by simp [Tree.look_zero])
      refine ⟨.set ⟨b⟩ :: rs, ?_, ⟨_, rfl, BuildOp.reachable ops hops, hmem, (FSet.hasCard (s := ⟨b⟩) hv).congr hmem⟩, e2⟩
      simp only [runBuilderCalls, BuilderCall.run, SetBuilder.finish, Builder.finish, e1, bind, Except.bind, pure, Except.pure]

/-! ### Lookup cost -/

theorem scanCost_le (v : T) : ∀ l : List T, scanCost v l ≤ l.length
  | [] => Nat.le_refl 0
  | a :: l => by
    rw [scanCost]
    have := scanCost_le v l
    split <;> simp only [List.length_cons] <;> omega

theorem getCost_spec : ∀ (n : Node T) (d : Nat), WF d n → n.isNil = false → d ≤ 22 → ∀ v,
    ∃ lv cm, getCost n v (newHasher v d) = .ok (look n v, lv, cm) ∧ lv + d ≤ 22 ∧
      (cm ≤ 2 ∨ (cm ≤ (elems n).length ∧ lv + d = 22 ∧ ∃ l : List T, 3 ≤ l.length ∧ l.Sublist (elems n) ∧
        (∀ e ∈ l, ∀ i, d ≤ i → i < 22 → chunk e i = chunk v i) ∧ cm ≤ l.length))
  | .nil, _, _, hn, _, _ => by cases hn
  | .leaf1 a, d, _, _, hd, v => by
    refine ⟨0, 1, ?_, by omega, .inl (by omega)⟩
    by_cases h : GoKey.eq a v = true <;> simp [getCost, look, elems, h]
  | .leaf2 a b, d, _, _, hd, v => by
    by_cases h : GoKey.eq a v = true
    · exact ⟨0, 1, by simp [getCost, look, elems, h], by omega, .inl (by omega)⟩
    · by_cases h2 : GoKey.eq b v = true
      · exact ⟨0, 2, by simp [getCost, look, elems, h, h2], by omega, .inl (by omega)⟩
      · exact ⟨0, 2, by simp [getCost, look, elems, h, h2], by omega, .inl (by omega)⟩
  | .twig l, d, hw, _, hd, v => by
    obtain ⟨h1, h2, h3⟩ := hw
    rw [maxTreeDepth_eq] at h1
    exact ⟨0, scanCost v l, rfl, by omega, .inr ⟨scanCost_le v l, by omega, l, h2, List.Sublist.refl l,
      fun e _ i h4 h5 => by omega, scanCost_le v l⟩⟩
  | .branch m k, d, hw, _, hd, v => by
    obtain ⟨hs, h3⟩ := WF_branch.1 hw
    have hd' : d < 22 := hs.1
    have hidx : (newHasher v d).idx = chunk v d := rfl
    have hlook := WF.look_branch hs v
    cases hn : (k (chunk v d)).isNil with
    | true =>
      refine ⟨1, 0, ?_, by omega, .inl (by omega)⟩
      rw [getCost, hidx, hn]
      simp only [if_true]
      rw [hlook, isNil_iff.1 hn]; rfl
    | false =>
      obtain ⟨lv, cm, g1, g2, g3⟩ := getCost_spec (k (chunk v d)) (d + 1) (hs.2.2.1 _) hn (by omega) v
      refine ⟨lv + 1, cm, ?_, by omega, ?_⟩
      · rw [getCost, hidx, hn]
        simp only [Bool.false_eq_true, if_false]
        rw [newHasher_next, g1, hlook]; rfl
      · rcases g3 with g3 | ⟨g3, g4, l, g5, g6, g7, g8⟩
        · exact .inl g3
        · have hsub : (elems (k (chunk v d))).Sublist (elems (.branch m k)) := by
            simp only [elems]
            exact List.sublist_flatten_of_mem (List.mem_map.2 ⟨_, List.mem_finRange _, rfl⟩)
          refine .inr ⟨g3.trans hsub.length_le, by omega, l, g5, g6.trans hsub, ?_, g8⟩
          intro e he i h4 h5
          rcases Nat.lt_or_ge d i with h6 | h6
          · exact g7 e he i (by omega) h5
          · have : i = d := by omega
            subst this
            exact hs.2.2.2 _ e (g6.subset he)

theorem Tree.getCost_spec {t : Tree T} (h : t.Valid) (v : T) :
    ∃ lv cm, t.getCost v = .ok (t.look v, lv, cm) ∧ lv ≤ 22 ∧
      (cm ≤ 2 ∨ ∃ l : List T, 3 ≤ l.length ∧ l.Sublist t.list ∧ (∀ e ∈ l, hash0 e = hash0 v) ∧ cm ≤ l.length) := by
  unfold Tree.getCost
  cases hn : t.root.isNil with
  | true => exact ⟨0, 0, by simp [Tree.look_nil hn], by omega, .inl (by omega)⟩
  | false =>
    obtain ⟨lv, cm, h1, h2, h3⟩ := Frozen.getCost_spec t.root 0 h.wf hn (by omega) v
    refine ⟨lv, cm, by simp [h1]; rfl, by omega, h3.imp id ?_⟩
    rintro ⟨_, _, l, g1, g2, g3, g4⟩
    refine ⟨l, g1, g2, fun e he => ?_, g4⟩
    rw [← agree_22, agree_iff]
    exact fun j _ hj => g3 e he j (by omega) hj

end Frozen
