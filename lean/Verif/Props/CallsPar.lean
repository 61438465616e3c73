import Verif.Proof.CallsParOps
import Verif.Props.Calls
import Verif.Props.Parallel

/-! # C55 with goroutines: the user's function is called exactly once per element in every schedule

Large sets and maps (with GOMAXPROCS > 1, from 2^17 elements on) call the function passed to `Where`, `Reduce` and `Merge` from several
goroutines. The calls then come in any order, and they overlap. -/

set_option linter.unusedSectionVars false

namespace Frozen

variable {T K V : Type} [GoKey T] [LawfulGoKey T] [GoKey K] [LawfulGoKey K]

/-- C55 for `Where` with goroutines, for every gauge `g`, every schedule and all answers. -/
theorem C55_where_parallel (s : FSet T) (hs : s.Reachable) (g : Int) : ∃ l, s.elements = .ok l ∧
    (s.whereCC g).Once l (fun tr r => ∃ l', r.elements = .ok l' ∧ l'.Perm ((tr.filter (·.2)).map (·.1)) ∧
      ∀ v, r.Mem v ↔ ∃ x, (x, true) ∈ tr ∧ GoKey.eq x v = true) := by
  have h := hs.valid
  refine ⟨s.tree.list, FSet.elements_spec h, ?_⟩
  unfold FSet.whereCC
  cases hn : s.tree.root.isNil with
  | true =>
    simp only [if_true]
    have he := (Tree.isNil_iff_list h).1 hn
    refine ⟨he, [], by rw [FSet.elements_spec h, he], List.Perm.refl _, fun v => ?_⟩
    rw [FSet.mem_iff_list h, he]; simp
  | false =>
    simp only [Bool.false_eq_true, if_false]
    have ex : ∀ f : T → Bool, ∃ o, ∃ t' : Tree T, «where» f s.tree.root 0 = .ok o ∧ t' = ⟨o.1, o.2.1⟩ ∧ t'.Valid ∧ t'.list.Perm (s.tree.list.filter f) := by
      intro f
      obtain ⟨t', h1, h2, _, h4⟩ := Tree.where_spec h f
      unfold Tree.where at h1
      simp only [hn, Bool.false_eq_true, if_false] at h1
      cases ho : «where» f s.tree.root 0 with
      | error e => rw [ho] at h1; cases h1
      | ok o =>
        rw [ho] at h1
        exact ⟨o, t', rfl, (Except.ok.inj h1).symm, h2, h4⟩
    refine CComp.once (cmakes_whereCC g s.tree.root 0 h.wf) h.distinct.nodup (fun f => ?_) (fun f o ho tr htr => ?_)
    · obtain ⟨o, _, h1, _⟩ := ex f
      rw [comp_whereCC]
      exact noPanic_whereC g f _ 0 o h.wf.masksOk h1
    · rw [comp_whereCC] at ho
      obtain ⟨_, h2⟩ := out_whereC g f _ 0 o h.wf.masksOk ho
      obtain ⟨o', t', h1, ht, hv, hp⟩ := ex f
      rw [h1] at h2
      cases h2
      subst ht
      have hp' : ((tr.filter (·.2)).map (·.1)).Perm (s.tree.list.filter f) := by
        refine ((htr.filter _).map _).trans ?_
        rw [List.filter_map, List.map_map]
        refine List.Perm.of_eq ?_
        conv_rhs => rw [← List.map_id (List.filter f _)]
        rfl
      refine ⟨_, FSet.elements_spec (s := ⟨⟨o.1.1, o.2.2⟩⟩) hv, hp.trans hp'.symm, fun v => ?_⟩
      rw [FSet.mem_iff_list (s := ⟨⟨o.1.1, o.2.2⟩⟩) hv]
      refine exists_congr (fun x => and_congr_left (fun _ => ?_))
      rw [(hp.trans hp'.symm).mem_iff]
      simp

/-- C55 for `Reduce` with goroutines: in every schedule each call takes its arguments out of the pool of elements and answers. -/
theorem C55_reduce_parallel [Inhabited T] (s : FSet T) (hs : s.Reachable) (g : Int) : ∃ l, s.elements = .ok l ∧ (s.reduceCC g).Spends l := by
  have h := hs.valid
  refine ⟨s.tree.list, FSet.elements_spec h, ?_⟩
  unfold FSet.reduceCC
  cases hn : s.tree.root.isNil with
  | true =>
    simp only [if_true]
    rw [(Tree.isNil_iff_list h).1 hn]
    exact List.Perm.refl _
  | false =>
    simp only [Bool.false_eq_true, if_false]
    exact (cspends_reduceCC g s.tree.root 0 h.wf hn).spends

/-- C55 for `Merge` with goroutines. -/
theorem C55_merge_parallel [Inhabited V] (m n : FMap K V) (hm : m.Reachable) (hn : n.Reachable) (hc : ¬ TripleClash m.HasKey n.HasKey)
    (g : Int) :
    ∃ l : List (K × V × V), l.Pairwise (fun p q => GoKey.eq p.1 q.1 = false) ∧
      (∀ k v w, (k, v, w) ∈ l ↔ m.HasEntry k v ∧ n.Gets k (some w)) ∧
      (m.mergeCC g n).Once l (fun tr r => (∀ k v w u, ((k, v, w), u) ∈ tr → r.HasEntry k u) ∧
        (∀ k v, m.HasEntry k v → n.Gets k none → r.HasEntry k v) ∧ (∀ k v, n.HasEntry k v → m.Gets k none → r.HasEntry k v) ∧
        (∀ k, r.HasKey k ↔ m.HasKey k ∨ n.HasKey k)) := by
  have hv := hm.valid
  have hw := hn.valid
  have hcl := hc
  rw [← FMap.clash_iff hv hw] at hcl
  -- what `Merge` gives for a pure function, in terms of the calls
  have spec : ∀ (f : K × V × V → V), ∃ r, m.merge n (fun k v w => f (k, v, w)) = .ok r ∧
      ∀ (l : List (K × V × V)), (∀ k v w, (k, v, w) ∈ l ↔ m.HasEntry k v ∧ n.Gets k (some w)) → ∀ tr : List ((K × V × V) × V), tr.Perm (l.map fun q => (q, f q)) →
        ((∀ k v w u, ((k, v, w), u) ∈ tr → r.HasEntry k u) ∧
        (∀ k v, m.HasEntry k v → n.Gets k none → r.HasEntry k v) ∧ (∀ k v, n.HasEntry k v → m.Gets k none → r.HasEntry k v) ∧
        (∀ k, r.HasKey k ↔ m.HasKey k ∨ n.HasKey k)) := by
    intro f
    obtain ⟨r, g1, g2, g3, g4, g5⟩ := C13_merge_partial m n hm hn (fun k v w => f (k, v, w)) hc
    refine ⟨r, g1, fun l hl tr htr => ⟨fun k v w u hu => ?_, g3, g4, g5⟩⟩
    obtain ⟨q, hq, he⟩ := List.mem_map.1 (htr.mem_iff.1 hu)
    cases he
    obtain ⟨f2, f3⟩ := (hl k v w).1 hq
    exact g2 k v w f2 f3
  unfold FMap.mergeCC
  cases h1 : m.tree.root.isNil with
  | true =>
    have he := (Tree.isNil_iff_list hv).1 h1
    refine ⟨[], List.Pairwise.nil, fun k v w => ?_, ?_⟩
    · rw [FMap.hasEntry_iff hv]
      simp only [List.not_mem_nil, false_iff, not_and]
      intro h; rw [he] at h; cases h
    · simp only [if_true]
      obtain ⟨r, g1, g2⟩ := spec (fun p => p.2.1)
      have : r = n := by
        have := g1
        unfold FMap.merge Tree.combine at this
        simp only [h1, if_true] at this
        exact (Except.ok.inj this).symm
      subst this
      refine ⟨rfl, g2 [] (fun k v w => ?_) [] (List.Perm.refl _)⟩
      rw [FMap.hasEntry_iff hv]
      simp only [List.not_mem_nil, false_iff, not_and]
      intro h; rw [he] at h; cases h
  | false =>
    cases h2 : n.tree.root.isNil with
    | true =>
      have he := (Tree.isNil_iff_list hw).1 h2
      have hempty : ∀ k v w, (k, v, w) ∈ ([] : List (K × V × V)) ↔ m.HasEntry k v ∧ n.Gets k (some w) := by
        intro k v w
        rw [FMap.gets_iff hw, Tree.lk_some hw]
        simp only [List.not_mem_nil, false_iff, not_and]
        rintro _ ⟨e, h, _⟩; rw [he] at h; cases h
      refine ⟨[], List.Pairwise.nil, hempty, ?_⟩
      simp only [if_true, Bool.false_eq_true, if_false]
      obtain ⟨r, g1, g2⟩ := spec (fun p => p.2.1)
      have : r = m := by
        have := g1
        unfold FMap.merge Tree.combine at this
        simp only [h1, h2, if_true, Bool.false_eq_true, if_false] at this
        exact (Except.ok.inj this).symm
      subst this
      exact ⟨rfl, g2 [] hempty [] (List.Perm.refl _)⟩
    | false =>
      obtain ⟨L, hL, hmk⟩ := cmakes_combineCC g m.tree.root 0 n.tree.root hv.wf h1 hw.wf h2 hcl
      obtain ⟨hpw, hmem⟩ := comm_entries hv hw hL
      refine ⟨_, hpw, hmem, ?_⟩
      simp only [Bool.false_eq_true, if_false]
      have hcomp : ∀ f : K × V × V → V, ((combineCC g mapEntryKeyEqual m.tree.root n.tree.root 0).wrap (fun p =>
          (CB.ask (p.1.key, p.1.value, p.2.value)).bind (fun v => .done (⟨p.1.key, v⟩ : Entry K V)))).comp f =
          combineC g m.tree.root ⟨mapEntryKeyEqual, fun a b => ⟨a.key, f (a.key, a.value, b.value)⟩⟩ n.tree.root 0 := by
        intro f
        rw [CComp.comp_wrap _ f (fun p => (⟨p.1.key, f (p.1.key, p.1.value, p.2.value)⟩ : Entry K V)) (fun q => rfl), comp_combineCC]
        rfl
      have ex : ∀ f : K × V × V → V, ∃ o, ∃ r : FMap K V, combine m.tree.root ⟨mapEntryKeyEqual, fun a b => ⟨a.key, f (a.key, a.value, b.value)⟩⟩ n.tree.root 0 = .ok o ∧
          r = ⟨⟨o.1, m.tree.count + n.tree.count - o.2⟩⟩ ∧ m.merge n (fun k v w => f (k, v, w)) = .ok r := by
        intro f
        obtain ⟨r, g1, _⟩ := spec f
        have g0 := g1
        unfold FMap.merge Tree.combine at g1
        simp only [h1, h2, Bool.false_eq_true, if_false] at g1
        cases ho : combine m.tree.root ⟨mapEntryKeyEqual, fun a b => ⟨a.key, f (a.key, a.value, b.value)⟩⟩ n.tree.root 0 with
        | error e => rw [ho] at g1; cases g1
        | ok o =>
          rw [ho] at g1
          exact ⟨o, r, rfl, (Except.ok.inj g1).symm, g0⟩
      refine CComp.once ?_ ?_ (fun f => ?_) (fun f o ho tr htr => ?_)
      · exact CMakesV.wrap (V := ClassV) (q' := fun p : Entry K V × Entry K V => (p.1.key, p.1.value, p.2.value))
          (g := fun p v => (⟨p.1.key, v⟩ : Entry K V)) (fun q a _ => LawfulGoKey.refl q.1.key) _ hmk
      · refine hpw.imp (fun {p q} hpq he => ?_)
        subst he
        rw [LawfulGoKey.refl] at hpq; cases hpq
      · obtain ⟨o, r, g1, _⟩ := ex f
        rw [hcomp]
        exact noPanic_combineC g _ _ _ 0 o hv.wf.masksOk hw.wf.masksOk g1
      · rw [hcomp] at ho
        obtain ⟨_, g1⟩ := out_combineC g _ _ _ 0 o hv.wf.masksOk hw.wf.masksOk ho
        obtain ⟨o', r, g2, g3, g4⟩ := ex f
        rw [g1] at g2
        cases g2
        obtain ⟨r', g5, g6⟩ := spec f
        rw [g4] at g5
        cases g5
        subst g3
        exact g6 _ hmem tr htr

/-! ### Concrete cases -/

/-- The number of goroutines that the outermost `Parallel` starts. -/
def CCall.fanout {Q A α : Type} : CCall Q A α → Nat
  | .run (.par mask _ _ _) _ => mask.indices.length
  | _ => 0

/-- The calls that can come first. -/
def CComp.firsts {Q A X : Type} : CComp Q A X → List Q
  | .seq (.call q _) => [q]
  | .seq _ => []
  | .par mask body _ _ => mask.indices.flatMap (fun i => (body i).firsts)

def CCall.firsts {Q A α : Type} : CCall Q A α → List Q
  | .ret _ => []
  | .run c _ => c.firsts

/-- `firsts` lists calls that some schedule makes first. -/
theorem CComp.firsts_sound {Q A X : Type} (c : CComp Q A X) (q : Q) (h : q ∈ c.firsts) (a : A) : ∃ c', CRuns c [(q, a)] c' := by
  suffices ∃ c', CStep c (some (q, a)) c' by
    obtain ⟨c', hc⟩ := this
    exact ⟨c', .call (tr := []) .start hc⟩
  induction c with
  | seq x =>
    cases x with
    | call q' k => rw [List.mem_singleton.1 h]; exact ⟨_, .call q' k a⟩
    | done r => cases h
    | panic p => cases h
  | par mask body sets k ih =>
    obtain ⟨i, hi, hq⟩ := List.mem_flatMap.1 h
    obtain ⟨c', hc⟩ := ih i hq
    exact ⟨_, .kid mask body sets k i c' _ hi hc⟩

/-- Six elements under gauge 1: at least three goroutines, and any of at least three calls can come first. -/
example : ∃ s : FSet Spread, s.Reachable ∧ s.count = 6 ∧ (s.whereCC 1).fanout ≥ 3 ∧ (s.whereCC 1).firsts.length ≥ 3 ∧
    (s.reduceCC 1).fanout ≥ 3 ∧ (s.reduceCC 1).firsts.length ≥ 3 := by
  obtain ⟨s, h1, h2⟩ := of_okAnd (r := newSet ([1, 2, 3, 4, 5, 6].map Spread.mk)) (test := fun s =>
    decide (s.count = 6 ∧ (s.whereCC 1).fanout ≥ 3 ∧ (s.whereCC 1).firsts.length ≥ 3 ∧
      (s.reduceCC 1).fanout ≥ 3 ∧ (s.reduceCC 1).firsts.length ≥ 3)) (by decide +kernel)
  exact ⟨s, ⟨.newSet _, h1⟩, of_decide_eq_true h2⟩

example : ∃ m n : FMap Spread Spread, m.Reachable ∧ n.Reachable ∧ (m.mergeCC 1 n).fanout ≥ 3 ∧ (m.mergeCC 1 n).firsts.length ≥ 2 := by
  obtain ⟨m, h1, h2⟩ := of_okAnd (r := newMap ([1, 2, 3, 4].map (fun i => (⟨⟨i⟩, ⟨i⟩⟩ : KeyValue Spread Spread))))
    (test := fun m => okAnd (newMap ([2, 3, 4, 5, 6, 7, 8].map (fun i => (⟨⟨i⟩, ⟨i + 1⟩⟩ : KeyValue Spread Spread)))) (fun n =>
      decide ((m.mergeCC 1 n).fanout ≥ 3 ∧ (m.mergeCC 1 n).firsts.length ≥ 2))) (by decide +kernel)
  obtain ⟨n, h3, h4⟩ := of_okAnd h2
  exact ⟨m, n, ⟨.newMap _, h1⟩, ⟨.newMap _, h3⟩, of_decide_eq_true h4⟩

end Frozen
