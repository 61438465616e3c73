import Verif.Proof.Recover
import Verif.Proof.Flip
import Verif.Props.CallsPar
import Verif.Props.Misc
import Verif.Props.SetBasic

/-! # C66: can the caller recover a panic?

The full property says that a panic during a call, whether of a function that the user passed or of the library itself, happens in the
goroutine that made the call, where a deferred function can recover it. It is false for large collections: by default, from 2¹⁷ elements on,
`Where`, `Reduce`, `Merge` and `Union` run in goroutines of their own, which do not recover, so that a panic ends the program. The
theorems say exactly when; hence the suffix. -/

set_option linter.unusedSectionVars false

namespace Frozen

section
variable {T : Type} [GoKey T] [LawfulGoKey T]

/-- C66 for `Where`: in a collection of fewer than three elements, or if the gauge forbids goroutines, the predicate is only ever called by
the caller's goroutine; otherwise it is called, and only ever by other goroutines. -/
theorem C66_where_partial (s : FSet T) (hs : s.Reachable) (g : Int) :
    (g ≤ 0 ∨ s.count < 3 → (s.whereCC g).CalledByCaller) ∧
    (0 < g → 3 ≤ s.count → (s.whereCC g).Called ∧ (s.whereCC g).CalledByOthers) := by
  have hv := hs.valid
  have hc : s.count = (elems s.tree.root).length := hv.count
  refine ⟨fun h => ?_, fun hg h3 => ⟨?_, ?_⟩⟩
  · unfold FSet.whereCC
    split
    · trivial
    · obtain ⟨x, hx⟩ := whereCC_caller hv.wf (g := g) (by omega)
      rw [hx]
      exact calledByCaller_seq _ _
  · obtain ⟨l, hl, h⟩ := C55_where_parallel s hs g
    rw [FSet.elements_spec hv] at hl
    refine h.called (fun e => ?_)
    have : s.tree.list = l := Except.ok.inj hl
    have h4 : (elems s.tree.root).length = l.length := congrArg List.length this
    rw [e] at h4
    simp only [List.length_nil] at h4
    omega
  · unfold FSet.whereCC
    split
    · trivial
    · exact whereCC_others hv.wf hg (by omega) _

/-- C66 for `Where` with the default settings, on any number of processors: the caller can recover the predicate's panics if and only if the
set has fewer than 2¹⁷ elements. -/
theorem C66_where_default_partial (s : FSet T) (hs : s.Reachable) (procs : Nat) :
    (s.whereCC (newGauge .other procs s.count.toNat)).CalledByCaller ↔ s.count < 2 ^ 17 := by
  have h := C66_where_partial s hs (newGauge .other procs s.count.toNat)
  have hd := C47_default procs s.count.toNat
  constructor
  · intro hc
    by_contra hn
    have := h.2 (hd.2 (by omega)) (by omega)
    exact CCall.not_caller this.2 this.1 hc
  · intro hc
    exact h.1 (.inl (by by_contra hn; have := hd.1 (by omega); omega))

/-- C66 is false: some set has so many elements that the caller of `Where` cannot recover a panic of the predicate. -/
theorem C66_where_refuted : ¬ ∀ (T : Type) [GoKey T] [LawfulGoKey T] (s : FSet T), s.Reachable → ∀ procs,
    (s.whereCC (newGauge .other procs s.count.toNat)).CalledByCaller := by
  intro h
  obtain ⟨s, h1, hv, _, hm⟩ := buildSet_spec ((List.range (2 ^ 17)).map Coll.mk)
  have hs : s.Reachable := ⟨.newSet _, h1⟩
  have := (C66_where_default_partial s hs 4).1 (h Coll s hs 4)
  have h3 : AtLeast (2 ^ 17) (memL (elems s.tree.root)) := by
    refine ⟨(List.range (2 ^ 17)).map Coll.mk, by rw [List.length_map, List.length_range], ?_, fun x hx => ?_⟩
    · rw [PairwiseDifferent, List.pairwise_map]
      refine List.nodup_range.imp (fun {a b} hab => ?_)
      simp only [GoKey.eq]
      simpa using hab
    · rw [FSet.memL_iff hv, hm]
      exact ⟨x, hx, eq_refl x⟩
  rw [atLeast_mem hv.wf.distinct] at h3
  have hc : s.count = (elems s.tree.root).length := hv.count
  omega

/-- C66 for `Reduce`: the caller can recover all panics of the function if and only if the gauge forbids goroutines or there are fewer than three
elements. -/
theorem C66_reduce_partial [Inhabited T] (s : FSet T) (hs : s.Reachable) (g : Int) :
    (s.reduceCC g).CalledByCaller ↔ g ≤ 0 ∨ s.count < 3 := by
  have hv := hs.valid
  have hc : s.count = (elems s.tree.root).length := hv.count
  constructor
  · intro h
    by_contra hn
    rw [not_or] at hn
    obtain ⟨m, k, hm⟩ := (root_branch hv.wf).2 (by omega)
    unfold FSet.reduceCC at h
    have hnil : s.tree.root.isNil = false := by rw [hm]; rfl
    rw [hnil] at h
    obtain ⟨q, hq⟩ := reduceCC_call g _ 0 hv.wf hnil
    obtain ⟨c', hs'⟩ := hq default
    have := h [] _ .start _ c' hs'
    rw [hm] at this
    unfold Frozen.reduceCC at this
    rw [if_pos (by simp only [Nat.cast_zero]; omega)] at this
    exact this
  · intro h
    unfold FSet.reduceCC
    split
    · trivial
    · obtain ⟨x, hx⟩ := reduceCC_caller hv.wf (g := g) (by omega)
      rw [hx]
      exact calledByCaller_seq _ _

/-- C66 for `Reduce` with the default settings. -/
theorem C66_reduce_default_partial [Inhabited T] (s : FSet T) (hs : s.Reachable) (procs : Nat) :
    (s.reduceCC (newGauge .other procs s.count.toNat)).CalledByCaller ↔ s.count < 2 ^ 17 := by
  have hd := C47_default procs s.count.toNat
  rw [C66_reduce_partial s hs]
  omega

/-- Three elements are enough if `FROZEN_CONCURRENCY` is -1. -/
example : ∃ s : FSet Spread, s.Reachable ∧ s.count = 3 ∧ (s.whereCC (newGauge (.num (-1)) 4 3)).Called ∧
    (s.whereCC (newGauge (.num (-1)) 4 3)).CalledByOthers ∧ (s.whereCC (newGauge .other 4 3)).CalledByCaller := by
  obtain ⟨s, h1, h2⟩ := of_okAnd (r := newSet [(⟨1⟩ : Spread), ⟨2⟩, ⟨3⟩]) (test := fun s => decide (s.count = 3)) (by decide +kernel)
  have hs : s.Reachable := ⟨.newSet _, h1⟩
  have h3 := of_decide_eq_true h2
  have := C66_where_partial s hs (newGauge (.num (-1)) 4 3)
  have h4 := this.2 (by decide) (by omega)
  exact ⟨s, hs, h3, h4.1, h4.2, (C66_where_partial s hs _).1 (.inl (by decide))⟩

/-- C66 for the panics of `Union`, which happen on the sets of the pattern `TripleClash` only (C03): the caller can recover them if and only if the
gauge forbids goroutines. -/
theorem C66_union_partial (s t : FSet T) (hs : s.Reachable) (ht : t.Reachable) (g : Int) :
    ((s.unionC g t).PanicsInCaller ↔ g ≤ 0 ∧ TripleClash s.Mem t.Mem) ∧
    ((s.unionC g t).PanicsInOthers ↔ 0 < g ∧ TripleClash s.Mem t.Mem) := by
  have hp : (s.unionC g t).Panics ↔ TripleClash s.Mem t.Mem := by
    rw [(C11_union hs ht g).panics, ← C03_union_panics s t hs ht]
    refine ⟨fun ⟨e, he⟩ => ?_, fun h => ⟨_, h⟩⟩
    by_contra hc
    rw [C03_union_panics s t hs ht] at hc
    obtain ⟨u, hu, _⟩ := C03_union_partial s t hs ht hc
    rw [hu] at he; cases he
  unfold FSet.unionC at hp ⊢
  rw [Call.map_panics] at hp
  rw [Call.map_inCaller, Call.map_inOthers]
  refine Tree.combineC_where hs.valid ht.valid hp (fun h => ?_)
  obtain ⟨h1, h2⟩ := tripleClash_three h
  have e1 : AtLeast 3 (memL (elems s.tree.root)) := (atLeast_congr (FSet.memL_iff hs.valid)).2 h1
  have e2 : AtLeast 3 (memL (elems t.tree.root)) := (atLeast_congr (FSet.memL_iff ht.valid)).2 h2
  rw [atLeast_mem hs.valid.wf.distinct] at e1
  rw [atLeast_mem ht.valid.wf.distinct] at e2
  have h3 : s.tree.count = (elems s.tree.root).length := hs.valid.count
  have h4 : t.tree.count = (elems t.tree.root).length := ht.valid.count
  omega

/-- Two sets whose union ends the program if it uses goroutines. -/
example : ∃ s : FSet Coll, s.Reachable ∧ (s.unionC 0 s).PanicsInCaller ∧ (s.unionC 1 s).PanicsInOthers ∧ ¬ (s.unionC 1 s).PanicsInCaller := by
  obtain ⟨s, h1, hv, _, h4⟩ := buildSet_spec [(⟨1⟩ : Coll), ⟨2⟩, ⟨3⟩]
  have hr : s.Reachable := ⟨.newSet _, h1⟩
  have hm : ∀ x ∈ [(⟨1⟩ : Coll), ⟨2⟩, ⟨3⟩], s.Mem x := fun x hx => (h4 x).2 ⟨x, hx, eq_refl x⟩
  have h3 : AtLeast 3 (fun e => s.Mem e ∧ hash0 e >>> 1 = hash0 (⟨1⟩ : Coll) >>> 1) :=
    ⟨[⟨1⟩, ⟨2⟩, ⟨3⟩], rfl, by simp [PairwiseDifferent, GoKey.eq], fun x hx => ⟨hm x hx, rfl⟩⟩
  have h3' : AtLeast 3 (fun e => s.Mem e ∧ hash0 e = hash0 (⟨1⟩ : Coll)) :=
    ⟨[⟨1⟩, ⟨2⟩, ⟨3⟩], rfl, by simp [PairwiseDifferent, GoKey.eq], fun x hx => ⟨hm x hx, rfl⟩⟩
  have hc : TripleClash s.Mem s.Mem := ⟨⟨1⟩, ⟨1⟩, hm _ (by simp), hm _ (by simp), rfl, h3, h3, .inl h3'⟩
  refine ⟨s, hr, (C66_union_partial s s hr hr 0).1.2 ⟨by omega, hc⟩, (C66_union_partial s s hr hr 1).2.2 ⟨by omega, hc⟩, fun h => ?_⟩
  have := (C66_union_partial s s hr hr 1).1.1 h
  omega

end

section
variable {K V : Type} [GoKey K] [LawfulGoKey K]

/-- C66 for `Merge`: if the gauge forbids goroutines or one of the maps has fewer than three entries, `resolve` is only ever called by the caller's
goroutine; otherwise only ever by other goroutines, and it is called if there is a common key. -/
theorem C66_merge_partial [Inhabited V] (m n : FMap K V) (hm : m.Reachable) (hn : n.Reachable) (g : Int) :
    (g ≤ 0 ∨ m.count < 3 ∨ n.count < 3 → (m.mergeCC g n).CalledByCaller) ∧
    (0 < g → 3 ≤ m.count → 3 ≤ n.count → (m.mergeCC g n).CalledByOthers ∧
      ((∃ k, m.HasKey k ∧ n.HasKey k) → ¬ TripleClash m.HasKey n.HasKey → (m.mergeCC g n).Called)) := by
  have hv := hm.valid
  have hw := hn.valid
  have hc : m.count = (elems m.tree.root).length := hv.count
  have hc2 : n.count = (elems n.tree.root).length := hw.count
  refine ⟨fun h => ?_, fun hg h1 h2 => ⟨?_, fun ⟨k, hk1, hk2⟩ hcl => ?_⟩⟩
  · unfold FMap.mergeCC
    split
    · trivial
    split
    · trivial
    obtain ⟨x, hx⟩ := combineCC_caller hv.wf hw.wf (g := g) (eq := mapEntryKeyEqual) (by omega)
    rw [hx]
    exact calledByCaller_seq _ _
  · obtain ⟨a, b, he⟩ := (root_branch hv.wf).2 (by omega)
    obtain ⟨a', b', he'⟩ := (root_branch hw.wf).2 (by omega)
    unfold FMap.mergeCC
    rw [he, he']
    simp only [Node.isNil, Bool.false_eq_true, if_false]
    unfold combineCC
    dsimp only
    rw [if_pos (by simpa using hg)]
    rw [CComp.wrap]
    refine calledByOthers_par (fun pm sl ms => ?_) _
    trivial
  · obtain ⟨l, _, hl, h⟩ := C55_merge_parallel m n hm hn hcl g
    refine h.called (fun e => ?_)
    rw [FMap.hasKey_iff hv, Option.isSome_iff_exists] at hk1
    rw [FMap.hasKey_iff hw, Option.isSome_iff_exists] at hk2
    obtain ⟨v, hk1⟩ := hk1
    obtain ⟨w, hk2⟩ := hk2
    obtain ⟨x, hx, hxk, rfl⟩ := (Tree.lk_some hv).1 hk1
    have : (x.key, x.value, w) ∈ l := (hl _ _ _).2
      ⟨(FMap.hasEntry_iff hv _ _).2 hx, (FMap.gets_iff hw _ _).2 (by rw [Tree.lk_congr _ hxk, hk2])⟩
    rw [e] at this
    cases this

/-- C66 for the panics of `Merge` itself. -/
theorem C66_merge_panics_partial [Inhabited V] (m n : FMap K V) (hm : m.Reachable) (hn : n.Reachable) (g : Int) (resolve : K → V → V → V) :
    ((m.mergeC g n resolve).PanicsInCaller ↔ g ≤ 0 ∧ TripleClash m.HasKey n.HasKey) ∧
    ((m.mergeC g n resolve).PanicsInOthers ↔ 0 < g ∧ TripleClash m.HasKey n.HasKey) := by
  have hp : (m.mergeC g n resolve).Panics ↔ TripleClash m.HasKey n.HasKey := by
    rw [(C11_merge hm hn resolve g).panics, ← (C13_panics m n hm hn resolve).1]
    refine ⟨fun ⟨e, he⟩ => ?_, fun h => ⟨_, h⟩⟩
    by_contra hc
    rw [(C13_panics m n hm hn resolve).1] at hc
    obtain ⟨u, hu, _⟩ := C13_merge_partial m n hm hn resolve hc
    rw [hu] at he; cases he
  unfold FMap.mergeC at hp ⊢
  rw [Call.map_panics] at hp
  rw [Call.map_inCaller, Call.map_inOthers]
  refine Tree.combineC_where hm.valid hn.valid hp (fun h => ?_)
  obtain ⟨h1, h2⟩ := tripleClash_three h
  have e1 : AtLeast 3 (memL (elems m.tree.root)) := (atLeast_congr (FMap.memL_iff hm.valid)).2 ((atLeast_keys 3 _).2 h1)
  have e2 : AtLeast 3 (memL (elems n.tree.root)) := (atLeast_congr (FMap.memL_iff hn.valid)).2 ((atLeast_keys 3 _).2 h2)
  rw [atLeast_mem hm.valid.wf.distinct] at e1
  rw [atLeast_mem hn.valid.wf.distinct] at e2
  have h3 : m.tree.count = (elems m.tree.root).length := hm.valid.count
  have h4 : n.tree.count = (elems n.tree.root).length := hn.valid.count
  omega

/-- C66 for the panics of `Update`. -/
theorem C66_update_partial [Inhabited V] (m n : FMap K V) (hm : m.Reachable) (hn : n.Reachable) (g : Int) :
    ((m.updateC g n).PanicsInCaller ↔ g ≤ 0 ∧ TripleClash m.HasKey n.HasKey) ∧
    ((m.updateC g n).PanicsInOthers ↔ 0 < g ∧ TripleClash m.HasKey n.HasKey) := by
  have hp : (m.updateC g n).Panics ↔ TripleClash m.HasKey n.HasKey := by
    rw [(C11_update hm hn g).panics, ← (C13_panics m n hm hn (fun _ a _ => a)).2]
    refine ⟨fun ⟨e, he⟩ => ?_, fun h => ⟨_, h⟩⟩
    by_contra hc
    rw [(C13_panics m n hm hn (fun _ a _ => a)).2] at hc
    obtain ⟨u, hu, _⟩ := (FMap.update_spec hm.valid hn.valid).2 hc
    rw [hu] at he; cases he
  have h3 : TripleClash m.HasKey n.HasKey → 3 ≤ m.tree.count ∧ 3 ≤ n.tree.count := by
    intro h
    obtain ⟨h1, h2⟩ := tripleClash_three h
    have e1 : AtLeast 3 (memL (elems m.tree.root)) := (atLeast_congr (FMap.memL_iff hm.valid)).2 ((atLeast_keys 3 _).2 h1)
    have e2 : AtLeast 3 (memL (elems n.tree.root)) := (atLeast_congr (FMap.memL_iff hn.valid)).2 ((atLeast_keys 3 _).2 h2)
    rw [atLeast_mem hm.valid.wf.distinct] at e1
    rw [atLeast_mem hn.valid.wf.distinct] at e2
    have h3 : m.tree.count = (elems m.tree.root).length := hm.valid.count
    have h4 : n.tree.count = (elems n.tree.root).length := hn.valid.count
    omega
  unfold FMap.updateC at hp ⊢
  split at hp <;> rename_i hc
  · rw [if_pos hc]
    rw [Call.map_panics] at hp
    rw [Call.map_inCaller, Call.map_inOthers]
    exact Tree.combineC_where hn.valid hm.valid hp (fun h => (h3 h).symm)
  · rw [if_neg hc]
    rw [Call.map_panics] at hp
    rw [Call.map_inCaller, Call.map_inOthers]
    exact Tree.combineC_where hm.valid hn.valid hp h3

/-- A map of three colliding keys, and a map of four of which it has one: `Update` panics, either way round. -/
example : ∃ m n : FMap Coll Nat, m.Reachable ∧ n.Reachable ∧ TripleClash m.HasKey n.HasKey := by
  obtain ⟨m, h1, h2⟩ := of_okAnd (r := newMap ([1, 2, 3].map (fun i => (⟨⟨i⟩, i⟩ : KeyValue Coll Nat)))) (test := fun m =>
    okAnd (newMap ([3, 4, 5, 6].map (fun i => (⟨⟨i⟩, i⟩ : KeyValue Coll Nat)))) (fun n =>
      match m.update n with
      | .error .wtf => true
      | _ => false)) (by decide +kernel)
  obtain ⟨n, h3, h4⟩ := of_okAnd h2
  refine ⟨m, n, ⟨.newMap _, h1⟩, ⟨.newMap _, h3⟩, ?_⟩
  rw [← (C13_panics m n ⟨.newMap _, h1⟩ ⟨.newMap _, h3⟩ (fun _ a _ => a)).2]
  revert h4
  cases m.update n with
  | ok r => intro h; cases h
  | error e => cases e <;> first | exact fun _ => rfl | exact fun h => nomatch h

/-- Two maps with a common key: with goroutines, a panic of `resolve` ends the program. -/
example : ∃ m : FMap Spread Nat, m.Reachable ∧ m.count = 3 ∧ (m.mergeCC 1 m).Called ∧ (m.mergeCC 1 m).CalledByOthers ∧
    (m.mergeCC 0 m).CalledByCaller := by
  obtain ⟨m, h1, h2⟩ := of_okAnd (r := newMap ([1, 2, 3].map (fun i => (⟨⟨i⟩, i⟩ : KeyValue Spread Nat)))) (test := fun m =>
    okAnd (m.update m) (fun _ => decide (m.count = 3) && isOk (m.has ⟨1⟩) true)) (by decide +kernel)
  obtain ⟨u, hu, h2⟩ := of_okAnd h2
  rw [Bool.and_eq_true] at h2
  have hr : m.Reachable := ⟨.newMap _, h1⟩
  have hk : m.HasKey ⟨1⟩ := of_isOk h2.2
  have h3 := of_decide_eq_true h2.1
  have hc : ¬ TripleClash m.HasKey m.HasKey := by
    rw [← (C13_panics m m hr hr (fun _ a _ => a)).2, hu]
    exact fun h => nomatch h
  have := (C66_merge_partial m m hr hr 1).2 (by omega) (by omega) (by omega)
  exact ⟨m, hr, h3, this.2 ⟨_, hk, hk⟩ hc, this.1, (C66_merge_partial m m hr hr 0).1 (.inl (by omega))⟩

end

end Frozen
