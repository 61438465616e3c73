import Verif.Proof.MemIter

/-! Histories with iterators. -/

set_option linter.unusedSectionVars false

namespace Frozen

variable {T : Type}

theorem RepLeaf.shape {H H' : Mem T} {S W : Set Loc} {l : LeafIter T} {v : Iter T} (h : RepLeaf H S l v) (hc : Changes W H H')
    (hd : ∀ a, .cell a ∈ S → .cell a ∉ W) : ∃ v', RepLeaf H' S l v' := by
  cases h with
  | empty => exact ⟨_, .empty⟩
  | own x i => exact ⟨_, .own x i⟩
  | leaf2 i h hF => exact ⟨_, .leaf2 i (hc.cell h (hd _ hF)) hF⟩
  | twig i ha hFa hl hs =>
    obtain ⟨la', h1, h2⟩ := hc.len _ _ ha
    exact ⟨_, .twig i h1 hFa (Nat.le_trans hl h2) rfl⟩

theorem RepIt.shape {H H' : Mem T} {S W : Set Loc} {bufs : List IterBuf} {d : Nat} {ls : List (Nat × Nat)} {l : LeafIter T} {it : Iter T}
    (h : RepIt H S bufs d ls l it) (hc : Changes W H H') (hd : ∀ a, .cell a ∈ S → .cell a ∉ W) : ∃ v', RepIt H' S bufs d ls l v' := by
  induction h with
  | leaf h =>
    obtain ⟨v', h'⟩ := h.shape hc hd
    exact ⟨v', .leaf h'⟩
  | packer hs hp hd' h hF hk hb _ ih =>
    obtain ⟨v', h'⟩ := ih
    have hk' : ∀ i, ∃ n, Rep H' S _ _ n := fun i => (hk i).shape hc (fun a ha hw => absurd hw (hd a ha))
    choose kn hkn using hk'
    exact ⟨_, .packer hs hp hd' (hc.cell h (hd _ hF)) hF hkn hb h'⟩

variable [GoKey T] [LawfulGoKey T]

/-- What holds after any number of calls. -/
structure IInv (strict : Bool) (w : IWorld T) (lw : LWorld T) (S : Set Loc) (B : Nat → Set Loc) : Prop where
  inv : HistInv strict w.world lw.world S B
  iters : ∀ (j : Nat) (it : MIter T), w.iters[j]? = some it → ∃ v, it.Is w.world.mem S v ∧
    (strict = true → ∃ l, lw.iters[j]? = some l ∧ Tracks v l)
  ilen : strict = true → w.iters.length = lw.iters.length
  seen : strict = true → w.seen = lw.seen
  nexts : ∀ j r, (j, IAnswer.next r) ∈ w.seen → ∃ b, r = some b

theorem IInv.init (strict : Bool) : IInv strict (IWorld.init : IWorld T) ⟨⟨[], []⟩, [], []⟩ ∅ (fun _ => ∅) :=
  ⟨HistInv.init strict, fun j it h => by simp [IWorld.init] at h, fun _ => rfl, fun _ => rfl, fun j r h => by simp [IWorld.init] at h⟩

/-- The world of the calls alone. -/
def IOp.apply (G : Growth) (w : World T) : IOp T → World T
  | .call op => w.step G op
  | _ => w

theorem iop_calls (G : Growth) : ∀ (ops : List (IOp T)) (w : World T), ops.foldl (IOp.apply G) w = w.run G (IOp.calls ops)
  | [], _ => rfl
  | op :: ops, w => by
    rw [List.foldl_cons, iop_calls G ops]
    cases op <;> rfl

theorem istep_ok (G : Growth) {strict : Bool} {w : IWorld T} {lw : LWorld T} {S : Set Loc} {B : Nat → Set Loc} (h : IInv strict w lw S B)
    (op : IOp T) (hu : strict = true → ∀ o, op = .call o → Uncrowded w.world o) :
    (∃ S' B', S ⊆ S' ∧ IInv strict (w.step G op) (lw.step op) S' B') ∧ (w.step G op).world = op.apply G w.world := by
  cases op with
  | call o =>
    have hst := step_ok G h.inv o (fun hs => hu hs o rfl)
    obtain ⟨S', B', ⟨hsub, _, _⟩, hi⟩ := hst.inv
    obtain ⟨W, hc, hW, _, hcell⟩ := hst.chg
    refine ⟨⟨S', B', hsub, hi, ?_, h.ilen, h.seen, h.nexts⟩, rfl⟩
    intro j it hj
    obtain ⟨v, hv, ht⟩ := h.iters j it hj
    cases strict with
    | true => exact ⟨v, (RepIt.frame hv hc (hW (.inr rfl))).mono hsub, ht⟩
    | false =>
      obtain ⟨v', hv'⟩ := RepIt.shape hv hc hcell
      exact ⟨v', hv'.mono hsub, (nomatch ·)⟩
  | range i =>
    cases hs : w.world.sets[i]? with
    | none =>
      have h1 : w.step G (.range i) = w := by simp only [IWorld.step, hs]
      rw [h1]
      refine ⟨⟨S, B, fun _ h => h, ?_⟩, rfl⟩
      cases strict with
      | true =>
        have h2 : lw.step (.range i) = lw := by simp only [LWorld.step, none_sets h.inv hs]
        rw [h2]; exact h
      | false =>
        have h2 : (lw.step (.range i)).world = lw.world := by
          simp only [LWorld.step]
          cases lw.world.sets[i]? with
          | none => rfl
          | some s => dsimp only; cases s.rangeList <;> rfl
        exact ⟨by rw [h2]; exact h.inv, fun j it hj => by obtain ⟨v, hv, _⟩ := h.iters j it hj; exact ⟨v, hv, (nomatch ·)⟩,
          (nomatch ·), (nomatch ·), h.nexts⟩
    | some s =>
      obtain ⟨n, hn, hv⟩ := h.inv.sets i s hs
      obtain ⟨it, v, h1, h2, h3⟩ := MTree.iterator_eq G hn
      have h4 : w.step G (.range i) = ⟨w.world, w.iters ++ [it], w.seen⟩ := by simp only [IWorld.step, hs, h2]
      rw [h4]
      refine ⟨⟨S, B, fun _ h => h, ?_⟩, rfl⟩
      have h5 : (lw.step (.range i)).world = lw.world ∧ (lw.step (.range i)).seen = lw.seen := by
        simp only [LWorld.step]
        cases lw.world.sets[i]? with
        | none => exact ⟨rfl, rfl⟩
        | some s => dsimp only; cases s.rangeList <;> exact ⟨rfl, rfl⟩
      have h6 : strict = true → (lw.step (.range i)).iters = lw.iters ++ [⟨elems n, 0⟩] := fun hst => by
        simp only [LWorld.step, (hv hst).1, rangeList_spec (hv hst).2.nodeOk]; rfl
      refine ⟨by rw [h5.1]; exact h.inv, ?_, ?_, ?_, h.nexts⟩
      · intro j it' hj
        dsimp only at hj
        rcases getElem?_snoc hj with hj | ⟨rfl, rfl⟩
        · obtain ⟨v', hv', ht⟩ := h.iters j it' hj
          refine ⟨v', hv', fun hst => ?_⟩
          obtain ⟨l, hl, ht⟩ := ht hst
          exact ⟨l, by rw [h6 hst, List.getElem?_append_left (getElem?_lt hl)]; exact hl, ht⟩
        · refine ⟨v, h3, fun hst => ⟨⟨elems n, 0⟩, ?_, iterator_tracks (hv hst).2.nodeOk h1⟩⟩
          rw [h6 hst, h.ilen hst, List.getElem?_append_right (Nat.le_refl _), Nat.sub_self]; rfl
      · intro hst; rw [h6 hst]; simp [h.ilen hst]
      · intro hst; rw [h5.2]; exact h.seen hst
  | next j =>
    cases hj : w.iters[j]? with
    | none =>
      have h1 : w.step G (.next j) = w := by simp only [IWorld.step, hj]
      rw [h1]
      refine ⟨⟨S, B, fun _ h => h, ?_⟩, rfl⟩
      cases strict with
      | true =>
        have : lw.iters[j]? = none := by
          rw [List.getElem?_eq_none_iff] at hj ⊢; rw [← h.ilen rfl]; exact hj
        have h2 : lw.step (.next j) = lw := by simp only [LWorld.step, this]
        rw [h2]; exact h
      | false =>
        have h2 : (lw.step (.next j)).world = lw.world := by simp only [LWorld.step]; cases lw.iters[j]? <;> rfl
        exact ⟨by rw [h2]; exact h.inv, fun j it hj => by obtain ⟨v, hv, _⟩ := h.iters j it hj; exact ⟨v, hv, (nomatch ·)⟩,
          (nomatch ·), (nomatch ·), h.nexts⟩
    | some it =>
      obtain ⟨v, hv, ht⟩ := h.iters j it hj
      obtain ⟨it', v', ok, h1, h2, h3⟩ := MIter.next_eq G hv
      have h4 : w.step G (.next j) = ⟨w.world, w.iters.set j it', w.seen ++ [(j, .next (some ok))]⟩ := by simp only [IWorld.step, hj, h2]
      rw [h4]
      refine ⟨⟨S, B, fun _ h => h, ?_⟩, rfl⟩
      have h5 : (lw.step (.next j)).world = lw.world := by simp only [LWorld.step]; cases lw.iters[j]? <;> rfl
      have h6 : strict = true → ∃ l, lw.iters[j]? = some l ∧ (lw.step (.next j)).iters = lw.iters.set j l.next.1 ∧
          (lw.step (.next j)).seen = lw.seen ++ [(j, .next (some ok))] ∧ Tracks v' l.next.1 := fun hst => by
        obtain ⟨l, hl, hlt⟩ := ht hst
        obtain ⟨v2, e1, e2⟩ := hlt.next
        rw [h1] at e1
        simp only [Except.ok.injEq, Prod.mk.injEq] at e1
        obtain ⟨rfl, rfl⟩ := e1
        exact ⟨l, hl, by simp only [LWorld.step, hl], by simp only [LWorld.step, hl], e2⟩
      refine ⟨by rw [h5]; exact h.inv, ?_, ?_, ?_, ?_⟩
      · intro j' it2 hj'
        dsimp only at hj'
        by_cases hjj : j = j'
        · subst hjj
          rw [List.getElem?_set_self (getElem?_lt hj)] at hj'
          cases hj'
          refine ⟨v', h3, fun hst => ?_⟩
          obtain ⟨l, e1, e2, _, e3⟩ := h6 hst
          exact ⟨_, by rw [e2, List.getElem?_set_self (getElem?_lt e1)], e3⟩
        · rw [List.getElem?_set_ne hjj] at hj'
          obtain ⟨v2, e1, e2⟩ := h.iters j' it2 hj'
          refine ⟨v2, e1, fun hst => ?_⟩
          obtain ⟨l, e3, e4, _⟩ := h6 hst
          obtain ⟨l2, e5, e6⟩ := e2 hst
          exact ⟨l2, by rw [e4, List.getElem?_set_ne hjj]; exact e5, e6⟩
      · intro hst
        obtain ⟨l, _, e2, _⟩ := h6 hst
        rw [e2]; simp [h.ilen hst]
      · intro hst
        obtain ⟨l, _, _, e2, _⟩ := h6 hst
        rw [e2, h.seen hst]
      · intro j' r hr
        rcases List.mem_append.1 hr with hr | hr
        · exact h.nexts j' r hr
        · simp only [List.mem_singleton, Prod.mk.injEq, IAnswer.next.injEq] at hr
          exact ⟨ok, hr.2⟩
  | value j =>
    cases hj : w.iters[j]? with
    | none =>
      have h1 : w.step G (.value j) = w := by simp only [IWorld.step, hj]
      rw [h1]
      refine ⟨⟨S, B, fun _ h => h, ?_⟩, rfl⟩
      cases strict with
      | true =>
        have : lw.iters[j]? = none := by
          rw [List.getElem?_eq_none_iff] at hj ⊢; rw [← h.ilen rfl]; exact hj
        have h2 : lw.step (.value j) = lw := by simp only [LWorld.step, this]
        rw [h2]; exact h
      | false =>
        have h2 : (lw.step (.value j)).world = lw.world := by simp only [LWorld.step]; cases lw.iters[j]? <;> rfl
        exact ⟨by rw [h2]; exact h.inv, fun j it hj => by obtain ⟨v, hv, _⟩ := h.iters j it hj; exact ⟨v, hv, (nomatch ·)⟩,
          (nomatch ·), (nomatch ·), h.nexts⟩
    | some it =>
      obtain ⟨v, hv, ht⟩ := h.iters j it hj
      have h2 : it.value w.world.mem = (v.value, w.world.mem) := value_sim hv
      have h4 : w.step G (.value j) = ⟨w.world, w.iters, w.seen ++ [(j, .value v.value.toOption)]⟩ := by simp only [IWorld.step, hj, h2]
      rw [h4]
      refine ⟨⟨S, B, fun _ h => h, ?_⟩, rfl⟩
      have h5 : (lw.step (.value j)).world = lw.world ∧ (lw.step (.value j)).iters = lw.iters := by
        simp only [LWorld.step]; cases lw.iters[j]? <;> exact ⟨rfl, rfl⟩
      refine ⟨by rw [h5.1]; exact h.inv, by rw [h5.2]; exact h.iters, by rw [h5.2]; exact h.ilen, ?_, ?_⟩
      · intro hst
        obtain ⟨l, e1, e2⟩ := ht hst
        simp only [LWorld.step, e1, h.seen hst, e2.value]
      · intro j' r hr
        rcases List.mem_append.1 hr with hr | hr
        · exact h.nexts j' r hr
        · simp at hr

theorem irun_inv (G : Growth) {strict : Bool} : ∀ (ops : List (IOp T)) {w : IWorld T} {lw : LWorld T} {S : Set Loc} {B : Nat → Set Loc},
    IInv strict w lw S B → (strict = true → UncrowdedRun G w.world (IOp.calls ops)) →
    (∃ S' B', IInv strict (w.run G ops) (lw.run ops) S' B') ∧ (w.run G ops).world = w.world.run G (IOp.calls ops)
  | [], _, _, S, B, h, _ => ⟨⟨S, B, h⟩, rfl⟩
  | op :: ops, w, lw, S, B, h, hu => by
    obtain ⟨⟨S', B', _, h'⟩, hw⟩ := istep_ok G h op (fun hs o ho => by subst ho; exact (hu hs).1)
    have := irun_inv G ops h' (fun hs => by
      rw [hw]
      have := hu hs
      cases op with
      | call o => exact this.2
      | range i => exact this
      | next j => exact this
      | value j => exact this)
    refine ⟨this.1, ?_⟩
    show ((w.step G op).run G ops).world = _
    rw [this.2, hw]
    cases op <;> rfl

omit [GoKey T] [LawfulGoKey T] in
theorem filter_snoc_ne {α : Type} {l : List (Nat × α)} {i j : Nat} (a : α) (h : i ≠ j) :
    (l ++ [(i, a)]).filter (fun x => x.1 == j) = l.filter (fun x => x.1 == j) := by
  rw [List.filter_append]
  simp [h]

/-- Operations elsewhere leave an iterator and its answers alone. -/
theorem istep_other (G : Growth) {w : IWorld T} {lw : LWorld T} {S : Set Loc} {B : Nat → Set Loc} (h : IInv false w lw S B)
    (op : IOp T) (j : Nat) (hop : op.isOn j = false) (ho : ∀ o, op = .call o → o.mayAppend = false) {it : MIter T} {v : Iter T}
    (hj : w.iters[j]? = some it) (hv : it.Is w.world.mem S v) :
    ∃ S' B', IInv false (w.step G op) (lw.step op) S' B' ∧ (w.step G op).iters[j]? = some it ∧ it.Is (w.step G op).world.mem S' v ∧
      (w.step G op).seen.filter (fun x => x.1 == j) = w.seen.filter (fun x => x.1 == j) := by
  obtain ⟨⟨S', B', hsub, h'⟩, hw⟩ := istep_ok G h op (nomatch ·)
  refine ⟨S', B', h', ?_⟩
  cases op with
  | call o =>
    obtain ⟨W, hc, hW, _⟩ := (step_ok G h.inv o (nomatch ·)).chg
    exact ⟨hj, (RepIt.frame hv hc (hW (.inl (ho o rfl)))).mono hsub, rfl⟩
  | range i =>
    rw [hw]
    refine ⟨?_, RepIt.mono hv hsub, ?_⟩
    · simp only [IWorld.step]
      cases w.world.sets[i]? with
      | none => exact hj
      | some s =>
        dsimp only
        rcases s.iterator G w.world.mem with ⟨_ | it', H⟩
        · exact hj
        · show (w.iters ++ [it'])[j]? = some it
          rw [List.getElem?_append_left (getElem?_lt hj)]; exact hj
    · simp only [IWorld.step]
      cases w.world.sets[i]? with
      | none => rfl
      | some s =>
        dsimp only
        rcases s.iterator G w.world.mem with ⟨_ | it', H⟩ <;> rfl
  | next i =>
    have hij : i ≠ j := by simpa [IOp.isOn] using hop
    rw [hw]
    refine ⟨?_, RepIt.mono hv hsub, ?_⟩
    · simp only [IWorld.step]
      cases w.iters[i]? with
      | none => exact hj
      | some it' =>
        dsimp only
        rcases it'.next G w.world.mem with ⟨_ | ⟨it2, ok⟩, H⟩
        · exact hj
        · show (w.iters.set i it2)[j]? = some it
          rw [List.getElem?_set_ne hij]; exact hj
    · simp only [IWorld.step]
      cases w.iters[i]? with
      | none => rfl
      | some it' =>
        dsimp only
        rcases it'.next G w.world.mem with ⟨_ | ⟨it2, ok⟩, H⟩ <;> exact filter_snoc_ne _ hij
  | value i =>
    have hij : i ≠ j := by simpa [IOp.isOn] using hop
    rw [hw]
    refine ⟨?_, RepIt.mono hv hsub, ?_⟩
    · simp only [IWorld.step]
      cases w.iters[i]? <;> exact hj
    · simp only [IWorld.step]
      cases w.iters[i]? with
      | none => rfl
      | some it' => exact filter_snoc_ne _ hij

/-- Operations on the iterator itself do the same in both worlds. -/
theorem istep_own (G : Growth) {w : IWorld T} {lw : LWorld T} {S : Set Loc} {B : Nat → Set Loc} (h : IInv false w lw S B)
    (op : IOp T) (j : Nat) (hop : op.isOn j = true) {it : MIter T} {v : Iter T} (hj : w.iters[j]? = some it) (hv : it.Is w.world.mem S v) :
    ∃ S' B' it', IInv false (w.step G op) (lw.step op) S' B' ∧ (w.step G op).iters[j]? = some it' ∧
      ((op = .next j ∧ ∃ v' ok, v.next = .ok (v', ok) ∧ it'.Is (w.step G op).world.mem S' v' ∧
          (w.step G op).seen = w.seen ++ [(j, .next (some ok))]) ∨
        (op = .value j ∧ it'.Is (w.step G op).world.mem S' v ∧ (w.step G op).seen = w.seen ++ [(j, .value v.value.toOption)])) := by
  obtain ⟨⟨S', B', hsub, h'⟩, hw⟩ := istep_ok G h op (nomatch ·)
  cases op with
  | call o => cases hop
  | range i => cases hop
  | next i =>
    obtain rfl : i = j := by simpa [IOp.isOn] using hop
    obtain ⟨it', v', ok, h1, h2, h3⟩ := MIter.next_eq G hv
    have h4 : w.step G (.next i) = ⟨w.world, w.iters.set i it', w.seen ++ [(i, .next (some ok))]⟩ := by simp only [IWorld.step, hj, h2]
    refine ⟨S', B', it', h', ?_, .inl ⟨rfl, v', ok, h1, ?_, ?_⟩⟩
    · rw [h4]; exact List.getElem?_set_self (getElem?_lt hj)
    · rw [h4]; exact RepIt.mono h3 hsub
    · rw [h4]
  | value i =>
    obtain rfl : i = j := by simpa [IOp.isOn] using hop
    have h2 : it.value w.world.mem = (v.value, w.world.mem) := value_sim hv
    have h4 : w.step G (.value i) = ⟨w.world, w.iters, w.seen ++ [(i, .value v.value.toOption)]⟩ := by simp only [IWorld.step, hj, h2]
    refine ⟨S', B', it, h', ?_, .inr ⟨rfl, ?_, ?_⟩⟩
    · rw [h4]; exact hj
    · rw [h4]; exact RepIt.mono hv hsub
    · rw [h4]

theorem irun_undisturbed (G : Growth) (j : Nat) : ∀ (ops : List (IOp T)) {w w2 : IWorld T} {lw lw2 : LWorld T} {S S2 : Set Loc}
    {B B2 : Nat → Set Loc}, IInv false w lw S B → IInv false w2 lw2 S2 B2 → (∀ o ∈ IOp.calls ops, o.mayAppend = false) →
    ∀ {it it2 : MIter T} {v : Iter T}, w.iters[j]? = some it → it.Is w.world.mem S v → w2.iters[j]? = some it2 → it2.Is w2.world.mem S2 v →
    w.seen.filter (fun x => x.1 == j) = w2.seen.filter (fun x => x.1 == j) →
    (w.run G ops).seen.filter (fun x => x.1 == j) = (w2.run G (ops.filter (IOp.isOn j))).seen.filter (fun x => x.1 == j)
  | [], _, _, _, _, _, _, _, _, _, _, _, _, _, _, _, _, _, _, hseen => hseen
  | op :: ops, w, w2, lw, lw2, S, S2, B, B2, h, h2, ho, it, it2, v, hj, hv, hj2, hv2, hseen => by
    have ho' : ∀ o ∈ IOp.calls ops, o.mayAppend = false := fun o hm => ho o (by
      cases op <;> simp only [IOp.calls, List.filterMap_cons] at hm ⊢
      · exact List.mem_cons_of_mem _ hm
      all_goals exact hm)
    cases hon : op.isOn j with
    | false =>
      obtain ⟨S', B', e1, e2, e3, e4⟩ := istep_other G h op j hon (fun o he => ho o (by subst he; simp [IOp.calls])) hj hv
      rw [List.filter_cons_of_neg (by simp [hon])]
      exact irun_undisturbed G j ops e1 h2 ho' e2 e3 hj2 hv2 (e4.trans hseen)
    | true =>
      rw [List.filter_cons_of_pos hon]
      obtain ⟨S', B', it', e1, e2, e3⟩ := istep_own G h op j hon hj hv
      obtain ⟨S2', B2', it2', f1, f2, f3⟩ := istep_own G h2 op j hon hj2 hv2
      rcases e3 with ⟨rfl, v', ok, a1, a2, a3⟩ | ⟨rfl, a2, a3⟩
      · rcases f3 with ⟨_, v2', ok2, b1, b2, b3⟩ | ⟨hne, _⟩
        · rw [a1] at b1
          simp only [Except.ok.injEq, Prod.mk.injEq] at b1
          obtain ⟨rfl, rfl⟩ := b1
          exact irun_undisturbed G j ops e1 f1 ho' e2 a2 f2 b2 (by rw [a3, b3, List.filter_append, List.filter_append, hseen])
        · cases hne
      · rcases f3 with ⟨hne, _⟩ | ⟨_, b2, b3⟩
        · cases hne
        · exact irun_undisturbed G j ops e1 f1 ho' e2 a2 f2 b2 (by rw [a3, b3, List.filter_append, List.filter_append, hseen])

theorem irun_append (G : Growth) (w : IWorld T) (ops ops' : List (IOp T)) : w.run G (ops ++ ops') = (w.run G ops).run G ops' := by
  unfold IWorld.run; rw [List.foldl_append]

end Frozen
