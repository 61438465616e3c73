import Verif.Spec.Recover
import Verif.Proof.CallsParOps
import Verif.Proof.Clash

/-! # Recoverable panics -/

set_option linter.unusedSectionVars false

namespace Frozen

variable {Q A X α : Type}

/-! ### Where the user's function is called -/

/-- A state that `.seq x` leads to is alone. -/
theorem CRuns.alone {x : CB Q A (X × Int)} {tr c} (h : CRuns (CComp.seq x) tr c) : c.Alone := by
  induction h with
  | start => trivial
  | call _ hs _ => cases hs with
    | call => trivial
    | kid => simp_all [CComp.Alone]
  | quiet _ hs ih => cases hs with
    | kid => simp_all [CComp.Alone]
    | join => trivial

theorem CRuns.others {mask : Masker} {body : Fin 8 → CComp Q A X} {sets k} (hk : ∀ pm sl ms, CB.MakesV (fun _ _ => True) [] (k pm sl ms))
    {tr c} (h : CRuns (CComp.par mask body sets k) tr c) :
    (∃ body', c = .par mask body' sets k) ∨ ∃ pm sl ms, c = .seq (k pm sl ms) := by
  have noCall : ∀ {pm sl ms l c'}, ¬ CStep (CComp.seq (k pm sl ms)) l c' := by
    intro pm sl ms l c' hs
    have := hk pm sl ms
    generalize k pm sl ms = x at this hs
    cases hs with
    | call q next a => exact this.elim
  induction h with
  | start => exact .inl ⟨_, rfl⟩
  | call _ hs ih =>
    rcases ih with ⟨body', rfl⟩ | ⟨pm, sl, ms, rfl⟩
    · cases hs with
      | kid => exact .inl ⟨_, rfl⟩
    · exact absurd hs noCall
  | quiet _ hs ih =>
    rcases ih with ⟨body', rfl⟩ | ⟨pm, sl, ms, rfl⟩
    · cases hs with
      | kid => exact .inl ⟨_, rfl⟩
      | join => exact .inr ⟨_, _, _, rfl⟩
    · exact absurd hs noCall

theorem calledByCaller_seq (x : CB Q A (X × Int)) (k : X × Int → α) : (CCall.run (.seq x) k).CalledByCaller :=
  fun _ _ h _ _ _ => h.alone

theorem calledByOthers_par {mask : Masker} {body : Fin 8 → CComp Q A X} {sets k} (hk : ∀ pm sl ms, CB.MakesV (fun _ _ => True) [] (k pm sl ms))
    (f : X × Int → α) : (CCall.run (.par mask body sets k) f).CalledByOthers := by
  intro tr c h qa c' hs ha
  rcases h.others hk with ⟨body', rfl⟩ | ⟨pm, sl, ms, rfl⟩
  · exact ha
  · have := hk pm sl ms
    generalize k pm sl ms = x at this hs
    cases hs with
    | call q next a => exact this.elim

/-- From a run that has made a call. -/
theorem CRuns.called {c0 c : CComp Q A X} {tr : List (Q × A)} (h : CRuns c0 tr c) (hn : tr ≠ []) :
    ∃ tr c qa c', CRuns c0 tr c ∧ CStep c (some qa) c' := by
  induction h with
  | start => exact absurd rfl hn
  | call h hs _ => exact ⟨_, _, _, _, h, hs⟩
  | quiet _ _ ih => exact ih hn

theorem CComp.Ends.run [Nonempty A] {c0 : CComp Q A X} (h : c0.Ends) : ∃ tr r, CRuns c0 tr (.seq (.done r)) := by
  obtain ⟨a⟩ := ‹Nonempty A›
  have key : ∀ c : CComp Q A X, Acc (fun c2 c1 => ∃ l, CStep c1 l c2) c → ∀ tr, CRuns c0 tr c → ∃ tr r, CRuns c0 tr (.seq (.done r)) := by
    intro c hc
    induction hc with
    | intro c _ ih =>
      intro tr hr
      rcases (h tr c hr).2 with ⟨r, rfl⟩ | ⟨c', hs⟩ | ⟨q, hs⟩
      · exact ⟨tr, r, hr⟩
      · exact ih c' ⟨_, hs⟩ _ (.quiet hr hs)
      · obtain ⟨c', hs⟩ := hs a
        exact ih c' ⟨_, hs⟩ _ (.call hr hs)
  exact key c0 (h [] c0 .start).1 [] .start

theorem CCall.Once.called [Nonempty A] {qs : List Q} {I : List (Q × A) → α → Prop} {c : CCall Q A α} (h : c.Once qs I) (hn : qs ≠ []) :
    c.Called := by
  cases c with
  | ret a => exact absurd h.1 hn
  | run c0 k =>
    obtain ⟨tr, r, hr⟩ := CComp.Ends.run h.1
    refine hr.called (fun e => hn ?_)
    have := ((h.2 tr _ hr).2 r rfl).1
    rw [e] at this
    exact this.eq_nil

/-- A call by others cannot be a call by the caller. -/
theorem CCall.not_caller {c : CCall Q A α} (h : c.CalledByOthers) (hc : c.Called) : ¬ c.CalledByCaller := by
  cases c with
  | ret a => exact hc.elim
  | run c0 k =>
    obtain ⟨tr, c, qa, c', h1, h2⟩ := hc
    exact fun h' => h tr c h1 qa c' h2 (h' tr c h1 qa c' h2)

section Ops

variable {T : Type} [GoKey T] [LawfulGoKey T]

/-- At the root, three elements make a branch. -/
theorem root_branch {n : Node T} (h : WF 0 n) : (∃ m k, n = .branch m k) ↔ 3 ≤ (elems n).length := by
  cases n with
  | nil => simp [elems]
  | leaf1 a => simp [elems]
  | leaf2 a b => simp [elems]
  | twig l => exact absurd h.1 (by decide)
  | branch m k => exact ⟨fun _ => (WF_branch.1 h).2, fun _ => ⟨m, k, rfl⟩⟩

theorem atLeast_mem {l : List T} (hd : Distinct l) (n : Nat) : AtLeast n (memL l) ↔ n ≤ l.length := by
  have := atLeast_iff hd n (fun _ : T => True) (fun _ => Iff.rfl)
  simpa using this

omit [LawfulGoKey T] in
theorem atLeast_congr {n : Nat} {P Q : T → Prop} (h : ∀ x, P x ↔ Q x) : AtLeast n P ↔ AtLeast n Q := by
  have : P = Q := funext fun x => propext (h x)
  rw [this]

theorem whereCC_caller {g : Int} {n : Node T} (h : WF 0 n) (hg : g ≤ 0 ∨ (elems n).length < 3) : ∃ x, whereCC g n 0 = .seq x := by
  cases n with
  | branch m k =>
    rcases hg with hg | hg
    · unfold whereCC
      rw [if_neg (by simp only [Nat.cast_zero]; omega)]
      exact ⟨_, rfl⟩
    · exact absurd ((root_branch h).1 ⟨m, k, rfl⟩) (by omega)
  | nil => exact ⟨_, rfl⟩
  | leaf1 a => exact ⟨_, rfl⟩
  | leaf2 a b => exact ⟨_, rfl⟩
  | twig l => exact ⟨_, rfl⟩

theorem whereCC_others {g : Int} {n : Node T} (h : WF 0 n) (hg : 0 < g) (h3 : 3 ≤ (elems n).length) (f : (Node T × Bool) × Int → α) :
    (CCall.run (whereCC g n 0) f).CalledByOthers := by
  obtain ⟨m, k, rfl⟩ := (root_branch h).2 h3
  unfold whereCC
  rw [if_pos (by simpa using hg)]
  refine calledByOthers_par (fun pm sl ms => ?_) f
  dsimp only
  split
  · trivial
  · exact CB.makes_lib _

theorem reduceCC_caller [Inhabited T] {g : Int} {n : Node T} (h : WF 0 n) (hg : g ≤ 0 ∨ (elems n).length < 3) : ∃ x, reduceCC g n 0 = .seq x := by
  cases n with
  | branch m k =>
    rcases hg with hg | hg
    · unfold reduceCC
      rw [if_neg (by simp only [Nat.cast_zero]; omega)]
      exact ⟨_, rfl⟩
    · exact absurd ((root_branch h).1 ⟨m, k, rfl⟩) (by omega)
  | nil => exact ⟨_, rfl⟩
  | leaf1 a => exact ⟨_, rfl⟩
  | leaf2 a b => exact ⟨_, rfl⟩
  | twig l => exact ⟨_, rfl⟩

theorem bind_done {R S : Type} {x : CB Q A R} {f : R → CB Q A S} {s : S} (h : x.bind f = .done s) : ∃ r, f r = .done s := by
  cases x with
  | done r => exact ⟨r, h⟩
  | panic p => cases h
  | call q next => cases h

theorem reduceE_not_done [Inhabited T] (n : Node T) (r : T) : reduceE n ≠ .done r := by
  intro h
  cases n with
  | nil => cases h
  | leaf1 a => cases h
  | leaf2 a b => cases h
  | twig l => cases h
  | branch m k =>
    unfold reduceE at h
    obtain ⟨_, h⟩ := bind_done h
    obtain ⟨_, h⟩ := bind_done h
    cases h

/-- `Reduce` begins with a call. -/
theorem reduceCC_call [Inhabited T] (g : Int) : ∀ (n : Node T) (d : Nat), WF d n → n.isNil = false →
    ∃ q, ∀ a, ∃ c', CStep (reduceCC g n d) (some (q, a)) c' := by
  have seq : ∀ (n : Node T) (d : Nat), WF d n → n.isNil = false →
      ∃ q, ∀ a, ∃ c', CStep (CComp.seq ((reduceE n).bind (fun x => .done (x, (0 : Int))))) (some (q, a)) c' := by
    intro n d h hn
    rcases CSpends.progress _ (cspends_reduceSeq h hn) with ⟨r, hr⟩ | ⟨c', hs⟩ | hs
    · have hr := CComp.seq.inj hr
      cases he : reduceE n with
      | done r' => exact absurd he (reduceE_not_done n r')
      | panic p => rw [he] at hr; cases hr
      | call q next => rw [he] at hr; cases hr
    · generalize (reduceE n).bind _ = x at hs
      cases hs
    · exact hs
  intro n
  induction n with
  | nil => intro d _ hn; cases hn
  | leaf1 a => exact seq _
  | leaf2 a b => exact seq _
  | twig l => exact seq _
  | branch m k ih =>
    intro d h hn
    by_cases hg : (d : Int) < g
    · have hs := (WF_branch.1 h).1
      obtain ⟨i, hi⟩ : ∃ i, i ∈ m.indices := by
        rw [indices_eq_slots (maskOk_wf hs)]
        exact List.exists_mem_of_ne_nil _ (slots_ne_nil h)
      have hk : (k i).isNil = false := by
        have := mask_bit hs i
        rw [mem_indices.1 hi] at this
        simpa using this.symm
      obtain ⟨q, hq⟩ := ih i (d + 1) (hs.2.2.1 i) hk
      refine ⟨q, fun a => ?_⟩
      obtain ⟨c', hc⟩ := hq a
      unfold reduceCC
      rw [if_pos hg]
      exact ⟨_, .kid _ _ _ _ i c' _ hi hc⟩
    · unfold reduceCC
      rw [if_neg hg]
      exact seq _ d h hn

theorem combineCC_caller {g : Int} {eq : T → T → Bool} {a b : Node T} (ha : WF 0 a) (hb : WF 0 b)
    (hg : g ≤ 0 ∨ (elems a).length < 3 ∨ (elems b).length < 3) : ∃ x, combineCC g eq a b 0 = .seq x := by
  cases a with
  | branch m k =>
    cases b with
    | branch m2 k2 =>
      have h1 := (root_branch ha).1 ⟨m, k, rfl⟩
      have h2 := (root_branch hb).1 ⟨m2, k2, rfl⟩
      unfold combineCC
      dsimp only
      rw [if_neg (by simp only [Nat.cast_zero]; omega)]
      exact ⟨_, rfl⟩
    | nil => exact ⟨_, rfl⟩
    | leaf1 a => exact ⟨_, rfl⟩
    | leaf2 a b => exact ⟨_, rfl⟩
    | twig l => exact ⟨_, rfl⟩
  | nil => exact ⟨_, rfl⟩
  | leaf1 a => exact ⟨_, rfl⟩
  | leaf2 a b => exact ⟨_, rfl⟩
  | twig l => exact ⟨_, rfl⟩

end Ops

/-! ### Panics of the library -/

theorem step_panic {s : St X} : Step s none ↔ s.OwnPanic ∨ ∃ fr kids v i, s = .par fr kids v ∧ Step (kids i) none := by
  constructor
  · intro h
    cases h with
    | seqPanic e => exact .inl (.seq e)
    | kidPanic fr kids v i h => exact .inr ⟨fr, kids, v, i, rfl, h⟩
    | failPanic fr kids v m rest n e ht hr hw hc hk => exact .inl (.fail fr kids v m rest n e ht hr hw hc hk)
    | finishPanic fr kids v e ht hr hw hk => exact .inl (.finish fr kids v e ht hr hw hk)
  · rintro (h | ⟨fr, kids, v, i, rfl, h⟩)
    · cases h with
      | seq e => exact .seqPanic e
      | fail fr kids v m rest n e ht hr hw hc hk => exact .failPanic fr kids v m rest n e ht hr hw hc hk
      | finish fr kids v e ht hr hw hk => exact .finishPanic fr kids v e ht hr hw hk
    · exact .kidPanic fr kids v i h

/-- A panic is a panic in one of the goroutines. -/
theorem Call.panics_iff (c : Call α) : c.Panics ↔ c.PanicsInCaller ∨ c.PanicsInOthers := by
  cases c with
  | seq r => simp [Call.Panics, Call.PanicsInCaller, Call.PanicsInOthers]
  | run c k =>
    constructor
    · rintro (⟨s, h1, h2⟩ | h)
      · rcases step_panic.1 h2 with h3 | ⟨fr, kids, v, i, rfl, h3⟩
        · exact .inl (.inl ⟨s, h1, h3⟩)
        · exact .inr ⟨fr, kids, v, i, h1, h3⟩
      · exact .inl (.inr h)
    · rintro ((⟨s, h1, h2⟩ | h) | ⟨fr, kids, v, i, h1, h2⟩)
      · exact .inl ⟨s, h1, step_panic.2 (.inl h2)⟩
      · exact .inr h
      · exact .inl ⟨_, h1, .kidPanic fr kids v i h2⟩

theorem Call.map_inCaller {β : Type} (c : Call α) (f : α → β) : (c.map f).PanicsInCaller ↔ c.PanicsInCaller := by
  cases c with
  | seq r => cases r <;> simp [Call.map, Call.PanicsInCaller, Except.map]
  | run c k =>
    simp only [Call.map, Call.PanicsInCaller]
    refine or_congr Iff.rfl ?_
    refine exists_congr fun s => exists_congr fun r => exists_congr fun e => ?_
    rw [except_map_error]

theorem Call.map_inOthers {β : Type} (c : Call α) (f : α → β) : (c.map f).PanicsInOthers ↔ c.PanicsInOthers := by
  cases c <;> rfl

theorem inOthers_seq (r : Go (X × Bool × Int)) (k : X × Bool × Int → Go α) : ¬ (Call.run (.seq r) k).PanicsInOthers := by
  rintro ⟨fr, kids, v, i, h, _⟩
  have : ∀ s, Reaches (Comp.seq r) s → s = .start (.seq r) ∨ ∃ r', s = .done r' := by
    intro s hs
    induction hs with
    | start => exact .inl rfl
    | step _ hst ih =>
      rcases ih with rfl | ⟨r', rfl⟩
      · cases hst with
        | seqOk r => exact .inr ⟨_, rfl⟩
      · cases hst
  rcases this _ h with h | ⟨_, h⟩ <;> cases h

/-- If the code after `Parallel` cannot panic, only the goroutines can. -/
theorem inCaller_par {mask : Masker} {body : Fin 8 → Comp X} {sets k} (hk : ∀ pm sl ok ms, ∃ r, k pm sl ok ms = .ok r)
    {f : X × Bool × Int → Go α} (hf : ∀ r, ∃ a, f r = .ok a) : ¬ (Call.run (.par mask body sets k) f).PanicsInCaller := by
  rintro (⟨s, hs, hp⟩ | ⟨s, r, e, _, _, he⟩)
  · have : (s = .start (.par mask body sets k)) ∨ ∃ kids v, s = .par ⟨mask, body, sets, k⟩ kids v := by
      clear hp
      induction hs with
      | start => exact .inl rfl
      | step _ hst ih =>
        rcases ih with rfl | ⟨kids, v, rfl⟩
        · cases hst with
          | enter => exact .inr ⟨_, _, rfl⟩
        · cases hst <;> exact .inr ⟨_, _, rfl⟩
    rcases this with rfl | ⟨kids, v, rfl⟩
    · cases hp
    · cases hp with
      | fail _ _ _ _ _ _ e _ _ _ _ h => obtain ⟨r, hr⟩ := hk v.mask v.slots false v.acc; cases h.symm.trans hr
      | finish _ _ _ e _ _ _ h => obtain ⟨r, hr⟩ := hk v.mask v.slots true v.acc; cases h.symm.trans hr
  · obtain ⟨a, ha⟩ := hf r; rw [he] at ha; cases ha

section Ops

variable {T : Type} [GoKey T] [LawfulGoKey T]

theorem combineC_seq {g : Int} {args : CombineArgs T} {a b : Node T} (ha : WF 0 a) (hb : WF 0 b)
    (hg : g ≤ 0 ∨ (elems a).length < 3 ∨ (elems b).length < 3) : ∃ r, combineC g a args b 0 = .seq r := by
  cases a with
  | branch m k =>
    cases b with
    | branch m2 k2 =>
      have h1 := (root_branch ha).1 ⟨m, k, rfl⟩
      have h2 := (root_branch hb).1 ⟨m2, k2, rfl⟩
      unfold combineC
      dsimp only
      rw [if_neg (by simp only [Nat.cast_zero]; omega)]
      exact ⟨_, rfl⟩
    | nil => exact ⟨_, rfl⟩
    | leaf1 a => exact ⟨_, rfl⟩
    | leaf2 a b => exact ⟨_, rfl⟩
    | twig l => exact ⟨_, rfl⟩
  | nil => exact ⟨_, rfl⟩
  | leaf1 a => exact ⟨_, rfl⟩
  | leaf2 a b => exact ⟨_, rfl⟩
  | twig l => exact ⟨_, rfl⟩

theorem Tree.combineC_inOthers {g : Int} {args : CombineArgs T} {t u : Tree T} (ht : t.Valid) (hu : u.Valid)
    (hg : g ≤ 0 ∨ t.count < 3 ∨ u.count < 3) : ¬ (t.combineC g args u).PanicsInOthers := by
  unfold Tree.combineC
  split
  · exact id
  split
  · exact id
  rw [ht.count, hu.count] at hg
  obtain ⟨r, hr⟩ := combineC_seq (args := args) ht.wf hu.wf (g := g) (by omega)
  rw [hr]
  exact inOthers_seq _ _

theorem Tree.combineC_inCaller {g : Int} {args : CombineArgs T} {t u : Tree T} (ht : t.Valid) (hu : u.Valid)
    (hg : 0 < g) (h1 : 3 ≤ t.count) (h2 : 3 ≤ u.count) : ¬ (t.combineC g args u).PanicsInCaller := by
  rw [ht.count] at h1
  rw [hu.count] at h2
  obtain ⟨m, k, hm⟩ := (root_branch ht.wf).2 (by omega)
  obtain ⟨m2, k2, hm2⟩ := (root_branch hu.wf).2 (by omega)
  unfold Tree.combineC
  rw [hm, hm2]
  simp only [Node.isNil, Bool.false_eq_true, if_false]
  unfold Frozen.combineC
  dsimp only
  rw [if_pos (by simpa using hg)]
  exact inCaller_par (fun _ _ _ _ => ⟨_, rfl⟩) (fun _ => ⟨_, rfl⟩)

theorem tripleClash_three {P Q : T → Prop} (h : TripleClash P Q) : AtLeast 3 P ∧ AtLeast 3 Q := by
  obtain ⟨x, y, _, _, _, ⟨l, a1, a2, a3⟩, ⟨l', b1, b2, b3⟩, _⟩ := h
  exact ⟨⟨l, a1, a2, fun e he => (a3 e he).1⟩, ⟨l', b1, b2, fun e he => (b3 e he).1⟩⟩

/-- Where the panics of a merge happen, given when it panics. -/
theorem Tree.combineC_where {g : Int} {args : CombineArgs T} {t u : Tree T} (ht : t.Valid) (hu : u.Valid) {C : Prop}
    (hp : (t.combineC g args u).Panics ↔ C) (h3 : C → 3 ≤ t.count ∧ 3 ≤ u.count) :
    ((t.combineC g args u).PanicsInCaller ↔ g ≤ 0 ∧ C) ∧ ((t.combineC g args u).PanicsInOthers ↔ 0 < g ∧ C) := by
  rw [Call.panics_iff] at hp
  rcases Int.lt_or_le 0 g with hg | hg
  · have hn : ¬ g ≤ 0 := by omega
    by_cases hc : C
    · obtain ⟨a, b⟩ := h3 hc
      have := Tree.combineC_inCaller (args := args) ht hu hg a b
      have h := hp.2 hc
      exact ⟨⟨fun h => absurd h this, fun h => absurd h.1 hn⟩, ⟨fun _ => ⟨hg, hc⟩, fun _ => h.resolve_left this⟩⟩
    · exact ⟨⟨fun h => absurd (hp.1 (.inl h)) hc, fun h => absurd h.1 hn⟩, ⟨fun h => absurd (hp.1 (.inr h)) hc, fun h => absurd h.2 hc⟩⟩
  · have hn : ¬ 0 < g := by omega
    have := Tree.combineC_inOthers (args := args) ht hu (.inl hg)
    exact ⟨⟨fun h => ⟨hg, hp.1 (.inl h)⟩, fun h => (hp.2 h.2).resolve_right this⟩, ⟨fun h => absurd h this, fun h => absurd h.1 hn⟩⟩

end Ops

end Frozen
