import Verif.Proof.LazyMake

/-! Lazy sets: loops over iterators, and the methods that answer questions. -/

set_option linter.unusedSectionVars false

namespace Frozen

variable {T : Type} [GoKey T] [LawfulGoKey T] {E : LEnv T} {σ : LStore T}

/-- A complete iteration from `i`, delivering the listed values. -/
inductive LTrace (E : LEnv T) : LStore T → LIter T → List T → LStore T → Prop where
  | done {σ σ' : LStore T} {i i' : LIter T} (h : Runs (fun n => LIter.next n σ i) (i', false, σ')) (hs : StoreOk E σ')
      (hl : σ'.length = σ.length) : LTrace E σ i [] σ'
  | step {σ σ1 σ' : LStore T} {i i' : LIter T} {v : T} {vs : List T} (h : Runs (fun n => LIter.next n σ i) (i', true, σ1))
      (hv : i'.value = .ok v) (hs : StoreOk E σ1) (hl : σ1.length = σ.length) (ht : LTrace E σ1 i' vs σ') : LTrace E σ i (v :: vs) σ'

theorem ltrace_aux : ∀ (m : Nat) (σ : LStore T) (i : LIter T), StoreOk E σ → i.IterOk E → i.rk ≤ σ.length → i.mu E ≤ m →
    ∃ vs σ', LTrace E σ i vs σ' ∧ StoreOk E σ' ∧ σ'.length = σ.length ∧ (∀ w, i.rest E w ↔ ∃ e ∈ vs, GoKey.eq e w = true) ∧ (i.Dst E → Distinct vs) ∧
      ∀ k, i.cell = some k → ∃ s, σ'[k]? = some (.frozen s) := by
  intro m
  induction m using Nat.strong_induction_on with
  | _ m ih =>
  intro σ i hσ hi hl hm
  obtain ⟨⟨i', ok, σ1⟩, h1, h2⟩ := lnext_spec hσ hi hl
  cases ok with
  | false =>
    obtain ⟨g1, g2⟩ := h2.done rfl
    exact ⟨[], σ1, .done h1 h2.store h2.len, h2.store, h2.len, fun w => by simp [g1 w], fun _ => List.Pairwise.nil, g2⟩
  | true =>
    obtain ⟨v, g1, g2, g3, g4, g5⟩ := h2.more rfl
    dsimp only at g1 g2 g3 g4 g5
    have hl1 : i'.rk ≤ σ1.length := by have := h2.rk; have := h2.len; dsimp only at *; omega
    obtain ⟨vs, σ', k1, k2, k3, k4, k5, k6⟩ := ih (i'.mu E) (by omega) σ1 i' h2.store g2 hl1 (Nat.le_refl _)
    refine ⟨v :: vs, σ', .step h1 g1 h2.store h2.len k1, k2, k3.trans h2.len, fun w => ?_, fun hd => ?_, fun k hk => k6 k (h2.cell.trans hk)⟩
    · rw [g4 w, k4 w]; simp
    · refine List.Pairwise.cons (fun e he => ?_) (k5 (g5 hd).2)
      by_contra hc
      simp only [Bool.not_eq_false] at hc
      refine (g5 hd).1 ((k4 v).2 ⟨e, he, ?_⟩)
      rw [eq_comm]; exact hc

theorem ltrace_spec (hσ : StoreOk E σ) {i : LIter T} (hi : i.IterOk E) (hl : i.rk ≤ σ.length) :
    ∃ vs σ', LTrace E σ i vs σ' ∧ StoreOk E σ' ∧ σ'.length = σ.length ∧ (∀ w, i.rest E w ↔ ∃ e ∈ vs, GoKey.eq e w = true) ∧ (i.Dst E → Distinct vs) ∧
      ∀ k, i.cell = some k → ∃ s, σ'[k]? = some (.frozen s) := ltrace_aux (i.mu E) σ i hσ hi hl (Nat.le_refl _)

theorem Runs.stepBind {α β : Type} {f : Nat → Go β} {h : Nat → Go α} {g : α → Nat → Go β} {a : α} {b : β} (hf : ∀ n, f (n + 1) = h n >>= fun r => g r n)
    (hh : Runs h a) (hg : Runs (g a) b) : Runs f b := Runs.step (g := fun n => h n >>= fun r => g r n) hf (Runs.bind (g := g) hh hg)

theorem countLoop_pos (n : Nat) (σ : LStore T) (i : LIter T) {k limit : Int} (h : k < limit) : LIter.countLoop (n + 1) σ i k limit =
    LIter.next n σ i >>= fun r => if r.2.1 = true then LIter.countLoop n r.2.2 r.1 (k + 1) limit else .ok (k, r.2.2) := by
  simp only [LIter.countLoop, if_pos h]; rfl

theorem countLoop_neg (n : Nat) (σ : LStore T) (i : LIter T) {k limit : Int} (h : ¬ k < limit) : LIter.countLoop (n + 1) σ i k limit = .ok (k, σ) := by
  simp only [LIter.countLoop, if_neg h]; rfl

theorem equalLoop_pos (f : FSet T) (n : Nat) (σ : LStore T) (i : LIter T) {k : Int} (h : k > 0) : LIter.equalLoop f (n + 1) σ i k =
    LIter.next n σ i >>= fun r => if r.2.1 = true then r.1.value >>= fun v => f.has v >>= fun b =>
      if b = true then LIter.equalLoop f n r.2.2 r.1 (k - 1) else .ok (false, r.2.2) else .ok (false, r.2.2) := by
  simp only [LIter.equalLoop, if_pos h]; rfl

theorem equalLoop_zero (f : FSet T) (n : Nat) (σ : LStore T) (i : LIter T) : LIter.equalLoop f (n + 1) σ i 0 =
    LIter.next n σ i >>= fun r => .ok (!r.2.1, r.2.2) := by
  simp only [LIter.equalLoop, gt_iff_lt, Int.lt_irrefl, if_false]; rfl

theorem subsetLoop_pos (f : FSet T) (n : Nat) (σ : LStore T) (i : LIter T) {k : Int} (h : k > 0) : LIter.subsetLoop f (n + 1) σ i k =
    LIter.next n σ i >>= fun r => if r.2.1 = true then r.1.value >>= fun v => f.has v >>= fun b =>
      if b = true then LIter.subsetLoop f n r.2.2 r.1 (k - 1) else LIter.subsetLoop f n r.2.2 r.1 k else .ok (decide (k = 0), r.2.2) := by
  simp only [LIter.subsetLoop, if_pos h]; rfl

theorem subsetLoop_neg (f : FSet T) (n : Nat) (σ : LStore T) (i : LIter T) {k : Int} (h : ¬ k > 0) : LIter.subsetLoop f (n + 1) σ i k = .ok (decide (k = 0), σ) := by
  simp only [LIter.subsetLoop, if_neg h]; rfl

theorem LTrace.values {i : LIter T} {vs : List T} {σ' : LStore T} (h : LTrace E σ i vs σ') : Runs (fun n => LIter.values n σ i) (vs, σ') := by
  induction h with
  | done h hs hl =>
    refine Runs.step (g := fun n => LIter.next n _ _ >>= fun r => _) (fun n => by simp only [LIter.values]; rfl) (Runs.bind (g := fun r n => _) h ?_)
    exact Runs.const _
  | @step σ σ1 σ' i i' v vs h hv hs hl ht ih =>
    refine Runs.step (g := fun n => LIter.next n _ _ >>= fun r => _) (fun n => by simp only [LIter.values]; rfl) (Runs.bind (g := fun r n => _) h ?_)
    simp only [hv, if_true, bind, Except.bind]
    exact Runs.bind (g := fun r (_ : Nat) => .ok (v :: r.1, r.2)) ih (Runs.const _)

theorem LTrace.drain {i : LIter T} {vs : List T} {σ' : LStore T} (h : LTrace E σ i vs σ') : Runs (fun n => LIter.drain n σ i) σ' := by
  induction h with
  | done h hs hl =>
    refine Runs.step (g := fun n => LIter.next n _ _ >>= fun r => _) (fun n => by simp only [LIter.drain]; rfl) (Runs.bind (g := fun r n => _) h ?_)
    exact Runs.const _
  | step h hv hs hl ht ih =>
    refine Runs.step (g := fun n => LIter.next n _ _ >>= fun r => _) (fun n => by simp only [LIter.drain]; rfl) (Runs.bind (g := fun r n => _) h ?_)
    simpa using ih

theorem LTrace.hashLoop {i : LIter T} {vs : List T} {σ' : LStore T} (h : LTrace E σ i vs σ') :
    ∀ x, Runs (fun n => LIter.hashLoop n σ i x) (vs.foldl (fun h v => GoKey.hash h v) x, σ') := by
  induction h with
  | done h hs hl =>
    intro x
    refine Runs.step (g := fun n => LIter.next n _ _ >>= fun r => _) (fun n => by simp only [LIter.hashLoop]; rfl) (Runs.bind (g := fun r n => _) h ?_)
    exact Runs.const _
  | step h hv hs hl ht ih =>
    intro x
    refine Runs.step (g := fun n => LIter.next n _ _ >>= fun r => _) (fun n => by simp only [LIter.hashLoop]; rfl) (Runs.bind (g := fun r n => _) h ?_)
    simp only [hv, if_true, bind, Except.bind]
    exact ih _

/-- A method that answered `a` and left the store as good as it was. -/
def Answers {α : Type} (E : LEnv T) (σ : LStore T) (f : Nat → Go (α × LStore T)) (P : α → Prop) : Prop :=
  ∃ a σ', Runs f (a, σ') ∧ StoreOk E σ' ∧ σ'.length = σ.length ∧ P a

theorem LTrace.countLoop {i : LIter T} {vs : List T} {σ' : LStore T} (hσ : StoreOk E σ) (h : LTrace E σ i vs σ') :
    ∀ k limit, k ≤ limit → Answers E σ (fun n => LIter.countLoop n σ i k limit) (fun r => r = min limit (k + vs.length)) := by
  induction h with
  | done h hs hl =>
    intro k limit hk
    by_cases hlt : k < limit
    · refine ⟨k, _, Runs.stepBind (fun n => countLoop_pos n _ _ hlt) h (Runs.const _), hs, hl, ?_⟩
      simp; omega
    · refine ⟨k, _, Runs.step (g := fun n => .ok (k, _)) (fun n => countLoop_neg n _ _ hlt) (Runs.const _), hσ, rfl, ?_⟩
      simp; omega
  | step h hv hs hl ht ih =>
    intro k limit hk
    by_cases hlt : k < limit
    · obtain ⟨a, σ2, h1, h2, h3, h4⟩ := ih hs (k + 1) limit (by omega)
      refine ⟨a, _, Runs.stepBind (fun n => countLoop_pos n _ _ hlt) h (by simpa using h1), h2, h3.trans hl, ?_⟩
      rw [h4]; simp; omega
    · refine ⟨k, _, Runs.step (g := fun n => .ok (k, _)) (fun n => countLoop_neg n _ _ hlt) (Runs.const _), hσ, rfl, ?_⟩
      simp; omega

theorem LTrace.equalLoop {i : LIter T} {vs : List T} {σ' : LStore T} {f : FSet T} (hf : f.Valid) (hσ : StoreOk E σ) (h : LTrace E σ i vs σ') :
    ∀ k : Int, 0 ≤ k → Answers E σ (fun n => LIter.equalLoop f n σ i k) (fun b => b = true ↔ k = vs.length ∧ ∀ v ∈ vs, f.Mem v) := by
  induction h with
  | done h hs hl =>
    intro k hk
    by_cases hlt : k > 0
    · refine ⟨false, _, Runs.stepBind (fun n => equalLoop_pos _ n _ _ hlt) h (Runs.const _), hs, hl, ?_⟩
      simp; omega
    · have : k = 0 := by omega
      subst this
      refine ⟨true, _, Runs.stepBind (fun n => equalLoop_zero _ n _ _) h (Runs.const _), hs, hl, ?_⟩
      simp
  | @step σ σ1 σ' i i' v vs h hv hs hl ht ih =>
    intro k hk
    by_cases hlt : k > 0
    · by_cases hm : f.Mem v
      · obtain ⟨a, σ2, h1, h2, h3, h4⟩ := ih hs (k - 1) (by omega)
        refine ⟨a, _, Runs.stepBind (fun n => equalLoop_pos _ n _ _ hlt) h ?_, h2, h3.trans hl, ?_⟩
        · simp only [hv, if_true, bind, Except.bind, FSet.has_spec hf, (FSet.mem_iff hf v).1 hm]
          exact h1
        · refine h4.trans ?_
          simp [hm]; omega
      · refine ⟨false, _, Runs.stepBind (fun n => equalLoop_pos _ n _ _ hlt) h ?_, hs, hl, ?_⟩
        · have : (f.tree.look v).isSome = false := by rw [FSet.mem_iff hf v] at hm; simpa using hm
          simp only [hv, if_true, bind, Except.bind, FSet.has_spec hf, this]
          exact Runs.const _
        · simp [hm]
    · have : k = 0 := by omega
      subst this
      refine ⟨false, _, Runs.stepBind (fun n => equalLoop_zero _ n _ _) h (Runs.const _), hs, hl, ?_⟩
      simp; omega

theorem LTrace.subsetLoop {i : LIter T} {vs : List T} {σ' : LStore T} {f : FSet T} (hf : f.Valid) (hσ : StoreOk E σ) (h : LTrace E σ i vs σ') :
    ∀ k : Int, 0 ≤ k → Answers E σ (fun n => LIter.subsetLoop f n σ i k)
      (fun b => b = true ↔ k ≤ (vs.filter (fun v => (f.tree.look v).isSome)).length) := by
  induction h with
  | done h hs hl =>
    intro k hk
    by_cases hlt : k > 0
    · refine ⟨decide (k = 0), _, Runs.stepBind (fun n => subsetLoop_pos _ n _ _ hlt) h (Runs.const _), hs, hl, ?_⟩
      simp; omega
    · refine ⟨decide (k = 0), _, Runs.step (g := fun n => .ok (decide (k = 0), _)) (fun n => subsetLoop_neg _ n _ _ hlt) (Runs.const _), hσ, rfl, ?_⟩
      simp; omega
  | @step σ σ1 σ' i i' v vs h hv hs hl ht ih =>
    intro k hk
    by_cases hlt : k > 0
    · by_cases hm : (f.tree.look v).isSome = true
      · obtain ⟨a, σ2, h1, h2, h3, h4⟩ := ih hs (k - 1) (by omega)
        refine ⟨a, _, Runs.stepBind (fun n => subsetLoop_pos _ n _ _ hlt) h ?_, h2, h3.trans hl, ?_⟩
        · simp only [hv, if_true, bind, Except.bind, FSet.has_spec hf, hm]
          exact h1
        · refine h4.trans ?_
          simp only [List.filter_cons, hm, if_true, List.length_cons]; omega
      · obtain ⟨a, σ2, h1, h2, h3, h4⟩ := ih hs k (by omega)
        refine ⟨a, _, Runs.stepBind (fun n => subsetLoop_pos _ n _ _ hlt) h ?_, h2, h3.trans hl, ?_⟩
        · simp only [hv, if_true, bind, Except.bind, FSet.has_spec hf, hm]
          exact h1
        · refine h4.trans ?_
          simp only [List.filter_cons, hm, if_false, Bool.false_eq_true]
    · refine ⟨decide (k = 0), _, Runs.step (g := fun n => .ok (decide (k = 0), _)) (fun n => subsetLoop_neg _ n _ _ hlt) (Runs.const _), hσ, rfl, ?_⟩
      simp; omega

/-- A loop over a whole set. -/
theorem set_trace (hσ : StoreOk E σ) {s : LSet T} (hs : s.IOk E) (hl : s.rk ≤ σ.length) :
    ∃ i vs σ', Runs (fun n => LSet.range σ n s) i ∧ LTrace E σ i vs σ' ∧ StoreOk E σ' ∧ σ'.length = σ.length ∧
      (∀ w, s.den E w ↔ ∃ e ∈ vs, GoKey.eq e w = true) ∧ (s.Cok E → Distinct vs) ∧ ∀ k, i.cell = some k → ∃ s, σ'[k]? = some (.frozen s) := by
  obtain ⟨i, h1, h2⟩ := range_spec hσ hs hl
  obtain ⟨vs, σ', g1, g2, g3, g4, g5, g6⟩ := ltrace_spec hσ h2.ok (Nat.le_trans h2.rk hl)
  exact ⟨i, vs, σ', h1, g1, g2, g3, fun w => (h2.rest w).symm.trans (g4 w), fun h => g5 (h2.dst h), g6⟩

/-- With the `once` of `SetOk`, the values seen are different. -/
theorem once_distinct {s : LSet T} {vs : List T} {P : T → Prop} (hP : ∀ w, s.den E w ↔ P w) (hc : ∀ w, s.den E w ↔ ∃ e ∈ vs, GoKey.eq e w = true)
    (hd : s.Cok E → Distinct vs) (h : s.Cok E ∨ ∀ w, ¬ P w) : Lists vs P := by
  refine ⟨?_, fun w => (hP w).symm.trans (hc w)⟩
  rcases h with h | h
  · exact hd h
  · cases vs with
    | nil => exact List.Pairwise.nil
    | cons v vs => exact (h v ((hP v).1 ((hc v).2 ⟨v, by simp, LawfulGoKey.refl v⟩))).elim

theorem values_spec (hσ : StoreOk E σ) {s : LSet T} {a : LSpec T} (hs : SetOk E σ s a) :
    Answers E σ (fun n => LSet.values n σ s) (fun vs => (∀ w, a.den w ↔ ∃ e ∈ vs, GoKey.eq e w = true) ∧ (a.once → Lists vs a.den)) := by
  obtain ⟨i, vs, σ', h1, h2, h3, h4, h5, h6, h7⟩ := set_trace hσ hs.iok hs.rk
  refine ⟨vs, σ', Runs.congr (g := fun n => LSet.range σ n s >>= fun i => LIter.values n σ i) (fun n => rfl)
    (Runs.bind (g := fun i n => LIter.values n σ i) h1 h2.values), h3, h4, fun w => (hs.den w).symm.trans (h5 w), fun ho => once_distinct hs.den h5 h6 (hs.once ho)⟩

theorem hash_spec [GoHash] (hσ : StoreOk E σ) {s : LSet T} {a : LSpec T} (hs : SetOk E σ s a) (seed : BitVec 64) :
    Answers E σ (fun n => LSet.hash n σ s seed) (fun h => ∃ vs : List T, (∀ w, a.den w ↔ ∃ e ∈ vs, GoKey.eq e w = true) ∧ (a.plain → Lists vs a.den) ∧
      h = vs.foldl (fun h v => GoKey.hash h v) (GoHash.uintptr 624409645898692063#64 seed)) := by
  obtain ⟨c, c1, hc⟩ := hs.deref hσ
  obtain ⟨i, vs, σ', h1, h2, h3, h4, h5, h6, h7⟩ := set_trace hσ hc.iok hc.rk
  by_cases hce : c = .empty
  · subst hce
    have he : ∀ w, ¬ a.den w := fun w hw => (hc.den w).2 hw
    refine ⟨_, σ, Runs.congr (g := fun n => .ok _) (fun n => by simp only [LSet.hash, c1, bind, Except.bind]; rfl) (Runs.const _), hσ, rfl, [],
      fun w => by simp [he w], fun _ => ⟨List.Pairwise.nil, fun w => by simp [he w]⟩, rfl⟩
  · refine ⟨_, σ', Runs.congr (g := fun n => LSet.range σ n c >>= fun i => LIter.hashLoop n σ i (GoHash.uintptr 624409645898692063#64 seed)) (fun n => ?_)
      (Runs.bind (g := fun i n => LIter.hashLoop n σ i (GoHash.uintptr 624409645898692063#64 seed)) h1 (h2.hashLoop _)), h3, h4, vs,
      fun w => (hc.den w).symm.trans (h5 w), fun hp => ⟨h6 (hc.plain hp).cok, fun w => (hc.den w).symm.trans (h5 w)⟩, rfl⟩
    simp only [LSet.hash, c1, bind, Except.bind]

theorem has_spec' (hσ : StoreOk E σ) {s : LSet T} {a : LSpec T} (hs : SetOk E σ s a) (el : T) :
    Answers E σ (fun n => LSet.has n σ s el) (fun b => a.safe → (b = true ↔ a.den el)) := by
  obtain ⟨b, σ', h1, h2, h3, h4⟩ := lhas_spec hσ hs.iok hs.rk el
  exact ⟨b, σ', h1, h2, h3, fun h => (h4 (hs.safe h)).trans (hs.den el)⟩

theorem isEmpty_aux (hσ : StoreOk E σ) {c : LSet T} (hi : c.IOk E) (hl : c.rk ≤ σ.length) (hn : c.NotMemo) :
    Answers E σ (fun n => LSet.isEmpty n σ c) (fun b => b = true ↔ ∀ w, ¬ c.den E w) := by
  have hd : LSet.deref σ c = .ok c := by
    cases c with
    | memo k => exact hn.elim
    | _ => rfl
  by_cases hce : c = .empty
  · subst hce
    exact ⟨true, σ, Runs.congr (g := fun n => .ok _) (fun n => by simp only [LSet.isEmpty, hd, bind, Except.bind]; rfl) (Runs.const _), hσ, rfl, by simp [LSet.den]⟩
  · obtain ⟨o, o1, o2⟩ := fastIsEmpty_spec hσ hi hl
    obtain ⟨i, h1, h2⟩ := range_spec hσ hi hl
    obtain ⟨⟨i', ok, σ1⟩, g1, g2⟩ := lnext_spec hσ h2.ok (Nat.le_trans h2.rk hl)
    have heq : ∀ n, LSet.isEmpty n σ c = (LSet.fastIsEmpty σ n c >>= fun o => match o with
        | some b => .ok (b, σ)
        | none => LSet.range σ n c >>= fun i => LIter.next n σ i >>= fun r => .ok (!r.2.1, r.2.2)) := by
      intro n
      simp only [LSet.isEmpty, hd, bind, Except.bind]
      cases c with
      | empty => exact (hce rfl).elim
      | _ => rfl
    cases o with
    | some b => exact ⟨b, σ, Runs.congr heq (Runs.bind (g := fun o n => _) o1 (Runs.const _)), hσ, rfl, o2 b rfl⟩
    | none =>
      refine ⟨!ok, σ1, Runs.congr heq (Runs.bind (g := fun o n => _) o1 (Runs.bind (g := fun i n => _) h1
        (Runs.bind (g := fun r n => _) g1 (Runs.const _)))), g2.store, g2.len, ?_⟩
      cases ok with
      | false =>
        have := (g2.done rfl).1
        simp only [Bool.not_false, true_iff]
        exact fun w hw => this w ((h2.rest w).2 hw)
      | true =>
        obtain ⟨v, _, _, _, k4, _⟩ := g2.more rfl
        simp only [Bool.not_true, Bool.false_eq_true, false_iff]
        intro h
        exact h v ((h2.rest v).1 ((k4 v).2 (.inl (LawfulGoKey.refl v))))

theorem isEmpty_spec (hσ : StoreOk E σ) {s : LSet T} {a : LSpec T} (hs : SetOk E σ s a) :
    Answers E σ (fun n => LSet.isEmpty n σ s) (fun b => b = true ↔ ∀ w, ¬ a.den w) := by
  obtain ⟨c, c1, hc⟩ := hs.deref hσ
  obtain ⟨b, σ', h1, h2, h3, h4⟩ := isEmpty_aux hσ hc.iok hc.rk hc.notMemo
  have hd : LSet.deref σ c = .ok c := by
    have hn := hc.notMemo
    cases c with
    | memo k => exact hn.elim
    | _ => rfl
  refine ⟨b, σ', Runs.congr (g := fun n => LSet.isEmpty n σ c) (fun n => by simp only [LSet.isEmpty, c1, hd]) h1, h2, h3, h4.trans ?_⟩
  exact forall_congr' (fun w => not_congr (hc.den w))

/-! ### Freeze -/

theorem range_memo_cell {k : Nat} {c : LSet T} (hc : LSet.deref σ (.memo k) = .ok c) (hf : ∀ f, c ≠ .frozen f) {i : LIter T}
    (h : Runs (fun n => LSet.range σ n (.memo k)) i) : i.cell = some k := by
  obtain ⟨N, hN⟩ := h
  have := hN (N + 1) (by omega)
  simp only [LSet.range, hc] at this
  have h2 : (LSet.range σ N c >>= fun i => .ok (LIter.caching i k Tree.zero)) = .ok i := by
    cases c with
    | frozen f => exact (hf f rfl).elim
    | _ => exact this
  cases hr : LSet.range σ N c with
  | error e => rw [hr] at h2; cases h2
  | ok j =>
    rw [hr] at h2
    cases h2
    rfl

theorem freeze_aux (hσ : StoreOk E σ) {c : LSet T} (hi : c.IOk E) (hl : c.rk ≤ σ.length) (hn : c.NotMemo) :
    ∃ f σ' E', Runs (fun n => LSet.freeze n σ c) (.frozen f, σ') ∧ Ext E σ E' σ' ∧ f.Valid ∧ ∀ w, f.Mem w ↔ c.den E w := by
  have hd : LSet.deref σ c = .ok c := by
    cases c with
    | memo k => exact hn.elim
    | _ => rfl
  by_cases hce : c = .empty
  · subst hce
    exact ⟨FSet.zero, σ, E, Runs.congr (g := fun n => .ok _) (fun n => by simp only [LSet.freeze, hd, bind, Except.bind]; rfl) (Runs.const _), Ext.refl hσ,
      Tree.valid_zero, fun w => by simp only [LSet.den, iff_false]; exact seen_zero_mem w⟩
  · by_cases hcf : ∃ f, c = .frozen f
    · obtain ⟨f, rfl⟩ := hcf
      exact ⟨f, σ, E, Runs.congr (g := fun n => .ok _) (fun n => by simp only [LSet.freeze, hd, bind, Except.bind, memoize]; rfl) (Runs.const _), Ext.refl hσ,
        hi, fun w => Iff.rfl⟩
    · have hcf' : ∀ f, c ≠ .frozen f := fun f h => hcf ⟨f, h⟩
      obtain ⟨E', e1, e2⟩ := alloc_spec (sp := ⟨c.den E, False, False, False, False, False⟩) hσ hn hi hl (fun w => Iff.rfl) (fun h => h)
        (fun h => h.elim) (fun h => h.elim) (fun h => h.elim)
      have hdm : LSet.deref (σ ++ [c]) (.memo σ.length) = .ok c := by
        simp only [LSet.deref, List.getElem?_append_right (Nat.le_refl _), Nat.sub_self, List.getElem?_cons_zero]
        cases c with
        | memo k => exact hn.elim
        | _ => rfl
      obtain ⟨i, vs, σ', h1, h2, h3, h4, h5, h6, h7⟩ := set_trace e1.store e2.iok e2.rk
      obtain ⟨f, hf⟩ := h7 _ (range_memo_cell hdm hcf' h1)
      have hco := h3.cells _ _ hf
      refine ⟨f, σ', E', Runs.congr (g := fun n => LSet.range (σ ++ [c]) n (.memo σ.length) >>= fun i => LIter.drain n (σ ++ [c]) i >>= fun σ' =>
          LSet.deref σ' (.memo σ.length) >>= fun c => .ok (c, σ')) (fun n => ?_)
        (Runs.bind (g := fun i n => _) h1 (Runs.bind (g := fun i n => _) h2.drain ?_)), ⟨h3, e1.agree, by simp at h4; omega⟩, hco.iok, fun w => ?_⟩
      · simp only [LSet.freeze, hd]
        cases c with
        | memo k => exact hn.elim
        | empty => exact (hce rfl).elim
        | frozen f => exact (hcf' f rfl).elim
        | _ => rfl
      · refine Runs.ok ?_
        simp [LSet.deref, hf, bind, Except.bind]
      · exact (hco.den w).trans (e2.den w)

theorem freeze_spec (hσ : StoreOk E σ) {s : LSet T} {a : LSpec T} (hs : SetOk E σ s a) :
    ∃ f σ' E', Runs (fun n => LSet.freeze n σ s) (.frozen f, σ') ∧ Ext E σ E' σ' ∧ f.Valid ∧ ∀ w, f.Mem w ↔ a.den w := by
  obtain ⟨c, c1, hc⟩ := hs.deref hσ
  obtain ⟨f, σ', E', h1, h2, h3, h4⟩ := freeze_aux hσ hc.iok hc.rk hc.notMemo
  have hd : LSet.deref σ c = .ok c := by
    have hn := hc.notMemo
    cases c with
    | memo k => exact hn.elim
    | _ => rfl
  exact ⟨f, σ', E', Runs.congr (g := fun n => LSet.freeze n σ c) (fun n => by simp only [LSet.freeze, c1, hd]) h1, h2, h3, fun w => (h4 w).trans (hc.den w)⟩

/-! ### Count -/

/-- The cardinality, cut off at `limit`. -/
def CardUpTo (P : T → Prop) (limit k : Int) : Prop := ∀ l : List T, Lists l P → k = min limit l.length

theorem Answers.bind {α β : Type} {f : Nat → Go (α × LStore T)} {P : α → Prop} {Q : β → Prop} {g : α → LStore T → Nat → Go (β × LStore T)}
    (hf : Answers E σ f P) (hg : ∀ a σ', StoreOk E σ' → σ'.length = σ.length → P a → Answers E σ' (g a σ') Q) :
    Answers E σ (fun n => f n >>= fun r => g r.1 r.2 n) Q := by
  obtain ⟨a, σ', h1, h2, h3, h4⟩ := hf
  obtain ⟨b, σ'', k1, k2, k3, k4⟩ := hg a σ' h2 h3 h4
  exact ⟨b, σ'', Runs.bind (g := fun r n => g r.1 r.2 n) h1 k1, k2, k3.trans h3, k4⟩

theorem Answers.step {α : Type} {f g : Nat → Go (α × LStore T)} {P : α → Prop} (h : ∀ n, f (n + 1) = g n) (hg : Answers E σ g P) : Answers E σ f P := by
  obtain ⟨a, σ', h1, h2⟩ := hg
  exact ⟨a, σ', Runs.step h h1, h2⟩

theorem Answers.congr {α : Type} {f g : Nat → Go (α × LStore T)} {P : α → Prop} (h : ∀ n, f n = g n) (hg : Answers E σ g P) : Answers E σ f P := by
  obtain ⟨a, σ', h1, h2⟩ := hg
  exact ⟨a, σ', Runs.congr h h1, h2⟩

theorem Answers.imp {α : Type} {f : Nat → Go (α × LStore T)} {P Q : α → Prop} (h : ∀ a, P a → Q a) (hg : Answers E σ f P) : Answers E σ f Q := by
  obtain ⟨a, σ', h1, h2, h3, h4⟩ := hg
  exact ⟨a, σ', h1, h2, h3, h a h4⟩

theorem Answers.pure {α : Type} (hσ : StoreOk E σ) {a : α} {P : α → Prop} (h : P a) : Answers E σ (fun _ => .ok (a, σ)) P :=
  ⟨a, σ, Runs.const _, hσ, rfl, h⟩

/-- `Runs` of a pure read, then an answer. -/
theorem Answers.read {α β : Type} {f : Nat → Go α} {a : α} {Q : β → Prop} {g : α → Nat → Go (β × LStore T)}
    (hf : Runs f a) (hg : Answers E σ (g a) Q) : Answers E σ (fun n => f n >>= fun r => g r n) Q := by
  obtain ⟨b, σ'', k1, k2⟩ := hg
  exact ⟨b, σ'', Runs.bind (g := g) hf k1, k2⟩

/-- `CountUpTo` and `FastCountUpTo`. -/
def CountAll (T : Type) [GoKey T] (r z : Nat) : Prop := ∀ (E : LEnv T) (σ : LStore T) (s : LSet T) (limit : Int), 0 ≤ limit → StoreOk E σ → s.IOk E →
  s.rk ≤ σ.length → s.rk ≤ r → s.sz ≤ z →
  Answers E σ (fun n => LSet.fastCountUpTo n σ s limit) (fun o => s.Plain E → ∀ k, o = some k → CardUpTo (s.den E) limit k) ∧
  Answers E σ (fun n => LSet.countUpTo n σ s limit) (fun k => s.Plain E → CardUpTo (s.den E) limit k)

/-- The cardinality of a set that contains another. -/
theorem CardUpTo.mono {P Q : T → Prop} {limit : Int} {vs : List T} (hv : Lists vs P) (hPQ : ∀ w, P w → Q w) (h : CardUpTo P limit limit) :
    CardUpTo Q limit limit := fun l hl => by
  have h1 := h vs hv
  have h2 := Distinct.length_le (l := vs) hv.1 (l' := l) fun e he => by
    obtain ⟨e', he', h'⟩ := (hl.covers e).1 (hPQ e ((hv.covers e).2 ⟨e, he, LawfulGoKey.refl e⟩))
    exact ⟨e', he', by rw [eq_comm]; exact h'⟩
  omega

theorem CardUpTo.congr {P Q : T → Prop} {limit k : Int} (hPQ : ∀ w, P w ↔ Q w) (h : CardUpTo P limit k) : CardUpTo Q limit k :=
  fun l hl => h l (hl.congr fun w => (hPQ w).symm)

/-- `CountUpTo` of a set that is not a memo, once `FastCountUpTo` is known. -/
theorem countUpTo_of_fast (hσ : StoreOk E σ) {s c : LSet T} (hd : LSet.deref σ s = .ok c) (hn : c.NotMemo) (hi : c.IOk E) (hl : c.rk ≤ σ.length)
    {limit : Int} (h0 : 0 ≤ limit)
    (hf : Answers E σ (fun n => LSet.fastCountUpTo n σ c limit) (fun o => c.Plain E → ∀ k, o = some k → CardUpTo (c.den E) limit k)) :
    Answers E σ (fun n => LSet.countUpTo n σ s limit) (fun k => c.Plain E → CardUpTo (c.den E) limit k) := by
  by_cases hce : c = .empty
  · subst hce
    refine Answers.step (g := fun _ => .ok (0, σ)) (fun n => by simp only [LSet.countUpTo, hd, bind, Except.bind]; rfl) (Answers.pure hσ fun _ l hl => ?_)
    cases l with
    | nil => simp; omega
    | cons v l => exact ((hl.covers v).2 ⟨v, by simp, LawfulGoKey.refl v⟩).elim
  · refine Answers.step (g := fun n => LSet.fastCountUpTo n σ c limit >>= fun r => match r.1 with
      | some k => .ok (k, r.2)
      | none => LSet.range r.2 n c >>= fun i => LIter.countLoop n r.2 i 0 limit) (fun n => ?_) (Answers.bind (g := fun o σ n => match o with
      | some k => .ok (k, σ)
      | none => LSet.range σ n c >>= fun i => LIter.countLoop n σ i 0 limit) hf ?_)
    · simp only [LSet.countUpTo, hd, bind, Except.bind]
      rfl
    · intro o σ1 h1 h2 h3
      cases o with
      | some k => exact Answers.pure h1 (fun hp => h3 hp k rfl)
      | none =>
        obtain ⟨i, vs, σ', g1, g2, g3, g4, g5, g6, g7⟩ := set_trace h1 hi (by omega)
        refine Answers.read (g := fun i n => LIter.countLoop n σ1 i 0 limit) g1 ((g2.countLoop h1 0 limit h0).imp fun k hk hp l hl => ?_)
        rw [hk]
        have : Lists vs (c.den E) := ⟨g6 hp.cok, g5⟩
        rw [this.length_eq hl]; simp

theorem count_all : ∀ r z, CountAll T r z := by
  intro r
  induction r using Nat.strong_induction_on with
  | _ r ihr =>
  intro z
  induction z with
  | zero => intro E σ s limit _ _ _ _ _ hz; have := s.sz_pos; omega
  | succ z ihz =>
    intro E σ s limit h0 hσ hi hl hr hz
    have hfast : s.NotMemo → Answers E σ (fun n => LSet.fastCountUpTo n σ s limit) (fun o => s.Plain E → ∀ k, o = some k → CardUpTo (s.den E) limit k) := by
      intro hn
      cases s with
      | memo k => exact hn.elim
      | empty =>
        refine Answers.step (g := fun _ => .ok (some 0, σ)) (fun n => by simp only [LSet.fastCountUpTo]) (Answers.pure hσ fun _ k hk l hl => ?_)
        cases hk
        cases l with
        | nil => simp; omega
        | cons v l => exact ((hl.covers v).2 ⟨v, by simp, LawfulGoKey.refl v⟩).elim
      | frozen f =>
        refine Answers.step (g := fun _ => .ok (some (if f.count < limit then f.count else limit), σ)) (fun n => by simp only [LSet.fastCountUpTo])
          (Answers.pure hσ fun _ k hk l hl => ?_)
        cases hk
        have h1 := (FSet.lists (s := f) hi).length_eq hl
        have h2 := Tree.Valid.count_eq (t := f.tree) hi
        have h3 : f.count = l.length := by rw [← h1]; exact h2
        split <;> omega
      | union a b =>
        have hl := Nat.max_le.1 hl
        have hr := Nat.max_le.1 hr
        simp only [LSet.sz] at hz
        have := a.sz_pos
        have := b.sz_pos
        obtain ⟨x, x1, x2⟩ := fastIsEmpty_spec hσ hi.1 hl.1
        obtain ⟨y, y1, y2⟩ := fastIsEmpty_spec hσ hi.2 hl.2
        have ha := ihz E σ a limit h0 hσ hi.1 hl.1 hr.1 (by omega)
        have hb := ihz E σ b limit h0 hσ hi.2 hl.2 hr.2 (by omega)
        refine Answers.step (g := fun n => LSet.fastIsEmpty σ n a >>= fun x => if x = some true then LSet.countUpTo n σ b limit >>= fun r => .ok (some r.1, r.2)
          else LSet.fastIsEmpty σ n b >>= fun y => if y = some true then LSet.countUpTo n σ a limit >>= fun r => .ok (some r.1, r.2)
          else LSet.fastCountUpTo n σ a limit >>= fun r => if r.1 = some limit then .ok (some limit, r.2)
          else LSet.fastCountUpTo n r.2 b limit >>= fun r => if r.1 = some limit then .ok (some limit, r.2) else .ok (none, r.2)) (fun n => by simp only [LSet.fastCountUpTo]; rfl) ?_
        refine Answers.read (g := fun x n => _) x1 ?_
        by_cases hx : x = some true
        · simp only [hx, if_true]
          exact Answers.bind (g := fun k σ n => .ok (some k, σ)) hb.2 (fun k σ' h1 h2 h3 => Answers.pure h1 (fun hp k' hk' => by
            cases hk'
            refine (h3 hp.2.1).congr fun w => ?_
            have := x2 _ hx
            grind [LSet.den]))
        · simp only [hx, if_false]
          refine Answers.read (g := fun x n => _) y1 ?_
          by_cases hy : y = some true
          · simp only [hy, if_true]
            exact Answers.bind (g := fun k σ n => .ok (some k, σ)) ha.2 (fun k σ' h1 h2 h3 => Answers.pure h1 (fun hp k' hk' => by
              cases hk'
              refine (h3 hp.1).congr fun w => ?_
              have := y2 _ hy
              grind [LSet.den]))
          · simp only [hy, if_false]
            refine Answers.bind (g := fun o σ n => if o = some limit then .ok (some limit, σ)
              else LSet.fastCountUpTo n σ b limit >>= fun r => if r.1 = some limit then .ok (some limit, r.2) else .ok (none, r.2)) ha.1 ?_
            intro o σ1 h1 h2 h3
            by_cases ho : o = some limit
            · simp only [ho, if_true]
              refine Answers.pure h1 (fun hp k' hk' => ?_)
              cases hk'
              obtain ⟨_, vs, _, _, _, _, _, g5, g6, _⟩ := set_trace hσ hi.1 hl.1
              exact CardUpTo.mono ⟨g6 hp.1.cok, g5⟩ (fun w => .inl) (h3 hp.1 limit ho)
            · simp only [ho, if_false]
              refine Answers.bind (g := fun o σ n => if o = some limit then .ok (some limit, σ) else .ok (none, σ))
                (ihz E σ1 b limit h0 h1 hi.2 (by omega) hr.2 (by omega)).1 ?_
              intro o σ2 h1 h2 h3
              by_cases ho : o = some limit
              · simp only [ho, if_true]
                refine Answers.pure h1 (fun hp k' hk' => ?_)
                cases hk'
                obtain ⟨_, vs, _, _, _, _, _, g5, g6, _⟩ := set_trace hσ hi.2 hl.2
                exact CardUpTo.mono ⟨g6 hp.2.1.cok, g5⟩ (fun w => .inr) (h3 hp.2.1 limit ho)
              · simp only [ho, if_false]
                exact Answers.pure h1 (fun _ k hk => by cases hk)
      | «where» s p =>
        exact Answers.step (g := fun _ => .ok (none, σ)) (fun n => by simp only [LSet.fastCountUpTo]) (Answers.pure hσ fun _ k hk => by cases hk)
      | map s p =>
        exact Answers.step (g := fun _ => .ok (none, σ)) (fun n => by simp only [LSet.fastCountUpTo]) (Answers.pure hσ fun _ k hk => by cases hk)
      | inter s p =>
        exact Answers.step (g := fun _ => .ok (none, σ)) (fun n => by simp only [LSet.fastCountUpTo]) (Answers.pure hσ fun _ k hk => by cases hk)
      | diff s p =>
        exact Answers.step (g := fun _ => .ok (none, σ)) (fun n => by simp only [LSet.fastCountUpTo]) (Answers.pure hσ fun _ k hk => by cases hk)
    by_cases hm : ∃ k, s = .memo k
    · obtain ⟨k, rfl⟩ := hm
      have hk : k < σ.length := hl
      obtain ⟨c, c1, c2, hc⟩ := deref_memo hσ hk
      have hk' : k + 1 ≤ r := hr
      have hcr := hc.rk
      have hcf := (ihr k (by omega) c.sz E σ c limit h0 hσ hc.iok (by omega) hcr (Nat.le_refl _)).1
      have hden : ∀ {k' : Int}, CardUpTo (c.den E) limit k' → CardUpTo ((LSet.memo k).den E) limit k' := fun h l hl => h l (hl.congr fun w => (hc.den w).symm)
      have hpl : (LSet.memo k).Plain E → c.Plain E := hc.once
      refine ⟨Answers.step (g := fun n => LSet.fastCountUpTo n σ c limit) (fun n => by simp only [LSet.fastCountUpTo, c1]; rfl)
        (hcf.imp fun o ho hp k' hk' => hden (ho (hpl hp) k' hk')), ?_⟩
      exact (countUpTo_of_fast hσ c1 hc.notMemo hc.iok (by omega) h0 hcf).imp fun k' hk' hp => hden (hk' (hpl hp))
    · have hn : s.NotMemo := by
        cases s with
        | memo k => exact (hm ⟨k, rfl⟩).elim
        | _ => trivial
      refine ⟨hfast hn, countUpTo_of_fast hσ ?_ hn hi hl h0 (hfast hn)⟩
      cases s with
      | memo k => exact hn.elim
      | _ => rfl

theorem count_spec (hσ : StoreOk E σ) {s : LSet T} {a : LSpec T} (hs : SetOk E σ s a) :
    Answers E σ (fun n => LSet.count n σ s) (fun k => a.plain → ∀ l : List T, Lists l a.den → (l.length : Int) ≤ maxInt → k = l.length) := by
  obtain ⟨c, c1, hc⟩ := hs.deref hσ
  have hd : LSet.deref σ c = .ok c := by
    have hn := hc.notMemo
    cases c with
    | memo k => exact hn.elim
    | _ => rfl
  have hcount := (count_all c.rk c.sz E σ c maxInt (by decide) hσ hc.iok hc.rk (Nat.le_refl _) (Nat.le_refl _)).2
  by_cases hce : c = .empty
  · subst hce
    refine Answers.congr (g := fun n => .ok (0, σ)) (fun n => by simp only [LSet.count, c1, bind, Except.bind, LSet.fastCount, hd]; rfl) (Answers.pure hσ fun _ l hl _ => ?_)
    cases l with
    | nil => rfl
    | cons v l => exact ((hc.den v).2 ((hl.covers v).2 ⟨v, by simp, LawfulGoKey.refl v⟩)).elim
  · by_cases hcf : ∃ f, c = .frozen f
    · obtain ⟨f, rfl⟩ := hcf
      refine Answers.congr (g := fun n => .ok (f.count, σ)) (fun n => by simp only [LSet.count, c1, bind, Except.bind, LSet.fastCount, hd]; rfl) (Answers.pure hσ fun _ l hl _ => ?_)
      have h1 := (FSet.lists (s := f) hc.iok).length_eq (hl.congr fun w => (hc.den w).symm)
      have h2 := Tree.Valid.count_eq (t := f.tree) hc.iok
      rw [← h1]; exact h2
    · refine Answers.congr (g := fun n => LSet.countUpTo n σ c maxInt) (fun n => ?_) (hcount.imp fun k hk hp l hl hle => ?_)
      · simp only [LSet.count, c1, bind, Except.bind, LSet.fastCount, hd]
        cases c with
        | empty => exact (hce rfl).elim
        | frozen f => exact (hcf ⟨f, rfl⟩).elim
        | _ => rfl
      · rw [hk (hc.plain hp) l (hl.congr fun w => (hc.den w).symm)]
        omega

/-! ### EqualSet and IsSubsetOf -/

theorem pigeon {l l' : List T} (h : Distinct l) (hs : ∀ e ∈ l, ∃ e' ∈ l', GoKey.eq e e' = true) (hlen : l'.length ≤ l.length) {x : T} (hx : x ∈ l') :
    ∃ e ∈ l, GoKey.eq e x = true := by
  by_contra hc
  have hd : Distinct (x :: l) := List.Pairwise.cons (fun e he => by
    by_contra hne
    exact hc ⟨e, he, by rw [eq_comm]; simpa using hne⟩) h
  have := hd.length_le (l' := l') (fun e he => by
    rcases List.mem_cons.1 he with rfl | he
    · exact ⟨e, hx, LawfulGoKey.refl e⟩
    · exact hs e he)
  simp at this
  omega

/-- The comparison made by `frozenSet.EqualSet` with a listed set. -/
theorem equal_count {f : FSet T} (hf : f.Valid) {vs : List T} {P : T → Prop} (hv : Lists vs P) :
    (f.count = vs.length ∧ ∀ v ∈ vs, f.Mem v) ↔ ∀ w, f.Mem w ↔ P w := by
  have hl := FSet.lists hf
  have hc : f.count = f.tree.list.length := Tree.Valid.count_eq (t := f.tree) hf
  have hcong : ∀ {a b : T}, GoKey.eq a b = true → f.Mem a → f.Mem b := fun hab ha => (FSet.mem_congr hf hab).1 ha
  constructor
  · rintro ⟨h1, h2⟩ w
    constructor
    · intro hw
      obtain ⟨e, he, hew⟩ := (hl.covers w).1 hw
      obtain ⟨v, hv1, hv2⟩ := pigeon (l := vs) (l' := f.tree.list) hv.different (fun v hv => by
        obtain ⟨e, he, hev⟩ := (hl.covers v).1 (h2 v hv)
        exact ⟨e, he, by rw [eq_comm]; exact hev⟩) (by omega) he
      exact (hv.covers w).2 ⟨v, hv1, eq_trans' hv2 hew⟩
    · intro hw
      obtain ⟨v, hv1, hv2⟩ := (hv.covers w).1 hw
      exact hcong hv2 (h2 v hv1)
  · intro h
    refine ⟨?_, fun v hvm => (h v).2 ((hv.covers v).2 ⟨v, hvm, LawfulGoKey.refl v⟩)⟩
    rw [hc, hl.length_eq (hv.congr fun w => (h w).symm)]

/-- The comparison made by `frozenSet.IsSubsetOf` with a listed set. -/
theorem subset_count {f : FSet T} (hf : f.Valid) {vs : List T} {P : T → Prop} (hv : Lists vs P) :
    f.count ≤ (vs.filter (fun v => (f.tree.look v).isSome)).length ↔ ∀ w, f.Mem w → P w := by
  have hl := FSet.lists hf
  have hc : f.count = f.tree.list.length := Tree.Valid.count_eq (t := f.tree) hf
  have hfil : ∀ v, v ∈ vs.filter (fun v => (f.tree.look v).isSome) ↔ v ∈ vs ∧ f.Mem v := fun v => by
    rw [List.mem_filter, FSet.mem_iff hf]
  have hd : Distinct (vs.filter (fun v => (f.tree.look v).isSome)) := List.Pairwise.filter _ hv.different
  constructor
  · intro h w hw
    obtain ⟨e, he, hew⟩ := (hl.covers w).1 hw
    obtain ⟨v, hv1, hv2⟩ := pigeon hd (l' := f.tree.list) (fun v hv => by
      obtain ⟨e, he, hev⟩ := (hl.covers v).1 ((hfil v).1 hv).2
      exact ⟨e, he, by rw [eq_comm]; exact hev⟩) (by omega) he
    exact (hv.covers w).2 ⟨v, ((hfil v).1 hv1).1, eq_trans' hv2 hew⟩
  · intro h
    have := Distinct.length_le (l' := vs.filter (fun v => (f.tree.look v).isSome)) hl.different (fun e he => by
      have hem : f.Mem e := (hl.covers e).2 ⟨e, he, LawfulGoKey.refl e⟩
      obtain ⟨v, hv1, hv2⟩ := (hv.covers e).1 (h e hem)
      exact ⟨v, (hfil v).2 ⟨hv1, (FSet.mem_congr hf hv2).2 hem⟩, by rw [eq_comm]; exact hv2⟩)
    omega

/-- A method that answered, allocating cells perhaps. -/
def AnswersX {α : Type} (E : LEnv T) (σ : LStore T) (f : Nat → Go (α × LStore T)) (P : α → Prop) : Prop :=
  ∃ a σ' E', Runs f (a, σ') ∧ Ext E σ E' σ' ∧ P a

theorem Answers.x {α : Type} {f : Nat → Go (α × LStore T)} {P : α → Prop} (h : Answers E σ f P) : AnswersX E σ f P := by
  obtain ⟨a, σ', h1, h2, h3, h4⟩ := h
  exact ⟨a, σ', E, h1, Ext.same h2 h3, h4⟩

theorem AnswersX.congr {α : Type} {f g : Nat → Go (α × LStore T)} {P : α → Prop} (h : ∀ n, f n = g n) (hg : AnswersX E σ g P) : AnswersX E σ f P := by
  obtain ⟨a, σ', E', h1, h2⟩ := hg
  exact ⟨a, σ', E', Runs.congr h h1, h2⟩

theorem AnswersX.step {α : Type} {f g : Nat → Go (α × LStore T)} {P : α → Prop} (h : ∀ n, f (n + 1) = g n) (hg : AnswersX E σ g P) : AnswersX E σ f P := by
  obtain ⟨a, σ', E', h1, h2⟩ := hg
  exact ⟨a, σ', E', Runs.step h h1, h2⟩

theorem AnswersX.imp {α : Type} {f : Nat → Go (α × LStore T)} {P Q : α → Prop} (h : ∀ a, P a → Q a) (hg : AnswersX E σ f P) : AnswersX E σ f Q := by
  obtain ⟨a, σ', E', h1, h2, h3⟩ := hg
  exact ⟨a, σ', E', h1, h2, h a h3⟩

theorem equalSet_frozen (hσ : StoreOk E σ) {s : LSet T} {f : FSet T} (hd : LSet.deref σ s = .ok (.frozen f)) (hf : f.Valid) {t : LSet T} {b : LSpec T}
    (ht : SetOk E σ t b) : AnswersX E σ (fun n => LSet.equalSet n σ s t) (fun r => b.once → (r = true ↔ ∀ w, f.Mem w ↔ b.den w)) := by
  by_cases htf : ∃ g, t = .frozen g
  · obtain ⟨g, rfl⟩ := htf
    obtain ⟨r, r1, r2⟩ := FSet.equal_spec (t := g) hf ht.iok
    refine Answers.x (Answers.step (g := fun _ => .ok (r, σ)) (fun n => by simp only [LSet.equalSet, hd, bind, Except.bind, r1]; rfl) (Answers.pure hσ fun _ => r2.trans ?_))
    exact forall_congr' fun w => iff_congr Iff.rfl (ht.den w)
  · obtain ⟨i, vs, σ', h1, h2, h3, h4, h5, h6, h7⟩ := set_trace hσ ht.iok ht.rk
    refine Answers.x (Answers.step (g := fun n => LSet.range σ n t >>= fun i => LIter.equalLoop f n σ i f.count) (fun n => ?_)
      (Answers.read (g := fun i n => LIter.equalLoop f n σ i f.count) h1 ((h2.equalLoop hf hσ f.count ?_).imp fun r hr ho => hr.trans ?_)))
    · simp only [LSet.equalSet, hd]
      cases t with
      | frozen g => exact (htf ⟨g, rfl⟩).elim
      | _ => rfl
    · have hc : f.count = f.tree.list.length := Tree.Valid.count_eq (t := f.tree) hf
      omega
    · exact equal_count hf (once_distinct ht.den h5 h6 (ht.once ho))

theorem equalSet_spec (hσ : StoreOk E σ) {s t : LSet T} {a b : LSpec T} (hs : SetOk E σ s a) (ht : SetOk E σ t b) :
    AnswersX E σ (fun n => LSet.equalSet n σ s t) (fun r => b.once → (r = true ↔ ∀ w, a.den w ↔ b.den w)) := by
  obtain ⟨c, c1, hc⟩ := hs.deref hσ
  by_cases hce : c = .empty
  · subst hce
    have he : ∀ w, ¬ a.den w := fun w hw => (hc.den w).2 hw
    refine Answers.x (Answers.step (g := fun n => LSet.isEmpty n σ t) (fun n => by simp only [LSet.equalSet, c1, bind, Except.bind]) ((isEmpty_spec hσ ht).imp fun r hr _ => hr.trans ?_))
    exact forall_congr' fun w => by simp [he w]
  · by_cases hcf : ∃ f, c = .frozen f
    · obtain ⟨f, rfl⟩ := hcf
      refine (equalSet_frozen hσ c1 hc.iok ht).imp fun r hr ho => (hr ho).trans ?_
      exact forall_congr' fun w => iff_congr (hc.den w) Iff.rfl
    · obtain ⟨f, σ1, E1, f1, f2, f3, f4⟩ := freeze_aux hσ hc.iok hc.rk hc.notMemo
      obtain ⟨g, σ2, E2, g1, g2, g3, g4⟩ := freeze_spec f2.store (ht.ext f2)
      have hg : SetOk E2 σ2 (.frozen g) (LSpec.frozen b.den) := setOk_frozen g3 g4
      obtain ⟨r, σ3, E3, r1, r2, r3⟩ := equalSet_frozen g2.store (s := .frozen f) rfl f3 hg
      have hequal : Runs (fun n => LSet.equal n σ2 (.frozen f) (.frozen g)) (r, σ3) :=
        Runs.step (g := fun n => LSet.equalSet n σ2 (.frozen f) (.frozen g)) (fun n => by simp only [LSet.equal, LSet.deref, bind, Except.bind]) r1
      refine ⟨r, σ3, E3, Runs.step (g := fun n => LSet.freeze n σ c >>= fun x => LSet.freeze n x.2 t >>= fun y => LSet.equal n y.2 x.1 y.1) (fun n => ?_)
        (Runs.bind (g := fun x n => _) f1 (Runs.bind (g := fun x n => _) g1 hequal)), (f2.trans g2).trans r2, fun _ => (r3 trivial).trans ?_⟩
      · simp only [LSet.equalSet, c1]
        cases c with
        | empty => exact (hce rfl).elim
        | frozen f => exact (hcf ⟨f, rfl⟩).elim
        | _ => rfl
      · exact forall_congr' fun w => iff_congr ((f4 w).trans (hc.den w)) Iff.rfl

theorem equal_spec' (hσ : StoreOk E σ) {s t : LSet T} {a b : LSpec T} (hs : SetOk E σ s a) (ht : SetOk E σ t b) :
    AnswersX E σ (fun n => LSet.equal n σ s t) (fun r => b.once → ((∃ w, a.den w) ∨ ∀ w, ¬ b.den w) → (r = true ↔ ∀ w, a.den w ↔ b.den w)) := by
  obtain ⟨c, c1, hc⟩ := hs.deref hσ
  by_cases hce : c = .empty
  · subst hce
    have he : ∀ w, ¬ a.den w := fun w hw => (hc.den w).2 hw
    refine AnswersX.step (g := fun n => LSet.equalSet n σ t t) (fun n => by simp only [LSet.equal, c1, bind, Except.bind]) ((equalSet_spec hσ ht ht).imp fun r hr ho h => (hr ho).trans ?_)
    rcases h with ⟨w, hw⟩ | h
    · exact (he w hw).elim
    · simp [he, h]
  · refine AnswersX.step (g := fun n => LSet.equalSet n σ s t) (fun n => ?_) ((equalSet_spec hσ hs ht).imp fun r hr ho _ => hr ho)
    have hd : LSet.deref σ c = .ok c := by
      have hn := hc.notMemo
      cases c with
      | memo k => exact hn.elim
      | _ => rfl
    simp only [LSet.equal, c1, bind, Except.bind]
    have : ∀ n, LSet.equalSet n σ c t = LSet.equalSet n σ s t := fun n => by
      cases n with
      | zero => rfl
      | succ n => simp only [LSet.equalSet, c1, hd]
    rw [← this]

theorem frozenIsSubsetOf_spec (hσ : StoreOk E σ) {f : FSet T} (hf : f.Valid) {t : LSet T} {b : LSpec T} (ht : SetOk E σ t b) :
    Answers E σ (fun n => frozenIsSubsetOf n σ f t) (fun r => b.once → (r = true ↔ ∀ w, f.Mem w → b.den w)) := by
  have key : ∀ u : LSet T, u.IOk E → u.rk ≤ σ.length → (∀ w, u.den E w ↔ b.den w) → (b.once → u.Cok E ∨ ∀ w, ¬ b.den w) →
      Answers E σ (fun n => LSet.range σ n u >>= fun i => LIter.subsetLoop f n σ i f.count) (fun r => b.once → (r = true ↔ ∀ w, f.Mem w → b.den w)) := by
    intro u hu1 hu2 hu3 hu4
    obtain ⟨i, vs, σ', h1, h2, h3, h4, h5, h6, h7⟩ := set_trace hσ hu1 hu2
    refine Answers.read (g := fun i n => LIter.subsetLoop f n σ i f.count) h1 ((h2.subsetLoop hf hσ f.count ?_).imp fun r hr ho => hr.trans ?_)
    · have hc : f.count = f.tree.list.length := Tree.Valid.count_eq (t := f.tree) hf
      omega
    · exact subset_count hf (once_distinct hu3 h5 h6 (hu4 ho))
  obtain ⟨c, c1, hc⟩ := ht.deref hσ
  by_cases hcf : ∃ g k, c = .frozen g ∧ t = .memo k
  · obtain ⟨g, k, rfl, rfl⟩ := hcf
    refine Answers.congr (fun n => ?_) (key (.frozen g) hc.iok hc.rk hc.den (fun _ => .inl trivial))
    simp only [frozenIsSubsetOf, c1, bind, Except.bind]
  · refine Answers.congr (fun n => ?_) (key t ht.iok ht.rk ht.den ht.once)
    cases t with
    | memo k =>
      simp only [frozenIsSubsetOf, c1, bind, Except.bind]
      cases c with
      | frozen g => exact (hcf ⟨g, k, rfl, rfl⟩).elim
      | _ => rfl
    | _ => rfl

theorem isSubsetOf_spec (hσ : StoreOk E σ) {s t : LSet T} {a b : LSpec T} (hs : SetOk E σ s a) (ht : SetOk E σ t b) :
    AnswersX E σ (fun n => LSet.isSubsetOf n σ s t) (fun r => b.once → (r = true ↔ ∀ w, a.den w → b.den w)) := by
  obtain ⟨c, c1, hc⟩ := hs.deref hσ
  by_cases hce : c = .empty
  · subst hce
    have he : ∀ w, ¬ a.den w := fun w hw => (hc.den w).2 hw
    exact Answers.x (Answers.congr (g := fun n => .ok (true, σ)) (fun n => by simp only [LSet.isSubsetOf, c1, bind, Except.bind]; rfl) (Answers.pure hσ fun _ => by simp [he]))
  · by_cases hcf : ∃ f, c = .frozen f
    · obtain ⟨f, rfl⟩ := hcf
      refine Answers.x (Answers.congr (g := fun n => frozenIsSubsetOf n σ f t) (fun n => by simp only [LSet.isSubsetOf, c1, bind, Except.bind])
        ((frozenIsSubsetOf_spec hσ (f := f) hc.iok ht).imp fun r hr ho => (hr ho).trans ?_))
      exact forall_congr' fun w => imp_congr (hc.den w) Iff.rfl
    · obtain ⟨f, σ1, E1, f1, f2, f3, f4⟩ := freeze_aux hσ hc.iok hc.rk hc.notMemo
      obtain ⟨g, σ2, E2, g1, g2, g3, g4⟩ := freeze_spec f2.store (ht.ext f2)
      have hg : SetOk E2 σ2 (.frozen g) (LSpec.frozen b.den) := setOk_frozen g3 g4
      obtain ⟨r, σ3, r1, r2, r3, r4⟩ := frozenIsSubsetOf_spec g2.store f3 hg
      refine ⟨r, σ3, E2, Runs.congr (g := fun n => LSet.freeze n σ c >>= fun x => LSet.freeze n x.2 t >>= fun y => match x.1 with
          | .frozen f => frozenIsSubsetOf n y.2 f y.1
          | _ => .error (.msg "not frozen")) (fun n => ?_)
        (Runs.bind (g := fun x n => _) f1 (Runs.bind (g := fun x n => _) g1 r1)), (f2.trans g2).trans (Ext.same r2 r3), fun _ => (r4 trivial).trans ?_⟩
      · simp only [LSet.isSubsetOf, c1]
        cases c with
        | empty => exact (hce rfl).elim
        | frozen f => exact (hcf ⟨f, rfl⟩).elim
        | _ => rfl
      · exact forall_congr' fun w => imp_congr ((f4 w).trans (hc.den w)) Iff.rfl

end Frozen
