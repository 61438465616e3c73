import Verif.Proof.LazyConcMake

/-! Lazy sets used by several goroutines: loops over iterators, and the methods that answer questions. -/

set_option linter.unusedSectionVars false

namespace Frozen

variable {T : Type} [GoKey T] [LawfulGoKey T] {E : LEnv T} {L : Nat} {W : CellWorld T}

open CellWorld

/-- The values an iterator has still to deliver. -/
structure Listing (E : LEnv T) (i : LIter T) (vs : List T) : Prop where
  rest : ∀ w, i.rest E w ↔ ∃ e ∈ vs, GoKey.eq e w = true
  dst : i.Dst E → Distinct vs

theorem Listing.ex {σ : LStore T} (hσ : StoreOk E σ) {i : LIter T} (hi : i.IterOk E) (hl : i.rk ≤ σ.length) : ∃ vs, Listing E i vs := by
  obtain ⟨vs, σ', _, _, _, g4, g5, _⟩ := ltrace_spec hσ hi hl
  exact ⟨vs, g4, g5⟩

theorem Listing.nil {i : LIter T} (h : ∀ w, ¬ i.rest E w) : Listing E i [] := ⟨fun w => by simp [h w], fun _ => List.Pairwise.nil⟩

theorem Listing.cons {i i' : LIter T} {v : T} {vs : List T} (h : ∀ w, i.rest E w ↔ GoKey.eq v w = true ∨ i'.rest E w)
    (hd : i.Dst E → ¬ i'.rest E v ∧ i'.Dst E) (hv : Listing E i' vs) : Listing E i (v :: vs) := by
  refine ⟨fun w => ?_, fun hi => ?_⟩
  · rw [h w, hv.rest w]; simp
  · refine List.Pairwise.cons (fun e he => ?_) (hv.dst (hd hi).2)
    by_contra hc
    simp only [Bool.not_eq_false] at hc
    refine (hd hi).1 ((hv.rest v).2 ⟨e, he, ?_⟩)
    rw [eq_comm]; exact hc

theorem drainC_aux : ∀ (m : Nat) (W : CellWorld T) (i : LIter T), Fits E L W → i.IterOk E → i.rk ≤ L → i.mu E ≤ m →
    Safe (fun W' _ => ∀ k, i.cell = some k → W'.Froze k) W (fun n => LIter.drainC n i) := by
  intro m
  induction m using Nat.strong_induction_on with
  | _ m ih =>
  intro W i hF hi hl hm
  refine Safe.stepBind (q := fun r n => if r.2 = true then LIter.drainC n r.1 else .done ()) (fun n => by simp only [LIter.drainC]; rfl)
    (nextC_spec hF hi hl) fun W1 r hW1 hr => ?_
  obtain ⟨i', ok⟩ := r
  cases ok with
  | false => exact .pure fun W' hW' k hk => ((hr W' hW').done rfl).2 k hk
  | true =>
    have h2 := hr W1 (Le.refl _)
    obtain ⟨v, g1, g2, g3, g4, g5⟩ := h2.more rfl
    have := h2.rk
    dsimp only at *
    simp only [if_true]
    exact (ih (i'.mu E) (by omega) W1 i' (hF.mono hW1) g2 (by omega) (Nat.le_refl _)).imp fun W' _ _ h k hk => h k (h2.cell.trans hk)

theorem drainC_spec (hF : Fits E L W) {i : LIter T} (hi : i.IterOk E) (hl : i.rk ≤ L) :
    Safe (fun W' _ => ∀ k, i.cell = some k → W'.Froze k) W (fun n => LIter.drainC n i) := drainC_aux (i.mu E) W i hF hi hl (Nat.le_refl _)

theorem countLoopC_pos (n : Nat) (i : LIter T) {k limit : Int} (h : k < limit) : LIter.countLoopC (n + 1) i k limit =
    (LIter.nextC n i).bind fun r => if r.2 = true then LIter.countLoopC n r.1 (k + 1) limit else .done k := by
  simp only [LIter.countLoopC, if_pos h]; rfl

theorem countLoopC_neg (n : Nat) (i : LIter T) {k limit : Int} (h : ¬ k < limit) : LIter.countLoopC (n + 1) i k limit = .done k := by
  simp only [LIter.countLoopC, if_neg h]; rfl

theorem equalLoopC_pos (f : FSet T) (n : Nat) (i : LIter T) {k : Int} (h : k > 0) : LIter.equalLoopC f (n + 1) i k =
    (LIter.nextC n i).bind fun r => if r.2 = true then (LProg.lift r.1.value).bind fun v => (LProg.lift (f.has v)).bind fun b =>
      if b = true then LIter.equalLoopC f n r.1 (k - 1) else .done false else .done false := by
  simp only [LIter.equalLoopC, if_pos h]; rfl

theorem equalLoopC_zero (f : FSet T) (n : Nat) (i : LIter T) : LIter.equalLoopC f (n + 1) i 0 =
    (LIter.nextC n i).bind fun r => .done (!r.2) := by
  simp only [LIter.equalLoopC, gt_iff_lt, Int.lt_irrefl, if_false]; rfl

theorem subsetLoopC_pos (f : FSet T) (n : Nat) (i : LIter T) {k : Int} (h : k > 0) : LIter.subsetLoopC f (n + 1) i k =
    (LIter.nextC n i).bind fun r => if r.2 = true then (LProg.lift r.1.value).bind fun v => (LProg.lift (f.has v)).bind fun b =>
      if b = true then LIter.subsetLoopC f n r.1 (k - 1) else LIter.subsetLoopC f n r.1 k else .done (decide (k = 0)) := by
  simp only [LIter.subsetLoopC, if_pos h]; rfl

theorem subsetLoopC_neg (f : FSet T) (n : Nat) (i : LIter T) {k : Int} (h : ¬ k > 0) : LIter.subsetLoopC f (n + 1) i k = .done (decide (k = 0)) := by
  simp only [LIter.subsetLoopC, if_neg h]; rfl

theorem countLoopC_aux {σ : LStore T} (hσ : StoreOk E σ) : ∀ (m : Nat) (W : CellWorld T) (i : LIter T) (k limit : Int), Fits E σ.length W → i.IterOk E → i.rk ≤ σ.length →
    i.mu E ≤ m → k ≤ limit → Safe (fun _ r => ∃ vs, Listing E i vs ∧ r = min limit (k + vs.length)) W (fun n => LIter.countLoopC n i k limit) := by
  intro m
  induction m using Nat.strong_induction_on with
  | _ m ih =>
  intro W i k limit hF hi hl hm hk
  by_cases hlt : k < limit
  · refine Safe.stepBind (q := fun r n => if r.2 = true then LIter.countLoopC n r.1 (k + 1) limit else .done k) (fun n => countLoopC_pos n i hlt)
      (nextC_spec hF hi hl) fun W1 r hW1 hr => ?_
    have h2 := hr W1 (Le.refl _)
    obtain ⟨i', ok⟩ := r
    cases ok with
    | false => exact .pure fun W' hW' => ⟨[], .nil (h2.done rfl).1, by simp; omega⟩
    | true =>
      obtain ⟨v, g1, g2, g3, g4, g5⟩ := h2.more rfl
      have := h2.rk
      dsimp only at *
      simp only [if_true]
      refine (ih (i'.mu E) (by omega) W1 i' (k + 1) limit (hF.mono hW1) g2 (by omega) (Nat.le_refl _) (by omega)).imp fun W' a _ h => ?_
      obtain ⟨vs, v1, v2⟩ := h
      refine ⟨v :: vs, .cons g4 g5 v1, ?_⟩
      rw [v2]; simp; omega
  · refine Safe.step (g := fun _ => .done k) (fun n => countLoopC_neg n i hlt) (.pure fun _ _ => ?_)
    obtain ⟨vs, hv⟩ := Listing.ex hσ hi hl
    exact ⟨vs, hv, by omega⟩

theorem equalLoopC_aux {σ : LStore T} (hσ : StoreOk E σ) {f : FSet T} (hf : f.Valid) : ∀ (m : Nat) (W : CellWorld T) (i : LIter T) (k : Int), Fits E σ.length W → i.IterOk E →
    i.rk ≤ σ.length → i.mu E ≤ m → 0 ≤ k →
    Safe (fun _ b => ∃ vs, Listing E i vs ∧ (b = true ↔ k = vs.length ∧ ∀ v ∈ vs, f.Mem v)) W (fun n => LIter.equalLoopC f n i k) := by
  intro m
  induction m using Nat.strong_induction_on with
  | _ m ih =>
  intro W i k hF hi hl hm hk
  by_cases hlt : k > 0
  · refine Safe.stepBind (q := fun r n => if r.2 = true then (LProg.lift r.1.value).bind fun v => (LProg.lift (f.has v)).bind fun b =>
      if b = true then LIter.equalLoopC f n r.1 (k - 1) else .done false else .done false) (fun n => equalLoopC_pos f n i hlt)
      (nextC_spec hF hi hl) fun W1 r hW1 hr => ?_
    have h2 := hr W1 (Le.refl _)
    obtain ⟨i', ok⟩ := r
    cases ok with
    | false => exact .pure fun W' hW' => ⟨[], .nil (h2.done rfl).1, by simp; omega⟩
    | true =>
      obtain ⟨v, g1, g2, g3, g4, g5⟩ := h2.more rfl
      have := h2.rk
      dsimp only at *
      by_cases hmv : f.Mem v
      · simp only [if_true, g1, LProg.lift, LProg.bind, FSet.has_spec hf, (FSet.mem_iff hf v).1 hmv]
        refine (ih (i'.mu E) (by omega) W1 i' (k - 1) (hF.mono hW1) g2 (by omega) (Nat.le_refl _) (by omega)).imp fun W' a _ h => ?_
        obtain ⟨vs, v1, v2⟩ := h
        refine ⟨v :: vs, .cons g4 g5 v1, v2.trans ?_⟩
        simp [hmv]; omega
      · have hno : (f.tree.look v).isSome = false := by rw [FSet.mem_iff hf v] at hmv; simpa using hmv
        simp only [if_true, g1, LProg.lift, LProg.bind, FSet.has_spec hf, hno, Bool.false_eq_true, if_false]
        refine .pure fun _ _ => ?_
        obtain ⟨vs, hv⟩ := Listing.ex hσ g2 (by omega)
        exact ⟨v :: vs, .cons g4 g5 hv, by simp [hmv]⟩
  · have : k = 0 := by omega
    subst this
    refine Safe.stepBind (q := fun r n => .done (!r.2)) (fun n => equalLoopC_zero f n i) (nextC_spec hF hi hl) fun W1 r hW1 hr => ?_
    have h2 := hr W1 (Le.refl _)
    obtain ⟨i', ok⟩ := r
    refine .pure fun _ _ => ?_
    cases ok with
    | false => exact ⟨[], .nil (h2.done rfl).1, by simp⟩
    | true =>
      obtain ⟨v, g1, g2, g3, g4, g5⟩ := h2.more rfl
      have := h2.rk
      dsimp only at *
      obtain ⟨vs, hv⟩ := Listing.ex hσ g2 (by omega)
      exact ⟨v :: vs, .cons g4 g5 hv, by simp; omega⟩

theorem subsetLoopC_aux {σ : LStore T} (hσ : StoreOk E σ) {f : FSet T} (hf : f.Valid) : ∀ (m : Nat) (W : CellWorld T) (i : LIter T) (k : Int), Fits E σ.length W → i.IterOk E →
    i.rk ≤ σ.length → i.mu E ≤ m → 0 ≤ k →
    Safe (fun _ b => ∃ vs, Listing E i vs ∧ (b = true ↔ k ≤ (vs.filter (fun v => (f.tree.look v).isSome)).length)) W (fun n => LIter.subsetLoopC f n i k) := by
  intro m
  induction m using Nat.strong_induction_on with
  | _ m ih =>
  intro W i k hF hi hl hm hk
  by_cases hlt : k > 0
  · refine Safe.stepBind (q := fun r n => if r.2 = true then (LProg.lift r.1.value).bind fun v => (LProg.lift (f.has v)).bind fun b =>
      if b = true then LIter.subsetLoopC f n r.1 (k - 1) else LIter.subsetLoopC f n r.1 k else .done (decide (k = 0))) (fun n => subsetLoopC_pos f n i hlt)
      (nextC_spec hF hi hl) fun W1 r hW1 hr => ?_
    have h2 := hr W1 (Le.refl _)
    obtain ⟨i', ok⟩ := r
    cases ok with
    | false => exact .pure fun W' hW' => ⟨[], .nil (h2.done rfl).1, by simp; omega⟩
    | true =>
      obtain ⟨v, g1, g2, g3, g4, g5⟩ := h2.more rfl
      have := h2.rk
      dsimp only at *
      by_cases hmv : (f.tree.look v).isSome = true
      · simp only [if_true, g1, LProg.lift, LProg.bind, FSet.has_spec hf, hmv]
        refine (ih (i'.mu E) (by omega) W1 i' (k - 1) (hF.mono hW1) g2 (by omega) (Nat.le_refl _) (by omega)).imp fun W' a _ h => ?_
        obtain ⟨vs, v1, v2⟩ := h
        refine ⟨v :: vs, .cons g4 g5 v1, v2.trans ?_⟩
        simp only [List.filter_cons, hmv, if_true, List.length_cons]; omega
      · simp only [if_true, g1, LProg.lift, LProg.bind, FSet.has_spec hf, hmv]
        refine (ih (i'.mu E) (by omega) W1 i' k (hF.mono hW1) g2 (by omega) (Nat.le_refl _) (by omega)).imp fun W' a _ h => ?_
        obtain ⟨vs, v1, v2⟩ := h
        refine ⟨v :: vs, .cons g4 g5 v1, v2.trans ?_⟩
        simp only [List.filter_cons, hmv, if_false, Bool.false_eq_true]
  · refine Safe.step (g := fun _ => .done (decide (k = 0))) (fun n => subsetLoopC_neg f n i hlt) (.pure fun _ _ => ?_)
    obtain ⟨vs, hv⟩ := Listing.ex hσ hi hl
    exact ⟨vs, hv, by simp; omega⟩

/-- The listing of a whole set. -/
theorem listing_set {s : LSet T} {i : LIter T} {vs : List T} (h : RangeOk E s i) (hv : Listing E i vs) :
    (∀ w, s.den E w ↔ ∃ e ∈ vs, GoKey.eq e w = true) ∧ (s.Cok E → Distinct vs) :=
  ⟨fun w => (h.rest w).symm.trans (hv.rest w), fun hc => hv.dst (h.dst hc)⟩

theorem hasC_spec' {s : LSet T} {a : LSpec T} (hs : SetOk W.E W.σ s a) (el : T) :
    Safe (fun _ b => a.safe → (b = true ↔ a.den el)) W (fun n => LSet.hasC n s el) :=
  (hasC_spec (Fits.self W) hs.iok hs.rk el).imp fun _ _ _ h hsafe => (h (hs.safe hsafe)).trans (hs.den el)

theorem isEmptyC_spec {s : LSet T} {a : LSpec T} (hs : SetOk W.E W.σ s a) :
    Safe (fun _ b => b = true ↔ ∀ w, ¬ a.den w) W (fun n => LSet.isEmptyC n s) := by
  refine Safe.congrBind (p := fun _ => LSet.derefC s) (q := fun c n => match c with
    | .empty => .done true
    | c => (LSet.fastIsEmptyC n c).bind fun o => match o with
      | some b => .done b
      | none => (LSet.rangeC n c).bind fun i => (LIter.nextC n i).bind fun r => .done (!r.2)) (fun _ => rfl) (derefC_spec hs) fun W1 c hW1 hc => ?_
  obtain ⟨hc, _⟩ := hc W1 (Le.refl _)
  have hnode : Safe (fun _ b => b = true ↔ ∀ w, ¬ a.den w) W1 (fun n => (LSet.fastIsEmptyC n c).bind fun o => match o with
      | some b => .done b
      | none => (LSet.rangeC n c).bind fun i => (LIter.nextC n i).bind fun r => .done (!r.2)) := by
    refine Safe.bind (q := fun o n => match o with
      | some b => .done b
      | none => (LSet.rangeC n c).bind fun i => (LIter.nextC n i).bind fun r => .done (!r.2)) (fastIsEmptyC_spec (Fits.self W1) hc.iok hc.rk) fun W2 o hW2 ho => ?_
    have ho := ho W2 (Le.refl _)
    cases o with
    | some b => exact .pure fun _ _ => (ho b rfl).trans (forall_congr' fun w => not_congr (hc.den w))
    | none =>
      have hF2 := (Fits.self W1).mono hW2
      refine Safe.bind (q := fun i n => (LIter.nextC n i).bind fun r => .done (!r.2)) (rangeC_spec hF2 hc.iok hc.rk) fun W3 i hW3 hi => ?_
      have hi := (hi W3 (Le.refl _)).1
      refine Safe.bind (q := fun r n => .done (!r.2)) (nextC_spec (hF2.mono hW3) hi.ok (Nat.le_trans hi.rk hc.rk)) fun W4 r hW4 hr => ?_
      have g2 := hr W4 (Le.refl _)
      refine .pure fun _ _ => ?_
      obtain ⟨i', ok⟩ := r
      cases ok with
      | false =>
        have := (g2.done rfl).1
        simp only [Bool.not_false, true_iff]
        exact fun w hw => this w ((hi.rest w).2 ((hc.den w).2 hw))
      | true =>
        obtain ⟨v, _, _, _, k4, _⟩ := g2.more rfl
        simp only [Bool.not_true, Bool.false_eq_true, false_iff]
        intro h
        exact h v ((hc.den v).1 ((hi.rest v).1 ((k4 v).2 (.inl (LawfulGoKey.refl v)))))
  cases c with
  | empty => exact .pure fun _ _ => by simp only [true_iff]; exact fun w hw => (hc.den w).2 hw
  | _ => exact hnode

/-! ### Freeze -/

/-- A frozen set of the same values. -/
def FrozeOk (a : LSpec T) (r : LSet T) : Prop := ∃ f : FSet T, r = .frozen f ∧ f.Valid ∧ ∀ w, f.Mem w ↔ a.den w

theorem freezeC_spec {s : LSet T} {a : LSpec T} (hs : SetOk W.E W.σ s a) : Safe (fun _ r => FrozeOk a r) W (fun n => LSet.freezeC n s) := by
  refine Safe.congrBind (p := fun _ => LSet.derefC s) (q := fun c n => match c with
    | .empty => .done (.frozen FSet.zero)
    | c => (memoizeC c).bind fun m => match m with
      | .memo k => (LSet.rangeC n (.memo k)).bind fun i => (LIter.drainC n i).bind fun _ => LSet.derefC (.memo k)
      | _ => .done c) (fun _ => rfl) (derefC_spec hs) fun W1 c hW1 hc => ?_
  obtain ⟨hc, _⟩ := hc W1 (Le.refl _)
  have hnode : ¬ c.Eager → Safe (fun _ r => FrozeOk a r) W1 (fun n => (memoizeC c).bind fun m => match m with
      | .memo k => (LSet.rangeC n (.memo k)).bind fun i => (LIter.drainC n i).bind fun _ => LSet.derefC (.memo k)
      | _ => .done c) := by
    intro hne
    refine Safe.bind (p := fun _ => memoizeC c) (q := fun m n => match m with
      | .memo k => (LSet.rangeC n (.memo k)).bind fun i => (LIter.drainC n i).bind fun _ => LSet.derefC (.memo k)
      | _ => .done c) (memoizeC_spec hc hne) fun W2 m hW2 hm => ?_
    obtain ⟨hm, k, rfl, _⟩ := hm W2 (Le.refl _)
    have hF2 := Fits.self W2
    refine Safe.bind (q := fun i n => (LIter.drainC n i).bind fun _ => LSet.derefC (.memo k)) (rangeC_spec hF2 hm.iok hm.rk) fun W3 i hW3 hi => ?_
    have hi0 := hi W3 (Le.refl _)
    refine Safe.bind (q := fun _ _ => LSet.derefC (.memo k)) (drainC_spec (hF2.mono hW3) hi0.1.ok (Nat.le_trans hi0.1.rk hm.rk)) fun W4 _ hW4 hd => ?_
    have hfz : W4.Froze k := by
      rcases hi0.2 k rfl with h | h
      · exact hd W4 (Le.refl _) k h
      · exact h.mono hW4
    refine .load (g := fun c _ => match c with | .memo _ => .panic (.msg "memo of memo") | c => .done c) 0 (fun n _ => rfl)
      (Nat.lt_of_lt_of_le hm.rk (hW3.trans hW4).len) fun W5 d hW5 hd5 => ?_
    obtain ⟨f, hf⟩ := hfz.mono hW5
    rw [hd5] at hf
    cases hf
    have hco := (hF2.mono ((hW3.trans hW4).trans hW5)).cell hm.rk hd5
    exact .pure fun _ _ => ⟨f, rfl, hco.iok, fun w => (hco.den w).trans (hm.den w)⟩
  cases c with
  | empty =>
    exact .pure fun _ _ => ⟨FSet.zero, rfl, Tree.valid_zero, fun w => by
      have h1 : ¬ a.den w := fun hw => (hc.den w).2 hw
      simp only [h1, iff_false]; exact seen_zero_mem w⟩
  | frozen f => exact .pure fun _ _ => ⟨f, rfl, hc.iok, hc.den⟩
  | memo k => exact hc.notMemo.elim
  | _ => exact hnode (fun h => h)

/-! ### Count -/

def CountAllC (T : Type) [GoKey T] (r z : Nat) : Prop := ∀ (E : LEnv T) (σ : LStore T) (W : CellWorld T) (s : LSet T) (limit : Int), 0 ≤ limit → StoreOk E σ →
  Fits E σ.length W → s.IOk E → s.rk ≤ σ.length → s.rk ≤ r → s.sz ≤ z →
  Safe (fun _ o => s.Plain E → ∀ k, o = some k → CardUpTo (s.den E) limit k) W (fun n => LSet.fastCountUpToC n s limit) ∧
  Safe (fun _ k => s.Plain E → CardUpTo (s.den E) limit k) W (fun n => LSet.countUpToC n s limit)

/-- `CountUpTo` of what was read. -/
def countNodeC (limit : Int) (n : Nat) : LSet T → LProg T Int
  | .empty => .done 0
  | c => (LSet.fastCountUpToC n c limit).bind fun o => match o with
    | some k => .done k
    | none => (LSet.rangeC n c).bind fun i => LIter.countLoopC n i 0 limit

theorem countUpToC_node {σ : LStore T} (hσ : StoreOk E σ) (hF : Fits E σ.length W) {c : LSet T} (hi : c.IOk E) (hl : c.rk ≤ σ.length)
    {limit : Int} (h0 : 0 ≤ limit)
    (hf : Safe (fun _ o => c.Plain E → ∀ k, o = some k → CardUpTo (c.den E) limit k) W (fun n => LSet.fastCountUpToC n c limit)) :
    Safe (fun _ k => c.Plain E → CardUpTo (c.den E) limit k) W (fun n => countNodeC limit n c) := by
  have hnode : Safe (fun _ k => c.Plain E → CardUpTo (c.den E) limit k) W (fun n => (LSet.fastCountUpToC n c limit).bind fun o => match o with
        | some k => .done k
        | none => (LSet.rangeC n c).bind fun i => LIter.countLoopC n i 0 limit) := by
    refine Safe.bind (q := fun o n => match o with
        | some k => .done k
        | none => (LSet.rangeC n c).bind fun i => LIter.countLoopC n i 0 limit) hf fun W1 o hW1 ho => ?_
    have ho := ho W1 (Le.refl _)
    cases o with
    | some k => exact .pure fun _ _ hp => ho hp k rfl
    | none =>
      have hF1 := hF.mono hW1
      refine Safe.bind (q := fun i n => LIter.countLoopC n i 0 limit) (rangeC_spec hF1 hi hl) fun W2 i hW2 hr => ?_
      have hr := (hr W2 (Le.refl _)).1
      refine (countLoopC_aux hσ (i.mu E) W2 i 0 limit (hF1.mono hW2) hr.ok (Nat.le_trans hr.rk hl) (Nat.le_refl _) h0).imp fun W' k _ hk hp l hll => ?_
      obtain ⟨vs, v1, v2⟩ := hk
      obtain ⟨g5, g6⟩ := listing_set hr v1
      have : Lists vs (c.den E) := ⟨g6 hp.cok, g5⟩
      rw [v2, this.length_eq hll]; simp
  cases c with
  | empty =>
    refine .pure fun _ _ _ l hl => ?_
    cases l with
    | nil => simp; omega
    | cons v l => exact ((hl.covers v).2 ⟨v, by simp, LawfulGoKey.refl v⟩).elim
  | _ => exact hnode

theorem countUpToC_eq (s : LSet T) (limit : Int) (n : Nat) : LSet.countUpToC (n + 1) s limit = (LSet.derefC s).bind fun c => countNodeC limit n c := by
  simp only [LSet.countUpToC]
  refine congrArg (LProg.bind (LSet.derefC s)) (funext fun c => ?_)
  cases c <;> rfl

theorem count_allC : ∀ r z, CountAllC T r z := by
  intro r
  induction r using Nat.strong_induction_on with
  | _ r ihr =>
  intro z
  induction z with
  | zero => intro E σ W s limit _ _ _ _ _ _ hz; have := s.sz_pos; omega
  | succ z ihz =>
    intro E σ W s limit h0 hσ hF hi hl hr hz
    have hnone : (∀ n, LSet.fastCountUpToC (n + 1) s limit = .done none) →
        Safe (fun _ o => s.Plain E → ∀ k, o = some k → CardUpTo (s.den E) limit k) W (fun n => LSet.fastCountUpToC n s limit) := fun h =>
      Safe.step (g := fun _ => .done none) h (.pure fun _ _ _ k hk => by cases hk)
    have hfast : s.NotMemo → Safe (fun _ o => s.Plain E → ∀ k, o = some k → CardUpTo (s.den E) limit k) W (fun n => LSet.fastCountUpToC n s limit) := by
      intro hn
      cases s with
      | memo k => exact hn.elim
      | empty =>
        refine Safe.step (g := fun _ => .done (some 0)) (fun n => by simp only [LSet.fastCountUpToC]) (.pure fun _ _ _ k hk l hl => ?_)
        cases hk
        cases l with
        | nil => simp; omega
        | cons v l => exact ((hl.covers v).2 ⟨v, by simp, LawfulGoKey.refl v⟩).elim
      | frozen f =>
        refine Safe.step (g := fun _ => .done (some (if f.count < limit then f.count else limit))) (fun n => by simp only [LSet.fastCountUpToC])
          (.pure fun _ _ _ k hk l hl => ?_)
        cases hk
        have h1 := (FSet.lists (s := f) hi).length_eq hl
        have h2 := Tree.Valid.count_eq (t := f.tree) hi
        have h3 : f.count = l.length := by rw [← h1]; exact h2
        split <;> omega
      | union a b =>
        have hl := Nat.max_le.1 hl
        have hr := Nat.max_le.1 hr
        simp only [LSet.sz] at hz
        have := a.sz_pos
        have := b.sz_pos
        refine Safe.stepBind (q := fun x n => if x = some true then (LSet.countUpToC n b limit).bind fun c => .done (some c)
          else (LSet.fastIsEmptyC n b).bind fun y => if y = some true then (LSet.countUpToC n a limit).bind fun c => .done (some c)
          else (LSet.fastCountUpToC n a limit).bind fun c => if c = some limit then .done (some limit)
          else (LSet.fastCountUpToC n b limit).bind fun c => if c = some limit then .done (some limit) else .done none) (fun n => by simp only [LSet.fastCountUpToC]; rfl)
          (fastIsEmptyC_spec hF hi.1 hl.1) fun W1 x hW1 hx => ?_
        have x2 := hx W1 (Le.refl _)
        have hF1 := hF.mono hW1
        by_cases hx : x = some true
        · simp only [hx, if_true]
          refine Safe.bind (q := fun k n => .done (some k)) (ihz E σ W1 b limit h0 hσ hF1 hi.2 hl.2 hr.2 (by omega)).2 fun W2 k hW2 hk => .pure fun _ _ hp k' hk' => ?_
          cases hk'
          refine (hk W2 (Le.refl _) hp.2.1).congr fun w => ?_
          have := x2 _ hx
          grind [LSet.den]
        · simp only [hx, if_false]
          refine Safe.bind (q := fun y n => if y = some true then (LSet.countUpToC n a limit).bind fun c => .done (some c)
            else (LSet.fastCountUpToC n a limit).bind fun c => if c = some limit then .done (some limit)
            else (LSet.fastCountUpToC n b limit).bind fun c => if c = some limit then .done (some limit) else .done none)
            (fastIsEmptyC_spec hF1 hi.2 hl.2) fun W2 y hW2 hy => ?_
          have y2 := hy W2 (Le.refl _)
          have hF2 := hF1.mono hW2
          by_cases hy : y = some true
          · simp only [hy, if_true]
            refine Safe.bind (q := fun k n => .done (some k)) (ihz E σ W2 a limit h0 hσ hF2 hi.1 hl.1 hr.1 (by omega)).2 fun W3 k hW3 hk => .pure fun _ _ hp k' hk' => ?_
            cases hk'
            refine (hk W3 (Le.refl _) hp.1).congr fun w => ?_
            have := y2 _ hy
            grind [LSet.den]
          · simp only [hy, if_false]
            refine Safe.bind (q := fun c n => if c = some limit then .done (some limit)
              else (LSet.fastCountUpToC n b limit).bind fun c => if c = some limit then .done (some limit) else .done none)
              (ihz E σ W2 a limit h0 hσ hF2 hi.1 hl.1 hr.1 (by omega)).1 fun W3 o hW3 ho => ?_
            have h3 := ho W3 (Le.refl _)
            have hF3 := hF2.mono hW3
            by_cases ho : o = some limit
            · simp only [ho, if_true]
              refine .pure fun _ _ hp k' hk' => ?_
              cases hk'
              obtain ⟨_, vs, _, _, _, _, _, g5, g6, _⟩ := set_trace hσ hi.1 hl.1
              exact CardUpTo.mono ⟨g6 hp.1.cok, g5⟩ (fun w => .inl) (h3 hp.1 limit ho)
            · simp only [ho, if_false]
              refine Safe.bind (q := fun c n => if c = some limit then .done (some limit) else .done none)
                (ihz E σ W3 b limit h0 hσ hF3 hi.2 hl.2 hr.2 (by omega)).1 fun W4 o hW4 ho => ?_
              have h3 := ho W4 (Le.refl _)
              by_cases ho : o = some limit
              · simp only [ho, if_true]
                refine .pure fun _ _ hp k' hk' => ?_
                cases hk'
                obtain ⟨_, vs, _, _, _, _, _, g5, g6, _⟩ := set_trace hσ hi.2 hl.2
                exact CardUpTo.mono ⟨g6 hp.2.1.cok, g5⟩ (fun w => .inr) (h3 hp.2.1 limit ho)
              · simp only [ho, if_false]
                exact .pure fun _ _ _ k hk => by cases hk
      | «where» s p => exact hnone fun n => by simp only [LSet.fastCountUpToC]
      | map s p => exact hnone fun n => by simp only [LSet.fastCountUpToC]
      | inter s p => exact hnone fun n => by simp only [LSet.fastCountUpToC]
      | diff s p => exact hnone fun n => by simp only [LSet.fastCountUpToC]
    by_cases hm : ∃ k, s = .memo k
    · obtain ⟨k, rfl⟩ := hm
      have hk : k < σ.length := hl
      have hk' : k + 1 ≤ r := hr
      constructor
      · refine Safe.stepBind (p := fun _ => LSet.derefC (.memo k)) (q := fun c n => LSet.fastCountUpToC n c limit) (fun n => by simp only [LSet.fastCountUpToC]; rfl)
          (derefC_memo hF hk) fun W1 c hW1 hc => ?_
        have hc := (hc W1 (Le.refl _)).1
        have hcr := hc.rk
        exact (ihr k (by omega) c.sz E σ W1 c limit h0 hσ (hF.mono hW1) hc.iok (by omega) hcr (Nat.le_refl _)).1.imp fun W' o _ ho hp k' hk' =>
          (ho (hc.once hp) k' hk').congr hc.den
      · refine Safe.stepBind (p := fun _ => LSet.derefC (.memo k)) (fun n => countUpToC_eq _ limit n) (derefC_memo hF hk) fun W1 c hW1 hc => ?_
        have hc := (hc W1 (Le.refl _)).1
        have hcr := hc.rk
        have hcf := (ihr k (by omega) c.sz E σ W1 c limit h0 hσ (hF.mono hW1) hc.iok (by omega) hcr (Nat.le_refl _)).1
        exact (countUpToC_node hσ (hF.mono hW1) hc.iok (by omega) h0 hcf).imp fun W' k' _ hk' hp => (hk' (hc.once hp)).congr hc.den
    · have hn : s.NotMemo := by
        cases s with
        | memo k => exact (hm ⟨k, rfl⟩).elim
        | _ => trivial
      refine ⟨hfast hn, Safe.step (fun n => ?_) (countUpToC_node hσ hF hi hl h0 (hfast hn))⟩
      rw [countUpToC_eq, derefC_other hn]; rfl

theorem countC_spec {s : LSet T} {a : LSpec T} (hs : SetOk W.E W.σ s a) :
    Safe (fun _ k => a.plain → ∀ l : List T, Lists l a.den → (l.length : Int) ≤ maxInt → k = (l.length : Int)) W (fun n => LSet.countC n s) := by
  refine Safe.congrBind (p := fun _ => LSet.derefC s) (q := fun c n => (LSet.fastCountC c).bind fun o => match o with
    | some k => .done k
    | none => LSet.countUpToC n c maxInt) (fun _ => rfl) (derefC_spec hs) fun W1 c hW1 hc => ?_
  obtain ⟨hc, _⟩ := hc W1 (Le.refl _)
  have hcount : Safe (fun _ k => a.plain → ∀ l : List T, Lists l a.den → (l.length : Int) ≤ maxInt → k = (l.length : Int)) W1 (fun n => LSet.countUpToC n c maxInt) :=
    (count_allC c.rk c.sz W1.E W1.σ W1 c maxInt (by decide) W1.ok (Fits.self W1) hc.iok hc.rk (Nat.le_refl _) (Nat.le_refl _)).2.imp fun W' k _ hk hp l hl hle => by
      rw [hk (hc.plain hp) l (hl.congr fun w => (hc.den w).symm)]
      omega
  cases c with
  | empty =>
    refine Safe.congr' (g := fun _ => .done 0) (fun _ => rfl) (.pure fun _ _ _ l hl _ => ?_)
    cases l with
    | nil => rfl
    | cons v l => exact ((hc.den v).2 ((hl.covers v).2 ⟨v, by simp, LawfulGoKey.refl v⟩)).elim
  | frozen f =>
    refine Safe.congr' (g := fun _ => .done f.count) (fun _ => rfl) (.pure fun _ _ _ l hl _ => ?_)
    have h1 := (FSet.lists (s := f) hc.iok).length_eq (hl.congr fun w => (hc.den w).symm)
    have h2 := Tree.Valid.count_eq (t := f.tree) hc.iok
    rw [← h1]; exact h2
  | memo k => exact hc.notMemo.elim
  | _ => exact Safe.congr' (fun _ => rfl) hcount

/-! ### EqualSet and IsSubsetOf -/

theorem count_nonneg {f : FSet T} (hf : f.Valid) : 0 ≤ f.count := by
  have hc : f.count = f.tree.list.length := Tree.Valid.count_eq (t := f.tree) hf
  omega

/-- `frozenSet.EqualSet` -/
def eqFrozenC (f : FSet T) (n : Nat) : LSet T → LProg T Bool
  | .frozen g => LProg.lift (f.equal g)
  | t => (LSet.rangeC n t).bind fun i => LIter.equalLoopC f n i f.count

theorem equalSetC_eq (s t : LSet T) (n : Nat) : LSet.equalSetC (n + 1) s t = (LSet.derefC s).bind fun c => match c with
    | .empty => LSet.isEmptyC n t
    | .frozen f => eqFrozenC f n t
    | c => (LSet.freezeC n c).bind fun x => (LSet.freezeC n t).bind fun y => LSet.equalC n x y := by
  simp only [LSet.equalSetC]
  refine congrArg (LProg.bind (LSet.derefC s)) (funext fun c => ?_)
  cases c with
  | frozen f => cases t <;> rfl
  | _ => rfl

theorem equalSetC_frozen {f : FSet T} (hf : f.Valid) {t : LSet T} {b : LSpec T} (ht : SetOk W.E W.σ t b) :
    Safe (fun _ r => b.once → (r = true ↔ ∀ w, f.Mem w ↔ b.den w)) W (fun n => eqFrozenC f n t) := by
  have hnode : Safe (fun _ r => b.once → (r = true ↔ ∀ w, f.Mem w ↔ b.den w)) W (fun n => (LSet.rangeC n t).bind fun i => LIter.equalLoopC f n i f.count) := by
    refine Safe.bind (q := fun i n => LIter.equalLoopC f n i f.count) (rangeC_spec (Fits.self W) ht.iok ht.rk) fun W1 i hW1 hi => ?_
    have hi := (hi W1 (Le.refl _)).1
    refine (equalLoopC_aux W.ok hf (i.mu W.E) W1 i f.count ((Fits.self W).mono hW1) hi.ok (Nat.le_trans hi.rk ht.rk) (Nat.le_refl _) (count_nonneg hf)).imp
      fun W' r _ hr ho => ?_
    obtain ⟨vs, v1, v2⟩ := hr
    obtain ⟨g5, g6⟩ := listing_set hi v1
    exact v2.trans (equal_count hf (once_distinct ht.den g5 g6 (ht.once ho)))
  cases t with
  | frozen g =>
    obtain ⟨r, r1, r2⟩ := FSet.equal_spec (t := g) hf ht.iok
    simp only [eqFrozenC, r1, LProg.lift]
    exact .pure fun _ _ _ => r2.trans (forall_congr' fun w => iff_congr Iff.rfl (ht.den w))
  | _ => exact hnode

theorem equalSetC_spec {s t : LSet T} {a b : LSpec T} (hs : SetOk W.E W.σ s a) (ht : SetOk W.E W.σ t b) :
    Safe (fun _ r => b.once → (r = true ↔ ∀ w, a.den w ↔ b.den w)) W (fun n => LSet.equalSetC n s t) := by
  refine Safe.stepBind (p := fun _ => LSet.derefC s) (fun n => equalSetC_eq s t n) (derefC_spec hs)
    fun W1 c hW1 hc => ?_
  obtain ⟨hc, _⟩ := hc W1 (Le.refl _)
  have ht1 := ht.ext hW1.ext
  have hnode : Safe (fun _ r => b.once → (r = true ↔ ∀ w, a.den w ↔ b.den w)) W1 (fun n => (LSet.freezeC n c).bind fun x => (LSet.freezeC n t).bind fun y => LSet.equalC n x y) := by
    refine Safe.bind (q := fun x n => (LSet.freezeC n t).bind fun y => LSet.equalC n x y) (freezeC_spec hc.setOk) fun W2 x hW2 hx => ?_
    obtain ⟨f, rfl, f3, f4⟩ := hx W2 (Le.refl _)
    refine Safe.bind (q := fun y n => LSet.equalC n (.frozen f) y) (freezeC_spec (ht1.ext hW2.ext)) fun W3 y hW3 hy => ?_
    obtain ⟨g, rfl, g3, g4⟩ := hy W3 (Le.refl _)
    have hg : SetOk W3.E W3.σ (.frozen g) (LSpec.frozen b.den) := setOk_frozen g3 g4
    refine Safe.step (g := fun n => LSet.equalSetC n (.frozen f) (.frozen g)) (fun n => by simp only [LSet.equalC]; rfl)
      (Safe.step (g := fun n => eqFrozenC f n (.frozen g)) (fun n => by rw [equalSetC_eq]; rfl) ((equalSetC_frozen f3 hg).imp fun W' r _ hr _ => (hr trivial).trans ?_))
    exact forall_congr' fun w => iff_congr (f4 w) Iff.rfl
  cases c with
  | empty =>
    refine (isEmptyC_spec ht1).imp fun W' r _ hr _ => hr.trans ?_
    have he : ∀ w, ¬ a.den w := fun w hw => (hc.den w).2 hw
    exact forall_congr' fun w => by simp [he w]
  | frozen f =>
    refine (equalSetC_frozen (f := f) hc.iok ht1).imp fun W' r _ hr ho => (hr ho).trans ?_
    exact forall_congr' fun w => iff_congr (hc.den w) Iff.rfl
  | _ => exact hnode

/-- The iterator of `frozenSet.IsSubsetOf`. -/
def rangeArgC (n : Nat) : LSet T → LProg T (LIter T)
  | .memo k => (LSet.derefC (.memo k)).bind fun c => match c with
    | .frozen g => LSet.rangeC n (.frozen g)
    | _ => LSet.rangeC n (.memo k)
  | t => LSet.rangeC n t

theorem frozenIsSubsetOfC_eq (n : Nat) (f : FSet T) (t : LSet T) : frozenIsSubsetOfC n f t = (rangeArgC n t).bind fun i => LIter.subsetLoopC f n i f.count := by
  cases t with
  | memo k =>
    simp only [frozenIsSubsetOfC, rangeArgC]
    rw [LProg.bind_assoc]
    refine congrArg (LProg.bind _) (funext fun c => ?_)
    cases c <;> rfl
  | _ => rfl

theorem frozenIsSubsetOfC_spec {f : FSet T} (hf : f.Valid) {t : LSet T} {b : LSpec T} (ht : SetOk W.E W.σ t b) :
    Safe (fun _ r => b.once → (r = true ↔ ∀ w, f.Mem w → b.den w)) W (fun n => frozenIsSubsetOfC n f t) := by
  refine Safe.congrBind (P := fun _ i => ∃ u : LSet T, RangeOk W.E u i ∧ u.rk ≤ W.σ.length ∧ (∀ w, u.den W.E w ↔ b.den w) ∧ (b.once → u.Cok W.E ∨ ∀ w, ¬ b.den w))
    (q := fun i n => LIter.subsetLoopC f n i f.count) (fun n => frozenIsSubsetOfC_eq n f t) ?_ fun W1 i hW1 hi => ?_
  · have hplain : Safe (fun _ i => ∃ u : LSet T, RangeOk W.E u i ∧ u.rk ≤ W.σ.length ∧ (∀ w, u.den W.E w ↔ b.den w) ∧ (b.once → u.Cok W.E ∨ ∀ w, ¬ b.den w)) W
        (fun n => LSet.rangeC n t) := (rangeC_spec (Fits.self W) ht.iok ht.rk).imp fun W' i _ hi => ⟨t, hi.1, ht.rk, ht.den, ht.once⟩
    cases t with
    | memo k =>
      have hk : k < W.σ.length := ht.rk
      refine Safe.bind (p := fun _ => LSet.derefC (.memo k)) (q := fun c n => match c with
        | .frozen g => LSet.rangeC n (.frozen g)
        | _ => LSet.rangeC n (.memo k)) (derefC_memo (Fits.self W) hk) fun W1 c hW1 hc => ?_
      have hc := (hc W1 (Le.refl _)).1
      cases c with
      | frozen g =>
        refine (rangeC_spec ((Fits.self W).mono hW1) (s := .frozen g) hc.iok (Nat.zero_le _)).imp fun W' i _ hi => ⟨.frozen g, hi.1, Nat.zero_le _,
          fun w => (hc.den w).trans (ht.den w), fun _ => .inl trivial⟩
      | _ => exact hplain.mono hW1
    | _ => exact hplain
  · obtain ⟨u, hr, hu2, hu3, hu4⟩ := hi W1 (Le.refl _)
    refine (subsetLoopC_aux W.ok hf (i.mu W.E) W1 i f.count ((Fits.self W).mono hW1) hr.ok (Nat.le_trans hr.rk hu2) (Nat.le_refl _) (count_nonneg hf)).imp
      fun W' r _ hrr ho => ?_
    obtain ⟨vs, v1, v2⟩ := hrr
    obtain ⟨g5, g6⟩ := listing_set hr v1
    exact v2.trans (subset_count hf (once_distinct hu3 g5 g6 (hu4 ho)))

theorem isSubsetOfC_spec {s t : LSet T} {a b : LSpec T} (hs : SetOk W.E W.σ s a) (ht : SetOk W.E W.σ t b) :
    Safe (fun _ r => b.once → (r = true ↔ ∀ w, a.den w → b.den w)) W (fun n => LSet.isSubsetOfC n s t) := by
  refine Safe.congrBind (p := fun _ => LSet.derefC s) (q := fun c n => match c with
    | .empty => .done true
    | .frozen f => frozenIsSubsetOfC n f t
    | c => (LSet.freezeC n c).bind fun x => (LSet.freezeC n t).bind fun y => match x with
      | .frozen f => frozenIsSubsetOfC n f y
      | _ => .panic (.msg "not frozen")) (fun n => rfl) (derefC_spec hs) fun W1 c hW1 hc => ?_
  obtain ⟨hc, _⟩ := hc W1 (Le.refl _)
  have ht1 := ht.ext hW1.ext
  have hnode : Safe (fun _ r => b.once → (r = true ↔ ∀ w, a.den w → b.den w)) W1 (fun n => (LSet.freezeC n c).bind fun x => (LSet.freezeC n t).bind fun y => match x with
      | .frozen f => frozenIsSubsetOfC n f y
      | _ => .panic (.msg "not frozen")) := by
    refine Safe.bind (q := fun x n => (LSet.freezeC n t).bind fun y => match x with
      | .frozen f => frozenIsSubsetOfC n f y
      | _ => .panic (.msg "not frozen")) (freezeC_spec hc.setOk) fun W2 x hW2 hx => ?_
    obtain ⟨f, rfl, f3, f4⟩ := hx W2 (Le.refl _)
    refine Safe.bind (q := fun y n => frozenIsSubsetOfC n f y) (freezeC_spec (ht1.ext hW2.ext)) fun W3 y hW3 hy => ?_
    obtain ⟨g, rfl, g3, g4⟩ := hy W3 (Le.refl _)
    have hg : SetOk W3.E W3.σ (.frozen g) (LSpec.frozen b.den) := setOk_frozen g3 g4
    exact (frozenIsSubsetOfC_spec f3 hg).imp fun W' r _ hr _ => (hr trivial).trans (forall_congr' fun w => imp_congr (f4 w) Iff.rfl)
  cases c with
  | empty => exact .pure fun _ _ _ => by simp only [true_iff]; exact fun w hw => ((hc.den w).2 hw).elim
  | frozen f =>
    refine (frozenIsSubsetOfC_spec (f := f) hc.iok ht1).imp fun W' r _ hr ho => (hr ho).trans ?_
    exact forall_congr' fun w => imp_congr (hc.den w) Iff.rfl
  | _ => exact hnode

end Frozen
