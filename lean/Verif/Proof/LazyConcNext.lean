import Verif.Proof.LazyConc

/-! Lazy sets used by several goroutines: `Range`, `Next` and `Has`. -/

set_option linter.unusedSectionVars false

namespace Frozen

variable {T : Type} [GoKey T] [LawfulGoKey T] {E : LEnv T} {L : Nat} {W : CellWorld T}

open CellWorld

/-- The iterator over the contents of a cell. -/
theorem rangeOk_cell {k : Nat} {c : LSet T} (hc : CellOk E k c) {i : LIter T} (g2 : RangeOk E c i) : RangeOk E (.memo k) (.caching i k Tree.zero) := by
  refine ⟨⟨g2.ok, Nat.le_trans g2.rk hc.rk, Tree.valid_zero, fun w => ?_, ?_⟩, Nat.le_refl _, Nat.le_refl _, Nat.le_trans g2.mu hc.size, fun w => ?_, fun _ => trivial⟩
  · rw [g2.rest w, hc.den w]
    constructor
    · exact fun h => .inr h
    · rintro (h | h)
      · exact (seen_zero_mem w h).elim
      · exact h
  · have := g2.mu
    have := hc.size
    simp only [Tree.list, Tree.zero, elems, List.length_nil]
    omega
  · simp only [LIter.rest, LSet.den, g2.rest w, hc.den w]
    exact and_iff_left (seen_zero_mem w)

/-- What `Range` achieves. -/
def RangeC (E : LEnv T) (s : LSet T) (W : CellWorld T) (it : LIter T) : Prop := RangeOk E s it ∧ ∀ k, s = .memo k → it.cell = some k ∨ W.Froze k

theorem rangeC_aux : ∀ (r : Nat) (s : LSet T) (W : CellWorld T), Fits E L W → s.rk ≤ r → s.rk ≤ L → s.IOk E →
    Safe (RangeC E s) W (fun n => LSet.rangeC n s) := by
  intro r
  induction r using Nat.strong_induction_on with
  | _ r ihr =>
  intro s
  induction s with
  | empty =>
    intro W _ _ _ _
    refine Safe.step (g := fun _ => .done .empty) (fun _ => by simp only [LSet.rangeC]) (.pure fun _ _ => ⟨⟨trivial, Nat.le_refl _, Nat.le_refl _, Nat.le_refl _, fun _ => Iff.rfl,
      fun _ => trivial⟩, fun k hk => by cases hk⟩)
  | frozen s =>
    intro W _ _ _ h
    obtain ⟨it, h1, h2, h3⟩ := FSet.range_ok h
    refine Safe.step (g := fun _ => .done (.frozen it)) (fun _ => ?_) (.pure fun _ _ => ⟨rangeOk_frozen h h2 h3, fun k hk => by cases hk⟩)
    simp only [LSet.rangeC, h1]; rfl
  | memo k =>
    intro W hF hr hl _
    have hk : k < L := hl
    have hr : k + 1 ≤ r := hr
    refine Safe.stepBind (p := fun _ => LSet.derefC (.memo k)) (q := fun c n => match c with
      | .frozen s => (LProg.lift s.range).bind fun it => .done (.frozen it)
      | _ => (LSet.derefC (.memo k)).bind fun c => (LSet.rangeC n c).bind fun i => .done (.caching i k Tree.zero)) (fun n => by simp only [LSet.rangeC]; rfl)
      (derefC_memo hF hk) fun W1 c hW1 hc => ?_
    have hF1 := hF.mono hW1
    have hc0 := hc W1 (Le.refl _)
    have hrest : Safe (RangeC E (.memo k)) W1 (fun n => (LSet.derefC (.memo k)).bind fun c => (LSet.rangeC n c).bind fun i => .done (.caching i k Tree.zero)) := by
      refine Safe.bind (p := fun _ => LSet.derefC (.memo k)) (q := fun c n => (LSet.rangeC n c).bind fun i => .done (LIter.caching i k Tree.zero)) (derefC_memo hF1 hk)
        fun W2 c hW2 hc => ?_
      have hc := (hc W2 (Le.refl _)).1
      refine Safe.bind (q := fun i n => .done (LIter.caching i k Tree.zero)) (ihr k (by omega) c W2 (hF1.mono hW2) hc.rk (by have := hc.rk; omega) hc.iok) fun W3 i _ hi => ?_
      refine .pure fun W' _ => ⟨rangeOk_cell hc (hi W3 (Le.refl _)).1, fun j hj => .inl ?_⟩
      cases hj; rfl
    by_cases hf : ∃ f, c = .frozen f
    · obtain ⟨f, rfl⟩ := hf
      have hco := hc0.1
      obtain ⟨it, g1, g2, g3⟩ := FSet.range_ok (s := f) hco.iok
      have hro := rangeOk_frozen (E := E) (s := f) hco.iok g2 g3
      refine Safe.congr' (g := fun _ => .done (.frozen it)) (fun _ => by simp only [g1]; rfl) (.pure fun W' hW' => ⟨⟨hro.ok, ?_, ?_, ?_, ?_, ?_⟩, fun j hj => .inr ?_⟩)
      · simp [LIter.rk]
      · simp [LIter.sz, LSet.sz]
      · exact Nat.le_trans hro.mu hco.size
      · intro w; rw [hro.rest w]; exact hco.den w
      · intro _; exact hro.dst trivial
      · cases hj; exact (hc0.2.1 ⟨f, rfl⟩).mono hW'
    · refine hrest.congr' fun n => ?_
      cases c with
      | frozen f => exact (hf ⟨f, rfl⟩).elim
      | _ => rfl
  | «where» s p ih =>
    intro W hF hr hl h
    refine Safe.stepBind (q := fun i _ => .done (.where i p)) (fun n => by simp only [LSet.rangeC]; rfl) (ih W hF hr hl h.1) fun W1 i _ hi => ?_
    have g2 := (hi W1 (Le.refl _)).1
    refine .pure fun _ _ => ⟨⟨⟨g2.ok, h.2⟩, g2.rk, ?_, g2.mu, ?_, g2.dst⟩, fun k hk => by cases hk⟩
    · have := g2.sz; simp only [LIter.sz, LSet.sz]; omega
    · intro w; simp only [LIter.rest, LSet.den, g2.rest w]
  | map s m ih =>
    intro W hF hr hl h
    refine Safe.stepBind (q := fun i _ => .done (.map i m)) (fun n => by simp only [LSet.rangeC]; rfl) (ih W hF hr hl h.1) fun W1 i _ hi => ?_
    have g2 := (hi W1 (Le.refl _)).1
    refine .pure fun _ _ => ⟨⟨⟨g2.ok, h.2⟩, g2.rk, ?_, g2.mu, ?_,
      fun h => ⟨g2.dst h.1, fun x y hx hy => h.2 x y ((g2.rest x).1 hx) ((g2.rest y).1 hy)⟩⟩, fun k hk => by cases hk⟩
    · have := g2.sz; simp only [LIter.sz, LSet.sz]; omega
    · intro w; simp only [LIter.rest, LSet.den, g2.rest]
  | union a b iha ihb =>
    intro W hF hr hl h
    have hr := Nat.max_le.1 hr
    have hl := Nat.max_le.1 hl
    refine Safe.stepBind (q := fun i _ => .done (.union i (some b))) (fun n => by simp only [LSet.rangeC]; rfl) (iha W hF hr.1 hl.1 h.1) fun W1 i _ hi => ?_
    have g2 := (hi W1 (Le.refl _)).1
    refine .pure fun _ _ => ⟨⟨⟨g2.ok, h.2⟩, ?_, ?_, ?_, ?_, fun h => ⟨g2.dst h.1, h.2.1, fun w hw => h.2.2 w ⟨(g2.rest w).1 hw.1, hw.2⟩⟩⟩, fun k hk => by cases hk⟩
    · have := g2.rk; simp only [LIter.rk, LSet.rk]; omega
    · have := g2.sz; simp only [LIter.sz, LSet.sz]; omega
    · have := g2.mu; simp only [LIter.mu, LSet.ssize]; omega
    · intro w; simp only [LIter.rest, LSet.den, g2.rest]
  | inter a b iha ihb =>
    intro W hF hr hl h
    have hr := Nat.max_le.1 hr
    have hl := Nat.max_le.1 hl
    refine Safe.stepBind (q := fun i _ => .done (.inter i b)) (fun n => by simp only [LSet.rangeC]; rfl) (iha W hF hr.1 hl.1 h.1) fun W1 i _ hi => ?_
    have g2 := (hi W1 (Le.refl _)).1
    refine .pure fun _ _ => ⟨⟨⟨g2.ok, h.2⟩, ?_, ?_, ?_, ?_, g2.dst⟩, fun k hk => by cases hk⟩
    · have := g2.rk; simp only [LIter.rk, LSet.rk]; omega
    · have := g2.sz; simp only [LIter.sz, LSet.sz]; omega
    · have := g2.mu; simp only [LIter.mu, LSet.ssize]; omega
    · intro w; simp only [LIter.rest, LSet.den, g2.rest]
  | diff a b iha ihb =>
    intro W hF hr hl h
    have hr := Nat.max_le.1 hr
    have hl := Nat.max_le.1 hl
    refine Safe.stepBind (q := fun i _ => .done (.diff i b)) (fun n => by simp only [LSet.rangeC]; rfl) (iha W hF hr.1 hl.1 h.1) fun W1 i _ hi => ?_
    have g2 := (hi W1 (Le.refl _)).1
    refine .pure fun _ _ => ⟨⟨⟨g2.ok, h.2⟩, ?_, ?_, ?_, ?_, g2.dst⟩, fun k hk => by cases hk⟩
    · have := g2.rk; simp only [LIter.rk, LSet.rk]; omega
    · have := g2.sz; simp only [LIter.sz, LSet.sz]; omega
    · have := g2.mu; simp only [LIter.mu, LSet.ssize]; omega
    · intro w; simp only [LIter.rest, LSet.den, g2.rest]

theorem rangeC_spec (hF : Fits E L W) {s : LSet T} (hs : s.IOk E) (hl : s.rk ≤ L) : Safe (RangeC E s) W (fun n => LSet.rangeC n s) :=
  rangeC_aux s.rk s W hF (Nat.le_refl _) hl hs

/-- What a call of `Next` achieves. -/
structure NextC (E : LEnv T) (it : LIter T) (W : CellWorld T) (r : LIter T × Bool) : Prop where
  rk : r.1.rk ≤ it.rk
  sz : r.1.sz ≤ it.sz
  cell : r.1.cell = it.cell
  more : r.2 = true → ∃ v, r.1.value = .ok v ∧ r.1.IterOk E ∧ r.1.mu E < it.mu E ∧
    (∀ w, it.rest E w ↔ GoKey.eq v w = true ∨ r.1.rest E w) ∧ (it.Dst E → ¬ r.1.rest E v ∧ r.1.Dst E)
  done : r.2 = false → (∀ w, ¬ it.rest E w) ∧ ∀ k, it.cell = some k → W.Froze k

/-- A value was skipped. -/
theorem NextC.skip {it it1 : LIter T} {r : LIter T × Bool} (h : NextC E it1 W r)
    (hrk : it1.rk ≤ it.rk) (hsz : it1.sz ≤ it.sz) (hcell : it1.cell = it.cell) (hmu : it1.mu E ≤ it.mu E)
    (hrest : ∀ w, it.rest E w ↔ it1.rest E w) (hd : it.Dst E → it1.Dst E) : NextC E it W r := by
  refine ⟨Nat.le_trans h.rk hrk, Nat.le_trans h.sz hsz, h.cell.trans hcell, fun ho => ?_, fun ho => ?_⟩
  · obtain ⟨v, h1, h2, h3, h4, h5⟩ := h.more ho
    exact ⟨v, h1, h2, Nat.lt_of_lt_of_le h3 hmu, fun w => (hrest w).trans (h4 w), fun g => h5 (hd g)⟩
  · obtain ⟨h1, h2⟩ := h.done ho
    exact ⟨fun w hw => h1 w ((hrest w).1 hw), fun k hk => h2 k (hcell.trans hk)⟩

def NextAllC (T : Type) [GoKey T] (r z : Nat) : Prop := ∀ (E : LEnv T) (L : Nat) (W : CellWorld T) (it : LIter T), Fits E L W → it.IterOk E →
  it.rk ≤ L → it.rk ≤ r → it.sz ≤ z → Safe (NextC E it) W (fun n => LIter.nextC n it)

def HasAllC (T : Type) [GoKey T] (r z : Nat) : Prop := ∀ (E : LEnv T) (L : Nat) (W : CellWorld T) (s : LSet T) (el : T), Fits E L W → s.IOk E →
  s.rk ≤ L → s.rk ≤ r → s.sz ≤ z → Safe (fun _ b => s.HOk E → (b = true ↔ s.den E el)) W (fun n => LSet.hasC n s el)

theorem NextAllC.mono {r z r' z' : Nat} (h : NextAllC T r z) (hr : r' ≤ r) (hz : z' ≤ z) : NextAllC T r' z' :=
  fun E L W it h1 h2 h3 h4 h5 => h E L W it h1 h2 h3 (Nat.le_trans h4 hr) (Nat.le_trans h5 hz)

/-- A loop that filters the values of `i`. -/
theorem filter_nextC {r z : Nat} (ih : NextAllC T r z) (mk : LIter T → LIter T) (Q : T → Prop)
    (test : Nat → T → LProg T Bool)
    (heq : ∀ (n : Nat) (i : LIter T), LIter.nextC (n + 1) (mk i) = (LIter.nextC n i).bind fun x =>
      if x.2 = true then (LProg.lift x.1.value).bind fun v => (test n v).bind fun y =>
        if y = true then .done (mk x.1, true) else LIter.nextC n (mk x.1)
      else .done (mk x.1, false))
    (hval : ∀ i, (mk i).value = i.value) (hmu : ∀ i, (mk i).mu E = i.mu E) (hcell : ∀ i, (mk i).cell = none)
    (hrk : ∀ i i', i'.rk ≤ i.rk → (mk i').rk ≤ (mk i).rk) (hrk' : ∀ i, i.rk ≤ (mk i).rk)
    (hsz : ∀ i i', i'.sz ≤ i.sz → (mk i').sz ≤ (mk i).sz)
    (hrest : ∀ i w, (mk i).rest E w ↔ i.rest E w ∧ Q w) (hQ : CongP Q) (hdst : ∀ i, (mk i).Dst E ↔ i.Dst E)
    (hok : ∀ i i', (mk i).IterOk E → i'.IterOk E → (mk i').IterOk E) (hok' : ∀ i, (mk i).IterOk E → i.IterOk E)
    (htest : ∀ (W : CellWorld T) (v : T), Fits E L W → Safe (fun _ b => b = true ↔ Q v) W (fun n => test n v)) :
    ∀ (m : Nat) (W : CellWorld T) (i : LIter T), i.mu E ≤ m → Fits E L W → (mk i).IterOk E → (mk i).rk ≤ L → i.rk ≤ r → i.sz ≤ z →
      Safe (NextC E (mk i)) W (fun n => LIter.nextC n (mk i)) := by
  intro m
  induction m using Nat.strong_induction_on with
  | _ m ihm =>
  intro W i hm hF hi hl hr hz
  refine Safe.stepBind (q := fun x n => _) (fun n => heq n i) (ih E L W i hF (hok' i hi) (by have := hrk' i; omega) hr hz) fun W1 x hW1 hx => ?_
  obtain ⟨i', ok⟩ := x
  have h2 := hx W1 (Le.refl _)
  have hr2 := h2.rk
  have hz2 := h2.sz
  have hrk1 := hrk _ _ h2.rk
  have hsz1 := hsz _ _ h2.sz
  cases ok with
  | false =>
    simp only [Bool.false_eq_true, if_false]
    refine .pure fun W' hW' => ⟨hrk1, hsz1, by rw [hcell, hcell], by simp, fun _ => ⟨fun w hw => (h2.done rfl).1 w ((hrest i w).1 hw).1, fun k hk => ?_⟩⟩
    rw [hcell] at hk; cases hk
  | true =>
    obtain ⟨v, hv, hio, hmu', hre, hd⟩ := h2.more rfl
    have hmk := hok i i' hi hio
    simp only at hv hio hmu' hre hd hrk1 hsz1 hr2 hz2
    simp only [if_true, hv, LProg.lift, LProg.bind]
    refine Safe.bind (q := fun y n => if y = true then .done (mk i', true) else LIter.nextC n (mk i')) (htest W1 v (hF.mono hW1)) fun W2 b hW2 hb => ?_
    have t4 := hb W2 (Le.refl _)
    cases b with
    | true =>
      have hQv : Q v := t4.1 rfl
      simp only [if_true]
      refine .pure fun W' _ => ⟨hrk1, hsz1, by rw [hcell, hcell], fun _ => ⟨v, by rw [hval]; exact hv, hmk, by rw [hmu, hmu]; exact hmu', fun w => ?_, fun hdi => ?_⟩, by simp⟩
      · simp only [hrest, hre]
        constructor
        · rintro ⟨h | h, q⟩
          · exact .inl h
          · exact .inr ⟨h, q⟩
        · rintro (h | ⟨h, q⟩)
          · exact ⟨.inl h, (hQ v w h).1 hQv⟩
          · exact ⟨.inr h, q⟩
      · obtain ⟨d1, d2⟩ := hd ((hdst i).1 hdi)
        exact ⟨fun h => d1 ((hrest _ _).1 h).1, (hdst _).2 d2⟩
    | false =>
      have hQv : ¬ Q v := fun h => by simpa using t4.2 h
      simp only [Bool.false_eq_true, if_false]
      refine (ihm (i'.mu E) (by omega) W2 i' (Nat.le_refl _) ((hF.mono hW1).mono hW2) hmk (by omega) (by omega) (by omega)).imp fun W' res _ r2 =>
        r2.skip hrk1 hsz1 (by rw [hcell, hcell]) (by rw [hmu, hmu]; omega) (fun w => ?_) (fun hdi => (hdst _).2 (hd ((hdst i).1 hdi)).2)
      simp only [hrest, hre]
      constructor
      · rintro ⟨h | h, q⟩
        · exact (hQv ((hQ v w h).2 q)).elim
        · exact ⟨h, q⟩
      · rintro ⟨h, q⟩; exact ⟨.inr h, q⟩

theorem nextC_frozen {it : Iter T} (h : it.Ok) : Safe (NextC E (.frozen it)) W (fun n => LIter.nextC n (.frozen it)) := by
  have hs := next_spec it h
  cases hr : it.rem with
  | nil =>
    obtain ⟨it', h1, h2, h3⟩ := hs.1 hr
    refine Safe.step (g := fun _ => .done (.frozen it', false)) (fun n => ?_) (.pure fun _ _ => ⟨Nat.le_refl _,
      Nat.le_refl _, rfl, by simp, fun _ => ⟨fun w => ?_, fun k hk => by cases hk⟩⟩)
    · simp only [LIter.nextC, h1]; rfl
    · simp [LIter.rest, hr]
  | cons x xs =>
    obtain ⟨it', h1, h2, h3, h4⟩ := hs.2 x xs hr
    refine Safe.step (g := fun _ => .done (.frozen it', true)) (fun n => ?_) (.pure fun _ _ => ⟨Nat.le_refl _,
      Nat.le_refl _, rfl, fun _ => ⟨x, h3, h4, ?_, fun w => ?_, fun hd => ?_⟩, by simp⟩)
    · simp only [LIter.nextC, h1]; rfl
    · simp [LIter.mu, hr, h2]
    · simp [LIter.rest, hr, h2]
    · have hd : Distinct it.rem := hd
      rw [hr] at hd
      have hd := List.pairwise_cons.1 hd
      refine ⟨?_, ?_⟩
      · simp only [LIter.rest, h2]
        rintro ⟨e, he, hex⟩
        have := hd.1 e he
        rw [PerGoKey.symm hex] at this
        cases this
      · show Distinct it'.rem
        rw [h2]; exact hd.2

/-- The loop of set_memo.go:46-52. -/
theorem nextC_caching {r z : Nat} (ih : NextAllC T r z) (k : Nat) (hk : k < L) : ∀ (m : Nat) (W : CellWorld T) (i : LIter T) (seen : SetBuilder T), i.mu E ≤ m →
    Fits E L W → LIter.IterOk E (.caching i k seen) → i.rk ≤ r → i.sz ≤ z →
    Safe (NextC E (.caching i k seen)) W (fun n => LIter.nextC n (.caching i k seen)) := by
  intro m
  induction m using Nat.strong_induction_on with
  | _ m ihm =>
  intro W i seen hm hF hi hr hz
  obtain ⟨ho, hrk, hsv, hden, hbd⟩ := hi
  have heq : ∀ n, LIter.nextC (n + 1) (.caching i k seen) = (LIter.nextC n i).bind fun x =>
      if x.2 = true then (LProg.lift x.1.value).bind fun v => (LProg.lift (SetBuilder.has seen v)).bind fun y =>
        if y = true then LIter.nextC n (.caching x.1 k seen)
        else (LProg.lift (SetBuilder.add seen v)).bind fun s => .done (.caching x.1 k s, true)
      else .store k (.frozen ⟨seen⟩) (.done (.caching x.1 k Tree.zero, false)) := by
    intro n
    simp only [LIter.nextC]
    rfl
  have hhas : ∀ v, SetBuilder.has seen v = .ok (Tree.look seen v).isSome := fun v => by
    have := FSet.has_spec (s := ⟨seen⟩) hsv v
    exact this
  have hmem : ∀ v, FSet.Mem ⟨seen⟩ v ↔ (Tree.look seen v).isSome = true := fun v => FSet.mem_iff (s := ⟨seen⟩) hsv v
  refine Safe.stepBind (q := fun x n => _) heq (ih E L W i hF ho (by omega) hr hz) fun W1 x hW1 hx => ?_
  obtain ⟨i', ok⟩ := x
  have h2 := hx W1 (Le.refl _)
  have hF1 := hF.mono hW1
  cases ok with
  | false =>
    simp only [Bool.false_eq_true, if_false]
    have hd := (h2.done rfl).1
    have hk' : k < W1.σ.length := Nat.lt_of_lt_of_le hk hF1.len
    have hden' : ∀ w, FSet.Mem ⟨seen⟩ w ↔ (E k).den w := fun w => by
      rw [hden w]; exact ⟨fun h => .inl h, fun h => h.resolve_right (hd w)⟩
    have hcell : CellOk E k (.frozen ⟨seen⟩) := by
      refine ⟨hsv, Nat.zero_le _, hden', ?_, fun _ => trivial, fun _ => trivial, fun _ => trivial, trivial⟩
      simp only [LSet.ssize]; omega
    refine .store (g := fun _ => .done (.caching i' k Tree.zero, false)) 0 (fun _ _ => rfl) hk' (hcell.agree hF1.agree hk) fun W2 W3 hW2 e1 e2 => ?_
    have hfr : W3.Froze k := ⟨⟨seen⟩, by rw [e2]; exact List.getElem?_set_self (Nat.lt_of_lt_of_le hk' hW2.len)⟩
    refine .pure fun W' hW' => ⟨Nat.le_refl _, Nat.le_refl _, rfl, by simp, fun _ => ⟨fun w hw => hd w hw.1, fun j hj => ?_⟩⟩
    cases hj
    exact hfr.mono hW'
  | true =>
    obtain ⟨v, hv, hio, hmu', hre, _⟩ := h2.more rfl
    have hr2 := h2.rk
    have hz2 := h2.sz
    simp only at hv hio hmu' hre hr2 hz2
    simp only [if_true, hv, LProg.lift, LProg.bind, hhas v]
    by_cases hs : FSet.Mem ⟨seen⟩ v
    · have hcongr : ∀ w, GoKey.eq v w = true → FSet.Mem ⟨seen⟩ w := fun w hw => (FSet.mem_congr (s := ⟨seen⟩) hsv hw).1 hs
      have hok' : LIter.IterOk E (.caching i' k seen) := by
        refine ⟨hio, by omega, hsv, fun w => ?_, by omega⟩
        rw [hden w, hre w]
        constructor
        · rintro (h | h | h)
          · exact .inl h
          · exact .inl (hcongr w h)
          · exact .inr h
        · rintro (h | h)
          · exact .inl h
          · exact .inr (.inr h)
      simp only [(hmem v).1 hs, if_true]
      refine (ihm (i'.mu E) (by omega) W1 i' seen (Nat.le_refl _) hF1 hok' (by omega) (by omega)).imp fun W' res _ r2 =>
        r2.skip (Nat.le_refl _) (Nat.le_refl _) rfl ?_ (fun w => ?_) (fun h => h)
      · simp only [LIter.mu]; omega
      · simp only [LIter.rest, hre]
        constructor
        · rintro ⟨h | h, q⟩
          · exact (q (hcongr w h)).elim
          · exact ⟨h, q⟩
        · rintro ⟨h, q⟩; exact ⟨.inr h, q⟩
    · obtain ⟨seen', a1, a2, a3, a4⟩ := Builder.add_spec (t := seen) hsv v
      have hs' : (Tree.look seen v).isSome = false := by
        cases hx : (Tree.look seen v).isSome with
        | false => rfl
        | true => exact (hs ((hmem v).2 hx)).elim
      have hmem' : ∀ w, FSet.Mem ⟨seen'⟩ w ↔ GoKey.eq v w = true ∨ FSet.Mem ⟨seen⟩ w := fun w => by
        rw [hmem w, FSet.mem_iff (s := ⟨seen'⟩) a2, a3 w]
        by_cases hvw : GoKey.eq v w = true <;> simp [hvw]
      have hcnt : (Tree.list seen').length = (Tree.list seen).length + 1 := by
        have e1 := Tree.Valid.count_eq a2
        have e2 := Tree.Valid.count_eq hsv
        rw [hs'] at a4
        simp only [Bool.false_eq_true, if_false] at a4
        omega
      have a1' : SetBuilder.add seen v = .ok seen' := a1
      simp only [hs', Bool.false_eq_true, if_false, a1']
      refine .pure fun W' _ => ⟨Nat.le_refl _, Nat.le_refl _,
        rfl, fun _ => ⟨v, hv, ⟨hio, by omega, a2, fun w => ?_, ?_⟩, ?_, fun w => ?_, fun _ => ⟨?_, trivial⟩⟩, by simp⟩
      · rw [hden w, hre w, hmem' w]
        constructor
        · rintro (h | h | h)
          · exact .inl (.inr h)
          · exact .inl (.inl h)
          · exact .inr h
        · rintro ((h | h) | h)
          · exact .inr (.inl h)
          · exact .inl h
          · exact .inr (.inr h)
      · rw [hcnt]; omega
      · simp only [LIter.mu]; omega
      · simp only [LIter.rest, hre, hmem' w]
        constructor
        · rintro ⟨h | h, q⟩
          · exact .inl h
          · by_cases hvw : GoKey.eq v w = true
            · exact .inl hvw
            · exact .inr ⟨h, fun g => g.elim hvw q⟩
        · rintro (h | ⟨h, q⟩)
          · exact ⟨.inl h, fun g => hs ((FSet.mem_congr (s := ⟨seen⟩) hsv h).2 g)⟩
          · exact ⟨.inr h, fun g => q (.inr g)⟩
      · simp only [LIter.rest]
        rintro ⟨_, q⟩
        exact q ((hmem' v).2 (.inl (LawfulGoKey.refl v)))

theorem nextC_map {r z : Nat} (ih : NextAllC T r z) (hF : Fits E L W) {i : LIter T} {m : T → T} (hi : i.IterOk E) (hm : CongM m)
    (hl : i.rk ≤ L) (hr : i.rk ≤ r) (hz : i.sz ≤ z) : Safe (NextC E (.map i m)) W (fun n => LIter.nextC n (.map i m)) := by
  refine Safe.stepBind (q := fun x _ => .done (.map x.1 m, x.2)) (fun n => by simp only [LIter.nextC]; rfl) (ih E L W i hF hi hl hr hz) fun W1 x hW1 hx => ?_
  obtain ⟨i', ok⟩ := x
  have h2 := hx W1 (Le.refl _)
  refine .pure fun W' hW' => ⟨h2.rk, ?_, rfl, fun ho => ?_, fun ho => ⟨fun w => ?_, fun k hk => by cases hk⟩⟩
  · have := h2.sz; simp only [LIter.sz] at *; omega
  · obtain ⟨v, g1, g2, g3, g4, g5⟩ := h2.more ho
    refine ⟨m v, ?_, ⟨g2, hm⟩, g3, fun w => ?_, fun h => ⟨fun hv => ?_, (g5 h.1).2, fun x y hx hy => h.2 x y ((g4 x).2 (.inr hx)) ((g4 y).2 (.inr hy))⟩⟩
    · simp only [LIter.value, g1]; rfl
    · simp only at g4
      simp only [LIter.rest, g4]
      constructor
      · rintro ⟨u, h | h, q⟩
        · exact .inl (eq_trans' (hm _ _ h) q)
        · exact .inr ⟨u, h, q⟩
      · rintro (h | ⟨u, h, q⟩)
        · exact ⟨v, .inl (LawfulGoKey.refl v), h⟩
        · exact ⟨u, .inr h, q⟩
    · obtain ⟨u, hu, q⟩ := hv
      exact (g5 h.1).1 ((LIter.rest_congr hF.env g2 u v (h.2 u v ((g4 u).2 (.inr hu)) ((g4 v).2 (.inl (LawfulGoKey.refl v))) q)).1 hu)
  · rintro ⟨v, h, _⟩
    exact (h2.done ho).1 v h

theorem nextC_union_none {r z : Nat} (ih : NextAllC T r z) (hF : Fits E L W) {i : LIter T} (hi : i.IterOk E)
    (hl : i.rk ≤ L) (hr : i.rk ≤ r) (hz : i.sz ≤ z) : Safe (NextC E (.union i none)) W (fun n => LIter.nextC n (.union i none)) := by
  refine Safe.stepBind (q := fun x _ => if x.2 = true then .done (.union x.1 none, true) else .done (.union x.1 none, false)) (fun n => by simp only [LIter.nextC]; rfl)
    (ih E L W i hF hi hl hr hz) fun W1 x hW1 hx => ?_
  obtain ⟨i', ok⟩ := x
  have h2 := hx W1 (Le.refl _)
  refine Safe.congr' (g := fun _ => .done (.union i' none, ok)) (fun _ => by cases ok <;> rfl) (.pure fun W' hW' => ⟨h2.rk, ?_, rfl, fun ho => ?_,
    fun ho => ⟨fun w => (h2.done ho).1 w, fun k hk => by cases hk⟩⟩)
  · have := h2.sz; simp only [LIter.sz] at *; omega
  · obtain ⟨v, g1, g2, g3, g4, g5⟩ := h2.more ho
    exact ⟨v, g1, g2, g3, g4, g5⟩

theorem nextC_union_some {r z : Nat} (ih : NextAllC T r z) (hF : Fits E L W) {i : LIter T} {b : LSet T} (hi : i.IterOk E) (hb : b.IOk E)
    (hl : i.rk ≤ L) (hr : i.rk ≤ r) (hz : i.sz ≤ z) (hlb : b.rk ≤ L) (hrb : b.rk ≤ r) (hzb : b.sz ≤ z) :
    Safe (NextC E (.union i (some b))) W (fun n => LIter.nextC n (.union i (some b))) := by
  refine Safe.stepBind (q := fun x n => if x.2 = true then .done (.union x.1 (some b), true) else (LSet.rangeC n b).bind fun j => LIter.nextC n (.union j none))
    (fun n => by simp only [LIter.nextC]; rfl) (ih E L W i hF hi hl hr hz) fun W1 x hW1 hx => ?_
  obtain ⟨i', ok⟩ := x
  have h2 := hx W1 (Le.refl _)
  have hr2 := h2.rk
  have hz2 := h2.sz
  simp only at hr2 hz2
  cases ok with
  | true =>
    obtain ⟨v, g1, g2, g3, g4, g5⟩ := h2.more rfl
    simp only [if_true]
    refine .pure fun W' hW' => ⟨?_, ?_, rfl,
      fun ho => ⟨v, g1, ⟨g2, hb⟩, ?_, fun w => ?_, fun h => ⟨fun hv => ?_, (g5 h.1).2, h.2.1, fun w hw => h.2.2 w ⟨(g4 w).2 (.inr hw.1), hw.2⟩⟩⟩, by simp⟩
    · simp only [LIter.rk]; omega
    · simp only [LIter.sz]; omega
    · simp only [LIter.mu] at *; omega
    · simp only at g4
      simp only [LIter.rest, g4, or_assoc]
    · rcases hv with hv | hv
      · exact (g5 h.1).1 hv
      · exact h.2.2 v ⟨(g4 v).2 (.inl (LawfulGoKey.refl v)), hv⟩
  | false =>
    have hd := (h2.done rfl).1
    have hF1 := hF.mono hW1
    simp only [Bool.false_eq_true, if_false]
    refine Safe.bind (q := fun j n => LIter.nextC n (.union j none)) (rangeC_spec hF1 hb hlb) fun W2 j hW2 hj => ?_
    have j2 := (hj W2 (Le.refl _)).1
    have jr := j2.rk
    have jz := j2.sz
    have jm := j2.mu
    refine (nextC_union_none ih (hF1.mono hW2) j2.ok (by omega) (by omega) (by omega)).imp fun W' res _ r2 =>
      r2.skip ?_ ?_ rfl ?_ (fun w => ?_) (fun h => j2.dst h.2.1)
    · simp only [LIter.rk]; omega
    · simp only [LIter.sz]; have := i.sz_pos; omega
    · simp only [LIter.mu]; omega
    · simp only [LIter.rest, j2.rest w]
      exact ⟨fun h => h.resolve_left (hd w), fun h => .inr h⟩

theorem nextC_where {r z : Nat} (ih : NextAllC T r z) (hF : Fits E L W) {i : LIter T} {p : T → Bool} (hi : i.IterOk E) (hp : Cong p)
    (hl : i.rk ≤ L) (hr : i.rk ≤ r) (hz : i.sz ≤ z) : Safe (NextC E (.where i p)) W (fun n => LIter.nextC n (.where i p)) := by
  refine filter_nextC (L := L) ih (fun i => .where i p) (fun w => p w = true) (fun _ v => .done (p v)) ?_ (fun _ => rfl) (fun _ => rfl) (fun _ => rfl)
    (fun _ _ h => h) (fun _ => Nat.le_refl _) (fun _ _ h => by simp only [LIter.sz]; omega) (fun _ _ => Iff.rfl)
    (fun a b hab => by simp only [hp a b hab]) (fun _ => Iff.rfl) (fun _ _ h h' => ⟨h', h.2⟩) (fun _ h => h.1)
    (fun W v _ => .pure fun _ _ => Iff.rfl) (i.mu E) W i (Nat.le_refl _) hF ⟨hi, hp⟩ hl hr hz
  intro n i
  simp only [LIter.nextC]
  rfl

theorem nextC_inter {r z : Nat} (ih : NextAllC T r z) (ihh : HasAllC T r z) (hF : Fits E L W) {i : LIter T} {b : LSet T} (hi : i.IterOk E)
    (hb : b.IOk E) (hbh : b.HOk E) (hl : i.rk ≤ L) (hr : i.rk ≤ r) (hz : i.sz ≤ z) (hlb : b.rk ≤ L) (hrb : b.rk ≤ r)
    (hzb : b.sz ≤ z) : Safe (NextC E (.inter i b)) W (fun n => LIter.nextC n (.inter i b)) := by
  refine filter_nextC (L := L) ih (fun i => .inter i b) (fun w => b.den E w) (fun n v => LSet.hasC n b v) ?_ (fun _ => rfl) (fun _ => rfl) (fun _ => rfl)
    (fun _ _ h => by simp only [LIter.rk]; omega) (fun _ => by simp only [LIter.rk]; omega) (fun _ _ h => by simp only [LIter.sz]; omega)
    (fun _ _ => Iff.rfl) (LSet.den_congr hF.env hb) (fun _ => Iff.rfl) (fun _ _ h h' => ⟨h', h.2⟩) (fun _ h => h.1) ?_
    (i.mu E) W i (Nat.le_refl _) hF ⟨hi, hb, hbh⟩ (by simp only [LIter.rk]; omega) hr hz
  · intro n i
    simp only [LIter.nextC]
    rfl
  · intro W v hF
    exact (ihh E L W b v hF hb hlb hrb hzb).imp fun _ _ _ h => h hbh

theorem LProg.bind_assoc {α β γ : Type} (p : LProg T α) (f : α → LProg T β) (g : β → LProg T γ) : (p.bind f).bind g = p.bind fun a => (f a).bind g := by
  induction p with
  | done a => rfl
  | panic e => rfl
  | load k f ih => simp only [LProg.bind, ih]
  | store k s p ih => simp only [LProg.bind, ih]
  | alloc s f ih => simp only [LProg.bind, ih]

theorem LProg.bind_done {α : Type} (p : LProg T α) : p.bind .done = p := by
  induction p with
  | done a => rfl
  | panic e => rfl
  | load k f ih => simp only [LProg.bind, ih]
  | store k s p ih => simp only [LProg.bind, ih]
  | alloc s f ih => simp only [LProg.bind, ih]

theorem nextC_diff {r z : Nat} (ih : NextAllC T r z) (ihh : HasAllC T r z) (hF : Fits E L W) {i : LIter T} {b : LSet T} (hi : i.IterOk E)
    (hb : b.IOk E) (hbh : b.HOk E) (hl : i.rk ≤ L) (hr : i.rk ≤ r) (hz : i.sz ≤ z) (hlb : b.rk ≤ L) (hrb : b.rk ≤ r)
    (hzb : b.sz ≤ z) : Safe (NextC E (.diff i b)) W (fun n => LIter.nextC n (.diff i b)) := by
  refine filter_nextC (L := L) ih (fun i => .diff i b) (fun w => ¬ b.den E w) (fun n v => (LSet.hasC n b v).bind fun y => .done (!y)) ?_
    (fun _ => rfl) (fun _ => rfl) (fun _ => rfl)
    (fun _ _ h => by simp only [LIter.rk]; omega) (fun _ => by simp only [LIter.rk]; omega) (fun _ _ h => by simp only [LIter.sz]; omega)
    (fun _ _ => Iff.rfl) (fun x y hxy => not_congr (LSet.den_congr hF.env hb x y hxy)) (fun _ => Iff.rfl) (fun _ _ h h' => ⟨h', h.2⟩)
    (fun _ h => h.1) ?_ (i.mu E) W i (Nat.le_refl _) hF ⟨hi, hb, hbh⟩ (by simp only [LIter.rk]; omega) hr hz
  · intro n i
    have e : ∀ (x : LIter T) (v : T), (((LSet.hasC n b v).bind fun y => .done (!y)).bind fun y => if y = true then .done (.diff x b, true) else LIter.nextC n (.diff x b)) =
        (LSet.hasC n b v).bind fun y => if y = true then LIter.nextC n (.diff x b) else .done (.diff x b, true) := by
      intro x v
      rw [LProg.bind_assoc]
      congr 1
      funext y
      cases y <;> rfl
    simp only [LIter.nextC, e]
    rfl
  · intro W v hF
    refine Safe.bind (q := fun y _ => .done (!y)) (ihh E L W b v hF hb hlb hrb hzb) fun W1 y _ hy => .pure fun _ _ => ?_
    have := hy W1 (Le.refl _) hbh
    cases y <;> simp_all

/-- The loop of set_base.go:88-93. -/
theorem findC_spec {r z : Nat} (ih : NextAllC T r z) (el : T) : ∀ (m : Nat) (W : CellWorld T) (i : LIter T), i.mu E ≤ m → Fits E L W → i.IterOk E →
    i.rk ≤ L → i.rk ≤ r → i.sz ≤ z → Safe (fun _ b => b = true ↔ i.rest E el) W (fun n => LIter.findC n i el) := by
  intro m
  induction m using Nat.strong_induction_on with
  | _ m ihm =>
  intro W i hm hF hi hl hr hz
  refine Safe.stepBind (q := fun x n => if x.2 = true then (LProg.lift x.1.value).bind fun v => if GoKey.eq el v = true then .done true else LIter.findC n x.1 el
    else .done false) (fun n => by simp only [LIter.findC]; rfl) (ih E L W i hF hi hl hr hz) fun W1 x hW1 hx => ?_
  obtain ⟨i', ok⟩ := x
  have h2 := hx W1 (Le.refl _)
  have hr2 := h2.rk
  have hz2 := h2.sz
  simp only at hr2 hz2
  cases ok with
  | false =>
    simp only [Bool.false_eq_true, if_false]
    exact .pure fun _ _ => by simp [(h2.done rfl).1 el]
  | true =>
    obtain ⟨v, g1, g2, g3, g4, _⟩ := h2.more rfl
    simp only at g1 g2 g3 g4
    simp only [if_true, g1, LProg.lift, LProg.bind]
    by_cases he : GoKey.eq el v = true
    · simp only [he, if_true]
      exact .pure fun _ _ => by simp [g4, PerGoKey.symm he]
    · simp only [he]
      refine (ihm (i'.mu E) (by omega) W1 i' (Nat.le_refl _) (hF.mono hW1) g2 (by omega) (by omega) (by omega)).imp fun W' b _ k4 => ?_
      rw [k4, g4]
      exact ⟨fun h => .inr h, fun h => h.resolve_left (fun h => he (PerGoKey.symm h))⟩

theorem hasC_step {r z : Nat} (hr1 : ∀ r' < r, ∀ z, HasAllC T r' z) (hz1 : ∀ z' < z, HasAllC T r z') (hn : NextAllC T r z) : HasAllC T r z := by
  intro E L W s el hF hs hl hr hz
  cases s with
  | empty => exact Safe.step (g := fun _ => .done false) (fun n => by simp only [LSet.hasC]) (.pure fun _ _ => by simp [LSet.den])
  | frozen s =>
    refine Safe.stepBind (p := fun n => LSet.fastHasC n (.frozen s) el) (P := fun _ o => o = some (s.tree.look el).isSome) (q := fun o n => match o with
      | some b => .done b
      | none => (LSet.rangeC n (.frozen s)).bind fun i => LIter.findC n i el) (fun n => by simp only [LSet.hasC]; rfl)
      (Safe.step (g := fun _ => .done (some (s.tree.look el).isSome)) (fun n => ?_) (.pure fun _ _ => rfl)) fun W1 o hW1 ho => ?_
    · simp only [LSet.fastHasC, FSet.has_spec hs]; rfl
    · have e := ho W1 (Le.refl _)
      subst e
      exact .pure fun _ _ _ => (FSet.mem_iff hs el).symm
  | memo k =>
    have hk : k < L := hl
    have hr : k + 1 ≤ r := hr
    refine Safe.stepBind (p := fun _ => LSet.derefC (.memo k)) (q := fun c n => LSet.hasC n c el) (fun n => by simp only [LSet.hasC]; rfl) (derefC_memo hF hk)
      fun W1 c hW1 hc => ?_
    have hc := (hc W1 (Le.refl _)).1
    refine (hr1 k (by omega) c.sz E L W1 c el (hF.mono hW1) hc.iok (by have := hc.rk; omega) hc.rk (Nat.le_refl _)).imp fun W' b _ g4 hh => ?_
    rw [g4 (hc.has hh)]; exact hc.den el
  | «where» s p =>
    simp only [LSet.sz] at hz
    by_cases hp : p el = true
    · refine Safe.step (g := fun n => LSet.hasC n s el) (fun n => by simp only [LSet.hasC, hp, if_true])
        ((hz1 s.sz (by omega) E L W s el hF hs.1 hl hr (Nat.le_refl _)).imp fun W' b _ g4 hh => ?_)
      rw [g4 hh]; simp [LSet.den, hp]
    · exact Safe.step (g := fun _ => .done false) (fun n => by simp [LSet.hasC, hp]) (.pure fun _ _ _ => by simp [LSet.den, hp])
  | map s m =>
    refine Safe.stepBind (p := fun n => LSet.fastHasC n (.map s m) el) (P := fun _ o => o = none) (q := fun o n => match o with
      | some b => .done b
      | none => (LSet.rangeC n (.map s m)).bind fun i => LIter.findC n i el) (fun n => by simp only [LSet.hasC]; rfl)
      (Safe.step (g := fun _ => .done none) (fun n => by simp only [LSet.fastHasC]) (.pure fun _ _ => rfl)) fun W1 o hW1 ho => ?_
    have e := ho W1 (Le.refl _)
    subst e
    refine Safe.bind (q := fun i n => LIter.findC n i el) (rangeC_spec (hF.mono hW1) hs hl) fun W2 i hW2 hi => ?_
    have j2 := (hi W2 (Le.refl _)).1
    have jr := j2.rk
    have jz := j2.sz
    refine (findC_spec hn el (i.mu E) W2 i (Nat.le_refl _) ((hF.mono hW1).mono hW2) j2.ok (by omega) (by omega) (by omega)).imp fun W' b _ k4 _ => ?_
    rw [k4]; exact j2.rest el
  | union a b =>
    have hr := Nat.max_le.1 hr
    have hl := Nat.max_le.1 hl
    simp only [LSet.sz] at hz
    refine Safe.stepBind (q := fun x n => if x = true then .done true else LSet.hasC n b el) (fun n => by simp only [LSet.hasC]; rfl)
      (hz1 a.sz (by omega) E L W a el hF hs.1 hl.1 hr.1 (Nat.le_refl _)) fun W1 x hW1 hx => ?_
    have g4 := hx W1 (Le.refl _)
    cases x with
    | true =>
      simp only [if_true]
      exact .pure fun _ _ hh => by simp [LSet.den, (g4 hh.1).1 rfl]
    | false =>
      simp only [Bool.false_eq_true, if_false]
      refine (hz1 b.sz (by omega) E L W1 b el (hF.mono hW1) hs.2 hl.2 hr.2 (Nat.le_refl _)).imp fun W' y _ k4 hh => ?_
      have := g4 hh.1
      simp only [Bool.false_eq_true, false_iff] at this
      simp [LSet.den, this, k4 hh.2]
  | inter a b =>
    have hr := Nat.max_le.1 hr
    have hl := Nat.max_le.1 hl
    simp only [LSet.sz] at hz
    refine Safe.stepBind (q := fun x n => if x = true then LSet.hasC n b el else .done false) (fun n => by simp only [LSet.hasC]; rfl)
      (hz1 a.sz (by omega) E L W a el hF hs.1 hl.1 hr.1 (Nat.le_refl _)) fun W1 x hW1 hx => ?_
    have g4 := hx W1 (Le.refl _)
    cases x with
    | false =>
      simp only [Bool.false_eq_true, if_false]
      refine .pure fun _ _ hh => ?_
      have := g4 hh.1
      simp only [Bool.false_eq_true, false_iff] at this
      simp [LSet.den, this]
    | true =>
      simp only [if_true]
      refine (hz1 b.sz (by omega) E L W1 b el (hF.mono hW1) hs.2.1 hl.2 hr.2 (Nat.le_refl _)).imp fun W' y _ k4 hh => ?_
      simp [LSet.den, (g4 hh.1).1 rfl, k4 hh.2]
  | diff a b =>
    have hr := Nat.max_le.1 hr
    have hl := Nat.max_le.1 hl
    simp only [LSet.sz] at hz
    refine Safe.stepBind (q := fun x n => if x = true then .done true else LSet.hasC n b el) (fun n => by simp only [LSet.hasC]; rfl)
      (hz1 a.sz (by omega) E L W a el hF hs.1 hl.1 hr.1 (Nat.le_refl _)) fun W1 x hW1 hx => ?_
    cases x with
    | true =>
      simp only [if_true]
      exact .pure fun _ _ hh => hh.elim
    | false =>
      simp only [Bool.false_eq_true, if_false]
      exact (hz1 b.sz (by omega) E L W1 b el (hF.mono hW1) hs.2.1 hl.2 hr.2 (Nat.le_refl _)).imp fun W' y _ k4 hh => hh.elim

theorem nextC_step {r z : Nat} (hr1 : ∀ r' < r, ∀ z, NextAllC T r' z) (hz1 : ∀ z' < z, NextAllC T r z') (hh1 : ∀ z' < z, HasAllC T r z') :
    NextAllC T r z := by
  intro E L W it hF hi hl hr hz
  cases it with
  | empty =>
    exact Safe.step (g := fun _ => .done (.empty, false)) (fun n => by simp only [LIter.nextC]) (.pure fun _ _ => ⟨Nat.le_refl _, Nat.le_refl _, rfl, by simp,
      fun _ => ⟨fun w h => h, fun k hk => by cases hk⟩⟩)
  | frozen it => exact nextC_frozen hi
  | «where» i p =>
    simp only [LIter.sz] at hz
    exact nextC_where (hz1 i.sz (by omega)) hF hi.1 hi.2 hl hr (Nat.le_refl _)
  | map i m =>
    simp only [LIter.sz] at hz
    exact nextC_map (hz1 i.sz (by omega)) hF hi.1 hi.2 hl hr (Nat.le_refl _)
  | union i o =>
    cases o with
    | none =>
      simp only [LIter.sz] at hz
      exact nextC_union_none (hz1 i.sz (by omega)) hF hi hl hr (Nat.le_refl _)
    | some b =>
      have hr := Nat.max_le.1 hr
      have hl := Nat.max_le.1 hl
      simp only [LIter.sz] at hz
      exact nextC_union_some (hz1 (max i.sz b.sz) (by omega)) hF hi.1 hi.2 hl.1 hr.1 (by omega) hl.2 hr.2 (by omega)
  | inter i b =>
    have hr := Nat.max_le.1 hr
    have hl := Nat.max_le.1 hl
    simp only [LIter.sz] at hz
    exact nextC_inter (hz1 (max i.sz b.sz) (by have := i.sz_pos; have := b.sz_pos; omega)) (hh1 (max i.sz b.sz) (by have := i.sz_pos; have := b.sz_pos; omega)) hF
      hi.1 hi.2.1 hi.2.2 hl.1 hr.1 (by omega) hl.2 hr.2 (by omega)
  | diff i b =>
    have hr := Nat.max_le.1 hr
    have hl := Nat.max_le.1 hl
    simp only [LIter.sz] at hz
    exact nextC_diff (hz1 (max i.sz b.sz) (by have := i.sz_pos; have := b.sz_pos; omega)) (hh1 (max i.sz b.sz) (by have := i.sz_pos; have := b.sz_pos; omega)) hF
      hi.1 hi.2.1 hi.2.2 hl.1 hr.1 (by omega) hl.2 hr.2 (by omega)
  | caching i k seen =>
    have hk : k + 1 ≤ r := hr
    have hkL : k < L := hl
    exact nextC_caching (hr1 k (by omega) i.sz) k hkL (i.mu E) W i seen (Nat.le_refl _) hF hi hi.2.1 (Nat.le_refl _)

theorem both_allC : ∀ r z : Nat, NextAllC T r z ∧ HasAllC T r z := by
  intro r
  induction r using Nat.strong_induction_on with
  | _ r ihr =>
  intro z
  induction z using Nat.strong_induction_on with
  | _ z ihz =>
  have hn : NextAllC T r z := nextC_step (fun r' h z' => (ihr r' h z').1) (fun z' h => (ihz z' h).1) (fun z' h => (ihz z' h).2)
  exact ⟨hn, hasC_step (fun r' h z' => (ihr r' h z').2) (fun z' h => (ihz z' h).2) hn⟩

theorem nextC_spec (hF : Fits E L W) {it : LIter T} (hi : it.IterOk E) (hl : it.rk ≤ L) : Safe (NextC E it) W (fun n => LIter.nextC n it) :=
  (both_allC it.rk it.sz).1 E L W it hF hi hl (Nat.le_refl _) (Nat.le_refl _)

theorem hasC_spec (hF : Fits E L W) {s : LSet T} (hs : s.IOk E) (hl : s.rk ≤ L) (el : T) :
    Safe (fun _ b => s.HOk E → (b = true ↔ s.den E el)) W (fun n => LSet.hasC n s el) :=
  (both_allC s.rk s.sz).2 E L W s el hF hs hl (Nat.le_refl _) (Nat.le_refl _)

end Frozen
