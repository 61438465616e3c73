import Verif.Spec.LazyConc
import Verif.Proof.LazyConcOps

/-! Lazy sets used by several goroutines: the work of a goroutine, and the machine. -/

set_option linter.unusedSectionVars false

namespace Frozen

variable {T : Type} [GoKey T] [LawfulGoKey T] {W : CellWorld T}

open CellWorld

/-- What a goroutine holds is right. -/
structure LocOk (W : CellWorld T) (S : List (LSpec T)) (loc : LLocal T) : Prop where
  len : loc.sets.length = S.length
  sets : ∀ (i : Nat) (s : LSet T), loc.sets[i]? = some s → SetOk W.E W.σ s (specAt S i)
  iters : ∀ (k : Nat) (c : LCursor T), loc.iters[k]? = some c → CurOk W.E W.σ S c

theorem LocOk.mono {W' : CellWorld T} {S : List (LSpec T)} {loc : LLocal T} (h : LocOk W S loc) (hW : W.Le W') : LocOk W' S loc :=
  ⟨h.len, fun i s hi => (h.sets i s hi).ext hW.ext, fun k c hk => (h.iters k c hk).ext hW.ext⟩

theorem LocOk.get {S : List (LSpec T)} {loc : LLocal T} (h : LocOk W S loc) {i : Nat} (hi : i < S.length) :
    ∃ s, loc.get i = .done s ∧ SetOk W.E W.σ s (specAt S i) := by
  have hil : i < loc.sets.length := by rw [h.len]; exact hi
  refine ⟨loc.sets[i], ?_, h.sets i _ (List.getElem?_eq_getElem hil)⟩
  simp [LLocal.get, List.getElem?_eq_getElem hil]

theorem LocOk.push {S : List (LSpec T)} {loc : LLocal T} (h : LocOk W S loc) {s : LSet T} {x : LSpec T} (hs : SetOk W.E W.σ s x) :
    LocOk W (S ++ [x]) (loc.push s) := by
  refine ⟨by simp [LLocal.push, h.len], fun i t hi => ?_, fun k c hk => (h.iters k c hk).push⟩
  simp only [LLocal.push] at hi
  by_cases hil : i < loc.sets.length
  · rw [List.getElem?_append_left hil] at hi
    rw [specAt_old (by rw [← h.len]; exact hil)]
    exact h.sets i t hi
  · have : i = loc.sets.length := by
      have : i < (loc.sets ++ [s]).length := (List.getElem?_eq_some_iff.1 hi).1
      simp at this; omega
    subst this
    simp at hi
    subst hi
    rw [h.len, specAt_new]
    exact hs

/-- What a call achieves. -/
structure StepC (S : List (LSpec T)) (loc : LLocal T) (c : LCmd T) (W : CellWorld T) (loc' : LLocal T) : Prop where
  ok : LocOk W (specStep S c) loc'
  iters : loc'.iters.length = loc.iters.length + c.iters
  answer : ∃ a, loc'.answers = loc.answers ++ [a] ∧ AnswerOk S c a

/-- Advancing an iterator. -/
theorem advanceC_spec {S : List (LSpec T)} {c : LCursor T} (hc : CurOk W.E W.σ S c) :
    Safe (fun W' c' => CurOk W'.E W'.σ S c') W (fun n => LLocal.advance n c) := by
  cases he : c.ended with
  | true => exact Safe.congr' (g := fun _ => .done c) (fun n => by simp [LLocal.advance, he]) (.pure fun W' hW' => hc.ext hW'.ext)
  | false =>
    obtain ⟨h1, h2, h3, h4⟩ := hc.live he
    refine Safe.congrBind (q := fun r n => if r.2 = true then (LProg.lift r.1.value).bind fun v => .done (LCursor.mk r.1 c.src (c.got ++ [v]) false)
        else .done (LCursor.mk r.1 c.src c.got true)) (fun n => by simp only [LLocal.advance, he]; rfl) (nextC_spec (Fits.self W) h1 h2) fun W1 r hW1 hr => ?_
    have g2 := hr W1 (Le.refl _)
    obtain ⟨i', ok⟩ := r
    cases ok with
    | false =>
      have hnone := (g2.done rfl).1
      have : CurOk W.E W.σ S ⟨i', c.src, c.got, true⟩ := ⟨hc.src, fun h => (by simp at h), fun _ w => by rw [h3 w]; simp [hnone w], hc.once⟩
      exact .pure fun W' hW' => this.ext (hW1.trans hW').ext
    | true =>
      obtain ⟨v, k1, k2, k3, k4, k5⟩ := g2.more rfl
      have hrk := g2.rk
      dsimp only at k1 k2 k3 k4 k5 hrk
      have hrv : c.iter.rest W.E v := (k4 v).2 (.inl (LawfulGoKey.refl v))
      have : CurOk W.E W.σ S ⟨i', c.src, c.got ++ [v], false⟩ := by
        refine ⟨hc.src, fun _ => ⟨k2, by dsimp only; omega, fun w => ?_, fun ho => ?_⟩, fun h => (by simp at h), fun ho => ?_⟩
        · rw [h3 w, k4 w]
          simp only [List.mem_append, List.mem_singleton, or_and_right, exists_or, exists_eq_left, or_assoc]
        · obtain ⟨d1, d2⟩ := h4 ho
          rcases d1 with d1 | d1
          · refine ⟨.inl (k5 d1).2, fun x hx => ?_⟩
            rcases List.mem_append.1 hx with hx | hx
            · exact fun hr => d2 x hx ((k4 x).2 (.inr hr))
            · rw [List.mem_singleton.1 hx]; exact (k5 d1).1
          · exact (d1 v hrv).elim
        · refine List.pairwise_append.2 ⟨hc.once ho, List.pairwise_singleton _ _, fun x hx y hy => ?_⟩
          rw [List.mem_singleton.1 hy]
          by_contra hne
          have hxv : GoKey.eq x v = true := by simpa using hne
          exact (h4 ho).2 x hx ((LIter.rest_congr W.ok.env h1 x v hxv).2 hrv)
      simp only [if_true, k1, LProg.lift, LProg.bind]
      exact .pure fun W' hW' => this.ext (hW1.trans hW').ext

/-- A call of a goroutine. -/
theorem stepC_spec {S : List (LSpec T)} {loc : LLocal T} (hs : LocOk W S loc) (c : LCmd T) (hg : c.Good S loc.iters.length) :
    Safe (StepC S loc c) W (fun n => loc.step n c) := by
  have fin : ∀ {x : LSpec T} {p : Nat → LProg T (LSet T)} {f : Nat → LProg T (LLocal T)} {c : LCmd T}, (∀ n, f n = (p n).bind fun r => .done (loc.push r)) →
      specStep S c = S ++ [x] → c.iters = 0 → (∀ a, a = .none → AnswerOk S c a) → Safe (MadeC x) W p → Safe (StepC S loc c) W f := by
    intro x p f c hf hS hi ha hp
    refine Safe.congrBind (q := fun r _ => .done (loc.push r)) hf hp fun W1 r hW1 hr => .pure fun W' hW' => ⟨?_, by simp [LLocal.push, hi], ⟨_, rfl, ha _ rfl⟩⟩
    rw [hS]
    exact (hs.mono (hW1.trans hW')).push (hr W' hW')
  have ask : ∀ {α : Type} {p : Nat → LProg T α} {f : Nat → LProg T (LLocal T)} {P : α → Prop} {mk : α → LAnswer} {c : LCmd T},
      (∀ n, f n = (p n).bind fun r => .done (loc.note (mk r))) → specStep S c = S → c.iters = 0 → (∀ r, P r → AnswerOk S c (mk r)) →
      Safe (fun _ r => P r) W p → Safe (StepC S loc c) W f := by
    intro α p f P mk c hf hS hi ha hp
    refine Safe.congrBind (q := fun r _ => .done (loc.note (mk r))) hf hp fun W1 r hW1 hr => .pure fun W' hW' => ⟨?_, by simp [LLocal.note, hi], ⟨_, rfl, ha _ (hr W1 (Le.refl _))⟩⟩
    rw [hS]
    have := hs.mono (hW1.trans hW')
    exact ⟨this.len, this.sets, this.iters⟩
  have hnone : ∀ a : LAnswer, a = .none → a = .none := fun _ h => h
  cases c with
  | empty => exact fin (p := fun _ => .done .empty) (fun _ => rfl) rfl rfl hnone (madeC_done (setOk_empty fun w hw => hw))
  | frozen s => exact fin (p := fun _ => .done (.frozen s.1)) (fun _ => rfl) rfl rfl hnone (madeC_done (setOk_frozen s.2.valid fun w => Iff.rfl))
  | «where» i p =>
    obtain ⟨s, s1, s2⟩ := hs.get hg.1
    exact fin (fun n => by simp only [LLocal.step, s1]; rfl) rfl rfl hnone (whereC_spec s2 hg.2)
  | map i m =>
    obtain ⟨s, s1, s2⟩ := hs.get hg.1
    exact fin (fun n => by simp only [LLocal.step, s1]; rfl) rfl rfl hnone (mapC_spec s2 hg.2)
  | union i j =>
    obtain ⟨s, s1, s2⟩ := hs.get hg.1
    obtain ⟨t, t1, t2⟩ := hs.get hg.2
    exact fin (fun n => by simp only [LLocal.step, s1, t1]; rfl) rfl rfl hnone ((unionC_spec s2 t2).imp fun _ _ _ h => h.1)
  | inter i j =>
    obtain ⟨s, s1, s2⟩ := hs.get hg.1
    obtain ⟨t, t1, t2⟩ := hs.get hg.2.1
    exact fin (fun n => by simp only [LLocal.step, s1, t1]; rfl) rfl rfl hnone (interC_spec s2 t2 hg.2.2)
  | diff i j =>
    obtain ⟨s, s1, s2⟩ := hs.get hg.1
    obtain ⟨t, t1, t2⟩ := hs.get hg.2.1
    exact fin (fun n => by simp only [LLocal.step, s1, t1]; rfl) rfl rfl hnone ((diffC_spec s2 t2 hg.2.2).imp fun _ _ _ h => h.1)
  | symm i j =>
    obtain ⟨s, s1, s2⟩ := hs.get hg.1
    obtain ⟨t, t1, t2⟩ := hs.get hg.2.1
    exact fin (fun n => by simp only [LLocal.step, s1, t1]; rfl) rfl rfl hnone (symmC_spec s2 t2 hg.2.2.1 hg.2.2.2)
  | «with» i v =>
    obtain ⟨s, s1, s2⟩ := hs.get hg
    exact fin (fun n => by simp only [LLocal.step, s1]; rfl) rfl rfl hnone (withC_spec s2 v)
  | without i v =>
    obtain ⟨s, s1, s2⟩ := hs.get hg
    exact fin (fun n => by simp only [LLocal.step, s1]; rfl) rfl rfl hnone (withoutC_spec s2 v)
  | freeze i =>
    obtain ⟨s, s1, s2⟩ := hs.get hg
    refine fin (x := LSpec.frozen (specAt S i).den) (fun n => by simp only [LLocal.step, s1]; rfl) rfl rfl hnone ((freezeC_spec s2).imp fun W' r _ hr => ?_)
    obtain ⟨f, rfl, f3, f4⟩ := hr
    exact setOk_frozen f3 f4
  | range i =>
    obtain ⟨s, s1, s2⟩ := hs.get hg
    refine Safe.congrBind (q := fun it _ => .done (LLocal.mk loc.sets (loc.iters ++ [⟨it, i, [], false⟩]) (loc.answers ++ [.none])))
      (fun n => by simp only [LLocal.step, s1]; rfl) (rangeC_spec (Fits.self W) s2.iok s2.rk) fun W1 it hW1 hi => ?_
    have r2 := (hi W1 (Le.refl _)).1
    have : LocOk W S (LLocal.mk loc.sets (loc.iters ++ [⟨it, i, [], false⟩]) (loc.answers ++ [.none])) := by
      refine ⟨hs.len, hs.sets, fun k c hk => ?_⟩
      dsimp only at hk ⊢
      by_cases hkl : k < loc.iters.length
      · rw [List.getElem?_append_left hkl] at hk
        exact hs.iters k c hk
      · have : k = loc.iters.length := by
          have := (List.getElem?_eq_some_iff.1 hk).1
          simp at this; omega
        subst this
        simp at hk
        subst hk
        refine ⟨hg, fun _ => ⟨r2.ok, Nat.le_trans r2.rk s2.rk, fun w => ?_, fun ho => ⟨?_, fun v hv => by simp at hv⟩⟩, fun h => (by simp at h), fun _ => List.Pairwise.nil⟩
        · rw [← s2.den w, ← r2.rest w]; simp
        · rcases s2.once ho with h | h
          · exact .inl (r2.dst h)
          · exact .inr (fun w hw => h w ((s2.den w).1 ((r2.rest w).1 hw)))
    exact .pure fun W' hW' => ⟨this.mono (hW1.trans hW'), by simp [LCmd.iters], ⟨_, rfl, rfl⟩⟩
  | advance k =>
    have hk : k < loc.iters.length := hg
    have hkc := hs.iters k _ (List.getElem?_eq_getElem hk)
    refine Safe.congrBind (q := fun c _ => .done (LLocal.mk loc.sets (loc.iters.set k c) (loc.answers ++ [.none])))
      (fun n => by simp only [LLocal.step, List.getElem?_eq_getElem hk]; rfl) (advanceC_spec hkc) fun W1 c' hW1 hc' => ?_
    refine .pure fun W' hW' => ⟨?_, by simp [LCmd.iters], ⟨_, rfl, rfl⟩⟩
    have he := hs.mono (hW1.trans hW')
    refine ⟨he.len, he.sets, fun k' c hk' => ?_⟩
    dsimp only at hk' ⊢
    by_cases hkk : k = k'
    · subst hkk
      rw [List.getElem?_set_self hk] at hk'
      cases hk'
      exact hc' W' hW'
    · rw [List.getElem?_set_ne hkk] at hk'
      exact he.iters k' c hk'
  | has i v =>
    obtain ⟨s, s1, s2⟩ := hs.get hg
    exact ask (mk := .bool) (fun n => by simp only [LLocal.step, s1]; rfl) rfl rfl (fun r hr => ⟨r, rfl, hr⟩) (hasC_spec' s2 v)
  | isEmpty i =>
    obtain ⟨s, s1, s2⟩ := hs.get hg
    exact ask (mk := .bool) (fun n => by simp only [LLocal.step, s1]; rfl) rfl rfl (fun r hr => ⟨r, rfl, hr⟩) (isEmptyC_spec s2)
  | count i =>
    obtain ⟨s, s1, s2⟩ := hs.get hg
    exact ask (mk := .int) (fun n => by simp only [LLocal.step, s1]; rfl) rfl rfl (fun r hr => ⟨r, rfl, hr⟩) (countC_spec s2)
  | equalSet i j =>
    obtain ⟨s, s1, s2⟩ := hs.get hg.1
    obtain ⟨t, t1, t2⟩ := hs.get hg.2
    exact ask (mk := .bool) (fun n => by simp only [LLocal.step, s1, t1]; rfl) rfl rfl (fun r hr => ⟨r, rfl, hr⟩) (equalSetC_spec s2 t2)
  | isSubsetOf i j =>
    obtain ⟨s, s1, s2⟩ := hs.get hg.1
    obtain ⟨t, t1, t2⟩ := hs.get hg.2
    exact ask (mk := .bool) (fun n => by simp only [LLocal.step, s1, t1]; rfl) rfl rfl (fun r hr => ⟨r, rfl, hr⟩) (isSubsetOfC_spec s2 t2)

theorem runC_spec : ∀ (cs : List (LCmd T)) {W : CellWorld T} {S : List (LSpec T)} {loc : LLocal T}, LocOk W S loc → GoodRun S loc.iters.length cs →
    Safe (fun W' loc' => LocOk W' (specRun S cs) loc' ∧ ∃ as, loc'.answers = loc.answers ++ as ∧ AnswersOk S cs as) W (fun n => loc.run n cs)
  | [], W, S, loc, hs, _ => .pure fun W' hW' => ⟨hs.mono hW', [], by simp, rfl⟩
  | c :: cs, W, S, loc, hs, hg => by
    refine Safe.congrBind (q := fun loc n => loc.run n cs) (fun _ => rfl) (stepC_spec hs c hg.1) fun W1 loc1 hW1 h1 => ?_
    have h1 := h1 W1 (Le.refl _)
    refine (runC_spec cs h1.ok (by rw [h1.iters]; exact hg.2)).imp fun W' loc' _ h => ?_
    obtain ⟨a, a1, a2⟩ := h1.answer
    obtain ⟨as, b1, b2⟩ := h.2
    exact ⟨h.1, a :: as, by rw [b1, a1]; simp, a, as, rfl, a2, b2⟩

theorem LocOk.cursors {S : List (LSpec T)} {loc : LLocal T} (h : LocOk W S loc) : ∀ c ∈ loc.iters, CursorOk S c := by
  intro c hc
  obtain ⟨k, hk⟩ := List.getElem?_of_mem hc
  have hcur := h.iters k c hk
  refine ⟨fun v hv => ?_, hcur.once, fun he w hw => (hcur.dead he w).1 hw⟩
  cases he : c.ended with
  | true => exact (hcur.dead he v).2 ⟨v, hv, LawfulGoKey.refl v⟩
  | false => exact ((hcur.live he).2.2.1 v).2 (.inl ⟨v, hv, LawfulGoKey.refl v⟩)

/-! ### The machine -/

variable {α : Type}

/-- The machines, for all large fuels, hold the cells of `W` and the goroutines `fs`. -/
def MAt (W : CellWorld T) (fs : List (Nat → LProg T (LLocal T))) (ms : Nat → LMachine T) : Prop :=
  ∃ N, ∀ n, N ≤ n → ms n = ⟨W.σ, fs.map (· n)⟩

/-- The goroutines are safe. -/
def MSafe (Q : Nat → CellWorld T → LLocal T → Prop) (W : CellWorld T) (fs : List (Nat → LProg T (LLocal T))) : Prop :=
  ∀ (g : Nat) (f : Nat → LProg T (LLocal T)), fs[g]? = some f → Safe (Q g) W f

/-- The world after a store. -/
theorem exists_store {k : Nat} {s : FSet T} (hc : CellOk W.E k (.frozen s)) (hk : k < W.σ.length) :
    ∃ W' : CellWorld T, W'.E = W.E ∧ W'.σ = W.σ.set k (.frozen s) ∧ W.Le W' := by
  refine ⟨⟨W.E, W.σ.set k (.frozen s), ⟨W.ok.env, fun j c hj => ?_⟩⟩, rfl, rfl, ⟨fun _ _ => rfl, by simp, fun j c hj => ?_⟩⟩
  · by_cases hjk : k = j
    · subst hjk
      rw [List.getElem?_set_self hk] at hj
      cases hj
      exact hc
    · rw [List.getElem?_set_ne hjk] at hj
      exact W.ok.cells j c hj
  · show (W.σ.set k (.frozen s))[j]? = some c ∨ ∃ f, (W.σ.set k (.frozen s))[j]? = some (.frozen f)
    by_cases hjk : k = j
    · subst hjk
      exact .inr ⟨s, List.getElem?_set_self hk⟩
    · exact .inl (by rw [List.getElem?_set_ne hjk]; exact hj)

/-- `f`, when the cells are those of `W`, takes one step to `f'`, when they are those of `W'`. -/
def StepTo (W : CellWorld T) (f : Nat → LProg T α) (W' : CellWorld T) (f' : Nat → LProg T α) : Prop :=
  W.Le W' ∧ ∃ N, ∀ n, N ≤ n → (f n).step W.σ = (W'.σ, f' n)

/-- A safe goroutine can take a step. -/
theorem Safe.stepTo {Q : CellWorld T → α → Prop} {f : Nat → LProg T α} (h : Safe Q W f) : ∃ W' f', StepTo W f W' f' ∧ Safe Q W' f' := by
  cases h with
  | @done _ _ a N h hQ => exact ⟨W, f, ⟨Le.refl _, N, fun n hn => by rw [h n hn]; rfl⟩, .done N h hQ⟩
  | @load _ _ k g N h hk hg =>
    exact ⟨W, g W.σ[k], ⟨Le.refl _, N, fun n hn => by rw [h n hn]; simp only [LProg.step, List.getElem?_eq_getElem hk]⟩,
      hg W _ (Le.refl _) (List.getElem?_eq_getElem hk)⟩
  | @store _ _ k s g N h hk hc hg =>
    obtain ⟨W', e1, e2, e3⟩ := exists_store hc hk
    exact ⟨W', g, ⟨e3, N, fun n hn => by rw [h n hn, e2]; rfl⟩, hg W W' (Le.refl _) e1 e2⟩
  | @alloc _ _ s g N h next hn hs hg =>
    exact ⟨next W (Le.refl _), g W.σ.length, ⟨hn W _, N, fun n hn => by rw [h n hn, hs]; rfl⟩, hg W _⟩

theorem MAt.step {fs : List (Nat → LProg T (LLocal T))} {ms : Nat → LMachine T} (h : MAt W fs ms) {g : Nat} {f f' : Nat → LProg T (LLocal T)} {W' : CellWorld T}
    (hf : fs[g]? = some f) (hs : StepTo W f W' f') : MAt W' (fs.set g f') (fun n => (ms n).step g) := by
  obtain ⟨N, hN⟩ := h
  obtain ⟨M, hM⟩ := hs.2
  refine ⟨max N M, fun n hn => ?_⟩
  dsimp only
  rw [hN n (by omega)]
  simp only [LMachine.step, List.getElem?_map, hf, Option.map_some, hM n (by omega), List.map_set]

theorem MSafe.step {Q : Nat → CellWorld T → LLocal T → Prop} {fs : List (Nat → LProg T (LLocal T))} (h : MSafe Q W fs) {g : Nat} {f' : Nat → LProg T (LLocal T)} {W' : CellWorld T}
    (hW : W.Le W') (hs : Safe (Q g) W' f') : MSafe Q W' (fs.set g f') := by
  intro g' f hf
  by_cases hgg : g = g'
  · subst hgg
    have hl : g < fs.length := by have := (List.getElem?_eq_some_iff.1 hf).1; simpa using this
    rw [List.getElem?_set_self hl] at hf
    cases hf
    exact hs
  · rw [List.getElem?_set_ne hgg] at hf
    exact (h g' f hf).mono hW

/-- A turn. -/
theorem cellTurn {Q : Nat → CellWorld T → LLocal T → Prop} {fs : List (Nat → LProg T (LLocal T))} {ms : Nat → LMachine T} (h : MAt W fs ms) (hs : MSafe Q W fs) (g : Nat) :
    ∃ W' fs', W.Le W' ∧ MAt W' fs' (fun n => (ms n).step g) ∧ MSafe Q W' fs' ∧ ∀ g', g' ≠ g → fs'[g']? = fs[g']? := by
  cases hg : fs[g]? with
  | none =>
    obtain ⟨N, hN⟩ := h
    refine ⟨W, fs, Le.refl _, ⟨N, fun n hn => ?_⟩, hs, fun _ _ => rfl⟩
    dsimp only
    rw [hN n hn]
    simp only [LMachine.step, List.getElem?_map, hg, Option.map_none]
  | some f =>
    obtain ⟨W', f', h1, h2⟩ := (hs g f hg).stepTo
    exact ⟨W', fs.set g f', h1.1, h.step hg h1, hs.step h1.1 h2, fun g' hg' => List.getElem?_set_ne (fun e => hg' e.symm)⟩

/-- Some turns. -/
theorem cellTurns {Q : Nat → CellWorld T → LLocal T → Prop} {fs : List (Nat → LProg T (LLocal T))} {ms : Nat → LMachine T} (h : MAt W fs ms) (hs : MSafe Q W fs) (sched : Nat → Nat) :
    ∀ t, ∃ W' fs', W.Le W' ∧ MAt W' fs' (fun n => (ms n).after sched t) ∧ MSafe Q W' fs'
  | 0 => ⟨W, fs, Le.refl _, h, hs⟩
  | t + 1 => by
    obtain ⟨W1, fs1, h1, h2, h3⟩ := cellTurns h hs sched t
    obtain ⟨W2, fs2, k1, k2, k3, _⟩ := cellTurn h2 h3 (sched t)
    exact ⟨W2, fs2, h1.trans k1, k2, k3⟩

/-- While it is not its turn, a goroutine stays where it is. -/
theorem cellWait {Q : Nat → CellWorld T → LLocal T → Prop} {ms : Nat → LMachine T} {sched : Nat → Nat} {g : Nat} :
    ∀ (d t : Nat) {W : CellWorld T} {fs : List (Nat → LProg T (LLocal T))}, MAt W fs (fun n => (ms n).after sched t) → MSafe Q W fs → sched (t + d) = g →
    ∃ t', t ≤ t' ∧ sched t' = g ∧ ∃ W' fs', W.Le W' ∧ MAt W' fs' (fun n => (ms n).after sched t') ∧ MSafe Q W' fs' ∧ fs'[g]? = fs[g]?
  | 0, t, W, fs, h, hs, hg => ⟨t, Nat.le_refl _, hg, W, fs, Le.refl _, h, hs, rfl⟩
  | d + 1, t, W, fs, h, hs, hg => by
    by_cases ht : sched t = g
    · exact ⟨t, Nat.le_refl _, ht, W, fs, Le.refl _, h, hs, rfl⟩
    · obtain ⟨W1, fs1, h1, h2, h3, h4⟩ := cellTurn h hs (sched t)
      obtain ⟨t', k1, k2, W', fs', k3, k4, k5, k6⟩ := cellWait (g := g) d (t + 1) (W := W1) (fs := fs1) h2 h3 (by rw [← hg]; congr 1; omega)
      exact ⟨t', by omega, k2, W', fs', h1.trans k3, k4, k5, k6.trans (h4 g (fun e => ht e.symm))⟩

/-- A goroutine that gets turns again and again comes to its end. -/
theorem cellProgress {Q : Nat → CellWorld T → LLocal T → Prop} {ms : Nat → LMachine T} {sched : Nat → Nat} {g : Nat} (hinf : ∀ t, ∃ t', t ≤ t' ∧ sched t' = g)
    {W0 : CellWorld T} {f : Nat → LProg T (LLocal T)} (hf : Safe (Q g) W0 f) :
    ∀ (t : Nat) {W : CellWorld T} {fs : List (Nat → LProg T (LLocal T))}, W0.Le W → MAt W fs (fun n => (ms n).after sched t) → MSafe Q W fs → fs[g]? = some f →
    ∃ t' N a, ∀ n, N ≤ n → ((ms n).after sched t').gs[g]? = some (.done a) := by
  have next : ∀ (t : Nat) {W0 W : CellWorld T} {fs : List (Nat → LProg T (LLocal T))} {f : Nat → LProg T (LLocal T)}, W0.Le W → MAt W fs (fun n => (ms n).after sched t) → MSafe Q W fs →
      fs[g]? = some f → ∃ t', sched t' = g ∧ ∃ W' fs', W0.Le W' ∧ MAt W' fs' (fun n => (ms n).after sched t') ∧ MSafe Q W' fs' ∧ fs'[g]? = some f := by
    intro t W0 W fs f h0 h hs hg
    obtain ⟨t1, h1, h2⟩ := hinf t
    obtain ⟨t', _, k2, W', fs', k3, k4, k5, k6⟩ := cellWait (t1 - t) t h hs (g := g) (by rw [← h2]; congr 1; omega)
    exact ⟨t', k2, W', fs', h0.trans k3, k4, k5, k6.trans hg⟩
  induction hf with
  | @done W0 f a N h hQ =>
    intro t W fs h0 hm hs hg
    obtain ⟨M, hM⟩ := hm
    refine ⟨t, max M N, a, fun n hn => ?_⟩
    have := hM n (by omega)
    dsimp only at this
    rw [this]
    simp only [List.getElem?_map, hg, Option.map_some, h n (by omega)]
  | @load W0 f k p N h hk hp ih =>
    intro t W fs h0 hm hs hg
    obtain ⟨t', k2, W', fs', k3, k4, k5, k6⟩ := next t h0 hm hs hg
    have hk' : k < W'.σ.length := Nat.lt_of_lt_of_le hk k3.len
    have hst : StepTo W' f W' (p W'.σ[k]) := ⟨Le.refl _, N, fun n hn => by rw [h n hn]; simp only [LProg.step, List.getElem?_eq_getElem hk']⟩
    have hsafe := hp W' _ k3 (List.getElem?_eq_getElem hk')
    have hl := (List.getElem?_eq_some_iff.1 k6).1
    exact ih W' _ k3 (List.getElem?_eq_getElem hk') (t' + 1) (Le.refl _) (by simpa only [LMachine.after, k2] using k4.step k6 hst) (k5.step (Le.refl _) hsafe)
      (List.getElem?_set_self hl)
  | @store W0 f k s p N h hk hc hp ih =>
    intro t W fs h0 hm hs hg
    obtain ⟨t', k2, W', fs', k3, k4, k5, k6⟩ := next t h0 hm hs hg
    have hk' : k < W'.σ.length := Nat.lt_of_lt_of_le hk k3.len
    obtain ⟨W2, e1, e2, e3⟩ := exists_store (W := W') (hc.agree k3.agree hk) hk'
    have hst : StepTo W' f W2 p := ⟨e3, N, fun n hn => by rw [h n hn, e2]; rfl⟩
    have hl := (List.getElem?_eq_some_iff.1 k6).1
    exact ih W' W2 k3 e1 e2 (t' + 1) (Le.refl _) (by simpa only [LMachine.after, k2] using k4.step k6 hst) (k5.step e3 (hp W' W2 k3 e1 e2)) (List.getElem?_set_self hl)
  | @alloc W0 f s p N h nx hn hns hp ih =>
    intro t W fs h0 hm hs hg
    obtain ⟨t', k2, W', fs', k3, k4, k5, k6⟩ := next t h0 hm hs hg
    have hst : StepTo W' f (nx W' k3) (p W'.σ.length) := ⟨hn W' k3, N, fun n hn => by rw [h n hn, hns]; rfl⟩
    have hl := (List.getElem?_eq_some_iff.1 k6).1
    exact ih W' k3 (t' + 1) (Le.refl _) (by simpa only [LMachine.after, k2] using k4.step k6 hst) (k5.step (hn W' k3) (hp W' k3)) (List.getElem?_set_self hl)

/-! ### From the beginning -/

/-- What a goroutine is to achieve. -/
def GoalC (S : List (LSpec T)) (css : List (List (LCmd T))) (g : Nat) (W : CellWorld T) (loc : LLocal T) : Prop :=
  ∃ cs, css[g]? = some cs ∧ LocOk W (specRun S cs) loc ∧ AnswersOk S cs loc.answers

theorem cellStart_spec {E : LEnv T} {S : List (LSpec T)} {st : LState T} (h : HistOk E S st) {css : List (List (LCmd T))} (hg : ∀ cs ∈ css, GoodRun S 0 cs) :
    ∃ (W : CellWorld T) (fs : List (Nat → LProg T (LLocal T))), MAt W fs (fun n => LMachine.start n st css) ∧ MSafe (GoalC S css) W fs ∧ fs.length = css.length := by
  refine ⟨⟨E, st.store, h.store⟩, css.map fun cs n => (LLocal.mk st.sets [] []).run n cs, ⟨0, fun n _ => ?_⟩, fun g f hf => ?_, by simp⟩
  · simp only [LMachine.start, List.map_map]; rfl
  · rw [List.getElem?_map] at hf
    cases hcs : css[g]? with
    | none => rw [hcs] at hf; cases hf
    | some cs =>
      rw [hcs] at hf
      cases hf
      refine (runC_spec cs (S := S) (loc := ⟨st.sets, [], []⟩) ⟨h.len, h.sets, fun k c hk => by simp at hk⟩ (hg cs (List.mem_of_getElem? hcs))).imp fun W' loc' _ hl => ?_
      obtain ⟨h1, as, h2, h3⟩ := hl
      exact ⟨cs, hcs, h1, by simp at h2; rw [h2]; exact h3⟩

/-- A safe goroutine has not panicked, and if it is done it has achieved its goal. -/
theorem Safe.now {Q : CellWorld T → α → Prop} {f : Nat → LProg T α} (h : Safe Q W f) : ∃ N, ∀ n, N ≤ n → (∀ e, f n ≠ .panic e) ∧ ∀ a, f n = .done a → Q W a := by
  cases h with
  | @done _ _ a N h hQ => exact ⟨N, fun n hn => ⟨fun e he => (by rw [h n hn] at he; cases he), fun b hb => by rw [h n hn] at hb; cases hb; exact hQ W (Le.refl _)⟩⟩
  | load N h _ _ => exact ⟨N, fun n hn => ⟨fun e he => (by rw [h n hn] at he; cases he), fun b hb => by rw [h n hn] at hb; cases hb⟩⟩
  | store N h _ _ _ => exact ⟨N, fun n hn => ⟨fun e he => (by rw [h n hn] at he; cases he), fun b hb => by rw [h n hn] at hb; cases hb⟩⟩
  | alloc N h _ _ _ _ => exact ⟨N, fun n hn => ⟨fun e he => (by rw [h n hn] at he; cases he), fun b hb => by rw [h n hn] at hb; cases hb⟩⟩

theorem MSafe.now {Q : Nat → CellWorld T → LLocal T → Prop} {fs : List (Nat → LProg T (LLocal T))} (h : MSafe Q W fs) : ∃ N, ∀ n, N ≤ n → ∀ g f, fs[g]? = some f →
    (∀ e, f n ≠ .panic e) ∧ ∀ a, f n = .done a → Q g W a := by
  have : ∀ G, ∃ N, ∀ n, N ≤ n → ∀ g f, g < G → fs[g]? = some f → (∀ e, f n ≠ .panic e) ∧ ∀ a, f n = .done a → Q g W a := by
    intro G
    induction G with
    | zero => exact ⟨0, fun n _ g f hg => by omega⟩
    | succ G ih =>
      obtain ⟨N, hN⟩ := ih
      cases hG : fs[G]? with
      | none =>
        refine ⟨N, fun n hn g f hg hf => ?_⟩
        by_cases hgG : g = G
        · subst hgG; rw [hG] at hf; cases hf
        · exact hN n hn g f (by omega) hf
      | some p =>
        obtain ⟨M, hM⟩ := (h G p hG).now
        refine ⟨max N M, fun n hn g f hg hf => ?_⟩
        by_cases hgG : g = G
        · subst hgG; rw [hG] at hf; cases hf; exact hM n (by omega)
        · exact hN n (by omega) g f (by omega) hf
  obtain ⟨N, hN⟩ := this fs.length
  exact ⟨N, fun n hn g f hf => hN n hn g f (List.getElem?_eq_some_iff.1 hf).1 hf⟩

end Frozen
