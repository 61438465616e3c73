import Verif.Proof.LazyOps

/-! Lazy sets: histories of calls. -/

set_option linter.unusedSectionVars false

namespace Frozen

variable {T : Type} [GoKey T] [LawfulGoKey T] {E : LEnv T} {σ : LStore T}

theorem specAt_old {S : List (LSpec T)} {x : LSpec T} {i : Nat} (h : i < S.length) : specAt (S ++ [x]) i = specAt S i := by
  simp only [specAt, List.getElem?_append_left h]

theorem specAt_new {S : List (LSpec T)} {x : LSpec T} : specAt (S ++ [x]) S.length = x := by
  simp [specAt]

/-- An iterator a client holds. -/
structure CurOk (E : LEnv T) (σ : LStore T) (S : List (LSpec T)) (c : LCursor T) : Prop where
  src : c.src < S.length
  live : c.ended = false → c.iter.IterOk E ∧ c.iter.rk ≤ σ.length ∧
    (∀ w, (specAt S c.src).den w ↔ (∃ v ∈ c.got, GoKey.eq v w = true) ∨ c.iter.rest E w) ∧
    ((specAt S c.src).once → (c.iter.Dst E ∨ ∀ w, ¬ c.iter.rest E w) ∧ ∀ v ∈ c.got, ¬ c.iter.rest E v)
  dead : c.ended = true → ∀ w, (specAt S c.src).den w ↔ ∃ v ∈ c.got, GoKey.eq v w = true
  once : (specAt S c.src).once → Distinct c.got

/-- What a client holds is right. -/
structure HistOk (E : LEnv T) (S : List (LSpec T)) (st : LState T) : Prop where
  store : StoreOk E st.store
  len : st.sets.length = S.length
  sets : ∀ (i : Nat) (s : LSet T), st.sets[i]? = some s → SetOk E st.store s (specAt S i)
  iters : ∀ (k : Nat) (c : LCursor T), st.iters[k]? = some c → CurOk E st.store S c

theorem CurOk.ext {E' : LEnv T} {σ' : LStore T} (h : Ext E σ E' σ') {S : List (LSpec T)} {c : LCursor T} (hc : CurOk E σ S c) : CurOk E' σ' S c := by
  refine ⟨hc.src, fun he => ?_, hc.dead, hc.once⟩
  obtain ⟨h1, h2, h3, h4⟩ := hc.live he
  have hr := LIter.rest_agree h.agree h2 h1
  refine ⟨LIter.IterOk_agree h.agree h2 h1, Nat.le_trans h2 h.len, ?_, ?_⟩
  · rw [← hr]; exact h3
  · rw [← hr, ← LIter.Dst_agree h.agree h2 h1]; exact h4

theorem CurOk.push {S : List (LSpec T)} {x : LSpec T} {c : LCursor T} (hc : CurOk E σ S c) : CurOk E σ (S ++ [x]) c := by
  have e := specAt_old (x := x) hc.src
  refine ⟨by simp; have := hc.src; omega, ?_, ?_, ?_⟩
  · rw [e]; exact hc.live
  · rw [e]; exact hc.dead
  · rw [e]; exact hc.once

theorem HistOk.ext {E' : LEnv T} {σ' : LStore T} {S : List (LSpec T)} {st : LState T} (hs : HistOk E S st) (h : Ext E st.store E' σ') :
    HistOk E' S ⟨σ', st.sets, st.iters⟩ :=
  ⟨h.store, hs.len, fun i s hi => (hs.sets i s hi).ext h, fun k c hk => (hs.iters k c hk).ext h⟩

/-- Keeping a set that was made. -/
theorem HistOk.push {S : List (LSpec T)} {st : LState T} (hs : HistOk E S st) {r : LSet T × LStore T} {x : LSpec T} (hr : Made E st.store r x) :
    ∃ E', Ext E st.store E' (st.push r).store ∧ HistOk E' (S ++ [x]) (st.push r) := by
  obtain ⟨E', h1, h2⟩ := hr
  have he := hs.ext h1
  refine ⟨E', h1, h1.store, by simp [LState.push, hs.len], fun i s hi => ?_, fun k c hk => (he.iters k c hk).push⟩
  simp only [LState.push] at hi ⊢
  by_cases hil : i < st.sets.length
  · rw [List.getElem?_append_left hil] at hi
    rw [specAt_old (by rw [← hs.len]; exact hil)]
    exact he.sets i s hi
  · have : i = st.sets.length := by
      have : i < (st.sets ++ [r.1]).length := (List.getElem?_eq_some_iff.1 hi).1
      simp at this; omega
    subst this
    simp at hi
    subst hi
    rw [hs.len, specAt_new]
    exact h2

theorem HistOk.get {S : List (LSpec T)} {st : LState T} (hs : HistOk E S st) {i : Nat} (hi : i < S.length) :
    ∃ s, st.get i = .ok s ∧ SetOk E st.store s (specAt S i) := by
  have hil : i < st.sets.length := by rw [hs.len]; exact hi
  refine ⟨st.sets[i], ?_, hs.sets i _ (List.getElem?_eq_getElem hil)⟩
  simp [LState.get, List.getElem?_eq_getElem hil]

/-- Advancing an iterator. -/
theorem advance_spec (hσ : StoreOk E σ) {S : List (LSpec T)} {c : LCursor T} (hc : CurOk E σ S c) :
    ∃ c' σ', Runs (fun n => c.advance n σ) (c', σ') ∧ StoreOk E σ' ∧ σ'.length = σ.length ∧ CurOk E σ' S c' ∧ c'.src = c.src := by
  cases he : c.ended with
  | true => exact ⟨c, σ, Runs.congr (g := fun _ => .ok (c, σ)) (fun n => by simp [LCursor.advance, he]) (Runs.const _), hσ, rfl, hc, rfl⟩
  | false =>
    obtain ⟨h1, h2, h3, h4⟩ := hc.live he
    obtain ⟨⟨i', ok, σ1⟩, g1, g2⟩ := lnext_spec hσ h1 h2
    have heq : ∀ n, c.advance n σ = (LIter.next n σ c.iter >>= fun r => if r.2.1 = true then r.1.value >>= fun v => .ok (⟨r.1, c.src, c.got ++ [v], false⟩, r.2.2)
        else .ok (⟨r.1, c.src, c.got, true⟩, r.2.2)) := fun n => by simp only [LCursor.advance, he]; rfl
    cases ok with
    | false =>
      have hnone := (g2.done rfl).1
      refine ⟨⟨i', c.src, c.got, true⟩, σ1, Runs.congr heq (Runs.bind (g := fun r n => _) g1 (Runs.const _)), g2.store, g2.len,
        ⟨hc.src, fun h => (by simp at h), fun _ w => ?_, hc.once⟩, rfl⟩
      rw [h3 w]
      simp [hnone w]
    | true =>
      obtain ⟨v, k1, k2, k3, k4, k5⟩ := g2.more rfl
      dsimp only at k1 k2 k3 k4 k5
      have hrv : c.iter.rest E v := (k4 v).2 (.inl (LawfulGoKey.refl v))
      refine ⟨⟨i', c.src, c.got ++ [v], false⟩, σ1, Runs.congr heq (Runs.bind (g := fun r n => _) g1 (by simp only [k1, if_true, bind, Except.bind]; exact Runs.const _)), g2.store, g2.len,
        ⟨hc.src, fun _ => ⟨k2, ?_, fun w => ?_, fun ho => ?_⟩, fun h => (by simp at h), fun ho => ?_⟩, rfl⟩
      · have := g2.rk; have := g2.len; dsimp only at *; omega
      · rw [h3 w, k4 w]
        simp only [List.mem_append, List.mem_singleton, or_and_right, exists_or, exists_eq_left, or_assoc]
      · obtain ⟨d1, d2⟩ := h4 ho
        rcases d1 with d1 | d1
        · refine ⟨.inl (k5 d1).2, fun x hx => ?_⟩
          rcases List.mem_append.1 hx with hx | hx
          · exact fun hr => d2 x hx ((k4 x).2 (.inr hr))
          · rw [List.mem_singleton.1 hx]; exact (k5 d1).1
        · exact (d1 v hrv).elim
      · refine List.pairwise_append.2 ⟨hc.once ho, List.pairwise_singleton _ _, fun x hx y hy => ?_⟩
        rw [List.mem_singleton.1 hy]
        by_contra hne
        have hxv : GoKey.eq x v = true := by simpa using hne
        exact (h4 ho).2 x hx ((LIter.rest_congr hσ.env h1 x v hxv).2 hrv)

/-- A client's call. -/
theorem step_spec {S : List (LSpec T)} {st : LState T} (hs : HistOk E S st) (c : LCmd T) (hg : c.Good S st.iters.length) :
    ∃ st' E', Runs (fun n => st.step n c) st' ∧ Ext E st.store E' st'.store ∧ HistOk E' (specStep S c) st' ∧ st'.iters.length = st.iters.length + c.iters := by
  have fin : ∀ {r : LSet T × LStore T} {x : LSpec T} {f : Nat → Go (LState T)}, Runs f (st.push r) → Made E st.store r x →
      ∃ st' E', Runs f st' ∧ Ext E st.store E' st'.store ∧ HistOk E' (S ++ [x]) st' ∧ st'.iters.length = st.iters.length + 0 := by
    intro r x f hf hm
    obtain ⟨E', e1, e2⟩ := hs.push hm
    exact ⟨_, E', hf, e1, e2, rfl⟩
  have ask : ∀ {α : Type} {f : Nat → Go (α × LStore T)} {g : Nat → Go (LState T)} {P : α → Prop}, (∀ n, g n = f n >>= fun r => .ok (LState.mk r.2 st.sets st.iters)) →
      AnswersX E st.store f P → ∃ st' E', Runs g st' ∧ Ext E st.store E' st'.store ∧ HistOk E' S st' ∧ st'.iters.length = st.iters.length + 0 := by
    intro α f g P hfg hf
    obtain ⟨a, σ', E', h1, h2, h3⟩ := hf
    exact ⟨⟨σ', st.sets, st.iters⟩, E', Runs.congr hfg (Runs.bind (g := fun r _ => .ok (LState.mk r.2 st.sets st.iters)) h1 (Runs.const _)), h2, hs.ext h2, rfl⟩
  cases c with
  | empty => exact fin (Runs.const _) (Made.here hs.store (setOk_empty fun w hw => hw))
  | frozen s => exact fin (Runs.const _) (Made.here hs.store (setOk_frozen s.2.valid fun w => Iff.rfl))
  | «where» i p =>
    obtain ⟨s, s1, s2⟩ := hs.get hg.1
    obtain ⟨r, r1, r2⟩ := whereM_spec hs.store s2 hg.2
    exact fin (Runs.congr (g := fun _ => .ok (st.push r)) (fun n => by simp only [LState.step, s1, r1, bind, Except.bind]; rfl) (Runs.const _)) r2
  | map i m =>
    obtain ⟨s, s1, s2⟩ := hs.get hg.1
    obtain ⟨r, r1, r2⟩ := mapM_spec hs.store s2 hg.2
    exact fin (Runs.congr (g := fun _ => .ok (st.push r)) (fun n => by simp only [LState.step, s1, r1, bind, Except.bind]; rfl) (Runs.const _)) r2
  | union i j =>
    obtain ⟨s, s1, s2⟩ := hs.get hg.1
    obtain ⟨t, t1, t2⟩ := hs.get hg.2
    obtain ⟨r, r1, r2⟩ := unionM_spec hs.store s2 t2
    exact fin (Runs.congr (g := fun _ => .ok (st.push r)) (fun n => by simp only [LState.step, s1, t1, r1, bind, Except.bind]; rfl) (Runs.const _)) r2
  | inter i j =>
    obtain ⟨s, s1, s2⟩ := hs.get hg.1
    obtain ⟨t, t1, t2⟩ := hs.get hg.2.1
    obtain ⟨r, r1, r2⟩ := interM_spec hs.store s2 t2 hg.2.2
    exact fin (Runs.congr (g := fun n => LSet.interM n st.store s t >>= fun r => .ok (st.push r)) (fun n => by simp only [LState.step, s1, t1, bind, Except.bind]; rfl)
      (Runs.bind (g := fun r _ => .ok (st.push r)) r1 (Runs.const _))) r2
  | diff i j =>
    obtain ⟨s, s1, s2⟩ := hs.get hg.1
    obtain ⟨t, t1, t2⟩ := hs.get hg.2.1
    obtain ⟨r, r1, r2, _⟩ := diffM_spec hs.store s2 t2 hg.2.2
    exact fin (Runs.congr (g := fun n => LSet.diffM n st.store s t >>= fun r => .ok (st.push r)) (fun n => by simp only [LState.step, s1, t1, bind, Except.bind]; rfl)
      (Runs.bind (g := fun r _ => .ok (st.push r)) r1 (Runs.const _))) r2
  | symm i j =>
    obtain ⟨s, s1, s2⟩ := hs.get hg.1
    obtain ⟨t, t1, t2⟩ := hs.get hg.2.1
    obtain ⟨r, r1, r2⟩ := symmM_spec hs.store s2 t2 hg.2.2.1 hg.2.2.2
    exact fin (Runs.congr (g := fun n => LSet.symmM n st.store s t >>= fun r => .ok (st.push r)) (fun n => by simp only [LState.step, s1, t1, bind, Except.bind]; rfl)
      (Runs.bind (g := fun r _ => .ok (st.push r)) r1 (Runs.const _))) r2
  | «with» i v =>
    obtain ⟨s, s1, s2⟩ := hs.get hg
    obtain ⟨r, r1, r2⟩ := withM_spec hs.store s2 v
    exact fin (Runs.congr (g := fun _ => .ok (st.push r)) (fun n => by simp only [LState.step, s1, r1, bind, Except.bind]; rfl) (Runs.const _)) r2
  | without i v =>
    obtain ⟨s, s1, s2⟩ := hs.get hg
    obtain ⟨r, r1, r2⟩ := withoutM_spec hs.store s2 v
    exact fin (Runs.congr (g := fun n => LSet.withoutM n st.store s v >>= fun r => .ok (st.push r)) (fun n => by simp only [LState.step, s1, bind, Except.bind]; rfl)
      (Runs.bind (g := fun r _ => .ok (st.push r)) r1 (Runs.const _))) r2
  | freeze i =>
    obtain ⟨s, s1, s2⟩ := hs.get hg
    obtain ⟨f, σ', E', f1, f2, f3, f4⟩ := freeze_spec hs.store s2
    exact fin (x := LSpec.frozen (specAt S i).den) (Runs.congr (g := fun n => LSet.freeze n st.store s >>= fun r => .ok (st.push r)) (fun n => by simp only [LState.step, s1, bind, Except.bind]; rfl)
      (Runs.bind (g := fun r _ => .ok (st.push r)) f1 (Runs.const _))) ⟨E', f2, setOk_frozen f3 f4⟩
  | range i =>
    obtain ⟨s, s1, s2⟩ := hs.get hg
    obtain ⟨it, r1, r2⟩ := range_spec hs.store s2.iok s2.rk
    refine ⟨⟨st.store, st.sets, st.iters ++ [⟨it, i, [], false⟩]⟩, E, Runs.congr (g := fun n => LSet.range st.store n s >>= fun it => .ok (LState.mk st.store st.sets (st.iters ++ [⟨it, i, [], false⟩])))
      (fun n => by simp only [LState.step, s1, bind, Except.bind]; rfl) (Runs.bind (g := fun it _ => .ok (LState.mk st.store st.sets (st.iters ++ [⟨it, i, [], false⟩]))) r1 (Runs.const _)),
      Ext.refl hs.store, ⟨hs.store, hs.len, hs.sets, fun k c hk => ?_⟩, by simp [LCmd.iters]⟩
    dsimp only at hk ⊢
    by_cases hkl : k < st.iters.length
    · rw [List.getElem?_append_left hkl] at hk
      exact hs.iters k c hk
    · have : k = st.iters.length := by
        have := (List.getElem?_eq_some_iff.1 hk).1
        simp at this; omega
      subst this
      simp at hk
      subst hk
      refine ⟨hg, fun _ => ⟨r2.ok, Nat.le_trans r2.rk s2.rk, fun w => ?_, fun ho => ⟨?_, fun v hv => by simp at hv⟩⟩, fun h => (by simp at h), fun _ => List.Pairwise.nil⟩
      · dsimp only [specStep]; rw [← s2.den w, ← r2.rest w]; simp
      · rcases s2.once ho with h | h
        · exact .inl (r2.dst h)
        · exact .inr (fun w hw => h w ((s2.den w).1 ((r2.rest w).1 hw)))
  | advance k =>
    have hk : k < st.iters.length := hg
    have hkc := hs.iters k _ (List.getElem?_eq_getElem hk)
    obtain ⟨c', σ', h1, h2, h3, h4, h5⟩ := advance_spec hs.store hkc
    have hx : Ext E st.store E σ' := Ext.same h2 h3
    have he := hs.ext hx
    refine ⟨⟨σ', st.sets, st.iters.set k c'⟩, E, Runs.congr (g := fun n => (st.iters[k]).advance n st.store >>= fun r => .ok (LState.mk r.2 st.sets (st.iters.set k r.1)))
      (fun n => by simp only [LState.step, List.getElem?_eq_getElem hk]; rfl) (Runs.bind (g := fun r _ => .ok (LState.mk r.2 st.sets (st.iters.set k r.1))) h1 (Runs.const _)),
      hx, ⟨he.store, he.len, he.sets, fun k' c hk' => ?_⟩, by simp [LCmd.iters]⟩
    dsimp only at hk' ⊢
    by_cases hkk : k = k'
    · subst hkk
      rw [List.getElem?_set_self hk] at hk'
      cases hk'
      exact h4
    · rw [List.getElem?_set_ne hkk] at hk'
      exact he.iters k' c hk'
  | has i v =>
    obtain ⟨s, s1, s2⟩ := hs.get hg
    exact ask (fun n => by simp only [LState.step, s1, bind, Except.bind]; rfl) (has_spec' hs.store s2 v).x
  | isEmpty i =>
    obtain ⟨s, s1, s2⟩ := hs.get hg
    exact ask (fun n => by simp only [LState.step, s1, bind, Except.bind]; rfl) (isEmpty_spec hs.store s2).x
  | count i =>
    obtain ⟨s, s1, s2⟩ := hs.get hg
    exact ask (fun n => by simp only [LState.step, s1, bind, Except.bind]; rfl) (count_spec hs.store s2).x
  | equalSet i j =>
    obtain ⟨s, s1, s2⟩ := hs.get hg.1
    obtain ⟨t, t1, t2⟩ := hs.get hg.2
    exact ask (fun n => by simp only [LState.step, s1, t1, bind, Except.bind]; rfl) (equalSet_spec hs.store s2 t2)
  | isSubsetOf i j =>
    obtain ⟨s, s1, s2⟩ := hs.get hg.1
    obtain ⟨t, t1, t2⟩ := hs.get hg.2
    exact ask (fun n => by simp only [LState.step, s1, t1, bind, Except.bind]; rfl) (isSubsetOf_spec hs.store s2 t2)

theorem run_spec : ∀ (cs : List (LCmd T)) {E : LEnv T} {S : List (LSpec T)} {st : LState T}, HistOk E S st → GoodRun S st.iters.length cs →
    ∃ st' E', Runs (fun n => st.run n cs) st' ∧ HistOk E' (specRun S cs) st'
  | [], E, S, st, hs, _ => ⟨st, E, Runs.const _, hs⟩
  | c :: cs, E, S, st, hs, hg => by
    obtain ⟨st1, E1, h1, _, h3, h4⟩ := step_spec hs c hg.1
    obtain ⟨st2, E2, k1, k2⟩ := run_spec cs h3 (by rw [h4]; exact hg.2)
    exact ⟨st2, E2, Runs.congr (g := fun n => st.step n c >>= fun st => st.run n cs) (fun n => rfl) (Runs.bind (g := fun st n => st.run n cs) h1 k1), k2⟩

theorem hist_spec (cs : List (LCmd T)) (hg : GoodRun [] 0 cs) : ∃ st E, Runs (fun n => LState.init.run n cs) st ∧ HistOk E (specRun [] cs) st := by
  refine run_spec cs (E := fun _ => ⟨fun _ => False, False, False, False, 0⟩) (S := []) (st := LState.init) ⟨⟨fun k => ?_, fun k c hk => ?_⟩, rfl, ?_, ?_⟩ hg
  · exact fun _ _ _ => Iff.rfl
  · simp [LState.init] at hk
  · intro i s h; simp [LState.init] at h
  · intro i s h; simp [LState.init] at h

end Frozen
