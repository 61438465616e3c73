import Verif.Proof.LazyConcHist
import Verif.Proof.LazyConcAloneOps
import Verif.Props.Lazy

/-!
# C63: lazy sets shared by goroutines

A history `pre` makes some lazy sets. They are handed to any number of goroutines, and goroutine `g` works through the calls
`css[g]`. The words are those of `Spec/Lazy.lean` and `Spec/LazyConc.lean`: `LMachine.after` performs the first `t` turns of a
schedule, `AnswersOk` says what the answers of a list of calls should be, and `CursorOk` what an iterator should have delivered.

As in C33 to C38 the full property, over all lists of calls in `AllowedRun`, is false of the code: see `C63_refuted`. The `_partial`
theorems cover the lists in `GoodRun`.
-/

set_option linter.unusedSectionVars false

namespace Frozen

section
variable {T : Type} [GoKey T] [LawfulGoKey T]

/-- C63. However the goroutines' accesses to the memo cells of shared sets fall between each other, no call panics, and a goroutine
that has come to the end of its calls has got the answers it should have got, and its iterators have delivered what they should. -/
theorem C63_answers_partial (pre : List (LCmd T)) (hp : GoodRun [] 0 pre) (css : List (List (LCmd T)))
    (hc : ∀ cs ∈ css, GoodRun (specRun [] pre) 0 cs) :
    ∃ st, Runs (fun n => LState.init.run n pre) st ∧ ∀ (sched : Nat → Nat) (t : Nat), ∃ N, ∀ n, N ≤ n → ∀ (g : Nat) (p : LProg T (LLocal T)),
      ((LMachine.start n st css).after sched t).gs[g]? = some p →
        (∀ e, p ≠ .panic e) ∧ ∀ loc, p = .done loc → ∃ cs, css[g]? = some cs ∧ AnswersOk (specRun [] pre) cs loc.answers ∧
          loc.sets.length = (specRun (specRun [] pre) cs).length ∧ ∀ c ∈ loc.iters, CursorOk (specRun (specRun [] pre) cs) c := by
  obtain ⟨st, E, h1, h2⟩ := hist_spec pre hp
  refine ⟨st, h1, fun sched t => ?_⟩
  obtain ⟨W, fs, k1, k2, _⟩ := cellStart_spec h2 hc
  obtain ⟨W', fs', _, ⟨N, hN⟩, k5⟩ := cellTurns k1 k2 sched t
  obtain ⟨M, hM⟩ := k5.now
  refine ⟨max N M, fun n hn g p hg => ?_⟩
  have := hN n (by omega)
  dsimp only at this
  rw [this] at hg
  dsimp only at hg
  rw [List.getElem?_map] at hg
  cases hf : fs'[g]? with
  | none => rw [hf] at hg; cases hg
  | some f =>
    rw [hf] at hg
    cases hg
    obtain ⟨q1, q2⟩ := hM n (by omega) g f hf
    refine ⟨q1, fun loc hl => ?_⟩
    obtain ⟨cs, r1, r2, r3⟩ := q2 loc hl
    exact ⟨cs, r1, r3, r2.len, r2.cursors⟩

/-- C63. No goroutine waits for another: if it gets turns again and again it comes to the end of its calls, whatever the others do,
and even if they never take another turn. -/
theorem C63_no_waiting_partial (pre : List (LCmd T)) (hp : GoodRun [] 0 pre) (css : List (List (LCmd T)))
    (hc : ∀ cs ∈ css, GoodRun (specRun [] pre) 0 cs) :
    ∃ st, Runs (fun n => LState.init.run n pre) st ∧ ∀ (sched : Nat → Nat) (g : Nat), g < css.length →
      (∀ t, ∃ t', t ≤ t' ∧ sched t' = g) → ∃ t N loc, ∀ n, N ≤ n → ((LMachine.start n st css).after sched t).gs[g]? = some (.done loc) := by
  obtain ⟨st, E, h1, h2⟩ := hist_spec pre hp
  refine ⟨st, h1, fun sched g hg hinf => ?_⟩
  obtain ⟨W, fs, k1, k2, k3⟩ := cellStart_spec h2 hc
  have hl : g < fs.length := by omega
  exact cellProgress (ms := fun n => LMachine.start n st css) hinf (k2 g _ (List.getElem?_eq_getElem hl)) 0 (CellWorld.Le.refl _) k1 k2 (List.getElem?_eq_getElem hl)

end

/-- C63. A goroutine nobody disturbs does what C33 to C38 say of a single one: taken one after the other, its steps lead from the
sets, iterators and cells it begins with to those `LState.run` gives, and to a panic exactly if `LState.run` gives that panic. -/
theorem C63_alone {T : Type} [GoKey T] (n : Nat) (st : LState T) (as : List LAnswer) (cs : List (LCmd T)) :
    ∃ t, match st.run n cs with
      | .ok st' => ∃ as', (fun r : LStore T × LProg T (LLocal T) => r.2.step r.1)^[t] (st.store, (LLocal.mk st.sets st.iters as).run n cs) =
          (st'.store, .done ⟨st'.sets, st'.iters, as'⟩)
      | .error e => ∃ σ', (fun r : LStore T × LProg T (LLocal T) => r.2.step r.1)^[t] (st.store, (LLocal.mk st.sets st.iters as).run n cs) =
          (σ', .panic e) := by
  obtain ⟨t, h⟩ := alone_steps ((LLocal.mk st.sets st.iters as).run n cs) st.store
  refine ⟨t, ?_⟩
  have e := runC_alone n cs (LLocal.mk st.sets st.iters as) st.store
  have e' : LLocal.state (LLocal.mk st.sets st.iters as, st.store) = st := rfl
  rw [e'] at e
  rw [← e]
  cases hr : LProg.alone st.store ((LLocal.mk st.sets st.iters as).run n cs) with
  | error e => rw [hr] at h; exact h
  | ok r =>
    obtain ⟨loc, σ⟩ := r
    rw [hr] at h
    exact ⟨loc.answers, h⟩

/-! ### What fails, and concrete cases -/

/-- The goroutine has come to its end, holding something `f` holds of. -/
def doneAnd {T : Type} (p : Option (LProg T (LLocal T))) (f : LLocal T → Bool) : Bool :=
  match p with
  | some (.done loc) => f loc
  | _ => false

theorem of_doneAnd {T : Type} {p : Option (LProg T (LLocal T))} {f : LLocal T → Bool} (h : doneAnd p f = true) : ∃ loc, p = some (.done loc) ∧ f loc = true := by
  unfold doneAnd at h
  split at h
  · exact ⟨_, rfl, h⟩
  · cases h

/-- The state after a history with fuel 60. -/
def state60 (pre : List (LCmd Coll)) : LState Coll := match LState.init.run 60 pre with | .ok st => st | .error _ => LState.init

theorem state60_run {pre : List (LCmd Coll)} (h : okAnd (LState.init.run 60 pre) (fun _ => true) = true) : LState.init.run 60 pre = .ok (state60 pre) := by
  unfold state60
  cases h' : LState.init.run 60 pre with
  | ok st => rfl
  | error e => rw [h'] at h; cases h

/-- Three goroutines share the union of {1, 2, 3} and {1, 4} (7), its filter that leaves out 2 (8), and the union of {4} and that
(9). -/
def sharedPre : List (LCmd Coll) := lazyBase Coll Coll.mk ++ [.union 3 5, .where 7 (fun c => c.n != 2), .union 4 8]

/-- The first two iterate the last set; the third freezes the filter, and asks whether the filter is empty, whether the union has
4, and whether the filter is {1, 2, 3}. -/
def sharedCalls : List (List (LCmd Coll)) :=
  [[.range 9, .advance 0, .advance 0, .advance 0, .advance 0], [.range 9, .advance 0, .advance 0, .advance 0, .advance 0],
   [.freeze 8, .isEmpty 8, .has 7 ⟨4⟩, .equalSet 8 3]]

theorem shared_good : GoodRun [] 0 sharedPre ∧ ∀ cs ∈ sharedCalls, GoodRun (specRun [] sharedPre) 0 cs := by
  simp [sharedPre, sharedCalls, lazyBase, GoodRun, LCmd.Good, specRun, specStep, specAt, LCmd.iters, LSpec.frozen, LSpec.with, LSpec.union, LSpec.where]
  intro a b h; rw [of_decide_eq_true h]

/-- The hypotheses of the theorems above are met by the shared sets; and in a run in which the goroutines take turns, one access
each, all of them come to their end: both iterators have delivered 4, 1 and 3, and the third goroutine's answers are right. -/
example : (GoodRun [] 0 sharedPre ∧ ∀ cs ∈ sharedCalls, GoodRun (specRun [] sharedPre) 0 cs) ∧
    (let m := (LMachine.start 60 (state60 sharedPre) sharedCalls).after (fun t => t % 3) 120
     doneAnd m.gs[0]? (fun loc => decide (loc.iters.map (fun c => (c.got, c.ended)) = [([⟨4⟩, ⟨1⟩, ⟨3⟩], true)])) &&
     doneAnd m.gs[1]? (fun loc => decide (loc.iters.map (fun c => (c.got, c.ended)) = [([⟨4⟩, ⟨1⟩, ⟨3⟩], true)])) &&
     doneAnd m.gs[2]? (fun loc => decide (loc.answers = [.none, .bool false, .bool true, .bool false]))) = true :=
  ⟨shared_good, by decide +kernel⟩

/-- The first goroutine has five of its six accesses behind it, and stands before the store of what its iteration has found, when it
gets no more turns; the second comes to its end all the same. -/
example : (let m := (LMachine.start 60 (state60 sharedPre) sharedCalls).after (fun t => if t < 5 then 0 else 1) 40
     !doneAnd m.gs[0]? (fun _ => true) &&
     doneAnd m.gs[1]? (fun loc => decide (loc.iters.map (fun c => (c.got, c.ended)) = [([⟨4⟩, ⟨1⟩, ⟨3⟩], true)]))) = true := by
  decide +kernel

/-- Over all the lists of calls the documentation allows C63 fails, as C33 does for a single goroutine: one that iterates {1, 4} less
({1, 4} less {4}) is not given 4. -/
theorem C63_refuted : ¬ ∀ (pre : List (LCmd Coll)) (css : List (List (LCmd Coll))), AllowedRun [] 0 pre → (∀ cs ∈ css, AllowedRun (specRun [] pre) 0 cs) →
    ∀ n st, LState.init.run n pre = .ok st → ∀ (sched : Nat → Nat) (t g : Nat) (cs : List (LCmd Coll)) (loc : LLocal Coll), css[g]? = some cs →
      ((LMachine.start n st css).after sched t).gs[g]? = some (.done loc) → ∀ c ∈ loc.iters, CursorOk (specRun (specRun [] pre) cs) c := by
  intro h
  let pre : List (LCmd Coll) := lazyBase Coll Coll.mk ++ [.diff 5 4, .diff 5 7]
  let css : List (List (LCmd Coll)) := [[.range 8, .advance 0]]
  obtain ⟨loc, h1, h2⟩ := of_doneAnd (T := Coll) (p := ((LMachine.start 60 (state60 pre) css).after (fun _ => 0) 40).gs[0]?)
    (f := fun loc => decide (loc.iters.map (fun c => (c.src, c.got, c.ended)) = [(8, [], true)])) (by decide +kernel)
  have hs := h pre css (by simp [pre, lazyBase, AllowedRun, LCmd.Allowed, LCmd.Good, specStep, LCmd.iters])
    (by simp [pre, css, lazyBase, AllowedRun, LCmd.Allowed, LCmd.Good, specRun, specStep, LCmd.iters]) 60 (state60 pre) (state60_run (by decide +kernel))
    (fun _ => 0) 40 0 [.range 8, .advance 0] loc rfl h1
  have h2 := of_decide_eq_true h2
  obtain ⟨c, hc, e⟩ : ∃ c ∈ loc.iters, (c.src, c.got, c.ended) = (8, [], true) := by
    have : (8, ([] : List Coll), true) ∈ loc.iters.map (fun c => (c.src, c.got, c.ended)) := by rw [h2]; simp
    simpa using this
  simp only [Prod.mk.injEq] at e
  obtain ⟨v, hv, _⟩ := (hs c hc).all e.2.2 ⟨4⟩ (by
    rw [e.1]
    simp [pre, lazyBase, specRun, specStep, specAt, LSpec.frozen, LSpec.with, LSpec.diff, GoKey.eq])
  rw [e.2.1] at hv
  cases hv

/-- Where C63 promises nothing, the answer may depend on the schedule, even for covered calls: whether {1, 2} less {2} has 2 is
answered with true if the goroutine that asks comes first, and with false once another has iterated the set. -/
theorem C63_schedule_refuted : ¬ ∀ (pre : List (LCmd Coll)) (css : List (List (LCmd Coll))), GoodRun [] 0 pre → (∀ cs ∈ css, GoodRun (specRun [] pre) 0 cs) →
    ∀ n st, LState.init.run n pre = .ok st → ∀ (sched sched' : Nat → Nat) (t t' g : Nat) (loc loc' : LLocal Coll),
      ((LMachine.start n st css).after sched t).gs[g]? = some (.done loc) → ((LMachine.start n st css).after sched' t').gs[g]? = some (.done loc') →
        loc.answers = loc'.answers := by
  intro h
  let pre : List (LCmd Coll) := lazyBase Coll Coll.mk ++ [.diff 2 6]
  let css : List (List (LCmd Coll)) := [[.has 7 ⟨2⟩], [.range 7, .advance 0, .advance 0]]
  obtain ⟨loc, h1, h2⟩ := of_doneAnd (T := Coll) (p := ((LMachine.start 60 (state60 pre) css).after (fun _ => 0) 20).gs[0]?)
    (f := fun loc => decide (loc.answers = [.bool true])) (by decide +kernel)
  obtain ⟨loc', h1', h2'⟩ := of_doneAnd (T := Coll) (p := ((LMachine.start 60 (state60 pre) css).after (fun t => if t < 20 then 1 else 0) 40).gs[0]?)
    (f := fun loc => decide (loc.answers = [.bool false])) (by decide +kernel)
  have := h pre css (by simp [pre, lazyBase, GoodRun, LCmd.Good, specStep, specAt, LSpec.frozen, LSpec.with])
    (by simp [pre, css, lazyBase, GoodRun, LCmd.Good, specRun, specStep, LCmd.iters]) 60 (state60 pre) (state60_run (by decide +kernel)) _ _ _ _ 0 loc loc' h1 h1'
  rw [of_decide_eq_true h2, of_decide_eq_true h2'] at this
  cases this

end Frozen
