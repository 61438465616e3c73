import Verif.Proof.LazyPowHist
import Verif.Props.Lazy

/-!
# C37: lazy powersets with their memo tables

The vocabulary (`PCmd`, `PState.run`, `PSpec.run`, `GoodPRun`) is in `Spec/LazyPow.lean`. A client makes lazy sets, takes powersets,
makes iterators over sets and over powersets, and advances all of these in any order. `(PSpec.init.run cs).srcs` lists what is known
of the sets whose powersets were taken: `den` is the set of elements and `plain` says that iterating it meets no element twice.
-/

set_option linter.unusedSectionVars false

namespace Frozen

section
variable {T : Type} [GoKey T] [LawfulGoKey T] [GoHash]

/-- C37. After any covered history that did not panic, what any iterator over a powerset has delivered are subsets of the source,
pairwise different if the source is iterated without repetition. If it has ended, it has delivered every subset; and 2^m values if
the source has m elements and is iterated without repetition. -/
theorem C37_powerset (cs : List (PCmd T)) (h : GoodPRun PSpec.init 0 0 cs) (n : Nat) (st : PState T) (hr : PState.init.run n cs = .ok st)
    (k : Nat) (c : PCursor T) (hk : st.iters[k]? = some c) :
    (∀ g ∈ c.got, ∀ e, ∃ b, g.has e = .ok b) ∧
    (∀ g ∈ c.got, ∀ e, g.holds e → (specAt (PSpec.init.run cs).srcs c.src).den e) ∧
    ((specAt (PSpec.init.run cs).srcs c.src).plain → c.got.Pairwise (fun x y => ¬ x.Same y)) ∧
    (c.ended = true →
      (∀ Q : T → Prop, (∀ a b, GoKey.eq a b = true → (Q a ↔ Q b)) → (∀ e, Q e → (specAt (PSpec.init.run cs).srcs c.src).den e) →
        ∃ g ∈ c.got, ∀ e, g.holds e ↔ Q e) ∧
      ((specAt (PSpec.init.run cs).srcs c.src).plain → ∀ m : Nat, HasCard (specAt (PSpec.init.run cs).srcs c.src).den m → c.got.length = 2 ^ m)) := by
  obtain ⟨E, C, hs⟩ := phist_of_run h hr
  have hc := hs.iters k c hk
  have hsub := hc.subs hs.base.store
  refine ⟨hsub.answers, hsub.sub, hsub.dst, fun he => ⟨(hc.dead he).all, fun hp m hm => ?_⟩⟩
  obtain ⟨L, h1, h2⟩ := (hc.dead he).count hp
  obtain ⟨l, hl, hlm⟩ := hm
  rw [h2, h1.length_eq hl, show l.length = m by omega]

/-- C37. If powersets are only taken of sets with fewer than 64 elements that are iterated without repetition, every covered history
returns, and an iterator over the powerset of a set of m elements has ended after 2^m + 1 more calls of `Next`. -/
theorem C37_ends (cs : List (PCmd T)) (h : GoodPRun PSpec.init 0 0 cs) (hs : SmallPRun PSpec.init cs) :
    ∃ st, Runs (fun n => PState.init.run n cs) st ∧ ∀ k c, st.iters[k]? = some c → ∀ m : Nat, HasCard (specAt (PSpec.init.run cs).srcs c.src).den m →
      ∃ st' c', Runs (fun n => st.run n (List.replicate (2 ^ m + 1) (.advance k))) st' ∧ st'.iters[k]? = some c' ∧ c'.src = c.src ∧ c'.ended = true := by
  rcases prun_spec cs phist_init h with ⟨st, E, C, h1, h2⟩ | ⟨_, h2⟩
  · have hsm : ∀ (cs : List (PCmd T)) (S : PSpec T), (∀ p, p < S.srcs.length → (specAt S.srcs p).plain ∧ ∃ m : Nat, m < 64 ∧ HasCard (specAt S.srcs p).den m) →
        SmallPRun S cs → ∀ p, p < (S.run cs).srcs.length → (specAt (S.run cs).srcs p).plain ∧ ∃ m : Nat, m < 64 ∧ HasCard (specAt (S.run cs).srcs p).den m := by
      intro cs
      induction cs with
      | nil => intro S h1 _; exact h1
      | cons c cs ih =>
        intro S h1 h2
        refine ih (S.step c) (fun p hp => ?_) h2.2
        cases c with
        | powerset i =>
          simp only [PSpec.step] at hp ⊢
          by_cases hpl : p < S.srcs.length
          · rw [specAt_old hpl]; exact h1 p hpl
          · have : p = S.srcs.length := by simp at hp; omega
            subst this
            rw [specAt_new]
            exact h2.1 i rfl
        | base _ => exact h1 p hp
        | range _ => exact h1 p hp
        | advance _ => exact h1 p hp
    have hsm := hsm cs PSpec.init (fun p hp => by simp [PSpec.init] at hp) hs
    refine ⟨st, h1, fun k c hk m hm => ?_⟩
    obtain ⟨st', c', g1, g2, g3, g4, g5⟩ := padvance_many hsm (2 ^ m + 1) h2 c hk
    refine ⟨st', c', g1, g3, g4, g5.resolve_right fun g5 => ?_⟩
    have hc := g2.iters k c' g3
    have := hc.bound (hsm _ hc.src).1 (m := m) (by rw [g4]; exact hm)
    omega
  · exact absurd ⟨fun p hp => by simp [PSpec.init] at hp, hs⟩ h2

/-- C37. Iterating a powerset does not disturb the sets: after any such history every set still delivers what it denotes. -/
theorem C37_sources (cs : List (PCmd T)) (h : GoodPRun PSpec.init 0 0 cs) (n : Nat) (st : PState T) (hr : PState.init.run n cs = .ok st)
    (i : Nat) (s : LSet T) (hi : st.base.sets[i]? = some s) :
    ∃ vs σ', Runs (fun n => LSet.values n st.base.store s) (vs, σ') ∧
      (∀ w, (specAt (PSpec.init.run cs).sets i).den w ↔ ∃ v ∈ vs, GoKey.eq v w = true) ∧
      ((specAt (PSpec.init.run cs).sets i).once → Lists vs (specAt (PSpec.init.run cs).sets i).den) := by
  obtain ⟨E, C, hs⟩ := phist_of_run h hr
  obtain ⟨vs, σ', g1, _, _, g2⟩ := values_spec hs.base.store (hs.base.sets i s hi)
  exact ⟨vs, σ', g1, g2⟩

/-- C37. `Count` of the powerset of a set of m < 63 elements on which `Count` is right, after any such history. -/
theorem C37_count (cs : List (PCmd T)) (h : GoodPRun PSpec.init 0 0 cs) (n : Nat) (st : PState T) (hr : PState.init.run n cs = .ok st)
    (p : Nat) (s : PSet T) (hp : st.pows[p]? = some s) (hpl : (specAt (PSpec.init.run cs).srcs p).plain)
    (m : Nat) (hm : HasCard (specAt (PSpec.init.run cs).srcs p).den m) (h63 : m < 63) :
    ∃ σ', Runs (fun n => PSet.count n st.base.store st.cells s) (2 ^ m, σ') := by
  obtain ⟨E, C, hs⟩ := phist_of_run h hr
  exact pcount_spec hs hp hpl hm h63

/-- C37. `Has` of a powerset that has not been iterated to the end, asked of a `frozen.Set`, is inclusion in the source. -/
theorem C37_has_partial (cs : List (PCmd T)) (h : GoodPRun PSpec.init 0 0 cs) (n : Nat) (st : PState T) (hr : PState.init.run n cs = .ok st)
    (p k : Nat) (src : LSet T) (hp : st.pows[p]? = some (.memo k)) (hk : st.cells[k]? = some (.pow src))
    (hpl : (specAt (PSpec.init.run cs).srcs p).plain) (f : FSet T) (hf : f.Reachable) :
    ∃ b σ', Runs (fun n => PSet.has n st.base.store st.cells (.memo k) (.frozen f)) (b, σ') ∧
      (b = true ↔ ∀ w, f.has w = .ok true → (specAt (PSpec.init.run cs).srcs p).den w) := by
  obtain ⟨E, C, hs⟩ := phist_of_run h hr
  exact phas_spec hs hp hk hpl hf.valid

end

/-! ### Concrete histories -/

local instance lazyPowGoHash : GoHash := ⟨fun x y => x ^^^ y⟩

/-- {1, 4} (5) and {2} (6) frozen, {1, 4} less {4} (7), {1, 4} with {2} filtered (8); the powersets of {1, 4}, of 7 and of 8; two
iterators over the first, advanced by turns, the second made when the first has ended; one over the third, half way. -/
def powHist : List (PCmd Coll) := (lazyBase Coll Coll.mk).map .base ++
  [.base (.diff 5 4), .powerset 5, .powerset 7, .range 0, .range 0, .advance 0, .advance 1, .advance 0, .advance 0, .advance 0, .advance 0,
   .range 0, .advance 1, .advance 2, .base (.range 7), .base (.advance 0), .range 1, .advance 3, .advance 3, .powerset 0, .range 2, .advance 4]

theorem powHist_good : GoodPRun PSpec.init 0 0 powHist := by
  simp [powHist, lazyBase, PSpec.init, GoodPRun, PCmd.Good, LCmd.Good, PSpec.step, PCmd.iters, LCmd.iters, specStep, specAt, LSpec.frozen, LSpec.with]

theorem powHist_run : okAnd (PState.init.run 60 powHist) (fun st =>
    decide (st.iters.map (fun c => (c.src, c.got.length, c.ended)) = [(0, 4, true), (0, 2, false), (0, 1, false), (1, 2, false), (2, 1, false)]) &&
    (st.iters[0]?).any (fun c => decide (c.got.map (fun g => [1, 4].map (fun i => orFalse (g.has ⟨i⟩))) =
      [[false, false], [false, true], [true, true], [true, false]]))) = true := by decide +kernel

/-- The hypotheses of `C37_powerset`, `C37_sources` and `C37_count` are met by `powHist`: the first iterator has delivered all four
subsets of {1, 4}, the others are under way. -/
example : ∃ st, PState.init.run 60 powHist = .ok st ∧ GoodPRun PSpec.init 0 0 powHist ∧ (∃ c, st.iters[0]? = some c ∧ c.ended = true ∧ c.got.length = 4) ∧
    (specAt (PSpec.init.run powHist).srcs 0).plain := by
  obtain ⟨st, h1, h2⟩ := of_okAnd powHist_run
  simp only [Bool.and_eq_true] at h2
  have h2 := of_decide_eq_true h2.1
  refine ⟨st, h1, powHist_good, ?_, by simp [powHist, lazyBase, PSpec.init, PSpec.run, PSpec.step, specStep, specAt, LSpec.frozen, LSpec.with]⟩
  cases hi : st.iters with
  | nil => rw [hi] at h2; simp at h2
  | cons c cs =>
    rw [hi] at h2
    simp at h2
    exact ⟨c, by simp, h2.1.2.2, h2.1.2.1⟩

/-- `powHist` meets the hypothesis of `C37_ends`: its sources are plain and have 2, 1 and 0 elements. -/
example : SmallPRun PSpec.init powHist := by
  have two : HasCard (fun w : Coll => (False ∨ GoKey.eq (⟨4⟩ : Coll) w = true) ∨ GoKey.eq (⟨1⟩ : Coll) w = true) (2 : Nat) :=
    ⟨[⟨1⟩, ⟨4⟩], ⟨by simp [PairwiseDifferent, GoKey.eq], fun w => by simp [GoKey.eq]; tauto⟩, rfl⟩
  have one : HasCard (fun w : Coll => ((False ∨ GoKey.eq (⟨4⟩ : Coll) w = true) ∨ GoKey.eq (⟨1⟩ : Coll) w = true) ∧ ¬ (False ∨ GoKey.eq (⟨4⟩ : Coll) w = true)) (1 : Nat) :=
    ⟨[⟨1⟩], ⟨by simp [PairwiseDifferent], fun w => by
      simp [GoKey.eq]
      constructor
      · rintro ⟨h | h, h'⟩
        · exact (h' h).elim
        · exact h
      · rintro rfl; simp⟩, rfl⟩
  have none : HasCard (fun _ : Coll => False) (0 : Nat) := ⟨[], ⟨List.Pairwise.nil, fun w => by simp⟩, rfl⟩
  simp only [powHist, lazyBase, PSpec.init, SmallPRun, PSpec.step, specStep, specAt, LSpec.frozen, LSpec.with, LSpec.diff, List.map, List.cons_append,
    List.nil_append, PCmd.powerset.injEq, reduceCtorEq, false_imp_iff, implies_true, true_and, forall_eq', and_true]
  exact ⟨⟨.inl trivial, 2, by decide, two⟩, ⟨.inl trivial, 1, by decide, one⟩, ⟨trivial, 0, by decide, none⟩⟩

/-! ### Where the unrestricted property fails -/

/-- Elements whose hash mixes well. -/
structure Mix where
  n : Nat
deriving DecidableEq

instance : GoKey Mix where
  eq a b := decide (a = b)
  hash seed a := (seed + BitVec.ofNat 64 a.n) * 11400714819323198485#64

instance : LawfulGoKey Mix where
  refl a := by simp [GoKey.eq]
  symm h := by simpa [GoKey.eq, Eq.comm] using h
  trans h g := by simp only [GoKey.eq, decide_eq_true_eq] at *; exact h.trans g
  hash_congr seed _ _ h := by simp only [GoKey.eq, decide_eq_true_eq] at h; rw [h]

/-- The union of {1, 4} with itself. -/
def twiceHist : List (PCmd Mix) := (lazyBase Mix Mix.mk).map .base ++ [.base (.union 5 5), .powerset 7, .range 0] ++ List.replicate 6 (.advance 0)

theorem twiceHist_good : GoodPRun PSpec.init 0 0 twiceHist := by
  simp [twiceHist, lazyBase, PSpec.init, GoodPRun, PCmd.Good, LCmd.Good, PSpec.step, PCmd.iters, LCmd.iters, specStep, specAt, LSpec.frozen, LSpec.with, LSpec.union]

/-- Whether the sets number 2 and 4 that an iterator has delivered both have 1 and 4. -/
def PCursor.twice (c : PCursor Mix) : Bool :=
  match c.got with
  | [_, _, x, _, y] => [x, y].all fun g => [1, 4].all fun i => orFalse (g.has ⟨i⟩)
  | _ => false

theorem twiceHist_run : okAnd (PState.init.run 60 twiceHist) (fun st => decide (st.iters.map (·.src) = [0]) && st.iters.all (·.twice)) = true := by decide +kernel

theorem of_orFalse {r : Go Bool} (h : orFalse r = true) : r = .ok true := by
  cases r with
  | ok b => simpa [orFalse] using h
  | error e => simp [orFalse] at h

/-- C37 fails for a source that is iterated with repetitions: an iterator over the powerset of the union of {1, 4} with itself
delivers the subset {1, 4} twice, because the cache looks for a lazy set by a hash that depends on the order of its elements. -/
theorem C37_distinct_refuted : ¬ ∀ cs : List (PCmd Mix), GoodPRun PSpec.init 0 0 cs → ∀ n st, PState.init.run n cs = .ok st →
    ∀ (k : Nat) c, st.iters[k]? = some c → c.got.Pairwise (fun x y => ¬ x.Same y) := by
  intro h
  obtain ⟨st, h1, h2⟩ := of_okAnd twiceHist_run
  simp only [Bool.and_eq_true, decide_eq_true_eq] at h2
  obtain ⟨h2, h3⟩ := h2
  cases hi : st.iters with
  | nil => rw [hi] at h2; simp at h2
  | cons c cs =>
    rw [hi] at h2 h3
    simp only [List.map_cons, List.cons.injEq] at h2
    simp only [List.all_cons, Bool.and_eq_true] at h3
    have hk : st.iters[0]? = some c := by rw [hi]; rfl
    have hd := h _ twiceHist_good _ st h1 0 c hk
    obtain ⟨_, hs, _⟩ := C37_powerset _ twiceHist_good _ st h1 0 c hk
    have h3 := h3.1
    simp only [PCursor.twice] at h3
    split at h3
    next a b x z y hg =>
      rw [hg] at hd hs
      simp only [List.all_cons, List.all_nil, Bool.and_true, Bool.and_eq_true] at h3
      have key : ∀ g ∈ [a, b, x, z, y], g.holds ⟨1⟩ → g.holds ⟨4⟩ → ∀ e, g.holds e ↔ (e = ⟨1⟩ ∨ e = ⟨4⟩) := by
        intro g hg h1 h4 e
        constructor
        · intro he
          have := hs g hg e he
          rw [h2.1] at this
          simp [twiceHist, lazyBase, PSpec.init, PSpec.run, PSpec.step, specStep, specAt, LSpec.frozen, LSpec.with, LSpec.union, GoKey.eq, List.replicate] at this
          rcases this with h | h <;> simp [← h]
        · rintro (rfl | rfl)
          · exact h1
          · exact h4
      simp only [List.pairwise_cons] at hd
      refine hd.2.2.1 y (by simp) fun e => ?_
      rw [key x (by simp) (of_orFalse h3.1.1) (of_orFalse h3.1.2), key y (by simp) (of_orFalse h3.2.1) (of_orFalse h3.2.2)]
    next => cases h3

/-- The powerset of {1, 4} and an iterator over it. -/
def askHist : List (PCmd Coll) := (lazyBase Coll Coll.mk).map .base ++ [.powerset 5, .range 0]

/-- What `Has` of the powerset number 0 says of `v`, before and after an iteration over it. -/
def askTwice (v : PVal Coll) (test : Bool → Bool → Bool) : Bool :=
  okAnd (PState.init.run 60 askHist) fun st => okAnd (st.run 60 (List.replicate 5 (.advance 0))) fun st' => (st.pows[0]?).any fun s =>
    okAnd (PSet.has 60 st.base.store st.cells s v) fun r => okAnd (PSet.has 60 st'.base.store st'.cells s v) fun r' => test r.1 r'.1

theorem of_askTwice {v : PVal Coll} {test : Bool → Bool → Bool} (h : askTwice v test = true) :
    ∃ st st' s r r', PState.init.run 60 askHist = .ok st ∧ st.run 60 (List.replicate 5 (.advance 0)) = .ok st' ∧ st.pows[0]? = some s ∧
      PSet.has 60 st.base.store st.cells s v = .ok r ∧ PSet.has 60 st'.base.store st'.cells s v = .ok r' ∧ test r.1 r'.1 = true := by
  obtain ⟨st, h1, h2⟩ := of_okAnd h
  obtain ⟨st', h3, h4⟩ := of_okAnd h2
  obtain ⟨s, h5, h6⟩ := Option.any_exists h4
  obtain ⟨r, h7, h8⟩ := of_okAnd h6
  obtain ⟨r', h9, h10⟩ := of_okAnd h8
  exact ⟨st, st', s, r, r', h1, h3, h5, h7, h9, h10⟩

/-- The set {4} of `frozen`. -/
def justFour : FSet Coll :=
  match buildSet [⟨4⟩] with
  | .ok s => s
  | .error _ => FSet.zero

/-- C37 fails for `Has`: iterating over the powerset of {1, 4} to the end changes what `Has` says of the set {4}, from true to false. -/
theorem C37_has_refuted : ¬ ∀ (cs : List (PCmd Coll)) (j k : Nat), GoodPRun PSpec.init 0 0 (cs ++ List.replicate j (.advance k)) → ∀ n st st',
    PState.init.run n cs = .ok st → st.run n (List.replicate j (.advance k)) = .ok st' → ∀ (p : Nat) s v r r', st.pows[p]? = some s →
      PSet.has n st.base.store st.cells s v = .ok r → PSet.has n st'.base.store st'.cells s v = .ok r' → r.1 = r'.1 := by
  intro h
  obtain ⟨st, st', s, r, r', h1, h2, h3, h4, h5, h6⟩ := of_askTwice (v := .frozen justFour) (test := fun b b' => b && !b') (by decide +kernel)
  have := h askHist 5 0 (by
    simp [askHist, lazyBase, PSpec.init, GoodPRun, PCmd.Good, LCmd.Good, PSpec.step, PCmd.iters, LCmd.iters, specStep, specAt, LSpec.frozen, LSpec.with, List.replicate])
    60 st st' h1 h2 0 s _ r r' h3 h4 h5
  rw [this] at h6
  cases r'.1 <;> simp at h6

/-- C37 fails for `Has` asked of a lazy set: before an iteration, `Has` of the powerset of {1, 4} denies the empty lazy set, and any other. -/
theorem C37_has_lazy_refuted : ¬ ∀ cs : List (PCmd Coll), GoodPRun PSpec.init 0 0 cs → ∀ n st, PState.init.run n cs = .ok st →
    ∀ (p : Nat) s r, st.pows[p]? = some s → PSet.has n st.base.store st.cells s .empty = .ok r → r.1 = true := by
  intro h
  obtain ⟨st, st', s, r, r', h1, h2, h3, h4, h5, h6⟩ := of_askTwice (v := .empty) (test := fun b b' => !b && b') (by decide +kernel)
  have := h askHist (by
    simp [askHist, lazyBase, PSpec.init, GoodPRun, PCmd.Good, LCmd.Good, PSpec.step, specStep, specAt, LSpec.frozen, LSpec.with])
    60 st h1 0 s r h3 h4
  rw [this] at h6
  simp at h6

/-- `C37_has_partial` is met before the iteration: {4} is a subset of {1, 4}, and `Has` says so. -/
example : okAnd (PState.init.run 60 askHist) (fun st =>
    (match st.pows[0]?, st.cells[0]? with | some (PSet.memo 0), some (PCell.pow _) => true | _, _ => false) &&
    (st.pows[0]?).any fun s => okAnd (PSet.has 60 st.base.store st.cells s (.frozen justFour)) (·.1)) = true := by decide +kernel

/-- A set of 63 elements. -/
def bigHist : List (PCmd Coll) := .base .empty :: (List.range 63).map (fun i => .base (.with i ⟨i⟩)) ++ [.powerset 63]

theorem bigHist_run : okAnd (PState.init.run 200 bigHist) (fun st => (st.pows[0]?).any fun s =>
    okAnd (PSet.count 200 st.base.store st.cells s) fun r => decide (r.1 = -9223372036854775808)) = true := by decide +kernel

/-- C37 fails for `Count` of the powerset of a set of 63 elements: the answer is negative. -/
theorem C37_count_refuted : ¬ ∀ cs : List (PCmd Coll), GoodPRun PSpec.init 0 0 cs → ∀ n st, PState.init.run n cs = .ok st →
    ∀ (p : Nat) s r, st.pows[p]? = some s → PSet.count n st.base.store st.cells s = .ok r → 0 ≤ r.1 := by
  intro h
  obtain ⟨st, h1, h2⟩ := of_okAnd bigHist_run
  obtain ⟨s, h3, h4⟩ := Option.any_exists h2
  obtain ⟨r, h5, h6⟩ := of_okAnd h4
  have := h bigHist (by
    simp [bigHist, List.range, List.range.loop, PSpec.init, GoodPRun, PCmd.Good, LCmd.Good, PSpec.step, specStep]) 200 st h1 0 s r h3 h5
  have h6 := of_decide_eq_true h6
  omega

end Frozen
