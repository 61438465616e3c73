import Verif.Proof.LazyFuel
import Verif.Props.Witness

/-! Lazy sets: more answers to a client. -/

set_option linter.unusedSectionVars false

namespace Frozen

variable {T : Type} [GoKey T] [LawfulGoKey T] {E : LEnv T} {σ : LStore T}

theorem countUpTo_spec (hσ : StoreOk E σ) {s : LSet T} {a : LSpec T} (hs : SetOk E σ s a) {limit : Int} (h0 : 0 ≤ limit) :
    Answers E σ (fun n => LSet.countUpTo n σ s limit) (fun k => a.plain → ∀ l : List T, Lists l a.den → k = min limit l.length) :=
  ((count_all s.rk s.sz E σ s limit h0 hσ hs.iok hs.rk (Nat.le_refl _) (Nat.le_refl _)).2).imp
    fun _ hk hp l hl => hk (hs.plain hp) l (hl.congr fun w => (hs.den w).symm)

theorem fastCountUpTo_spec (hσ : StoreOk E σ) {s : LSet T} {a : LSpec T} (hs : SetOk E σ s a) {limit : Int} (h0 : 0 ≤ limit) :
    Answers E σ (fun n => LSet.fastCountUpTo n σ s limit) (fun o => a.plain → ∀ k, o = some k → ∀ l : List T, Lists l a.den → k = min limit l.length) :=
  ((count_all s.rk s.sz E σ s limit h0 hσ hs.iok hs.rk (Nat.le_refl _) (Nat.le_refl _)).1).imp
    fun _ ho hp k hk l hl => ho (hs.plain hp) k hk l (hl.congr fun w => (hs.den w).symm)

theorem fastCount_spec (hσ : StoreOk E σ) {s : LSet T} {a : LSpec T} (hs : SetOk E σ s a) :
    ∃ o, LSet.fastCount σ s = .ok o ∧ ∀ k, o = some k → ∀ l : List T, Lists l a.den → k = l.length := by
  obtain ⟨c, c1, hc⟩ := hs.deref hσ
  cases c with
  | empty =>
    refine ⟨some 0, by simp only [LSet.fastCount, c1, bind, Except.bind]; rfl, fun k hk l hl => ?_⟩
    cases hk
    cases l with
    | nil => rfl
    | cons v l => exact ((hc.den v).2 ((hl.covers v).2 ⟨v, by simp, LawfulGoKey.refl v⟩)).elim
  | frozen f =>
    refine ⟨some f.count, by simp only [LSet.fastCount, c1, bind, Except.bind]; rfl, fun k hk l hl => ?_⟩
    cases hk
    have h1 := (FSet.lists (s := f) hc.iok).length_eq (hl.congr fun w => (hc.den w).symm)
    have h2 := Tree.Valid.count_eq (t := f.tree) hc.iok
    rw [← h1]; exact h2
  | _ => exact ⟨none, by simp only [LSet.fastCount, c1, bind, Except.bind]; rfl, fun k hk => by cases hk⟩

theorem powHas_spec (hσ : StoreOk E σ) {s : LSet T} {a : LSpec T} (hs : SetOk E σ s a) {f : FSet T} (hf : f.Valid) (ho : a.once) :
    Answers E σ (fun n => powHas n σ s f) (fun b => b = true ↔ ∀ w, f.Mem w → a.den w) :=
  (frozenIsSubsetOf_spec hσ hf hs).imp fun _ h => h ho

theorem shiftOne_toInt {k : Nat} (h : k < 63) : ((1#64 <<< k).toInt : Int) = 2 ^ k := by
  have key : ∀ k : Fin 63, ((1#64 <<< k.val).toInt : Int) = 2 ^ k.val := by decide +kernel
  exact key ⟨k, h⟩

theorem powCount_spec (hσ : StoreOk E σ) {s : LSet T} {a : LSpec T} (hs : SetOk E σ s a) (hp : a.plain) {l : List T} (hl : Lists l a.den) (h : l.length < 63) :
    Answers E σ (fun n => powCount n σ s) (fun k => k = 2 ^ l.length) := by
  refine Answers.bind (g := fun c σ _ => if c < 64 then .ok ((1#64 <<< c.toNat).toInt, σ) else .error (.msg "Count(): too many elements")) (count_spec hσ hs) ?_
  intro k σ' h1 h2 h3
  have hk := h3 hp l hl (by simp [maxInt]; omega)
  subst hk
  have e : ((l.length : Int) < 64) := by omega
  simp only [e, if_true, Int.toNat_natCast]
  exact Answers.pure h1 (shiftOne_toInt h)

theorem Option.any_exists {α : Type} {o : Option α} {p : α → Bool} (h : o.any p = true) : ∃ a, o = some a ∧ p a = true := by
  cases o with
  | none => cases h
  | some a => exact ⟨a, rfl, h⟩

omit [LawfulGoKey T] in
/-- Evaluating a history and a question about one set with some fuel gives the answer of the program. -/
theorem ask_set {α : Type} (F : LStore T → LSet T → Nat → Go α) (hF : ∀ σ s, Mono (F σ s)) {cs : List (LCmd T)} {n i : Nat} {test : α → Bool}
    (h : okAnd (LState.init.run n cs) (fun st => (st.sets[i]?).any (fun s => okAnd (F st.store s n) test)) = true) :
    ∃ st s a, Runs (fun n => LState.init.run n cs) st ∧ st.sets[i]? = some s ∧ Runs (F st.store s) a ∧ test a = true := by
  obtain ⟨st, h1, h2⟩ := of_okAnd h
  obtain ⟨s, h3, h4⟩ := Option.any_exists h2
  obtain ⟨a, h5, h6⟩ := of_okAnd h4
  exact ⟨st, s, a, (mono_run cs _).runs h1, h3, (hF _ _).runs h5, h6⟩

omit [LawfulGoKey T] in
/-- The same for a question about two sets. -/
theorem ask_set2 {α : Type} (F : LStore T → LSet T → LSet T → Nat → Go α) (hF : ∀ σ s t, Mono (F σ s t)) {cs : List (LCmd T)} {n i j : Nat} {test : α → Bool}
    (h : okAnd (LState.init.run n cs) (fun st => (st.sets[i]?).any (fun s => (st.sets[j]?).any (fun t => okAnd (F st.store s t n) test))) = true) :
    ∃ st s t a, Runs (fun n => LState.init.run n cs) st ∧ st.sets[i]? = some s ∧ st.sets[j]? = some t ∧ Runs (F st.store s t) a ∧ test a = true := by
  obtain ⟨st, h1, h2⟩ := of_okAnd h
  obtain ⟨s, h3, h4⟩ := Option.any_exists h2
  obtain ⟨t, h5, h6⟩ := Option.any_exists h4
  obtain ⟨a, h7, h8⟩ := of_okAnd h6
  exact ⟨st, s, t, a, (mono_run cs _).runs h1, h3, h5, (hF _ _ _).runs h7, h8⟩

end Frozen
