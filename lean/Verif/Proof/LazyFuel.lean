import Verif.Proof.LazyHist
import Verif.Proof.LazyPow

/-! Lazy sets: more fuel never changes an answer. -/

set_option linter.unusedSectionVars false

namespace Frozen

/-- If the first returns, so does the second, with the same result. -/
def Le {α : Type} (x y : Go α) : Prop := ∀ a, x = .ok a → y = .ok a

theorem Le.refl {α : Type} (x : Go α) : Le x x := fun _ h => h

theorem Le.noFuel {α : Type} (y : Go α) : Le noFuel y := fun _ h => by cases h

theorem Le.bind {α β : Type} {x y : Go α} {f g : α → Go β} (h : Le x y) (k : ∀ a, Le (f a) (g a)) : Le (x >>= f) (y >>= g) := by
  intro b hb
  cases hx : x with
  | error e => rw [hx] at hb; cases hb
  | ok a =>
    rw [hx] at hb
    rw [h a hx]
    exact k a b hb

theorem Le.ite {α : Type} {c : Prop} [Decidable c] {x y x' y' : Go α} (h : Le x x') (k : Le y y') : Le (if c then x else y) (if c then x' else y') := by
  split <;> assumption

/-- Fuel only decides whether there is an answer. -/
def Mono {α : Type} (f : Nat → Go α) : Prop := ∀ n m, n ≤ m → Le (f n) (f m)

theorem Mono.const {α : Type} (x : Go α) : Mono (fun _ => x) := fun _ _ _ => Le.refl x

theorem Mono.bind {α β : Type} {f : Nat → Go α} {g : α → Nat → Go β} (hf : Mono f) (hg : ∀ a, Mono (g a)) : Mono (fun n => f n >>= fun x => g x n) :=
  fun n m h => Le.bind (hf n m h) (fun a => hg a n m h)

theorem Mono.ite {α : Type} {c : Prop} [Decidable c] {f g : Nat → Go α} (hf : Mono f) (hg : Mono g) : Mono (fun n => if c then f n else g n) :=
  fun n m h => Le.ite (hf n m h) (hg n m h)

theorem Mono.runs {α : Type} {f : Nat → Go α} (hf : Mono f) {n : Nat} {a : α} (h : f n = .ok a) : Runs f a := ⟨n, fun m hm => hf n m hm a h⟩

theorem Mono.unique {α : Type} {f : Nat → Go α} (hf : Mono f) {n : Nat} {a b : α} (h : f n = .ok a) (hb : Runs f b) : a = b := (hf.runs h).unique hb

/-- Recursion on fuel. -/
theorem mono_of_step {α : Type} {f : Nat → Go α} (h0 : f 0 = noFuel) (h : ∀ n m, n ≤ m → Le (f (n + 1)) (f (m + 1))) : Mono f := by
  intro n m hnm
  cases n with
  | zero => rw [h0]; exact Le.noFuel _
  | succ n =>
    obtain ⟨m, rfl⟩ : ∃ k, m = k + 1 := ⟨m - 1, by omega⟩
    exact h n m (by omega)

variable {T : Type}

theorem mono_range (σ : LStore T) : ∀ n m, n ≤ m → ∀ s : LSet T, Le (LSet.range σ n s) (LSet.range σ m s)
  | 0, _, _, _ => Le.noFuel _
  | n + 1, 0, h, _ => by omega
  | n + 1, m + 1, h, s => by
    have ih := mono_range σ n m (by omega)
    cases s with
    | memo k =>
      simp only [LSet.range]
      refine Le.bind (Le.refl _) fun c => ?_
      cases c <;> first | exact Le.refl _ | exact Le.bind (ih _) fun _ => Le.refl _
    | _ => simp only [LSet.range]; first | exact Le.refl _ | exact Le.bind (ih _) fun _ => Le.refl _

theorem mono_fastIsEmpty (σ : LStore T) : ∀ n m, n ≤ m → ∀ s : LSet T, Le (LSet.fastIsEmpty σ n s) (LSet.fastIsEmpty σ m s)
  | 0, _, _, _ => Le.noFuel _
  | n + 1, 0, h, _ => by omega
  | n + 1, m + 1, h, s => by
    have ih := mono_fastIsEmpty σ n m (by omega)
    cases s with
    | memo k => simp only [LSet.fastIsEmpty]; exact Le.bind (Le.refl _) fun c => ih c
    | «where» s p => simp only [LSet.fastIsEmpty]; exact Le.bind (ih _) fun c => Le.refl _
    | _ => simp only [LSet.fastIsEmpty]; exact Le.refl _

variable [GoKey T]

theorem mono_fastHas (σ : LStore T) : ∀ n m, n ≤ m → ∀ (s : LSet T) (el : T), Le (LSet.fastHas σ n s el) (LSet.fastHas σ m s el)
  | 0, _, _, _, _ => Le.noFuel _
  | n + 1, 0, h, _, _ => by omega
  | n + 1, m + 1, h, s, el => by
    have ih := mono_fastHas σ n m (by omega)
    cases s with
    | memo k => simp only [LSet.fastHas]; exact Le.bind (Le.refl _) fun c => ih c el
    | union a b =>
      simp only [LSet.fastHas]
      refine Le.bind (ih _ _) fun c => ?_
      cases c <;> first | exact Le.refl _ | exact ih _ _
    | diff a b =>
      simp only [LSet.fastHas]
      refine Le.bind (ih _ _) fun c => ?_
      cases c <;> first | exact Le.refl _ | exact ih _ _
    | inter a b =>
      simp only [LSet.fastHas]
      refine Le.bind (ih _ _) fun c => Le.ite (Le.refl _) (Le.bind (ih _ _) fun c => Le.refl _)
    | _ => simp only [LSet.fastHas]; exact Le.refl _

theorem mono_has_find_next : ∀ n m, n ≤ m → (∀ (σ : LStore T) (s : LSet T) (el : T), Le (LSet.has n σ s el) (LSet.has m σ s el)) ∧
    (∀ (σ : LStore T) (i : LIter T) (el : T), Le (LIter.find n σ i el) (LIter.find m σ i el)) ∧
    (∀ (σ : LStore T) (i : LIter T), Le (LIter.next n σ i) (LIter.next m σ i)) := by
  intro n
  induction n with
  | zero => exact fun m _ => ⟨fun _ _ _ => by simp only [LSet.has]; exact Le.noFuel _, fun _ _ _ => by simp only [LIter.find]; exact Le.noFuel _,
      fun _ _ => by simp only [LIter.next]; exact Le.noFuel _⟩
  | succ n ih =>
    intro m h
    obtain ⟨m, rfl⟩ : ∃ k, m = k + 1 := ⟨m - 1, by omega⟩
    have h : n ≤ m := by omega
    obtain ⟨ih1, ih2, ih3⟩ := ih m h
    refine ⟨fun σ s el => ?_, fun σ i el => ?_, fun σ i => ?_⟩
    · cases s with
      | empty => simp only [LSet.has]; exact Le.refl _
      | memo k => simp only [LSet.has]; exact Le.bind (Le.refl _) fun c => ih1 _ _ _
      | «where» s p => simp only [LSet.has]; exact Le.ite (ih1 _ _ _) (Le.refl _)
      | union a b => simp only [LSet.has]; exact Le.bind (ih1 _ _ _) fun c => Le.ite (Le.refl _) (ih1 _ _ _)
      | inter a b => simp only [LSet.has]; exact Le.bind (ih1 _ _ _) fun c => Le.ite (ih1 _ _ _) (Le.refl _)
      | diff a b => simp only [LSet.has]; exact Le.bind (ih1 _ _ _) fun c => Le.ite (Le.refl _) (ih1 _ _ _)
      | frozen f =>
        simp only [LSet.has]
        refine Le.bind (mono_fastHas σ n m h _ _) fun c => ?_
        cases c with
        | some b => exact Le.refl _
        | none => exact Le.bind (mono_range σ n m h _) fun i => ih2 _ _ _
      | map s p =>
        simp only [LSet.has]
        refine Le.bind (mono_fastHas σ n m h _ _) fun c => ?_
        cases c with
        | some b => exact Le.refl _
        | none => exact Le.bind (mono_range σ n m h _) fun i => ih2 _ _ _
    · simp only [LIter.find]
      exact Le.bind (ih3 _ _) fun r => Le.ite (Le.bind (Le.refl _) fun v => Le.ite (Le.refl _) (ih2 _ _ _)) (Le.refl _)
    · cases i with
      | empty => simp only [LIter.next]; exact Le.refl _
      | frozen it => simp only [LIter.next]; exact Le.refl _
      | «where» i p =>
        simp only [LIter.next]
        exact Le.bind (ih3 _ _) fun r => Le.ite (Le.bind (Le.refl _) fun v => Le.ite (Le.refl _) (ih3 _ _)) (Le.refl _)
      | map i f => simp only [LIter.next]; exact Le.bind (ih3 _ _) fun r => Le.refl _
      | union i b =>
        simp only [LIter.next]
        refine Le.bind (ih3 _ _) fun r => Le.ite (Le.refl _) ?_
        cases b with
        | none => exact Le.refl _
        | some b => exact Le.bind (mono_range _ n m h _) fun i => ih3 _ _
      | inter i b =>
        simp only [LIter.next]
        exact Le.bind (ih3 _ _) fun r => Le.ite (Le.bind (Le.refl _) fun v => Le.bind (ih1 _ _ _) fun x => Le.ite (Le.refl _) (ih3 _ _)) (Le.refl _)
      | diff i b =>
        simp only [LIter.next]
        exact Le.bind (ih3 _ _) fun r => Le.ite (Le.bind (Le.refl _) fun v => Le.bind (ih1 _ _ _) fun x => Le.ite (ih3 _ _) (Le.refl _)) (Le.refl _)
      | caching i k seen =>
        simp only [LIter.next]
        exact Le.bind (ih3 _ _) fun r => Le.ite (Le.bind (Le.refl _) fun v => Le.bind (Le.refl _) fun x => Le.ite (ih3 _ _) (Le.refl _)) (Le.refl _)

theorem mono_has (σ : LStore T) (s : LSet T) (el : T) : Mono (fun n => LSet.has n σ s el) := fun n m h => (mono_has_find_next n m h).1 σ s el
theorem mono_next (σ : LStore T) (i : LIter T) : Mono (fun n => LIter.next n σ i) := fun n m h => (mono_has_find_next n m h).2.2 σ i

theorem mono_values : ∀ n m, n ≤ m → ∀ (σ : LStore T) (i : LIter T), Le (LIter.values n σ i) (LIter.values m σ i)
  | 0, _, _, _, _ => by simp only [LIter.values]; exact Le.noFuel _
  | n + 1, 0, h, _, _ => by omega
  | n + 1, m + 1, h, σ, i => by
    simp only [LIter.values]
    exact Le.bind (mono_next _ _ n m (by omega)) fun r => Le.ite (Le.bind (Le.refl _) fun v => Le.bind (mono_values n m (by omega) _ _) fun x => Le.refl _) (Le.refl _)

theorem mono_drain : ∀ n m, n ≤ m → ∀ (σ : LStore T) (i : LIter T), Le (LIter.drain n σ i) (LIter.drain m σ i)
  | 0, _, _, _, _ => by simp only [LIter.drain]; exact Le.noFuel _
  | n + 1, 0, h, _, _ => by omega
  | n + 1, m + 1, h, σ, i => by
    simp only [LIter.drain]
    exact Le.bind (mono_next _ _ n m (by omega)) fun r => Le.ite (mono_drain n m (by omega) _ _) (Le.refl _)

theorem mono_hashLoop : ∀ n m, n ≤ m → ∀ (σ : LStore T) (i : LIter T) (x : BitVec 64), Le (LIter.hashLoop n σ i x) (LIter.hashLoop m σ i x)
  | 0, _, _, _, _, _ => by simp only [LIter.hashLoop]; exact Le.noFuel _
  | n + 1, 0, h, _, _, _ => by omega
  | n + 1, m + 1, h, σ, i, x => by
    simp only [LIter.hashLoop]
    exact Le.bind (mono_next _ _ n m (by omega)) fun r => Le.ite (Le.bind (Le.refl _) fun v => mono_hashLoop n m (by omega) _ _ _) (Le.refl _)

theorem mono_countLoop : ∀ n m, n ≤ m → ∀ (σ : LStore T) (i : LIter T) (k l : Int), Le (LIter.countLoop n σ i k l) (LIter.countLoop m σ i k l)
  | 0, _, _, _, _, _, _ => by simp only [LIter.countLoop]; exact Le.noFuel _
  | n + 1, 0, h, _, _, _, _ => by omega
  | n + 1, m + 1, h, σ, i, k, l => by
    simp only [LIter.countLoop]
    exact Le.ite (Le.bind (mono_next _ _ n m (by omega)) fun r => Le.ite (mono_countLoop n m (by omega) _ _ _ _) (Le.refl _)) (Le.refl _)

theorem mono_equalLoop (f : FSet T) : ∀ n m, n ≤ m → ∀ (σ : LStore T) (i : LIter T) (k : Int), Le (LIter.equalLoop f n σ i k) (LIter.equalLoop f m σ i k)
  | 0, _, _, _, _, _ => by simp only [LIter.equalLoop]; exact Le.noFuel _
  | n + 1, 0, h, _, _, _ => by omega
  | n + 1, m + 1, h, σ, i, k => by
    simp only [LIter.equalLoop]
    exact Le.ite (Le.bind (mono_next _ _ n m (by omega)) fun r => Le.ite (Le.bind (Le.refl _) fun v => Le.bind (Le.refl _) fun b =>
      Le.ite (mono_equalLoop f n m (by omega) _ _ _) (Le.refl _)) (Le.refl _)) (Le.ite (Le.bind (mono_next _ _ n m (by omega)) fun r => Le.refl _) (Le.refl _))

theorem mono_subsetLoop (f : FSet T) : ∀ n m, n ≤ m → ∀ (σ : LStore T) (i : LIter T) (k : Int), Le (LIter.subsetLoop f n σ i k) (LIter.subsetLoop f m σ i k)
  | 0, _, _, _, _, _ => by simp only [LIter.subsetLoop]; exact Le.noFuel _
  | n + 1, 0, h, _, _, _ => by omega
  | n + 1, m + 1, h, σ, i, k => by
    simp only [LIter.subsetLoop]
    exact Le.ite (Le.bind (mono_next _ _ n m (by omega)) fun r => Le.ite (Le.bind (Le.refl _) fun v => Le.bind (Le.refl _) fun b =>
      Le.ite (mono_subsetLoop f n m (by omega) _ _ _) (mono_subsetLoop f n m (by omega) _ _ _)) (Le.refl _)) (Le.refl _)

theorem mono_setValues (σ : LStore T) (s : LSet T) : Mono (fun n => LSet.values n σ s) :=
  fun n m h => Le.bind (mono_range σ n m h s) fun i => mono_values n m h _ _

theorem mono_setHash [GoHash] (σ : LStore T) (s : LSet T) (seed : BitVec 64) : Mono (fun n => LSet.hash n σ s seed) := by
  intro n m h
  refine Le.bind (Le.refl _) fun c => ?_
  cases c <;> first | exact Le.refl _ | exact Le.bind (mono_range σ n m h _) fun i => mono_hashLoop n m h _ _ _

theorem mono_freeze (σ : LStore T) (s : LSet T) : Mono (fun n => LSet.freeze n σ s) := by
  intro n m h
  refine Le.bind (Le.refl _) fun c => ?_
  cases c <;> simp only [memoize] <;> first | exact Le.refl _ | exact Le.bind (mono_range _ n m h _) fun i => Le.bind (mono_drain n m h _ _) fun σ => Le.refl _

theorem mono_isEmpty (σ : LStore T) (s : LSet T) : Mono (fun n => LSet.isEmpty n σ s) := by
  intro n m h
  refine Le.bind (Le.refl _) fun c => ?_
  have key : ∀ c : LSet T, Le (do
      match ← LSet.fastIsEmpty σ n c with
      | some b => pure (b, σ)
      | none => do
        let i ← LSet.range σ n c
        let (_, ok, σ) ← LIter.next n σ i
        pure (!ok, σ)) (do
      match ← LSet.fastIsEmpty σ m c with
      | some b => pure (b, σ)
      | none => do
        let i ← LSet.range σ m c
        let (_, ok, σ) ← LIter.next m σ i
        pure (!ok, σ)) := by
    intro c
    refine Le.bind (mono_fastIsEmpty σ n m h _) fun o => ?_
    cases o with
    | some b => exact Le.refl _
    | none => exact Le.bind (mono_range _ n m h _) fun i => Le.bind (mono_next _ _ n m h) fun r => Le.refl _
  cases c <;> first | exact Le.refl _ | exact key _

theorem mono_countUpTo : ∀ n m, n ≤ m → (∀ (σ : LStore T) (s : LSet T) (l : Int), Le (LSet.fastCountUpTo n σ s l) (LSet.fastCountUpTo m σ s l)) ∧
    (∀ (σ : LStore T) (s : LSet T) (l : Int), Le (LSet.countUpTo n σ s l) (LSet.countUpTo m σ s l)) := by
  intro n
  induction n with
  | zero => exact fun m _ => ⟨fun _ _ _ => by simp only [LSet.fastCountUpTo]; exact Le.noFuel _, fun _ _ _ => by simp only [LSet.countUpTo]; exact Le.noFuel _⟩
  | succ n ih =>
    intro m h
    obtain ⟨m, rfl⟩ : ∃ k, m = k + 1 := ⟨m - 1, by omega⟩
    have h : n ≤ m := by omega
    obtain ⟨ih1, ih2⟩ := ih m h
    refine ⟨fun σ s l => ?_, fun σ s l => ?_⟩
    · cases s with
      | memo k => simp only [LSet.fastCountUpTo]; exact Le.bind (Le.refl _) fun c => ih1 _ _ _
      | union a b =>
        simp only [LSet.fastCountUpTo]
        exact Le.bind (mono_fastIsEmpty σ n m h _) fun x => Le.ite (Le.bind (ih2 _ _ _) fun r => Le.refl _)
          (Le.bind (mono_fastIsEmpty σ n m h _) fun y => Le.ite (Le.bind (ih2 _ _ _) fun r => Le.refl _)
            (Le.bind (ih1 _ _ _) fun r => Le.ite (Le.refl _) (Le.bind (ih1 _ _ _) fun r => Le.refl _)))
      | _ => simp only [LSet.fastCountUpTo]; exact Le.refl _
    · simp only [LSet.countUpTo]
      refine Le.bind (Le.refl _) fun c => ?_
      have key : ∀ c : LSet T, Le (do
          let (r, σ) ← LSet.fastCountUpTo n σ c l
          match r with
          | some k => pure (k, σ)
          | none => do
            let i ← LSet.range σ n c
            LIter.countLoop n σ i 0 l) (do
          let (r, σ) ← LSet.fastCountUpTo m σ c l
          match r with
          | some k => pure (k, σ)
          | none => do
            let i ← LSet.range σ m c
            LIter.countLoop m σ i 0 l) := by
        intro c
        refine Le.bind (ih1 _ _ _) fun r => ?_
        rcases r with ⟨_ | k, σ⟩
        · exact Le.bind (mono_range _ n m h _) fun i => mono_countLoop n m h _ _ _ _
        · exact Le.refl _
      cases c <;> first | exact Le.refl _ | exact key _

theorem mono_count (σ : LStore T) (s : LSet T) : Mono (fun n => LSet.count n σ s) := by
  intro n m h
  refine Le.bind (Le.refl _) fun c => Le.bind (Le.refl _) fun o => ?_
  cases o with
  | some k => exact Le.refl _
  | none => exact (mono_countUpTo n m h).2 _ _ _

theorem mono_equalSet : ∀ n m, n ≤ m → (∀ (σ : LStore T) (s t : LSet T), Le (LSet.equalSet n σ s t) (LSet.equalSet m σ s t)) ∧
    (∀ (σ : LStore T) (s t : LSet T), Le (LSet.equal n σ s t) (LSet.equal m σ s t)) := by
  intro n
  induction n with
  | zero => exact fun m _ => ⟨fun _ _ _ => by simp only [LSet.equalSet]; exact Le.noFuel _, fun _ _ _ => by simp only [LSet.equal]; exact Le.noFuel _⟩
  | succ n ih =>
    intro m h
    obtain ⟨m, rfl⟩ : ∃ k, m = k + 1 := ⟨m - 1, by omega⟩
    have h : n ≤ m := by omega
    obtain ⟨ih1, ih2⟩ := ih m h
    refine ⟨fun σ s t => ?_, fun σ s t => ?_⟩
    · simp only [LSet.equalSet]
      refine Le.bind (Le.refl _) fun c => ?_
      have key : ∀ c : LSet T, Le (do
          let (x, σ) ← LSet.freeze n σ c
          let (y, σ) ← LSet.freeze n σ t
          LSet.equal n σ x y) (do
          let (x, σ) ← LSet.freeze m σ c
          let (y, σ) ← LSet.freeze m σ t
          LSet.equal m σ x y) := fun c =>
        Le.bind (mono_freeze _ _ n m h) fun x => Le.bind (mono_freeze _ _ n m h) fun y => ih2 _ _ _
      cases c with
      | empty => exact mono_isEmpty _ _ n m h
      | frozen f =>
        cases t <;> first | exact Le.refl _ | exact Le.bind (mono_range _ n m h _) fun i => mono_equalLoop _ n m h _ _ _
      | _ => exact key _
    · simp only [LSet.equal]
      refine Le.bind (Le.refl _) fun c => ?_
      cases c <;> exact ih1 _ _ _

theorem mono_frozenIsSubsetOf (σ : LStore T) (f : FSet T) (t : LSet T) : Mono (fun n => frozenIsSubsetOf n σ f t) := by
  intro n m h
  cases t with
  | memo k =>
    simp only [frozenIsSubsetOf]
    refine Le.bind (Le.refl _) fun c => ?_
    cases c <;> exact Le.bind (mono_range _ n m h _) fun i => mono_subsetLoop f n m h _ _ _
  | _ =>
    simp only [frozenIsSubsetOf]
    exact Le.bind (mono_range _ n m h _) fun i => mono_subsetLoop f n m h _ _ _

theorem mono_isSubsetOf (σ : LStore T) (s t : LSet T) : Mono (fun n => LSet.isSubsetOf n σ s t) := by
  intro n m h
  refine Le.bind (Le.refl _) fun c => ?_
  have key : ∀ c : LSet T, Le (do
      let (x, σ) ← LSet.freeze n σ c
      let (y, σ) ← LSet.freeze n σ t
      match x with
      | .frozen f => frozenIsSubsetOf n σ f y
      | _ => .error (.msg "not frozen")) (do
      let (x, σ) ← LSet.freeze m σ c
      let (y, σ) ← LSet.freeze m σ t
      match x with
      | .frozen f => frozenIsSubsetOf m σ f y
      | _ => .error (.msg "not frozen")) := by
    intro c
    refine Le.bind (mono_freeze _ _ n m h) fun x => Le.bind (mono_freeze _ _ n m h) fun y => ?_
    rcases x with ⟨x, σ⟩
    cases x <;> first | exact Le.refl _ | exact mono_frozenIsSubsetOf _ _ _ n m h
  cases c with
  | empty => exact Le.refl _
  | frozen f => exact mono_frozenIsSubsetOf _ _ _ n m h
  | _ => exact key _

theorem mono_lazyInter (σ : LStore T) (a b : LSet T) : Mono (fun n => lazyInter n σ a b) := fun n m h =>
  Le.bind (mono_fastIsEmpty σ n m h _) fun x => Le.ite (Le.refl _) (Le.bind (mono_fastIsEmpty σ n m h _) fun y => Le.refl _)

theorem mono_lazyDiff (σ : LStore T) (a b : LSet T) : Mono (fun n => lazyDiff n σ a b) := fun n m h =>
  Le.bind (mono_fastIsEmpty σ n m h _) fun x => Le.ite (Le.refl _) (Le.bind (mono_fastIsEmpty σ n m h _) fun y => Le.refl _)

theorem mono_interM (σ : LStore T) (a b : LSet T) : Mono (fun n => LSet.interM n σ a b) := fun n m h =>
  Le.bind (Le.refl _) fun c => by cases c <;> first | exact Le.refl _ | exact mono_lazyInter _ _ _ n m h

theorem mono_diffM (σ : LStore T) (a b : LSet T) : Mono (fun n => LSet.diffM n σ a b) := fun n m h =>
  Le.bind (Le.refl _) fun c => by cases c <;> first | exact Le.refl _ | exact mono_lazyDiff _ _ _ n m h

theorem mono_symmM (σ : LStore T) (a b : LSet T) : Mono (fun n => LSet.symmM n σ a b) := fun n m h =>
  Le.bind (Le.refl _) fun c => by
    cases c <;> first | exact Le.refl _ | exact Le.bind (mono_diffM _ _ _ n m h) fun x => Le.bind (mono_diffM _ _ _ n m h) fun y => Le.refl _

theorem mono_withoutM (σ : LStore T) (a : LSet T) (v : T) : Mono (fun n => LSet.withoutM n σ a v) := fun n m h =>
  Le.bind (Le.refl _) fun c => by
    cases c <;> first | exact Le.refl _ | exact Le.bind (Le.refl _) fun r => mono_lazyDiff _ _ _ n m h

theorem mono_step (st : LState T) (c : LCmd T) : Mono (fun n => st.step n c) := by
  intro n m h
  cases c with
  | inter i j => exact Le.bind (Le.refl _) fun s => Le.bind (Le.refl _) fun t => Le.bind (mono_interM _ _ _ n m h) fun r => Le.refl _
  | diff i j => exact Le.bind (Le.refl _) fun s => Le.bind (Le.refl _) fun t => Le.bind (mono_diffM _ _ _ n m h) fun r => Le.refl _
  | symm i j => exact Le.bind (Le.refl _) fun s => Le.bind (Le.refl _) fun t => Le.bind (mono_symmM _ _ _ n m h) fun r => Le.refl _
  | without i v => exact Le.bind (Le.refl _) fun s => Le.bind (mono_withoutM _ _ _ n m h) fun r => Le.refl _
  | freeze i => exact Le.bind (Le.refl _) fun s => Le.bind (mono_freeze _ _ n m h) fun r => Le.refl _
  | range i => exact Le.bind (Le.refl _) fun s => Le.bind (mono_range _ n m h _) fun r => Le.refl _
  | advance k =>
    simp only [LState.step]
    cases st.iters[k]? with
    | none => exact Le.refl _
    | some c =>
      refine Le.bind ?_ fun r => Le.refl _
      simp only [LCursor.advance]
      exact Le.ite (Le.refl _) (Le.bind (mono_next _ _ n m h) fun r => Le.refl _)
  | has i v => exact Le.bind (Le.refl _) fun s => Le.bind (mono_has _ _ _ n m h) fun r => Le.refl _
  | isEmpty i => exact Le.bind (Le.refl _) fun s => Le.bind (mono_isEmpty _ _ n m h) fun r => Le.refl _
  | count i => exact Le.bind (Le.refl _) fun s => Le.bind (mono_count _ _ n m h) fun r => Le.refl _
  | equalSet i j => exact Le.bind (Le.refl _) fun s => Le.bind (Le.refl _) fun t => Le.bind ((mono_equalSet n m h).1 _ _ _) fun r => Le.refl _
  | isSubsetOf i j => exact Le.bind (Le.refl _) fun s => Le.bind (Le.refl _) fun t => Le.bind (mono_isSubsetOf _ _ _ n m h) fun r => Le.refl _
  | _ => exact Le.refl _

theorem mono_run : ∀ (cs : List (LCmd T)) (st : LState T), Mono (fun n => st.run n cs)
  | [], _ => Mono.const _
  | c :: cs, st => fun n m h => Le.bind (mono_step st c n m h) fun st => mono_run cs st n m h

theorem mono_powNext (σ : LStore T) (p : LPow T) : Mono (fun n => LPow.next n σ p) := fun n m h =>
  Le.ite (Le.ite (Le.refl _) (Le.bind (mono_next _ _ n m h) fun r => Le.refl _)) (Le.refl _)

theorem mono_powValues : ∀ n m, n ≤ m → ∀ (σ : LStore T) (p : LPow T), Le (LPow.values n σ p) (LPow.values m σ p)
  | 0, _, _, _, _ => by simp only [LPow.values]; exact Le.noFuel _
  | n + 1, 0, h, _, _ => by omega
  | n + 1, m + 1, h, σ, p => by
    simp only [LPow.values]
    exact Le.bind (mono_powNext _ _ n m (by omega)) fun r => Le.ite (Le.bind (mono_powValues n m (by omega) _ _) fun x => Le.refl _) (Le.refl _)

/-- A history and then a question: evaluated with any fuel, it has the answer the history theorem speaks of. -/
theorem ask_unique {α : Type} {q : LState T → Nat → Go α} (hq : ∀ st, Mono (q st)) {cs : List (LCmd T)} {n : Nat} {a b : α}
    (h : (LState.init.run n cs >>= fun st => q st n) = .ok a) {st : LState T} (hst : Runs (fun n => LState.init.run n cs) st) (hb : Runs (q st) b) : a = b :=
  Mono.unique (f := fun n => LState.init.run n cs >>= fun st => q st n) (Mono.bind (g := q) (mono_run cs _) hq) h (Runs.bind (g := q) hst hb)

end Frozen
