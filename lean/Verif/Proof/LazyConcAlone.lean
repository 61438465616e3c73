import Verif.Proof.LazyConcOps
import Verif.Spec.LazyConc

/-! A goroutine nobody disturbs does what `Model/Lazy.lean` says. -/

set_option linter.unusedSectionVars false

namespace Frozen

variable {T : Type} {α β : Type}

namespace LProg

theorem alone_bind : ∀ (p : LProg T α) (g : α → LProg T β) (σ : LStore T), (p.bind g).alone σ = (p.alone σ >>= fun r => (g r.1).alone r.2)
  | .done a, g, σ => rfl
  | .panic e, g, σ => rfl
  | .load k f, g, σ => by
    simp only [bind, alone]
    cases σ[k]? with
    | none => rfl
    | some c => exact alone_bind (f c) g σ
  | .store k s p, g, σ => by simp only [bind, alone]; exact alone_bind p g _
  | .alloc s f, g, σ => by simp only [bind, alone]; exact alone_bind (f _) g _

theorem alone_mbind (p : LProg T α) (g : α → LProg T β) (σ : LStore T) : (p >>= g).alone σ = (p.alone σ >>= fun r => (g r.1).alone r.2) := alone_bind p g σ

theorem alone_pure (a : α) (σ : LStore T) : (pure a : LProg T α).alone σ = .ok (a, σ) := rfl

theorem alone_done (a : α) (σ : LStore T) : (LProg.done a).alone σ = .ok (a, σ) := rfl

theorem alone_panic (e : Panic) (σ : LStore T) : (LProg.panic e : LProg T α).alone σ = .error e := rfl

theorem alone_lift (x : Go α) (σ : LStore T) : (LProg.lift x : LProg T α).alone σ = x >>= fun a => .ok (a, σ) := by cases x <;> rfl

theorem alone_noFuel (σ : LStore T) : (LProg.noFuel : LProg T α).alone σ = .error (.msg "out of fuel") := rfl

theorem alone_ite (c : Prop) [Decidable c] (p q : LProg T α) (σ : LStore T) : (if c then p else q).alone σ = if c then p.alone σ else q.alone σ := by
  split <;> rfl

end LProg

/-- A read, and the cells as they were. -/
def Go.keep (σ : LStore T) (x : Go α) : Go (α × LStore T) := x >>= fun a => .ok (a, σ)

theorem Go.keep_ok (σ : LStore T) (a : α) : Go.keep σ (.ok a) = .ok (a, σ) := rfl
theorem Go.keep_error (σ : LStore T) (e : Panic) : Go.keep σ (.error e : Go α) = .error e := rfl

theorem derefC_alone (σ : LStore T) (s : LSet T) : (LSet.derefC s).alone σ = Go.keep σ (LSet.deref σ s) := by
  cases s with
  | memo k =>
    simp only [LSet.derefC, LProg.alone, LSet.deref]
    cases σ[k]? with
    | none => rfl
    | some c => cases c <;> rfl
  | _ => rfl

theorem memoizeC_alone (σ : LStore T) (s : LSet T) : (memoizeC s).alone σ = .ok (memoize σ s) := by cases s <;> rfl

theorem rangeC_alone (σ : LStore T) : ∀ (n : Nat) (s : LSet T), (LSet.rangeC n s).alone σ = Go.keep σ (LSet.range σ n s)
  | 0, s => by simp only [LSet.rangeC, LSet.range, LProg.alone_noFuel, noFuel, Go.keep_error]
  | n + 1, s => by
    cases s with
    | empty => simp only [LSet.rangeC, LSet.range]; rfl
    | frozen s =>
      simp only [LSet.rangeC, LSet.range, LProg.alone_mbind, LProg.alone_lift, LProg.alone_pure]
      cases s.range <;> rfl
    | memo k =>
      have tail : ∀ c, LSet.deref σ (.memo k) = .ok c →
          ((LSet.memo k).derefC.bind fun c => (LSet.rangeC n c).bind fun i => (pure (i.caching k Tree.zero) : LProg T (LIter T))).alone σ =
          Go.keep σ (LSet.range σ n c >>= fun i => pure (i.caching k Tree.zero)) := by
        intro c hd
        rw [LProg.alone_bind, derefC_alone, hd, Go.keep_ok]
        show ((LSet.rangeC n c).bind fun i => (pure (i.caching k Tree.zero) : LProg T (LIter T))).alone σ = _
        rw [LProg.alone_bind, rangeC_alone σ n]
        cases LSet.range σ n c <;> rfl
      simp only [LSet.rangeC, LSet.range, LProg.alone_mbind, derefC_alone]
      cases hd : LSet.deref σ (.memo k) with
      | error e => rfl
      | ok c =>
        simp only [Go.keep, bind, Except.bind]
        cases c with
        | frozen f =>
          simp only [LProg.alone_mbind, LProg.alone_lift, LProg.alone_pure]
          cases f.range <;> rfl
        | _ => exact tail _ hd
    | «where» s p =>
      simp only [LSet.rangeC, LSet.range, LProg.alone_mbind, rangeC_alone σ n]
      cases LSet.range σ n s <;> rfl
    | map s p =>
      simp only [LSet.rangeC, LSet.range, LProg.alone_mbind, rangeC_alone σ n]
      cases LSet.range σ n s <;> rfl
    | union s p =>
      simp only [LSet.rangeC, LSet.range, LProg.alone_mbind, rangeC_alone σ n]
      cases LSet.range σ n s <;> rfl
    | inter s p =>
      simp only [LSet.rangeC, LSet.range, LProg.alone_mbind, rangeC_alone σ n]
      cases LSet.range σ n s <;> rfl
    | diff s p =>
      simp only [LSet.rangeC, LSet.range, LProg.alone_mbind, rangeC_alone σ n]
      cases LSet.range σ n s <;> rfl

theorem fastIsEmptyC_alone (σ : LStore T) : ∀ (n : Nat) (s : LSet T), (LSet.fastIsEmptyC n s).alone σ = Go.keep σ (LSet.fastIsEmpty σ n s)
  | 0, s => by simp only [LSet.fastIsEmptyC, LSet.fastIsEmpty, LProg.alone_noFuel, noFuel, Go.keep_error]
  | n + 1, s => by
    cases s with
    | memo k =>
      simp only [LSet.fastIsEmptyC, LSet.fastIsEmpty, LProg.alone_mbind, derefC_alone]
      cases LSet.deref σ (.memo k) with
      | error e => rfl
      | ok c => exact fastIsEmptyC_alone σ n c
    | «where» s p =>
      simp only [LSet.fastIsEmptyC, LSet.fastIsEmpty, LProg.alone_mbind, fastIsEmptyC_alone σ n]
      cases LSet.fastIsEmpty σ n s with
      | error e => rfl
      | ok o => rcases o with _ | (_ | _) <;> rfl
    | _ => simp only [LSet.fastIsEmptyC, LSet.fastIsEmpty]; rfl

theorem fastCountC_alone (σ : LStore T) (s : LSet T) : (LSet.fastCountC s).alone σ = Go.keep σ (LSet.fastCount σ s) := by
  simp only [LSet.fastCountC, LSet.fastCount, LProg.alone_mbind, derefC_alone]
  cases LSet.deref σ s with
  | error e => rfl
  | ok c => cases c <;> rfl

variable [GoKey T]

theorem fastHasC_alone (σ : LStore T) : ∀ (n : Nat) (s : LSet T) (el : T), (LSet.fastHasC n s el).alone σ = Go.keep σ (LSet.fastHas σ n s el)
  | 0, s, el => by simp only [LSet.fastHasC, LSet.fastHas, LProg.alone_noFuel, noFuel, Go.keep_error]
  | n + 1, s, el => by
    cases s with
    | memo k =>
      simp only [LSet.fastHasC, LSet.fastHas, LProg.alone_mbind, derefC_alone]
      cases LSet.deref σ (.memo k) with
      | error e => rfl
      | ok c => exact fastHasC_alone σ n c el
    | frozen s =>
      simp only [LSet.fastHasC, LSet.fastHas, LProg.alone_mbind, LProg.alone_lift]
      cases s.has el <;> rfl
    | union a b =>
      simp only [LSet.fastHasC, LSet.fastHas, LProg.alone_mbind, fastHasC_alone σ n]
      cases h : LSet.fastHas σ n a el with
      | error e => rfl
      | ok o =>
        cases o with
        | none => simp only [Go.keep, bind, Except.bind, fastHasC_alone σ n, h]
        | some b => rfl
    | inter a b =>
      simp only [LSet.fastHasC, LSet.fastHas, LProg.alone_mbind, fastHasC_alone σ n]
      cases h : LSet.fastHas σ n a el with
      | error e => rfl
      | ok o =>
        simp only [Go.keep, bind, Except.bind]
        by_cases ho : o = some false
        · simp only [ho, if_true]; rfl
        · simp only [ho, if_false]
          have e := fastHasC_alone σ n b el
          simp only [Go.keep, bind, Except.bind] at e
          show ((LSet.fastHasC n b el).bind _).alone σ = _
          rw [LProg.alone_bind, e]
          cases LSet.fastHas σ n b el with
          | error e => rfl
          | ok y =>
            simp only [bind, Except.bind]
            by_cases hy : y = some false
            · simp only [hy, if_true]; rfl
            · simp only [hy, if_false]
              split <;> rfl
    | diff a b =>
      simp only [LSet.fastHasC, LSet.fastHas, LProg.alone_mbind, fastHasC_alone σ n]
      cases h : LSet.fastHas σ n a el with
      | error e => rfl
      | ok o =>
        cases o with
        | none => simp only [Go.keep, bind, Except.bind, fastHasC_alone σ n, h]
        | some b => rfl
    | _ => simp only [LSet.fastHasC, LSet.fastHas]; rfl

/-- Reorder what `Next` returns. -/
def nextPair (x : Go (LIter T × Bool × LStore T)) : Go ((LIter T × Bool) × LStore T) := x >>= fun r => .ok ((r.1, r.2.1), r.2.2)

theorem both_alone : ∀ (n : Nat), (∀ (σ : LStore T) (s : LSet T) (el : T), (LSet.hasC n s el).alone σ = LSet.has n σ s el) ∧
    (∀ (σ : LStore T) (i : LIter T) (el : T), (LIter.findC n i el).alone σ = LIter.find n σ i el) ∧
    ∀ (σ : LStore T) (i : LIter T), (LIter.nextC n i).alone σ = nextPair (LIter.next n σ i) := by
  intro n
  induction n with
  | zero =>
    refine ⟨fun σ s el => ?_, fun σ i el => ?_, fun σ i => ?_⟩
    · simp only [LSet.hasC, LSet.has]; rfl
    · simp only [LIter.findC, LIter.find]; rfl
    · simp only [LIter.nextC, LIter.next]; rfl
  | succ n ih =>
    obtain ⟨ihh, ihf, ihn⟩ := ih
    refine ⟨fun σ s el => ?_, fun σ i el => ?_, fun σ i => ?_⟩
    · cases s with
      | empty => simp only [LSet.hasC, LSet.has]; rfl
      | memo k =>
        simp only [LSet.hasC, LSet.has, LProg.alone_mbind, derefC_alone]
        cases LSet.deref σ (.memo k) with
        | error e => rfl
        | ok c => exact ihh σ c el
      | «where» s p =>
        simp only [LSet.hasC, LSet.has, LProg.alone_ite, ihh]; rfl
      | union a b =>
        simp only [LSet.hasC, LSet.has, LProg.alone_mbind, ihh]
        cases LSet.has n σ a el with
        | error e => rfl
        | ok r => obtain ⟨x, σ1⟩ := r; cases x with
          | true => rfl
          | false => exact ihh σ1 b el
      | inter a b =>
        simp only [LSet.hasC, LSet.has, LProg.alone_mbind, ihh]
        cases LSet.has n σ a el with
        | error e => rfl
        | ok r => obtain ⟨x, σ1⟩ := r; cases x with
          | false => rfl
          | true => exact ihh σ1 b el
      | diff a b =>
        simp only [LSet.hasC, LSet.has, LProg.alone_mbind, ihh]
        cases LSet.has n σ a el with
        | error e => rfl
        | ok r => obtain ⟨x, σ1⟩ := r; cases x with
          | true => rfl
          | false => exact ihh σ1 b el
      | frozen s =>
        simp only [LSet.hasC, LSet.has, LProg.alone_mbind, fastHasC_alone]
        cases LSet.fastHas σ n (.frozen s) el with
        | error e => rfl
        | ok o =>
          cases o with
          | some b => rfl
          | none =>
            simp only [Go.keep, bind, Except.bind]
            show ((LSet.rangeC n (.frozen s)).bind fun i => LIter.findC n i el).alone σ = _
            rw [LProg.alone_bind, rangeC_alone]
            cases LSet.range σ n (.frozen s) with
            | error e => rfl
            | ok i => exact ihf σ i el
      | map s m =>
        simp only [LSet.hasC, LSet.has, LProg.alone_mbind, fastHasC_alone]
        cases LSet.fastHas σ n (.map s m) el with
        | error e => rfl
        | ok o =>
          cases o with
          | some b => rfl
          | none =>
            simp only [Go.keep, bind, Except.bind]
            show ((LSet.rangeC n (.map s m)).bind fun i => LIter.findC n i el).alone σ = _
            rw [LProg.alone_bind, rangeC_alone]
            cases LSet.range σ n (.map s m) with
            | error e => rfl
            | ok i => exact ihf σ i el
    · simp only [LIter.findC, LIter.find, LProg.alone_mbind, ihn]
      cases LIter.next n σ i with
      | error e => rfl
      | ok r =>
        obtain ⟨i1, ok, σ1⟩ := r
        cases ok with
        | false => rfl
        | true =>
          simp only [nextPair, bind, Except.bind, if_true]
          show ((LProg.lift i1.value).bind fun v => if GoKey.eq el v then .done true else LIter.findC n i1 el).alone σ1 = _
          rw [LProg.alone_bind, LProg.alone_lift]
          cases i1.value with
          | error e => rfl
          | ok v =>
            simp only [bind, Except.bind, LProg.alone_ite, ihf]; rfl
    · cases i with
      | empty => simp only [LIter.nextC, LIter.next]; rfl
      | frozen it =>
        simp only [LIter.nextC, LIter.next, LProg.alone_mbind, LProg.alone_lift]
        cases it.next <;> rfl
      | «where» i p =>
        simp only [LIter.nextC, LIter.next, LProg.alone_mbind, ihn]
        cases LIter.next n σ i with
        | error e => rfl
        | ok r =>
          obtain ⟨i1, ok, σ1⟩ := r
          cases ok with
          | false => rfl
          | true =>
            simp only [nextPair, bind, Except.bind, if_true]
            show ((LProg.lift i1.value).bind fun v => if p v then .done (LIter.where i1 p, true) else LIter.nextC n (.where i1 p)).alone σ1 = _
            rw [LProg.alone_bind, LProg.alone_lift]
            cases i1.value with
            | error e => rfl
            | ok v =>
              simp only [bind, Except.bind, LProg.alone_ite, ihn]
              split <;> rfl
      | map i m =>
        simp only [LIter.nextC, LIter.next, LProg.alone_mbind, ihn]
        cases LIter.next n σ i <;> rfl
      | union i b =>
        simp only [LIter.nextC, LIter.next, LProg.alone_mbind, ihn]
        cases LIter.next n σ i with
        | error e => rfl
        | ok r =>
          obtain ⟨i1, ok, σ1⟩ := r
          cases ok with
          | true => rfl
          | false =>
            cases b with
            | none => rfl
            | some b =>
              simp only [nextPair, bind, Except.bind, Bool.false_eq_true, if_false]
              show ((LSet.rangeC n b).bind fun i => LIter.nextC n (.union i none)).alone σ1 = _
              rw [LProg.alone_bind, rangeC_alone]
              cases LSet.range σ1 n b with
              | error e => rfl
              | ok j => exact ihn σ1 _
      | inter i b =>
        simp only [LIter.nextC, LIter.next, LProg.alone_mbind, ihn]
        cases LIter.next n σ i with
        | error e => rfl
        | ok r =>
          obtain ⟨i1, ok, σ1⟩ := r
          cases ok with
          | false => rfl
          | true =>
            simp only [nextPair, bind, Except.bind, if_true]
            show ((LProg.lift i1.value).bind fun v => (LSet.hasC n b v).bind fun x => if x then .done (LIter.inter i1 b, true) else LIter.nextC n (.inter i1 b)).alone σ1 = _
            rw [LProg.alone_bind, LProg.alone_lift]
            cases i1.value with
            | error e => rfl
            | ok v =>
              simp only [bind, Except.bind, LProg.alone_bind, ihh]
              cases LSet.has n σ1 b v with
              | error e => rfl
              | ok r =>
                obtain ⟨x, σ2⟩ := r
                cases x with
                | true => rfl
                | false => exact ihn σ2 _
      | diff i b =>
        simp only [LIter.nextC, LIter.next, LProg.alone_mbind, ihn]
        cases LIter.next n σ i with
        | error e => rfl
        | ok r =>
          obtain ⟨i1, ok, σ1⟩ := r
          cases ok with
          | false => rfl
          | true =>
            simp only [nextPair, bind, Except.bind, if_true]
            show ((LProg.lift i1.value).bind fun v => (LSet.hasC n b v).bind fun x => if x then LIter.nextC n (.diff i1 b) else .done (LIter.diff i1 b, true)).alone σ1 = _
            rw [LProg.alone_bind, LProg.alone_lift]
            cases i1.value with
            | error e => rfl
            | ok v =>
              simp only [bind, Except.bind, LProg.alone_bind, ihh]
              cases LSet.has n σ1 b v with
              | error e => rfl
              | ok r =>
                obtain ⟨x, σ2⟩ := r
                cases x with
                | false => rfl
                | true => exact ihn σ2 _
      | caching i k seen =>
        simp only [LIter.nextC, LIter.next, LProg.alone_mbind, ihn]
        cases LIter.next n σ i with
        | error e => rfl
        | ok r =>
          obtain ⟨i1, ok, σ1⟩ := r
          cases ok with
          | false => rfl
          | true =>
            simp only [nextPair, bind, Except.bind, if_true]
            show ((LProg.lift i1.value).bind fun v => (LProg.lift (seen.has v)).bind fun b => if b then LIter.nextC n (.caching i1 k seen)
              else (LProg.lift (seen.add v)).bind fun seen => .done (LIter.caching i1 k seen, true)).alone σ1 = _
            rw [LProg.alone_bind, LProg.alone_lift]
            cases i1.value with
            | error e => rfl
            | ok v =>
              simp only [bind, Except.bind, LProg.alone_bind, LProg.alone_lift]
              cases seen.has v with
              | error e => rfl
              | ok b =>
                cases b with
                | true => exact ihn σ1 _
                | false =>
                  simp only [bind, Except.bind, LProg.alone_bind, LProg.alone_lift, Bool.false_eq_true, if_false]
                  cases seen.add v <;> rfl

theorem hasC_alone (n : Nat) (σ : LStore T) (s : LSet T) (el : T) : (LSet.hasC n s el).alone σ = LSet.has n σ s el := (both_alone n).1 σ s el
theorem nextC_alone (n : Nat) (σ : LStore T) (i : LIter T) : (LIter.nextC n i).alone σ = nextPair (LIter.next n σ i) := (both_alone n).2.2 σ i

end Frozen
