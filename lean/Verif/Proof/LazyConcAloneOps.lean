import Verif.Proof.LazyConcAlone

/-! A goroutine nobody disturbs: constructors, observers and lists of calls. -/

set_option linter.unusedSectionVars false

namespace Frozen

variable {T : Type} {α β : Type}

theorem go_ok_bind (a : α) (f : α → Go β) : ((.ok a : Go α) >>= f) = f a := rfl
theorem go_err_bind (e : Panic) (f : α → Go β) : ((.error e : Go α) >>= f) = .error e := rfl
theorem go_pure (a : α) : (pure a : Go α) = .ok a := rfl

variable [GoKey T]

theorem lazyInterC_alone (n : Nat) (σ : LStore T) (a b : LSet T) : (lazyInterC n a b).alone σ = lazyInter n σ a b := by
  simp only [lazyInterC, lazyInter, LProg.alone_mbind, fastIsEmptyC_alone]
  cases LSet.fastIsEmpty σ n a with
  | error e => rfl
  | ok x =>
    simp only [Go.keep_ok, go_ok_bind, LProg.alone_ite, LProg.alone_mbind, fastIsEmptyC_alone]
    split
    · rfl
    · cases LSet.fastIsEmpty σ n b with
      | error e => rfl
      | ok y =>
        simp only [Go.keep_ok, go_ok_bind, LProg.alone_ite, memoizeC_alone]
        split <;> rfl

theorem lazyDiffC_alone (n : Nat) (σ : LStore T) (a b : LSet T) : (lazyDiffC n a b).alone σ = lazyDiff n σ a b := by
  simp only [lazyDiffC, lazyDiff, LProg.alone_mbind, fastIsEmptyC_alone]
  cases LSet.fastIsEmpty σ n a with
  | error e => rfl
  | ok x =>
    simp only [Go.keep_ok, go_ok_bind, LProg.alone_ite, LProg.alone_mbind, fastIsEmptyC_alone]
    split
    · rfl
    · cases LSet.fastIsEmpty σ n b with
      | error e => rfl
      | ok y =>
        simp only [Go.keep_ok, go_ok_bind, LProg.alone_ite, memoizeC_alone]
        split <;> rfl

theorem whereC_alone (σ : LStore T) (s : LSet T) (p : T → Bool) : (LSet.whereC s p).alone σ = LSet.whereM σ s p := by
  simp only [LSet.whereC, LSet.whereM, LProg.alone_mbind, derefC_alone]
  cases LSet.deref σ s with
  | error e => rfl
  | ok c => cases c <;> rfl

theorem mapC_alone (σ : LStore T) (s : LSet T) (m : T → T) : (LSet.mapC s m).alone σ = LSet.mapM σ s m := by
  simp only [LSet.mapC, LSet.mapM, LProg.alone_mbind, derefC_alone]
  cases LSet.deref σ s with
  | error e => rfl
  | ok c =>
    cases c with
    | frozen f =>
      simp only [Go.keep_ok, go_ok_bind, LProg.alone_mbind, LProg.alone_lift]
      cases setMap f m <;> rfl
    | _ => rfl

theorem unionC_alone (σ : LStore T) (s t : LSet T) : (LSet.unionC s t).alone σ = LSet.unionM σ s t := by
  simp only [LSet.unionC, LSet.unionM, LProg.alone_mbind, derefC_alone]
  cases LSet.deref σ s with
  | error e => rfl
  | ok c => cases c <;> rfl

theorem interC_alone (n : Nat) (σ : LStore T) (s t : LSet T) : (LSet.interC n s t).alone σ = LSet.interM n σ s t := by
  simp only [LSet.interC, LSet.interM, LProg.alone_mbind, derefC_alone]
  cases LSet.deref σ s with
  | error e => rfl
  | ok c =>
    cases c with
    | empty => rfl
    | _ => exact lazyInterC_alone n σ _ t

theorem diffC_alone (n : Nat) (σ : LStore T) (s t : LSet T) : (LSet.diffC n s t).alone σ = LSet.diffM n σ s t := by
  simp only [LSet.diffC, LSet.diffM, LProg.alone_mbind, derefC_alone]
  cases LSet.deref σ s with
  | error e => rfl
  | ok c =>
    cases c with
    | empty => rfl
    | _ => exact lazyDiffC_alone n σ _ t

theorem lazySymmC_alone (n : Nat) (σ : LStore T) (a b : LSet T) : (lazySymmC n a b).alone σ = lazySymm n σ a b := by
  simp only [lazySymmC, lazySymm, LProg.alone_mbind, diffC_alone, unionC_alone]

theorem symmC_alone (n : Nat) (σ : LStore T) (s t : LSet T) : (LSet.symmC n s t).alone σ = LSet.symmM n σ s t := by
  simp only [LSet.symmC, LSet.symmM, LProg.alone_mbind, derefC_alone]
  cases LSet.deref σ s with
  | error e => rfl
  | ok c =>
    cases c with
    | empty => rfl
    | _ => exact lazySymmC_alone n σ _ t

theorem withC_alone (σ : LStore T) (s : LSet T) (v : T) : (LSet.withC s v).alone σ = LSet.withM σ s v := by
  simp only [LSet.withC, LSet.withM, LProg.alone_mbind, derefC_alone]
  cases LSet.deref σ s with
  | error e => rfl
  | ok c =>
    cases c with
    | frozen f =>
      simp only [Go.keep_ok, go_ok_bind, LProg.alone_mbind, LProg.alone_lift]
      cases f.with v <;> rfl
    | _ =>
      simp only [Go.keep_ok, go_ok_bind, LProg.alone_mbind, LProg.alone_lift]
      cases buildSet [v] <;> rfl

theorem withoutC_alone (n : Nat) (σ : LStore T) (s : LSet T) (v : T) : (LSet.withoutC n s v).alone σ = LSet.withoutM n σ s v := by
  simp only [LSet.withoutC, LSet.withoutM, LProg.alone_mbind, derefC_alone]
  cases LSet.deref σ s with
  | error e => rfl
  | ok c =>
    cases c with
    | empty => rfl
    | frozen f =>
      simp only [Go.keep_ok, go_ok_bind, LProg.alone_mbind, LProg.alone_lift]
      cases f.without v <;> rfl
    | _ =>
      simp only [Go.keep_ok, go_ok_bind, LProg.alone_mbind, LProg.alone_lift]
      cases buildSet [v] with
      | error e => rfl
      | ok r => exact lazyDiffC_alone n σ _ _

theorem drainC_alone : ∀ (n : Nat) (σ : LStore T) (i : LIter T), (LIter.drainC n i).alone σ = (LIter.drain n σ i >>= fun σ => .ok ((), σ))
  | 0, σ, i => by simp only [LIter.drainC, LIter.drain]; rfl
  | n + 1, σ, i => by
    simp only [LIter.drainC, LIter.drain, LProg.alone_mbind, nextC_alone]
    cases LIter.next n σ i with
    | error e => rfl
    | ok r =>
      obtain ⟨i1, ok, σ1⟩ := r
      cases ok with
      | true => exact drainC_alone n σ1 i1
      | false => rfl

theorem freezeC_alone (n : Nat) (σ : LStore T) (s : LSet T) : (LSet.freezeC n s).alone σ = LSet.freeze n σ s := by
  have tail : ∀ (σ : LStore T) (k : Nat), (LSet.rangeC n (.memo k) >>= fun i => LIter.drainC n i >>= fun _ => LSet.derefC (.memo k)).alone σ =
      (LSet.range σ n (.memo k) >>= fun i => LIter.drain n σ i >>= fun σ => LSet.deref σ (.memo k) >>= fun c => pure (c, σ)) := by
    intro σ k
    simp only [LProg.alone_mbind, rangeC_alone, drainC_alone, derefC_alone]
    cases LSet.range σ n (.memo k) with
    | error e => rfl
    | ok i =>
      simp only [Go.keep_ok, go_ok_bind]
      cases LIter.drain n σ i with
      | error e => rfl
      | ok σ => rfl
  simp only [LSet.freezeC, LSet.freeze, LProg.alone_mbind, derefC_alone]
  cases LSet.deref σ s with
  | error e => rfl
  | ok c =>
    cases c with
    | empty => rfl
    | frozen f => rfl
    | memo k => exact tail σ k
    | _ => exact tail _ _

theorem isEmptyC_alone (n : Nat) (σ : LStore T) (s : LSet T) : (LSet.isEmptyC n s).alone σ = LSet.isEmpty n σ s := by
  have tail : ∀ c : LSet T, (LSet.fastIsEmptyC n c >>= fun r => match r with
        | some b => pure b
        | none => LSet.rangeC n c >>= fun i => LIter.nextC n i >>= fun r => match r with | (_, ok) => pure (!ok) : LProg T Bool).alone σ =
      (LSet.fastIsEmpty σ n c >>= fun r => match r with
        | some b => pure (b, σ)
        | none => LSet.range σ n c >>= fun i => LIter.next n σ i >>= fun r => match r with | (_, ok, σ) => pure (!ok, σ)) := by
    intro c
    simp only [LProg.alone_mbind, fastIsEmptyC_alone]
    cases LSet.fastIsEmpty σ n c with
    | error e => rfl
    | ok o =>
      cases o with
      | some b => rfl
      | none =>
        simp only [Go.keep_ok, go_ok_bind, LProg.alone_mbind, rangeC_alone]
        cases LSet.range σ n c with
        | error e => rfl
        | ok i =>
          simp only [Go.keep_ok, go_ok_bind, nextC_alone]
          cases LIter.next n σ i <;> rfl
  simp only [LSet.isEmptyC, LSet.isEmpty, LProg.alone_mbind, derefC_alone]
  cases LSet.deref σ s with
  | error e => rfl
  | ok c =>
    cases c with
    | empty => rfl
    | _ => exact tail _

theorem countLoopC_alone : ∀ (n : Nat) (σ : LStore T) (i : LIter T) (k limit : Int), (LIter.countLoopC n i k limit).alone σ = LIter.countLoop n σ i k limit
  | 0, σ, i, k, limit => by simp only [LIter.countLoopC, LIter.countLoop]; rfl
  | n + 1, σ, i, k, limit => by
    simp only [LIter.countLoopC, LIter.countLoop, LProg.alone_ite]
    split
    · simp only [LProg.alone_mbind, nextC_alone]
      cases LIter.next n σ i with
      | error e => rfl
      | ok r =>
        obtain ⟨i1, ok, σ1⟩ := r
        cases ok with
        | true => exact countLoopC_alone n σ1 i1 (k + 1) limit
        | false => rfl
    · rfl

theorem countUpToC_alone_both : ∀ (n : Nat), (∀ (σ : LStore T) (s : LSet T) (limit : Int), (LSet.fastCountUpToC n s limit).alone σ = LSet.fastCountUpTo n σ s limit) ∧
    ∀ (σ : LStore T) (s : LSet T) (limit : Int), (LSet.countUpToC n s limit).alone σ = LSet.countUpTo n σ s limit := by
  intro n
  induction n with
  | zero =>
    refine ⟨fun σ s limit => ?_, fun σ s limit => ?_⟩
    · simp only [LSet.fastCountUpToC, LSet.fastCountUpTo]; rfl
    · simp only [LSet.countUpToC, LSet.countUpTo]; rfl
  | succ n ih =>
    obtain ⟨ihf, ihc⟩ := ih
    refine ⟨fun σ s limit => ?_, fun σ s limit => ?_⟩
    · cases s with
      | memo k =>
        simp only [LSet.fastCountUpToC, LSet.fastCountUpTo, LProg.alone_mbind, derefC_alone]
        cases LSet.deref σ (.memo k) with
        | error e => rfl
        | ok c => exact ihf σ c limit
      | union a b =>
        simp only [LSet.fastCountUpToC, LSet.fastCountUpTo, LProg.alone_mbind, fastIsEmptyC_alone]
        cases LSet.fastIsEmpty σ n a with
        | error e => rfl
        | ok x =>
          simp only [Go.keep_ok, go_ok_bind, LProg.alone_ite, LProg.alone_mbind, fastIsEmptyC_alone, ihc]
          split
          · cases LSet.countUpTo n σ b limit <;> rfl
          · cases LSet.fastIsEmpty σ n b with
            | error e => rfl
            | ok y =>
              simp only [Go.keep_ok, go_ok_bind, LProg.alone_ite, LProg.alone_mbind, ihc, ihf]
              split
              · cases LSet.countUpTo n σ a limit <;> rfl
              · cases LSet.fastCountUpTo n σ a limit with
                | error e => rfl
                | ok r =>
                  obtain ⟨c, σ1⟩ := r
                  simp only [go_ok_bind]
                  split
                  · rfl
                  · cases LSet.fastCountUpTo n σ1 b limit with
                    | error e => rfl
                    | ok r =>
                      obtain ⟨c, σ1⟩ := r
                      simp only [go_ok_bind]
                      split <;> rfl
      | _ => simp only [LSet.fastCountUpToC, LSet.fastCountUpTo]; rfl
    · have tail : ∀ c : LSet T, (LSet.fastCountUpToC n c limit >>= fun r => match r with
            | some k => pure k
            | none => LSet.rangeC n c >>= fun i => LIter.countLoopC n i 0 limit : LProg T Int).alone σ =
          (LSet.fastCountUpTo n σ c limit >>= fun r => match r with
            | (r, σ) => match r with
              | some k => pure (k, σ)
              | none => LSet.range σ n c >>= fun i => LIter.countLoop n σ i 0 limit) := by
        intro c
        simp only [LProg.alone_mbind, ihf]
        cases LSet.fastCountUpTo n σ c limit with
        | error e => rfl
        | ok r =>
          obtain ⟨o, σ1⟩ := r
          cases o with
          | some b => rfl
          | none =>
            simp only [go_ok_bind, LProg.alone_mbind, rangeC_alone]
            cases LSet.range σ1 n c with
            | error e => rfl
            | ok i => exact countLoopC_alone n σ1 i 0 limit
      simp only [LSet.countUpToC, LSet.countUpTo, LProg.alone_mbind, derefC_alone]
      cases LSet.deref σ s with
      | error e => rfl
      | ok c =>
        cases c with
        | empty => rfl
        | _ => exact tail _

theorem countC_alone (n : Nat) (σ : LStore T) (s : LSet T) : (LSet.countC n s).alone σ = LSet.count n σ s := by
  simp only [LSet.countC, LSet.count, LProg.alone_mbind, derefC_alone]
  cases LSet.deref σ s with
  | error e => rfl
  | ok c =>
    simp only [Go.keep_ok, go_ok_bind, LProg.alone_mbind, fastCountC_alone]
    cases LSet.fastCount σ c with
    | error e => rfl
    | ok o =>
      cases o with
      | some k => rfl
      | none => exact (countUpToC_alone_both n).2 σ c maxInt

theorem equalLoopC_alone (s : FSet T) : ∀ (n : Nat) (σ : LStore T) (i : LIter T) (k : Int), (LIter.equalLoopC s n i k).alone σ = LIter.equalLoop s n σ i k
  | 0, σ, i, k => by simp only [LIter.equalLoopC, LIter.equalLoop]; rfl
  | n + 1, σ, i, k => by
    simp only [LIter.equalLoopC, LIter.equalLoop, LProg.alone_ite]
    split
    · simp only [LProg.alone_mbind, nextC_alone]
      cases LIter.next n σ i with
      | error e => rfl
      | ok r =>
        obtain ⟨i1, ok, σ1⟩ := r
        cases ok with
        | false => rfl
        | true =>
          simp only [nextPair, go_ok_bind, if_true, LProg.alone_mbind, LProg.alone_lift]
          cases i1.value with
          | error e => rfl
          | ok v =>
            simp only [go_ok_bind, LProg.alone_mbind, LProg.alone_lift]
            cases s.has v with
            | error e => rfl
            | ok b =>
              cases b with
              | true => exact equalLoopC_alone s n σ1 i1 _
              | false => rfl
    · split
      · simp only [LProg.alone_mbind, nextC_alone]
        cases LIter.next n σ i <;> rfl
      · rfl

theorem equalC_alone_both : ∀ (n : Nat), (∀ (σ : LStore T) (s t : LSet T), (LSet.equalSetC n s t).alone σ = LSet.equalSet n σ s t) ∧
    ∀ (σ : LStore T) (s t : LSet T), (LSet.equalC n s t).alone σ = LSet.equal n σ s t := by
  intro n
  induction n with
  | zero =>
    refine ⟨fun σ s t => ?_, fun σ s t => ?_⟩
    · simp only [LSet.equalSetC, LSet.equalSet]; rfl
    · simp only [LSet.equalC, LSet.equal]; rfl
  | succ n ih =>
    obtain ⟨ihf, ihc⟩ := ih
    refine ⟨fun σ s t => ?_, fun σ s t => ?_⟩
    · have tail : ∀ c : LSet T, (LSet.freezeC n c >>= fun x => LSet.freezeC n t >>= fun y => LSet.equalC n x y : LProg T Bool).alone σ =
          (LSet.freeze n σ c >>= fun r => match r with
            | (x, σ) => LSet.freeze n σ t >>= fun r => match r with
              | (y, σ) => LSet.equal n σ x y) := by
        intro c
        simp only [LProg.alone_mbind, freezeC_alone, ihc]
      have loop : ∀ (f : FSet T) (t : LSet T), (LSet.rangeC n t >>= fun i => LIter.equalLoopC f n i f.count : LProg T Bool).alone σ =
          (LSet.range σ n t >>= fun i => LIter.equalLoop f n σ i f.count) := by
        intro f t
        simp only [LProg.alone_mbind, rangeC_alone]
        cases LSet.range σ n t with
        | error e => rfl
        | ok i => exact equalLoopC_alone f n σ i _
      simp only [LSet.equalSetC, LSet.equalSet, LProg.alone_mbind, derefC_alone]
      cases LSet.deref σ s with
      | error e => rfl
      | ok c =>
        cases c with
        | empty => exact isEmptyC_alone n σ t
        | frozen f =>
          simp only [Go.keep_ok, go_ok_bind]
          cases t with
          | frozen g =>
            simp only [LProg.alone_mbind, LProg.alone_lift]
            cases f.equal g <;> rfl
          | _ => exact loop f _
        | _ => exact tail _
    · simp only [LSet.equalC, LSet.equal, LProg.alone_mbind, derefC_alone]
      cases LSet.deref σ s with
      | error e => rfl
      | ok c =>
        cases c with
        | empty => exact ihf σ t t
        | _ => exact ihf σ _ t

theorem subsetLoopC_alone (s : FSet T) : ∀ (n : Nat) (σ : LStore T) (i : LIter T) (k : Int), (LIter.subsetLoopC s n i k).alone σ = LIter.subsetLoop s n σ i k
  | 0, σ, i, k => by simp only [LIter.subsetLoopC, LIter.subsetLoop]; rfl
  | n + 1, σ, i, k => by
    simp only [LIter.subsetLoopC, LIter.subsetLoop, LProg.alone_ite]
    split
    · simp only [LProg.alone_mbind, nextC_alone]
      cases LIter.next n σ i with
      | error e => rfl
      | ok r =>
        obtain ⟨i1, ok, σ1⟩ := r
        cases ok with
        | false => rfl
        | true =>
          simp only [nextPair, go_ok_bind, if_true, LProg.alone_mbind, LProg.alone_lift]
          cases i1.value with
          | error e => rfl
          | ok v =>
            simp only [go_ok_bind, LProg.alone_mbind, LProg.alone_lift]
            cases s.has v with
            | error e => rfl
            | ok b =>
              cases b with
              | true => exact subsetLoopC_alone s n σ1 i1 _
              | false => exact subsetLoopC_alone s n σ1 i1 _
    · rfl

theorem frozenIsSubsetOfC_alone (n : Nat) (σ : LStore T) (f : FSet T) (t : LSet T) : (frozenIsSubsetOfC n f t).alone σ = frozenIsSubsetOf n σ f t := by
  have loop : ∀ t : LSet T, (LSet.rangeC n t >>= fun i => LIter.subsetLoopC f n i f.count : LProg T Bool).alone σ =
      (LSet.range σ n t >>= fun i => LIter.subsetLoop f n σ i f.count) := by
    intro t
    simp only [LProg.alone_mbind, rangeC_alone]
    cases LSet.range σ n t with
    | error e => rfl
    | ok i => exact subsetLoopC_alone f n σ i _
  cases t with
  | memo k =>
    simp only [frozenIsSubsetOfC, frozenIsSubsetOf, LProg.alone_mbind, derefC_alone]
    cases LSet.deref σ (.memo k) with
    | error e => rfl
    | ok c =>
      simp only [Go.keep_ok, go_ok_bind]
      cases c with
      | frozen g => exact loop (.frozen g)
      | _ => exact loop _
  | _ => exact loop _

theorem isSubsetOfC_alone (n : Nat) (σ : LStore T) (s t : LSet T) : (LSet.isSubsetOfC n s t).alone σ = LSet.isSubsetOf n σ s t := by
  have tail : ∀ c : LSet T, (LSet.freezeC n c >>= fun x => LSet.freezeC n t >>= fun y => match x with
        | .frozen f => frozenIsSubsetOfC n f y
        | _ => .panic (.msg "not frozen") : LProg T Bool).alone σ =
      (LSet.freeze n σ c >>= fun r => match r with
        | (x, σ) => LSet.freeze n σ t >>= fun r => match r with
          | (y, σ) => match x with
            | .frozen f => frozenIsSubsetOf n σ f y
            | _ => .error (.msg "not frozen")) := by
    intro c
    simp only [LProg.alone_mbind, freezeC_alone]
    cases LSet.freeze n σ c with
    | error e => rfl
    | ok r =>
      obtain ⟨x, σ1⟩ := r
      simp only [go_ok_bind]
      cases LSet.freeze n σ1 t with
      | error e => rfl
      | ok r =>
        obtain ⟨y, σ2⟩ := r
        cases x with
        | frozen f => exact frozenIsSubsetOfC_alone n σ2 f y
        | _ => rfl
  simp only [LSet.isSubsetOfC, LSet.isSubsetOf, LProg.alone_mbind, derefC_alone]
  cases LSet.deref σ s with
  | error e => rfl
  | ok c =>
    cases c with
    | empty => rfl
    | frozen f => exact frozenIsSubsetOfC_alone n σ f t
    | _ => exact tail _

/-- What a goroutine holds and the cells, as one state. -/
def LLocal.state (r : LLocal T × LStore T) : LState T := ⟨r.2, r.1.sets, r.1.iters⟩

/-- Forget the answers. -/
def LLocal.forget (x : Go (LLocal T × LStore T)) : Go (LState T) := x >>= fun r => .ok (LLocal.state r)

theorem get_alone (loc : LLocal T) (σ : LStore T) (i : Nat) : (loc.get i).alone σ = Go.keep σ ((LLocal.state (loc, σ)).get i) := by
  simp only [LLocal.get, LState.get, LLocal.state]
  cases loc.sets[i]? <;> rfl

theorem get1_alone (loc : LLocal T) (σ : LStore T) (i : Nat) (f : LSet T → LProg T (LLocal T)) (g : LSet T → Go (LState T))
    (h : ∀ s, LLocal.forget ((f s).alone σ) = g s) :
    LLocal.forget ((loc.get i >>= f).alone σ) = ((LLocal.state (loc, σ)).get i >>= g) := by
  rw [LProg.alone_mbind, get_alone]
  cases (LLocal.state (loc, σ)).get i with
  | error e => rfl
  | ok s => exact h s

theorem push_alone (loc : LLocal T) (σ : LStore T) (p : LProg T (LSet T)) (q : Go (LSet T × LStore T)) (h : p.alone σ = q) :
    LLocal.forget ((p >>= fun r => pure (loc.push r)).alone σ) = (q >>= fun r => pure ((LLocal.state (loc, σ)).push r)) := by
  rw [LProg.alone_mbind, h]
  cases q <;> rfl

theorem note_alone (loc : LLocal T) (σ : LStore T) (p : LProg T α) (w : α → LAnswer) (q : Go (α × LStore T)) (h : p.alone σ = q) :
    LLocal.forget ((p >>= fun r => pure (loc.note (w r))).alone σ) = (q >>= fun r => pure ⟨r.2, (LLocal.state (loc, σ)).sets, (LLocal.state (loc, σ)).iters⟩) := by
  rw [LProg.alone_mbind, h]
  cases q <;> rfl

theorem advance_alone (n : Nat) (σ : LStore T) (c : LCursor T) : (LLocal.advance n c).alone σ = c.advance n σ := by
  simp only [LLocal.advance, LCursor.advance, LProg.alone_ite]
  split
  · rfl
  · simp only [LProg.alone_mbind, nextC_alone]
    cases LIter.next n σ c.iter with
    | error e => rfl
    | ok r =>
      obtain ⟨i1, ok, σ1⟩ := r
      cases ok with
      | false => rfl
      | true =>
        simp only [nextPair, go_ok_bind, if_true, LProg.alone_mbind, LProg.alone_lift]
        cases i1.value <;> rfl

/-- One call. -/
theorem stepC_alone (n : Nat) (loc : LLocal T) (σ : LStore T) (c : LCmd T) :
    LLocal.forget ((loc.step n c).alone σ) = (LLocal.state (loc, σ)).step n c := by
  cases c with
  | empty => rfl
  | frozen s => rfl
  | «where» i p => exact get1_alone _ _ _ _ _ fun s => push_alone _ _ _ _ (whereC_alone σ s p)
  | map i m => exact get1_alone _ _ _ _ _ fun s => push_alone _ _ _ _ (mapC_alone σ s m)
  | union i j => exact get1_alone _ _ _ _ _ fun s => get1_alone _ _ _ _ _ fun t => push_alone _ _ _ _ (unionC_alone σ s t)
  | inter i j => exact get1_alone _ _ _ _ _ fun s => get1_alone _ _ _ _ _ fun t => push_alone _ _ _ _ (interC_alone n σ s t)
  | diff i j => exact get1_alone _ _ _ _ _ fun s => get1_alone _ _ _ _ _ fun t => push_alone _ _ _ _ (diffC_alone n σ s t)
  | symm i j => exact get1_alone _ _ _ _ _ fun s => get1_alone _ _ _ _ _ fun t => push_alone _ _ _ _ (symmC_alone n σ s t)
  | «with» i v => exact get1_alone _ _ _ _ _ fun s => push_alone _ _ _ _ (withC_alone σ s v)
  | without i v => exact get1_alone _ _ _ _ _ fun s => push_alone _ _ _ _ (withoutC_alone n σ s v)
  | freeze i => exact get1_alone _ _ _ _ _ fun s => push_alone _ _ _ _ (freezeC_alone n σ s)
  | range i =>
    refine get1_alone _ _ _ _ _ fun s => ?_
    rw [LProg.alone_mbind, rangeC_alone]
    show _ = (LSet.range σ n s >>= _)
    cases LSet.range σ n s <;> rfl
  | advance k =>
    simp only [LLocal.step, LState.step]
    show _ = match loc.iters[k]? with | none => _ | some c => _
    cases loc.iters[k]? with
    | none => rfl
    | some c =>
      simp only [LProg.alone_mbind, advance_alone]
      show _ = (c.advance n σ >>= _)
      cases c.advance n σ <;> rfl
  | has i v => exact get1_alone _ _ _ _ _ fun s => note_alone _ _ _ _ _ (hasC_alone n σ s v)
  | isEmpty i => exact get1_alone _ _ _ _ _ fun s => note_alone _ _ _ _ _ (isEmptyC_alone n σ s)
  | count i => exact get1_alone _ _ _ _ _ fun s => note_alone _ _ _ _ _ (countC_alone n σ s)
  | equalSet i j => exact get1_alone _ _ _ _ _ fun s => get1_alone _ _ _ _ _ fun t => note_alone _ _ _ _ _ ((equalC_alone_both n).1 σ s t)
  | isSubsetOf i j => exact get1_alone _ _ _ _ _ fun s => get1_alone _ _ _ _ _ fun t => note_alone _ _ _ _ _ (isSubsetOfC_alone n σ s t)

/-- Any list of calls. -/
theorem runC_alone (n : Nat) : ∀ (cs : List (LCmd T)) (loc : LLocal T) (σ : LStore T),
    LLocal.forget ((loc.run n cs).alone σ) = (LLocal.state (loc, σ)).run n cs
  | [], loc, σ => rfl
  | c :: cs, loc, σ => by
    simp only [LLocal.run, LState.run, LProg.alone_mbind]
    rw [← stepC_alone]
    cases (loc.step n c).alone σ with
    | error e => rfl
    | ok r => exact runC_alone n cs r.1 r.2

/-- Its steps, taken one by one, are its work. -/
theorem alone_steps : ∀ (p : LProg T α) (σ : LStore T), ∃ t,
    match p.alone σ with
    | .ok (a, σ') => (fun r : LStore T × LProg T α => r.2.step r.1)^[t] (σ, p) = (σ', .done a)
    | .error e => ∃ σ', (fun r : LStore T × LProg T α => r.2.step r.1)^[t] (σ, p) = (σ', .panic e)
  | .done a, σ => ⟨0, rfl⟩
  | .panic e, σ => ⟨0, σ, rfl⟩
  | .load k f, σ => by
    cases hk : σ[k]? with
    | none =>
      refine ⟨1, ?_⟩
      simp only [LProg.alone, hk]
      refine ⟨σ, ?_⟩
      simp [LProg.step, hk]
    | some c =>
      obtain ⟨t, h⟩ := alone_steps (f c) σ
      refine ⟨t + 1, ?_⟩
      simpa only [LProg.alone, hk, Function.iterate_succ, Function.comp, LProg.step] using h
  | .store k s p, σ => by
    obtain ⟨t, h⟩ := alone_steps p (σ.set k s)
    refine ⟨t + 1, ?_⟩
    simpa only [LProg.alone, Function.iterate_succ, Function.comp, LProg.step] using h
  | .alloc s f, σ => by
    obtain ⟨t, h⟩ := alone_steps (f σ.length) (σ ++ [s])
    refine ⟨t + 1, ?_⟩
    simpa only [LProg.alone, Function.iterate_succ, Function.comp, LProg.step] using h

end Frozen
