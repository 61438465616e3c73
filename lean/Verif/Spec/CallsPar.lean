import Verif.Model.CallsPar

/-! # How goroutines must call the user's function -/

namespace Frozen

variable {Q A X α T : Type}

/-- The call ends in every schedule: no schedule runs for ever, and in each state that is not final some goroutine can go on, with a
silent step or by a call that may be answered in any way. (So nothing panics and nothing deadlocks.) -/
def CComp.Ends (c0 : CComp Q A X) : Prop :=
  ∀ tr c, CRuns c0 tr c → Acc (fun c2 c1 => ∃ l, CStep c1 l c2) c ∧
    ((∃ r, c = .seq (.done r)) ∨ (∃ c', CStep c none c') ∨ ∃ q, ∀ a, ∃ c', CStep c (some (q, a)) c')

/-- In every schedule and for all answers the user's function is called at most once on each of `qs` and on nothing else, and when the call
returns, exactly once on each. What it returns is then in order (`I`) for the calls and answers `tr`, listed as they happened. -/
def CCall.Once (qs : List Q) (I : List (Q × A) → α → Prop) : CCall Q A α → Prop
  | .ret a => qs = [] ∧ I [] a
  | .run c0 k => c0.Ends ∧ ∀ tr c, CRuns c0 tr c →
    (∃ rest, qs.Perm (tr.map (·.1) ++ rest)) ∧ ∀ r, c = .seq (.done r) → qs.Perm (tr.map (·.1)) ∧ I tr (k r)

/-- The pool of values after some calls, each of which takes its arguments, at least one, out and puts its answer in. -/
inductive PoolAfter (pool : List T) : List (List T × T) → List T → Prop
  | start {p} (h : pool.Perm p) : PoolAfter pool [] p
  | call {tr q rest p} (a) (h : PoolAfter pool tr p) (hp : p.Perm (q ++ rest)) (hq : q ≠ []) : PoolAfter pool (tr ++ [(q, a)]) (a :: rest)

/-- In every schedule and for all answers the calls take their arguments out of the pool and put the answers in; what is returned is the
only value left in the end. -/
def CCall.Spends (pool : List T) : CCall (List T) T (Option T) → Prop
  | .ret r => pool.Perm r.toList
  | .run c0 k => c0.Ends ∧ ∀ tr c, CRuns c0 tr c → ∃ p, PoolAfter pool tr p ∧ ∀ r, c = .seq (.done r) → p.Perm (k r).toList

end Frozen
