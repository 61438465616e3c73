import Verif.Spec.CallsPar
import Verif.Spec.Misc

/-! # Which panics the caller of the library can recover: specification

In Go a panic unwinds the goroutine in which it happens. If no deferred function of that goroutine recovers it, the whole program ends. So
the caller of a library function can recover a panic only if it happens in the caller's own goroutine, not in one that the library has
started (`Gauge.Parallel`, gauge.go:60-63, which does not recover). -/

namespace Frozen

variable {Q A X α : Type}

/-- The call is run by the goroutine that made it, and it has no goroutine beside itself. (While there are some, the caller's goroutine waits
for them: it calls nobody.) -/
def CComp.Alone : CComp Q A X → Prop
  | .seq _ => True
  | .par _ _ _ _ => False

/-- In every schedule and for all answers, the user's function is only ever called by the goroutine that made the API call: the caller can
recover its panics. -/
def CCall.CalledByCaller : CCall Q A α → Prop
  | .ret _ => True
  | .run c0 _ => ∀ tr c, CRuns c0 tr c → ∀ qa c', CStep c (some qa) c' → c.Alone

/-- In every schedule and for all answers, the user's function is only ever called by goroutines that the library has started: no panic of it
can be recovered. -/
def CCall.CalledByOthers : CCall Q A α → Prop
  | .ret _ => True
  | .run c0 _ => ∀ tr c, CRuns c0 tr c → ∀ qa c', CStep c (some qa) c' → ¬ c.Alone

/-- In some schedule the user's function is called. -/
def CCall.Called : CCall Q A α → Prop
  | .ret _ => False
  | .run c0 _ => ∃ tr c qa c', CRuns c0 tr c ∧ CStep c (some qa) c'

/-- The goroutine that made the API call is about to panic itself. -/
inductive St.OwnPanic : St X → Prop
  | seq (e) : St.OwnPanic (.start (.seq (.error e)))
  | fail (fr kids v m rest n e) (ht : v.todo = []) (hr : v.res = none) (hw : v.want = n + 1) (hc : v.chan = (false, m) :: rest)
      (hk : fr.k v.mask v.slots false v.acc = .error e) : St.OwnPanic (.par fr kids v)
  | finish (fr kids v e) (ht : v.todo = []) (hr : v.res = none) (hw : v.want = 0) (hk : fr.k v.mask v.slots true v.acc = .error e) :
      St.OwnPanic (.par fr kids v)

/-- Some schedule makes the caller's goroutine panic: the caller can recover. -/
def Call.PanicsInCaller : Call α → Prop
  | .seq r => ∃ e, r = .error e
  | .run c k => (∃ s, Reaches c s ∧ s.OwnPanic) ∨ (∃ s r e, Reaches c s ∧ s.result = some r ∧ k r = .error e)

/-- Some schedule makes a goroutine panic that the library has started: the program ends. -/
def Call.PanicsInOthers : Call α → Prop
  | .seq _ => False
  | .run c _ => ∃ fr kids v i, Reaches c (.par fr kids v) ∧ Step (kids i) none

end Frozen
