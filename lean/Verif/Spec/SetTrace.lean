import Verif.Spec.SetProg

/-! # Call histories on builders and iterators, and what they must return -/

namespace Frozen

variable {T : Type}

/-- A call on a `SetBuilder`. -/
inductive BuilderCall (T : Type) where
  | add (v : T)
  | remove (v : T)
  | has (v : T)
  | count
  | finish

/-- What a builder call returns. -/
inductive BuilderReply (T : Type) where
  | unit
  | bool (b : Bool)
  | int (n : Int)
  | set (s : FSet T)

variable [GoKey T]

/-- Make one call on a builder. -/
def BuilderCall.run (b : SetBuilder T) : BuilderCall T → Go (SetBuilder T × BuilderReply T)
  | .add v => do let b' ← SetBuilder.add b v; pure (b', .unit)
  | .remove v => do let b' ← SetBuilder.remove b v; pure (b', .unit)
  | .has v => do let r ← SetBuilder.has b v; pure (b, .bool r)
  | .count => pure (b, .int (SetBuilder.count b))
  | .finish => pure ((SetBuilder.finish b).2, .set (SetBuilder.finish b).1)

/-- Make a sequence of calls and collect the replies. -/
def runBuilderCalls (b : SetBuilder T) : List (BuilderCall T) → Go (List (BuilderReply T))
  | [] => pure []
  | c :: cs => do
    let (b', r) ← c.run b
    let rs ← runBuilderCalls b' cs
    pure (r :: rs)

/-- The mathematical set held by the builder after a call. -/
def BuilderCall.after (P : T → Prop) : BuilderCall T → T → Prop
  | .add v => fun w => P w ∨ GoKey.eq v w = true
  | .remove v => fun w => P w ∧ ¬ GoKey.eq v w = true
  | .has _ => P
  | .count => P
  | .finish => fun _ => False

/-- The reply a call must give when the builder holds the mathematical set `P`. -/
def BuilderCall.Replies (P : T → Prop) : BuilderCall T → BuilderReply T → Prop
  | .add _, r => r = .unit
  | .remove _, r => r = .unit
  | .has v, r => ∃ b, r = .bool b ∧ (b = true ↔ P v)
  | .count, r => ∃ n, r = .int n ∧ HasCard P n
  | .finish, r => ∃ s, r = .set s ∧ s.Reachable ∧ (∀ w, s.Mem w ↔ P w) ∧ HasCard P s.count

/-- The replies to a sequence of calls are the ones a builder holding `P` must give. -/
def TraceOk (P : T → Prop) : List (BuilderCall T) → List (BuilderReply T) → Prop
  | [], [] => True
  | c :: cs, r :: rs => c.Replies P r ∧ TraceOk (c.after P) cs rs
  | _, _ => False

omit [GoKey T] in
/-- Call `Next` `n` times; record `Value()` after each call that returned true, `none` after each that returned false. -/
def Iter.calls (it : Iter T) : Nat → Go (List (Option T))
  | 0 => pure []
  | n + 1 => do
    let (it', ok) ← it.next
    if ok then do
      let v ← it'.value
      let rest ← it'.calls n
      pure (some v :: rest)
    else do
      let rest ← it'.calls n
      pure (none :: rest)

end Frozen
