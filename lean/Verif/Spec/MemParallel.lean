import Verif.Model.MemParallel

/-!
# Histories of calls that run goroutines

As in `Spec/History.lean`, but each merge, `Intersection`, `Difference` and `Where` may run goroutines, as many levels deep as its gauge says, and the
scheduler interleaves their accesses in any order.
-/

namespace Frozen

variable {T : Type}

/-- One call, its gauge, and what the scheduler does while it runs. -/
structure GCall (T : Type) where
  op : HOp T
  gauge : Int
  sched : List (List (Fin 8))

/-- What the call returns and the memory after it, if it has returned by the end of the schedule. -/
def PCall.outcome (x : PCall T) (H : Mem T) (sched : List (List (Fin 8))) : Option (Go MTree × Mem T) :=
  let s := PSt.exec (PSt.start x.code H) sched
  s.1.result.map (fun r => (r.map (fun p => ⟨p.1, x.count p.2⟩), s.2.plus s.1.own))

/-- Every step of the schedule is one of a goroutine that can make a step. -/
def PSt.Busy : PSt T × Mem T → List (List (Fin 8)) → Prop
  | _, [] => True
  | s, path :: sched => s.1.ready path ∧ PSt.Busy (s.1.step s.2 path) sched

/-- A call that merges two sets (`Union`, `Merge`, `Update`). -/
def HOp.isMerge : HOp T → Bool
  | .merge _ _ _ => true
  | _ => false

variable [GoKey T]

/-- The code of the call, if it is one that may run goroutines. -/
def World.code (G : Growth) (w : World T) (c : GCall T) : Option (PCall T) :=
  match c.op with
  | .where i p => w.sets[i]?.map (fun s => s.whereP G c.gauge p)
  | .merge i j f => w.sets[i]?.bind (fun s => w.sets[j]?.map (fun t => s.combineP G c.gauge ⟨GoKey.eq, f⟩ t))
  | .difference i j => w.sets[i]?.bind (fun s => w.sets[j]?.map (fun t => s.differenceP G c.gauge t))
  | .intersection i j => w.sets[i]?.bind (fun s => w.sets[j]?.map (fun t => s.intersectionP G c.gauge t))
  | _ => none

/-- Perform one call. While it has not returned, nothing else happens. -/
def World.gstep (G : Growth) (w : World T) (c : GCall T) : World T :=
  match w.code G c with
  | some x =>
    match x.outcome w.mem c.sched with
    | some r => w.push r
    | none => w
  | none => w.step G c.op

/-- Perform the calls in order. -/
def World.gruns (G : Growth) (w : World T) (cs : List (GCall T)) : World T := cs.foldl (World.gstep G) w

/-- The call returns within its schedule. -/
def World.Returns (G : Growth) (w : World T) (c : GCall T) : Prop :=
  ∀ x, w.code G c = some x → (x.outcome w.mem c.sched).isSome

/-- Every call returns within its schedule. -/
def AllReturn (G : Growth) (w : World T) : List (GCall T) → Prop
  | [] => True
  | c :: cs => w.Returns G c ∧ AllReturn G (w.gstep G c) cs

/-- No call adds an element to a set that has three others with the same 64-bit hash. -/
def UncrowdedCalls (G : Growth) (w : World T) : List (GCall T) → Prop
  | [] => True
  | c :: cs => Uncrowded w c.op ∧ UncrowdedCalls G (w.gstep G c) cs

end Frozen
