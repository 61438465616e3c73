import Verif.Spec.ForkJoin
import Verif.Model.Parallel

/-!
# Calls that run goroutines, in memory

`Model/Parallel.lean` models the goroutines that one call of `Union`, `Merge`, `Update`, `Intersection` or `Where` may start
(`Gauge.Parallel`, gauge.go:51-71) with trees that are values: what they do to the slots, the mask, the channel and the counters.
Here the goroutines work on the memory of `Model/Memory.lean`: they read nodes that other sets share and allocate and write nodes of
their own, one access after the other, and the scheduler interleaves the accesses of all goroutines, which may start goroutines in turn.

Addresses: a goroutine sees the memory as it was when it was started, which is shared with everybody, and behind it what it allocated
itself. A write to the shared part is seen by everybody. When all goroutines of a `Parallel` have ended, their memories are laid one
behind the other (Spec/ForkJoin.lean).

Simplifications: the goroutines of one `Parallel` start together; `ret.p.data[i] = x` at the end of a goroutine and the bookkeeping with
the channel are part of its end (they are steps of their own in `Model/Parallel.lean`). A panic in a goroutine ends the program; here the
others run on, which nobody sees, and the panic is the outcome of the call.
-/

namespace Frozen

variable {T : Type}

/-- Code that returns a node and a count, as the sequence of its single accesses; `par` starts the goroutine `kids i` for each one-bit `i`
of the mask, waits for all of them, and goes on with their nodes and the sum of their counts (gauge.go:51-71). -/
inductive PC (T : Type) where
  | done (r : Go (Ptr × Int))
  | readCell (a : Nat) (k : Option (Cell T) → PC T)
  | readElem (arr i : Nat) (k : Option T → PC T)
  | alloc (c : Cell T) (k : Nat → PC T)
  | allocArr (l : List T) (k : Nat → PC T)
  | writeCell (a : Nat) (c : Cell T) (k : PC T)
  | writeElem (arr i : Nat) (v : T) (k : PC T)
  | par (mask : Masker) (kids : Fin 8 → PC T) (k : (Fin 8 → Ptr) → Int → PC T)

/-- Code without goroutines, followed by `f`. -/
def PC.ofMM {α : Type} (f : α → PC T) : MM T α → PC T
  | .done (.ok a) => f a
  | .done (.error e) => .done (.error e)
  | .readCell a k => .readCell a (fun c => PC.ofMM f (k c))
  | .readElem arr i k => .readElem arr i (fun c => PC.ofMM f (k c))
  | .alloc c k => .alloc c (fun a => PC.ofMM f (k a))
  | .allocArr l k => .allocArr l (fun a => PC.ofMM f (k a))
  | .writeCell a c k => .writeCell a c (PC.ofMM f k)
  | .writeElem arr i v k => .writeElem arr i v (PC.ofMM f k)

/-- One access. Starting goroutines and waiting for them is not an access (see `PSt.step`). -/
def PC.access : PC T → Mem T → PC T × Mem T
  | .done r, H => (.done r, H)
  | .readCell a k, H => (k H.cells[a]?, H)
  | .readElem arr i k, H => (k (H.arrays[arr]?.bind (·[i]?)), H)
  | .alloc c k, H => (k H.cells.length, ⟨H.cells ++ [c], H.arrays, H.log⟩)
  | .allocArr l k, H => (k H.arrays.length, ⟨H.cells, H.arrays ++ [l], H.log⟩)
  | .writeCell a c k, H => (k, H.setCell a c)
  | .writeElem arr i v k, H => (k, H.setElem arr i v)
  | .par mask kids k, H => (.par mask kids k, H)

/-- The location that the code overwrites with its next access. -/
def PC.nextWrite : PC T → Option Loc
  | .writeCell a _ _ => some (.cell a)
  | .writeElem arr _ _ _ => some (.arr arr)
  | _ => none

/-- All goroutines have ended, with the results `res` and the memories `own`; `H` is the memory at their start. In slot order their memories
are laid behind `J`, their nodes go to their slots and their counts are added (branch.go:97-110, 185-191, 290-294; gauge.go:65-71). -/
def joinKids (H : Mem T) (res : Fin 8 → Go (Ptr × Int)) (own : Fin 8 → Mem T) :
    List Nat → Mem T → (Fin 8 → Ptr) → Int → Go ((Fin 8 → Ptr) × Int) × Mem T
  | [], J, slots, ms => (.ok (slots, ms), J)
  | i :: is, J, slots, ms =>
    if h : i < 8 then
      match res ⟨i, h⟩ with
      | .ok r => joinKids H res own is (H.laid J (own ⟨i, h⟩)) (setSlot slots ⟨i, h⟩ (r.1.map (Move.behind H J).cell)) (ms + r.2)
      | .error e => (.error e, J)
    else (.error (.msg "index out of range"), J)

/-! ## The scheduler -/

/-- A goroutine and those it waits for: it runs, with its own memory, or it waits. -/
inductive PSt (T : Type) where
  | run (code : PC T) (own : Mem T)
  | wait (mask : Masker) (k : (Fin 8 → Ptr) → Int → PC T) (kids : Fin 8 → PSt T) (own : Mem T)

/-- What the goroutine returned or panicked with, if it has ended. -/
def PSt.result : PSt T → Option (Go (Ptr × Int))
  | .run (.done r) _ => some r
  | _ => none

/-- The goroutine's own memory. -/
def PSt.own : PSt T → Mem T
  | .run _ own => own
  | .wait _ _ _ own => own

/-- The goroutine at the end of the path makes its next step; `S` is the memory at the start of the goroutine at the root, which it
shares with others. The path leads from goroutine to child. A goroutine starts its children in one step, and collects their results in
one step when all have ended. -/
def PSt.step : PSt T → Mem T → List (Fin 8) → PSt T × Mem T
  | .run (.par mask kids k) own, S, [] => (.wait mask k (fun i => .run (kids i) ⟨[], [], own.log⟩) own, S)
  | .run code own, S, [] => (.run (code.access (S.plus own)).1 (S.high (code.access (S.plus own)).2), S.low (code.access (S.plus own)).2)
  | .run code own, S, _ :: _ => (.run code own, S)
  | .wait mask k kids own, S, [] =>
    if mask.indices.all (fun i => (kids i).result.isSome) then
      let H := S.plus own
      match joinKids H (fun i => (kids i).result.getD (.ok (none, 0))) (fun i => (kids i).own) (bitLoop mask) H (fun _ => none) 0 with
      | (.ok (slots, ms), J) => (.run (k slots ms) (S.high J), S.low J)
      | (.error e, J) => (.run (.done (.error e)) (S.high J), S.low J)
    else (.wait mask k kids own, S)
  | .wait mask k kids own, S, i :: path =>
    if i ∈ mask.indices then
      let r := (kids i).step (S.plus own) path
      (.wait mask k (setSlot kids i r.1) (S.high r.2), S.low r.2)
    else (.wait mask k kids own, S)

/-- The goroutine at the end of the path exists and can make a step. -/
def PSt.ready : PSt T → List (Fin 8) → Prop
  | .run (.done _) _, _ => False
  | .run _ _, path => path = []
  | .wait mask _ kids _, [] => ∀ i ∈ mask.indices, (kids i).result.isSome
  | .wait mask _ kids _, i :: path => i ∈ mask.indices ∧ (kids i).ready path

/-- What the goroutine at the end of the path overwrites with its next step, and the memory at its start. -/
def PSt.nextWrite : PSt T → Mem T → List (Fin 8) → Option (Loc × Mem T)
  | .run code _, S, [] => code.nextWrite.map (fun l => (l, S))
  | .run _ _, _, _ :: _ => none
  | .wait _ _ _ _, _, [] => none
  | .wait mask _ kids own, S, i :: path => if i ∈ mask.indices then (kids i).nextWrite (S.plus own) path else none

/-- What the scheduler does: whose turn it is, again and again. -/
def PSt.exec (s : PSt T × Mem T) (sched : List (List (Fin 8))) : PSt T × Mem T := sched.foldl (fun s path => s.1.step s.2 path) s

/-- A call about to begin in the memory `H`. -/
def PSt.start (x : PC T) (H : Mem T) : PSt T × Mem T := (.run x ⟨[], [], H.log⟩, H)

variable [GoKey T]

/-! ## The operations -/

/-- Return what the code returns. -/
def PC.ret (x : MM T (Ptr × Int)) : PC T := PC.ofMM (fun r => .done (.ok r)) x

/-- branch.go:94-123 `Combine` with goroutines while the depth is below the gauge, and as in `combineM` otherwise. The code here looks
whether both are branches before it calls anything. Where only one of the branches has a child, the goroutine returns it at once. The
writes of the goroutines to the slots of the new branch are done at the join. -/
def combineP (G : Growth) (g : Int) : Nat → CombineArgs T → Ptr → Ptr → Nat → PC T
  | fuel + 1, args, some a, some b, d =>
    .readCell a (fun c => .readCell b (fun n =>
      match c, n with
      | some (.branch m k), some (.branch m2 k2) =>
        if (d : Int) < g then
          .alloc (.branch 0#16 (fun _ => none)) (fun ret =>
            .par (m ||| m2)
              (fun i =>
                if (k i).isNone then .done (.ok (k2 i, 0))
                else if (k2 i).isNone then .done (.ok (k i, 0))
                else combineP G g fuel args (k i) (k2 i) (d + 1))
              (fun slots ms => PC.ret (do
                writeCell ret (.branch 0#16 slots)
                updateMaskM ret
                pure (some ret, ms))))
        else PC.ret (combineM G (fuel + 1) args (some a) (some b) d)
      | _, _ => PC.ret (combineM G (fuel + 1) args (some a) (some b) d)))
  | fuel, args, p, q, d => PC.ret (combineM G fuel args p q d)

/-- branch.go:125-153 `Difference` with goroutines, likewise. -/
def differenceP (G : Growth) (g : Int) : Nat → Ptr → Ptr → Nat → PC T
  | fuel + 1, some a, some b, d =>
    .readCell a (fun c => .readCell b (fun n =>
      match c, n with
      | some (.branch m k), some (.branch _ k2) =>
        if (d : Int) < g then
          .alloc (.branch 0#16 (fun _ => none)) (fun ret =>
            .par m (fun i => if (k2 i).isNone then .done (.ok (k i, 0)) else differenceP G g fuel (k i) (k2 i) (d + 1))
              (fun slots ms => PC.ret (do
                writeCell ret (.branch 0#16 slots)
                updateMaskM ret
                let p ← branchCanonicalM G ret
                pure (p, ms))))
        else PC.ret (differenceM G (fuel + 1) (some a) (some b) d)
      | _, _ => PC.ret (differenceM G (fuel + 1) (some a) (some b) d)))
  | fuel, p, q, d => PC.ret (differenceM G fuel p q d)

/-- branch.go:181-201 `Intersection` with goroutines, likewise. -/
def intersectionP (G : Growth) (g : Int) : Nat → Ptr → Ptr → Nat → PC T
  | fuel + 1, some a, some b, d =>
    .readCell a (fun c => .readCell b (fun n =>
      match c, n with
      | some (.branch m k), some (.branch m2 k2) =>
        if (d : Int) < g then
          .alloc (.branch 0#16 (fun _ => none)) (fun ret =>
            .par (m &&& m2) (fun i => intersectionP G g fuel (k i) (k2 i) (d + 1))
              (fun slots ms => PC.ret (do
                writeCell ret (.branch 0#16 slots)
                updateMaskM ret
                let p ← branchCanonicalM G ret
                pure (p, ms))))
        else PC.ret (intersectionM G (fuel + 1) (some a) (some b) d)
      | _, _ => PC.ret (intersectionM G (fuel + 1) (some a) (some b) d)))
  | fuel, p, q, d => PC.ret (intersectionM G fuel p q d)

/-- branch.go:287-301 `Where` with goroutines, likewise. -/
def whereP (G : Growth) (g : Int) (pred : T → Bool) : Nat → Ptr → Nat → PC T
  | fuel + 1, some a, d =>
    .readCell a (fun c =>
      match c with
      | some (.branch m k) =>
        if (d : Int) < g then
          .alloc (.branch 0#16 (fun _ => none)) (fun nodes =>
            .par m (fun i => whereP G g pred fuel (k i) (d + 1))
              (fun slots ms => PC.ret (do
                writeCell nodes (.branch 0#16 slots)
                updateMaskM nodes
                match ← readCell nodes with
                | .branch m' k' =>
                  if m' = m ∧ ∀ i, k' i = k i then pure (some a, ms)
                  else do
                    let b ← alloc (.branch m' k')
                    let p ← branchCanonicalM G b
                    pure (p, ms)
                | _ => raise .nilDeref)))
        else PC.ret (whereM G pred (fuel + 1) (some a) d)
      | _ => PC.ret (whereM G pred (fuel + 1) (some a) d))
  | fuel, p, d => PC.ret (whereM G pred fuel p d)

/-- The code of a call, and how the count of the set it returns comes from the count the code returns. -/
structure PCall (T : Type) where
  code : PC T
  count : Int → Int

/-- tree.go:177-185 `Where` -/
def MTree.whereP (G : Growth) (g : Int) (t : MTree) (pred : T → Bool) : PCall T :=
  if t.root.isNone then ⟨.done (.ok (t.root, t.count)), id⟩ else ⟨Frozen.whereP G g pred memFuel t.root 0, id⟩

/-- tree.go:48-60 `Combine` -/
def MTree.combineP (G : Growth) (g : Int) (t : MTree) (args : CombineArgs T) (u : MTree) : PCall T :=
  if t.root.isNone then ⟨.done (.ok (u.root, u.count)), id⟩
  else if u.root.isNone then ⟨.done (.ok (t.root, t.count)), id⟩
  else ⟨Frozen.combineP G g memFuel args t.root u.root 0, fun ms => t.count + u.count - ms⟩

/-- tree.go:62-71 `Difference` -/
def MTree.differenceP (G : Growth) (g : Int) (t u : MTree) : PCall T :=
  if t.root.isNone || u.root.isNone then ⟨.done (.ok (t.root, t.count)), id⟩
  else ⟨Frozen.differenceP G g memFuel t.root u.root 0, fun ms => t.count - ms⟩

/-- tree.go:92-104 `Intersection` -/
def MTree.intersectionP (G : Growth) (g : Int) (t u : MTree) : PCall T :=
  if t.root.isNone || u.root.isNone then ⟨.done (.ok (none, 0)), id⟩
  else
    let (t, u) := if t.count > u.count then (u, t) else (t, u)
    ⟨Frozen.intersectionP G g memFuel t.root u.root 0, id⟩

end Frozen
