import Verif.Model.Map

/-!
# Goroutines: `Gauge.Parallel` (gauge.go:51-84) and the operations that use it

`parallel` (`Model/Basic.lean`) models the sequential arm of `Gauge.Parallel`. This file models the other arm: goroutines that compute,
write to the shared packer and send on a channel, interleaved by an arbitrary scheduler.

A computation (`Comp`) is a tree of `Parallel` calls with sequential code at its leaves and after each call. The machine (`Step`) takes
one step of one goroutine at a time. Steps that only touch a goroutine's own data are merged; each access to the packer's mask, each write
of a slot, each `go` statement, each send and each receive is a step of its own.

Not modelled: Go's memory model beyond sequential consistency, and the scheduler's fairness (termination does not depend on it). The
field that `CombineArgs.Flip` fills (nodeArgs.go:40-50) is not part of the machine's state, since all goroutines that fill it give it
equivalent values; which goroutines access it is the subject of Model/Flip.lean.
-/

namespace Frozen

variable {T X : Type}

/-- The slots that the loops `for m := mask; m != 0; m = m.Next()` (gauge.go:58, 65) visit, in order. An index of 8 or more, for which
the closures would panic, is left out; reachable masks have none (`MaskOk`, Proof). -/
def Masker.indices (m : Masker) : List (Fin 8) := (bitLoop m).filterMap (fun i => if h : i < 8 then some ⟨i, h⟩ else none)

/-- Code that may call `Parallel` in its concurrent mode. A closure's result is the value `x` that it stores in its slot and the pair
`(ok, matches)` that it returns. -/
inductive Comp (X : Type) where
  /-- Sequential code. -/
  | seq (r : Go (X × Bool × Int))
  /-- `ok, matches := Parallel(depth, mask, f)` with `depth < gauge`, followed by sequential code `k` that reads the packer's mask, its
  slots, `ok` and `matches`. The closure `f(i)` runs `body i`, updates the packer's mask if `sets i`, and writes slot `i`. -/
  | par (mask : Masker) (body : Fin 8 → Comp X) (sets : Fin 8 → Bool)
      (k : Masker → (Fin 8 → Option X) → Bool → Int → Go (X × Bool × Int))

/-- A call of `Parallel` in progress: the parts that do not change. -/
structure Frame (X : Type) where
  mask : Masker
  body : Fin 8 → Comp X
  sets : Fin 8 → Bool
  k : Masker → (Fin 8 → Option X) → Bool → Int → Go (X × Bool × Int)

/-- Where a goroutine is (gauge.go:60-63, with packer.go:38-41 `SetNonNilChild` inside `f`). -/
inductive Phase where
  /-- before or in the computation of its value -/
  | run
  /-- about to read the mask in `p.mask |= …` -/
  | readMask
  /-- about to write the mask, having read `m0` -/
  | writeMask (m0 : Masker)
  /-- about to write `data[i]` -/
  | store
  /-- about to send -/
  | send
  /-- finished -/
  | sent
deriving DecidableEq

/-- A call of `Parallel` in progress: the variables. -/
structure Vars (X : Type) where
  /-- the goroutines still to be started by the loop in gauge.go:58-64 -/
  todo : List (Fin 8)
  phase : Fin 8 → Phase
  /-- the packer's mask and slots, shared by the goroutines; `none` is an unwritten slot -/
  mask : Masker
  slots : Fin 8 → Option X
  /-- the channel `outcomes`, of capacity `Fanout` = 8 (gauge.go:57) -/
  chan : List (Bool × Int)
  /-- the number of receives left in the loop in gauge.go:65-71, and `matches` so far -/
  want : Nat
  acc : Int
  /-- the result, once the caller has one -/
  res : Option (X × Bool × Int)

/-- The state of a goroutine and of the goroutines it has started. -/
inductive St (X : Type) where
  /-- not started -/
  | idle
  | start (c : Comp X)
  | done (r : X × Bool × Int)
  | par (fr : Frame X) (kids : Fin 8 → St X) (v : Vars X)

/-- The result the goroutine itself has reached. Goroutines it started may still be running: `Equal` and `SubsetOf` do not wait for
all of them (gauge.go:69). -/
def St.result : St X → Option (X × Bool × Int)
  | .done r => some r
  | .par _ _ v => v.res
  | _ => none

/-- The goroutine and all goroutines below it have run to their end. -/
def St.finished : St X → Prop
  | .idle => True
  | .start _ => False
  | .done _ => True
  | .par fr kids v => v.todo = [] ∧ v.res.isSome ∧ ∀ i, (i ∈ fr.mask.indices → v.phase i = .sent) ∧ (kids i).finished

/-- One step of one goroutine. The target `none` is a panic, which ends the whole process: no goroutine recovers. -/
inductive Step : St X → Option (St X) → Prop
  | seqOk (r) : Step (.start (.seq (.ok r))) (some (.done r))
  | seqPanic (e) : Step (.start (.seq (.error e))) none
  /-- gauge.go:57: make the channel. -/
  | enter (mask body sets k) : Step (.start (.par mask body sets k))
      (some (.par ⟨mask, body, sets, k⟩ (fun _ => .idle)
        ⟨mask.indices, fun _ => .run, 0#16, fun _ => none, [], mask.indices.length, 0, none⟩))
  /-- gauge.go:58-64: start the next goroutine. -/
  | spawn (fr kids v i is) (h : v.todo = i :: is) : Step (.par fr kids v)
      (some (.par fr (setSlot kids i (.start (fr.body i))) { v with todo := is }))
  /-- a step of a started goroutine -/
  | kid (fr kids v i s) (h : Step (kids i) (some s)) : Step (.par fr kids v) (some (.par fr (setSlot kids i s) v))
  | kidPanic (fr kids v i) (h : Step (kids i) none) : Step (.par fr kids v) none
  /-- `f(i)` has its value. -/
  | computed (fr kids v i r) (hp : v.phase i = .run) (hr : St.result (kids i) = some r) : Step (.par fr kids v)
      (some (.par fr kids { v with phase := setSlot v.phase i (if fr.sets i then .readMask else .store) }))
  /-- packer.go:39, the read of `p.mask |= masker.NewMasker(i)`. -/
  | readMask (fr kids v i) (hp : v.phase i = .readMask) : Step (.par fr kids v)
      (some (.par fr kids { v with phase := setSlot v.phase i (.writeMask v.mask) }))
  /-- packer.go:39, the write: updates by other goroutines since the read are lost. -/
  | writeMask (fr kids v i m0) (hp : v.phase i = .writeMask m0) : Step (.par fr kids v)
      (some (.par fr kids { v with mask := m0 ||| newMasker i, phase := setSlot v.phase i .store }))
  /-- `data[i] = n` (packer.go:40, branch.go:107, 132, 136, 189, 211, 293) -/
  | store (fr kids v i r) (hp : v.phase i = .store) (hr : St.result (kids i) = some r) : Step (.par fr kids v)
      (some (.par fr kids { v with slots := setSlot v.slots i (some r.1), phase := setSlot v.phase i .send }))
  /-- gauge.go:62, possible only while the channel is not full. -/
  | send (fr kids v i r) (hp : v.phase i = .send) (hr : St.result (kids i) = some r) (hc : v.chan.length < 8) : Step (.par fr kids v)
      (some (.par fr kids { v with chan := v.chan ++ [r.2], phase := setSlot v.phase i .sent }))
  /-- gauge.go:66-67: receive an outcome with `ok` set. -/
  | recv (fr kids v m rest n) (ht : v.todo = []) (hr : v.res = none) (hw : v.want = n + 1) (hc : v.chan = (true, m) :: rest) :
      Step (.par fr kids v) (some (.par fr kids { v with chan := rest, want := n, acc := v.acc + m }))
  /-- gauge.go:68-69: receive an outcome without `ok`, return early and run the code after the call. -/
  | fail (fr kids v m rest n r) (ht : v.todo = []) (hr : v.res = none) (hw : v.want = n + 1) (hc : v.chan = (false, m) :: rest)
      (hk : fr.k v.mask v.slots false v.acc = .ok r) :
      Step (.par fr kids v) (some (.par fr kids { v with chan := rest, want := n, res := some r }))
  | failPanic (fr kids v m rest n e) (ht : v.todo = []) (hr : v.res = none) (hw : v.want = n + 1) (hc : v.chan = (false, m) :: rest)
      (hk : fr.k v.mask v.slots false v.acc = .error e) : Step (.par fr kids v) none
  /-- gauge.go:83: return, and run the code after the call. -/
  | finish (fr kids v r) (ht : v.todo = []) (hr : v.res = none) (hw : v.want = 0) (hk : fr.k v.mask v.slots true v.acc = .ok r) :
      Step (.par fr kids v) (some (.par fr kids { v with res := some r }))
  | finishPanic (fr kids v e) (ht : v.todo = []) (hr : v.res = none) (hw : v.want = 0) (hk : fr.k v.mask v.slots true v.acc = .error e) :
      Step (.par fr kids v) none

/-- The states that some schedule leads to. -/
inductive Reaches (c : Comp X) : St X → Prop
  | start : Reaches c (.start c)
  | step {s s'} (h : Reaches c s) (hs : Step s (some s')) : Reaches c s'

/-! ## The operations

Each follows its sequential model; only a call of `Parallel` with `d < g` differs. -/

/-- Sequential code that returns `(n, ms)`, from a closure that then returns `(true, ms)`. -/
def seqOf (r : Go (X × Int)) : Comp X := .seq (r.map (fun p => (p.1, true, p.2)))

/-- The packer that the closures filled. -/
def packed (mask : Masker) (slots : Fin 8 → Option (Node T)) : Packer T := ⟨mask, fun i => (slots i).getD .nil⟩

variable [GoKey T]

/-- branch.go:94-123 `Combine` under gauge `g`; the other cases do not call `Parallel`. -/
def combineC (g : Int) : Node T → CombineArgs T → Node T → Nat → Comp (Node T)
  | .branch m k, args, n, d =>
    match n with
    | .branch m2 k2 =>
      if (d : Int) < g then
        .par (m ||| m2)
          (fun i =>
            if (k i).isNil then .seq (.ok (k2 i, true, 0))
            else if (k2 i).isNil then .seq (.ok (k i, true, 0))
            else combineC g (k i) args (k2 i) (d + 1))
          (fun i => (k i).isNil || (k2 i).isNil)
          (fun mask slots _ ms => .ok ((packed mask slots).updateMask.toNode, true, ms))
      else seqOf (combine (.branch m k) args n d)
    | n => seqOf (combine (.branch m k) args n d)
  | n1, args, n, d => seqOf (combine n1 args n d)

/-- branch.go:125-153 `Difference` under gauge `g`. -/
def differenceC (g : Int) : Node T → Node T → Nat → Comp (Node T)
  | .branch m k, n, d =>
    match n with
    | .branch m2 k2 =>
      if (d : Int) < g then
        .par m
          (fun i => if (k2 i).isNil then .seq (.ok (k i, true, 0)) else differenceC g (k i) (k2 i) (d + 1))
          (fun _ => false)
          (fun mask slots _ ms => (branchCanonical (packed mask slots).updateMask).map (fun r => (r, true, ms)))
      else seqOf (difference (.branch m k) (.branch m2 k2) d)
    | n => seqOf (difference (.branch m k) n d)
  | n1, n, d => seqOf (difference n1 n d)

/-- branch.go:181-201 `Intersection` under gauge `g`. -/
def intersectionC (g : Int) : Node T → Node T → Nat → Comp (Node T)
  | .branch m k, n, d =>
    match n with
    | .branch m2 k2 =>
      if (d : Int) < g then
        .par (m &&& m2)
          (fun i => intersectionC g (k i) (k2 i) (d + 1))
          (fun _ => false)
          (fun mask slots _ ms => (branchCanonical (packed mask slots).updateMask).map (fun r => (r, true, ms)))
      else seqOf (intersection (.branch m k) (.branch m2 k2) d)
    | n => seqOf (intersection (.branch m k) n d)
  | n1, n, d => seqOf (intersection n1 n d)

/-- A closure that returns `(ok, 0)` and stores nothing. -/
def seqBool (r : Go Bool) : Comp Unit := .seq (r.map (fun b => ((), b, 0)))

omit [GoKey T] in
/-- branch.go:159-171 `Equal` under gauge `g`. -/
def equalC (g : Int) (eq : T → T → Bool) : Node T → Node T → Nat → Comp Unit
  | .branch m k, n, d =>
    match n with
    | .branch m2 k2 =>
      if m ≠ m2 then seqBool (.ok false)
      else if (d : Int) < g then
        .par m (fun i => equalC g eq (k i) (k2 i) (d + 1)) (fun _ => false) (fun _ _ ok _ => .ok ((), ok, 0))
      else seqBool (equal eq (.branch m k) (.branch m2 k2))
    | n => seqBool (equal eq (.branch m k) n)
  | n1, n, _ => seqBool (equal eq n1 n)

/-- branch.go:242-259 `SubsetOf` under gauge `g`. -/
def subsetOfC (g : Int) : Node T → Node T → Nat → Comp Unit
  | .branch m k, n, d =>
    match n with
    | .branch m2 k2 =>
      if (d : Int) < g then
        .par (m ||| m2)
          (fun i =>
            if (k i).isNil then seqBool (.ok true)
            else if (k2 i).isNil then seqBool (.ok false)
            else subsetOfC g (k i) (k2 i) (d + 1))
          (fun _ => false) (fun _ _ ok _ => .ok ((), ok, 0))
      else seqBool (subsetOf (.branch m k) (.branch m2 k2) d)
    | n => seqBool (subsetOf (.branch m k) n d)
  | n1, n, d => seqBool (subsetOf n1 n d)

/-- branch.go:287-301 `Where` under gauge `g`. The slot value carries the pointer comparison flag of `where`. -/
def whereC (g : Int) (pred : T → Bool) : Node T → Nat → Comp (Node T × Bool)
  | .branch m k, d =>
    if (d : Int) < g then
      .par m (fun i => whereC g pred (k i) (d + 1)) (fun _ => false)
        (fun mask slots _ ms =>
          let nodes := (packed mask (fun i => (slots i).map (·.1))).updateMask
          if nodes.mask = m ∧ (List.finRange 8).all (fun i => (slots i).elim (k i).isNil (·.2)) then
            .ok ((.branch m k, true), true, ms)
          else (branchCanonical nodes).map (fun r => ((r, false), true, ms)))
    else .seq ((«where» pred (.branch m k) d).map (fun r => ((r.1, r.2.2), true, r.2.1)))
  | n, d => .seq ((«where» pred n d).map (fun r => ((r.1, r.2.2), true, r.2.1)))

omit [GoKey T] in
/-- branch.go:207-220 `Reduce` under gauge `g`. -/
def reduceC [Inhabited T] (g : Int) (r : List T → T) : Node T → Nat → Comp T
  | .branch m k, d =>
    if (d : Int) < g then
      .par m (fun i => reduceC g r (k i) (d + 1)) (fun _ => false)
        (fun _ slots _ _ => do
          let results2 ← (bitLoop m).mapM (fun i =>
            if h : i < 8 then (.ok ((slots ⟨i, h⟩).getD default) : Go T) else .error (.msg "index out of range"))
          pure (r results2, true, 0))
    else .seq ((reduce r (.branch m k)).map (fun x => (x, true, 0)))
  | n, _ => .seq ((reduce r n).map (fun x => (x, true, 0)))

/-! ## API calls -/

/-- An API call: sequential code, or one computation followed by sequential code. -/
inductive Call (α : Type) : Type 1 where
  | seq (r : Go α)
  | run {X : Type} (c : Comp X) (k : X × Bool × Int → Go α)

/-- Some schedule makes the call return `a`. -/
def Call.Returns {α : Type} : Call α → α → Prop
  | .seq r, a => r = .ok a
  | .run c k, a => ∃ s r, Reaches c s ∧ s.result = some r ∧ k r = .ok a

/-- Some schedule makes the call, or a goroutine it started, panic. -/
def Call.Panics {α : Type} : Call α → Prop
  | .seq r => ∃ e, r = .error e
  | .run c k => (∃ s, Reaches c s ∧ Step s none) ∨ (∃ s r e, Reaches c s ∧ s.result = some r ∧ k r = .error e)

/-- No schedule runs for ever: from no state do infinitely many steps lead. -/
def Call.Terminates {α : Type} : Call α → Prop
  | .seq _ => True
  | .run c _ => ∀ s, Reaches c s → Acc (fun s2 s1 => Step s1 (some s2)) s

/-- When no goroutine can take a step, the call has its result and every goroutine has run to its end: no schedule deadlocks and none
leaves a goroutine blocked. -/
def Call.NeverStuck {α : Type} : Call α → Prop
  | .seq _ => True
  | .run c _ => ∀ s, Reaches c s → (¬ ∃ o, Step s o) → s.result.isSome ∧ s.finished

/-- tree.go:48-60 `Combine` under gauge `g`. -/
def Tree.combineC (g : Int) (t : Tree T) (args : CombineArgs T) (u : Tree T) : Call (Tree T) :=
  if t.root.isNil then .seq (.ok u)
  else if u.root.isNil then .seq (.ok t)
  else .run (Frozen.combineC g t.root args u.root 0) (fun r => .ok ⟨r.1, t.count + u.count - r.2.2⟩)

/-- tree.go:62-71 `Difference` under gauge `g`. -/
def Tree.differenceC (g : Int) (t u : Tree T) : Call (Tree T) :=
  if t.root.isNil || u.root.isNil then .seq (.ok t)
  else .run (Frozen.differenceC g t.root u.root 0) (fun r => .ok ⟨r.1, t.count - r.2.2⟩)

omit [GoKey T] in
/-- tree.go:73-82 `Equal` under gauge `g`. -/
def Tree.equalC (g : Int) (eq : T → T → Bool) (t u : Tree T) : Call Bool :=
  if t.count ≠ u.count then .seq (.ok false)
  else if t.count = 0 ∧ u.count = 0 then .seq (.ok true)
  else .run (Frozen.equalC g eq t.root u.root 0) (fun r => .ok r.2.1)

/-- tree.go:92-104 `Intersection` under gauge `g`. -/
def Tree.intersectionC (g : Int) (t u : Tree T) : Call (Tree T) :=
  if t.root.isNil || u.root.isNil then .seq (.ok Tree.zero)
  else
    let (t, u) := if t.count > u.count then (u, t) else (t, u)
    .run (Frozen.intersectionC g t.root u.root 0) (fun r => .ok ⟨r.1, r.2.2⟩)

/-- tree.go:133-141 `SubsetOf` under gauge `g`. -/
def Tree.subsetOfC (g : Int) (t u : Tree T) : Call Bool :=
  if t.root.isNil then .seq (.ok true)
  else if u.root.isNil then .seq (.ok false)
  else .run (Frozen.subsetOfC g t.root u.root 0) (fun r => .ok r.2.1)

omit [GoKey T] in
/-- tree.go:157-162 `Reduce` under gauge `g`. -/
def Tree.reduceC [Inhabited T] (g : Int) (t : Tree T) (r : List T → T) : Call (Option T) :=
  if t.root.isNil then .seq (.ok none)
  else .run (Frozen.reduceC g r t.root 0) (fun x => .ok (some x.1))

/-- tree.go:177-185 `Where` under gauge `g`. -/
def Tree.whereC (g : Int) (t : Tree T) (pred : T → Bool) : Call (Tree T) :=
  if t.root.isNil then .seq (.ok t)
  else .run (Frozen.whereC g pred t.root 0) (fun r => .ok ⟨r.1.1, r.2.2⟩)

/-- Sequential code after a call. -/
def Call.map {α β : Type} (f : α → β) : Call α → Call β
  | .seq r => .seq (r.map f)
  | .run c k => .run c (fun r => (k r).map f)

/-- set.go:256-259 `Union` under gauge `g`. The gauge depends on the counts, GOMAXPROCS and FROZEN_CONCURRENCY (gauge.go:19-49); the
theorems hold for every gauge. -/
def FSet.unionC (g : Int) (s t : FSet T) : Call (FSet T) := (s.tree.combineC g ⟨GoKey.eq, useRHS⟩ t.tree).map FSet.mk

/-- set.go:251-253 `Intersection` under gauge `g`. -/
def FSet.intersectionC (g : Int) (s t : FSet T) : Call (FSet T) := (s.tree.intersectionC g t.tree).map FSet.mk

/-- set.go:262-264 `Difference`; it always uses the gauge -1 (`NonParallel`). -/
def FSet.differenceC (g : Int) (s t : FSet T) : Call (FSet T) := (s.tree.differenceC g t.tree).map FSet.mk

/-- set.go:207-214 `Where` under gauge `g`. -/
def FSet.whereC (g : Int) (s : FSet T) (pred : T → Bool) : Call (FSet T) := (s.tree.whereC g pred).map FSet.mk

/-- set.go:173-176 `Equal` under gauge `g`. -/
def FSet.equalC (g : Int) (s t : FSet T) : Call Bool := s.tree.equalC g GoKey.eq t.tree

/-- set.go:185-187 `IsSubsetOf` under gauge `g`. -/
def FSet.isSubsetOfC (g : Int) (s t : FSet T) : Call Bool := s.tree.subsetOfC g t.tree

omit [GoKey T] in
/-- set.go:233-235 `Reduce` under gauge `g`. -/
def FSet.reduceC [Inhabited T] (g : Int) (s : FSet T) (r : List T → T) : Call (Option T) := s.tree.reduceC g r

variable {K V : Type} [GoKey K]

/-- map.go:194-200 `Merge` under gauge `g`. -/
def FMap.mergeC (g : Int) (m n : FMap K V) (resolve : K → V → V → V) : Call (FMap K V) :=
  (m.tree.combineC g ⟨mapEntryKeyEqual, fun a b => ⟨a.key, resolve a.key a.value b.value⟩⟩ n.tree).map FMap.mk

/-- map.go:204-212 `Update` under gauge `g`. -/
def FMap.updateC (g : Int) (m n : FMap K V) : Call (FMap K V) :=
  if m.count > n.count then (n.tree.combineC g ⟨mapEntryKeyEqual, useLHS⟩ m.tree).map FMap.mk
  else (m.tree.combineC g ⟨mapEntryKeyEqual, useRHS⟩ n.tree).map FMap.mk

/-- map.go:225-232 `Equal` under gauge `g`. -/
def FMap.equalC [GoKey V] (g : Int) (m n : FMap K V) : Call Bool := m.tree.equalC g mapEntryEqual n.tree

end Frozen
