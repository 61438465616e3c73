import Verif.Spec.History
import Verif.Model.MemCompare

/-!
# Goroutines that share sets

Some goroutine makes sets in any way (`World.run`), then starts any number of goroutines and gives each of them all the sets. Each
goroutine performs calls of its own on these sets and on the sets and builders it makes, and looks at sets. The scheduler lets any
goroutine perform its next access to the memory at any time: a node or one element of an array is read or written, or a node or an
array is allocated. No synchronisation takes place. Goroutines do not hand sets to each other after the start, and they use only
builders of their own.

Addresses: what existed at the start is seen by everybody; what a goroutine allocates lies behind that and is known to it alone.
-/

namespace Frozen

variable {T : Type}

/-- What a goroutine does next: a call (Spec/History.lean), `Get` on the set at `i`, an iteration over it, or a comparison of the sets at
`i` and `j`: `Equal` with the equality `eq` for elements, or `IsSubsetOf`. -/
inductive GOp (T : Type) where
  | call (op : HOp T)
  | get (i : Nat) (v : T)
  | range (i : Nat)
  | equal (eq : T → T → Bool) (i j : Nat)
  | subset (i j : Nat)

/-- What a goroutine gets to see: the result of `Get`, the elements visited by an iteration, or the result of a comparison. -/
inductive Answer (T : Type) where
  | found (r : Go (Option T))
  | visited (r : Go (List T))
  | truth (r : Go Bool)

/-- What a goroutine holds, and what it has seen so far. -/
structure Client (T : Type) where
  sets : List MTree
  builders : List MTree
  seen : List (Answer T)

/-- `recover`: a panic is a result like others. -/
def MM.attempt {α : Type} : MM T α → MM T (Go α)
  | .done r => .done (.ok r)
  | .readCell a k => .readCell a (fun c => (k c).attempt)
  | .readElem arr i k => .readElem arr i (fun c => (k c).attempt)
  | .alloc c k => .alloc c (fun a => (k a).attempt)
  | .allocArr l k => .allocArr l (fun a => (k a).attempt)
  | .writeCell a c k => .writeCell a c k.attempt
  | .writeElem arr i v k => .writeElem arr i v k.attempt

/-- Keep the set a call returned; after a panic there is none. -/
def Client.push (c : Client T) (x : MM T MTree) : MM T (Client T) := do
  match ← x.attempt with
  | .ok t => pure { c with sets := c.sets ++ [t] }
  | .error _ => pure c

/-- Replace the builder on which a method was called. -/
def Client.update (c : Client T) (k : Nat) (x : MM T MTree) : MM T (Client T) := do
  match ← x.attempt with
  | .ok b => pure { c with builders := c.builders.set k b }
  | .error _ => pure c

/-- A call on the set at `i`. -/
def Client.on (c : Client T) (i : Nat) (f : MTree → MM T MTree) : MM T (Client T) :=
  match c.sets[i]? with
  | some s => c.push (f s)
  | none => pure c

/-- A call on two sets. -/
def Client.on2 (c : Client T) (i j : Nat) (f : MTree → MTree → MM T MTree) : MM T (Client T) :=
  match c.sets[i]?, c.sets[j]? with
  | some s, some t => c.push (f s t)
  | _, _ => pure c

/-- A call on the builder at `k`. -/
def Client.onBuilder (c : Client T) (k : Nat) (f : MTree → MM T MTree) : MM T (Client T) :=
  match c.builders[k]? with
  | some b => c.update k (f b)
  | none => pure c

/-- Compare two sets. -/
def Client.compare (c : Client T) (i j : Nat) (f : MTree → MTree → MM T Bool) : MM T (Client T) :=
  match c.sets[i]?, c.sets[j]? with
  | some s, some t => do
    let r ← (f s t).attempt
    pure { c with seen := c.seen ++ [.truth r] }
  | _, _ => pure c

variable [GoKey T]

/-- The code of one call, as in `World.step`. -/
def Client.call (G : Growth) (c : Client T) : HOp T → MM T (Client T)
  | .empty => pure { c with sets := c.sets ++ [MTree.zero] }
  | .with i v => c.on i (fun s => s.with G v)
  | .without i v => c.on i (fun s => s.without G v)
  | .where i p => c.on i (fun s => s.where G p)
  | .merge i j f => c.on2 i j (fun s t => s.combine G ⟨GoKey.eq, f⟩ t)
  | .intersection i j => c.on2 i j (fun s t => s.intersection G t)
  | .difference i j => c.on2 i j (fun s t => s.difference G t)
  | .newBuilder => pure { c with builders := c.builders ++ [MTree.zero] }
  | .add k v => c.onBuilder k (fun b => b.add G v)
  | .remove k v => c.onBuilder k (fun b => b.remove G v)
  | .finish k =>
    match c.builders[k]? with
    | some b => pure { c with sets := c.sets ++ [b], builders := c.builders.set k MTree.zero }
    | none => pure c

/-- The code of one step of a goroutine. -/
def Client.perform (G : Growth) (c : Client T) : GOp T → MM T (Client T)
  | .call op => c.call G op
  | .get i v =>
    match c.sets[i]? with
    | some s => do
      let r ← (s.getP v).attempt
      pure { c with seen := c.seen ++ [.found r] }
    | none => pure c
  | .range i =>
    match c.sets[i]? with
    | some s => do
      let r ← s.elemsP.attempt
      pure { c with seen := c.seen ++ [.visited r] }
    | none => pure c
  | .equal eq i j => c.compare i j (fun s t => s.equalP eq t)
  | .subset i j => c.compare i j (fun s t => s.subsetOfP t)

/-- The code of a goroutine. -/
def goroutine (G : Growth) (c : Client T) (ops : List (GOp T)) : MM T (Client T) := ops.foldlM (Client.perform G) c

/-! ## The scheduler -/

/-- What the goroutine sees: the shared memory and behind it its own. -/
def Mem.plus (S own : Mem T) : Mem T := ⟨S.cells ++ own.cells, S.arrays ++ own.arrays, own.log⟩

/-- The shared part of what a goroutine sees. -/
def Mem.low (S H : Mem T) : Mem T := ⟨H.cells.take S.cells.length, H.arrays.take S.arrays.length, S.log⟩

/-- The goroutine's own part of what it sees. -/
def Mem.high (S H : Mem T) : Mem T := ⟨H.cells.drop S.cells.length, H.arrays.drop S.arrays.length, H.log⟩

/-- A goroutine: the code it has still to run, and its own memory. -/
structure Goroutine (T : Type) where
  code : MM T (Client T)
  own : Mem T

/-- The shared memory and all goroutines. -/
structure Machine (T : Type) where
  shared : Mem T
  gs : List (Goroutine T)

/-- The goroutine at `i` performs one access. -/
def Machine.step (m : Machine T) (i : Nat) : Machine T :=
  match m.gs[i]? with
  | some g =>
    let r := g.code.step (m.shared.plus g.own)
    ⟨m.shared.low r.2, m.gs.set i ⟨r.1, m.shared.high r.2⟩⟩
  | none => m

/-- A schedule: whose turn it is, again and again. -/
def Machine.run (m : Machine T) (sched : List Nat) : Machine T := sched.foldl Machine.step m

/-- Start one goroutine for each list of operations, each holding all the sets. -/
def fork (G : Growth) (w : World T) (hs : List (List (GOp T))) : Machine T :=
  ⟨w.mem, hs.map (fun ops => ⟨goroutine G ⟨w.sets, [], []⟩ ops, ⟨[], [], w.mem.log⟩⟩)⟩

/-- What the goroutine would come to if nobody else did anything. -/
def alone (G : Growth) (w : World T) (ops : List (GOp T)) : Go (Client T) := (goroutine G ⟨w.sets, [], []⟩ ops w.mem).1

omit [GoKey T] in
/-- The location that the code overwrites with its next access. -/
def MM.nextWrite {α : Type} : MM T α → Option Loc
  | .writeCell a _ _ => some (.cell a)
  | .writeElem arr _ _ _ => some (.arr arr)
  | _ => none

/-- The location exists in the memory. -/
def Mem.HasLoc (H : Mem T) : Loc → Prop
  | .cell a => a < H.cells.length
  | .arr a => a < H.arrays.length

omit [GoKey T] in
/-- The calls among the operations. -/
def GOp.calls (ops : List (GOp T)) : List (HOp T) :=
  ops.filterMap (fun op => match op with
    | .call op => some op
    | _ => none)

/-! ## The same goroutine on values -/

/-- What a goroutine holds and has seen when every set is a value of its own. -/
structure VClient (T : Type) where
  world : VWorld T
  seen : List (Answer T)

omit [GoKey T] in
/-- Compare two sets. -/
def VClient.compare (c : VClient T) (i j : Nat) (f : Tree T → Tree T → Go Bool) : VClient T :=
  match c.world.sets[i]?, c.world.sets[j]? with
  | some s, some t => ⟨c.world, c.seen ++ [.truth (f s t)]⟩
  | _, _ => c

/-- One step on values. -/
def VClient.perform (c : VClient T) : GOp T → VClient T
  | .call op => ⟨c.world.step op, c.seen⟩
  | .get i v =>
    match c.world.sets[i]? with
    | some s => ⟨c.world, c.seen ++ [.found (s.get v)]⟩
    | none => c
  | .range i =>
    match c.world.sets[i]? with
    | some s => ⟨c.world, c.seen ++ [.visited s.rangeList]⟩
    | none => c
  | .equal eq i j => c.compare i j (fun s t => s.equal eq t)
  | .subset i j => c.compare i j (fun s t => s.subsetOf t)

/-- All steps on values. -/
def VClient.run (c : VClient T) (ops : List (GOp T)) : VClient T := ops.foldl VClient.perform c

end Frozen
