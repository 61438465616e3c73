import Verif.Spec.Concurrent

/-!
# Programs that start goroutines and wait for them

The main goroutine makes calls (`World.step`), starts goroutines that share its sets (`fork`), waits until they have ended, takes over
the sets and builders they have made, and goes on, again and again. While it waits it makes no calls itself; what it would do
meanwhile can be given to one of the goroutines. The goroutines start no others.

Each goroutine has numbered its own memory from the end of the shared memory on (Spec/Concurrent.lean). When the main goroutine takes
over, these memories are laid one behind the other, and the pointers into them are adjusted. Addresses are invisible to programs, so
this is how one would have numbered them in the first place.
-/

namespace Frozen

variable {T : Type}

/-- Moving memory: cells from the address `cells` on move up by `upC`, arrays from `arrays` on by `upA`. -/
structure Move where
  cells : Nat
  upC : Nat
  arrays : Nat
  upA : Nat

/-- The new address of a cell. -/
def Move.cell (M : Move) (a : Nat) : Nat := if a < M.cells then a else a + M.upC

/-- The new address of an array. -/
def Move.arr (M : Move) (a : Nat) : Nat := if a < M.arrays then a else a + M.upA

/-- The content of a cell, with the pointers in it adjusted. -/
def Cell.moved (M : Move) : Cell T → Cell T
  | .leaf1 x => .leaf1 x
  | .leaf2 x y => .leaf2 x y
  | .twig s => .twig ⟨M.arr s.arr, s.len, s.cap⟩
  | .branch m k => .branch m (fun i => (k i).map M.cell)

/-- A set or builder with its pointer adjusted. -/
def MTree.moved (M : Move) (s : MTree) : MTree := ⟨s.root.map M.cell, s.count⟩

/-- How the memory of a goroutine started from `S` moves when it is laid behind the memory `J`. -/
def Move.behind (S J : Mem T) : Move :=
  ⟨S.cells.length, J.cells.length - S.cells.length, S.arrays.length, J.arrays.length - S.arrays.length⟩

/-- The memory `J` with the own memory of a goroutine started from `S` laid behind it. -/
def Mem.laid (S J own : Mem T) : Mem T :=
  ⟨J.cells ++ own.cells.map (Cell.moved (Move.behind S J)), J.arrays ++ own.arrays, J.log⟩

/-- Take over what a goroutine has made. It was started by `w`; `J` is what has been taken over so far. A goroutine that panicked or
has not ended contributes nothing. -/
def World.take (w J : World T) (g : Goroutine T) : World T :=
  match g.code with
  | .done (.ok c) =>
    let M := Move.behind w.mem J.mem
    ⟨⟨J.mem.cells ++ g.own.cells.map (Cell.moved M), J.mem.arrays ++ g.own.arrays, J.mem.log⟩,
      J.sets ++ (c.sets.drop w.sets.length).map (MTree.moved M), J.builders ++ c.builders.map (MTree.moved M)⟩
  | _ => J

/-- Take over what all goroutines have made, in the order in which they were started. -/
def World.join (w : World T) (m : Machine T) : World T := m.gs.foldl w.take ⟨m.shared, w.sets, w.builders⟩

/-- All goroutines have ended. -/
def Machine.Ended (m : Machine T) : Prop := ∀ g ∈ m.gs, ∃ r, g.code = .done r

/-- What the main goroutine does next: a call, or starting goroutines and waiting for them. `sched` is what the scheduler does
meanwhile. -/
inductive Stage (T : Type) where
  | call (op : HOp T)
  | par (hs : List (List (GOp T))) (sched : List Nat)

variable [GoKey T]

/-- One stage. -/
def World.stage (G : Growth) (w : World T) : Stage T → World T
  | .call op => w.step G op
  | .par hs sched => w.join ((fork G w hs).run sched)

/-- A program. -/
def World.stages (G : Growth) (w : World T) (ps : List (Stage T)) : World T := ps.foldl (World.stage G) w

/-- The waiting is over only when all goroutines have ended. -/
def EndedRun (G : Growth) (w : World T) : List (Stage T) → Prop
  | [] => True
  | .call op :: ps => EndedRun G (w.step G op) ps
  | .par hs sched :: ps => ((fork G w hs).run sched).Ended ∧ EndedRun G (w.stage G (.par hs sched)) ps

/-- No call of the program, whoever makes it, adds an element to a set that has three others with the same 64-bit hash. -/
def UncrowdedStages (G : Growth) (w : World T) : List (Stage T) → Prop
  | [] => True
  | .call op :: ps => Uncrowded w op ∧ UncrowdedStages G (w.step G op) ps
  | .par hs sched :: ps => (∀ h ∈ hs, UncrowdedRun G ⟨w.mem, w.sets, []⟩ (GOp.calls h)) ∧
      UncrowdedStages G (w.stage G (.par hs sched)) ps

/-- The stage without what the scheduler does. -/
def Stage.plan : Stage T → Stage T
  | .call op => .call op
  | .par hs _ => .par hs []

/-- Somebody calls `With` or a merge in the stage. -/
def Stage.mayAppend : Stage T → Bool
  | .call op => op.mayAppend
  | .par hs _ => hs.any (fun h => (GOp.calls h).any HOp.mayAppend)

/-- A goroutine other than the main one calls `With` or a merge in the stage. -/
def Stage.goMayAppend : Stage T → Bool
  | .call _ => false
  | .par hs _ => hs.any (fun h => (GOp.calls h).any HOp.mayAppend)

/-! ## The same program on values -/

/-- The new sets and the builders of one goroutine after another, each run by itself from the sets of `vw`. -/
def VWorld.par (vw : VWorld T) (hs : List (List (GOp T))) : VWorld T :=
  hs.foldl (fun J h =>
    let r := VWorld.run ⟨vw.sets, []⟩ (GOp.calls h)
    ⟨J.sets ++ r.sets.drop vw.sets.length, J.builders ++ r.builders⟩) vw

/-- One stage on values. The schedule plays no part. -/
def VWorld.stage (vw : VWorld T) : Stage T → VWorld T
  | .call op => vw.step op
  | .par hs _ => vw.par hs

/-- A program on values. -/
def VWorld.stages (vw : VWorld T) (ps : List (Stage T)) : VWorld T := ps.foldl VWorld.stage vw

end Frozen
