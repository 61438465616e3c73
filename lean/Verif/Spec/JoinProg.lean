import Verif.Spec.Adaptive
import Verif.Spec.ForkJoin

/-!
# Programs that start goroutines, wait for them, and decide as they go

As Spec/ForkJoin.lean, but what the main goroutine and those it starts do next depends, in any way, on what they have seen
(Spec/Adaptive.lean). After waiting, the main goroutine holds the sets and builders that the others have made, and knows what they have
seen. For maps, the same on trees of entries.
-/

namespace Frozen

variable {T : Type}

/-- The program of the main goroutine: `look` decides how to go on, `act` performs an operation, `par` starts goroutines that share all
the sets and waits for them. -/
inductive JProg (T : Type) where
  | stop
  | look (next : View T → JProg T)
  | act (op : GOp T) (rest : JProg T)
  | par (ps : List (GProg T)) (rest : JProg T)

/-- What a goroutine that has ended has seen. -/
def Goroutine.seen (g : Goroutine T) : List (Answer T) :=
  match g.code with
  | .done (.ok c) => c.seen
  | _ => []

/-- The main goroutine and the memory: what it holds and has seen, and what it has still to do. -/
structure JState (T : Type) where
  client : Client T
  mem : Mem T
  prog : JProg T

/-- The sets and builders and the memory. -/
def JState.world (s : JState T) : World T := ⟨s.mem, s.client.sets, s.client.builders⟩

/-- What the main goroutine holds and knows after waiting for the goroutines of `m`. -/
def JState.joined (c : Client T) (H : Mem T) (m : Machine T) (p : JProg T) : JState T :=
  let w := World.join ⟨H, c.sets, c.builders⟩ m
  ⟨⟨w.sets, w.builders, c.seen ++ m.gs.flatMap Goroutine.seen⟩, w.mem, p⟩

/-- No goroutine that the program starts calls `With` or a merge. -/
def JProg.GoNoAppend : JProg T → Prop
  | .stop => True
  | .look next => ∀ v, (next v).GoNoAppend
  | .act _ rest => rest.GoNoAppend
  | .par ps rest => (∀ p ∈ ps, p.NoAppend) ∧ rest.GoNoAppend

/-- Nobody calls `With` or a merge. -/
def JProg.NoAppend : JProg T → Prop
  | .stop => True
  | .look next => ∀ v, (next v).NoAppend
  | .act op rest => (∀ o, op = .call o → o.mayAppend = false) ∧ rest.NoAppend
  | .par ps rest => (∀ p ∈ ps, p.NoAppend) ∧ rest.NoAppend

variable [GoKey T]

/-- The main goroutine goes on. Waiting is over when, after some schedule, all goroutines have ended. -/
inductive JStep (G : Growth) : JState T → JState T → Prop where
  | look (c : Client T) (H : Mem T) (k : View T → JProg T) : JStep G ⟨c, H, .look k⟩ ⟨c, H, k c.view⟩
  | act {c c' : Client T} {H H' : Mem T} {op : GOp T} (p : JProg T) (h : c.perform G op H = (.ok c', H')) :
    JStep G ⟨c, H, .act op p⟩ ⟨c', H', p⟩
  | par {c : Client T} {H : Mem T} {ps : List (GProg T)} (p : JProg T) (sched : List Nat)
    (h : ((forkProgs G ⟨H, c.sets, c.builders⟩ ps).run sched).Ended) :
    JStep G ⟨c, H, .par ps p⟩ (JState.joined c H ((forkProgs G ⟨H, c.sets, c.builders⟩ ps).run sched) p)

/-- Some steps. -/
inductive JReach (G : Growth) (s : JState T) : JState T → Prop where
  | refl : JReach G s s
  | step {s' s'' : JState T} (h : JReach G s s') (h' : JStep G s' s'') : JReach G s s''

/-- The program at its start: nothing has been made. -/
def JState.init (p : JProg T) : JState T := ⟨⟨[], [], []⟩, ⟨[], [], []⟩, p⟩

/-- No call that the program makes, or a goroutine it starts, adds an element to a set that has three others with the same 64-bit hash. -/
def UncrowdedJoin (G : Growth) (c : Client T) (H : Mem T) : JProg T → Prop
  | .stop => True
  | .look next => UncrowdedJoin G c H (next c.view)
  | .act op rest => (∀ o, op = .call o → Uncrowded ⟨H, c.sets, c.builders⟩ o) ∧
      ∀ c' H', c.perform G op H = (.ok c', H') → UncrowdedJoin G c' H' rest
  | .par ps rest => (∀ p ∈ ps, UncrowdedProg G ⟨c.sets, [], []⟩ H p) ∧
      ∀ sched, ((forkProgs G ⟨H, c.sets, c.builders⟩ ps).run sched).Ended →
        UncrowdedJoin G (JState.joined c H ((forkProgs G ⟨H, c.sets, c.builders⟩ ps).run sched) rest).client
          (JState.joined c H ((forkProgs G ⟨H, c.sets, c.builders⟩ ps).run sched) rest).mem rest

/-! ## The same program on values -/

/-- The new sets and the builders of one goroutine after another, each run by itself from the sets of `c`, and what they have seen. -/
def VClient.par (c : VClient T) (ps : List (GProg T)) : VClient T :=
  ⟨ps.foldl (fun J p =>
      let r := (VClient.follow ⟨⟨c.world.sets, []⟩, []⟩ p).world
      ⟨J.sets ++ r.sets.drop c.world.sets.length, J.builders ++ r.builders⟩) c.world,
    c.seen ++ ps.flatMap (fun p => (VClient.follow ⟨⟨c.world.sets, []⟩, []⟩ p).seen)⟩

/-- The program on values. There is no scheduler. -/
def VClient.join (c : VClient T) : JProg T → VClient T
  | .stop => c
  | .look next => c.join (next c.view)
  | .act op rest => (c.perform op).join rest
  | .par ps rest => (c.par ps).join rest

/-! ## Maps -/

variable {K V : Type}

/-- The program of a main goroutine that uses maps. -/
inductive MJProg (K V : Type) where
  | stop
  | look (next : MView K V → MJProg K V)
  | act (op : MGOp K V) (rest : MJProg K V)
  | par (ps : List (MGProg K V)) (rest : MJProg K V)

/-- No goroutine that the program starts calls `With`, `Merge` or `Update`. -/
def MJProg.GoNoAppend : MJProg K V → Prop
  | .stop => True
  | .look next => ∀ v, (next v).GoNoAppend
  | .act _ rest => rest.GoNoAppend
  | .par ps rest => (∀ p ∈ ps, p.NoAppend) ∧ rest.GoNoAppend

/-- Nobody calls `With`, `Merge` or `Update`. -/
def MJProg.NoAppend : MJProg K V → Prop
  | .stop => True
  | .look next => ∀ v, (next v).NoAppend
  | .act op rest => (∀ o, op = .call o → o.mayAppend = false) ∧ rest.NoAppend
  | .par ps rest => (∀ p ∈ ps, p.NoAppend) ∧ rest.NoAppend

variable [Inhabited V] [GoKey K] [GoKey V]

/-- The program on trees of entries. -/
def MJProg.trees : MJProg K V → JProg (Entry K V)
  | .stop => .stop
  | .look next => .look (fun v => (next v.ofMaps).trees)
  | .act op rest => .look (fun v => .act (op.tree v.counts) rest.trees)
  | .par ps rest => .par (ps.map MGProg.trees) rest.trees

/-- No call that the program makes, or a goroutine it starts, adds a key to a map that has three other keys with the same 64-bit hash. -/
def UncrowdedMapJoin (G : Growth) (c : Client (Entry K V)) (H : Mem (Entry K V)) : MJProg K V → Prop
  | .stop => True
  | .look next => UncrowdedMapJoin G c H (next c.view.ofMaps)
  | .act op rest => (∀ o, op = .call o → UncrowdedMap ⟨H, c.sets, c.builders⟩ o) ∧
      ∀ c' H', c.perform G (op.tree c.view.counts) H = (.ok c', H') → UncrowdedMapJoin G c' H' rest
  | .par ps rest => (∀ p ∈ ps, UncrowdedMapProg G ⟨c.sets, [], []⟩ H p) ∧
      ∀ sched, ((forkProgs G ⟨H, c.sets, c.builders⟩ (ps.map MGProg.trees)).run sched).Ended →
        UncrowdedMapJoin G (JState.joined c H ((forkProgs G ⟨H, c.sets, c.builders⟩ (ps.map MGProg.trees)).run sched) .stop).client
          (JState.joined c H ((forkProgs G ⟨H, c.sets, c.builders⟩ (ps.map MGProg.trees)).run sched) .stop).mem rest

/-- The new maps and the map builders of one goroutine after another, and what they have seen. -/
def VMapClient.par (c : VMapClient K V) (ps : List (MGProg K V)) : VMapClient K V :=
  ⟨ps.foldl (fun J p =>
      let r := (VMapClient.follow ⟨⟨c.world.maps, []⟩, []⟩ p).world
      ⟨J.maps ++ r.maps.drop c.world.maps.length, J.builders ++ r.builders⟩) c.world,
    c.seen ++ ps.flatMap (fun p => (VMapClient.follow ⟨⟨c.world.maps, []⟩, []⟩ p).seen)⟩

/-- The program on maps that are values. There is no scheduler. -/
def VMapClient.join (c : VMapClient K V) : MJProg K V → VMapClient K V
  | .stop => c
  | .look next => c.join (next c.view)
  | .act op rest => (c.perform op).join rest
  | .par ps rest => (c.par ps).join rest

end Frozen
