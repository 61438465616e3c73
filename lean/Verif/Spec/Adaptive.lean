import Verif.Spec.Concurrent
import Verif.Spec.MapUncrowded
import Verif.Spec.MapValues

/-!
# Goroutines that decide as they go

The goroutines of Spec/Concurrent.lean perform a list of operations fixed in advance. Here what a goroutine does next depends, in any
way, on what it has seen so far and on the numbers of elements of the sets it holds. The functions it passes to the calls can depend
on it too. Maps are sets of entries; `Update` is an operation that depends on two counts.
-/

namespace Frozen

variable {T : Type}

/-- What a goroutine knows: `Count` of each of its sets, and the answers it has got. -/
structure View (T : Type) where
  counts : List Int
  seen : List (Answer T)

/-- The program of a goroutine: `look` decides how to go on, `act` performs an operation. -/
inductive GProg (T : Type) where
  | stop
  | look (next : View T → GProg T)
  | act (op : GOp T) (rest : GProg T)

/-- set.go:59-61 `Count` of every set the goroutine holds: a field of the value it holds (internal/pkg/tree/tree.go:17-20), not an access to the
memory. -/
def Client.view (c : Client T) : View T := ⟨c.sets.map (·.count), c.seen⟩

/-- No operation in the program is `With` or a merge. -/
def GProg.NoAppend : GProg T → Prop
  | .stop => True
  | .look next => ∀ v, (next v).NoAppend
  | .act op rest => (∀ o, op = .call o → o.mayAppend = false) ∧ rest.NoAppend

variable [GoKey T]

/-- The code of a goroutine. -/
def Client.follow (G : Growth) (c : Client T) : GProg T → MM T (Client T)
  | .stop => pure c
  | .look next => c.follow G (next c.view)
  | .act op rest => do
    let c' ← c.perform G op
    c'.follow G rest

/-- Start one goroutine for each program, each holding all the sets. -/
def forkProgs (G : Growth) (w : World T) (ps : List (GProg T)) : Machine T :=
  ⟨w.mem, ps.map (fun p => ⟨Client.follow G ⟨w.sets, [], []⟩ p, ⟨[], [], w.mem.log⟩⟩)⟩

/-- What the goroutine would come to if nobody else did anything. -/
def aloneProg (G : Growth) (w : World T) (p : GProg T) : Go (Client T) := (Client.follow G ⟨w.sets, [], []⟩ p w.mem).1

/-- The goroutine, alone, adds no element to a crowded set. -/
def UncrowdedProg (G : Growth) (c : Client T) (H : Mem T) : GProg T → Prop
  | .stop => True
  | .look next => UncrowdedProg G c H (next c.view)
  | .act op rest => (∀ o, op = .call o → Uncrowded ⟨H, c.sets, c.builders⟩ o) ∧
      ∀ c' H', c.perform G op H = (.ok c', H') → UncrowdedProg G c' H' rest

/-! ## The same goroutine on values -/

/-- What the goroutine knows when every set is a value of its own. -/
def VClient.view (c : VClient T) : View T := ⟨c.world.sets.map (·.count), c.seen⟩

/-- The program on values. -/
def VClient.follow (c : VClient T) : GProg T → VClient T
  | .stop => c
  | .look next => c.follow (next c.view)
  | .act op rest => (c.perform op).follow rest

/-! ## Maps -/

variable {K V : Type}

/-- What a goroutine does next with maps: a call, `Get` on the map at `i`, an iteration over it, or `Equal` of the maps at `i` and
`j`. -/
inductive MGOp (K V : Type) where
  | call (op : MOp K V)
  | get (i : Nat) (k : K)
  | range (i : Nat)
  | equal (i j : Nat)

/-- What a goroutine gets to see of maps: the value `Get` found, the entries visited by an iteration, the result of `Equal`. -/
inductive MAnswer (K V : Type) where
  | found (r : Go (Option V))
  | visited (r : Go (List (Entry K V)))
  | truth (r : Go Bool)

/-- What a goroutine knows: `Count` of each of its maps, and the answers it has got. -/
structure MView (K V : Type) where
  counts : List Int
  seen : List (MAnswer K V)

/-- The program of a goroutine that uses maps. -/
inductive MGProg (K V : Type) where
  | stop
  | look (next : MView K V → MGProg K V)
  | act (op : MGOp K V) (rest : MGProg K V)

/-- map.go:90-95 `Get` returns the value of the entry found (`none`: the zero value and false); the other answers are what the tree
answers. -/
def Answer.ofMap : Answer (Entry K V) → MAnswer K V
  | .found (.ok r) => .found (.ok (r.map (·.value)))
  | .found (.error e) => .found (.error e)
  | .visited r => .visited r
  | .truth r => .truth r

/-- What the holder of trees of entries knows about the maps. -/
def View.ofMaps (v : View (Entry K V)) : MView K V := ⟨v.counts, v.seen.map Answer.ofMap⟩

variable [Inhabited V]

/-- The tree call that a map call makes (`MOp.call` in Spec/MapHistory.lean), given the counts of the maps: map.go:71-81,
map.go:194-212, map_builder.go:22-29, map_builder.go:48-50. -/
def MOp.callAt (counts : List Int) : MOp K V → HOp (Entry K V)
  | .update i j =>
    match counts[i]?, counts[j]? with
    | some m, some n => if m > n then .merge j i (fun a _ => a) else .merge i j (fun _ b => b)
    | _, _ => .merge i j (fun _ b => b)
  | op => op.call ⟨⟨[], [], []⟩, [], []⟩

/-- No operation in the program is `With`, `Merge` or `Update`. -/
def MGProg.NoAppend : MGProg K V → Prop
  | .stop => True
  | .look next => ∀ v, (next v).NoAppend
  | .act op rest => (∀ o, op = .call o → o.mayAppend = false) ∧ rest.NoAppend

variable [GoKey K] [GoKey V]

/-- The operation on trees of entries: map.go:90-95 `Get`, map.go:266-268 `Range`, map.go:225-238 `Equal`. -/
def MGOp.tree (counts : List Int) : MGOp K V → GOp (Entry K V)
  | .call op => .call (op.callAt counts)
  | .get i k => .get i (newMapKey k)
  | .range i => .range i
  | .equal i j => .equal mapEntryEqual i j

/-- The program on trees of entries. -/
def MGProg.trees : MGProg K V → GProg (Entry K V)
  | .stop => .stop
  | .look next => .look (fun v => (next v.ofMaps).trees)
  | .act op rest => .look (fun v => .act (op.tree v.counts) rest.trees)

/-- The goroutine, alone, adds no key to a crowded map. -/
def UncrowdedMapProg (G : Growth) (c : Client (Entry K V)) (H : Mem (Entry K V)) : MGProg K V → Prop
  | .stop => True
  | .look next => UncrowdedMapProg G c H (next c.view.ofMaps)
  | .act op rest => (∀ o, op = .call o → UncrowdedMap ⟨H, c.sets, c.builders⟩ o) ∧
      ∀ c' H', c.perform G (op.tree c.view.counts) H = (.ok c', H') → UncrowdedMapProg G c' H' rest

/-! ## The same goroutine on maps that are values -/

/-- What a goroutine holds when every map is a value of its own. -/
structure VMapClient (K V : Type) where
  world : VMaps K V
  seen : List (MAnswer K V)

/-- What it knows. -/
def VMapClient.view (c : VMapClient K V) : MView K V := ⟨c.world.maps.map (·.count), c.seen⟩

/-- A question about a map. -/
def VMapClient.ask (c : VMapClient K V) (i : Nat) (f : FMap K V → MAnswer K V) : VMapClient K V :=
  match c.world.maps[i]? with
  | some m => ⟨c.world, c.seen ++ [f m]⟩
  | none => c

/-- One step, with the map API of Model/Map.lean. -/
def VMapClient.perform (c : VMapClient K V) : MGOp K V → VMapClient K V
  | .call op => ⟨c.world.step op, c.seen⟩
  | .get i k => c.ask i (fun m => .found (m.get k))
  | .range i => c.ask i (fun m => .visited m.rangeList)
  | .equal i j =>
    match c.world.maps[i]?, c.world.maps[j]? with
    | some m, some n => ⟨c.world, c.seen ++ [.truth (m.equal n)]⟩
    | _, _ => c

/-- The program on values. -/
def VMapClient.follow (c : VMapClient K V) : MGProg K V → VMapClient K V
  | .stop => c
  | .look next => c.follow (next c.view)
  | .act op rest => (c.perform op).follow rest

end Frozen
