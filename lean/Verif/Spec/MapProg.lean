import Verif.Spec.Set
import Verif.Model.Map

/-!
# Programs over the Map API, and the finite map each one denotes

A finite map is specified by a function `K → Option V` from keys (identified up to `Equal`) to values.
-/

namespace Frozen

variable {K V : Type} [GoKey K] [Inhabited V]

/-- A call on a map builder that is later finished. -/
inductive MapBuildOp (K V : Type) where
  | put (k : K) (v : V)
  | remove (k : K)

/-- Programs over the Map API. Functions that receive keys must not tell `Equal` keys apart. -/
inductive MapProg (K V : Type) [GoKey K] where
  | newMap (kvs : List (KeyValue K V))
  | build (ops : List (MapBuildOp K V))
  | with (p : MapProg K V) (k : K) (v : V)
  | without (p : MapProg K V) (k : K)
  | project (p : MapProg K V) (ks : List K)
  | where (p : MapProg K V) (pred : K → V → Bool) (respects : ∀ a b v, GoKey.eq a b = true → pred a v = pred b v)
  | update (p q : MapProg K V)
  | merge (p q : MapProg K V) (resolve : K → V → V → V)
      (respects : ∀ a b x y, GoKey.eq a b = true → resolve a x y = resolve b x y)

/-- Run one builder call. -/
def MapBuildOp.run (b : MapBuilder K V) : MapBuildOp K V → Go (MapBuilder K V)
  | .put k v => MapBuilder.put b k v
  | .remove k => MapBuilder.remove b k

/-- Run a program on the API. -/
def MapProg.run : MapProg K V → Go (FMap K V)
  | .newMap kvs => Frozen.newMap kvs
  | .build ops => do
    let b ← ops.foldlM (fun b op => op.run b) (Tree.zero : MapBuilder K V)
    pure (MapBuilder.finish b).1
  | .with p k v => do let m ← p.run; m.with k v
  | .without p k => do let m ← p.run; m.without k
  | .project p ks => do let m ← p.run; m.project ks
  | .where p pred _ => do let m ← p.run; m.where pred
  | .update p q => do let m ← p.run; let n ← q.run; m.update n
  | .merge p q resolve _ => do let m ← p.run; let n ← q.run; m.merge n resolve

omit [Inhabited V] in
/-- Change a finite map at one key. -/
def setKey (m : K → Option V) (k : K) (o : Option V) : K → Option V := fun k' => if GoKey.eq k k' = true then o else m k'

omit [Inhabited V] in
/-- The effect of one builder call on a finite map. -/
def MapBuildOp.effect (m : K → Option V) : MapBuildOp K V → K → Option V
  | .put k v => setKey m k (some v)
  | .remove k => setKey m k none

omit [Inhabited V] in
/-- Merging two finite maps at one key. -/
def mergeAt (resolve : V → V → V) : Option V → Option V → Option V
  | some a, some b => some (resolve a b)
  | some a, none => some a
  | none, b => b

omit [Inhabited V] in
/-- The finite map a program denotes. -/
def MapProg.denote : MapProg K V → K → Option V
  | .newMap kvs => kvs.foldl (fun m kv => setKey m kv.key (some kv.value)) (fun _ => none)
  | .build ops => ops.foldl MapBuildOp.effect (fun _ => none)
  | .with p k v => setKey p.denote k (some v)
  | .without p k => setKey p.denote k none
  | .project p ks => fun k => if ks.any (fun k' => GoKey.eq k' k) = true then p.denote k else none
  | .where p pred _ => fun k => (p.denote k).filter (pred k)
  | .update p q => fun k => mergeAt (fun _ b => b) (p.denote k) (q.denote k)
  | .merge p q resolve _ => fun k => mergeAt (resolve k) (p.denote k) (q.denote k)

/-- The map was returned by some program. -/
def FMap.Reachable (m : FMap K V) : Prop := ∃ p : MapProg K V, p.run = .ok m

/-- What a user observes: `m.Get(k)` returns `o`. -/
def FMap.Gets (m : FMap K V) (k : K) (o : Option V) : Prop := m.get k = .ok o

/-- The key is in the map. -/
def FMap.HasKey (m : FMap K V) (k : K) : Prop := m.has k = .ok true

/-- Iterating over the map yields the entry `(k, v)`. -/
def FMap.HasEntry (m : FMap K V) (k : K) (v : V) : Prop := ∃ l, m.rangeList = .ok l ∧ ⟨k, v⟩ ∈ l

/-- Both absent, or both present with `Equal` values. -/
def SameVal [GoKey V] : Option V → Option V → Prop
  | none, none => True
  | some a, some b => GoKey.eq a b = true
  | _, _ => False

/-! ## Builder histories -/

/-- A call on a `MapBuilder`. -/
inductive MapBuilderCall (K V : Type) where
  | put (k : K) (v : V)
  | remove (k : K)
  | get (k : K)
  | has (k : K)
  | count
  | finish

/-- What a builder call returns. -/
inductive MapBuilderReply (K V : Type) where
  | unit
  | val (o : Option V)
  | bool (b : Bool)
  | int (n : Int)
  | map (m : FMap K V)

/-- Make one call on a builder. -/
def MapBuilderCall.run (b : MapBuilder K V) : MapBuilderCall K V → Go (MapBuilder K V × MapBuilderReply K V)
  | .put k v => do let b' ← MapBuilder.put b k v; pure (b', .unit)
  | .remove k => do let b' ← MapBuilder.remove b k; pure (b', .unit)
  | .get k => do let r ← MapBuilder.get b k; pure (b, .val r)
  | .has k => do let r ← MapBuilder.has b k; pure (b, .bool r)
  | .count => pure (b, .int (MapBuilder.count b))
  | .finish => pure ((MapBuilder.finish b).2, .map (MapBuilder.finish b).1)

/-- Make a sequence of calls and collect the replies. -/
def runMapBuilderCalls (b : MapBuilder K V) : List (MapBuilderCall K V) → Go (List (MapBuilderReply K V))
  | [] => pure []
  | c :: cs => do
    let (b', r) ← c.run b
    let rs ← runMapBuilderCalls b' cs
    pure (r :: rs)

omit [Inhabited V] in
/-- The finite map held by the builder after a call. -/
def MapBuilderCall.after (m : K → Option V) : MapBuilderCall K V → K → Option V
  | .put k v => setKey m k (some v)
  | .remove k => setKey m k none
  | .get _ | .has _ | .count => m
  | .finish => fun _ => none

/-- The reply a call must give when the builder holds the finite map `m`. -/
def MapBuilderCall.Replies (m : K → Option V) : MapBuilderCall K V → MapBuilderReply K V → Prop
  | .put _ _, r => r = .unit
  | .remove _, r => r = .unit
  | .get k, r => r = .val (m k)
  | .has k, r => r = .bool (m k).isSome
  | .count, r => ∃ n, r = .int n ∧ HasCard (fun k => (m k).isSome = true) n
  | .finish, r => ∃ x, r = .map x ∧ x.Reachable ∧ (∀ k, x.Gets k (m k)) ∧ HasCard (fun k => (m k).isSome = true) x.count

/-- The replies to a sequence of calls are the ones a builder holding `m` must give. -/
def MapTraceOk (m : K → Option V) : List (MapBuilderCall K V) → List (MapBuilderReply K V) → Prop
  | [], [] => True
  | c :: cs, r :: rs => c.Replies m r ∧ MapTraceOk (c.after m) cs rs
  | _, _ => False

end Frozen
