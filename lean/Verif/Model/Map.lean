import Verif.Model.Set

/-! # The `Map` API: `map.go`, `mapEntry.go`, `kv.go`, `map_builder.go`

Go zero values are `default` (`Inhabited`). -/

namespace Frozen

variable {K V U : Type}

/-! ## KeyValue -/

/-- kv.go:13-16 `KeyValue` -/
structure KeyValue (K V : Type) where
  key : K
  value : V

/-- kv.go:40-42 `Equal` and kv.go:24-26 `Hash`: a `KeyValue` as an element of a `Set`. -/
instance [GoKey K] [GoKey V] : GoKey (KeyValue K V) where
  eq a b := GoKey.eq a.key b.key && GoKey.eq a.value b.value
  hash seed a := GoKey.hash seed a.key

/-! ## Map entries -/

/-- mapEntry.go:9-11 `mapEntry` -/
structure Entry (K V : Type) where
  key : K
  value : V

/-- mapEntry.go:22-24 `Equal` and mapEntry.go:27-29 `Hash`: by key only. -/
instance [GoKey K] : GoKey (Entry K V) where
  eq a b := GoKey.eq a.key b.key
  hash seed a := GoKey.hash seed a.key

/-- mapEntry.go:17-20 `newMapKey`: the value is V's zero value. -/
def newMapKey [Inhabited V] (k : K) : Entry K V := ⟨k, default⟩

/-- mapEntry.go:32-34 `mapEntryEqual` -/
def mapEntryEqual [GoKey K] [GoKey V] (a b : Entry K V) : Bool := GoKey.eq a.key b.key && GoKey.eq a.value b.value

/-- mapEntry.go:37-39 `mapEntryKeyEqual` -/
def mapEntryKeyEqual [GoKey K] (a b : Entry K V) : Bool := GoKey.eq a.key b.key

/-! ## MapBuilder -/

/-- map_builder.go:8-10 `MapBuilder` -/
abbrev MapBuilder (K V : Type) := Builder (Entry K V)

/-- map.go:15-17 `Map` -/
structure FMap (K V : Type) where
  tree : Tree (Entry K V)

/-- The zero `Map`, the empty map. -/
def FMap.zero : FMap K V := ⟨Tree.zero⟩

/-- map_builder.go:17-19 `Count` -/
def MapBuilder.count (b : MapBuilder K V) : Int := Tree.count b

/-- map_builder.go:48-50 `Finish`: the map, and the emptied builder. -/
def MapBuilder.finish (b : MapBuilder K V) : FMap K V × MapBuilder K V := (⟨(Builder.finish b).1⟩, (Builder.finish b).2)

/-- map.go:57-59 `Count` -/
def FMap.count (m : FMap K V) : Int := m.tree.count

/-- map.go:52-54 `IsEmpty` -/
def FMap.isEmpty (m : FMap K V) : Bool := m.tree.count == 0

/-- The entries visited by `for i := m.Range(); i.Next(); { … i.Entry() … }` (map.go:266-303). -/
def FMap.rangeList (m : FMap K V) : Go (List (Entry K V)) := m.tree.rangeList

/-- map.go:62-67 `Any` -/
def FMap.any (m : FMap K V) : Go (Entry K V) := do
  let it ← m.tree.iterator
  let (it', ok) ← it.next
  if ok then it'.value else .error (.msg "empty map")

variable [GoKey K]

/-- map_builder.go:22-24 `Put` -/
def MapBuilder.put (b : MapBuilder K V) (k : K) (v : V) : Go (MapBuilder K V) := Builder.add b ⟨k, v⟩

/-- map_builder.go:27-29 `Remove` -/
def MapBuilder.remove [Inhabited V] (b : MapBuilder K V) (k : K) : Go (MapBuilder K V) := Builder.remove b (newMapKey k)

/-- map_builder.go:38-44 `Get`; `none` is the result `(zero, false)`. -/
def MapBuilder.get [Inhabited V] (b : MapBuilder K V) (k : K) : Go (Option V) := do
  let g ← Tree.get b (newMapKey k)
  pure (g.map (·.value))

/-- map_builder.go:31-34 `Has` -/
def MapBuilder.has [Inhabited V] (b : MapBuilder K V) (k : K) : Go Bool := do
  let g ← MapBuilder.get b k
  pure g.isSome

/-! ## Map -/

/-- `var b MapBuilder; for … { b.Put(k, v) }; return b.Finish()` -/
def buildMap (kvs : List (KeyValue K V)) : Go (FMap K V) := do
  let b ← kvs.foldlM (fun b kv => MapBuilder.put b kv.key kv.value) (Tree.zero : MapBuilder K V)
  pure (MapBuilder.finish b).1

/-- map.go:24-30 `NewMap` -/
def newMap (kvs : List (KeyValue K V)) : Go (FMap K V) := buildMap kvs

/-- map.go:33-40 `NewMapFromKeys` -/
def newMapFromKeys (keys : FSet K) (f : K → V) : Go (FMap K V) := do
  let ks ← keys.rangeList
  buildMap (ks.map (fun k => ⟨k, f k⟩))

/-- map.go:43-49 `NewMapFromGoMap`: a Go map is the list of its entries in the order the runtime iterates over them. -/
def newMapFromGoMap (m : List (K × V)) : Go (FMap K V) := buildMap (m.map (fun kv => ⟨kv.1, kv.2⟩))

/-- map.go:71-74 `With` -/
def FMap.with (m : FMap K V) (k : K) (v : V) : Go (FMap K V) := do
  let t ← m.tree.with ⟨k, v⟩
  pure ⟨t⟩

/-- map.go:78-81 `Without` -/
def FMap.without [Inhabited V] (m : FMap K V) (k : K) : Go (FMap K V) := do
  let t ← m.tree.without (newMapKey k)
  pure ⟨t⟩

/-- map.go:90-95 `Get` -/
def FMap.get [Inhabited V] (m : FMap K V) (k : K) : Go (Option V) := do
  let g ← m.tree.get (newMapKey k)
  pure (g.map (·.value))

/-- map.go:84-87 `Has` -/
def FMap.has [Inhabited V] (m : FMap K V) (k : K) : Go Bool := do
  let g ← m.get k
  pure g.isSome

/-- map.go:99-104 `MustGet`; the text of the panic message is simplified. -/
def FMap.mustGet [Inhabited V] (m : FMap K V) (k : K) : Go V := do
  match ← m.get k with
  | some v => pure v
  | none => .error (.msg "key not found")

/-- map.go:108-113 `GetElse` -/
def FMap.getElse [Inhabited V] (m : FMap K V) (k : K) (deflt : V) : Go V := do
  match ← m.get k with
  | some v => pure v
  | none => pure deflt

/-- map.go:117-122 `GetElseFunc`; the function may panic. -/
def FMap.getElseFunc [Inhabited V] (m : FMap K V) (k : K) (deflt : Unit → Go V) : Go V := do
  match ← m.get k with
  | some v => pure v
  | none => deflt ()

/-- map.go:125-131 `Keys` -/
def FMap.keys (m : FMap K V) : Go (FSet K) := do
  let es ← m.rangeList
  buildSet (es.map (·.key))

omit [GoKey K] in
/-- map.go:134-140 `Values` -/
def FMap.values [GoKey V] (m : FMap K V) : Go (FSet V) := do
  let es ← m.rangeList
  buildSet (es.map (·.value))

/-- map.go:145-149, the loop body of `Project`. -/
def FMap.projectStep [Inhabited V] (m : FMap K V) (b : MapBuilder K V) (k : K) : Go (MapBuilder K V) := do
  match ← m.get k with
  | some v => MapBuilder.put b k v
  | none => pure b

/-- map.go:143-151 `Project` -/
def FMap.project [Inhabited V] (m : FMap K V) (keys : List K) : Go (FMap K V) := do
  let b ← keys.foldlM m.projectStep (Tree.zero : MapBuilder K V)
  pure (MapBuilder.finish b).1

/-- map.go:154-162 `Where` -/
def FMap.where (m : FMap K V) (pred : K → V → Bool) : Go (FMap K V) := do
  let es ← m.rangeList
  buildMap ((es.filter (fun e => pred e.key e.value)).map (fun e => ⟨e.key, e.value⟩))

/-- map.go:166-173 `MapMap` -/
def mapMap (m : FMap K V) (f : K → V → U) : Go (FMap K U) := do
  let es ← m.rangeList
  buildMap (es.map (fun e => ⟨e.key, f e.key e.value⟩))

/-- map.go:194-200 `Merge` -/
def FMap.merge (m n : FMap K V) (resolve : K → V → V → V) : Go (FMap K V) := do
  let t ← m.tree.combine ⟨mapEntryKeyEqual, fun a b => ⟨a.key, resolve a.key a.value b.value⟩⟩ n.tree
  pure ⟨t⟩

/-- map.go:204-212 `Update` -/
def FMap.update (m n : FMap K V) : Go (FMap K V) :=
  if m.count > n.count then do
    let t ← n.tree.combine ⟨mapEntryKeyEqual, useLHS⟩ m.tree
    pure ⟨t⟩
  else do
    let t ← m.tree.combine ⟨mapEntryKeyEqual, useRHS⟩ n.tree
    pure ⟨t⟩

/-- map.go:215-221 `Hash` -/
def FMap.hash [GoKey V] [GoHash] (m : FMap K V) (seed : BitVec 64) : Go (BitVec 64) := do
  let es ← m.rangeList
  pure (es.foldl (fun h e => h ^^^ GoKey.hash (GoKey.hash seed e.key) e.value) (GoHash.uintptr 3167960924819262823#64 seed))

/-- map.go:225-232 `Equal` (with `Same`, map.go:235-238, for an argument of the same type) -/
def FMap.equal [GoKey V] (m n : FMap K V) : Go Bool := m.tree.equal mapEntryEqual n.tree

/-- Assignment `result[k] = v` on a Go map; keys are compared with `==` (Lean equality). -/
def goMapSet [DecidableEq K] (m : List (K × V)) (k : K) (v : V) : List (K × V) :=
  if m.any (fun e => e.1 == k) then m.map (fun e => if e.1 = k then (e.1, v) else e) else m ++ [(k, v)]

omit [GoKey K] in
/-- map.go:306-313 `MapToGoMap` -/
def mapToGoMap [DecidableEq K] (m : FMap K V) : Go (List (K × V)) := do
  let es ← m.rangeList
  pure (es.foldl (fun r e => goMapSet r e.key e.value) [])

end Frozen
