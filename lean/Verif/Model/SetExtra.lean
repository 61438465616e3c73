import Verif.Spec.Nested
import Verif.Model.Bits

/-! # `Powerset` and `SetGroupBy` (`set.go`) -/

namespace Frozen

variable {T : Type} [GoKey T]

/-- set.go:326-331: the loop body of `Powerset`. -/
def powersetStep [GoHash] (elems : List T) (st : SetVal T × FSet (SetVal T)) (i : BitVec 64) : Go (SetVal T × FSet (SetVal T)) := do
  let flip := tz i
  let subset ← match elems[flip]? with
    | some e => if BitIter.has i (BitVec.ofNat 64 (flip + 1)) then st.1.without e else st.1.with e
    | none => .error (.msg "index out of range")
  let result ← st.2.with subset
  pure (subset, result)

/-- set.go:291-334 `Powerset`. The loop `for i := 1; i < 1<<n; i++`, `n ≤ 63`, runs over the words 1, 2, …, 2ⁿ-1. -/
def powerset [GoHash] (s : FSet T) : Go (FSet (SetVal T)) := do
  let n := s.count
  if n > 63 then .error (.msg "set too large")
  else do
    let elems ← s.elements
    let result ← newSet [(SetVal.empty : SetVal T)]
    let st ← ((List.range' 1 (2 ^ n.toNat - 1)).map (BitVec.ofNat 64)).foldlM (powersetStep elems) (SetVal.empty, result)
    pure st.2

/-- The state of `SetGroupBy`'s first loop: the map from keys to pointers, and the builders the pointers lead to. A pointer is the
index of a builder in allocation order. -/
structure Groups (K T : Type) where
  builders : MapBuilder K Nat
  heap : List (SetBuilder T)

/-- The zero value of `Set[T]` is the empty set. -/
instance : Inhabited (FSet T) := ⟨FSet.zero⟩

variable {K : Type} [GoKey K]

/-- set.go:340-349: the body of the first loop of `SetGroupBy`. -/
def groupStep (key : T → K) (g : Groups K T) (v : T) : Go (Groups K T) := do
  let k := key v
  let (p, g) ← (do
    match ← MapBuilder.get g.builders k with
    | some p => pure (p, g)
    | none =>
      let p := g.heap.length
      let bs ← MapBuilder.put g.builders k p
      pure (p, (⟨bs, g.heap ++ [(Tree.zero : SetBuilder T)]⟩ : Groups K T)))
  match g.heap[p]? with
  | none => .error .nilDeref
  | some b => do
    let b' ← SetBuilder.add b v
    pure ⟨g.builders, g.heap.set p b'⟩

/-- set.go:353-355: the body of the second loop: finish one builder. -/
def groupFinish (st : MapBuilder K (FSet T) × List (SetBuilder T)) (e : Entry K Nat) : Go (MapBuilder K (FSet T) × List (SetBuilder T)) :=
  match st.2[e.value]? with
  | none => .error .nilDeref
  | some b => do
    let (s, b') := SetBuilder.finish b
    let r ← MapBuilder.put st.1 e.key s
    pure (r, st.2.set e.value b')

/-- set.go:337-357 `SetGroupBy` -/
def setGroupBy (s : FSet T) (key : T → K) : Go (FMap K (FSet T)) := do
  let vs ← s.rangeList
  let g ← vs.foldlM (groupStep key) ⟨(Tree.zero : MapBuilder K Nat), []⟩
  let fb := (MapBuilder.finish g.builders).1
  let es ← fb.rangeList
  let st ← es.foldlM groupFinish ((Tree.zero : MapBuilder K (FSet T)), g.heap)
  pure (MapBuilder.finish st.1).1

end Frozen
