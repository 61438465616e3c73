import Verif.Model.Calls
import Verif.Model.IntSet

/-! # The functions that take functions, with their calls: `intset.go` -/

namespace Frozen

variable {w : Nat}

/-- intset.go:179-186: the new cell in `Where`, with the calls of the predicate. -/
def whereCellE (c : BitVec w) (cell : BitVec 64) : CB (BitVec w) Bool (BitVec 64) :=
  (bitLoop cell).foldlM (fun n i => do
    let p ← CB.ask (cellVal c i)
    pure (if p then n ||| (1#64 <<< (BitVec.ofNat w i).toNat) else n)) 0#64

variable [GoKey (BitVec w)]

/-- intset.go:172-193 `Where`: the predicate is called while the iterator and the builder are in use. -/
def IntSet.whereE (s : IntSet w) : CB (BitVec w) Bool (IntSet w) := do
  let es ← CB.lib s.data.rangeList
  let st ← es.foldlM (fun st e => do
    let cell ← whereCellE e.key e.value.bits
    if cell ≠ 0#64 then do
      let b ← CB.lib (MapBuilder.put st.1 e.key (⟨cell⟩ : CellMask))
      pure (b, st.2 + (ones cell : Int))
    else pure st) ((Tree.zero : MapBuilder (BitVec w) CellMask), (0 : Int))
  pure ⟨(MapBuilder.finish st.1).1, st.2⟩

/-- intset.go:196-202 `Map` -/
def IntSet.mapE (signed : Bool) (order : List (BitVec w × CellMask) → List (BitVec w × CellMask)) (s : IntSet w) :
    CB (BitVec w) (BitVec w) (IntSet w) := do
  let vs ← CB.lib s.elements
  let arr ← vs.foldlM (fun arr v => do
    let u ← CB.ask v
    pure (arr ++ [u])) []
  CB.lib (newIntSet signed order arr)

end Frozen
