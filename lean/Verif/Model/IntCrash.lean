import Verif.Model.IntMem

/-! # Calls on integer sets that are abandoned: `intset.go` -/

namespace Frozen

variable {w : Nat}

/-- intset.go:172-192: a call of `Where` whose predicate panics after `n` blocks of integers have been done. The builder with the blocks
kept so far is lost, but what it allocated stays in memory. (As in Model/IntMem.lean, the entries are read when the loop starts.) -/
def MInt.whereCut [GoKey (BitVec w)] (G : Growth) (s : MInt) (pred : BitVec w → Bool) (n : Nat) : IM w Unit := do
  let es ← IM.range s.data
  let b ← IM.newBuilder G
  (((es.take n).map (fun e => (⟨e.key, ⟨whereCell pred e.key e.value.bits⟩⟩ : KeyValue (BitVec w) CellMask))).filter
    (fun kv => kv.value.bits ≠ 0#64)).forM (fun kv => IM.put G b kv.key kv.value)

end Frozen
