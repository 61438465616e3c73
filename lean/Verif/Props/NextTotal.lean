import Verif.Proof.NextTotal
import Verif.Props.MapIter
import Verif.Props.IntIter

/-!
# C54 for maps and integer sets: `Next` does not panic

Histories as in Props/MapIter.lean and Props/IntIter.lean, crowded maps and blocks included. There an iterator may deliver entries that its map never had
(`C54_map_iterators_refuted`), but `Next` still answers.
-/

set_option linter.unusedSectionVars false

namespace Frozen

section
variable {K V : Type} [GoKey K] [LawfulGoKey K] [Inhabited K] [Inhabited V]

/-- C54 for maps in any history whatsoever: `Next`, which reads the entry it will answer with, never panics. -/
theorem C54_map_next_total (G : Growth) (ops : List (MIOp K V)) (j : Nat) (r : Option Bool)
    (hr : (j, MIAnswer.next r) ∈ (MIWorld.init.run G ops).seen) : ∃ b, r = some b :=
  NextFine.run G ops ⟨MIAny.init, fun _ h => nomatch h⟩ (fun _ _ h => nomatch h) j r hr

/-- C54 for integer sets in any history whatsoever: `Next` never panics. -/
theorem C54_intset_next_total {w : Nat} [GoKey (BitVec w)] [PrimKey (BitVec w)] (G : Growth) (sg : Bool) (ops : List (IIOp w)) (j : Nat)
    (r : Option (Option (BitVec w))) (hr : (j, r) ∈ (IIWorld.init.run G sg ops).seen) : ∃ b, r = some b :=
  NextFine.int_run G sg ops (x := IIWorld.init) ⟨MIAny.init, fun _ h => nomatch h⟩ (fun _ _ h => nomatch h) j r hr

end

/-- The history of the refutation: six times `Next` on an iterator over a crowded map, with a key added to another map in between; five
entries and the end. -/
example :
    let ops : List (MIOp Coll Nat) := [.call .empty, .call (.with 0 ⟨1⟩ 1), .call (.with 1 ⟨2⟩ 2), .call (.with 2 ⟨3⟩ 3),
      .call (.with 3 ⟨4⟩ 4), .call (.with 4 ⟨5⟩ 5), .range 5, .next 0, .call (.with 4 ⟨6⟩ 6), .next 0, .next 0, .next 0, .next 0, .next 0]
    (MIWorld.init.run goGrowth ops).seen = List.replicate 5 (0, .next (some true)) ++ [(0, .next (some false))] := by
  decide +kernel

section
attribute [local instance] sameIntKey

/-- The history of the refutation for integer sets: six times `Next`, none of them panics. -/
example :
    let x := (IIWorld.init : IIWorld 16).run goGrowth true (crowdedIntHistory.map .call ++
      [.range 4, .next 0, .call (.with 3 320#16), .next 0, .next 0, .next 0, .next 0, .next 0])
    x.seen.length = 6 ∧ x.seen[4]? = some (0, some (some 320#16)) ∧ x.seen[5]? = some (0, some none) := by
  decide +kernel

end

end Frozen
