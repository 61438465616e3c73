import Verif.Proof.IterWork
import Verif.Props.MemIter
import Verif.Props.Work

/-!
# The work of iterators

C52 for `Range`, `Next` and `Value`. A map is a set of entries, so the theorems are about map iterators too.
-/

set_option linter.unusedSectionVars false

namespace Frozen

variable {T : Type} [GoKey T] [LawfulGoKey T]

/-- C52: in any history whatsoever, with any calls between those on the iterator, `Next` takes at most 2277 accesses and `Value` one,
however large the set. -/
theorem C52_next_work (G : Growth) (ops : List (IOp T)) (j : Nat) (it : MIter T) (hj : (IWorld.init.run G ops).iters[j]? = some it) :
    (it.next G).accesses (IWorld.init.run G ops).world.mem ≤ 2277 ∧ it.value.accesses (IWorld.init.run G ops).world.mem ≤ 1 := by
  obtain ⟨⟨S, B, h⟩, _⟩ := irun_inv G ops (IInv.init false) (nomatch ·)
  obtain ⟨v, hv, _⟩ := h.iters j it hj
  obtain ⟨_, v', ok, h1, _⟩ := MIter.next_eq G hv
  refine ⟨(next_acc G _ S memFuel 0 (fuelOk_mem 0) it v hv v' ok h1).2.1, ?_⟩
  unfold MIter.value LeafIter.value
  split
  · exact Nat.zero_le _
  · split <;> exact Nat.zero_le _
  · rw [accesses_bind, acc_readCell]
    split
    · split
      · split
        · exact Nat.le_refl _
        · split <;> exact Nat.le_refl _
      · exact Nat.le_refl _
    · exact Nat.le_refl _
  · split
    · exact Nat.zero_le _
    · simp only [MM.accesses]
      split <;> exact Nat.le_refl _

/-- C52: `Range` takes at most one access, and all calls of `Next` on the iterator together, however many, take at most 198 for each
element of the set. -/
theorem C52_iterator_work (G : Growth) (ops : List (HOp T)) (hu : UncrowdedRun G World.init ops) (i : Nat) (s : MTree)
    (hs : (World.init.run G ops).sets[i]? = some s) :
    ∃ l it, s.elems (World.init.run G ops).mem = .ok l ∧
      s.iterator G (World.init.run G ops).mem = (.ok it, (World.init.run G ops).mem) ∧
      (s.iterator G).accesses (World.init.run G ops).mem ≤ 1 ∧
      ∀ n, it.nextsWork G (World.init.run G ops).mem n ≤ 198 * l.length := by
  obtain ⟨S, n, h1, h2, h3, h4⟩ := set_rep hu hs
  obtain ⟨it, v, h5, h6, h7⟩ := MTree.iterator_eq G h1
  refine ⟨_, it, h4, h6, ?_, fun k => ?_⟩
  · unfold MTree.iterator
    cases s.root with
    | none => exact Nat.zero_le _
    | some a =>
      show (readCell a >>= _).accesses _ ≤ 1
      rw [accesses_bind, acc_readCell]
      split
      · split <;> exact Nat.le_refl _
      · exact Nat.le_refl _
  · have h8 := nextsWork_le G k h7
    rw [pot_start h5] at h8
    exact Nat.le_trans h8 (nodeCost_le n 0 h3)

/-! ## The hypotheses can be met -/

/-- The iterators of `iterHistory`; the first one is at its end, the second one too. -/
example : ((IWorld.init.run goGrowth iterHistory).iters[0]?).isSome = true ∧ ((IWorld.init.run goGrowth iterHistory).iters[1]?).isSome = true := by
  decide +kernel

/-- Three elements with one hash lie 22 levels down: the first `Next` takes 51 accesses, the other two none, the one at the end 147,
further ones none. -/
example : ((World.init.run goGrowth threeHistory).sets[3]?).any (fun s =>
    match s.iterator goGrowth (World.init.run goGrowth threeHistory).mem with
    | (.ok it, H) => decide ((List.range 6).map (fun n => it.nextsWork goGrowth H n) = [0, 51, 51, 51, 198, 198])
    | _ => false) = true := by decide +kernel

end Frozen
