import Verif.Spec.IntIterCrash
import Verif.Props.IntCrash
import Verif.Props.IntIter

/-!
# C54 and C50: iterators over integer sets, and calls that are abandoned

An abandoned call of `Where` leaves a half-filled builder in the memory that iterators read.
-/

set_option linter.unusedSectionVars false

namespace Frozen

section
variable {w : Nat} [GoKey (BitVec w)] [PrimKey (BitVec w)]

theorem IntSim.cleanCut (G : Growth) (sg : Bool) {x : IntWorld w} {l : List (IntSet w)} (h : IntSim x l) (i : Nat) (pred : BitVec w → Bool)
    (n : Nat) : Clean x.maps (x.event G sg (.cut i pred n)).maps := by
  simp only [IntWorld.event]
  cases hi : x.sets[i]? with
  | none => exact Clean.refl _
  | some s =>
    obtain ⟨V, h1, h2, h3⟩ := h
    obtain ⟨v, _, k2⟩ := h3 i s hi
    obtain ⟨a, W', V', ⟨e1, e4⟩, _⟩ := runs_whereCut G h1 k2 pred n
    dsimp only
    rw [e1]
    exact e4

theorem IIInv.cut (G : Growth) (sg : Bool) {x : IIWorld w} {l : LIWorld w} {m : LMWorld (BitVec w) CellMask} (h : IIInv x l m) (i : Nat)
    (pred : BitVec w → Bool) (n : Nat) : ∃ m', IIInv (x.event G sg (.cut i pred n)) l m' := by
  obtain ⟨maps, h1⟩ := h.sim.cleanCut G sg i pred n _ m h.cells
  exact ⟨⟨maps, m.iters, []⟩, h.sim.cut G sg i pred n, h1, h.len, h.left, h.seen⟩

theorem IIInv.events (G : Growth) (sg : Bool) : ∀ (es : List (IIEvent w)) {x : IIWorld w} {l : LIWorld w} {m : LMWorld (BitVec w) CellMask},
    IIInv x l m → RoomyFrom sg l.sets (IIOp.calls (IIEvent.completed es)) →
      ∃ m', IIInv (x.events G sg es) (l.run sg (IIEvent.completed es)) m'
  | [], _, _, m, h, _ => ⟨m, h⟩
  | .op (.call op) :: es, _, _, _, h, hr => by
    obtain ⟨m', h'⟩ := h.call G sg op hr.1
    exact IIInv.events G sg es h' hr.2
  | .op (.range i) :: es, x, l, _, h, hr => by
    obtain ⟨⟨m', h'⟩, _⟩ := h.range G sg i
    refine IIInv.events G sg es h' ?_
    have : (l.step sg (.range i)).sets = l.sets := by
      simp only [LIWorld.step]
      split
      · split <;> rfl
      · rfl
    rw [this]; exact hr
  | .op (.next j) :: es, x, l, _, h, hr => by
    obtain ⟨⟨m', h'⟩, _⟩ := h.next G sg j
    refine IIInv.events G sg es h' ?_
    have : (l.step sg (.next j)).sets = l.sets := by
      simp only [LIWorld.step]
      split <;> rfl
    rw [this]; exact hr
  | .cut i pred n :: es, _, _, _, h, hr => by
    obtain ⟨m', h'⟩ := h.cut G sg i pred n
    exact IIInv.events G sg es h' hr

/-- C54 and C50 for integer sets: also when some of the calls between `Range` and `Next` are abandoned because the client's predicate
panicked, every iterator delivers what `Elements` returned at the time of `Range`, and then `Next` returns false for ever. What the
iterators deliver, and the answers of the sets, do not depend on the abandoned calls. Missing: histories that add a block of integers to a
set that has three others with the same 64-bit hash. -/
theorem C54_intset_abandoned_partial (G : Growth) (sg : Bool) (es : List (IIEvent w))
    (hr : RoomyFrom sg [] (IIOp.calls (IIEvent.completed es))) :
    (IIWorld.init.events G sg es).seen = (LIWorld.init.run sg (IIEvent.completed es)).seen ∧
    (IIWorld.init.events G sg es).seen = (IIWorld.init.run G sg (IIEvent.completed es)).seen := by
  obtain ⟨_, h⟩ := IIInv.events G sg es IIInv.init hr
  exact ⟨h.seen, h.seen.trans (C54_intset_iterators_partial G sg _ hr).symm⟩

end

/-! ## The hypotheses can be met -/

section
attribute [local instance] exampleIntKey

/-- An iterator over {1, 2, 200}, and a call of `Where` on the set that is abandoned between two calls of `Next`. -/
example :
    let es : List (IIEvent 16) := [.op (.call (.new id [1#16, 2#16, 200#16])), .op (.range 0), .op (.next 0),
      .cut 0 (fun n => n != 1#16) 1, .op (.call (.with 0 3#16)), .op (.next 0), .op (.next 0), .op (.next 0)]
    let x := (IIWorld.init : IIWorld 16).events goGrowth true es
    x.seen.length = 4 ∧ x.world.maps.builders.length = 2 ∧ (0, some (some 1#16)) ∈ x.seen ∧ (0, some (some 2#16)) ∈ x.seen ∧
      (0, some (some 200#16)) ∈ x.seen ∧ x.seen[3]? = some (0, some none) := by
  decide +kernel

/-- The hypothesis is met: this hash has no collisions. -/
example : RoomyFrom true [] (IIOp.calls (IIEvent.completed ([.op (.call (.new id [1#16, 2#16, 200#16])), .op (.range 0), .op (.next 0),
    .cut 0 (fun n => n != 1#16) 1, .op (.call (.with 0 3#16)), .op (.next 0)] : List (IIEvent 16)))) :=
  roomy_of_few (exampleIntKey_few (by decide)) true _ _

end

end Frozen
