import Verif.Spec.IntCrash
import Verif.Props.IntMem

/-!
# C50 for integer sets: abandoned calls

The functions a client passes to an IntSet are the predicate of `Where` and the function of `Map`. `Map` (intset.go:196-202) calls its
function before it touches any map, so nothing is left behind when that panics. `Where` (intset.go:172-193) calls its predicate between
two puts into a map builder of its own.
-/

set_option linter.unusedSectionVars false

namespace Frozen

variable {w : Nat} [GoKey (BitVec w)] [PrimKey (BitVec w)]

theorem runs_whereCut (G : Growth) {W : IntMaps w} {V : IntVals w} (h : MSim W V) {s : MInt} {v : IntSet w} (hs : Holds V s v)
    (pred : BitVec w → Bool) (n : Nat) : MRuns (s.whereCut G pred n) W V (fun _ _ => True) := by
  unfold MInt.whereCut
  refine (runs_range h hs.1).bind (fun es W' V' hs' _ _ => ?_)
  refine (runs_newBuilder G hs').bind (fun b W'' V'' hs'' _ hQ => ?_)
  obtain ⟨y, _, _, g3⟩ := runs_puts G (((es.take n).map (fun e => (⟨e.key, ⟨whereCell pred e.key e.value.bits⟩⟩ :
    KeyValue (BitVec w) CellMask))).filter (fun kv => kv.value.bits ≠ 0#64)) hs'' hQ.2 Tree.valid_zero
  exact g3.mono (fun _ _ _ _ => trivial)

theorem IntSim.cut (G : Growth) (sg : Bool) {x : IntWorld w} {l : List (IntSet w)} (h : IntSim x l) (i : Nat) (pred : BitVec w → Bool)
    (n : Nat) : IntSim (x.event G sg (.cut i pred n)) l := by
  simp only [IntWorld.event]
  cases hi : x.sets[i]? with
  | none => exact h
  | some s =>
    obtain ⟨V, h1, h2, h3⟩ := h
    obtain ⟨v, _, k2⟩ := h3 i s hi
    obtain ⟨a, W', V', ⟨e1, _⟩, e2, e3, _⟩ := runs_whereCut G h1 k2 pred n
    dsimp only
    rw [e1]
    refine ⟨V', e2, h2, fun j t hj => ?_⟩
    obtain ⟨u, j1, j2⟩ := h3 j t hj
    exact ⟨u, j1, j2.mono e3⟩

theorem IntSim.events (G : Growth) (sg : Bool) : ∀ (es : List (IntEvent w)) {x : IntWorld w} {l : List (IntSet w)}, IntSim x l →
    RoomyFrom sg l (completed es) → IntSim (x.events G sg es) ((completed es).foldl (intStep sg) l)
  | [], _, _, h, _ => h
  | .call op :: es, _, _, h, hr => IntSim.events G sg es (h.step G sg op hr.1) hr.2
  | .cut i pred n :: es, _, _, h, hr => IntSim.events G sg es (h.cut G sg i pred n) hr

/-- C50 for integer sets: after any history of calls, any number of which were abandoned because the client's function panicked, the client
holds as many sets as if the abandoned calls had not been made, and each of them gives every answer it would have given then. (As long as no
call adds a block of integers to a set that has three others with the same 64-bit hash, C71.) -/
theorem C50_intset_as_if_not_made (G : Growth) (sg : Bool) (es : List (IntEvent w)) (hr : RoomyFrom sg [] (completed es)) :
    let x := (IntWorld.init : IntWorld w).events G sg es
    let y := (IntWorld.init : IntWorld w).run G sg (completed es)
    x.sets.length = y.sets.length ∧ ∀ (i : Nat) (s s' : MInt), x.sets[i]? = some s → y.sets[i]? = some s' →
      s.count = s'.count ∧ (∀ n, x.ask (s.has sg n) = y.ask (s'.has sg n)) ∧ x.ask s.elements = y.ask s'.elements ∧
      ∀ (j : Nat) (t t' : MInt), x.sets[j]? = some t → y.sets[j]? = some t' →
        x.ask (s.equal t) = y.ask (s'.equal t') ∧ x.ask (s.isSubsetOf t) = y.ask (s'.isSubsetOf t') := by
  intro x y
  obtain ⟨V, h1, h2, h3⟩ := IntSim.events G sg es IntSim.init hr
  obtain ⟨V', g1, g2, g3⟩ := IntSim.run G sg (completed es) IntSim.init hr
  refine ⟨h2.trans g2.symm, fun i s s' hs hs' => ?_⟩
  obtain ⟨v, k1, k2⟩ := h3 i s hs
  obtain ⟨v', k1', k2'⟩ := g3 i s' hs'
  obtain rfl : v = v' := Option.some.inj (k1.symm.trans k1')
  refine ⟨k2.2.trans k2'.2.symm, fun n => ?_, ?_, fun j t t' ht ht' => ?_⟩
  · rw [ask_of_runs (runs_has h1 k2 sg n)]; exact (ask_of_runs (runs_has g1 k2' sg n)).symm
  · exact (ask_of_runs ((runs_elements h1 k2).mono (fun _ _ _ h => h.2))).trans
      (ask_of_runs ((runs_elements g1 k2').mono (fun _ _ _ h => h.2))).symm
  · obtain ⟨u, j1, j2⟩ := h3 j t ht
    obtain ⟨u', j1', j2'⟩ := g3 j t' ht'
    obtain rfl : u = u' := Option.some.inj (j1.symm.trans j1')
    exact ⟨(ask_of_runs ((runs_equal h1 k2.1 j2.1).mono (fun _ _ _ h => h.2))).trans
      (ask_of_runs ((runs_equal g1 k2'.1 j2'.1).mono (fun _ _ _ h => h.2))).symm,
      (ask_of_runs (runs_isSubsetOf h1 k2 j2)).trans (ask_of_runs (runs_isSubsetOf g1 k2' j2')).symm⟩

/-- C50 for integer sets: after such a history, an abandoned call changes no answer of any set, whatever calls and abandoned calls came
before it. -/
theorem C50_intset_abandoned_keeps (G : Growth) (sg : Bool) (es : List (IntEvent w)) (hr : RoomyFrom sg [] (completed es)) (i : Nat)
    (pred : BitVec w → Bool) (n : Nat) :
    let x := (IntWorld.init : IntWorld w).events G sg es
    let y := x.event G sg (.cut i pred n)
    y.sets = x.sets ∧ ∀ s ∈ x.sets, (∀ m, y.ask (s.has sg m) = x.ask (s.has sg m)) ∧ y.ask s.elements = x.ask s.elements ∧
      ∀ t ∈ x.sets, y.ask (s.equal t) = x.ask (s.equal t) ∧ y.ask (s.isSubsetOf t) = x.ask (s.isSubsetOf t) := by
  intro x y
  have hsets : y.sets = x.sets := by
    show (x.event G sg (.cut i pred n)).sets = x.sets
    simp only [IntWorld.event]
    split
    · split <;> rfl
    · rfl
  have hx : IntSim x _ := IntSim.events G sg es IntSim.init hr
  obtain ⟨V, h1, h2, h3⟩ := hx.cut G sg i pred n
  obtain ⟨V', g1, g2, g3⟩ := hx
  refine ⟨hsets, fun s hs => ?_⟩
  obtain ⟨a, ha⟩ := List.mem_iff_getElem?.1 hs
  obtain ⟨v, k1, k2⟩ := h3 a s (by rw [← ha]; exact congrArg (·[a]?) hsets)
  obtain ⟨v', k1', k2'⟩ := g3 a s ha
  obtain rfl : v = v' := Option.some.inj (k1.symm.trans k1')
  refine ⟨fun m => ?_, ?_, fun t ht => ?_⟩
  · exact (ask_of_runs (runs_has h1 k2 sg m)).trans (ask_of_runs (runs_has g1 k2' sg m)).symm
  · exact (ask_of_runs ((runs_elements h1 k2).mono (fun _ _ _ h => h.2))).trans
      (ask_of_runs ((runs_elements g1 k2').mono (fun _ _ _ h => h.2))).symm
  · obtain ⟨b, hb⟩ := List.mem_iff_getElem?.1 ht
    obtain ⟨u, j1, j2⟩ := h3 b t (by rw [← hb]; exact congrArg (·[b]?) hsets)
    obtain ⟨u', j1', j2'⟩ := g3 b t hb
    obtain rfl : u = u' := Option.some.inj (j1.symm.trans j1')
    exact ⟨(ask_of_runs ((runs_equal h1 k2.1 j2.1).mono (fun _ _ _ h => h.2))).trans
      (ask_of_runs ((runs_equal g1 k2'.1 j2'.1).mono (fun _ _ _ h => h.2))).symm,
      (ask_of_runs (runs_isSubsetOf h1 k2 j2)).trans (ask_of_runs (runs_isSubsetOf g1 k2' j2')).symm⟩

/-! ## The hypotheses can be met -/

section
attribute [local instance] exampleIntKey

/-- A call of `Where` on {1, 2, 200} that is abandoned after one block, and calls before and after it: the abandoned call has left a builder
with entries in memory, and the sets are as they would be without it. -/
example :
    let es : List (IntEvent 64) := [.call (.new id [1#64, 2#64, 200#64]), .cut 0 (fun n => n != 1#64) 1, .call (.with 0 300#64)]
    let x := (IntWorld.init : IntWorld 64).events goGrowth true es
    x.maps.builders.length = 2 ∧ x.maps.builders.any (fun b => b.root.isSome) = true ∧ x.sets.map (·.count) = [3, 4] ∧
      x.sets[1]?.any (fun s => isOk (x.ask (s.has true 1#64)) true && isOk (x.ask (s.has true 300#64)) true) = true := by
  decide +kernel

/-- `With` and `Union` are allowed as well if no four values of the type share a hash; this hash has no collisions. -/
example : RoomyFrom true [] (completed [.call (.new id [1#64, 2#64, 200#64]),
    .cut 0 (fun n => n != 1#64) 1, .call (.with 0 300#64)]) := roomy_of_few (exampleIntKey_few (by decide)) true _ _

end

end Frozen
