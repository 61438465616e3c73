import Verif.Proof.IntWork

/-!
# C52 and C59 for integer sets

How many nodes and arrays the calls on integer sets make, in any history over one memory (Spec/IntHistory.lean), when no four values of
the integer type share a 64-bit hash. `World.size` is the number of nodes and arrays in memory. A set is `v.data.count` blocks of up to 64
integers.
-/

set_option linter.unusedSectionVars false

namespace Frozen

variable {w : Nat} [GoKey (BitVec w)] [PrimKey (BitVec w)]

theorem IntWorld.ofCalls_step (hK : FewCollisions (BitVec w)) (G : Growth) (sg : Bool) (x : IntWorld w) (op : IntOp w) (ho : op.Orderly)
    (h : OfCalls G x.maps) : OfCalls G (x.step G sg op).maps := by
  have keep : ∀ {f : IM w MInt} {C : Nat}, TakesAtMost G f x.maps C → OfCalls G (x.keep f).maps := by
    intro f C hf
    unfold IntWorld.keep
    split
    · rename_i s W' he
      exact (hf s W' he).1
    · exact h
  have hr : ∀ {W : IntMaps w} (i : Nat), ∃ n, RangeLen W i n := by
    intro W i
    cases he : IM.range i W with
    | error e => exact ⟨0, fun es W' h => by rw [he] at h; cases h⟩
    | ok r => exact ⟨r.1.length, fun es W' h => by rw [he] at h; cases h; rfl⟩
  cases op with
  | new order is => exact keep (takes_new hK h sg order ho is)
  | «with» i n => simp only [IntWorld.step]; split; exacts [keep (takes_with hK h sg _ n), h]
  | without i n => simp only [IntWorld.step]; split; exacts [keep (takes_without hK h sg _ n), h]
  | «where» i p => simp only [IntWorld.step]; split; exacts [keep (takes_where hK h _ p (hr _).choose_spec), h]
  | map i order f =>
    simp only [IntWorld.step]
    split
    · rename_i s _
      have : ∃ n, ∀ vs W', s.elements x.maps = .ok (vs, W') → vs.length = n := by
        cases he : s.elements x.maps with
        | error e => exact ⟨0, fun es W' h => by cases h⟩
        | ok r => exact ⟨r.1.length, fun es W' h => by cases h; rfl⟩
      exact keep (takes_map hK h sg order ho s f this.choose_spec)
    · exact h
  | union i j => simp only [IntWorld.step]; split; exacts [keep (takes_union hK h _ _ (hr _).choose_spec), h]
  | intersection i j => simp only [IntWorld.step]; split; exacts [keep (takes_intersection hK h _ _ (hr _).choose_spec), h]

theorem IntWorld.ofCalls_run (hK : FewCollisions (BitVec w)) (G : Growth) (sg : Bool) : ∀ (ops : List (IntOp w)) (x : IntWorld w),
    (∀ op ∈ ops, op.Orderly) → OfCalls G x.maps → OfCalls G (x.run G sg ops).maps
  | [], _, _, h => h
  | op :: ops, x, ho, h => IntWorld.ofCalls_run hK G sg ops (x.step G sg op) (fun o h => ho o (by simp [h]))
      (IntWorld.ofCalls_step hK G sg x op (ho op (by simp)) h)

theorem rangeLen_of {W : IntMaps w} {V : IntVals w} (h : MSim W V) {i : Nat} {m : FMap (BitVec w) CellMask} (hi : V.maps[i]? = some m) :
    RangeLen W i m.count.toNat := by
  intro es W' he
  obtain ⟨r, W2, V2, ⟨g1, _⟩, _, _, _, rfl⟩ := runs_range h hi
  rw [g1] at he; cases he
  obtain ⟨_, _, _, _, hm, _⟩ := h.at hi
  have : m.count = m.tree.list.length := hm.count_eq
  omega

/-- C52, C59: let `v` and `u` be the sets at `i` and `j`. `With` makes at most 345 nodes and arrays and `Without` at most 717, however large
the set; `Where` at most 341 for each block of 64 integers of the set, `Union` 345 and `Intersection` 341 for each block of the second set;
`NewIntSet` 341 for each integer given, and `Map` 341 for each element. The rest of the result is memory of the operands. -/
theorem C52_intset_work (hK : FewCollisions (BitVec w)) (G : Growth) (sg : Bool) (ops : List (IntOp w)) (ho : ∀ op ∈ ops, op.Orderly)
    (order : List (BitVec w × CellMask) → List (BitVec w × CellMask)) (hord : ∀ m, (order m).Perm m) :
    let size := fun ops => ((IntWorld.init : IntWorld w).run G sg ops).maps.size
    (∀ is, size (ops ++ [.new order is]) ≤ size ops + 341 * is.length) ∧
    ∀ i v, (intRun sg ops)[i]? = some v →
      (∀ n, size (ops ++ [.with i n]) ≤ size ops + 345) ∧ (∀ n, size (ops ++ [.without i n]) ≤ size ops + 717) ∧
      (∀ p, size (ops ++ [.where i p]) ≤ size ops + 341 * v.data.count.toNat) ∧
      (∀ f, ∃ l, v.elements = .ok l ∧ size (ops ++ [.map i order f]) ≤ size ops + 341 * l.length) ∧
      ∀ j u, (intRun sg ops)[j]? = some u → size (ops ++ [.union i j]) ≤ size ops + 345 * u.data.count.toNat ∧
        size (ops ++ [.intersection i j]) ≤ size ops + 341 * u.data.count.toNat := by
  intro size
  have hx := IntWorld.ofCalls_run hK G sg ops IntWorld.init ho ⟨[], rfl⟩
  obtain ⟨V, h1, h2, h3⟩ := IntSim.run G sg ops IntSim.init (roomy_of_few hK sg ops [])
  have hlast : ∀ op, (IntWorld.init : IntWorld w).run G sg (ops ++ [op]) = ((IntWorld.init : IntWorld w).run G sg ops).step G sg op :=
    fun op => List.foldl_append
  simp only [size, hlast]
  clear size hlast
  generalize (IntWorld.init : IntWorld w).run G sg ops = x at *
  have keep : ∀ {f : IM w MInt} {C : Nat}, TakesAtMost G f x.maps C → (x.keep f).maps.size ≤ x.maps.size + C := by
    intro f C hf
    unfold IntWorld.keep
    split
    · rename_i s W' he
      exact (hf s W' he).2
    · omega
  have find : ∀ {i : Nat} {v : IntSet w}, (intRun sg ops)[i]? = some v → ∃ s, x.sets[i]? = some s ∧ Holds V s v := by
    intro i v hv
    have hlt : i < x.sets.length := by
      have := (List.getElem?_eq_some_iff.1 hv).1
      have h2' : x.sets.length = (intRun sg ops).length := h2
      omega
    obtain ⟨v', g1, g2⟩ := h3 i _ (List.getElem?_eq_getElem hlt)
    have g1' : (intRun sg ops)[i]? = some v' := g1
    rw [hv] at g1'; cases g1'
    exact ⟨_, List.getElem?_eq_getElem hlt, g2⟩
  refine ⟨fun is => keep (takes_new hK hx sg order hord is), fun i v hv => ?_⟩
  obtain ⟨s, hs, hsv⟩ := find hv
  simp only [IntWorld.step, hs]
  refine ⟨fun n => keep (takes_with hK hx sg s n), fun n => keep (takes_without hK hx sg s n),
    fun p => keep (takes_where hK hx s p (rangeLen_of h1 hsv.1)), fun f => ?_, fun j u hu => ?_⟩
  · obtain ⟨l, W', V', ⟨g1, _⟩, _, _, g2⟩ := runs_elements h1 hsv
    refine ⟨l, g2.2, keep (takes_map hK hx sg order hord s f (fun vs W2 he => ?_))⟩
    rw [g1] at he; cases he; rfl
  · obtain ⟨t, ht, htu⟩ := find hu
    simp only [ht]
    refine ⟨keep (takes_union hK hx s t (rangeLen_of h1 htu.1)), keep (takes_intersection hK hx s t ?_)⟩
    exact rangeLen_of (h1.step G .newBuilder trivial) (m := u.data) htu.1

/-- C52: `Has` looks one key up in the set's map (`MInt.has`), which takes at most 26 accesses, however large the set. -/
theorem C52_intset_has_work (hK : FewCollisions (BitVec w)) (G : Growth) (sg : Bool) (ops : List (IntOp w)) (ho : ∀ op ∈ ops, op.Orderly) :
    let x := (IntWorld.init : IntWorld w).run G sg ops
    ∀ (i : Nat) (s : MInt), x.sets[i]? = some s → ∃ m, x.maps.sets[s.data]? = some m ∧
      ∀ c : BitVec w, (m.getP (newMapKey c : Entry (BitVec w) CellMask)).accesses x.maps.mem ≤ 26 := by
  intro x i s hs
  obtain ⟨mops, hx⟩ := IntWorld.ofCalls_run hK G sg ops IntWorld.init ho ⟨[], rfl⟩
  obtain ⟨V, h1, h2, h3⟩ := IntSim.run G sg ops IntSim.init (roomy_of_few hK sg ops [])
  obtain ⟨v, _, g2⟩ := h3 i s hs
  obtain ⟨m, hm, _⟩ := h1.at g2.1
  refine ⟨m, hm, fun c => ?_⟩
  have hx' : x.maps = World.init.runMap G mops := hx
  have hm' : x.maps.sets[s.data]? = some m := hm
  rw [hx'] at hm' ⊢
  exact ((C52_map_constant_work hK G mops).1 _ m hm' c default).1

section
attribute [local instance] exampleIntKey

/-- A history of 16-bit integers, with the hash without collisions of Props/IntMem.lean: the set {1, 70, 200} of three blocks takes 6 nodes
and arrays, {1, 70, 200, 500} two more, and their union and intersection 14. -/
example : let size := fun ops => ((IntWorld.init : IntWorld 16).run goGrowth true ops).maps.size
    size [.new id [1#16, 70#16, 200#16]] = 6 ∧ size [.new id [1#16, 70#16, 200#16], .with 0 500#16] = 8 ∧
      size [.new id [1#16, 70#16, 200#16], .with 0 500#16, .union 0 1, .intersection 0 1] = 22 := by decide +kernel
end

end Frozen
