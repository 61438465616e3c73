import Verif.Proof.IntPhantom
import Verif.Proof.SetMore
import Verif.Props.Witness
import Verif.Props.Bits

/-! # C21: integer sets

A program (`Spec/IntProg.lean`) denotes a set of integers. `w` is the width of the integer type, `sg` says whether it is signed. The
claim is true for unsigned types; for signed types it fails on negative integers that are not multiples of 64. -/

set_option linter.unusedSectionVars false

namespace Frozen

variable {w : Nat} [GoKey (BitVec w)] [PrimKey (BitVec w)]

/-- The set `s` behaves as the set of integers `P`: `Has` is exact; one list `l` without duplicates has exactly the elements of `P`, its
length is `Count()`, `Elements()` returns it, and the iterator delivers it and then ends for good; `IsEmpty` and `Any` agree with it. -/
structure IsIntSet (sg : Bool) (s : IntSet w) (P : BitVec w → Prop) : Prop where
  has : ∀ i, ∃ b, s.has sg i = .ok b ∧ (b = true ↔ P i)
  list : ∃ l : List (BitVec w), l.Nodup ∧ (∀ i, i ∈ l ↔ P i) ∧ s.count = l.length ∧ s.elements = .ok l ∧
    (∃ it, s.range = .ok it ∧ ∀ n, it.calls n = .ok ((List.range n).map (fun k => l[k]?))) ∧
    (s.isEmpty = true ↔ l = []) ∧ (l = [] → ∃ m, s.any = .error (.msg m)) ∧ (l ≠ [] → ∃ i ∈ l, s.any = .ok i)

theorem IntInv.isIntSet (hw : 8 ≤ w) (hw2 : w ≤ 64) {sg : Bool} {s : IntSet w} {F : BitVec w → BitVec 64} {P : BitVec w → Prop}
    (h : IntInv sg s F) (hP : ∀ i, memF sg F i ↔ P i) : IsIntSet sg s P := by
  refine ⟨fun i => ?_, cellElems s.data.tree.list, h.cells.nodup_elems, fun i => by rw [h.cells.mem_elems hw hw2, hP], ?_,
    h.cells.elements, ?_, ?_, ?_, ?_⟩
  · obtain ⟨b, h1, h2⟩ := h.cells.has i
    exact ⟨b, h1, by rw [h2, hP]⟩
  · rw [h.count, h.cells.total_list, cellElems_length]
  · obtain ⟨it, h1, h2, h3⟩ := h.cells.range
    exact ⟨it, h1, fun n => by rw [IntIter.calls_spec n it h3, h2]⟩
  · have hnil : cellElems s.data.tree.list = [] ↔ s.data.tree.list = [] := by
      cases hl : s.data.tree.list with
      | nil => simp [cellElems]
      | cons e es =>
        have he := (h.cells.mem_list (e := e)).1 (by rw [hl]; simp)
        simp only [cellElems, List.flatMap_cons, List.append_eq_nil_iff, List.map_eq_nil_iff, reduceCtorEq, iff_false]
        exact fun hc => he.2 (bitsOf_eq_nil.1 hc.1)
    rw [hnil]
    have hc := h.cells.valid.count_eq
    unfold IntSet.isEmpty FMap.isEmpty
    rw [hc, beq_iff_eq, ← List.length_eq_zero_iff]
    norm_cast
  · intro hl
    have h1 := FMap.any_spec h.cells.valid
    cases hs : s.data.tree.list with
    | nil =>
      rw [hs] at h1
      exact ⟨_, by unfold IntSet.any; rw [h1]; rfl⟩
    | cons e es =>
      have he := (h.cells.mem_list (e := e)).1 (by rw [hs]; simp)
      rw [hs] at hl
      simp only [cellElems, List.flatMap_cons, List.append_eq_nil_iff, List.map_eq_nil_iff] at hl
      exact absurd (bitsOf_eq_nil.1 hl.1) he.2
  · intro hl
    have h1 := FMap.any_spec h.cells.valid
    cases hs : s.data.tree.list with
    | nil => rw [hs] at hl; exact absurd rfl hl
    | cons e es =>
      have he := (h.cells.mem_list (e := e)).1 (by rw [hs]; simp)
      rw [hs] at h1
      refine ⟨cellVal e.key (tz e.value.bits), ?_, by unfold IntSet.any; rw [h1]; rfl⟩
      unfold cellElems
      rw [List.flatMap_cons, bitsOf_cons he.2]
      simp

/-- C21, for unsigned types: every program returns a set that behaves as the set the program denotes. -/
theorem C21_unsigned (hw : 8 ≤ w) (hw2 : w ≤ 64) (p : IntProg w) : ∃ s, p.run false = .ok s ∧ IsIntSet false s p.denote := by
  have hp : ∀ p : IntProg w, p.AllStorable false := by
    intro p
    induction p with
    | new => exact fun _ _ => .inl rfl
    | «with» p i ih => exact ⟨ih, .inl rfl⟩
    | without p i ih => exact ih
    | «where» p pred ih => exact ih
    | map p o ho f ih => exact ⟨ih, fun _ _ => .inl rfl⟩
    | union p q ih1 ih2 => exact ⟨ih1, ih2⟩
    | intersection p q ih1 ih2 => exact ⟨ih1, ih2⟩
  obtain ⟨s, F, h1, h2, h3⟩ := IntProg.run_spec hw hw2 p (hp p)
  exact ⟨s, h1, h2.isIntSet hw hw2 h3⟩

/-- C21, for every integer type, for the programs that only insert integers that are `Storable`: non-negative, or multiples of 64.
Missing from the full claim: negative integers that are not multiples of 64, of which it is false (`C21_negative_lost`). -/
theorem C21_intset_partial (hw : 8 ≤ w) (hw2 : w ≤ 64) (sg : Bool) (p : IntProg w) (hp : p.AllStorable sg) :
    ∃ s, p.run sg = .ok s ∧ IsIntSet sg s p.denote := by
  obtain ⟨s, F, h1, h2, h3⟩ := IntProg.run_spec hw hw2 p hp
  exact ⟨s, h1, h2.isIntSet hw hw2 h3⟩

/-- C21. `Equal` and `IsSubsetOf` are extensional, and sets with the same elements have the same `Hash`. (Always `AllStorable` if the
type is unsigned.) -/
theorem C21_compare_partial (hw : 8 ≤ w) (hw2 : w ≤ 64) (sg : Bool) (p q : IntProg w) (hp : p.AllStorable sg) (hq : q.AllStorable sg) :
    ∃ s t, p.run sg = .ok s ∧ q.run sg = .ok t ∧
      (∃ b, s.equal t = .ok b ∧ (b = true ↔ ∀ i, p.denote i ↔ q.denote i)) ∧
      (∃ b, s.isSubsetOf t = .ok b ∧ (b = true ↔ ∀ i, p.denote i → q.denote i)) ∧
      ((∀ i, p.denote i ↔ q.denote i) → ∀ seed, ∃ h, s.hash seed = .ok h ∧ t.hash seed = .ok h) := by
  obtain ⟨s, F, h1, h2, h3⟩ := IntProg.run_spec hw hw2 p hp
  obtain ⟨t, G, k1, k2, k3⟩ := IntProg.run_spec hw hw2 q hq
  refine ⟨s, t, h1, k1, ?_, ?_, ?_⟩
  · obtain ⟨b, g1, g2⟩ := h2.cells.equal k2.cells
    exact ⟨b, g1, by rw [g2]; simp only [h3, k3]⟩
  · obtain ⟨b, g1, g2⟩ := h2.cells.isSubsetOf k2.cells
    exact ⟨b, g1, by rw [g2]; simp only [h3, k3]⟩
  · intro he seed
    have hperm : (cellElems s.data.tree.list).Perm (cellElems t.data.tree.list) := by
      rw [List.perm_ext_iff_of_nodup h2.cells.nodup_elems k2.cells.nodup_elems]
      intro i
      rw [h2.cells.mem_elems hw hw2, k2.cells.mem_elems hw hw2, h3, k3, he]
    have hx : ∀ (l : List (BitVec w)) (z : BitVec 64), l.foldl (fun h v => h ^^^ GoKey.hash 0#64 v) z =
        (l.map (GoKey.hash 0#64)).foldl (fun h v => h ^^^ v) z := by
      intro l
      induction l with
      | nil => intro z; rfl
      | cons a l ih => intro z; exact ih _
    refine ⟨_, ?_, by unfold IntSet.hash; rw [k2.cells.elements]; rfl⟩
    unfold IntSet.hash
    rw [h2.cells.elements]
    simp only [bind, Except.bind, pure, Except.pure]
    rw [hx, hx, xor_perm (hperm.map _)]

/-- The full claim is false: adding a negative integer that is not a multiple of 64 counts it but does not store it. -/
theorem C21_negative_lost (hw : 8 ≤ w) (hw2 : w ≤ 64) (p : IntProg w) (hp : p.AllStorable true) (i : BitVec w)
    (hneg : i.toInt < 0) (h64 : ¬ 64 ∣ i.toInt) :
    ∃ s s', p.run true = .ok s ∧ (p.with i).run true = .ok s' ∧ s'.has true i = .ok false ∧ s'.count = s.count + 1 := by
  obtain ⟨s, F, h1, h2, h3⟩ := IntProg.run_spec hw hw2 p hp
  have hn : ¬ Storable true i := by
    rintro (h | h | h)
    · cases h
    · omega
    · exact h64 h
  have hmask : 1#64 <<< bitOf true i = 0#64 := by
    by_contra hc
    obtain ⟨j, hj⟩ := ne_zero_iff_bit.1 hc
    rw [one_shl_getLsbD] at hj
    simp only [Bool.and_eq_true, decide_eq_true_eq] at hj
    exact hn ((bitOf_lt_iff hw hw2 true i).1 hj.2)
  obtain ⟨d', g1, g2, g3⟩ := FMap.with_spec h2.cells.valid (cellOf true i) (⟨F (cellOf true i) ||| 0#64⟩ : CellMask)
  have hwith : s.with true i = .ok ⟨d', s.count + 1⟩ := by
    unfold IntSet.with
    rw [h2.cells.locate]
    simp only [bind, Except.bind]
    rw [hmask, if_pos (by simp), g1]
    rfl
  refine ⟨s, _, h1, by simp only [IntProg.run, h1, bind, Except.bind]; exact hwith, ?_, rfl⟩
  unfold IntSet.has IntSet.locate
  rw [FMap.get_spec g2]
  simp only [bind, Except.bind, pure, Except.pure, locateCell_eq]
  rw [hmask]
  simp

/-- What `Elements` makes of a negative integer that is not a multiple of 64, if there is no integer of the same block of 64 in the set:
it delivers the next multiple of 64 in its place, though `Has` finds neither (unless that multiple is in the set, and is then delivered
twice). So `NewIntSet(-1).Elements()` is `[0]`. -/
theorem C21_negative_replaced (hw : 8 ≤ w) (hw2 : w ≤ 64) (p : IntProg w) (hp : p.AllStorable true) (i : BitVec w)
    (hneg : i.toInt < 0) (h64 : ¬ 64 ∣ i.toInt) (hblock : ∀ j, p.denote j → j.toInt / 64 ≠ i.toInt / 64) :
    ∃ s s' l l', p.run true = .ok s ∧ (p.with i).run true = .ok s' ∧ s.elements = .ok l ∧ s'.elements = .ok l' ∧
      l'.Perm (BitVec.ofInt w (64 * (i.toInt / 64 + 1)) :: l) ∧ s'.has true i = .ok false ∧
      ∃ b, s'.has true (BitVec.ofInt w (64 * (i.toInt / 64 + 1))) = .ok b ∧ (b = true ↔ p.denote (BitVec.ofInt w (64 * (i.toInt / 64 + 1)))) := by
  obtain ⟨s, F, h1, h2, h3⟩ := IntProg.run_spec hw hw2 p hp
  have hn : ¬ Storable true i := by
    rintro (h | h | h)
    · cases h
    · omega
    · exact h64 h
  have hmask : 1#64 <<< bitOf true i = 0#64 := by
    by_contra hc
    obtain ⟨j, hj⟩ := ne_zero_iff_bit.1 hc
    rw [one_shl_getLsbD] at hj
    simp only [Bool.and_eq_true, decide_eq_true_eq] at hj
    exact hn ((bitOf_lt_iff hw hw2 true i).1 hj.2)
  have hdiv : ∀ j : BitVec w, (cellOf true j).toInt = j.toInt / 64 := by
    intro j
    unfold cellOf
    rw [if_pos rfl, BitVec.toInt_sshiftRight, Int.shiftRight_eq_div_pow]
    rfl
  have hF : F (cellOf true i) = 0#64 := by
    by_contra hc
    obtain ⟨b, hb⟩ := ne_zero_iff_bit.1 hc
    have hm := memF_val h2.cells.loc hb
    refine hblock _ ((h3 _).1 hm) ?_
    rw [← hdiv, ← hdiv, (h2.cells.loc _ _ hb).1]
  obtain ⟨d', g1, g2, g3⟩ := FMap.with_spec h2.cells.valid (cellOf true i) (⟨0#64⟩ : CellMask)
  have hwith : s.with true i = .ok ⟨d', s.count + 1⟩ := by
    unfold IntSet.with
    rw [h2.cells.locate]
    simp only [bind, Except.bind]
    rw [hmask, if_pos (by simp), hF, show (0#64 ||| 0#64 : BitVec 64) = 0#64 from rfl, g1]
    rfl
  obtain ⟨l', k1, k2⟩ := elements_phantom h2.cells hF g2 g3 (s.count + 1)
  have hval : cellVal (cellOf true i) 64 = BitVec.ofInt w (64 * (i.toInt / 64 + 1)) := by
    rw [cellOf_eq, cellVal_ofInt]
    congr 1
    show i.toInt / 64 * 64 + 64 = _
    omega
  rw [hval] at k2
  have hhas : ∀ j, ∃ b, (⟨d', s.count + 1⟩ : IntSet w).has true j = .ok b ∧ (b = true ↔ memF true F j) := by
    intro j
    refine ⟨((d'.tree.lk (cellOf true j)).getD default).bits &&& 1#64 <<< bitOf true j != 0#64, ?_, ?_⟩
    · unfold IntSet.has IntSet.locate
      rw [FMap.get_spec g2]
      simp only [bind, Except.bind, pure, Except.pure, locateCell_eq]
    · rw [g3, setKey_prim, bne_iff_ne]
      unfold memF
      by_cases hj : cellOf true i = cellOf true j
      · rw [if_pos hj, ← hj, hF]; simp
      · rw [if_neg hj, ← and_one_shl, h2.cells.lk]
        by_cases h0 : F (cellOf true j) = 0#64
        · rw [if_pos h0, h0]; rfl
        · rw [if_neg h0]; rfl
  refine ⟨s, _, _, l', h1, by simp only [IntProg.run, h1, bind, Except.bind]; exact hwith, h2.cells.elements, k1, k2, ?_, ?_⟩
  · obtain ⟨b, f1, f2⟩ := hhas i
    rw [f1]
    cases b with
    | false => rfl
    | true => exact absurd (storable_of_memF hw hw2 (f2.1 rfl)) hn
  · obtain ⟨b, f1, f2⟩ := hhas (BitVec.ofInt w (64 * (i.toInt / 64 + 1)))
    exact ⟨b, f1, by rw [f2, h3]⟩

section
attribute [local instance] exampleIntKey

instance (w : Nat) : @PrimKey (BitVec w) (exampleIntKey w) := @PrimKey.mk _ (exampleIntKey w) (fun _ _ => decide_eq_true_iff)

/-- A storable program on `int8`: {127, 64, 0, -64} ∪ … with two cells per sign. -/
example : (IntProg.with (.new (w := 8) id (fun l => List.Perm.refl l) [127#8, 64#8, 0#8]) (-64#8)).AllStorable true := by
  refine ⟨?_, .inr (.inr ?_)⟩
  · intro i hi
    simp only [List.mem_cons, List.not_mem_nil, or_false] at hi
    rcases hi with rfl | rfl | rfl <;> exact .inr (.inl (by decide))
  · decide

/-- `NewIntSet[int](1, 2).With(-1)`: three elements counted, -1 not found. -/
example : okAnd ((IntProg.with (.new (w := 64) id (fun l => List.Perm.refl l) [1#64, 2#64]) (-1#64)).run true)
    (fun s => isOk (s.has true (-1#64)) false && decide (s.count = 3)) = true := by
  decide +kernel

/-- `NewIntSet[int](1, 2).With(-1)` delivers 1, 2 and 0, and has no 0. -/
example : okAnd ((IntProg.with (.new (w := 64) id (fun l => List.Perm.refl l) [1#64, 2#64]) (-1#64)).run true)
    (fun s => okAnd s.elements (fun l => l.isPerm [0#64, 1#64, 2#64]) && isOk (s.has true 0#64) false) = true := by
  decide +kernel

/-- The hypotheses hold there. -/
example : (-1#64).toInt < 0 ∧ ¬ 64 ∣ (-1#64).toInt ∧
    ∀ j, (IntProg.new (w := 64) id (fun l => List.Perm.refl l) [1#64, 2#64]).denote j → j.toInt / 64 ≠ (-1#64).toInt / 64 := by
  refine ⟨by decide, by decide, fun j hj => ?_⟩
  simp only [IntProg.denote, List.mem_cons, List.not_mem_nil, or_false] at hj
  rcases hj with rfl | rfl <;> decide

end

end Frozen
