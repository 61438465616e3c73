import Verif.Proof.IntOps

/-! # Iterating over an integer set with an empty cell -/

set_option linter.unusedSectionVars false

namespace Frozen

variable {w : Nat}

/-- What the iterator delivers for one cell: the position after the last bit if the cell is empty. -/
def cellOut (e : Entry (BitVec w) CellMask) : List (BitVec w) :=
  if e.value.bits = 0#64 then [cellVal e.key 64] else (bitsOf e.value.bits).map (cellVal e.key)

/-- What an iterator still has to deliver, if there may be empty cells. -/
def IntIter.rem0 (it : IntIter w) : List (BitVec w) := (bitsOf (clearLow it.cell)).map (cellVal it.first) ++ it.cells.rem.flatMap cellOut

theorem IntIter.next_spec0 (it : IntIter w) (h1 : it.cells.Ok) :
    (it.rem0 = [] → ∃ it', it.next = .ok (it', false) ∧ it'.rem0 = [] ∧ it'.cells.Ok) ∧
    (∀ x xs, it.rem0 = x :: xs → ∃ it', it.next = .ok (it', true) ∧ it'.rem0 = xs ∧ it'.value = x ∧ it'.cells.Ok) := by
  by_cases hc : clearLow it.cell = 0#64
  · have hr : it.rem0 = it.cells.rem.flatMap cellOut := by
      unfold IntIter.rem0
      rw [hc, bitsOf_zero]; rfl
    obtain ⟨n1, n2⟩ := Frozen.next_spec it.cells h1
    rw [hr]
    cases hcs : it.cells.rem with
    | nil =>
      refine ⟨fun _ => ?_, fun x xs h => by simp at h⟩
      obtain ⟨c', g1, g2, g3⟩ := n1 hcs
      refine ⟨⟨c', 0#64, it.first⟩, ?_, ?_, g3⟩
      · simp only [IntIter.next, if_pos hc, g1, bind, Except.bind, pure, Except.pure, Bool.false_eq_true, if_false]
      · simp [IntIter.rem0, clearLow_zero, bitsOf_zero, g2]
    | cons e es =>
      have hce : (e :: es).flatMap cellOut = cellVal e.key (tz e.value.bits) ::
          ((bitsOf (clearLow e.value.bits)).map (cellVal e.key) ++ es.flatMap cellOut) := by
        rw [List.flatMap_cons]
        unfold cellOut
        by_cases he : e.value.bits = 0#64
        · have : tz (0#64) = 64 := by decide
          rw [if_pos he, he, clearLow_zero, bitsOf_zero, this]; rfl
        · rw [if_neg he, bitsOf_cons he]; rfl
      rw [hce]
      refine ⟨by simp, fun x xs h => ?_⟩
      obtain ⟨c', g1, g2, g3, g4⟩ := n2 e es hcs
      obtain ⟨rfl, rfl⟩ := List.cons.inj h
      refine ⟨⟨c', e.value.bits, e.key⟩, ?_, ?_, rfl, g4⟩
      · simp only [IntIter.next, if_pos hc, g1, g3, bind, Except.bind, pure, Except.pure, if_true]
      · unfold IntIter.rem0; rw [g2]
  · have hr : it.rem0 = cellVal it.first (tz (clearLow it.cell)) ::
        ((bitsOf (clearLow (clearLow it.cell))).map (cellVal it.first) ++ it.cells.rem.flatMap cellOut) := by
      unfold IntIter.rem0
      rw [bitsOf_cons hc]; rfl
    rw [hr]
    refine ⟨by simp, fun x xs h => ?_⟩
    obtain ⟨rfl, rfl⟩ := List.cons.inj h
    refine ⟨⟨it.cells, clearLow it.cell, it.first⟩, ?_, rfl, rfl, h1⟩
    simp only [IntIter.next, if_neg hc, pure, Except.pure]

theorem IntIter.drain_spec0 : ∀ (fuel : Nat) (it : IntIter w), it.cells.Ok → it.rem0.length < fuel → it.drain fuel = .ok it.rem0
  | 0, _, _, h => by omega
  | fuel + 1, it, hok, hf => by
    obtain ⟨h1, h2⟩ := IntIter.next_spec0 it hok
    cases hr : it.rem0 with
    | nil =>
      obtain ⟨it', g1, _, _⟩ := h1 hr
      rw [IntIter.drain, g1]
      simp [bind, Except.bind, pure, Except.pure]
    | cons x xs =>
      obtain ⟨it', g1, g2, g3, g4⟩ := h2 x xs hr
      rw [hr, List.length_cons] at hf
      rw [IntIter.drain, g1]
      simp only [bind, Except.bind, if_true, g3, IntIter.drain_spec0 fuel it' g4 (by rw [g2]; omega), pure, Except.pure, g2]

theorem IntIter.calls_spec0 : ∀ (n : Nat) (it : IntIter w), it.cells.Ok → it.calls n = .ok ((List.range n).map (fun i => it.rem0[i]?))
  | 0, _, _ => rfl
  | n + 1, it, hok => by
    obtain ⟨h1, h2⟩ := IntIter.next_spec0 it hok
    cases hr : it.rem0 with
    | nil =>
      obtain ⟨it', g1, g2, g3⟩ := h1 hr
      rw [IntIter.calls, g1]
      simp only [bind, Except.bind, Bool.false_eq_true, if_false, IntIter.calls_spec0 n it' g3, pure, Except.pure, g2]
      rw [List.range_succ_eq_map]
      simp [Function.comp_def]
    | cons x xs =>
      obtain ⟨it', g1, g2, g3, g4⟩ := h2 x xs hr
      rw [IntIter.calls, g1]
      simp only [bind, Except.bind, if_true, IntIter.calls_spec0 n it' g4, pure, Except.pure, g2, g3]
      rw [List.range_succ_eq_map]
      simp [Function.comp_def]

theorem cellOut_length (l : List (Entry (BitVec w) CellMask)) : (l.flatMap cellOut).length ≤ 64 * l.length := by
  induction l with
  | nil => simp
  | cons e l ih =>
    rw [List.flatMap_cons, List.length_append, List.length_cons]
    have : (cellOut e).length ≤ 64 := by
      unfold cellOut
      split
      · simp
      · rw [List.length_map]; exact ones_le e.value.bits
    omega

variable [GoKey (BitVec w)] [PrimKey (BitVec w)]

theorem range_spec0 {s : IntSet w} (h : s.data.Valid) :
    ∃ it, s.range = .ok it ∧ it.cells.Ok ∧ it.rem0 = s.data.tree.list.flatMap cellOut := by
  obtain ⟨it, h1, h2, h3⟩ := iterator_spec h.nodeOk
  refine ⟨⟨it, 1#64, 0#w⟩, by simp [IntSet.range, h1, bind, Except.bind, pure, Except.pure], h3, ?_⟩
  have h2' : it.rem = s.data.tree.list := h2
  unfold IntIter.rem0
  have : clearLow 1#64 = 0#64 := by decide
  simp only [this, bitsOf_zero, h2']; rfl

theorem elements_spec0 {s : IntSet w} (h : s.data.Valid) : s.elements = .ok (s.data.tree.list.flatMap cellOut) := by
  obtain ⟨it, h1, h2, h3⟩ := iterator_spec h.nodeOk
  have hr : s.range = .ok ⟨it, 1#64, 0#w⟩ := by simp [IntSet.range, h1, bind, Except.bind, pure, Except.pure]
  have h2' : it.rem = s.data.tree.list := h2
  have hrem : (⟨it, 1#64, 0#w⟩ : IntIter w).rem0 = s.data.tree.list.flatMap cellOut := by
    unfold IntIter.rem0
    have : clearLow 1#64 = 0#64 := by decide
    simp only [this, bitsOf_zero, h2']; rfl
  unfold IntSet.elements
  rw [hr]
  simp only [bind, Except.bind]
  rw [IntIter.drain_spec0 _ ⟨it, 1#64, 0#w⟩ h3, hrem]
  rw [hrem]
  have := cellOut_length s.data.tree.list
  have h4 : s.data.tree.list.length = s.data.tree.root.size := by rw [size_eq]; rfl
  omega

theorem mem_list_lk {d : FMap (BitVec w) CellMask} (h : d.Valid) {e : Entry (BitVec w) CellMask} :
    e ∈ d.tree.list ↔ d.tree.lk e.key = some e.value := by
  rw [Tree.lk_some h]
  constructor
  · exact fun he => ⟨e, he, LawfulGoKey.refl _, rfl⟩
  · rintro ⟨e', he', hk, hv⟩
    rw [PrimKey.eq_iff] at hk
    cases e; cases e'
    simp only at hk hv
    subst hk; subst hv
    exact he'

/-- Adding an empty cell adds one value to what the iterator delivers. -/
theorem elements_phantom {sg : Bool} {s : IntSet w} {F : BitVec w → BitVec 64} (h : Cells sg s.data F) {c : BitVec w} (hc : F c = 0#64)
    {d' : FMap (BitVec w) CellMask} (hd : d'.Valid) (hlk : ∀ k, d'.tree.lk k = setKey s.data.tree.lk c (some ⟨0#64⟩) k) (n : Int) :
    ∃ l', (⟨d', n⟩ : IntSet w).elements = .ok l' ∧ l'.Perm (cellVal c 64 :: cellElems s.data.tree.list) := by
  refine ⟨_, elements_spec0 (s := ⟨d', n⟩) hd, ?_⟩
  have hp : d'.tree.list.Perm ((⟨c, ⟨0#64⟩⟩ : Entry (BitVec w) CellMask) :: s.data.tree.list) := by
    have hn : (⟨c, ⟨0#64⟩⟩ : Entry (BitVec w) CellMask) ∉ s.data.tree.list := fun hm => ((h.mem_list).1 hm).2 rfl
    rw [List.perm_ext_iff_of_nodup hd.distinct.nodup (List.nodup_cons.2 ⟨hn, h.valid.distinct.nodup⟩)]
    intro e
    rw [mem_list_lk hd, hlk, setKey_prim, List.mem_cons, mem_list_lk h.valid]
    by_cases hk : c = e.key
    · subst hk
      rw [if_pos rfl]
      have h0 : s.data.tree.lk e.key = none := by rw [h.lk, if_pos hc]
      rw [h0]
      cases e
      simp only [Option.some.injEq, reduceCtorEq, or_false, Entry.mk.injEq, true_and]
      exact ⟨Eq.symm, Eq.symm⟩
    · rw [if_neg hk]
      constructor
      · exact .inr
      · rintro (rfl | g)
        · exact absurd rfl hk
        · exact g
  refine (hp.flatMap_right _).trans ?_
  rw [List.flatMap_cons]
  have h1 : cellOut (⟨c, ⟨0#64⟩⟩ : Entry (BitVec w) CellMask) = [cellVal c 64] := by simp [cellOut]
  have h2 : s.data.tree.list.flatMap cellOut = cellElems s.data.tree.list := by
    unfold cellElems
    refine List.flatMap_congr (fun e he => ?_)
    unfold cellOut
    rw [if_neg (h.mem_list.1 he).2]
  rw [h1, h2]; exact List.Perm.refl _

end Frozen
