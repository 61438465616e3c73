import Verif.Proof.IntSet
import Mathlib.Algebra.BigOperators.Ring.Finset
import Mathlib.Tactic.Ring

/-! # The cells of an integer set -/

set_option linter.unusedSectionVars false

namespace Frozen

open Finset in
/-- The number of one-bits in all cells. -/
def total {w : Nat} (F : BitVec w → BitVec 64) : Int := ∑ n ∈ Finset.range (2 ^ w), (ones (F (BitVec.ofNat w n)) : Int)

/-- Change one cell. -/
def updF {w : Nat} (F : BitVec w → BitVec 64) (c : BitVec w) (m : BitVec 64) : BitVec w → BitVec 64 := fun c' => if c = c' then m else F c'

theorem total_upd {w : Nat} (F : BitVec w → BitVec 64) (c : BitVec w) (m : BitVec 64) :
    total (updF F c m) = total F - ones (F c) + ones m := by
  unfold total
  have hc : c.toNat ∈ Finset.range (2 ^ w) := Finset.mem_range.2 c.isLt
  rw [← Finset.add_sum_erase _ _ hc, ← Finset.add_sum_erase _ (fun n => (ones (F (BitVec.ofNat w n)) : Int)) hc]
  have h1 : BitVec.ofNat w c.toNat = c := by simp
  have h2 : ∑ n ∈ (Finset.range (2 ^ w)).erase c.toNat, (ones (updF F c m (BitVec.ofNat w n)) : Int) =
      ∑ n ∈ (Finset.range (2 ^ w)).erase c.toNat, (ones (F (BitVec.ofNat w n)) : Int) := by
    apply Finset.sum_congr rfl
    intro n hn
    rw [Finset.mem_erase, Finset.mem_range] at hn
    unfold updF
    rw [if_neg]
    intro he
    apply hn.1
    rw [he, BitVec.toNat_ofNat, Nat.mod_eq_of_lt hn.2]
  rw [h2, h1]
  simp only [updF, if_true]
  ring

theorem total_zero {w : Nat} : total (fun _ : BitVec w => 0#64) = 0 := by
  unfold total
  apply Finset.sum_eq_zero
  intro n _
  simp [ones_zero]

variable {w : Nat} [GoKey (BitVec w)] [PrimKey (BitVec w)]

omit [GoKey (BitVec w)] [PrimKey (BitVec w)] in
/-- Bit `b` of cell `c` is where its value is looked up. -/
def CellLoc (sg : Bool) (c : BitVec w) (b : Nat) : Prop := cellOf sg (cellVal c b) = c ∧ bitOf sg (cellVal c b) = b

/-- The map `d` stores the nonzero cells of `F`. -/
structure Cells (sg : Bool) (d : FMap (BitVec w) CellMask) (F : BitVec w → BitVec 64) : Prop where
  valid : d.Valid
  lk : ∀ c, d.tree.lk c = if F c = 0#64 then none else some ⟨F c⟩
  loc : ∀ c b, (F c).getLsbD b = true → CellLoc sg c b

/-- Invariant of integer sets. -/
structure IntInv (sg : Bool) (s : IntSet w) (F : BitVec w → BitVec 64) : Prop where
  cells : Cells sg s.data F
  count : s.count = total F

omit [GoKey (BitVec w)] [PrimKey (BitVec w)] in
/-- Membership. -/
def memF (sg : Bool) (F : BitVec w → BitVec 64) (i : BitVec w) : Prop := (F (cellOf sg i)).getLsbD (bitOf sg i) = true

theorem setKey_prim (f : BitVec w → Option CellMask) (k : BitVec w) (o : Option CellMask) (k' : BitVec w) :
    setKey f k o k' = if k = k' then o else f k' := by
  unfold setKey
  by_cases h : k = k'
  · rw [if_pos ((PrimKey.eq_iff k k').2 h), if_pos h]
  · rw [if_neg (fun g => h ((PrimKey.eq_iff k k').1 g)), if_neg h]

section
variable {sg : Bool} {d : FMap (BitVec w) CellMask} {F : BitVec w → BitVec 64}

theorem Cells.get (h : Cells sg d F) (c : BitVec w) : d.get c = .ok (if F c = 0#64 then none else some ⟨F c⟩) := by
  rw [FMap.get_spec h.valid, h.lk]

theorem Cells.getD (h : Cells sg d F) (c : BitVec w) : ((d.tree.lk c).getD default).bits = F c := by
  rw [h.lk]
  by_cases h0 : F c = 0#64
  · rw [if_pos h0, h0]; rfl
  · rw [if_neg h0]; rfl

theorem Cells.zero : Cells sg (FMap.zero : FMap (BitVec w) CellMask) (fun _ => 0#64) :=
  ⟨Tree.valid_zero, fun c => rfl, fun c b h => by simp at h⟩

theorem loc_upd (hl : ∀ c b, (F c).getLsbD b = true → CellLoc sg c b) {c : BitVec w} {m : BitVec 64}
    (hm : ∀ b, m.getLsbD b = true → CellLoc sg c b) : ∀ c' b, (updF F c m c').getLsbD b = true → CellLoc sg c' b := by
  intro c' b
  unfold updF
  by_cases hc : c = c'
  · subst hc; rw [if_pos rfl]; exact hm b
  · rw [if_neg hc]; exact hl c' b

theorem Cells.with (h : Cells sg d F) (c : BitVec w) {m : BitVec 64} (hm : m ≠ 0#64) (hl : ∀ b, m.getLsbD b = true → CellLoc sg c b) :
    ∃ d', d.with c ⟨m⟩ = .ok d' ∧ Cells sg d' (updF F c m) := by
  obtain ⟨d', h1, h2, h3⟩ := FMap.with_spec h.valid c ⟨m⟩
  refine ⟨d', h1, h2, fun c' => ?_, loc_upd h.loc hl⟩
  rw [h3, setKey_prim, h.lk]
  unfold updF
  by_cases hc : c = c'
  · simp [hc, hm]
  · simp [hc]

theorem Cells.without (h : Cells sg d F) (c : BitVec w) :
    ∃ d', d.without c = .ok d' ∧ Cells sg d' (updF F c 0#64) := by
  obtain ⟨d', h1, h2, h3⟩ := FMap.without_spec h.valid c
  refine ⟨d', h1, h2, fun c' => ?_, loc_upd h.loc (fun b hb => by simp at hb)⟩
  rw [h3, setKey_prim, h.lk]
  unfold updF
  by_cases hc : c = c'
  · simp [hc]
  · simp [hc]

/-! ### Lists of cells -/

/-- The cells of a list of entries. -/
def FL (l : List (Entry (BitVec w) CellMask)) (c : BitVec w) : BitVec 64 :=
  ((l.find? (fun e => GoKey.eq e.key c)).map (·.value.bits)).getD 0#64

theorem FL_cons (e : Entry (BitVec w) CellMask) (l : List (Entry (BitVec w) CellMask)) : FL (e :: l) = updF (FL l) e.key e.value.bits := by
  funext c
  unfold FL updF
  rw [List.find?_cons]
  by_cases hc : e.key = c
  · rw [if_pos hc, (PrimKey.eq_iff e.key c).2 hc]; rfl
  · have : GoKey.eq e.key c = false := by
      rw [← Bool.not_eq_true]; exact fun g => hc ((PrimKey.eq_iff _ _).1 g)
    rw [if_neg hc, this]

theorem FL_not_mem {l : List (Entry (BitVec w) CellMask)} {c : BitVec w} (h : ∀ e ∈ l, e.key ≠ c) : FL l c = 0#64 := by
  unfold FL
  rw [List.find?_eq_none.2]; rfl
  intro e he
  simpa [PrimKey.eq_iff] using h e he

theorem distinct_keys {l : List (Entry (BitVec w) CellMask)} : Distinct l ↔ (l.map (·.key)).Nodup := by
  unfold Distinct List.Nodup
  rw [List.pairwise_map]
  constructor
  · refine List.Pairwise.imp (fun {a b} h => ?_)
    have h : GoKey.eq a.key b.key = false := h
    intro he
    rw [(PrimKey.eq_iff _ _).2 he] at h
    cases h
  · refine List.Pairwise.imp (fun {a b} h => ?_)
    show GoKey.eq a.key b.key = false
    rw [← Bool.not_eq_true]
    exact fun g => h ((PrimKey.eq_iff _ _).1 g)

theorem total_FL : ∀ {l : List (Entry (BitVec w) CellMask)}, (l.map (·.key)).Nodup →
    total (FL l) = (l.map (fun e => (ones e.value.bits : Int))).sum
  | [], _ => total_zero
  | e :: l, h => by
    rw [List.map_cons, List.nodup_cons] at h
    rw [FL_cons, total_upd, total_FL h.2, FL_not_mem, List.map_cons, List.sum_cons, ones_zero]
    · ring
    · intro x hx he
      exact h.1 (he ▸ List.mem_map_of_mem hx)

theorem FL_mem {l : List (Entry (BitVec w) CellMask)} (hn : (l.map (·.key)).Nodup) {e : Entry (BitVec w) CellMask} (he : e ∈ l) :
    FL l e.key = e.value.bits := by
  unfold FL
  have : l.find? (fun x => GoKey.eq x.key e.key) = some e := (distinct_keys.2 hn).find?_of_eq he (LawfulGoKey.refl e.key)
  rw [this]; rfl

theorem FL_perm {l l' : List (Entry (BitVec w) CellMask)} (hn : (l.map (·.key)).Nodup) (hp : l.Perm l') : FL l = FL l' := by
  funext c
  unfold FL
  have : l.find? (fun x => GoKey.eq x.key c) = l'.find? (fun x => GoKey.eq x.key c) :=
    (distinct_keys.2 hn).find?_perm hp (newMapKey c)
  rw [this]

/-- Building a map from cells. -/
theorem Cells.build {l : List (Entry (BitVec w) CellMask)} (hn : (l.map (·.key)).Nodup) (h0 : ∀ e ∈ l, e.value.bits ≠ 0#64)
    (hl : ∀ e ∈ l, ∀ b, e.value.bits.getLsbD b = true → CellLoc sg e.key b) :
    ∃ d, buildMap (l.map (fun e => (⟨e.key, e.value⟩ : KeyValue (BitVec w) CellMask))) = .ok d ∧ Cells sg d (FL l) := by
  obtain ⟨d, h1, h2, h3⟩ := buildMap_distinct (distinct_keys.2 hn)
  refine ⟨d, h1, h2, fun c => ?_, fun c b hb => ?_⟩
  · rw [h3]
    unfold FL
    cases hf : l.find? (fun e => GoKey.eq e.key c) with
    | none => rfl
    | some e =>
      have := h0 e (List.mem_of_find?_eq_some hf)
      simp [this]
  · unfold FL at hb
    cases hf : l.find? (fun e => GoKey.eq e.key c) with
    | none => rw [hf] at hb; simp at hb
    | some e =>
      rw [hf] at hb
      have he : GoKey.eq e.key c = true := by simpa using List.find?_some hf
      rw [← (PrimKey.eq_iff _ _).1 he]
      exact hl e (List.mem_of_find?_eq_some hf) b hb

theorem Cells.keys_nodup (h : Cells sg d F) : (d.tree.list.map (·.key)).Nodup := distinct_keys.1 h.valid.distinct

theorem Cells.mem_list (h : Cells sg d F) {e : Entry (BitVec w) CellMask} :
    e ∈ d.tree.list ↔ F e.key = e.value.bits ∧ e.value.bits ≠ 0#64 := by
  have hk := h.lk e.key
  constructor
  · intro he
    have : d.tree.lk e.key = some e.value := (Tree.lk_some h.valid).2 ⟨e, he, LawfulGoKey.refl _, rfl⟩
    rw [this] at hk
    by_cases h0 : F e.key = 0#64
    · rw [if_pos h0] at hk; cases hk
    · rw [if_neg h0] at hk
      injection hk with hk
      rw [hk]; exact ⟨rfl, h0⟩
  · rintro ⟨h1, h2⟩
    rw [if_neg (by rw [h1]; exact h2)] at hk
    obtain ⟨e', h3, h4, h5⟩ := (Tree.lk_some h.valid).1 hk
    have hkey := (PrimKey.eq_iff _ _).1 h4
    have : e' = e := by
      cases e; cases e'
      simp only at *
      subst hkey h5
      rw [h1]
    exact this ▸ h3

theorem Cells.FL_list (h : Cells sg d F) : FL d.tree.list = F := by
  funext c
  by_cases h0 : F c = 0#64
  · rw [h0]
    apply FL_not_mem
    intro e he hc
    have := h.mem_list.1 he
    rw [hc, h0] at this
    exact this.2 this.1.symm
  · have : (⟨c, ⟨F c⟩⟩ : Entry (BitVec w) CellMask) ∈ d.tree.list := h.mem_list.2 ⟨rfl, h0⟩
    exact FL_mem h.keys_nodup this

theorem Cells.total_list (h : Cells sg d F) : total F = (d.tree.list.map (fun e => (ones e.value.bits : Int))).sum := by
  rw [← total_FL h.keys_nodup, h.FL_list]

/-! ### The elements -/

omit [GoKey (BitVec w)] [PrimKey (BitVec w)] in
/-- The integers of a list of cells. -/
def cellElems (l : List (Entry (BitVec w) CellMask)) : List (BitVec w) :=
  l.flatMap (fun e => (bitsOf e.value.bits).map (cellVal e.key))

theorem mem_bitsOf {x : BitVec 64} {b : Nat} : b ∈ bitsOf x ↔ x.getLsbD b = true := by
  unfold bitsOf
  rw [List.mem_filter, List.mem_range]
  constructor
  · exact fun h => h.2
  · intro h
    refine ⟨?_, h⟩
    by_contra hc
    rw [BitVec.getLsbD_of_ge _ _ (by omega)] at h
    cases h

theorem memF_val (hl : ∀ c b, (F c).getLsbD b = true → CellLoc sg c b) {c : BitVec w} {b : Nat} (hb : (F c).getLsbD b = true) :
    memF sg F (cellVal c b) := by
  unfold memF
  obtain ⟨h1, h2⟩ := hl c b hb
  rw [h1, h2]; exact hb

theorem storable_of_memF (hw : 8 ≤ w) (hw2 : w ≤ 64) {i : BitVec w} (h : memF sg F i) : Storable sg i := by
  rw [← bitOf_lt_iff hw hw2]
  by_contra hc
  unfold memF at h
  rw [BitVec.getLsbD_of_ge _ _ (by omega)] at h
  cases h

theorem Cells.mem_elems (hw : 8 ≤ w) (hw2 : w ≤ 64) (h : Cells sg d F) (i : BitVec w) : i ∈ cellElems d.tree.list ↔ memF sg F i := by
  unfold cellElems
  rw [List.mem_flatMap]
  constructor
  · rintro ⟨e, he, hi⟩
    obtain ⟨b, hb, rfl⟩ := List.mem_map.1 hi
    have := h.mem_list.1 he
    apply memF_val h.loc
    rw [this.1]
    exact mem_bitsOf.1 hb
  · intro hi
    have hs := storable_of_memF hw hw2 hi
    refine ⟨⟨cellOf sg i, ⟨F (cellOf sg i)⟩⟩, h.mem_list.2 ⟨rfl, ne_zero_iff_bit.2 ⟨_, hi⟩⟩, ?_⟩
    exact List.mem_map.2 ⟨bitOf sg i, mem_bitsOf.2 hi, cellVal_locate hw hw2 hs⟩

theorem Cells.nodup_elems (h : Cells sg d F) : (cellElems d.tree.list).Nodup := by
  unfold cellElems
  rw [List.nodup_flatMap]
  have hbits : ∀ e ∈ d.tree.list, ∀ b ∈ bitsOf e.value.bits, CellLoc sg e.key b := by
    intro e he b hb
    apply h.loc
    rw [(h.mem_list.1 he).1]
    exact mem_bitsOf.1 hb
  constructor
  · intro e he
    apply List.Nodup.map_on
    · intro a ha b hb hab
      rw [← (hbits e he a ha).2, ← (hbits e he b hb).2, hab]
    · exact List.nodup_range.filter _
  · have hn := h.keys_nodup
    unfold List.Nodup at hn
    rw [List.pairwise_map] at hn
    refine List.Pairwise.imp_of_mem (fun {a b} ha hb hab => ?_) hn
    rw [Function.onFun, List.disjoint_left]
    intro x hx hx'
    obtain ⟨p, hp, rfl⟩ := List.mem_map.1 hx
    obtain ⟨q, hq, hv⟩ := List.mem_map.1 hx'
    apply hab
    rw [← (hbits a ha p hp).1, ← (hbits b hb q hq).1, hv]

theorem cellElems_length (l : List (Entry (BitVec w) CellMask)) :
    ((cellElems l).length : Int) = (l.map (fun e => (ones e.value.bits : Int))).sum := by
  induction l with
  | nil => rfl
  | cons e l ih =>
    unfold cellElems at *
    rw [List.flatMap_cons, List.length_append, List.map_cons, List.sum_cons, ← ih]
    push_cast
    congr 1
    rw [List.length_map]; rfl

/-- Equal membership means equal cells. -/
theorem memF_ext {G : BitVec w → BitVec 64} (hF : ∀ c b, (F c).getLsbD b = true → CellLoc sg c b)
    (hG : ∀ c b, (G c).getLsbD b = true → CellLoc sg c b) (h : ∀ i, memF sg F i ↔ memF sg G i) : F = G := by
  funext c
  apply BitVec.eq_of_getLsbD_eq
  intro b _
  rw [Bool.eq_iff_iff]
  constructor
  · intro hb
    have := (h _).1 (memF_val hF hb)
    unfold memF at this
    rwa [(hF c b hb).1, (hF c b hb).2] at this
  · intro hb
    have := (h _).2 (memF_val hG hb)
    unfold memF at this
    rwa [(hG c b hb).1, (hG c b hb).2] at this

end

/-! ### The iterator -/

/-- What an iterator still has to deliver. -/
def IntIter.rem (it : IntIter w) : List (BitVec w) := (bitsOf (clearLow it.cell)).map (cellVal it.first) ++ cellElems it.cells.rem

/-- Iterator invariant: no empty cells ahead. -/
def IntIter.Ok (it : IntIter w) : Prop := it.cells.Ok ∧ ∀ e ∈ it.cells.rem, e.value.bits ≠ 0#64

theorem IntIter.next_spec (it : IntIter w) (hok : it.Ok) :
    (it.rem = [] → ∃ it', it.next = .ok (it', false) ∧ it'.rem = [] ∧ it'.Ok) ∧
    (∀ x xs, it.rem = x :: xs → ∃ it', it.next = .ok (it', true) ∧ it'.rem = xs ∧ it'.value = x ∧ it'.Ok) := by
  obtain ⟨h1, h2⟩ := hok
  by_cases hc : clearLow it.cell = 0#64
  · have hr : it.rem = cellElems it.cells.rem := by
      unfold IntIter.rem
      rw [hc, bitsOf_zero]; rfl
    obtain ⟨n1, n2⟩ := Frozen.next_spec it.cells h1
    rw [hr]
    cases hcs : it.cells.rem with
    | nil =>
      refine ⟨fun _ => ?_, fun x xs h => by simp [cellElems] at h⟩
      obtain ⟨c', g1, g2, g3⟩ := n1 hcs
      refine ⟨⟨c', 0#64, it.first⟩, ?_, ?_, g3, ?_⟩
      · simp only [IntIter.next, if_pos hc, g1, bind, Except.bind, pure, Except.pure, Bool.false_eq_true, if_false]
      · simp [IntIter.rem, clearLow_zero, bitsOf_zero, g2, cellElems]
      · rw [g2]; simp
    | cons e es =>
      have he : e.value.bits ≠ 0#64 := h2 e (by rw [hcs]; simp)
      have hce : cellElems (e :: es) = cellVal e.key (tz e.value.bits) ::
          ((bitsOf (clearLow e.value.bits)).map (cellVal e.key) ++ cellElems es) := by
        unfold cellElems
        rw [List.flatMap_cons, bitsOf_cons he]; rfl
      rw [hce]
      refine ⟨by simp, fun x xs h => ?_⟩
      obtain ⟨c', g1, g2, g3, g4⟩ := n2 e es hcs
      obtain ⟨rfl, rfl⟩ := List.cons.inj h
      refine ⟨⟨c', e.value.bits, e.key⟩, ?_, ?_, rfl, g4, ?_⟩
      · simp only [IntIter.next, if_pos hc, g1, g3, bind, Except.bind, pure, Except.pure, if_true]
      · unfold IntIter.rem; rw [g2]
      · rw [g2]; exact fun x hx => h2 x (by rw [hcs]; simp [hx])
  · have hr : it.rem = cellVal it.first (tz (clearLow it.cell)) ::
        ((bitsOf (clearLow (clearLow it.cell))).map (cellVal it.first) ++ cellElems it.cells.rem) := by
      unfold IntIter.rem
      rw [bitsOf_cons hc]; rfl
    rw [hr]
    refine ⟨by simp, fun x xs h => ?_⟩
    obtain ⟨rfl, rfl⟩ := List.cons.inj h
    refine ⟨⟨it.cells, clearLow it.cell, it.first⟩, ?_, rfl, rfl, h1, h2⟩
    simp only [IntIter.next, if_neg hc, pure, Except.pure]

theorem IntIter.calls_spec : ∀ (n : Nat) (it : IntIter w), it.Ok → it.calls n = .ok ((List.range n).map (fun i => it.rem[i]?))
  | 0, _, _ => rfl
  | n + 1, it, hok => by
    obtain ⟨h1, h2⟩ := IntIter.next_spec it hok
    cases hr : it.rem with
    | nil =>
      obtain ⟨it', g1, g2, g3⟩ := h1 hr
      rw [IntIter.calls, g1]
      simp only [bind, Except.bind, Bool.false_eq_true, if_false, IntIter.calls_spec n it' g3, pure, Except.pure, g2]
      rw [List.range_succ_eq_map]
      simp [Function.comp_def]
    | cons x xs =>
      obtain ⟨it', g1, g2, g3, g4⟩ := h2 x xs hr
      rw [IntIter.calls, g1]
      simp only [bind, Except.bind, if_true, g3, IntIter.calls_spec n it' g4, pure, Except.pure, g2]
      rw [List.range_succ_eq_map]
      simp [Function.comp_def]

/-- With more fuel than there are elements, the loop ends by itself. -/
theorem IntIter.drain_spec : ∀ (fuel : Nat) (it : IntIter w), it.Ok → it.rem.length < fuel → it.drain fuel = .ok it.rem
  | 0, _, _, h => by omega
  | fuel + 1, it, hok, hf => by
    obtain ⟨h1, h2⟩ := IntIter.next_spec it hok
    cases hr : it.rem with
    | nil =>
      obtain ⟨it', g1, g2, g3⟩ := h1 hr
      rw [IntIter.drain, g1]
      simp [bind, Except.bind, pure, Except.pure]
    | cons x xs =>
      obtain ⟨it', g1, g2, g3, g4⟩ := h2 x xs hr
      rw [hr, List.length_cons] at hf
      rw [IntIter.drain, g1]
      simp only [bind, Except.bind, if_true, g3, IntIter.drain_spec fuel it' g4 (by rw [g2]; omega), pure, Except.pure, g2]

section
variable {sg : Bool} {F : BitVec w → BitVec 64} {s : IntSet w}

theorem Cells.range (h : Cells sg s.data F) : ∃ it, s.range = .ok it ∧ it.rem = cellElems s.data.tree.list ∧ it.Ok := by
  obtain ⟨it, h1, h2, h3⟩ := iterator_spec h.valid.nodeOk
  refine ⟨⟨it, 1#64, 0#w⟩, ?_, ?_, h3, ?_⟩
  · simp [IntSet.range, h1, bind, Except.bind, pure, Except.pure]
  · unfold IntIter.rem
    have : clearLow 1#64 = 0#64 := by decide
    rw [this, bitsOf_zero, h2]; rfl
  · intro e he
    have he : e ∈ s.data.tree.list := by
      have h2' : it.rem = s.data.tree.list := h2
      rw [← h2']; exact he
    exact (h.mem_list.1 he).2

theorem cellElems_length_le (l : List (Entry (BitVec w) CellMask)) : (cellElems l).length ≤ 64 * l.length := by
  induction l with
  | nil => simp [cellElems]
  | cons e l ih =>
    unfold cellElems at *
    rw [List.flatMap_cons, List.length_append, List.length_cons, List.length_map]
    have : (bitsOf e.value.bits).length ≤ 64 := ones_le e.value.bits
    omega

theorem Cells.elements (h : Cells sg s.data F) : s.elements = .ok (cellElems s.data.tree.list) := by
  obtain ⟨it, h1, h2, h3⟩ := h.range
  unfold IntSet.elements
  rw [h1]
  simp only [bind, Except.bind]
  rw [IntIter.drain_spec _ it h3, h2]
  rw [h2]
  have := cellElems_length_le s.data.tree.list
  have h4 : s.data.tree.list.length = s.data.tree.root.size := by rw [size_eq]; rfl
  omega

end

end Frozen
