import Verif.Proof.IntActual
import Verif.Props.IntSet
import Verif.Props.Format

/-!
# C21: what an IntSet really holds, for all integers

`C21_intset_partial` is about programs that put only `Storable` integers into sets. The theorems of this file have no such condition:
they say exactly what every program over the IntSet API gets, in terms of the small specification `Verif/Spec/IntActual.lean`.
-/

set_option linter.unusedSectionVars false

namespace Frozen

variable {w : Nat} [GoKey (BitVec w)] [PrimKey (BitVec w)]

/-- `s` is observed to hold what `S` says: `Has`, `Count`, `Elements`, iterators (however many calls), `IsEmpty` and `Any`. -/
structure IsActual (sg : Bool) (s : IntSet w) (S : IntState w) : Prop where
  has : ∀ i, ∃ b, s.has sg i = .ok b ∧ (b = true ↔ S.has i)
  list : ∃ l z e : List (BitVec w), l.Nodup ∧ (∀ n, n ∈ l ↔ S.has n) ∧ z.Nodup ∧ (∀ c, c ∈ z ↔ S.Hollow sg c) ∧
    s.count = l.length + S.extra ∧ s.elements = .ok e ∧ e.Perm (l ++ z.map afterBlock) ∧
    (∃ it, s.range = .ok it ∧ ∀ n, it.calls n = .ok ((List.range n).map (fun k => e[k]?))) ∧
    (s.isEmpty = true ↔ e = []) ∧ (e = [] → ∃ m, s.any = .error (.msg m)) ∧ (e ≠ [] → ∃ i ∈ e, s.any = .ok i)

theorem cellOut_cons (e : Entry (BitVec w) CellMask) : ∃ xs, cellOut e = cellVal e.key (tz e.value.bits) :: xs := by
  unfold cellOut
  by_cases he : e.value.bits = 0#64
  · have : tz (0#64) = 64 := by decide
    exact ⟨[], by rw [if_pos he, he, this]⟩
  · exact ⟨_, by rw [if_neg he, bitsOf_cons he]; rfl⟩

theorem IntInv0.isActual (hw : 8 ≤ w) (hw2 : w ≤ 64) {sg : Bool} {s : IntSet w} {F : BitVec w → BitVec 64} {S : IntState w}
    (h : IntInv0 sg s F S.blocks S.extra) (hS : ∀ i, memF sg F i ↔ S.has i) : IsActual sg s S := by
  obtain ⟨e, l, z, k1, k2, k3, k4, k5, k6, k7⟩ := reported_spec hw hw2 h.cells hS
  have he : e = s.data.tree.list.flatMap cellOut := by
    have := elements_spec0 h.cells.valid
    rw [k1] at this
    exact Except.ok.inj this
  refine ⟨fun i => ?_, l, z, e, k2, k3, k4, k5, by rw [h.count, k7], k1, k6, ?_, ?_, ?_, ?_⟩
  · obtain ⟨b, h1, h2⟩ := h.cells.has i
    exact ⟨b, h1, by rw [h2, hS]⟩
  · obtain ⟨it, h1, h2, h3⟩ := range_spec0 h.cells.valid
    exact ⟨it, h1, fun n => by rw [IntIter.calls_spec0 n it h2, h3, he]⟩
  · have hnil : e = [] ↔ s.data.tree.list = [] := by
      rw [he]
      cases hl : s.data.tree.list with
      | nil => simp
      | cons x xs =>
        obtain ⟨ys, hy⟩ := cellOut_cons x
        rw [List.flatMap_cons, hy]
        simp
    rw [hnil]
    have hc := h.cells.valid.count_eq
    unfold IntSet.isEmpty FMap.isEmpty
    rw [hc, beq_iff_eq, ← List.length_eq_zero_iff]
    norm_cast
  · intro hl
    have h1 := FMap.any_spec h.cells.valid
    cases hs : s.data.tree.list with
    | nil =>
      rw [hs] at h1
      exact ⟨_, by unfold IntSet.any; rw [h1]; rfl⟩
    | cons x xs =>
      obtain ⟨ys, hy⟩ := cellOut_cons x
      rw [he, hs, List.flatMap_cons, hy] at hl
      simp at hl
  · intro hl
    have h1 := FMap.any_spec h.cells.valid
    cases hs : s.data.tree.list with
    | nil => rw [he, hs] at hl; exact absurd rfl hl
    | cons x xs =>
      obtain ⟨ys, hy⟩ := cellOut_cons x
      rw [hs] at h1
      refine ⟨cellVal x.key (tz x.value.bits), ?_, by unfold IntSet.any; rw [h1]; rfl⟩
      rw [he, hs, List.flatMap_cons, hy]
      simp

/-- C21, for all programs and all integers: what is observed of the set is what the specification says that it holds. -/
theorem C21_actual (hw : 8 ≤ w) (hw2 : w ≤ 64) (sg : Bool) (p : IntProg w) : ∃ s, p.run sg = .ok s ∧ IsActual sg s (p.actual sg) := by
  obtain ⟨s, F, h1, h2, h3⟩ := IntProg.run_actual (sg := sg) hw hw2 p
  exact ⟨s, h1, h2.isActual hw hw2 h3⟩

/-- C21, comparing any two sets: `Equal` and `IsSubsetOf` compare the integers and the blocks that have a cell; sets that are equal have
the same hash. -/
theorem C21_actual_compare (hw : 8 ≤ w) (hw2 : w ≤ 64) (sg : Bool) (p q : IntProg w) :
    ∃ s t, p.run sg = .ok s ∧ q.run sg = .ok t ∧
      (∃ b, s.equal t = .ok b ∧
        (b = true ↔ (∀ n, (p.actual sg).has n ↔ (q.actual sg).has n) ∧ ∀ c, (p.actual sg).blocks c ↔ (q.actual sg).blocks c) ∧
        (b = true → ∀ seed, ∃ h, s.hash seed = .ok h ∧ t.hash seed = .ok h)) ∧
      (∃ b, s.isSubsetOf t = .ok b ∧
        (b = true ↔ (∀ n, (p.actual sg).has n → (q.actual sg).has n) ∧ ∀ c, (p.actual sg).blocks c → (q.actual sg).blocks c)) := by
  obtain ⟨s, F, h1, h2, h3⟩ := IntProg.run_actual (sg := sg) hw hw2 p
  obtain ⟨t, G, k1, k2, k3⟩ := IntProg.run_actual (sg := sg) hw hw2 q
  refine ⟨s, t, h1, k1, ?_, ?_⟩
  · obtain ⟨b, g1, g2⟩ := h2.cells.equal k2.cells
    simp only [h3, k3] at g2
    refine ⟨b, g1, g2, fun hb seed => ?_⟩
    obtain ⟨e1, e2⟩ := g2.1 hb
    obtain ⟨e, l, z, a1, a2, a3, a4, a5, a6, _⟩ := reported_spec hw hw2 h2.cells h3
    obtain ⟨e', l', z', b1, b2, b3, b4, b5, b6, _⟩ := reported_spec hw hw2 k2.cells k3
    have hl : l.Perm l' := by
      rw [List.perm_ext_iff_of_nodup a2 b2]
      intro n; rw [a3, b3, e1]
    have hz : z.Perm z' := by
      rw [List.perm_ext_iff_of_nodup a4 b4]
      intro c; rw [a5, b5]; unfold IntState.Hollow; simp only [e1, e2]
    have hperm : e.Perm e' := a6.trans ((hl.append (hz.map _)).trans b6.symm)
    have hx : ∀ (l : List (BitVec w)) (z : BitVec 64), l.foldl (fun h v => h ^^^ GoKey.hash 0#64 v) z =
        (l.map (GoKey.hash 0#64)).foldl (fun h v => h ^^^ v) z := by
      intro l
      induction l with
      | nil => intro z; rfl
      | cons a l ih => intro z; exact ih _
    refine ⟨_, ?_, by unfold IntSet.hash; rw [b1]; rfl⟩
    unfold IntSet.hash
    rw [a1]
    simp only [bind, Except.bind, pure, Except.pure]
    rw [hx, hx, xor_perm (hperm.map _)]
  · obtain ⟨b, g1, g2⟩ := h2.cells.isSubsetOf k2.cells
    exact ⟨b, g1, by rw [g2]; simp only [h3, k3]⟩

omit [GoKey (BitVec w)] [PrimKey (BitVec w)] in
theorem actual_storable (sg : Bool) : ∀ (p : IntProg w), p.AllStorable sg →
    (∀ n, (p.actual sg).has n ↔ p.denote n) ∧ (∀ c, (p.actual sg).blocks c ↔ ∃ n, p.denote n ∧ block sg n = c) ∧ (p.actual sg).extra = 0
  | .new order ho is, h => ⟨fun n => ⟨fun g => g.1, fun g => ⟨g, h n g⟩⟩, fun _ => Iff.rfl, rfl⟩
  | .with p i, h => by
    obtain ⟨h1, h2, h3⟩ := actual_storable sg p h.1
    refine ⟨fun n => ?_, fun c => ?_, ?_⟩
    · simp only [IntProg.actual, IntState.with, h.2, and_true, h1, IntProg.denote]
    · simp only [IntProg.actual, IntState.with, IntProg.denote, h2]
      constructor
      · rintro (rfl | ⟨n, g, rfl⟩)
        · exact ⟨i, .inl rfl, rfl⟩
        · exact ⟨n, .inr g, rfl⟩
      · rintro ⟨n, rfl | g, rfl⟩
        · exact .inl rfl
        · exact .inr ⟨n, g, rfl⟩
    · simp only [IntProg.actual, IntState.with, h.2, if_true, h3, Int.add_zero]
  | .without p i, h => by
    obtain ⟨h1, h2, h3⟩ := actual_storable sg p h
    refine ⟨fun n => ?_, fun c => ?_, h3⟩
    · simp only [IntProg.actual, IntState.without, h1, IntProg.denote]
    · simp only [IntProg.actual, IntState.without, IntProg.denote, h2, h1]
      constructor
      · rintro ⟨⟨n, g, rfl⟩, g2⟩
        by_cases hn : n = i
        · subst hn
          exact g2 g rfl
        · exact ⟨n, ⟨g, hn⟩, rfl⟩
      · rintro ⟨n, g, rfl⟩
        exact ⟨⟨n, g.1, rfl⟩, fun _ _ => ⟨n, g, rfl⟩⟩
  | .where p pred, h => by
    obtain ⟨h1, _, _⟩ := actual_storable sg p h
    refine ⟨fun n => ?_, fun c => ?_, rfl⟩ <;> simp only [IntProg.actual, IntState.where, IntState.exact, IntProg.denote, h1]
  | .map p order ho f, h => by
    obtain ⟨h1, h2, _⟩ := actual_storable sg p h.1
    have hr : ∀ n, (p.actual sg).Reported sg n ↔ p.denote n := by
      intro n
      constructor
      · rintro (g | ⟨c, ⟨g1, g2⟩, rfl⟩)
        · exact (h1 n).1 g
        · obtain ⟨m, g3, g4⟩ := (h2 c).1 g1
          exact absurd g4 (g2 m ((h1 m).2 g3))
      · exact fun g => .inl ((h1 n).2 g)
    refine ⟨fun n => ?_, fun c => ?_, rfl⟩
    · simp only [IntProg.actual, IntState.map, IntState.new, IntProg.denote, hr]
      constructor
      · exact fun g => g.1
      · rintro ⟨m, g, rfl⟩
        exact ⟨⟨m, g, rfl⟩, h.2 m g⟩
    · simp only [IntProg.actual, IntState.map, IntState.new, IntProg.denote, hr]
  | .union p q, h => by
    obtain ⟨h1, h2, h3⟩ := actual_storable sg p h.1
    obtain ⟨k1, k2, _⟩ := actual_storable sg q h.2
    refine ⟨fun n => ?_, fun c => ?_, h3⟩
    · simp only [IntProg.actual, IntState.union, h1, k1, IntProg.denote]
    · simp only [IntProg.actual, IntState.union, IntProg.denote, h2, k2]
      constructor
      · rintro (⟨n, g, rfl⟩ | ⟨n, g, rfl⟩)
        · exact ⟨n, .inl g, rfl⟩
        · exact ⟨n, .inr g, rfl⟩
      · rintro ⟨n, g | g, rfl⟩
        · exact .inl ⟨n, g, rfl⟩
        · exact .inr ⟨n, g, rfl⟩
  | .intersection p q, h => by
    obtain ⟨h1, _, _⟩ := actual_storable sg p h.1
    obtain ⟨k1, _, _⟩ := actual_storable sg q h.2
    refine ⟨fun n => ?_, fun c => ?_, rfl⟩ <;> simp only [IntProg.actual, IntState.intersection, IntState.exact, IntProg.denote, h1, k1]

omit [GoKey (BitVec w)] [PrimKey (BitVec w)] in
/-- The specification of this file agrees with the ideal one on programs that put only `Storable` integers into sets: the same integers,
no empty cells, no error in the count. -/
theorem C21_actual_ideal (sg : Bool) (p : IntProg w) (hp : p.AllStorable sg) :
    (∀ n, (p.actual sg).has n ↔ p.denote n) ∧ (∀ c, ¬ (p.actual sg).Hollow sg c) ∧ (p.actual sg).extra = 0 := by
  obtain ⟨h1, h2, h3⟩ := actual_storable sg p hp
  refine ⟨h1, fun c hc => ?_, h3⟩
  obtain ⟨m, g3, g4⟩ := (h2 c).1 hc.1
  exact hc.2 m ((h1 m).2 g3) g4

omit [GoKey (BitVec w)] [PrimKey (BitVec w)] in
theorem actual_mapFree (sg : Bool) : ∀ (p : IntProg w), p.MapFree →
    (∀ n, (p.actual sg).has n ↔ p.denote n ∧ Storable sg n) ∧ 0 ≤ (p.actual sg).extra
  | .new _ _ _, _ => ⟨fun _ => Iff.rfl, Int.le_refl 0⟩
  | .with p i, h => by
    obtain ⟨h1, h2⟩ := actual_mapFree sg p h
    refine ⟨fun n => ?_, ?_⟩
    · simp only [IntProg.actual, IntState.with, IntProg.denote, h1]
      constructor
      · rintro (⟨rfl, g⟩ | g)
        · exact ⟨.inl rfl, g⟩
        · exact ⟨.inr g.1, g.2⟩
      · rintro ⟨rfl | g, gs⟩
        · exact .inl ⟨rfl, gs⟩
        · exact .inr ⟨g, gs⟩
    · simp only [IntProg.actual, IntState.with]
      split <;> omega
  | .without p i, h => by
    obtain ⟨h1, h2⟩ := actual_mapFree sg p h
    refine ⟨fun n => ?_, h2⟩
    simp only [IntProg.actual, IntState.without, IntProg.denote, h1]
    exact and_right_comm
  | .where p pred, h => by
    obtain ⟨h1, h2⟩ := actual_mapFree sg p h
    refine ⟨fun n => ?_, Int.le_refl 0⟩
    simp only [IntProg.actual, IntState.where, IntState.exact, IntProg.denote, h1]
    exact and_right_comm
  | .map _ _ _ _, h => h.elim
  | .union p q, h => by
    obtain ⟨h1, h2⟩ := actual_mapFree sg p h.1
    obtain ⟨k1, _⟩ := actual_mapFree sg q h.2
    refine ⟨fun n => ?_, h2⟩
    simp only [IntProg.actual, IntState.union, IntProg.denote, h1, k1]
    exact or_and_right.symm
  | .intersection p q, h => by
    obtain ⟨h1, _⟩ := actual_mapFree sg p h.1
    obtain ⟨k1, _⟩ := actual_mapFree sg q h.2
    refine ⟨fun n => ?_, Int.le_refl 0⟩
    simp only [IntProg.actual, IntState.intersection, IntState.exact, IntProg.denote, h1, k1]
    exact ⟨fun g => ⟨⟨g.1.1, g.2.1⟩, g.1.2⟩, fun g => ⟨⟨g.1.1, g.2⟩, g.1.2, g.2⟩⟩

/-- C72. The integers that an IntSet cannot hold disturb no others: whatever integers a program without `Map` puts into sets, `Has` finds
exactly those members that can be held, `Elements` and the count miss none of them, and `Elements` repeats or adds only first integers of
blocks (multiples of 64). -/
theorem C72_others_kept (hw : 8 ≤ w) (hw2 : w ≤ 64) (sg : Bool) (p : IntProg w) (hp : p.MapFree) :
    ∃ s, p.run sg = .ok s ∧ (∀ n, ∃ b, s.has sg n = .ok b ∧ (b = true ↔ p.denote n ∧ Storable sg n)) ∧
      ∃ l x : List (BitVec w), l.Nodup ∧ (∀ n, n ∈ l ↔ p.denote n ∧ Storable sg n) ∧ (l.length : Int) ≤ s.count ∧
        (∃ e, s.elements = .ok e ∧ e.Perm (l ++ x)) ∧ ∀ n ∈ x, 64 ∣ n.toNat := by
  obtain ⟨s, h1, h2⟩ := C21_actual hw hw2 sg p
  obtain ⟨k1, k2⟩ := actual_mapFree sg p hp
  obtain ⟨l, z, e, g1, g2, _, _, g5, g6, g7, _⟩ := h2.list
  refine ⟨s, h1, fun n => ?_, l, z.map afterBlock, g1, fun n => (g2 n).trans (k1 n), by omega, ⟨e, g6, g7⟩, fun n hn => ?_⟩
  · obtain ⟨b, f1, f2⟩ := h2.has n
    exact ⟨b, f1, f2.trans (k1 n)⟩
  · obtain ⟨c, _, rfl⟩ := List.mem_map.1 hn
    have h64 : (64 : Nat) ∣ 2 ^ w := by
      rw [show (64 : Nat) = 2 ^ 6 from rfl]
      exact Nat.pow_dvd_pow 2 (by omega)
    rw [← afterBlock_eq]
    unfold cellVal cellShift
    rw [BitVec.toNat_add, BitVec.toNat_shiftLeft, BitVec.toNat_ofNat, Nat.shiftLeft_eq]
    rw [Nat.dvd_mod_iff h64]
    refine Nat.dvd_add ?_ ?_
    · rw [Nat.dvd_mod_iff h64]; exact Nat.dvd_mul_left _ _
    · rw [Nat.dvd_mod_iff h64]

/-- C39. With the `+` flag, an integer set is written as its blocks, each once, with their bit masks, separated by commas, in parentheses.
Bit `b` of the mask of block `c` is set if and only if the set has the integer `64 * c + b`. -/
theorem C39_plus_intset (hw : 8 ≤ w) (hw2 : w ≤ 64) (sg : Bool) (p : IntProg w) (f : BitVec w → String) (g : CellMask → String) :
    ∃ s, p.run sg = .ok s ∧ ∃ es : List (BitVec w × CellMask), (es.map (·.1)).Nodup ∧ (∀ c, c ∈ es.map (·.1) ↔ (p.actual sg).blocks c) ∧
      (∀ e ∈ es, ∀ b : Nat, b < 64 →
        (e.2.bits.getLsbD b = true ↔ ∃ n, (p.actual sg).has n ∧ block sg n = e.1 ∧ n = BitVec.ofInt w (e.1.toInt * 64 + b))) ∧
      s.format f g true = .ok ("(" ++ joinWith ", " (es.map (fun e => f e.1 ++ ": " ++ g e.2)) ++ ")") := by
  obtain ⟨s, F, h1, h2, h3⟩ := IntProg.run_actual (sg := sg) hw hw2 p
  have hv := h2.cells.valid
  refine ⟨s, h1, s.data.tree.list.map (fun e => (e.key, e.value)), ?_, fun c => ?_, fun e he b hb => ?_, ?_⟩
  · rw [List.map_map]; exact h2.cells.keys_nodup
  · rw [List.map_map, ← h2.cells.mem_keys, List.mem_map]; rfl
  · obtain ⟨x, hx, rfl⟩ := List.mem_map.1 he
    have hF := (h2.cells.mem_list.1 hx).2
    have hval : ∀ c : BitVec w, BitVec.ofInt w (c.toInt * 64 + b) = cellVal c b := by
      intro c
      have := cellVal_ofInt (w := w) c.toInt b
      rw [BitVec.ofInt_toInt] at this
      exact this.symm
    simp only [hval]
    rw [← hF]
    constructor
    · intro hbit
      exact ⟨_, (h3 _).1 (memF_val h2.cells.loc hbit), by rw [← cellOf_block]; exact (h2.cells.loc _ _ hbit).1, rfl⟩
    · rintro ⟨n, hn, hc, hnv⟩
      have hm := (h3 n).2 hn
      have hs := storable_of_memF hw hw2 hm
      unfold memF at hm
      rw [cellOf_block, hc] at hm
      have hloc := cellVal_locate hw hw2 hs
      rw [cellOf_block, hc, hnv] at hloc
      have hbb : bitOf sg (cellVal x.key b) = b := by
        have hlt := (bitOf_lt_iff hw hw2 sg n).2 hs
        rw [hnv] at hlt
        unfold cellVal at hloc
        have h4 : BitVec.ofNat w (bitOf sg (cellVal x.key b)) = BitVec.ofNat w b :=
          (BitVec.add_right_inj _).1 hloc
        have h5 := congrArg BitVec.toNat h4
        rw [BitVec.toNat_ofNat, BitVec.toNat_ofNat] at h5
        have h6 : 64 ≤ 2 ^ w := by
          calc 64 = 2 ^ 6 := rfl
            _ ≤ 2 ^ w := Nat.pow_le_pow_right (by omega) (by omega)
        rwa [Nat.mod_eq_of_lt (by omega), Nat.mod_eq_of_lt (by omega)] at h5
      rw [hnv, hbb] at hm
      exact hm
  · unfold IntSet.format FMap.format
    simp only [Bool.false_eq_true, if_true, if_false, FMap.rangeList_spec hv, bind, Except.bind, pure, Except.pure]
    rw [mapFormatLoop_eq, tailText_zero, List.map_map]
    rfl

section
attribute [local instance] exampleIntKey

/-- `fmt.Sprintf("%+v", NewIntSet(1, 2, -1))`: block 0 has bits 1 and 2, block -1 has none. -/
example : okAnd ((IntProg.new (w := 64) id (fun l => List.Perm.refl l) [1#64, 2#64, -1#64]).run true) (fun s =>
    okAnd (s.format (fun n => toString n.toInt) (fun c => toString c.bits.toNat) true) (fun x => x == "(0: 6, -1: 0)" || x == "(-1: 0, 0: 6)")) = true := by
  decide +kernel

/-- A program as in C72: integers that cannot be held, next to others of the same block and of other blocks. -/
example : ((((IntProg.new (w := 64) id (fun l => List.Perm.refl l) [-1#64, -64#64, 5#64]).with (-70#64)).without (-64#64)).union
    (.new id (fun l => List.Perm.refl l) [-5#64, 200#64])).MapFree := ⟨trivial, trivial⟩

/-- What it does: 5 and 200 are found; `Elements` also reads -64 off the empty cell of -70 and 0 off that of -5; the count is one too
large, because of the call of `With`. -/
example : okAnd (((((IntProg.new (w := 64) id (fun l => List.Perm.refl l) [-1#64, -64#64, 5#64]).with (-70#64)).without (-64#64)).union
    (.new id (fun l => List.Perm.refl l) [-5#64, 200#64])).run true) (fun s => isOk (s.has true 5#64) true && isOk (s.has true 200#64) true &&
      isOk (s.has true (-5#64)) false && isOk (s.has true (-64#64)) false && okAnd s.elements (fun l => l.isPerm [5#64, 200#64, 0#64, -64#64]) &&
      decide (s.count = 3)) = true := by decide +kernel

/-- `NewIntSet[int](-1, 70).With(-1).Map(identity)`: `Map` reads the empty cell of -1 as 0, so that 0 becomes an element; the count, which
was wrong by one after `With`, is right again. -/
private def oddProg : IntProg 64 :=
  ((IntProg.new id (fun l => List.Perm.refl l) [-1#64, 70#64]).with (-1#64)).map id (fun l => List.Perm.refl l) (fun n => n)

/-- What the model computes. -/
example : okAnd (oddProg.run true) (fun s => okAnd s.elements (fun l => l.isPerm [0#64, 70#64]) && isOk (s.has true 0#64) true &&
    isOk (s.has true (-1#64)) false && decide (s.count = 2)) = true := by decide +kernel

/-- What the specification says. -/
example : (oddProg.actual true).has 0#64 ∧ ¬ (oddProg.actual true).has (-1#64) ∧ (oddProg.actual true).has 70#64 := by
  refine ⟨⟨⟨0#64, .inr ⟨-1#64, ⟨.inl (by decide), ?_⟩, by decide⟩, rfl⟩, by decide⟩, fun h => ?_, ⟨70#64, .inl (.inr ⟨by simp, by decide⟩), rfl⟩, by decide⟩
  · rintro n (⟨rfl, h⟩ | ⟨h, hs⟩)
    · exact absurd h (by decide)
    · simp only [List.mem_cons, List.not_mem_nil, or_false] at h
      rcases h with rfl | rfl
      · exact absurd hs (by decide)
      · decide
  · exact absurd h.2 (by decide)

/-- `Equal` tells `NewIntSet[int](-1)` from the empty set, though neither has an element. -/
example : okAnd ((IntProg.new (w := 64) id (fun l => List.Perm.refl l) [-1#64]).run true) (fun s =>
    okAnd ((IntProg.new (w := 64) id (fun l => List.Perm.refl l) []).run true) (fun t =>
      isOk (s.equal t) false && decide (s.count = 0) && decide (t.count = 0) && isOk (s.isSubsetOf t) false && isOk (t.isSubsetOf s) true)) = true := by
  decide +kernel

end

end Frozen
