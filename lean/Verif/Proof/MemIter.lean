import Verif.Spec.MemIter
import Verif.Proof.MemHistory
import Verif.Proof.Iter

/-! Iterators in memory behave like iterators over values, and what happens elsewhere does not disturb them. -/

set_option linter.unusedSectionVars false

namespace Frozen

variable {T : Type}

/-- Slots of the buffers in the order in which they come into use. -/
def Before (x y : Nat × Nat) : Prop := x.1 < y.1 ∨ (x.1 = y.1 ∧ x.2 < y.2)

theorem Before.trans {x y z : Nat × Nat} (h : Before x y) (h' : Before y z) : Before x z := by
  unfold Before at *; omega

theorem Before.ne {x y : Nat × Nat} (h : Before x y) : ¬ (x.1 = y.1 ∧ x.2 = y.2) := by
  unfold Before at h; omega

theorem slotAt_lt {bufs : List IterBuf} {b off : Nat} {v : Nat × Nat} (h : slotAt bufs b off = some v) : b < bufs.length := by
  unfold slotAt at h
  by_contra hn
  rw [List.getElem?_eq_none (by omega)] at h
  cases h

theorem setSlotAt_length (bufs : List IterBuf) (b off : Nat) (v : Nat × Nat) : (setSlotAt bufs b off v).length = bufs.length := by
  unfold setSlotAt; rw [List.length_modify]

/-- The slot that is written. -/
theorem slotAt_set_same {bufs : List IterBuf} {b off : Nat} {buf : IterBuf} (v : Nat × Nat) (hb : bufs[b]? = some buf)
    (ho : off ≤ buf.slots.length) : slotAt (setSlotAt bufs b off v) b off = some v := by
  unfold slotAt setSlotAt
  rw [List.getElem?_modify_eq, hb]
  show (buf.slots.take off ++ v :: buf.slots.drop (off + 1))[off]? = some v
  rw [List.getElem?_append_right (by simp), List.length_take, Nat.min_eq_left ho, Nat.sub_self]
  rfl

/-- Earlier slots keep their contents. -/
theorem slotAt_set_before {bufs : List IterBuf} {b off : Nat} (v : Nat × Nat) {x : Nat × Nat} (h : Before x (b, off))
    (hex : off ≤ ((bufs[b]?).map (fun u => u.slots.length)).getD 0 ∨ x.1 ≠ b) :
    slotAt (setSlotAt bufs b off v) x.1 x.2 = slotAt bufs x.1 x.2 := by
  unfold slotAt setSlotAt
  by_cases hx : x.1 = b
  · have hlt : x.2 < off := by unfold Before at h; simp only at h; omega
    have hle : off ≤ ((bufs[b]?).map (fun u => u.slots.length)).getD 0 := hex.resolve_right (by simp [hx])
    rw [hx, List.getElem?_modify_eq]
    cases hb : bufs[b]? with
    | none => rfl
    | some buf =>
      rw [hb] at hle
      simp only [Option.map_some, Option.getD_some] at hle
      show (buf.slots.take off ++ v :: buf.slots.drop (off + 1))[x.2]? = buf.slots[x.2]?
      rw [List.getElem?_append_left (by rw [List.length_take]; omega), List.getElem?_take_of_lt hlt]
  · rw [List.getElem?_modify]
    simp only [if_neg (fun h : b = x.1 => hx h.symm)]
    cases bufs[x.1]? <;> rfl

/-- Overwriting a slot in use changes no other. -/
theorem slotAt_set_other {bufs : List IterBuf} {b off : Nat} {w : Nat × Nat} (v : Nat × Nat) (hs : slotAt bufs b off = some w) {x : Nat × Nat}
    (h : ¬ (x.1 = b ∧ x.2 = off)) : slotAt (setSlotAt bufs b off v) x.1 x.2 = slotAt bufs x.1 x.2 := by
  unfold slotAt at hs
  unfold slotAt setSlotAt
  by_cases hx : x.1 = b
  · rw [hx, List.getElem?_modify_eq]
    cases hb : bufs[b]? with
    | none => rfl
    | some buf =>
      rw [hb] at hs
      have hlt : off < buf.slots.length := getElem?_lt hs
      show (buf.slots.take off ++ v :: buf.slots.drop (off + 1))[x.2]? = buf.slots[x.2]?
      rw [write_take buf.slots off v hlt, List.getElem?_set_ne (fun e => h ⟨hx, e.symm⟩)]
  · rw [List.getElem?_modify]
    simp only [if_neg (fun h : b = x.1 => hx h.symm)]
    cases bufs[x.1]? <;> rfl

theorem slotAt_some {bufs : List IterBuf} {b off : Nat} {v : Nat × Nat} (h : slotAt bufs b off = some v) :
    ∃ buf, bufs[b]? = some buf ∧ off < buf.slots.length ∧ buf.slots[off]? = some v := by
  unfold slotAt at h
  cases hb : bufs[b]? with
  | none => rw [hb] at h; cases h
  | some buf =>
    rw [hb] at h
    exact ⟨buf, rfl, getElem?_lt h, h⟩

/-- Appending behind a slot in use. -/
theorem appendSlot_spec (G : Growth) {bufs : List IterBuf} {b off : Nat} {w : Nat × Nat} (h : slotAt bufs b off = some w) (v : Nat × Nat) :
    Before (b, off) (appendSlot G bufs b (off + 1) v).2 ∧
    slotAt (appendSlot G bufs b (off + 1) v).1 (appendSlot G bufs b (off + 1) v).2.1 (appendSlot G bufs b (off + 1) v).2.2 = some v ∧
    bufs.length ≤ (appendSlot G bufs b (off + 1) v).1.length ∧
    ∀ x, Before x (b, off) ∨ x = (b, off) → slotAt (appendSlot G bufs b (off + 1) v).1 x.1 x.2 = slotAt bufs x.1 x.2 := by
  obtain ⟨buf, hb, hlt, _⟩ := slotAt_some h
  have hbl := slotAt_lt h
  unfold appendSlot
  simp only [hb]
  by_cases hc : off + 1 < buf.cap
  · rw [if_pos hc]
    refine ⟨.inr ⟨rfl, Nat.lt_succ_self _⟩, slotAt_set_same v hb hlt, by rw [setSlotAt_length], fun x hx => ?_⟩
    refine slotAt_set_before v ?_ (.inl (by rw [hb]; exact hlt))
    rcases hx with hx | rfl
    · exact hx.trans (.inr ⟨rfl, Nat.lt_succ_self _⟩)
    · exact .inr ⟨rfl, Nat.lt_succ_self _⟩
  · rw [if_neg hc]
    refine ⟨.inl hbl, ?_, by simp, fun x hx => ?_⟩
    · show slotAt (bufs ++ [_]) bufs.length 0 = some v
      unfold slotAt
      rw [List.getElem?_append_right (Nat.le_refl _), Nat.sub_self]
      rfl
    · have hxl : x.1 < bufs.length := by
        rcases hx with hx | rfl
        · unfold Before at hx; simp only at hx; omega
        · exact hbl
      unfold slotAt
      rw [List.getElem?_append_left hxl]

/-- The innermost iterator. -/
inductive RepLeaf (H : Mem T) (S : Set Loc) : LeafIter T → Iter T → Prop
  | empty : RepLeaf H S .empty .empty
  | own (x : T) (i : Int) : RepLeaf H S (.own x i) (.slice [x] i)
  | leaf2 {a : Nat} {x y : T} (i : Int) (h : H.cells[a]? = some (.leaf2 x y)) (hF : .cell a ∈ S) :
      RepLeaf H S (.leaf2 a i) (.slice [x, y] i)
  | twig {s : Slice} {la l : List T} (i : Int) (ha : H.arrays[s.arr]? = some la) (hFa : .arr s.arr ∈ S)
      (hl : s.len ≤ la.length) (hs : la.take s.len = l) : RepLeaf H S (.twig s i) (.slice l i)

/-- The memory iterator stands for the value iterator. -/
inductive RepIt (H : Mem T) (S : Set Loc) (bufs : List IterBuf) : Nat → List (Nat × Nat) → LeafIter T → Iter T → Prop
  | leaf {d : Nat} {leaf : LeafIter T} {it : Iter T} (h : RepLeaf H S leaf it) : RepIt H S bufs d [] leaf it
  | packer {d b off a pos : Nat} {m : Masker} {k : Fin 8 → Ptr} {kn : Fin 8 → Node T} {rest : List (Nat × Nat)} {leaf : LeafIter T}
      {it : Iter T} (hs : slotAt bufs b off = some (a, pos)) (hp : pos ≤ 8) (hd : d < maxTreeDepth) (h : H.cells[a]? = some (.branch m k))
      (hF : .cell a ∈ S) (hk : ∀ i, Rep H S (d + 1) (k i) (kn i)) (hb : ∀ l ∈ rest, Before (b, off) l)
      (hr : RepIt H S bufs (d + 1) rest leaf it) :
      RepIt H S bufs d ((b, off) :: rest) leaf (.packer (((List.finRange 8).drop pos).map kn) it)

theorem RepLeaf.frame {H H' : Mem T} {S W : Set Loc} {l : LeafIter T} {it : Iter T} (h : RepLeaf H S l it) (hc : Changes W H H')
    (hd : ∀ l ∈ S, l ∉ W) : RepLeaf H' S l it := by
  cases h with
  | empty => exact .empty
  | own x i => exact .own x i
  | leaf2 i h hF => exact .leaf2 i (hc.cell h (hd _ hF)) hF
  | twig i ha hFa hl hs => exact .twig i (hc.arr ha (hd _ hFa)) hFa hl hs

theorem RepIt.frame {H H' : Mem T} {S W : Set Loc} {bufs : List IterBuf} {d : Nat} {ls : List (Nat × Nat)} {l : LeafIter T} {it : Iter T}
    (h : RepIt H S bufs d ls l it) (hc : Changes W H H') (hd : ∀ l ∈ S, l ∉ W) : RepIt H' S bufs d ls l it := by
  induction h with
  | leaf h => exact .leaf (h.frame hc hd)
  | packer hs hp hd' h hF hk hb _ ih => exact .packer hs hp hd' (hc.cell h (hd _ hF)) hF (fun i => (hk i).frame hc hd) hb ih

theorem RepLeaf.mono {H : Mem T} {S S' : Set Loc} {l : LeafIter T} {it : Iter T} (h : RepLeaf H S l it) (hs : S ⊆ S') : RepLeaf H S' l it := by
  cases h with
  | empty => exact .empty
  | own x i => exact .own x i
  | leaf2 i h hF => exact .leaf2 i h (hs hF)
  | twig i ha hFa hl hs' => exact .twig i ha (hs hFa) hl hs'

theorem RepIt.mono {H : Mem T} {S S' : Set Loc} {bufs : List IterBuf} {d : Nat} {ls : List (Nat × Nat)} {l : LeafIter T} {it : Iter T}
    (h : RepIt H S bufs d ls l it) (hs : S ⊆ S') : RepIt H S' bufs d ls l it := by
  induction h with
  | leaf h => exact .leaf (h.mono hs)
  | packer hs' hp hd' h hF hk hb _ ih => exact .packer hs' hp hd' h (hs hF) (fun i => (hk i).mono hs) hb ih

/-- The iterator does not depend on slots other than its own. -/
theorem RepIt.rebuf {H : Mem T} {S : Set Loc} {bufs bufs' : List IterBuf} {d : Nat} {ls : List (Nat × Nat)} {l : LeafIter T} {it : Iter T}
    (h : RepIt H S bufs d ls l it) (he : ∀ x ∈ ls, slotAt bufs' x.1 x.2 = slotAt bufs x.1 x.2) : RepIt H S bufs' d ls l it := by
  induction h with
  | leaf h => exact .leaf h
  | packer hs hp hd' h hF hk hb _ ih =>
    exact .packer (by rw [← hs]; exact he _ (List.mem_cons_self ..)) hp hd' h hF hk hb (ih (fun x hx => he x (by simp [hx])))

/-- What `Next` does to the rest of the world: nothing, and earlier slots are left alone. -/
structure MNextOk (H : Mem T) (S : Set Loc) (d : Nat) (it it' : MIter T) (v' : Iter T) : Prop where
  rep : RepIt H S it'.bufs d it'.levels it'.leaf v'
  keep : ∀ lo : Nat × Nat, (∀ l ∈ it.levels, Before lo l) → lo.1 < it.bufs.length →
    slotAt it'.bufs lo.1 lo.2 = slotAt it.bufs lo.1 lo.2 ∧ ∀ l ∈ it'.levels, Before lo l
  len : it.bufs.length ≤ it'.bufs.length

/-- `Next` at depth `d` does what it does on values. -/
def NextSim (G : Growth) (H : Mem T) (S : Set Loc) (d fuel : Nat) : Prop :=
  ∀ (it : MIter T) (v : Iter T), RepIt H S it.bufs d it.levels it.leaf v →
    ∃ it' v' ok, v.next = .ok (v', ok) ∧ nextM G fuel it H = (.ok (it', ok), H) ∧ MNextOk H S d it it' v'

theorem leaf_next {H : Mem T} {S : Set Loc} {l : LeafIter T} {v : Iter T} (h : RepLeaf H S l v) :
    ∃ v', v.next = .ok (v', l.next.2) ∧ RepLeaf H S l.next.1 v' := by
  cases h with
  | empty => exact ⟨_, rfl, .empty⟩
  | own x i => exact ⟨_, rfl, .own x _⟩
  | leaf2 i h hF => exact ⟨_, rfl, .leaf2 _ h hF⟩
  | twig i ha hFa hl hs =>
    refine ⟨_, ?_, .twig _ ha hFa hl hs⟩
    simp only [Iter.next, sliceNext, LeafIter.next, ← hs, List.length_take, Nat.min_eq_left hl]

theorem finRange_drop {p : Nat} (h : p < 8) : (List.finRange 8).drop p = ⟨p, h⟩ :: (List.finRange 8).drop (p + 1) := by
  rw [List.drop_eq_getElem_cons (by simpa using h)]
  simp

/-- The loop over the unvisited children. -/
theorem packLoop_sim (G : Growth) {H : Mem T} {S : Set Loc} {d fuel : Nat} (hn : NextSim G H S (d + 1) fuel) {b off a : Nat} {m : Masker}
    {k : Fin 8 → Ptr} {kn : Fin 8 → Node T} (hd : d < maxTreeDepth) (hc : H.cells[a]? = some (.branch m k)) (hF : .cell a ∈ S)
    (hk : ∀ i, Rep H S (d + 1) (k i) (kn i)) : ∀ (n p : Nat), p + n = 8 → ∀ (it : MIter T) (v : Iter T),
      slotAt it.bufs b off = some (a, p) → RepIt H S it.bufs (d + 1) it.levels it.leaf v → (∀ l ∈ it.levels, Before (b, off) l) →
      ∃ it' v' ok, packLoop v (((List.finRange 8).drop p).map kn) = .ok (v', ok) ∧
        packLoopM G (nextM G fuel) b off a it ((List.finRange 8).drop p) H = (.ok (it', ok), H) ∧
        MNextOk H S d (it.under (b, off)) it' v'
  | 0, p, hp, it, v, hs, hr, hb => by
    obtain rfl : p = 8 := by omega
    have he : (List.finRange 8).drop 8 = [] := by decide
    rw [he]
    refine ⟨it.under (b, off), .packer [] v, false, rfl, rfl, ?_, fun lo hlo hl => ⟨rfl, hlo⟩, Nat.le_refl _⟩
    have := RepIt.packer (pos := 8) hs (Nat.le_refl _) hd hc hF hk hb hr
    rw [he] at this
    exact this
  | n + 1, p, hp, it, v, hs, hr, hb => by
    have hp8 : p < 8 := by omega
    rw [finRange_drop hp8]
    simp only [List.map_cons, packLoop, packLoopM]
    obtain ⟨buf, hbuf, hlt, _⟩ := slotAt_some hs
    have hs1 : slotAt (setSlotAt it.bufs b off (a, p + 1)) b off = some (a, p + 1) := slotAt_set_same _ hbuf (Nat.le_of_lt hlt)
    have hset : ∀ x : Nat × Nat, Before x (b, off) → slotAt (setSlotAt it.bufs b off (a, p + 1)) x.1 x.2 = slotAt it.bufs x.1 x.2 :=
      fun x hx => slotAt_set_before _ hx (.inl (by rw [hbuf]; exact Nat.le_of_lt hlt))
    have hrest : ∀ x ∈ it.levels, slotAt (setSlotAt it.bufs b off (a, p + 1)) x.1 x.2 = slotAt it.bufs x.1 x.2 :=
      fun x hx => slotAt_set_other _ hs (fun e => (hb x hx).ne ⟨e.1.symm, e.2.symm⟩)
    -- go on with the next child
    have skip : ∃ it' v' ok, packLoop v (((List.finRange 8).drop (p + 1)).map kn) = .ok (v', ok) ∧
        packLoopM G (nextM G fuel) b off a ⟨setSlotAt it.bufs b off (a, p + 1), it.levels, it.leaf⟩ ((List.finRange 8).drop (p + 1)) H =
          (.ok (it', ok), H) ∧ MNextOk H S d (it.under (b, off)) it' v' := by
      obtain ⟨it', v', ok, h1, h2, h3⟩ := packLoop_sim G hn hd hc hF hk n (p + 1) (by omega)
        ⟨setSlotAt it.bufs b off (a, p + 1), it.levels, it.leaf⟩ v hs1 (hr.rebuf hrest) hb
      refine ⟨it', v', ok, h1, h2, h3.rep, fun lo hlo hl => ?_, ?_⟩
      · obtain ⟨h4, h5⟩ := h3.keep lo hlo (by show lo.1 < (setSlotAt _ _ _ _).length; rw [setSlotAt_length]; exact hl)
        exact ⟨h4.trans (hset lo (hlo _ (List.mem_cons_self ..))), h5⟩
      · have := h3.len
        simp only [MIter.under, setSlotAt_length] at this
        exact this
    -- start with this child
    have start : ∀ (ci : MIter T) (cv : Iter T) (c : Node T), c.iter = .ok cv → RepIt H S ci.bufs (d + 1) ci.levels ci.leaf cv →
        (∀ l ∈ ci.levels, Before (b, off) l) → slotAt ci.bufs b off = some (a, p + 1) →
        (∀ lo : Nat × Nat, Before lo (b, off) → slotAt ci.bufs lo.1 lo.2 = slotAt it.bufs lo.1 lo.2) → it.bufs.length ≤ ci.bufs.length →
        ∃ it' v' ok, (do let (it, ok) ← startNext c; pure (Iter.packer (((List.finRange 8).drop (p + 1)).map kn) it, ok)) = Except.ok (v', ok) ∧
          (do let (it', ok) ← nextM G fuel ci; pure (it'.under (b, off), ok) : MM T (MIter T × Bool)) H = (.ok (it', ok), H) ∧
          MNextOk H S d (it.under (b, off)) it' v' := by
      intro ci cv c hci hrep hlev hslot hlo hlen
      obtain ⟨it2, v2, ok, h1, h2, h3⟩ := hn ci cv hrep
      obtain ⟨h4, h5⟩ := h3.keep (b, off) hlev (slotAt_lt hslot)
      refine ⟨it2.under (b, off), .packer (((List.finRange 8).drop (p + 1)).map kn) v2, ok, ?_, by rw [run_bind h2]; rfl, ?_, ?_, ?_⟩
      · rw [startNext_eq, hci]
        simp only [bind, Except.bind, h1, pure, Except.pure]
      · exact .packer (h4.trans hslot) (by omega) hd hc hF hk h5 h3.rep
      · intro lo hlo' hl
        have hlb := hlo' _ (List.mem_cons_self ..)
        obtain ⟨h6, h7⟩ := h3.keep lo (fun l hl => hlb.trans (hlev l hl)) (Nat.lt_of_lt_of_le hl hlen)
        refine ⟨h6.trans (hlo lo hlb), fun l hl => ?_⟩
        rcases List.mem_cons.1 hl with rfl | hl
        · exact hlb
        · exact h7 l hl
      · exact Nat.le_trans hlen h3.len
    have hlen1 : it.bufs.length ≤ (setSlotAt it.bufs b off (a, p + 1)).length := by rw [setSlotAt_length]
    have hread : (readCell a) H = (.ok (Cell.branch m k), H) := by unfold readCell; simp only [MM.run, hc]; rfl
    rw [run_bind hread]
    have hki := hk ⟨p, hp8⟩
    dsimp only
    generalize k ⟨p, hp8⟩ = q at hki ⊢
    generalize kn ⟨p, hp8⟩ = c at hki ⊢
    cases hki with
    | nil => exact skip
    | leaf1 h1 h2 =>
      rename_i a' x
      have hread' : (readCell a') H = (.ok (Cell.leaf1 x), H) := by unfold readCell; simp only [MM.run, h1]; rfl
      dsimp only
      rw [run_bind hread']
      exact start ⟨_, [], _⟩ _ _ rfl (.leaf (.own x _)) (by simp) hs1 hset hlen1
    | leaf2 h1 h2 =>
      rename_i a' x y
      have hread' : (readCell a') H = (.ok (Cell.leaf2 x y), H) := by unfold readCell; simp only [MM.run, h1]; rfl
      dsimp only
      rw [run_bind hread']
      exact start ⟨_, [], _⟩ _ _ rfl (.leaf (.leaf2 _ h1 h2)) (by simp) hs1 hset hlen1
    | twig hd' h1 h2 ha hFa h3 hl hs' =>
      rename_i a' s la l
      have hread' : (readCell a') H = (.ok (Cell.twig s), H) := by unfold readCell; simp only [MM.run, h1]; rfl
      dsimp only
      rw [run_bind hread']
      dsimp only
      rw [if_neg, if_neg (by omega)]
      · exact start ⟨_, [], _⟩ _ _ rfl (.leaf (.twig _ ha hFa hl hs')) (by simp) hs1 hset hlen1
      · have : l.length = s.len := by rw [← hs', List.length_take]; omega
        cases l with
        | nil => simp at this; omega
        | cons => simp [Node.isNil, Node.isEmptyNode]
    | branch hd' h1 h2 hk' =>
      rename_i a' m' k' kn'
      have hread' : (readCell a') H = (.ok (Cell.branch m' k'), H) := by unfold readCell; simp only [MM.run, h1]; rfl
      dsimp only
      rw [run_bind hread']
      obtain ⟨e1, e2, e3, e4⟩ := appendSlot_spec G hs1 (a', 0)
      refine start ⟨_, [_], _⟩ _ _ rfl ?_ ?_ ?_ ?_ (Nat.le_trans hlen1 e3)
      · exact .packer (pos := 0) e2 (by omega) hd' h1 h2 hk' (by simp) (.leaf .empty)
      · intro l hl; rw [List.mem_singleton] at hl; subst hl; exact e1
      · exact (e4 (b, off) (.inr rfl)).trans hs1
      · intro lo hlo; exact (e4 lo (.inl hlo)).trans (hset lo hlo)

theorem next_sim (G : Growth) (H : Mem T) (S : Set Loc) : ∀ (fuel d : Nat), FuelOk d fuel → NextSim G H S d fuel
  | 0, d, hf => absurd hf.2 (Nat.lt_irrefl 0)
  | fuel + 1, d, hf => by
    rintro ⟨bufs, levels, leaf⟩ v hr
    dsimp only at hr
    cases hr with
    | leaf h =>
      obtain ⟨v', h1, h2⟩ := leaf_next h
      exact ⟨_, v', _, h1, rfl, .leaf h2, fun lo hlo hl => ⟨rfl, hlo⟩, Nat.le_refl _⟩
    | packer hs hp hd hc hF hk hb hr =>
      rename_i b off a pos m k kn rest it
      have hn := next_sim G H S fuel (d + 1) (hf.succ hd)
      obtain ⟨it1, v1, ok, h1, h2, h3⟩ := hn ⟨bufs, rest, leaf⟩ it hr
      obtain ⟨h4, h5⟩ := h3.keep (b, off) hb (slotAt_lt hs)
      simp only [nextM, Iter.next, h1]
      rw [run_bind h2]
      have hs1 : slotAt it1.bufs b off = some (a, pos) := h4.trans hs
      have hkeep : ∀ lo : Nat × Nat, (∀ l ∈ (b, off) :: rest, Before lo l) → lo.1 < bufs.length →
          slotAt it1.bufs lo.1 lo.2 = slotAt bufs lo.1 lo.2 ∧ ∀ l ∈ it1.levels, Before lo l :=
        fun lo hlo hl => h3.keep lo (fun l hl => hlo l (by simp [hl])) hl
      cases ok with
      | true =>
        refine ⟨it1.under (b, off), .packer (((List.finRange 8).drop pos).map kn) v1, true, rfl, rfl, ?_, ?_, h3.len⟩
        · exact .packer hs1 hp hd hc hF hk h5 h3.rep
        · intro lo hlo hl
          obtain ⟨h6, h7⟩ := hkeep lo hlo hl
          refine ⟨h6, fun l hl => ?_⟩
          rcases List.mem_cons.1 hl with rfl | hl
          · exact hlo _ (by simp)
          · exact h7 l hl
      | false =>
        simp only [Bool.false_eq_true, if_false, hs1]
        obtain ⟨it', v', ok', e1, e2, e3⟩ := packLoop_sim G hn hd hc hF hk (8 - pos) pos (by omega) it1 v1 hs1 h3.rep h5
        refine ⟨it', v', ok', e1, e2, e3.rep, fun lo hlo hl => ?_, Nat.le_trans h3.len e3.len⟩
        obtain ⟨h6, h7⟩ := hkeep lo hlo hl
        have hlb := hlo _ (List.mem_cons_self ..)
        obtain ⟨h8, h9⟩ := e3.keep lo (fun l hl => by
          rcases List.mem_cons.1 hl with rfl | hl
          · exact hlb
          · exact h7 l hl) (Nat.lt_of_lt_of_le hl h3.len)
        exact ⟨h8.trans h6, h9⟩

/-- The memory iterator stands for the value iterator. -/
def MIter.Is (H : Mem T) (S : Set Loc) (it : MIter T) (v : Iter T) : Prop := RepIt H S it.bufs 0 it.levels it.leaf v

theorem MIter.next_eq (G : Growth) {H : Mem T} {S : Set Loc} {it : MIter T} {v : Iter T} (h : it.Is H S v) :
    ∃ it' v' ok, v.next = .ok (v', ok) ∧ it.next G H = (.ok (it', ok), H) ∧ it'.Is H S v' := by
  obtain ⟨it', v', ok, h1, h2, h3⟩ := next_sim G H S memFuel 0 (fuelOk_mem 0) it v h
  exact ⟨it', v', ok, h1, h2, h3.rep⟩

theorem leaf_value {H : Mem T} {S : Set Loc} {l : LeafIter T} {v : Iter T} (h : RepLeaf H S l v) :
    l.value H = (v.value, H) := by
  cases h with
  | empty => rfl
  | own x i =>
    simp only [LeafIter.value, Iter.value]
    by_cases h0 : i = 0
    · subst h0; rfl
    · rw [if_neg h0]
      by_cases hneg : i < 0
      · rw [if_pos hneg]; rfl
      · rw [if_neg hneg, List.getElem?_eq_none (by simp; omega)]; rfl
  | leaf2 i h hF =>
    rename_i a x y
    have hread : (readCell a) H = (.ok (Cell.leaf2 x y), H) := by unfold readCell; simp only [MM.run, h]; rfl
    simp only [LeafIter.value, Iter.value]
    rw [run_bind hread]
    dsimp only
    by_cases h0 : i = 0
    · subst h0; rfl
    · by_cases h1 : i = 1
      · subst h1; rfl
      · rw [if_neg h0, if_neg h1]
        by_cases hneg : i < 0
        · rw [if_pos hneg]; rfl
        · rw [if_neg hneg, List.getElem?_eq_none (by simp; omega)]; rfl
  | twig i ha hFa hl hs =>
    rename_i s la l
    simp only [LeafIter.value, Iter.value]
    by_cases hneg : i < 0
    · rw [if_pos (.inl hneg), if_pos hneg]; rfl
    · rw [if_neg hneg]
      by_cases hlen : (s.len : Int) ≤ i
      · rw [if_pos (.inr hlen), List.getElem?_eq_none (by rw [← hs, List.length_take]; omega)]; rfl
      · rw [if_neg (by omega)]
        have hlt : i.toNat < s.len := by omega
        have : l[i.toNat]? = la[i.toNat]? := by rw [← hs, List.getElem?_take_of_lt hlt]
        rw [this]
        simp only [MM.run, ha, Option.bind_some]
        cases la[i.toNat]? <;> rfl

theorem value_sim {H : Mem T} {S : Set Loc} {bufs : List IterBuf} {d : Nat} {ls : List (Nat × Nat)} {l : LeafIter T} {v : Iter T}
    (h : RepIt H S bufs d ls l v) : l.value H = (v.value, H) := by
  induction h with
  | leaf h => exact leaf_value h
  | packer _ _ _ _ _ _ _ _ ih => exact ih

theorem MTree.iterator_eq (G : Growth) {H : Mem T} {S : Set Loc} {s : MTree} {n : Node T} (h : Rep H S 0 s.root n) :
    ∃ it v, (s.val n).iterator = .ok v ∧ s.iterator G H = (.ok it, H) ∧ it.Is H S v := by
  unfold MTree.iterator Tree.iterator MTree.val
  dsimp only
  generalize s.root = q at h
  cases h with
  | nil => exact ⟨_, _, rfl, rfl, .leaf .empty⟩
  | leaf1 h1 h2 =>
    rename_i a' x
    have hread' : (readCell a') H = (.ok (Cell.leaf1 x), H) := by unfold readCell; simp only [MM.run, h1]; rfl
    dsimp only
    rw [run_bind hread']
    exact ⟨_, _, rfl, rfl, .leaf (.own x _)⟩
  | leaf2 h1 h2 =>
    rename_i a' x y
    have hread' : (readCell a') H = (.ok (Cell.leaf2 x y), H) := by unfold readCell; simp only [MM.run, h1]; rfl
    dsimp only
    rw [run_bind hread']
    exact ⟨_, _, rfl, rfl, .leaf (.leaf2 _ h1 h2)⟩
  | twig hd' h1 h2 ha hFa h3 hl hs' =>
    rename_i a' s la l
    have hread' : (readCell a') H = (.ok (Cell.twig s), H) := by unfold readCell; simp only [MM.run, h1]; rfl
    dsimp only
    rw [run_bind hread']
    exact ⟨_, _, rfl, rfl, .leaf (.twig _ ha hFa hl hs')⟩
  | branch hd' h1 h2 hk' =>
    rename_i a' m' k' kn'
    have hread' : (readCell a') H = (.ok (Cell.branch m' k'), H) := by unfold readCell; simp only [MM.run, h1]; rfl
    dsimp only
    rw [run_bind hread']
    refine ⟨_, _, rfl, rfl, .packer (pos := 0) ?_ (by omega) hd' h1 h2 hk' (by simp) (.leaf .empty)⟩
    unfold appendSlot
    simp only [List.getElem?_cons_zero]
    split <;> rfl

/-! ## What a value iterator answers -/

theorem slotLoop_false (k : Fin 8 → Node T) (start : Fin 8 → Go (Iter T × Bool)) (cur : Iter T) (hcur : cur.value.toOption = none)
    (hst : ∀ i it, start i = .ok (it, false) → it.value.toOption = none) :
    ∀ (is : List (Fin 8)) (it : Iter T), slotLoop k start cur is = .ok (it, false) → it.value.toOption = none
  | [], it, h => by cases h; exact hcur
  | i :: is, it, h => by
    unfold slotLoop at h
    split at h
    · exact slotLoop_false k start cur hcur hst is it h
    · cases hs : start i with
      | error e => rw [hs] at h; cases h
      | ok r =>
        obtain ⟨it1, ok⟩ := r
        rw [hs] at h
        simp only [bind, Except.bind, pure, Except.pure, Except.ok.injEq, Prod.mk.injEq] at h
        obtain ⟨rfl, rfl⟩ := h
        exact hst i it1 hs

theorem sliceNext_false {l : List T} {i : Int} (h : (sliceNext l i).2 = false) : (sliceNext l i).1.value.toOption = none := by
  simp only [sliceNext, decide_eq_false_iff_not] at h ⊢
  simp only [Iter.value]
  by_cases hneg : i + 1 < 0
  · rw [if_pos hneg]; rfl
  · rw [if_neg hneg, List.getElem?_eq_none (by omega)]; rfl

theorem startNext_false : ∀ (c : Node T) (it : Iter T), startNext c = .ok (it, false) → it.value.toOption = none
  | .nil, it, h => by cases h
  | .leaf1 a, it, h => by cases h
  | .leaf2 a b, it, h => by cases h
  | .twig l, it, h => by
    simp only [startNext, Except.ok.injEq] at h
    have := sliceNext_false (l := l) (i := -1) (by rw [h])
    rwa [h] at this
  | .branch m k, it, h => slotLoop_false k (fun i => startNext (k i)) .empty rfl (fun i it' h' => startNext_false (k i) it' h') _ it h

theorem packLoop_false (cur : Iter T) (hcur : cur.value.toOption = none) :
    ∀ (cs : List (Node T)) (it : Iter T), packLoop cur cs = .ok (it, false) → it.value.toOption = none
  | [], it, h => by cases h; exact hcur
  | c :: cs, it, h => by
    unfold packLoop at h
    split at h
    · exact packLoop_false cur hcur cs it h
    · cases hs : startNext c with
      | error e => rw [hs] at h; cases h
      | ok r =>
        obtain ⟨it1, ok⟩ := r
        rw [hs] at h
        simp only [bind, Except.bind, pure, Except.pure, Except.ok.injEq, Prod.mk.injEq] at h
        obtain ⟨rfl, rfl⟩ := h
        exact startNext_false c it1 hs

/-- After `Next` has returned false, `Value` panics. -/
theorem next_false_value : ∀ (v v' : Iter T), v.next = .ok (v', false) → v'.value.toOption = none
  | .empty, v', h => by cases h; rfl
  | .slice l i, v', h => by
    simp only [Iter.next, Except.ok.injEq] at h
    have := sliceNext_false (l := l) (i := i) (by rw [h])
    rwa [h] at this
  | .packer rest i, v', h => by
    simp only [Iter.next] at h
    cases hi : i.next with
    | error e => rw [hi] at h; cases h
    | ok r =>
      obtain ⟨i', ok⟩ := r
      rw [hi] at h
      simp only [bind, Except.bind, pure, Except.pure] at h
      cases ok with
      | true => simp at h
      | false =>
        simp only [Bool.false_eq_true, if_false] at h
        exact packLoop_false i' (next_false_value i i' hi) rest v' h

/-- The value iterator is where the list iterator is. -/
structure Tracks (v : Iter T) (l : ListIter T) : Prop where
  ok : v.Ok
  rem : v.rem = l.elems.drop l.calls
  value : v.value.toOption = l.value

theorem Tracks.next {v : Iter T} {l : ListIter T} (h : Tracks v l) : ∃ v', v.next = .ok (v', l.next.2) ∧ Tracks v' l.next.1 := by
  unfold ListIter.next
  by_cases hlt : l.calls < l.elems.length
  · have hr := h.rem
    rw [List.drop_eq_getElem_cons hlt] at hr
    obtain ⟨v', h1, h2, h3, h4⟩ := (next_spec v h.ok).2 _ _ hr
    refine ⟨v', by rw [h1, decide_eq_true hlt], h4, h2, ?_⟩
    rw [h3]
    simp only [ListIter.value, Nat.add_eq_zero_iff, Nat.one_ne_zero, and_false, if_false, Nat.add_sub_cancel, List.getElem?_eq_getElem hlt]
    rfl
  · have hr := h.rem
    rw [List.drop_eq_nil_of_le (by omega)] at hr
    obtain ⟨v', h1, h2, h3⟩ := (next_spec v h.ok).1 hr
    refine ⟨v', by rw [h1, decide_eq_false hlt], h3, ?_, ?_⟩
    · rw [h2, List.drop_eq_nil_of_le (by show l.elems.length ≤ l.calls + 1; omega)]
    · rw [next_false_value _ _ h1]
      simp only [ListIter.value, Nat.add_eq_zero_iff, Nat.one_ne_zero, and_false, if_false, Nat.add_sub_cancel]
      rw [List.getElem?_eq_none (by omega)]

theorem iterator_tracks {t : Tree T} (h : NodeOk t.root) {v : Iter T} (hv : t.iterator = .ok v) : Tracks v ⟨elems t.root, 0⟩ := by
  obtain ⟨it, h1, h2, h3⟩ := iterator_spec h
  rw [hv] at h1
  cases h1
  refine ⟨h3, by simpa using h2, ?_⟩
  unfold Tree.iterator at hv
  split at hv
  · cases hv; rfl
  · cases hr : t.root with
    | nil => rw [hr] at hv; cases hv
    | leaf1 a => rw [hr] at hv; cases hv; rfl
    | leaf2 a b => rw [hr] at hv; cases hv; rfl
    | twig l => rw [hr] at hv; cases hv; rfl
    | branch m k => rw [hr] at hv; cases hv; rfl

end Frozen
