import Verif.Proof.Mem

/-! Building in memory: `AddFast`, `newBranchFrom` and the canonical forms. -/

set_option linter.unusedSectionVars false

namespace Frozen

variable {T : Type}

/-- Every location of the footprint is allocated. -/
def Live (H : Mem T) (F : Set Loc) : Prop := ∀ l ∈ F, l ∉ Fresh H

theorem Live.next {H H1 : Mem T} {F W : Set Loc} (h : Live H F) (hc : Changes W H H1) : Live H1 F :=
  fun l hl hf => h l hl (hc.mono l hf)

theorem live_new (H H1 : Mem T) : Live H1 (New H H1) := fun _ hl => hl.2

theorem Live.union {H : Mem T} {F F' : Set Loc} (h : Live H F) (h' : Live H F') : Live H (F ∪ F') :=
  fun l hl => hl.elim (h l) (h' l)

theorem write_take {α : Type} (l : List α) (i : Nat) (v : α) (h : i < l.length) :
    l.take i ++ v :: l.drop (i + 1) = l.set i v := (List.set_eq_take_append_cons_drop).symm ▸ by simp [h]

theorem write_length {α : Type} (l : List α) (i : Nat) (v : α) : l.length ≤ (l.take i ++ v :: l.drop (i + 1)).length := by
  simp; omega

theorem new_cell {H : Mem T} {c : Cell T} : Loc.cell H.cells.length ∈ New H ⟨H.cells ++ [c], H.arrays, H.log⟩ :=
  ⟨Nat.le_refl _, by rw [mem_fresh_cell]; simp⟩

theorem new_arr {H : Mem T} {c : List T} : Loc.arr H.arrays.length ∈ New H ⟨H.cells, H.arrays ++ [c], H.log⟩ :=
  ⟨Nat.le_refl _, by rw [mem_fresh_arr]; simp⟩

theorem cells_new {H : Mem T} {c : Cell T} : (H.cells ++ [c])[H.cells.length]? = some c := by simp

theorem arrays_new {H : Mem T} {c : List T} : (H.arrays ++ [c])[H.arrays.length]? = some c := by simp

theorem goAppend_spec (G : Growth) (H : Mem T) (s : Slice) (v : T) (la : List T) (W : Set Loc)
    (ha : H.arrays[s.arr]? = some la) (hl : s.len ≤ la.length) (hw : s.len < s.cap → .arr s.arr ∈ W) :
    ∃ s' H1 la', goAppend G s v H = (.ok s', H1) ∧ Changes W H H1 ∧ H1.arrays[s'.arr]? = some la' ∧
      s'.len = s.len + 1 ∧ s'.len ≤ la'.length ∧ la'.take s'.len = la.take s.len ++ [v] ∧
      (s'.arr = s.arr ∧ s.len < s.cap ∨ .arr s'.arr ∈ New H H1) ∧ H1.cells = H.cells := by
  unfold goAppend
  by_cases hc : s.len < s.cap
  · rw [if_pos hc]
    refine ⟨⟨s.arr, s.len + 1, s.cap⟩, ⟨H.cells, H.arrays.modify s.arr (fun l => l.take s.len ++ v :: l.drop (s.len + 1)),
      .arr s.arr :: H.log⟩, la.take s.len ++ v :: la.drop (s.len + 1), rfl, changes_writeArr H _ _ _ (hw hc), ?_, rfl, ?_, ?_, .inl ⟨rfl, hc⟩, rfl⟩
    · simp only [List.getElem?_modify, ha]; simp
    · simp; omega
    · have : (la.take s.len).length = s.len := by simp; omega
      dsimp only
      rw [List.take_append, this, List.take_of_length_le (by omega)]
      simp
  · rw [if_neg hc]
    refine ⟨⟨H.arrays.length, s.len + 1, G.cap s.cap (s.len + 1)⟩, ⟨H.cells, H.arrays ++ [la.take s.len ++ [v]], H.log⟩,
      la.take s.len ++ [v], run_bind (readSlice_eq ha hl), changes_allocArr _ _ _, ?_, rfl, ?_, ?_,
      .inr new_arr, rfl⟩
    · exact arrays_new
    · simp; omega
    · rw [List.take_of_length_le]; simp

variable [GoKey T]

/-- Fuel that `AddFast` needs. -/
def addNeed (n : Node T) (d : Nat) : Nat := if n.isBranch then 2 * (maxTreeDepth - d) else 2 * (maxTreeDepth - d) + 1

/-- What `add` must do on the branch being filled. -/
def AddOk (add : Nat → T → MM T Unit) (d : Nat) : Prop :=
  ∀ (H : Mem T) (F : Set Loc) (b : Nat) (n : Node T) (e : T), Own H F d (some b) n → Live H F → n.isBranch = true →
    Sim F H (add b e) (do let (n', _) ← addFast n e d (newHasher e d); pure n')
      (fun _ n' H' => Own H' (F ∪ New H H') d (some b) n' ∧ n'.isBranch = true)

theorem fill_sim {add : Nat → T → MM T Unit} {d : Nat} (hadd : AddOk add d) (data : List T) (H : Mem T) (F : Set Loc) (b : Nat)
    (n : Node T) (ho : Own H F d (some b) n) (hl : Live H F) (hb : n.isBranch = true) :
    Sim F H (data.forM (fun e => add b e))
      (data.foldlM (fun b e => do let (n', _) ← addFast b e d (newHasher e d); pure n') n)
      (fun _ n' H' => Own H' (F ∪ New H H') d (some b) n' ∧ n'.isBranch = true) := by
  induction data generalizing H F n with
  | nil =>
    rw [List.foldlM_nil]
    exact Sim.pure ⟨ho.mono Set.subset_union_left, hb⟩
  | cons e data ih =>
    rw [List.foldlM_cons]
    show Sim F H (add b e >>= fun _ => data.forM (fun e => add b e)) _ _
    refine Sim.bind (hadd H F b n e ho hl hb) ?_
    rintro _ n' H1 hc ⟨ho', hb'⟩
    refine (ih H1 (F ∪ New H H1) n' ho' ((hl.next hc).union (live_new H H1)) hb').weaken ?_ ?_
    · rintro l (h | h)
      · exact .inl (.inl h)
      · exact .inl (.inr h.1)
    · rintro _ n2 H2 hc2 ⟨ho2, hb2⟩
      refine ⟨ho2.mono ?_, hb2⟩
      rintro l ((h | h) | h)
      · exact .inl h
      · exact .inr (new_sub hc2 h)
      · exact .inr (new_sub' hc h)

theorem newBranchFromWith_sim {add : Nat → T → MM T Unit} {d : Nat} (hadd : d < maxTreeDepth → AddOk add d) (data : List T)
    (h3 : maxTreeDepth ≤ d → 3 ≤ data.length) (H : Mem T) :
    Sim ∅ H (newBranchFromWith add d data) (newBranchFrom d data)
      (fun p n H' => Own H' (New H H') d p n ∧ p.isSome = true) := by
  rw [newBranchFrom_eq]
  unfold newBranchFromWith
  by_cases hd : d ≥ maxTreeDepth
  · rw [if_pos hd, if_pos hd]
    refine Sim.step (H1 := ⟨H.cells ++ [.twig ⟨H.arrays.length, data.length, data.length⟩], H.arrays ++ [data], H.log⟩)
      (a := H.cells.length) rfl ?_ (Sim.pure ⟨?_, rfl⟩)
    · exact (changes_allocArr ∅ H data).trans (changes_alloc _ _ _)
    · refine .twig (s := ⟨H.arrays.length, data.length, data.length⟩) (la := data) hd cells_new ?_ arrays_new ?_ (h3 hd)
        (Nat.le_refl _) (List.take_length ..)
      · exact ⟨Nat.le_refl _, by rw [mem_fresh_cell]; simp⟩
      · exact ⟨Nat.le_refl _, by rw [mem_fresh_arr]; simp⟩
  · rw [if_neg hd, if_neg hd]
    have hd' : d < maxTreeDepth := Nat.lt_of_not_le hd
    refine Sim.step (H1 := ⟨H.cells ++ [.branch 0#16 (fun _ => none)], H.arrays, H.log⟩) (a := H.cells.length) rfl
      (changes_alloc _ _ _) ?_
    let H1 : Mem T := ⟨H.cells ++ [.branch 0#16 (fun _ => none)], H.arrays, H.log⟩
    have ho : Own H1 (New H H1) d (some H.cells.length) (.branch 0#16 fun _ => .nil) :=
      .branch (fun _ => ∅) hd' cells_new new_cell (fun i => .nil _ _) (fun _ => Set.empty_subset _) (fun _ h => h.elim)
        (fun _ _ _ _ h => h.elim)
    have hs := fill_sim (hadd hd') data H1 _ _ _ ho (live_new H H1) rfl
    have hr : ∀ v : Go (Node T), v = v >>= fun n => .ok n := fun v => by cases v <;> rfl
    rw [hr (List.foldlM ..)]
    refine Sim.bind (hs.weaken (W' := ∅ ∪ Fresh H) (fun l h => .inl (.inr h.1)) (fun _ _ _ _ h => h)) ?_
    rintro _ n' H2 hc ⟨ho', _⟩
    refine Sim.pure ⟨ho'.mono ?_, rfl⟩
    rintro l (h | h)
    · exact new_sub hc h
    · exact new_sub' (changes_alloc ∅ H _) h

theorem addFastM_sim (G : Growth) (fuel : Nat) : ∀ (H : Mem T) (F : Set Loc) (d : Nat) (p : Ptr) (n : Node T) (v : T) (h : Hasher),
    Own H F d p n → Live H F → addNeed n d ≤ fuel → 0 < fuel →
    Sim F H (addFastM G fuel p v d h) (addFast n v d h)
      (fun r s H' => r.2 = s.2 ∧ Own H' (F ∪ New H H') d r.1 s.1 ∧ r.1.isSome = true ∧
        (n.isBranch = true → r.1 = p ∧ s.1.isBranch = true)) := by
  induction fuel with
  | zero => intro H F d p n v h _ _ _ h0; exact absurd h0 (Nat.lt_irrefl 0)
  | succ fuel ih =>
    intro H F d p n v h ho hl hf _
    have hadd : d < maxTreeDepth → 2 * (maxTreeDepth - d) ≤ fuel →
        AddOk (fun b (e : T) => do let _ ← addFastM G fuel (some b) e d (newHasher e d)) d := by
      intro hd hfu H F b n e ho hl hb
      refine Sim.bind (ih H F d (some b) n e _ ho hl ?_ (by omega)) ?_
      · unfold addNeed; rw [if_pos hb]; exact hfu
      · rintro r s H1 hc ⟨_, ho', _, hbb⟩
        refine Sim.pure ⟨?_, (hbb hb).2⟩
        rw [← (hbb hb).1]
        exact ho'
    have hmk : ∀ H : Mem T, n.isBranch = false → ∀ data : List T, 3 ≤ data.length →
        Sim ∅ H (newBranchFromWith (fun b e => do let _ ← addFastM G fuel (some b) e d (newHasher e d)) d data)
          (newBranchFrom d data) (fun p n H' => Own H' (New H H') d p n ∧ p.isSome = true) := by
      intro H hb data h3
      refine newBranchFromWith_sim (fun hd => hadd hd ?_) data (fun _ => h3) H
      unfold addNeed at hf; rw [hb] at hf; simp at hf; exact hf
    cases ho with
    | nil _ _ => exact Sim.raise
    | @leaf1 _ _ a x hx hF =>
      simp only [addFastM, addFast, addFastWith]
      refine Sim.read (readCell_eq hx) ?_
      dsimp only
      by_cases he : GoKey.eq x v = true
      · rw [if_pos he, if_pos he]
        refine Sim.step (H1 := ⟨H.cells.set a (.leaf1 v), H.arrays, .cell a :: H.log⟩) rfl (changes_writeCell H a _ hF) (Sim.pure ⟨rfl, ?_, rfl, ?_⟩)
        · exact .leaf1 (by simp only; rw [List.getElem?_set_self (getElem?_lt hx)]) (.inl hF)
        · intro hb; cases hb
      · rw [if_neg he, if_neg he]
        refine Sim.step (H1 := ⟨H.cells ++ [.leaf2 x v], H.arrays, H.log⟩) rfl (changes_alloc _ _ _) (Sim.pure ⟨rfl, ?_, rfl, ?_⟩)
        · exact .leaf2 cells_new (.inr new_cell)
        · intro hb; cases hb
    | @leaf2 _ _ a x y hx hF =>
      simp only [addFastM, addFast, addFastWith]
      refine Sim.read (readCell_eq hx) ?_
      dsimp only
      by_cases he : GoKey.eq x v = true
      · rw [if_pos he, if_pos he]
        refine Sim.step (H1 := ⟨H.cells.set a (.leaf2 v y), H.arrays, .cell a :: H.log⟩) rfl (changes_writeCell H a _ hF)
          (Sim.pure ⟨rfl, ?_, rfl, ?_⟩)
        · exact .leaf2 (by simp only; rw [List.getElem?_set_self (getElem?_lt hx)]) (.inl hF)
        · intro hb; cases hb
      · rw [if_neg he, if_neg he]
        by_cases he2 : GoKey.eq y v = true
        · rw [if_pos he2, if_pos he2]
          refine Sim.step (H1 := ⟨H.cells.set a (.leaf2 x v), H.arrays, .cell a :: H.log⟩) rfl (changes_writeCell H a _ hF)
            (Sim.pure ⟨rfl, ?_, rfl, ?_⟩)
          · exact .leaf2 (by simp only; rw [List.getElem?_set_self (getElem?_lt hx)]) (.inl hF)
          · intro hb; cases hb
        · rw [if_neg he2, if_neg he2]
          refine Sim.bind ((hmk H rfl [x, y, v] (Nat.le_refl 3)).weaken (fun l h => h.elim) (fun _ _ _ _ h => h)) ?_
          rintro p n H1 hc ⟨ho, hs⟩
          refine Sim.pure ⟨rfl, ho.mono Set.subset_union_right, hs, ?_⟩
          intro hb; cases hb
    | @twig _ _ a s la l hd hx hF ha hFa h3 hla hs =>
      simp only [addFastM, addFast, addFastWith]
      refine Sim.read (readCell_eq hx) ?_
      dsimp only
      refine Sim.read (a := l) (hs ▸ readSlice_eq ha hla) ?_
      have hll : l.length = s.len := by rw [← hs]; simp; omega
      cases hfi : l.findIdx? (fun e => GoKey.eq e v) with
      | some i =>
        have hi : i < s.len := by rw [← hll]; exact (List.findIdx?_eq_some_iff_getElem.1 hfi).1
        dsimp only
        refine Sim.step (H1 := ⟨H.cells, H.arrays.modify s.arr (fun l => l.take i ++ v :: l.drop (i + 1)), .arr s.arr :: H.log⟩) rfl
          (changes_writeArr H _ _ _ hFa) (Sim.pure ⟨rfl, ?_, rfl, ?_⟩)
        · refine .twig (la := la.take i ++ v :: la.drop (i + 1)) hd hx (.inl hF) ?_ (.inl hFa) h3
            (hla.trans (write_length la i v)) ?_
          · simp only [List.getElem?_modify, ha]; simp
          · rw [write_take _ _ _ (Nat.lt_of_lt_of_le hi hla), ← hs, List.take_set]
        · intro hb; cases hb
      | none =>
        dsimp only
        rw [if_pos (.inr hd), if_pos hd]
        obtain ⟨s', H1, la', h1, h2, h4, h5, h6, h7, h8, h9⟩ := goAppend_spec G H s v la F ha hla (fun _ => hFa)
        refine Sim.step h1 h2 ?_
        have hcl : H1.cells[a]? = some (.twig s) := by rw [h9]; exact hx
        refine Sim.step (H1 := ⟨H1.cells.set a (.twig s'), H1.arrays, .cell a :: H1.log⟩) rfl
          (changes_writeCell H1 a _ (.inl hF)) (Sim.pure ⟨rfl, ?_, rfl, ?_⟩)
        · refine .twig (s := s') (la := la') hd ?_ (.inl hF) h4 ?_ (by omega) h6 (by rw [h7, hs])
          · simp only; rw [List.getElem?_set_self (getElem?_lt hcl)]
          · rcases h8 with h8 | h8
            · rw [h8.1]; exact .inl hFa
            · exact .inr (new_sub (changes_writeCell (W := {.cell a}) H1 a (.twig s') rfl) h8)
        · intro hb; cases hb
    | @branch _ _ a m k kn Fs hd hx hF hk hsub hna hdis =>
      simp only [addFastM, addFast, addFastWith]
      refine Sim.read (readCell_eq hx) ?_
      dsimp only
      rw [(hk h.idx).rep.isNone]
      have setNN : ∀ (H1 : Mem T) (p : Ptr), H1.cells[a]? = some (.branch m k) →
          setNonNilChildM a h.idx p H1 =
            (.ok (), ⟨H1.cells.set a (.branch (m ||| newMasker h.idx) (setSlot k h.idx p)), H1.arrays, .cell a :: H1.log⟩) := by
        intro H1 p hx1
        unfold setNonNilChildM
        rw [run_bind (readCell_eq hx1)]
        rfl
      -- the common end: the changed child is in place, the others are untouched
      have fin : ∀ (H1 : Mem T) (p : Ptr) (n' : Node T), Changes (Fs h.idx) H H1 →
          Own H1 (Fs h.idx ∪ New H H1) (d + 1) p n' →
          Own ⟨H1.cells.set a (.branch (m ||| newMasker h.idx) (setSlot k h.idx p)), H1.arrays, .cell a :: H1.log⟩
            (F ∪ New H ⟨H1.cells.set a (.branch (m ||| newMasker h.idx) (setSlot k h.idx p)), H1.arrays, .cell a :: H1.log⟩) d (some a)
            (Packer.setNonNilChild ⟨m, kn⟩ h.idx n').toNode := by
        intro H1 p n' hc1 ho1
        have hx1 : H1.cells[a]? = some (.branch m k) := hc1.cell hx (hna _)
        have hcw : Changes {Loc.cell a} H1
            ⟨H1.cells.set a (.branch (m ||| newMasker h.idx) (setSlot k h.idx p)), H1.arrays, .cell a :: H1.log⟩ := changes_writeCell H1 a _ rfl
        have hal : Loc.cell a ∉ Fresh H := by rw [mem_fresh_cell]; have := getElem?_lt hx; omega
        refine .branch (fun j => if j = h.idx then Fs h.idx ∪ New H H1 else Fs j) hd
          (List.getElem?_set_self (getElem?_lt hx1)) (.inl hF) ?_ ?_ ?_ ?_
        · intro j
          by_cases hj : j = h.idx
          · subst hj
            simp only [if_true, setSlot_same, Packer.setNonNilChild]
            refine ho1.frame hcw ?_
            rintro l hl' rfl
            rcases hl' with h' | h'
            · exact hna _ h'
            · exact hal h'.1
          · simp only [if_neg hj, setSlot_ne _ _ hj, Packer.setNonNilChild]
            refine ((hk j).frame (hc1.weaken (W' := Fs h.idx) (fun l h => .inl h)) ?_).frame hcw ?_
            · intro l h1 h2; exact hdis j h.idx hj l h1 h2
            · rintro l h1 rfl; exact hna j h1
        · intro j
          by_cases hj : j = h.idx
          · simp only [hj, if_true]
            rintro l (h' | h')
            · exact .inl (hsub _ h')
            · exact .inr (new_sub hcw h')
          · simp only [if_neg hj]
            exact (hsub j).trans Set.subset_union_left
        · intro j
          by_cases hj : j = h.idx
          · simp only [hj, if_true]
            rintro (h' | h')
            · exact hna _ h'
            · exact hal h'.1
          · simp only [if_neg hj]; exact hna j
        · intro i j hij l hli hlj
          by_cases hi : i = h.idx
          · subst hi
            have hj : j ≠ h.idx := fun e => hij e.symm
            simp only [if_true] at hli
            simp only [if_neg hj] at hlj
            rcases hli with h' | h'
            · exact hdis _ _ hij l h' hlj
            · exact hl l (hsub j hlj) h'.1
          · simp only [if_neg hi] at hli
            by_cases hj : j = h.idx
            · simp only [hj, if_true] at hlj
              rcases hlj with h' | h'
              · exact hdis i h.idx hi l hli h'
              · exact hl l (hsub i hli) h'.1
            · simp only [if_neg hj] at hlj
              exact hdis i j hij l hli hlj
      cases hn : (kn h.idx).isNil with
      | true =>
        simp only [if_true]
        have hc1 := changes_alloc (Fs h.idx) H (.leaf1 v)
        refine Sim.step (H1 := ⟨H.cells ++ [.leaf1 v], H.arrays, H.log⟩) rfl (changes_alloc _ _ _) ?_
        have hx1 := hc1.cell hx (hna _)
        refine Sim.step (setNN _ _ hx1) (changes_writeCell _ _ _ (.inl hF)) (Sim.pure ⟨rfl, ?_, rfl, fun _ => ⟨rfl, rfl⟩⟩)
        exact fin _ _ _ hc1 (.leaf1 cells_new (.inr new_cell))
      | false =>
        simp only [Bool.false_eq_true, if_false]
        refine Sim.bind ((ih H (Fs h.idx) (d + 1) (k h.idx) (kn h.idx) v h.next (hk _) (fun l hl' => hl l (hsub _ hl')) ?_ ?_).mono
          (R' := fun r s H' => r.2 = s.2 ∧ Changes (Fs h.idx) H H' ∧ Own H' (Fs h.idx ∪ New H H') (d + 1) r.1 s.1)
          (fun r s H' hc hr => ⟨hr.1, hc, hr.2.1⟩) |>.weaken (fun l h' => .inl (hsub _ h')) (fun _ _ _ _ h => h)) ?_
        · have h22 : maxTreeDepth = 22 := rfl
          unfold addNeed at hf ⊢
          simp only [Node.isBranch, if_true] at hf
          split <;> omega
        · have h22 : maxTreeDepth = 22 := rfl
          unfold addNeed at hf
          simp only [Node.isBranch, if_true] at hf
          omega
        · rintro r s H1 _ ⟨hr, hc, ho'⟩
          refine Sim.step (setNN _ _ (hc.cell hx (hna _))) (changes_writeCell _ _ _ (.inl hF))
            (Sim.pure ⟨hr, ?_, rfl, fun _ => ⟨rfl, rfl⟩⟩)
          exact fin _ _ _ hc ho'

theorem newBranchFromM_sim (G : Growth) (d : Nat) (data : List T) (h3 : maxTreeDepth ≤ d → 3 ≤ data.length) (H : Mem T) :
    Sim ∅ H (newBranchFromM G d data) (newBranchFrom d data) (fun p n H' => Own H' (New H H') d p n ∧ p.isSome = true) := by
  unfold newBranchFromM
  refine newBranchFromWith_sim (fun hd => ?_) data h3 H
  intro H F b n e ho hl hb
  refine Sim.bind (addFastM_sim G memFuel H F d (some b) n e _ ho hl ?_ (by decide)) ?_
  · unfold addNeed memFuel; have h22 : maxTreeDepth = 22 := rfl; split <;> omega
  · rintro r s H1 hc ⟨_, ho', _, hbb⟩
    refine Sim.pure ⟨?_, (hbb hb).2⟩
    rw [← (hbb hb).1]
    exact ho'

end Frozen
