import Verif.Proof.MemWith

/-! `Remove` in memory. -/

set_option linter.unusedSectionVars false

namespace Frozen

variable {T : Type} [GoKey T] [PerGoKey T]

theorem isBranchM_eq {H : Mem T} {F : Set Loc} {d : Nat} {p : Ptr} {n : Node T} (h : Rep H F d p n) :
    isBranchM p H = (.ok n.isBranch, H) := by
  unfold isBranchM
  cases h with
  | nil => rfl
  | leaf1 h _ => simp only [MM.run, h]; rfl
  | leaf2 h _ => simp only [MM.run, h]; rfl
  | twig _ h _ _ _ _ _ _ => simp only [MM.run, h]; rfl
  | branch _ h _ _ => simp only [MM.run, h]; rfl

theorem newLeafM_sim (H : Mem T) (F : Set Loc) (d : Nat) (l : List T) :
    Sim ∅ H (newLeafM l) (newLeaf l) (fun p n H' => Own H' (F ∪ New H H') d p n) := by
  match l with
  | [] => exact Sim.raise
  | [x] => exact Sim.step rfl (changes_alloc _ _ _) (Sim.pure (.leaf1 cells_new (.inr new_cell)))
  | [x, y] => exact Sim.step rfl (changes_alloc _ _ _) (Sim.pure (.leaf2 cells_new (.inr new_cell)))
  | _ :: _ :: _ :: _ => exact Sim.raise

theorem maskOfPtrs_eq {k : Fin 8 → Ptr} {kn : Fin 8 → Node T} (h : ∀ i, (k i).isNone = (kn i).isNil) :
    maskOfPtrs k = (Packer.updateMask ⟨0#16, kn⟩).mask := by
  unfold maskOfPtrs Packer.updateMask
  simp only [h]

theorem updateMaskM_eq {H : Mem T} {b : Nat} {m : Masker} {k : Fin 8 → Ptr} (h : H.cells[b]? = some (.branch m k)) :
    updateMaskM b H = (.ok (), ⟨H.cells.set b (.branch (maskOfPtrs k) k), H.arrays, .cell b :: H.log⟩) := by
  unfold updateMaskM
  rw [run_bind (readCell_eq h)]
  rfl

theorem setDataM_eq {H : Mem T} {b : Nat} {i : Fin 8} {p : Ptr} {m : Masker} {k : Fin 8 → Ptr}
    (h : H.cells[b]? = some (.branch m k)) :
    setDataM b i p H = (.ok (), ⟨H.cells.set b (.branch m (setSlot k i p)), H.arrays, .cell b :: H.log⟩) := by
  unfold setDataM
  rw [run_bind (readCell_eq h)]
  rfl

theorem setNonNilChildM_eq {H : Mem T} {b : Nat} {i : Fin 8} {p : Ptr} {m : Masker} {k : Fin 8 → Ptr}
    (h : H.cells[b]? = some (.branch m k)) :
    setNonNilChildM b i p H = (.ok (), ⟨H.cells.set b (.branch (m ||| newMasker i) (setSlot k i p)), H.arrays, .cell b :: H.log⟩) := by
  unfold setNonNilChildM
  rw [run_bind (readCell_eq h)]
  rfl

theorem removeM_sim (G : Growth) (fuel : Nat) : ∀ (H : Mem T) (F : Set Loc) (d : Nat) (p : Ptr) (n : Node T)
    (v : T) (h : Hasher), Own H F d p n → Live H F → FuelOk d fuel →
    Sim F H (removeM G fuel p v d h) (remove n v d h)
      (fun r s H' => r.2 = s.2 ∧ Own H' (F ∪ New H H') d r.1 s.1) := by
  induction fuel with
  | zero => intro H F d p n v h _ _ hf; exact absurd hf.2 (Nat.lt_irrefl 0)
  | succ fuel ih =>
    intro H F d p n v h hr hl hf
    have hself := hr
    cases hr with
    | nil _ => exact Sim.raise
    | @leaf1 _ _ a x hx hF =>
      simp only [removeM, remove]
      refine Sim.read (readCell_eq hx) ?_
      dsimp only
      by_cases he : GoKey.eq x v = true
      · rw [if_pos he, if_pos he]
        exact Sim.pure ⟨rfl, .nil _ _⟩
      · rw [if_neg he, if_neg he]
        exact Sim.pure ⟨rfl, hself.mono Set.subset_union_left⟩
    | @leaf2 _ _ a x y hx hF =>
      simp only [removeM, remove]
      refine Sim.read (readCell_eq hx) ?_
      dsimp only
      by_cases he : GoKey.eq x v = true
      · rw [if_pos he, if_pos he]
        exact Sim.step rfl (changes_alloc _ _ _) (Sim.pure ⟨rfl, .leaf1 cells_new (.inr new_cell)⟩)
      · rw [if_neg he, if_neg he]
        by_cases he2 : GoKey.eq y v = true
        · rw [if_pos he2, if_pos he2]
          exact Sim.step rfl (changes_alloc _ _ _) (Sim.pure ⟨rfl, .leaf1 cells_new (.inr new_cell)⟩)
        · rw [if_neg he2, if_neg he2]
          exact Sim.pure ⟨rfl, hself.mono Set.subset_union_left⟩
    | @twig _ _ a s la l hd hx hF ha hFa h3 hla hs =>
      simp only [removeM, remove]
      refine Sim.read (readCell_eq hx) ?_
      dsimp only
      refine Sim.read (a := l) (hs ▸ readSlice_eq ha hla) ?_
      have hll : l.length = s.len := by rw [← hs]; simp; omega
      cases hfi : l.findIdx? (fun e => GoKey.eq e v) with
      | none =>
        dsimp only
        exact Sim.pure ⟨rfl, hself.mono Set.subset_union_left⟩
      | some i =>
        have hi : i < l.length := (List.findIdx?_eq_some_iff_getElem.1 hfi).1
        dsimp only
        have h0 : ¬ (s.len - 1 = 0) := by omega
        have h0' : ¬ (l.length - 1 = 0) := by omega
        rw [if_neg h0, if_neg h0']
        -- the state after the last element was moved
        have key : ∀ (x : MM T Unit) (H2 : Mem T) (la' : List T), x H = (.ok (), H2) → Changes F H H2 → H2.cells = H.cells →
            H2.arrays[s.arr]? = some la' → s.len ≤ la'.length → la'.take (s.len - 1) = swapRemove l i →
            Sim F H (do
              x
              writeCell a (.twig ⟨s.arr, s.len - 1, s.cap⟩)
              let p ← twigCanonicalM G a ⟨s.arr, s.len - 1, s.cap⟩ d
              pure (p, 1))
              (do let n ← twigCanonical (swapRemove l i) d; pure (n, (1 : Int)))
              (fun r s H' => r.2 = s.2 ∧ Own H' (F ∪ New H H') d r.1 s.1) := by
          intro x H2 la' hx' hc2 hcl har hlen' hsw
          refine Sim.step hx' hc2 ?_
          let H3 : Mem T := ⟨H2.cells.set a (.twig ⟨s.arr, s.len - 1, s.cap⟩), H2.arrays, .cell a :: H2.log⟩
          have hc23 : Changes F H2 H3 := changes_writeCell _ _ _ hF
          have hc03 : Changes F H H3 := hc2.trans (changes_writeCell _ _ _ (.inl hF))
          refine Sim.step (H1 := H3) rfl (changes_writeCell _ _ _ (.inl hF)) ?_
          have hx3 : H3.cells[a]? = some (.twig ⟨s.arr, s.len - 1, s.cap⟩) :=
            List.getElem?_set_self (by rw [hcl]; exact getElem?_lt hx)
          refine Sim.bind ((twigCanonicalM_sim G H3 F a d d ⟨s.arr, s.len - 1, s.cap⟩ la' (swapRemove l i) (.inr rfl) hx3 hF har hFa
            (by dsimp only; omega) hsw).weaken (fun _ h => h.elim) (fun _ _ _ _ h => h)) ?_
          rintro p n H4 hc4 ⟨ho, _⟩
          refine Sim.pure ⟨rfl, ho.mono ?_⟩
          rintro l (h | h)
          · exact .inl h
          · exact .inr (new_sub' hc03 h)
        have htk : la.take (s.len - 1) = l.take (l.length - 1) := by
          rw [← hs, List.take_take, hs, hll]; congr 1; omega
        by_cases hie : i < s.len - 1
        · have hg : l[s.len - 1]? = some (l[s.len - 1]'(by omega)) := List.getElem?_eq_getElem (by omega)
          simp only [if_pos hie, hg]
          refine key _ _ (la.set i (l[s.len - 1]'(by omega))) rfl (changes_writeArr H _ _ _ hFa) rfl ?_ (by simpa using hla) ?_
          · show (H.arrays.modify _ _)[_]? = _
            rw [List.getElem?_modify, ha]
            simp only [if_true, Option.map_eq_map, Option.map_some]
            rw [write_take _ _ _ (by omega)]
          · rw [swapRemove_eq hi, if_pos (by omega), List.take_set, htk]
            simp only [hll]
        · simp only [if_neg hie]
          refine key (pure ()) _ la rfl (Changes.refl _ _) rfl ha hla ?_
          rw [swapRemove_eq hi, if_neg (by omega), htk]
    | @branch _ _ a m k kn Fs hd hx hF hk hsub hna hdis =>
      simp only [removeM, remove]
      refine Sim.read (readCell_eq hx) ?_
      dsimp only
      rw [(hk h.idx).rep.isNone]
      cases hn : (kn h.idx).isNil with
      | true =>
        simp only [if_true]
        exact Sim.pure ⟨rfl, hself.mono Set.subset_union_left⟩
      | false =>
        simp only [Bool.false_eq_true, if_false]
        refine Sim.bind ((ih H (Fs h.idx) (d + 1) (k h.idx) (kn h.idx) v h.next (hk _) (fun l hl' => hl l (hsub _ hl'))
          (hf.succ hd)).weaken (W' := F)
            (R' := fun r s H' => r.2 = s.2 ∧ Changes (Fs h.idx) H H' ∧ Own H' (Fs h.idx ∪ New H H') (d + 1) r.1 s.1)
            (fun l h' => .inl (hsub _ h')) (fun r s H' hc hr => ⟨hr.1, hc, hr.2⟩)) ?_
        rintro ⟨p', ms⟩ ⟨n', ms'⟩ H1 hcF ⟨hms, hc, ho⟩
        obtain rfl : ms = ms' := hms
        dsimp only at ho ⊢
        let H2 : Mem T := ⟨H1.cells ++ [.branch m (setSlot k h.idx p')], H1.arrays, H1.log⟩
        refine Sim.step (H1 := H2) (a := H1.cells.length) rfl (changes_alloc _ _ _) ?_
        have hc12 : Changes ∅ H1 H2 := changes_alloc _ _ _
        have hc02 : Changes (Fs h.idx) H H2 := hc.trans (changes_alloc _ _ _)
        have hb : H2.cells[H1.cells.length]? = some (.branch m (setSlot k h.idx p')) := cells_new
        have hbn : Loc.cell H1.cells.length ∈ New H H2 := new_sub' hc new_cell
        -- the branch with the children in place, under any mask
        have hbr : ∀ (H' : Mem T) (m' : Masker), Changes {Loc.cell H1.cells.length} H2 H' →
            H'.cells[H1.cells.length]? = some (.branch m' (setSlot k h.idx p')) →
            Own H' (F ∪ New H H') d (some H1.cells.length) (.branch m' (setSlot kn h.idx n')) := by
          intro H' m' hc' hcell
          have hc1' : Changes {Loc.cell H1.cells.length} H1 H' := (changes_alloc _ H1 _).trans (hc'.weaken (fun l h => .inl (.inl h)))
          have hlive1 : ∀ l, l ∉ Fresh H1 → l ≠ Loc.cell H1.cells.length := by
            rintro l hl rfl; exact hl (Nat.le_refl _)
          refine .branch (fun j => if j = h.idx then Fs h.idx ∪ New H H1 else Fs j) hd hcell (.inr (new_sub hc' hbn)) ?_ ?_ ?_ ?_
          · intro j
            by_cases hj : j = h.idx
            · subst hj
              simp only [if_true, setSlot_same]
              refine ho.frame hc1' ?_
              intro l hl' he
              refine hlive1 l ?_ he
              rcases hl' with h' | h'
              · exact fun hf => hl l (hsub _ h') (hc.mono _ hf)
              · exact h'.2
            · simp only [if_neg hj, setSlot_ne _ _ hj]
              refine ((hk j).frame hc ?_).frame hc1' ?_
              · intro l h1 h2; exact hdis j h.idx hj l h1 h2
              · intro l h1 he
                exact hlive1 l (fun hf => hl l (hsub _ h1) (hc.mono _ hf)) he
          · intro j
            by_cases hj : j = h.idx
            · simp only [hj, if_true]
              rintro l (h' | h')
              · exact .inl (hsub _ h')
              · exact .inr (new_sub hc1' h')
            · simp only [if_neg hj]
              exact (hsub j).trans Set.subset_union_left
          · intro j
            by_cases hj : j = h.idx
            · simp only [hj, if_true]
              rintro (h' | h')
              · exact hl _ (hsub _ h') (hc.mono _ (Nat.le_refl _))
              · exact h'.2 (Nat.le_refl _)
            · simp only [if_neg hj]
              exact fun h' => hl _ (hsub _ h') (hc.mono _ (Nat.le_refl _))
          · intro i j hij l hli hlj
            by_cases hi : i = h.idx
            · subst hi
              have hj : j ≠ h.idx := fun e => hij e.symm
              simp only [if_true] at hli
              simp only [if_neg hj] at hlj
              rcases hli with h' | h'
              · exact hdis _ _ hij l h' hlj
              · exact hl l (hsub j hlj) h'.1
            · simp only [if_neg hi] at hli
              by_cases hj : j = h.idx
              · simp only [hj, if_true] at hlj
                rcases hlj with h' | h'
                · exact hdis i h.idx hi l hli h'
                · exact hl l (hsub i hli) h'.1
              · simp only [if_neg hj] at hlj
                exact hdis i j hij l hli hlj
        have hb2 : Own H2 (F ∪ New H H2) d (some H1.cells.length) (.branch m (setSlot kn h.idx n')) :=
          hbr H2 m (Changes.refl _ _) hb
        have hupd : ∀ W, (Loc.cell H1.cells.length ∈ W) →
            Sim W H2 (do updateMaskM H1.cells.length; pure (some H1.cells.length, ms))
              (.ok ((Packer.updateMask ⟨m, setSlot kn h.idx n'⟩).toNode, ms))
              (fun r s H' => r.2 = s.2 ∧ Own H' (F ∪ New H H') d r.1 s.1) := by
          intro W hW
          refine Sim.step (updateMaskM_eq hb) (changes_writeCell _ _ _ hW) (Sim.pure ⟨rfl, ?_⟩)
          have := hbr _ (maskOfPtrs (setSlot k h.idx p')) (changes_writeCell H2 _ _ rfl) (List.getElem?_set_self (getElem?_lt hb))
          have hm := maskOfPtrs_eq (k := setSlot k h.idx p') (kn := setSlot kn h.idx n') (by
            intro i
            by_cases hi : i = h.idx
            · subst hi; rw [setSlot_same, setSlot_same]; exact ho.rep.isNone
            · rw [setSlot_ne _ _ hi, setSlot_ne _ _ hi]; exact (hk i).rep.isNone)
          have he : (Packer.updateMask ⟨m, setSlot kn h.idx n'⟩).toNode =
              .branch (maskOfPtrs (setSlot k h.idx p')) (setSlot kn h.idx n') := by
            rw [hm]; rfl
          rw [he]; exact this
        refine Sim.read (isBranchM_eq (ho.rep.frame hc12 (fun _ _ h => h))) ?_
        have hWn : Loc.cell H1.cells.length ∈ F ∪ Fresh H ∪ Fresh H1 := .inr (Nat.le_refl _)
        cases hbn' : n'.isBranch with
        | true =>
          simp only [Bool.not_true, Bool.false_eq_true, if_false]
          exact hupd _ hWn
        | false =>
          simp only [Bool.not_false, if_true]
          have hae := appendToM_eq maxLeafLen hb2.rep memFuel [] (fuelOk_mem d)
          have hsp := appendTo_spec maxLeafLen (Packer.toNode ⟨m, setSlot kn h.idx n'⟩) [] rfl (by simp)
          rw [hsp]
          have hae : appendToM maxLeafLen H2 memFuel (some H1.cells.length) [] = _ := hae.trans hsp
          by_cases hle : ([] : List T).length + (elems (Packer.toNode ⟨m, setSlot kn h.idx n'⟩)).length ≤ maxLeafLen
          · rw [if_pos hle] at hae ⊢
            refine Sim.read (a := some _) (by rw [appendToP_run, hae]) ?_
            show Sim _ _ _ (newLeaf _ >>= fun r => pure (r, ms)) _
            refine Sim.bind ((newLeafM_sim H2 F d _).weaken (fun _ h => h.elim) (fun _ _ _ _ h => h)) ?_
            rintro p3 n3 H3 hc3 ho3
            refine Sim.pure ⟨rfl, ho3.mono ?_⟩
            rintro l (h | h)
            · exact .inl h
            · exact .inr (new_sub' hc02 h)
          · rw [if_neg hle] at hae ⊢
            refine Sim.read (a := none) (by rw [appendToP_run, hae]) ?_
            exact hupd _ hWn

end Frozen
