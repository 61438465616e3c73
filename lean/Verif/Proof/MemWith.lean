import Verif.Proof.MemAdd

/-! `Canonical`, `With`, `Without` and `Remove` in memory. -/

set_option linter.unusedSectionVars false

namespace Frozen

variable {T : Type}

/-- The pointer is nil or points to something allocated between the two states. -/
def NewPtr (H H' : Mem T) (p : Ptr) : Prop := ∀ a, p = some a → Loc.cell a ∈ New H H'

/-- The arrays of a footprint. -/
def arrs (F : Set Loc) : Set Loc := {l | l ∈ F ∧ ∃ a, l = .arr a}

theorem Rep.root_mem {H : Mem T} {F : Set Loc} {d a : Nat} {n : Node T} (h : Rep H F d (some a) n) : .cell a ∈ F := by
  cases h <;> assumption

theorem Rep.newPtr {H H' : Mem T} {d : Nat} {p : Ptr} {n : Node T} (h : Rep H' (New H H') d p n) : NewPtr H H' p := by
  rintro a rfl; exact h.root_mem

/-- A represented tree stays a tree when only arrays change. -/
theorem Rep.shape {H H' : Mem T} {F W : Set Loc} {d : Nat} {p : Ptr} {n : Node T} (h : Rep H F d p n) (hc : Changes W H H')
    (hd : ∀ a, .cell a ∈ F → .cell a ∈ W → .cell a ∈ Fresh H) : ∃ n', Rep H' F d p n' := by
  have hcell : ∀ {a : Nat} {c : Cell T}, H.cells[a]? = some c → .cell a ∈ F → H'.cells[a]? = some c := by
    intro a c h hf
    by_cases hw : Loc.cell a ∈ W
    · have := hd a hf hw
      rw [mem_fresh_cell] at this
      have := getElem?_lt h
      omega
    · exact hc.cell h hw
  induction h with
  | nil d => exact ⟨_, .nil d⟩
  | leaf1 h hf => exact ⟨_, .leaf1 (hcell h hf) hf⟩
  | leaf2 h hf => exact ⟨_, .leaf2 (hcell h hf) hf⟩
  | twig hd' h hf ha hfa h3 hl hs =>
    obtain ⟨la', e, le⟩ := hc.len _ _ ha
    exact ⟨_, .twig hd' (hcell h hf) hf e hfa h3 (hl.trans le) rfl⟩
  | branch hd' h hf _ ih => exact ⟨_, .branch hd' (hcell h hf) hf (fun i => (ih i).choose_spec)⟩

theorem Rep.next {H H' : Mem T} {F : Set Loc} {d : Nat} {p : Ptr} {n : Node T} (h : Rep H F d p n) (hc : Changes ∅ H H') :
    Rep H' F d p n := h.frame hc (fun _ _ h => h)

theorem New.sub_union {H H1 H2 : Mem T} {W : Set Loc} {F : Set Loc} (hc : Changes W H H1) :
    (F ∪ New H H1) ∪ New H1 H2 ⊆ F ∪ New H H2 ∪ New H H1 := by
  rintro l ((h | h) | h)
  · exact .inl (.inl h)
  · exact .inr h
  · exact .inl (.inr (new_sub' hc h))

theorem sub_new2 {H H1 H2 : Mem T} {W W' : Set Loc} {F : Set Loc} (hc : Changes W H H1) (hc2 : Changes W' H1 H2) :
    (F ∪ New H H1) ∪ New H1 H2 ⊆ F ∪ New H H2 := by
  rintro l ((h | h) | h)
  · exact .inl h
  · exact .inr (new_sub hc2 h)
  · exact .inr (new_sub' hc h)

variable [GoKey T] [PerGoKey T]

theorem twigCanonicalM_sim (G : Growth) (H : Mem T) (F : Set Loc) (a d d' : Nat) (s : Slice) (la l : List T)
    (hdd : l.length ≤ 2 ∨ d = d')
    (h : H.cells[a]? = some (.twig s)) (hF : .cell a ∈ F) (ha : H.arrays[s.arr]? = some la) (hFa : .arr s.arr ∈ F)
    (hl : s.len ≤ la.length) (hs : la.take s.len = l) :
    Sim ∅ H (twigCanonicalM G a s d) (twigCanonical l d)
      (fun p n H' => Own H' (F ∪ New H H') d' p n ∧ (p = some a ∨ NewPtr H H' p)) := by
  have hll : l.length = s.len := by rw [← hs]; simp; omega
  unfold twigCanonicalM twigCanonical
  refine Sim.read (a := l) (hs ▸ readSlice_eq ha hl) ?_
  match l, hs, hll, hdd with
  | [], _, _, _ => exact Sim.pure ⟨.nil _ _, .inr (fun _ h => nomatch h)⟩
  | [x], _, _, _ =>
    refine Sim.step rfl (changes_alloc _ _ _) (Sim.pure ⟨.leaf1 cells_new (.inr new_cell), .inr ?_⟩)
    rintro b h; cases h; exact new_cell
  | [x, y], _, _, _ =>
    refine Sim.step rfl (changes_alloc _ _ _) (Sim.pure ⟨.leaf2 cells_new (.inr new_cell), .inr ?_⟩)
    rintro b h; cases h; exact new_cell
  | x :: y :: z :: l, hs, hll, hdd =>
    obtain rfl : d = d' := hdd.resolve_left (by simp)
    dsimp only
    by_cases hc : (x :: y :: z :: l).length ≤ maxLeafLen ∨ d * fanoutBits ≥ 64
    · rw [if_pos hc, if_pos hc]
      have hd : maxTreeDepth ≤ d := by
        rcases hc with hc | hc
        · simp [maxLeafLen] at hc
        · have : maxTreeDepth = 22 := rfl
          simp only [fanoutBits] at hc; omega
      refine Sim.pure ⟨.twig hd h (.inl hF) ha (.inl hFa) ?_ hl hs, .inl rfl⟩
      rw [← hll]; simp
    · rw [if_neg hc, if_neg hc]
      refine (newBranchFromM_sim G d _ (fun _ => by simp) H).mono ?_
      rintro p n H' _ ⟨ho, _⟩
      exact ⟨ho.mono Set.subset_union_right, .inr ho.rep.newPtr⟩

/-- A real twig is its own canonical form. -/
theorem twigCanonicalM_keep (G : Growth) {H : Mem T} {a d : Nat} {s : Slice} {la l : List T} (ha : H.arrays[s.arr]? = some la)
    (hl : s.len ≤ la.length) (hs : la.take s.len = l) (hd : maxTreeDepth ≤ d) (h3 : 3 ≤ l.length) : twigCanonicalM G a s d H = (.ok (some a), H) := by
  unfold twigCanonicalM
  rw [run_bind (hs ▸ readSlice_eq ha hl)]
  match l, h3 with
  | x :: y :: z :: l, _ =>
    dsimp only
    rw [if_pos (.inr (by have : maxTreeDepth = 22 := rfl; simp only [fanoutBits]; omega))]
    rfl

theorem branchCanonicalM_sim (G : Growth) (H : Mem T) (F : Set Loc) (b d : Nat) (q : Packer T) (h : Rep H F d (some b) q.toNode) :
    Sim ∅ H (branchCanonicalM G b) (branchCanonical q)
      (fun p n H' => Rep H' (F ∪ New H H') d p n ∧ (p = some b ∨ NewPtr H H' p)) := by
  unfold branchCanonicalM branchCanonical
  have ha := appendToM_eq maxLeafLen h memFuel [] (fuelOk_mem d)
  have hsp := appendTo_spec maxLeafLen q.toNode [] rfl (by simp)
  rw [hsp]
  rw [hsp] at ha
  by_cases hle : ([] : List T).length + (elems q.toNode).length ≤ maxLeafLen
  · rw [if_pos hle] at ha ⊢
    refine Sim.read (a := some ([] ++ elems q.toNode)) (by rw [appendToP_run, ha]) ?_
    have hlen : (elems q.toNode).length ≤ 2 := by simpa [maxLeafLen] using hle
    rw [List.nil_append]
    generalize elems q.toNode = l at *
    refine Sim.step (H1 := ⟨H.cells, H.arrays ++ [l], H.log⟩) rfl (changes_allocArr _ _ _) ?_
    refine Sim.step (H1 := ⟨H.cells ++ [.twig ⟨H.arrays.length, l.length, maxLeafLen⟩], H.arrays ++ [l], H.log⟩) rfl
      (changes_alloc _ _ _) ?_
    show Sim _ _ (twigCanonicalM G _ _ _) (twigCanonical l 0) _
    let H2 : Mem T := ⟨H.cells ++ [.twig ⟨H.arrays.length, l.length, maxLeafLen⟩], H.arrays ++ [l], H.log⟩
    have hc2 : Changes ∅ H H2 := (changes_allocArr ∅ H l).trans (changes_alloc _ _ _)
    have hs := twigCanonicalM_sim G H2 (New H H2) H.cells.length 0 d ⟨H.arrays.length, l.length, maxLeafLen⟩ l l (.inl hlen)
      cells_new ⟨Nat.le_refl _, by rw [mem_fresh_cell]; simp [H2]⟩ arrays_new
      ⟨Nat.le_refl _, by rw [mem_fresh_arr]; simp [H2]⟩ (Nat.le_refl _) (List.take_length ..)
    refine hs.weaken (fun l h => h.elim) ?_
    rintro p n H' hc' ⟨ho, _⟩
    have hsub : New H H2 ∪ New H2 H' ⊆ New H H' := by
      rintro l (h | h)
      · exact new_sub hc' h
      · exact new_sub' hc2 h
    have hr := ho.rep.mono hsub
    exact ⟨hr.mono Set.subset_union_right, .inr hr.newPtr⟩
  · rw [if_neg hle] at ha ⊢
    refine Sim.read (a := none) (by rw [appendToP_run, ha]) ?_
    exact Sim.pure ⟨h.mono Set.subset_union_left, .inl rfl⟩

/-- `With` does not append to a twig: along the path of the hash there is no twig that lacks an equal element. -/
def NoAppend (eq : T → T → Bool) : Node T → T → Hasher → Prop
  | .twig l, v, _ => ∃ x ∈ l, eq x v = true
  | .branch _ k, v, h => NoAppend eq (k h.idx) v h.next
  | _, _, _ => True

/-- A branch cell made of represented children. -/
theorem Rep.newBranch {H : Mem T} {F : Set Loc} {d : Nat} {m : Masker} {k : Fin 8 → Ptr} {kn : Fin 8 → Node T} (hd : d < maxTreeDepth)
    (hk : ∀ i, Rep H F (d + 1) (k i) (kn i)) :
    Rep ⟨H.cells ++ [.branch m k], H.arrays, H.log⟩ (F ∪ New H ⟨H.cells ++ [.branch m k], H.arrays, H.log⟩) d (some H.cells.length)
      (.branch m kn) :=
  .branch hd cells_new (.inr new_cell) (fun i => ((hk i).next (changes_alloc ∅ H _)).mono Set.subset_union_left)

theorem withM_sim (G : Growth) (args : CombineArgs T) (fuel : Nat) : ∀ (H : Mem T) (F W : Set Loc) (d : Nat) (p : Ptr) (n : Node T)
    (v : T) (h : Hasher), Rep H F d p n → Live H F → FuelOk d fuel → (∀ a, Loc.cell a ∉ W) →
    (NoAppend args.eq n v h ∨ arrs F ⊆ W) →
    Sim W H (withM G args fuel p v d h) (withArgs args n v d h)
      (fun r s H' => r.2 = s.2 ∧ (∃ b, r.1 = some b ∧ Loc.cell b ∈ New H H') ∧ (W = ∅ → Rep H' (F ∪ New H H') d r.1 s.1) ∧
        ∃ n', Rep H' (F ∪ New H H') d r.1 n') := by
  induction fuel with
  | zero => intro H F W d p n v h _ _ hf; exact absurd hf.2 (Nat.lt_irrefl 0)
  | succ fuel ih =>
    intro H F W d p n v h hr hl hf hW hna
    have fin : ∀ {H' : Mem T} {r : Ptr × Int} {s : Node T × Int}, r.2 = s.2 → (∃ b, r.1 = some b ∧ Loc.cell b ∈ New H H') →
        Rep H' (F ∪ New H H') d r.1 s.1 → r.2 = s.2 ∧ (∃ b, r.1 = some b ∧ Loc.cell b ∈ New H H') ∧
        (W = ∅ → Rep H' (F ∪ New H H') d r.1 s.1) ∧ ∃ n', Rep H' (F ∪ New H H') d r.1 n' :=
      fun h1 h2 h3 => ⟨h1, h2, fun _ => h3, _, h3⟩
    cases hr with
    | nil _ => exact Sim.raise
    | @leaf1 _ a x hx hF =>
      simp only [withM, withArgs]
      refine Sim.read (readCell_eq hx) ?_
      dsimp only
      by_cases he : args.eq x v = true
      · rw [if_pos he, if_pos he]
        exact Sim.step rfl (changes_alloc _ _ _) (Sim.pure (fin rfl ⟨_, rfl, new_cell⟩ (.leaf1 cells_new (.inr new_cell))))
      · rw [if_neg he, if_neg he]
        exact Sim.step rfl (changes_alloc _ _ _) (Sim.pure (fin rfl ⟨_, rfl, new_cell⟩ (.leaf2 cells_new (.inr new_cell))))
    | @leaf2 _ a x y hx hF =>
      simp only [withM, withArgs]
      refine Sim.read (readCell_eq hx) ?_
      dsimp only
      by_cases he : args.eq x v = true
      · rw [if_pos he, if_pos he]
        exact Sim.step rfl (changes_alloc _ _ _) (Sim.pure (fin rfl ⟨_, rfl, new_cell⟩ (.leaf2 cells_new (.inr new_cell))))
      · rw [if_neg he, if_neg he]
        by_cases he2 : args.eq y v = true
        · rw [if_pos he2, if_pos he2]
          exact Sim.step rfl (changes_alloc _ _ _) (Sim.pure (fin rfl ⟨_, rfl, new_cell⟩ (.leaf2 cells_new (.inr new_cell))))
        · rw [if_neg he2, if_neg he2]
          refine Sim.bind ((newBranchFromM_sim G d [x, y, v] (fun _ => Nat.le_refl 3) H).weaken (fun l h => h.elim)
            (fun _ _ _ _ h => h)) ?_
          rintro p n H1 hc ⟨ho, hs⟩
          obtain ⟨b, rfl⟩ := Option.isSome_iff_exists.1 hs
          exact Sim.pure (fin rfl ⟨b, rfl, ho.rep.root_mem⟩ (ho.rep.mono Set.subset_union_right))
    | @twig _ a s la l hd hx hF ha hFa h3 hla hs =>
      simp only [withM, withArgs]
      refine Sim.read (readCell_eq hx) ?_
      dsimp only
      refine Sim.read (a := l) (hs ▸ readSlice_eq ha hla) ?_
      have hll : l.length = s.len := by rw [← hs]; simp; omega
      cases hfi : l.findIdx? (fun e => args.eq e v) with
      | some i =>
        have hi : i < l.length := (List.findIdx?_eq_some_iff_getElem.1 hfi).1
        dsimp only
        refine Sim.step (a := ⟨H.arrays.length, l.length, l.length⟩) (H1 := ⟨H.cells, H.arrays ++ [l], H.log⟩) ?_
          (changes_allocArr _ _ _) ?_
        · unfold cloneTwigM
          rw [run_bind (hs ▸ readSlice_eq ha hla)]
          rfl
        · have hg : l[i]? = some l[i] := List.getElem?_eq_getElem hi
          rw [hg]
          let H1 : Mem T := ⟨H.cells, H.arrays ++ [l], H.log⟩
          let H2 : Mem T := ⟨H.cells, (H.arrays ++ [l]).modify H.arrays.length
            (fun l' => l'.take i ++ args.f l[i] v :: l'.drop (i + 1)), .arr H.arrays.length :: H.log⟩
          have hm2 : H2.arrays[H.arrays.length]? = some (l.modify i fun e => args.f e v) := by
            show ((H.arrays ++ [l]).modify _ _)[_]? = _
            rw [List.getElem?_modify, arrays_new]
            simp only [if_true, Option.map_eq_map, Option.map_some]
            rw [write_take _ _ _ hi]
            congr 1
            apply List.ext_getElem?
            intro j
            rw [List.getElem?_set, List.getElem?_modify]
            by_cases hij : i = j
            · subst hij; simp [hi]
            · simp [hij]
          refine Sim.step (a := ()) (H1 := H2) rfl (changes_writeArr H1 _ _ _ (.inr (Nat.le_refl _))) ?_
          refine Sim.step (H1 := ⟨H2.cells ++ [.twig ⟨H.arrays.length, l.length, l.length⟩], H2.arrays, H2.log⟩) rfl
            (changes_alloc _ _ _) (Sim.pure (fin rfl ⟨_, rfl, new_cell⟩ ?_))
          refine .twig (la := l.modify i fun e => args.f e v) hd cells_new (.inr new_cell) hm2 (.inr ⟨Nat.le_refl _, ?_⟩)
            (by dsimp only; omega) (by simp) (by dsimp only; rw [List.take_of_length_le]; simp)
          rw [mem_fresh_arr]; simp [H2]
      | none =>
        have hWs : arrs F ⊆ W := by
          refine hna.resolve_left ?_
          rintro ⟨x, hx', he⟩
          have := List.findIdx?_eq_none_iff.1 hfi x hx'
          simp [he] at this
        dsimp only
        obtain ⟨s', H1, la', h1, h2, h4, h5, h6, h7, h8, h9⟩ := goAppend_spec G H s v la W ha hla (fun _ => hWs ⟨hFa, _, rfl⟩)
        refine Sim.step h1 h2 ?_
        let H2 : Mem T := ⟨H1.cells ++ [.twig s'], H1.arrays, H1.log⟩
        refine Sim.step (H1 := H2) rfl (changes_alloc _ _ _) ?_
        have hc12 : Changes ∅ H1 H2 := changes_alloc _ _ _
        have hl3 : 3 ≤ (l ++ [v]).length := by simp; omega
        refine Sim.step (twigCanonicalM_keep G (H := H2) (l := l ++ [v]) h4 h6 (by rw [h7, hs]) hd hl3) (Changes.refl _ _) ?_
        rw [twigCanonical_twig hd hl3]
        refine Sim.pure (fin rfl ⟨_, rfl, ?_⟩ ?_)
        · exact ⟨by rw [mem_fresh_cell, h9], by rw [mem_fresh_cell]; simp [H2]⟩
        · refine .twig (s := s') (la := la') hd cells_new (.inr ?_) h4 ?_ (by omega) h6 (by rw [h7, hs])
          · exact ⟨by rw [mem_fresh_cell, h9], by rw [mem_fresh_cell]; simp [H2]⟩
          · rcases h8 with h8 | h8
            · rw [h8.1]; exact .inl hFa
            · exact .inr (new_sub hc12 h8)
    | @branch _ a m k kn hd hx hF hk =>
      simp only [withM, withArgs]
      refine Sim.read (readCell_eq hx) ?_
      dsimp only
      rw [(hk h.idx).isNone]
      have hkid : ∀ (H1 : Mem T) (b : Nat) (n' : Node T) (kn1 : Fin 8 → Node T), Changes W H H1 →
          (∀ i, Rep H1 F (d + 1) (k i) (kn1 i)) → Rep H1 (F ∪ New H H1) (d + 1) (some b) n' →
          Rep ⟨H1.cells ++ [.branch (m ||| newMasker h.idx) (setSlot k h.idx (some b))], H1.arrays, H1.log⟩
            (F ∪ New H ⟨H1.cells ++ [.branch (m ||| newMasker h.idx) (setSlot k h.idx (some b))], H1.arrays, H1.log⟩) d
            (some H1.cells.length) (.branch (m ||| newMasker h.idx) (setSlot kn1 h.idx n')) := by
        intro H1 b n' kn1 hc1 hk1 hr1
        refine (Rep.newBranch (F := F ∪ New H H1) (kn := setSlot kn1 h.idx n') hd ?_).mono (sub_new2 hc1 (changes_alloc ∅ _ _))
        intro i
        by_cases hi : i = h.idx
        · subst hi; rw [setSlot_same, setSlot_same]; exact hr1
        · rw [setSlot_ne _ _ hi, setSlot_ne _ _ hi]; exact (hk1 i).mono Set.subset_union_left
      cases hn : (kn h.idx).isNil with
      | true =>
        simp only [if_true]
        have hc1 : Changes ∅ H ⟨H.cells ++ [.leaf1 v], H.arrays, H.log⟩ := changes_alloc _ _ _
        refine Sim.step (H1 := ⟨H.cells ++ [.leaf1 v], H.arrays, H.log⟩) rfl (changes_alloc _ _ _) ?_
        refine Sim.step rfl (changes_alloc _ _ _) (Sim.pure (fin rfl ⟨_, rfl, ?_⟩ ?_))
        · exact new_sub' hc1 new_cell
        · exact hkid _ _ _ kn (hc1.weaken (fun _ h => h.elim)) (fun i => (hk i).next hc1) (.leaf1 cells_new (.inr new_cell))
      | false =>
        simp only [Bool.false_eq_true, if_false]
        refine Sim.bind (ih H F W (d + 1) (k h.idx) (kn h.idx) v h.next (hk _) hl (hf.succ hd) hW hna) ?_
        rintro ⟨_, ms⟩ ⟨n', ms'⟩ H1 hc ⟨hms, ⟨b, rfl, hb⟩, hrep, hex⟩
        obtain rfl : ms = ms' := hms
        dsimp only
        have hne : (some b : Ptr) ≠ k h.idx := by
          intro he
          have := hk h.idx
          rw [← he] at this
          exact hl _ this.root_mem hb.1
        rw [if_pos hne]
        refine Sim.step rfl (changes_alloc _ _ _) (Sim.pure ⟨rfl, ⟨_, rfl, new_sub' hc new_cell⟩, ?_, ?_⟩)
        · intro hW0
          subst hW0
          have hrep := hrep rfl
          have := hkid H1 b n' kn hc (fun i => (hk i).next hc) hrep
          have hnil : n'.isNil = false := by have := hrep.isNone; simpa using this
          simp only [Packer.withChild, Packer.setChild, Packer.toNode, hnil, Bool.false_eq_true, if_false]
          exact this
        · obtain ⟨n2, hn2⟩ := hex
          have hsh : ∀ i, ∃ n', Rep H1 F (d + 1) (k i) n' := fun i => (hk i).shape hc (fun a _ hw => absurd hw (hW a))
          exact ⟨_, hkid H1 b n2 _ hc (fun i => (hsh i).choose_spec) hn2⟩

/-! ## Without -/

theorem swapRemove_eq {l : List T} {i : Nat} (hi : i < l.length) : swapRemove l i =
    if i ≠ l.length - 1 then (l.take (l.length - 1)).set i (l[l.length - 1]'(by omega)) else l.take (l.length - 1) := by
  unfold swapRemove
  have : l[l.length - 1]? = some (l[l.length - 1]'(by omega)) := List.getElem?_eq_getElem (by omega)
  simp only [this]
  by_cases h : i < l.length - 1
  · rw [if_pos h, if_pos (by omega), List.take_set]
  · rw [if_neg h, if_neg (by omega)]

theorem withoutM_sim (G : Growth) (fuel : Nat) : ∀ (H : Mem T) (F : Set Loc) (d : Nat) (p : Ptr) (n : Node T)
    (v : T) (h : Hasher), Rep H F d p n → Live H F → FuelOk d fuel →
    Sim ∅ H (withoutM G fuel p v d h) (without n v d h)
      (fun r s H' => r.2 = s.2.1 ∧ Rep H' (F ∪ New H H') d r.1 s.1 ∧
        (if s.2.2 then r.1 = p else NewPtr H H' r.1)) := by
  induction fuel with
  | zero => intro H F d p n v h _ _ hf; exact absurd hf.2 (Nat.lt_irrefl 0)
  | succ fuel ih =>
    intro H F d p n v h hr hl hf
    have hself := hr
    cases hr with
    | nil _ => exact Sim.raise
    | @leaf1 _ a x hx hF =>
      simp only [withoutM, without]
      refine Sim.read (readCell_eq hx) ?_
      dsimp only
      by_cases he : GoKey.eq x v = true
      · rw [if_pos he, if_pos he]
        exact Sim.pure ⟨rfl, .nil _, fun _ h => (nomatch h)⟩
      · rw [if_neg he, if_neg he]
        exact Sim.pure ⟨rfl, hself.mono Set.subset_union_left, rfl⟩
    | @leaf2 _ a x y hx hF =>
      simp only [withoutM, without]
      refine Sim.read (readCell_eq hx) ?_
      dsimp only
      by_cases he : GoKey.eq x v = true
      · rw [if_pos he, if_pos he]
        refine Sim.step rfl (changes_alloc _ _ _) (Sim.pure ⟨rfl, .leaf1 cells_new (.inr new_cell), ?_⟩)
        rintro b h; cases h; exact new_cell
      · rw [if_neg he, if_neg he]
        by_cases he2 : GoKey.eq y v = true
        · rw [if_pos he2, if_pos he2]
          refine Sim.step rfl (changes_alloc _ _ _) (Sim.pure ⟨rfl, .leaf1 cells_new (.inr new_cell), ?_⟩)
          rintro b h; cases h; exact new_cell
        · rw [if_neg he2, if_neg he2]
          exact Sim.pure ⟨rfl, hself.mono Set.subset_union_left, rfl⟩
    | @twig _ a s la l hd hx hF ha hFa h3 hla hs =>
      simp only [withoutM, without]
      refine Sim.read (readCell_eq hx) ?_
      dsimp only
      refine Sim.read (a := l) (hs ▸ readSlice_eq ha hla) ?_
      have hll : l.length = s.len := by rw [← hs]; simp; omega
      cases hfi : l.findIdx? (fun e => GoKey.eq e v) with
      | none =>
        dsimp only
        exact Sim.pure ⟨rfl, hself.mono Set.subset_union_left, rfl⟩
      | some i =>
        have hi : i < l.length := (List.findIdx?_eq_some_iff_getElem.1 hfi).1
        dsimp only
        have hcut : la.take (s.len - 1) = l.take (l.length - 1) := by
          rw [← hs, List.take_take, hs, hll]; congr 1; omega
        have hclen : (l.take (l.length - 1)).length = l.length - 1 := by simp
        refine Sim.step (a := ⟨H.arrays.length, l.length - 1, l.length - 1⟩)
          (H1 := ⟨H.cells, H.arrays ++ [l.take (l.length - 1)], H.log⟩) ?_ (changes_allocArr _ _ _) ?_
        · unfold cloneTwigM
          rw [run_bind (readSlice_eq (s := ⟨s.arr, s.len - 1, s.cap⟩) ha (by dsimp only; omega)), hcut]
          show (_, _) = _
          rw [hclen]
        · -- the state after the last element was moved
          have key : ∀ (x : MM T Unit) (H2 : Mem T), x ⟨H.cells, H.arrays ++ [l.take (l.length - 1)], H.log⟩ = (.ok (), H2) →
              Changes (∅ ∪ Fresh H) (⟨H.cells, H.arrays ++ [l.take (l.length - 1)], H.log⟩ : Mem T) H2 → H2.cells = H.cells →
              H2.arrays[H.arrays.length]? = some (swapRemove l i) →
              Sim (∅ ∪ Fresh H) (⟨H.cells, H.arrays ++ [l.take (l.length - 1)], H.log⟩ : Mem T) (do
                x
                let b ← alloc (.twig ⟨H.arrays.length, l.length - 1, l.length - 1⟩)
                let p ← twigCanonicalM G b ⟨H.arrays.length, l.length - 1, l.length - 1⟩ d
                pure (p, 1))
                (do let n ← twigCanonical (swapRemove l i) d; pure (n, (1 : Int), false))
                (fun r s H' => r.2 = s.2.1 ∧ Rep H' (F ∪ New H H') d r.1 s.1 ∧ (if s.2.2 then r.1 = some a else NewPtr H H' r.1)) := by
            intro x H2 hx hc2 hcl har
            have hc02 : Changes ∅ H H2 := (changes_allocArr ∅ H _).trans hc2
            refine Sim.step hx hc2 ?_
            let H3 : Mem T := ⟨H2.cells ++ [.twig ⟨H.arrays.length, l.length - 1, l.length - 1⟩], H2.arrays, H2.log⟩
            have hc23 : Changes ∅ H2 H3 := changes_alloc _ _ _
            refine Sim.step (H1 := H3) rfl (changes_alloc _ _ _) ?_
            have hc03 : Changes ∅ H H3 := hc02.trans (changes_alloc _ _ _)
            have hslen : (swapRemove l i).length = l.length - 1 := by
              rw [swapRemove_eq hi]; split <;> simp
            have hnc : Loc.cell H2.cells.length ∈ New H H3 := new_sub' hc02 new_cell
            have hna : Loc.arr H.arrays.length ∈ New H H3 :=
              ⟨Nat.le_refl _, by rw [mem_fresh_arr]; have := getElem?_lt har; simp only [H3]; omega⟩
            refine Sim.bind ((twigCanonicalM_sim G H3 (New H H3) H2.cells.length d d ⟨H.arrays.length, l.length - 1, l.length - 1⟩
              (swapRemove l i) (swapRemove l i) (.inr rfl) cells_new hnc har hna (by dsimp only; omega)
              (by dsimp only; rw [List.take_of_length_le]; omega)).weaken (fun _ h => h.elim) (fun _ _ _ _ h => h)) ?_
            rintro p n H4 hc4 ⟨ho, _⟩
            have hr : Rep H4 (New H H4) d p n := ho.rep.mono (by
              rintro l (h | h)
              · exact new_sub hc4 h
              · exact new_sub' hc03 h)
            exact Sim.pure ⟨rfl, hr.mono Set.subset_union_right, hr.newPtr⟩
          by_cases hie : i ≠ l.length - 1
          · have hg : l[l.length - 1]? = some (l[l.length - 1]'(by omega)) := List.getElem?_eq_getElem (by omega)
            simp only [if_pos hie, hg]
            refine key _ _ rfl (changes_writeArr _ _ _ _ (.inr (Nat.le_refl _))) rfl ?_
            show ((H.arrays ++ [_]).modify _ _)[_]? = _
            rw [List.getElem?_modify, arrays_new]
            simp only [if_true, Option.map_eq_map, Option.map_some]
            rw [write_take _ _ _ (by omega), swapRemove_eq hi, if_pos hie]
          · simp only [if_neg hie]
            refine key (pure ()) _ rfl (Changes.refl _ _) rfl ?_
            rw [swapRemove_eq hi, if_neg hie]; exact arrays_new
    | @branch _ a m k kn hd hx hF hk =>
      simp only [withoutM, without]
      refine Sim.read (readCell_eq hx) ?_
      dsimp only
      rw [(hk h.idx).isNone]
      cases hn : (kn h.idx).isNil with
      | true =>
        simp only [if_true]
        exact Sim.pure ⟨rfl, hself.mono Set.subset_union_left, rfl⟩
      | false =>
        simp only [Bool.false_eq_true, if_false]
        refine Sim.bind (ih H F (d + 1) (k h.idx) (kn h.idx) v h.next (hk _) hl (hf.succ hd)) ?_
        rintro ⟨p', ms⟩ ⟨n', ms', same⟩ H1 hc ⟨hms, hrep, hp⟩
        obtain rfl : ms = ms' := hms
        cases same with
        | true =>
          obtain rfl : p' = k h.idx := hp
          dsimp only
          rw [if_neg (by simp)]
          exact Sim.pure ⟨rfl, (hself.next hc).mono Set.subset_union_left, rfl⟩
        | false =>
          have hne : p' ≠ k h.idx := by
            intro he
            obtain ⟨c, hc'⟩ : ∃ c, k h.idx = some c := by
              have := (hk h.idx).isNone
              rw [hn] at this
              exact Option.isSome_iff_exists.1 (by simpa using this)
            have h1 := hk h.idx
            rw [hc'] at h1
            exact hl _ h1.root_mem (hp c (he.trans hc')).1
          dsimp only at hrep ⊢
          rw [if_pos hne]
          let m' := if p'.isNone then (m ||| newMasker h.idx) &&& ~~~ newMasker h.idx else (m ||| newMasker h.idx) ||| newMasker h.idx
          let H2 : Mem T := ⟨H1.cells ++ [.branch m' (setSlot k h.idx p')], H1.arrays, H1.log⟩
          refine Sim.step (H1 := H2) (a := H1.cells.length) rfl (changes_alloc _ _ _) ?_
          have hc12 : Changes ∅ H1 H2 := changes_alloc _ _ _
          have hc02 : Changes ∅ H H2 := hc.trans (changes_alloc _ _ _)
          have hq : Rep H2 (F ∪ New H H2) d (some H1.cells.length)
              ((Packer.updateMaskBit ⟨m, kn⟩ (newMasker h.idx)).withChild h.idx n').toNode := by
            have : Rep H2 _ d (some H1.cells.length) (.branch m' (setSlot kn h.idx n')) :=
              Rep.newBranch (F := F ∪ New H H1) (kn := setSlot kn h.idx n') hd (by
                intro i
                by_cases hi : i = h.idx
                · subst hi; rw [setSlot_same, setSlot_same]; exact hrep
                · rw [setSlot_ne _ _ hi, setSlot_ne _ _ hi]; exact ((hk i).next hc).mono Set.subset_union_left)
            have := this.mono (sub_new2 (F := F) hc hc12)
            have hni := hrep.isNone
            simpa only [Packer.updateMaskBit, Packer.withChild, Packer.setChild, Packer.toNode, ← hni] using this
          simp only [Bool.not_false, if_true]
          refine Sim.bind ((branchCanonicalM_sim G H2 (F ∪ New H H2) _ d _ hq).weaken (fun _ h => h.elim) (fun _ _ _ _ h => h)) ?_
          rintro p3 n3 H3 hc3 ⟨hr3, hp3⟩
          refine Sim.pure ⟨rfl, hr3.mono (sub_new2 hc02 hc3), ?_⟩
          rcases hp3 with rfl | hp3
          · rintro c h; cases h
            exact new_sub hc3 (new_sub' hc new_cell)
          · exact fun c h => new_sub' hc02 (hp3 c h)

end Frozen
