import Verif.Proof.MemFilter

/-! `Difference`, `Intersection` and `Where` in memory. -/

set_option linter.unusedSectionVars false

namespace Frozen

variable {T : Type} [GoKey T] [PerGoKey T]

theorem readPtr_nil (H : Mem T) : readPtr none H = (.ok none, H) := rfl

theorem readPtr_some {H : Mem T} {b : Nat} {c : Cell T} (h : H.cells[b]? = some c) : readPtr (some b) H = (.ok (some c), H) := by
  show (readCell b >>= fun c => pure (some c)) H = _
  rw [run_bind (readCell_eq h)]
  rfl

/-- Run a child and put the result into the branch that is being filled. -/
theorem Filled.put {H1 H2 H3 : Mem T} {W F : Set Loc} {d ret : Nat} {q : Packer T} {km : Fin 8 → Ptr} {p : Ptr} {n : Node T}
    (h : Filled H1 H2 F d ret q km) (hc12 : Changes W H1 H2) (hc : Changes ∅ H2 H3)
    (hr : Rep H3 (F ∪ New H1 H2 ∪ New H2 H3) (d + 1) p n) (hretF : Loc.cell ret ∉ F) (hret1 : Loc.cell ret ∉ Fresh H1)
    (m : Masker) (i : Fin 8) :
    H3.cells[ret]? = some (.branch q.mask km) ∧
    Changes {Loc.cell ret} H3 ⟨H3.cells.set ret (.branch m (setSlot km i p)), H3.arrays, .cell ret :: H3.log⟩ ∧
    Filled H1 ⟨H3.cells.set ret (.branch m (setSlot km i p)), H3.arrays, .cell ret :: H3.log⟩ F d ret ⟨m, setSlot q.data i n⟩ (setSlot km i p) :=
  ⟨(h.next hc).1, changes_writeCell _ _ _ rfl, (h.next hc).write hretF hret1 m i p n (hr.mono (sub_new2 hc12 hc))⟩

/-- The scheme of the operations that fill a new branch: allocate it, handle the slots of `mask`, compute the mask. -/
theorem Sim.fill {σ α β : Type} {H : Mem T} {F : Set Loc} {d : Nat} {mask : Masker}
    {f : Nat → Fin 8 → MM T (Bool × Int)} {g : Fin 8 → σ → Go (σ × Bool × Int)} {t0 : σ} {P : σ → Packer T}
    {J : σ → (Fin 8 → Ptr) → Prop} {fin : Nat → Bool × Int → MM T α} {vfin : σ × Bool × Int → Go β} {R : α → β → Mem T → Prop}
    (hl : Live H F) (h0 : P t0 = Packer.zero) (hJ0 : J t0 (fun _ => none))
    (body : ∀ (H1 : Mem T) (ret : Nat) (i : Fin 8) (t : σ) (H2 : Mem T) (km : Fin 8 → Ptr), Changes ∅ H H1 → Loc.cell ret ∉ F →
      Loc.cell ret ∉ Fresh H1 → Changes {Loc.cell ret} H1 H2 → Changes ∅ H H2 → Live H2 (F ∪ New H1 H2) →
      Filled H1 H2 F d ret (P t) km → J t km →
      Sim ({Loc.cell ret} ∪ Fresh H1) H2 (f ret i) (g i t)
        (fun r t' H' => r = t'.2 ∧ ∃ km, Filled H1 H' F d ret (P t'.1) km ∧ J t'.1 km))
    (last : ∀ (H1 : Mem T) (ret : Nat) (t : σ) (ok : Bool) (ms : Int) (H2 : Mem T) (km : Fin 8 → Ptr), Changes ∅ H H1 →
      Loc.cell ret ∈ New H H2 → Changes ∅ H H2 → Filled H1 H2 F d ret (P t).updateMask km → J t km →
      Sim (∅ ∪ Fresh H) H2 (fin ret (ok, ms)) (vfin (t, ok, ms)) R) :
    Sim ∅ H (alloc (.branch 0#16 (fun _ => none)) >>= fun ret => parallelM mask (f ret) >>= fun x =>
      updateMaskM ret >>= fun _ => fin ret x) (parallel mask t0 g >>= vfin) R := by
  let H1 : Mem T := ⟨H.cells ++ [.branch 0#16 (fun _ => none)], H.arrays, H.log⟩
  have hc01 : Changes ∅ H H1 := changes_alloc _ _ _
  refine Sim.step (H1 := H1) (a := H.cells.length) rfl (changes_alloc _ _ _) ?_
  have hretF : Loc.cell H.cells.length ∉ F := fun h => hl _ h (Nat.le_refl _)
  have hret0 : Loc.cell H.cells.length ∈ Fresh H := Nat.le_refl _
  have hret1 : Loc.cell H.cells.length ∉ Fresh H1 := by rw [mem_fresh_cell]; simp [H1]
  have hfr : ∀ l, l ∈ ({Loc.cell H.cells.length} : Set Loc) ∪ Fresh H1 → l ∈ Fresh H := by
    rintro l (rfl | h)
    · exact hret0
    · exact hc01.mono _ h
  have hloop := parallelLoopM_sim {Loc.cell H.cells.length} H1 (f H.cells.length) g
    (fun t H' => Changes {Loc.cell H.cells.length} H1 H' ∧ ∃ km, Filled H1 H' F d H.cells.length (P t) km ∧ J t km) (by
      rintro i t H2 hc2 ⟨_, km, hfl, hJ⟩
      have hc02 : Changes ∅ H H2 := hc01.trans (hc2.weaken (fun l h => .inl (.inr (hfr l (.inl h)))))
      refine (body H1 _ i t H2 km hc01 hretF hret1 hc2 hc02 ((hl.next hc02).union (live_new H1 H2)) hfl hJ).mono ?_
      rintro r t' H' hc ⟨hr, hk⟩
      exact ⟨hr, hc2.trans hc, hk⟩) (bitLoop mask) t0 0 H1 (Changes.refl _ _)
    ⟨Changes.refl _ _, _, by rw [h0]; exact filled_new, hJ0⟩
  refine Sim.bind (hloop.weaken (fun l h => .inl (.inr (hfr l h))) (fun _ _ _ _ h => h)) ?_
  rintro ⟨ok, ms⟩ ⟨t, ok', ms'⟩ H2 _ ⟨he, hc2, km, hfl, hJ⟩
  cases he
  obtain ⟨H3, e1, e2, e3⟩ := hfl.updateMask hretF hret1
  have hc02 : Changes ∅ H H2 := hc01.trans (hc2.weaken (fun l h => .inl (.inr (hfr l (.inl h)))))
  have hc03 : Changes ∅ H H3 := hc02.trans (e2.weaken (fun l h => .inl (.inr (hfr l (.inl h)))))
  refine Sim.step e1 (e2.weaken (fun l h => .inl (.inl (.inr (hfr l (.inl h)))))) ?_
  refine (last H1 H.cells.length t ok ms H3 km hc01 ⟨hret0, ?_⟩ hc03 e3 hJ).weaken (fun l h => .inl (.inl (.inl h)))
    (fun _ _ _ _ h => h)
  exact fun h => hret1 (hc2.mono _ (e2.mono _ h))

theorem MM.bind_pure {α : Type} (x : MM T α) : (x >>= fun r => pure r) = x := by
  show x.andThen _ = x
  induction x with
  | done r => cases r <;> rfl
  | readCell a k ih => exact congrArg (MM.readCell a) (funext ih)
  | readElem a i k ih => exact congrArg (MM.readElem a i) (funext ih)
  | alloc c k ih => exact congrArg (MM.alloc c) (funext ih)
  | allocArr l k ih => exact congrArg (MM.allocArr l) (funext ih)
  | writeCell a c k ih => exact congrArg (MM.writeCell a c) ih
  | writeElem a i v k ih => exact congrArg (MM.writeElem a i v) ih

/-- A lookup in another tree. -/
theorem Sim.get {α β : Type} {W : Set Loc} {H : Mem T} {F : Set Loc} {d' : Nat} {q : Ptr} {n : Node T} {x : T} {h : Hasher}
    {f : Option T → MM T α} {g : Option T → Go β} {R : α → β → Mem T → Prop} (hq : Rep H F d' q n)
    (hf : ∀ o, Sim W H (f o) (g o) R) :
    Sim W H (getP memFuel q x h >>= f) (get n x h >>= g) R := by
  have hg := getM_eq hq memFuel x h (fuelOk_mem d')
  cases hv : Frozen.get n x h with
  | error e =>
    refine Sim.error (run_error (H1 := H) ?_) (Changes.refl _ _)
    rw [getP_run, hg, hv]
  | ok o =>
    refine Sim.read (a := o) ?_ (hf o)
    rw [getP_run, hg, hv]

theorem keepGet_eq {H : Mem T} {F : Set Loc} {d : Nat} {q : Ptr} {n : Node T} (hq : Rep H F d q n) (e : T) (φ : Bool → Bool) :
    (do let g ← getP memFuel q e (newHasher e d); pure (φ g.isSome) : MM T Bool) H =
      (do let g ← get n e (newHasher e d); pure (φ g.isSome), H) := by
  rw [MM.run_andThen, getP_run, getM_eq hq memFuel e _ (fuelOk_mem d)]
  cases Frozen.get n e (newHasher e d) <;> rfl

theorem differenceM_sim (G : Growth) (fuel : Nat) : ∀ (H : Mem T) (F : Set Loc) (d : Nat) (p q : Ptr) (n n2 : Node T),
    Rep H F d p n → Rep H F d q n2 → Live H F → FuelOk d fuel →
    Sim ∅ H (differenceM G fuel p q d) (difference n n2 d) (fun r s H' => r.2 = s.2 ∧ Rep H' (F ∪ New H H') d r.1 s.1) := by
  induction fuel with
  | zero => intro H F d p q n n2 _ _ _ hf; exact absurd hf.2 (Nat.lt_irrefl 0)
  | succ fuel ih =>
    intro H F d p q n n2 hr hq hl hf
    have hself := hr
    cases hr with
    | nil _ => exact Sim.raise
    | @leaf1 _ a x hx hF =>
      simp only [differenceM, difference]
      refine Sim.read (readCell_eq hx) ?_
      dsimp only
      refine Sim.get hq ?_
      intro o
      by_cases ho : o.isSome = true
      · rw [if_pos ho, if_pos ho]
        exact Sim.pure ⟨rfl, .nil _⟩
      · rw [if_neg ho, if_neg ho]
        exact Sim.pure ⟨rfl, hself.mono Set.subset_union_left⟩
    | @leaf2 _ a x y hx hF =>
      simp only [differenceM, difference]
      refine Sim.read (readCell_eq hx) ?_
      dsimp only
      refine Sim.get hq ?_
      intro o
      refine Sim.get hq ?_
      intro o2
      by_cases h1 : (o.isSome && o2.isSome) = true
      · rw [if_pos h1, if_pos h1]
        exact Sim.pure ⟨rfl, .nil _⟩
      · rw [if_neg h1, if_neg h1]
        by_cases h2 : o.isSome = true
        · rw [if_pos h2, if_pos h2]
          exact Sim.step rfl (changes_alloc _ _ _) (Sim.pure ⟨rfl, .leaf1 cells_new (.inr new_cell)⟩)
        · rw [if_neg h2, if_neg h2]
          by_cases h3 : o2.isSome = true
          · rw [if_pos h3, if_pos h3]
            exact Sim.step rfl (changes_alloc _ _ _) (Sim.pure ⟨rfl, .leaf1 cells_new (.inr new_cell)⟩)
          · rw [if_neg h3, if_neg h3]
            exact Sim.pure ⟨rfl, hself.mono Set.subset_union_left⟩
    | @twig _ a s la l hd hx hF ha hFa h3 hla hs =>
      simp only [differenceM, difference, twigFilterGet_eq]
      refine Sim.read (readCell_eq hx) ?_
      dsimp only
      refine Sim.read (a := l) (hs ▸ readSlice_eq ha hla) ?_
      refine twigFilterCanon_sim G (fun e => do let g ← getP memFuel q e (newHasher e d); pure (!g.isSome))
        (fun e => do let g ← get n2 e (newHasher e d); pure (g.isSome == false)) H ?_ l d F
        (fun p s' => (p, (l.length : Int) - s'.len)) (fun r ret => (r, (l.length : Int) - ret.length)) _ ?_
      · intro H' hc _ e
        rw [keepGet_eq (hq.next hc) e (fun b => !b)]
        cases get n2 e (newHasher e d) with
        | error => rfl
        | ok o => cases o <;> rfl
      · intro p n s' l' H' hc hl' hrep
        exact ⟨by dsimp only; rw [hl'], hrep.mono Set.subset_union_right⟩
    | @branch _ a m k kn hd hx hF hk =>
      simp only [differenceM, difference]
      refine Sim.read (readCell_eq hx) ?_
      dsimp only
      cases hq with
      | nil _ => exact Sim.read (readPtr_nil H) Sim.raise
      | @twig _ b s2 la2 l2 hd2 hx2 hF2 => exact absurd hd2 (by omega)
      | @leaf1 _ b x hx2 hF2 =>
        refine Sim.read (readPtr_some hx2) ?_
        dsimp only
        show Sim _ _ _ (without (.branch m kn) x d (newHasher x d) >>= fun s => .ok (s.1, s.2.1)) _
        rw [← MM.bind_pure (withoutM G memFuel (some a) x d (newHasher x d))]
        refine Sim.bind (withoutM_sim G memFuel H F d (some a) _ x _ hself hl (fuelOk_mem d)) ?_
        rintro r s H1 hc ⟨h1, h2, _⟩
        exact Sim.pure ⟨h1, h2⟩
      | @leaf2 _ b x y hx2 hF2 =>
        refine Sim.read (readPtr_some hx2) ?_
        dsimp only
        refine Sim.bind (withoutM_sim G memFuel H F d (some a) _ x _ hself hl (fuelOk_mem d)) ?_
        rintro ⟨p1, m1⟩ ⟨n1, m1', sm1⟩ H1 hc ⟨h1, h2, _⟩
        obtain rfl : m1 = m1' := h1
        refine Sim.bind ((withoutM_sim G memFuel H1 _ d p1 _ y _ h2 ((hl.next hc).union (live_new H H1)) (fuelOk_mem d)).weaken
          (fun _ h => h.elim) (fun _ _ _ _ h => h)) ?_
        rintro ⟨p2, m2⟩ ⟨n2, m2', sm2⟩ H2 hc2 ⟨h3, h4, _⟩
        obtain rfl : m2 = m2' := h3
        exact Sim.pure ⟨rfl, h4.mono (sub_new2 hc hc2)⟩
      | @branch _ b m2 k2 kn2 hd2 hx2 hF2 hk2 =>
        refine Sim.read (readPtr_some hx2) ?_
        dsimp only
        refine Sim.fill (P := id) (J := fun _ _ => True) (d := d) hl rfl trivial ?_ ?_
        · intro H1 ret i t H2 km hc1 hretF hret1 hc12 hc2 hlive hfl _
          dsimp only [id] at hfl
          rw [(hk2 i).isNone]
          have hfr : ∀ {p n}, Rep H F (d + 1) p n → Rep H2 (F ∪ New H1 H2) (d + 1) p n := fun h =>
            (h.next hc2).mono Set.subset_union_left
          by_cases hn : (kn2 i).isNil = true
          · rw [if_pos hn, if_pos hn]
            obtain ⟨e1, e2, e3⟩ := hfl.put hc12 (Changes.refl _ _) ((hfr (hk i)).mono Set.subset_union_left) hretF hret1 t.mask i
            exact Sim.step (setDataM_eq e1) (e2.weaken (fun _ h => .inl (.inl h))) (Sim.pure ⟨rfl, _, e3, trivial⟩)
          · rw [if_neg hn, if_neg hn]
            refine Sim.bind ((ih H2 _ (d + 1) (k i) (k2 i) (kn i) (kn2 i) (hfr (hk i)) (hfr (hk2 i)) hlive
              (hf.succ hd)).weaken (W' := {Loc.cell ret} ∪ Fresh H1)
              (R' := fun r s H' => r.2 = s.2 ∧ Changes ∅ H2 H' ∧ Rep H' (F ∪ New H1 H2 ∪ New H2 H') (d + 1) r.1 s.1)
              (fun _ h => h.elim) (fun r s H' hc hr => ⟨hr.1, hc, hr.2⟩)) ?_
            rintro ⟨p', ms⟩ ⟨n', ms'⟩ H3 _ ⟨h1, hc3, h2⟩
            obtain rfl : ms = ms' := h1
            obtain ⟨e1, e2, e3⟩ := hfl.put hc12 hc3 h2 hretF hret1 t.mask i
            exact Sim.step (setDataM_eq e1) (e2.weaken (fun _ h => .inl (.inl (.inl h)))) (Sim.pure ⟨rfl, _, e3, trivial⟩)
        · intro H1 ret t ok ms H2 km hc1 hret hc2 hfl _
          refine Sim.bind ((branchCanonicalM_sim G H2 (F ∪ New H H2) ret d t.updateMask (hfl.rep hd hc1 hret)).weaken
            (fun _ h => h.elim) (fun _ _ _ _ h => h)) ?_
          rintro p3 n3 H3 hc3 ⟨hr3, _⟩
          exact Sim.pure ⟨rfl, hr3.mono (sub_new2 hc2 hc3)⟩

theorem leaf1IntersectionM_sim {H : Mem T} {F : Set Loc} {a d : Nat} {x : T} {q : Ptr} {n : Node T}
    (h : Rep H F d (some a) (.leaf1 x)) (hq : Rep H F d q n) :
    Sim ∅ H (leaf1IntersectionM a x q d) (leaf1Intersection x n d)
      (fun r s H' => r.2 = s.2 ∧ Rep H' (F ∪ New H H') d r.1 s.1) := by
  unfold leaf1IntersectionM leaf1Intersection
  refine Sim.get hq ?_
  intro o
  by_cases ho : o.isSome = true
  · rw [if_pos ho, if_pos ho]; exact Sim.pure ⟨rfl, h.mono Set.subset_union_left⟩
  · rw [if_neg ho, if_neg ho]; exact Sim.pure ⟨rfl, .nil _⟩

theorem leaf2IntersectionM_sim {H : Mem T} {F : Set Loc} {a d : Nat} {x y : T} {q : Ptr} {n : Node T}
    (h : Rep H F d (some a) (.leaf2 x y)) (hq : Rep H F d q n) :
    Sim ∅ H (leaf2IntersectionM a x y q d) (leaf2Intersection x y n d)
      (fun r s H' => r.2 = s.2 ∧ Rep H' (F ∪ New H H') d r.1 s.1) := by
  unfold leaf2IntersectionM leaf2Intersection
  refine Sim.get hq ?_
  intro o
  refine Sim.get hq ?_
  intro o2
  by_cases h1 : (o.isSome && o2.isSome) = true
  · rw [if_pos h1, if_pos h1]; exact Sim.pure ⟨rfl, h.mono Set.subset_union_left⟩
  · rw [if_neg h1, if_neg h1]
    by_cases h2 : o.isSome = true
    · rw [if_pos h2, if_pos h2]
      exact Sim.step rfl (changes_alloc _ _ _) (Sim.pure ⟨rfl, .leaf1 cells_new (.inr new_cell)⟩)
    · rw [if_neg h2, if_neg h2]
      by_cases h3 : o2.isSome = true
      · rw [if_pos h3, if_pos h3]
        exact Sim.step rfl (changes_alloc _ _ _) (Sim.pure ⟨rfl, .leaf1 cells_new (.inr new_cell)⟩)
      · rw [if_neg h3, if_neg h3]; exact Sim.pure ⟨rfl, .nil _⟩

theorem intersectionM_sim (G : Growth) (fuel : Nat) : ∀ (H : Mem T) (F : Set Loc) (d : Nat) (p q : Ptr) (n n2 : Node T),
    Rep H F d p n → Rep H F d q n2 → Live H F → FuelOk d fuel →
    Sim ∅ H (intersectionM G fuel p q d) (intersection n n2 d) (fun r s H' => r.2 = s.2 ∧ Rep H' (F ∪ New H H') d r.1 s.1) := by
  induction fuel with
  | zero => intro H F d p q n n2 _ _ _ hf; exact absurd hf.2 (Nat.lt_irrefl 0)
  | succ fuel ih =>
    intro H F d p q n n2 hr hq hl hf
    have hself := hr
    cases hr with
    | nil _ => exact Sim.raise
    | @leaf1 _ a x hx hF =>
      simp only [intersectionM, intersection]
      exact Sim.read (readCell_eq hx) (leaf1IntersectionM_sim hself hq)
    | @leaf2 _ a x y hx hF =>
      simp only [intersectionM, intersection]
      exact Sim.read (readCell_eq hx) (leaf2IntersectionM_sim hself hq)
    | @twig _ a s la l hd hx hF ha hFa h3 hla hs =>
      simp only [intersectionM, intersection, twigFilterGet_eq]
      refine Sim.read (readCell_eq hx) ?_
      dsimp only
      refine Sim.read (a := l) (hs ▸ readSlice_eq ha hla) ?_
      refine twigFilterCanon_sim G (fun e => do let g ← getP memFuel q e (newHasher e d); pure g.isSome)
        (fun e => do let g ← get n2 e (newHasher e d); pure (g.isSome == true)) H ?_ l d F
        (fun p s' => (p, (s'.len : Int))) (fun r ret => (r, (ret.length : Int))) _ ?_
      · intro H' hc _ e
        rw [keepGet_eq (hq.next hc) e (fun b => b)]
        cases get n2 e (newHasher e d) with
        | error => rfl
        | ok o => cases o <;> rfl
      · intro p n s' l' H' hc hl' hrep
        exact ⟨by dsimp only; rw [hl'], hrep.mono Set.subset_union_right⟩
    | @branch _ a m k kn hd hx hF hk =>
      simp only [intersectionM]
      refine Sim.read (readCell_eq hx) ?_
      dsimp only
      have hqs := hq
      cases hq with
      | nil _ => exact Sim.read (readPtr_nil H) Sim.raise
      | @twig _ b s2 la2 l2 hd2 hx2 hF2 => exact absurd hd2 (by omega)
      | @leaf1 _ b x hx2 hF2 =>
        exact Sim.read (readPtr_some hx2) (leaf1IntersectionM_sim hqs hself)
      | @leaf2 _ b x y hx2 hF2 =>
        exact Sim.read (readPtr_some hx2) (leaf2IntersectionM_sim hqs hself)
      | @branch _ b m2 k2 kn2 hd2 hx2 hF2 hk2 =>
        refine Sim.read (readPtr_some hx2) ?_
        dsimp only
        refine Sim.fill (P := id) (J := fun _ _ => True) (d := d) hl rfl trivial ?_ ?_
        · intro H1 ret i t H2 km hc1 hretF hret1 hc12 hc2 hlive hfl _
          dsimp only [id] at hfl
          have hfr : ∀ {p n}, Rep H F (d + 1) p n → Rep H2 (F ∪ New H1 H2) (d + 1) p n := fun h =>
            (h.next hc2).mono Set.subset_union_left
          refine Sim.bind ((ih H2 _ (d + 1) (k i) (k2 i) (kn i) (kn2 i) (hfr (hk i)) (hfr (hk2 i)) hlive
            (hf.succ hd)).weaken (W' := {Loc.cell ret} ∪ Fresh H1)
            (R' := fun r s H' => r.2 = s.2 ∧ Changes ∅ H2 H' ∧ Rep H' (F ∪ New H1 H2 ∪ New H2 H') (d + 1) r.1 s.1)
            (fun _ h => h.elim) (fun r s H' hc hr => ⟨hr.1, hc, hr.2⟩)) ?_
          rintro ⟨p', ms⟩ ⟨n', ms'⟩ H3 _ ⟨h1, hc3, h2⟩
          obtain rfl : ms = ms' := h1
          obtain ⟨e1, e2, e3⟩ := hfl.put hc12 hc3 h2 hretF hret1 t.mask i
          exact Sim.step (setDataM_eq e1) (e2.weaken (fun _ h => .inl (.inl (.inl h)))) (Sim.pure ⟨rfl, _, e3, trivial⟩)
        · intro H1 ret t ok ms H2 km hc1 hret hc2 hfl _
          refine Sim.bind ((branchCanonicalM_sim G H2 (F ∪ New H H2) ret d t.updateMask (hfl.rep hd hc1 hret)).weaken
            (fun _ h => h.elim) (fun _ _ _ _ h => h)) ?_
          rintro p3 n3 H3 hc3 ⟨hr3, _⟩
          exact Sim.pure ⟨rfl, hr3.mono (sub_new2 hc2 hc3)⟩

theorem whereM_sim (G : Growth) (pred : T → Bool) (fuel : Nat) : ∀ (H : Mem T) (F : Set Loc) (d : Nat) (p : Ptr) (n : Node T),
    Rep H F d p n → Live H F → FuelOk d fuel →
    Sim ∅ H (whereM G pred fuel p d) («where» pred n d) (fun r s H' => r.2 = s.2.1 ∧ Rep H' (F ∪ New H H') d r.1 s.1 ∧
      (if s.2.2 then r.1 = p else NewPtr H H' r.1)) := by
  induction fuel with
  | zero => intro H F d p n _ _ hf; exact absurd hf.2 (Nat.lt_irrefl 0)
  | succ fuel ih =>
    intro H F d p n hr hl hf
    have hself := hr
    cases hr with
    | nil _ => exact Sim.raise
    | @leaf1 _ a x hx hF =>
      simp only [whereM, «where»]
      refine Sim.read (readCell_eq hx) ?_
      dsimp only
      by_cases he : pred x = true
      · rw [if_pos he, if_pos he]
        exact Sim.pure ⟨rfl, hself.mono Set.subset_union_left, rfl⟩
      · rw [if_neg he, if_neg he]
        exact Sim.pure ⟨rfl, .nil _, fun _ h => (nomatch h)⟩
    | @leaf2 _ a x y hx hF =>
      simp only [whereM, «where»]
      refine Sim.read (readCell_eq hx) ?_
      dsimp only
      by_cases h1 : (pred x && pred y) = true
      · rw [if_pos h1, if_pos h1]
        exact Sim.pure ⟨rfl, hself.mono Set.subset_union_left, rfl⟩
      · rw [if_neg h1, if_neg h1]
        by_cases h2 : pred x = true
        · rw [if_pos h2, if_pos h2]
          refine Sim.step rfl (changes_alloc _ _ _) (Sim.pure ⟨rfl, .leaf1 cells_new (.inr new_cell), ?_⟩)
          rintro b h; cases h; exact new_cell
        · rw [if_neg h2, if_neg h2]
          by_cases h3 : pred y = true
          · rw [if_pos h3, if_pos h3]
            refine Sim.step rfl (changes_alloc _ _ _) (Sim.pure ⟨rfl, .leaf1 cells_new (.inr new_cell), ?_⟩)
            rintro b h; cases h; exact new_cell
          · rw [if_neg h3, if_neg h3]
            exact Sim.pure ⟨rfl, .nil _, fun _ h => (nomatch h)⟩
    | @twig _ a s la l hd hx hF ha hFa h3 hla hs =>
      simp only [whereM, «where»]
      refine Sim.read (readCell_eq hx) ?_
      dsimp only
      refine Sim.read (a := l) (hs ▸ readSlice_eq ha hla) ?_
      have hv : (do let r ← twigCanonical (l.filter pred) d; pure (r, ((l.filter pred).length : Int), false) : Go (Node T × Int × Bool)) =
          (do let ret ← filterGo (fun e => .ok (pred e)) l; let r ← twigCanonical ret d; pure (r, (ret.length : Int), false)) := by
        rw [filterGo_ok]; rfl
      rw [hv]
      refine twigFilterCanon_sim G (fun e => pure (pred e)) (fun e => .ok (pred e)) H (fun _ _ _ _ => rfl) l d F
        (fun p s' => (p, (s'.len : Int))) (fun r ret => (r, (ret.length : Int), false)) _ ?_
      intro p n s' l' H' hc hl' hrep
      exact ⟨by dsimp only; rw [hl'], hrep.mono Set.subset_union_right, hrep.newPtr⟩
    | @branch _ a m k kn hd hx hF hk =>
      simp only [whereM, «where»]
      refine Sim.read (readCell_eq hx) ?_
      dsimp only
      refine Sim.fill (P := fun t : Packer T × (Fin 8 → Bool) => t.1) (J := fun t km => ∀ i, t.2 i = true ↔ km i = k i) (d := d)
        hl rfl ?_ ?_ ?_
      · intro i
        show (kn i).isNil = true ↔ none = k i
        rw [← (hk i).isNone]
        cases k i <;> simp
      · intro H1 ret i t H2 km hc1 hretF hret1 hc12 hc2 hlive hfl hJ
        have hfr : ∀ {p n}, Rep H F (d + 1) p n → Rep H2 (F ∪ New H1 H2) (d + 1) p n := fun h =>
          (h.next hc2).mono Set.subset_union_left
        by_cases hn : kn i = .nil
        · have hki : k i = none := by
            have := (hk i).isNone
            rw [hn] at this
            cases hki : k i with
            | none => rfl
            | some b => rw [hki] at this; simp [Node.isNil] at this
          rw [hn, hki]
          refine Sim.error (e := .nilDeref) (H1 := H2) ?_ (Changes.refl _ _)
          obtain ⟨f', rfl⟩ : ∃ f', fuel = f' + 1 := ⟨fuel - 1, by have := (hf.succ hd).2; omega⟩
          rfl
        refine Sim.bind ((ih H2 _ (d + 1) (k i) (kn i) (hfr (hk i)) hlive
          (hf.succ hd)).weaken (W' := {Loc.cell ret} ∪ Fresh H1)
          (R' := fun r s H' => r.2 = s.2.1 ∧ Changes ∅ H2 H' ∧ Rep H' (F ∪ New H1 H2 ∪ New H2 H') (d + 1) r.1 s.1 ∧
            (if s.2.2 then r.1 = k i else NewPtr H2 H' r.1))
          (fun _ h => h.elim) (fun r s H' hc hr => ⟨hr.1, hc, hr.2⟩)) ?_
        rintro ⟨p', ms⟩ ⟨n', ms', sm⟩ H3 _ ⟨h1, hc3, h2, h4⟩
        obtain rfl : ms = ms' := h1
        obtain ⟨e1, e2, e3⟩ := hfl.put hc12 hc3 h2 hretF hret1 t.1.mask i
        refine Sim.step (setDataM_eq e1) (e2.weaken (fun _ h => .inl (.inl (.inl h)))) (Sim.pure ⟨rfl, _, e3, ?_⟩)
        intro j
        by_cases hj : j = i
        · subst hj
          simp only [setSlot_same]
          cases sm with
          | true => exact ⟨fun _ => h4, fun _ => rfl⟩
          | false =>
            refine ⟨fun h => (nomatch h), fun he => ?_⟩
            have hne : k j ≠ none := fun h => hn (by have := (hk j).isNone; rw [h] at this; exact isNil_iff.1 this.symm)
            obtain ⟨b, hb⟩ := Option.ne_none_iff_exists'.1 hne
            have hbF : Loc.cell b ∈ F := (hb ▸ hk j).root_mem
            exact absurd (h4 b (he.trans hb)).1 (hlive _ (.inl hbF))
        · simp only [setSlot_ne _ _ hj]; exact hJ j
      · intro H1 ret t ok ms H2 km hc1 hret hc2 hfl hJ
        refine Sim.read (readCell_eq hfl.1) ?_
        dsimp only
        have hiff : (t.1.updateMask.mask = m ∧ ∀ i, km i = k i) ↔ (t.1.updateMask.mask = m ∧ (List.finRange 8).all t.2 = true) := by
          simp only [List.all_eq_true, List.mem_finRange, true_implies, hJ]
        by_cases hc : t.1.updateMask.mask = m ∧ ∀ i, km i = k i
        · rw [if_pos hc, if_pos (hiff.1 hc)]
          exact Sim.pure ⟨rfl, (hself.next hc2).mono Set.subset_union_left, rfl⟩
        · rw [if_neg hc, if_neg (fun h => hc (hiff.2 h))]
          have hrep := hfl.rep hd hc1 hret
          let H3 : Mem T := ⟨H2.cells ++ [.branch t.1.updateMask.mask km], H2.arrays, H2.log⟩
          have hc23 : Changes ∅ H2 H3 := changes_alloc _ _ _
          have hc3 : Changes ∅ H H3 := hc2.trans (hc23.weaken (fun _ h => .inl (.inl h)))
          have hnew : Loc.cell H2.cells.length ∈ New H H3 := new_sub' hc2 new_cell
          have hb3 : Rep H3 (F ∪ New H H3) d (some H2.cells.length) t.1.updateMask.toNode :=
            .branch hd cells_new (.inr hnew) (fun i => ((hfl.next hc23).2 i).mono (by
              rintro l (h | h)
              · exact .inl h
              · exact .inr (new_sub' hc1 h)))
          refine Sim.step (H1 := H3) (a := H2.cells.length) rfl (changes_alloc _ _ _) ?_
          refine Sim.bind ((branchCanonicalM_sim G H3 (F ∪ New H H3) _ d t.1.updateMask hb3).weaken
            (fun _ h => h.elim) (fun _ _ _ _ h => h)) ?_
          rintro p3 n3 H4 hc4 ⟨hr4, hp⟩
          refine Sim.pure ⟨rfl, hr4.mono (sub_new2 hc3 hc4), ?_⟩
          rcases hp with rfl | hp
          · rintro b h; cases h; exact new_sub hc4 hnew
          · exact fun b h => new_sub' hc3 (hp b h)

end Frozen
