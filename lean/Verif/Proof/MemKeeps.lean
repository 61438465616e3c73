import Verif.Proof.MemCombine

/-! What `Combine` preserves in memory when it may append to shared arrays: only arrays of its arguments change, and the result is a
tree again. -/

set_option linter.unusedSectionVars false

namespace Frozen

variable {T : Type}

/-- Running `x` from `H` changes only `W`, and `Post` holds of what it returns, if it returns. -/
def Keeps {α : Type} (W : Set Loc) (H : Mem T) (x : MM T α) (Post : α → Mem T → Prop) : Prop :=
  Changes W H (x H).2 ∧ ∀ a, (x H).1 = .ok a → Post a (x H).2

theorem Sim.keeps {α β : Type} {W : Set Loc} {H : Mem T} {x : MM T α} {v : Go β} {R : α → β → Mem T → Prop} {Post : α → Mem T → Prop}
    (h : Sim W H x v R) (hp : ∀ a b H', Changes W H H' → R a b H' → Post a H') : Keeps W H x Post := by
  refine ⟨h.1, fun a ha => ?_⟩
  have h2 := h.2
  rw [ha] at h2
  cases v with
  | ok b => exact hp a b _ h.1 h2
  | error e => exact h2.elim

theorem Keeps.bind {α α' : Type} {W : Set Loc} {H : Mem T} {x : MM T α} {P : α → Mem T → Prop} {f : α → MM T α'}
    {P' : α' → Mem T → Prop} (h : Keeps W H x P) (hf : ∀ a H1, Changes W H H1 → P a H1 → Keeps (W ∪ Fresh H) H1 (f a) P') :
    Keeps W H (x >>= f) P' := by
  obtain ⟨h1, h2⟩ := h
  rcases hx : x H with ⟨r, H1⟩
  rw [hx] at h1 h2
  unfold Keeps
  cases r with
  | error e => rw [run_error hx]; exact ⟨h1, fun a ha => nomatch ha⟩
  | ok a =>
    rw [run_bind hx]
    have := hf a H1 h1 (h2 a rfl)
    exact ⟨h1.trans this.1, this.2⟩

theorem Keeps.pure {α : Type} {W : Set Loc} {H : Mem T} {a : α} {P : α → Mem T → Prop} (h : P a H) : Keeps W H (pure a) P :=
  ⟨Changes.refl _ _, fun b hb => by cases hb; exact h⟩

theorem Keeps.raise {α : Type} {W : Set Loc} {H : Mem T} {e : Panic} {P : α → Mem T → Prop} : Keeps W H (raise e) P :=
  ⟨Changes.refl _ _, fun b hb => nomatch hb⟩

theorem Keeps.weaken {α : Type} {W W' : Set Loc} {H : Mem T} {x : MM T α} {P P' : α → Mem T → Prop} (h : Keeps W H x P)
    (hw : W ⊆ W' ∪ Fresh H) (hp : ∀ a H', Changes W H H' → P a H' → P' a H') : Keeps W' H x P' :=
  ⟨h.1.weaken hw, fun a ha => hp a _ h.1 (h.2 a ha)⟩

theorem Keeps.step {α α' : Type} {W : Set Loc} {H H1 : Mem T} {x : MM T α} {a : α} {f : α → MM T α'} {P : α' → Mem T → Prop}
    (hx : x H = (.ok a, H1)) (hc : Changes W H H1) (hf : Keeps (W ∪ Fresh H) H1 (f a) P) : Keeps W H (x >>= f) P := by
  unfold Keeps
  rw [run_bind hx]
  exact ⟨hc.trans hf.1, hf.2⟩

theorem Keeps.read {α α' : Type} {W : Set Loc} {H : Mem T} {x : MM T α} {a : α} {f : α → MM T α'} {P : α' → Mem T → Prop}
    (hx : x H = (.ok a, H)) (hf : Keeps W H (f a) P) : Keeps W H (x >>= f) P := by
  unfold Keeps
  rw [run_bind hx]
  exact hf

theorem parallelLoopM_keeps (W : Set Loc) (H0 : Mem T) (f : Fin 8 → MM T (Bool × Int)) (I : Mem T → Prop)
    (body : ∀ i H, Changes W H0 H → I H → Keeps (W ∪ Fresh H0) H (f i) (fun _ H' => I H')) :
    ∀ (is : List Nat) (ms : Int) (H : Mem T), Changes W H0 H → I H →
      Keeps (W ∪ Fresh H0) H (parallelLoopM f is ms) (fun _ H' => I H')
  | [], ms, H, hc, hi => Keeps.pure hi
  | i :: is, ms, H, hc, hi => by
    unfold parallelLoopM
    by_cases h : i < 8
    · simp only [dif_pos h]
      refine Keeps.bind (body ⟨i, h⟩ H hc hi) ?_
      rintro ⟨ok, m⟩ H1 hc1 hi1
      cases ok with
      | false => exact Keeps.pure hi1
      | true =>
        refine (parallelLoopM_keeps W H0 f I body is (ms + m) H1 (hc.trans hc1) hi1).weaken ?_ (fun _ _ _ h => h)
        exact fun l h => .inl (.inl h)
    · simp only [dif_neg h]
      exact Keeps.raise

/-- A branch being filled stays one when only arrays change. -/
theorem Filled.shape {H1 H H' : Mem T} {W F : Set Loc} {d ret : Nat} {q : Packer T} {km : Fin 8 → Ptr}
    (h : Filled H1 H F d ret q km) (hc : Changes W H H') (hW : ∀ a, Loc.cell a ∉ W) : ∃ q', Filled H1 H' F d ret q' km := by
  have hk : ∀ i, ∃ n, Rep H' (F ∪ New H1 H') (d + 1) (km i) n := by
    intro i
    obtain ⟨n, hn⟩ := (h.2 i).shape hc (fun a _ hw => absurd hw (hW a))
    refine ⟨n, hn.mono ?_⟩
    rintro l (h | h)
    · exact .inl h
    · exact .inr (new_sub hc h)
  exact ⟨⟨q.mask, fun i => (hk i).choose⟩, hc.cell h.1 (hW _), fun i => (hk i).choose_spec⟩

theorem arrs_cell (F : Set Loc) (a : Nat) : Loc.cell a ∉ arrs F := by
  rintro ⟨_, b, h⟩; cases h

theorem arrs_union {F : Set Loc} {H H' : Mem T} : arrs (F ∪ New H H') ⊆ arrs F ∪ Fresh H := by
  rintro l ⟨h | h, a, rfl⟩
  · exact .inl ⟨h, a, rfl⟩
  · exact .inr h.1

variable [GoKey T] [PerGoKey T]

theorem branchCombineLeavesM_keeps (G : Growth) (args : CombineArgs T) (d : Nat) : ∀ (l : List T) (H : Mem T) (F : Set Loc)
    (st : Ptr × Int) (n : Node T), Rep H F d st.1 n → Live H F →
    Keeps (arrs F) H (l.foldlM (fun st e => do
      let (p, m) ← withM G args memFuel st.1 e d (newHasher e d)
      pure (p, st.2 + m)) st) (fun r H' => ∃ n', Rep H' (F ∪ New H H') d r.1 n')
  | [], H, F, st, n, hr, _ => by
    simp only [List.foldlM_nil]
    exact Keeps.pure ⟨n, hr.mono Set.subset_union_left⟩
  | e :: l, H, F, st, n, hr, hl => by
    simp only [List.foldlM_cons]
    rw [MM.bind_assoc]
    refine Keeps.bind ((withM_sim G args memFuel H F (arrs F) d st.1 n e _ hr hl (fuelOk_mem d) (arrs_cell F)
      (.inr (fun _ h => h))).keeps (Post := fun r H' => ∃ n', Rep H' (F ∪ New H H') d r.1 n') (fun _ _ _ _ h => h.2.2.2)) ?_
    rintro ⟨p, m⟩ H1 hc ⟨n1, hn1⟩
    show Keeps _ H1 (l.foldlM _ (p, st.2 + m)) _
    refine (branchCombineLeavesM_keeps G args d l H1 _ (p, st.2 + m) n1 hn1 ((hl.next hc).union (live_new H H1))).weaken
      (fun l h => .inl (arrs_union h)) ?_
    rintro r H' hc' ⟨n', hn'⟩
    exact ⟨n', hn'.mono (sub_new2 hc hc')⟩

theorem combineM_keeps (G : Growth) (fuel : Nat) : ∀ (H : Mem T) (F : Set Loc) (d : Nat) (p q : Ptr) (n n2 : Node T) (args : CombineArgs T),
    Rep H F d p n → Rep H F d q n2 → Live H F → FuelOk d fuel →
    Keeps (arrs F) H (combineM G fuel args p q d) (fun r H' => ∃ n', Rep H' (F ∪ New H H') d r.1 n') := by
  have ofSim : ∀ {H : Mem T} {F : Set Loc} {d : Nat} {x : MM T (Ptr × Int)} {v : Go (Node T × Int)},
      Sim ∅ H x v (fun r s H' => r.2 = s.2 ∧ Rep H' (F ∪ New H H') d r.1 s.1) →
      Keeps (arrs F) H x (fun r H' => ∃ n', Rep H' (F ∪ New H H') d r.1 n') := by
    intro H F d x v h
    exact (h.weaken (fun l h => h.elim) (fun _ _ _ _ h => h)).keeps (fun _ _ _ _ h => ⟨_, h.2⟩)
  induction fuel with
  | zero => intro H F d p q n n2 args _ _ _ hf; exact absurd hf.2 (Nat.lt_irrefl 0)
  | succ fuel ih =>
    intro H F d p q n n2 args hr hq hl hf
    have hself := hr
    have hqs := hq
    cases hr with
    | nil _ => exact Keeps.raise
    | @leaf1 _ a x hx hF =>
      simp only [combineM]
      refine Keeps.read (readCell_eq hx) ?_
      cases hq with
      | nil _ => exact Keeps.read (readPtr_nil H) Keeps.raise
      | @twig _ b s2 la2 l2 hd2 hx2 hF2 => exact Keeps.read (readPtr_some hx2) Keeps.raise
      | @leaf1 _ b y hx2 hF2 =>
        refine Keeps.read (readPtr_some hx2) ?_
        dsimp only
        by_cases h1 : args.eq x y = true
        · rw [if_pos h1]; exact ofSim simLeaf1
        · rw [if_neg h1]; exact ofSim simLeaf2
      | @leaf2 _ b y z hx2 hF2 => exact Keeps.read (readPtr_some hx2) (ofSim (leaf2CombineLeaf1M_sim G _ H F d y z x))
      | @branch _ b m2 k2 kn2 hd2 hx2 hF2 hk2 =>
        exact Keeps.read (readPtr_some hx2) (branchCombineLeavesM_keeps G args.flip d [x] H F (some b, 0) _ hqs hl)
    | @leaf2 _ a x y hx hF =>
      simp only [combineM]
      refine Keeps.read (readCell_eq hx) ?_
      cases hq with
      | nil _ => exact Keeps.read (readPtr_nil H) Keeps.raise
      | @twig _ b s2 la2 l2 hd2 hx2 hF2 => exact Keeps.read (readPtr_some hx2) Keeps.raise
      | @leaf1 _ b z hx2 hF2 => exact Keeps.read (readPtr_some hx2) (ofSim (leaf2CombineLeaf1M_sim G _ H F d x y z))
      | @leaf2 _ b z w hx2 hF2 => exact Keeps.read (readPtr_some hx2) (ofSim (leaf2CombineLeaf2M_sim G _ H F d x y z w))
      | @branch _ b m2 k2 kn2 hd2 hx2 hF2 hk2 =>
        exact Keeps.read (readPtr_some hx2) (branchCombineLeavesM_keeps G args.flip d [x, y] H F (some b, 0) _ hqs hl)
    | @twig _ a s la l hd hx hF ha hFa h3 hla hsl =>
      exact ofSim (combineM_sim G (fuel + 1) H F d (some a) q (.twig l) n2 args hself hqs hl hf trivial)
    | @branch _ a m k kn hd hx hF hk =>
      simp only [combineM]
      refine Keeps.read (readCell_eq hx) ?_
      cases hq with
      | nil _ => exact Keeps.read (readPtr_nil H) Keeps.raise
      | @twig _ b s2 la2 l2 hd2 hx2 hF2 => exact absurd hd2 (by omega)
      | @leaf1 _ b x hx2 hF2 =>
        exact Keeps.read (readPtr_some hx2) (branchCombineLeavesM_keeps G args d [x] H F (some a, 0) _ hself hl)
      | @leaf2 _ b x y hx2 hF2 =>
        exact Keeps.read (readPtr_some hx2) (branchCombineLeavesM_keeps G args d [x, y] H F (some a, 0) _ hself hl)
      | @branch _ b m2 k2 kn2 hd2 hx2 hF2 hk2 =>
        refine Keeps.read (readPtr_some hx2) ?_
        dsimp only
        let H1 : Mem T := ⟨H.cells ++ [.branch 0#16 (fun _ => none)], H.arrays, H.log⟩
        have hc01 : Changes ∅ H H1 := changes_alloc _ _ _
        refine Keeps.step (H1 := H1) (a := H.cells.length) rfl (changes_alloc _ _ _) ?_
        have hretF : Loc.cell H.cells.length ∉ F := fun h => hl _ h (Nat.le_refl _)
        have hret0 : Loc.cell H.cells.length ∈ Fresh H := Nat.le_refl _
        have hret1 : Loc.cell H.cells.length ∉ Fresh H1 := by rw [mem_fresh_cell]; simp [H1]
        have hWF : ∀ a, Loc.cell a ∈ F → Loc.cell a ∈ {Loc.cell H.cells.length} ∪ arrs F → Loc.cell a ∈ Fresh H := by
          rintro a _ (h | h)
          · rw [h]; exact hret0
          · exact absurd h (arrs_cell F a)
        have hfr : ∀ l, l ∈ ({Loc.cell H.cells.length} ∪ arrs F) ∪ Fresh H1 → l ∈ arrs F ∪ Fresh H := by
          rintro l ((rfl | h) | h)
          · exact .inr hret0
          · exact .inl h
          · exact .inr (hc01.mono _ h)
        have hfrW : ∀ {W : Set Loc} l, l ∈ ({Loc.cell H.cells.length} ∪ arrs F) → l ∈ (arrs F ∪ Fresh H) ∪ W :=
          fun l h => .inl (hfr l (.inl h))
        have hloop := parallelLoopM_keeps ({Loc.cell H.cells.length} ∪ arrs F) H1 (fun i =>
          if (k i).isNone then do setNonNilChildM H.cells.length i (k2 i); pure (true, 0)
          else if (k2 i).isNone then do setNonNilChildM H.cells.length i (k i); pure (true, 0)
          else do
            let (p, ms) ← combineM G fuel args (k i) (k2 i) (d + 1)
            setDataM H.cells.length i p
            pure (true, ms))
          (fun H' => Changes ({Loc.cell H.cells.length} ∪ arrs F) H1 H' ∧ ∃ q km, Filled H1 H' F d H.cells.length q km) (by
            rintro i H2 hc2 ⟨_, t, km, hfl⟩
            have hc02 : Changes (arrs F) H H2 := (hc01.weaken (fun _ h => h.elim)).trans (hc2.weaken (fun l h => hfrW l h))
            have hrep : ∀ {p n}, Rep H F (d + 1) p n → ∃ n', Rep H2 (F ∪ New H1 H2) (d + 1) p n' := by
              intro p n h
              obtain ⟨n', hn'⟩ := h.shape hc02 (fun a _ hw => absurd hw (arrs_cell F a))
              exact ⟨n', hn'.mono Set.subset_union_left⟩
            obtain ⟨c1, hc1⟩ := hrep (hk i)
            obtain ⟨c2, hc2'⟩ := hrep (hk2 i)
            have put : ∀ (H3 : Mem T) (t : Packer T) (p : Ptr) (n : Node T), Changes (arrs F ∪ Fresh H1) H2 H3 →
                Filled H1 H3 F d H.cells.length t km → Rep H3 (F ∪ New H1 H3) (d + 1) p n → ∀ (m : Masker),
                Changes ({Loc.cell H.cells.length} ∪ arrs F ∪ Fresh H1) H3
                  ⟨H3.cells.set H.cells.length (.branch m (setSlot km i p)), H3.arrays, .cell H.cells.length :: H3.log⟩ ∧
                Changes ({Loc.cell H.cells.length} ∪ arrs F) H1 ⟨H3.cells.set H.cells.length (.branch m (setSlot km i p)), H3.arrays, .cell H.cells.length :: H3.log⟩ ∧
                ∃ q km', Filled H1 ⟨H3.cells.set H.cells.length (.branch m (setSlot km i p)), H3.arrays, .cell H.cells.length :: H3.log⟩ F d H.cells.length q km' := by
              intro H3 t p n hc3 hfl hr m
              have e2 : Changes {Loc.cell H.cells.length} H3 ⟨H3.cells.set H.cells.length (.branch m (setSlot km i p)), H3.arrays, .cell H.cells.length :: H3.log⟩ :=
                changes_writeCell _ _ _ rfl
              refine ⟨e2.weaken (fun _ h => .inl (.inl (.inl h))), ?_, _, _, hfl.write hretF hret1 m i p n hr⟩
              refine (hc2.trans (hc3.weaken ?_)).trans (e2.weaken (fun _ h => .inl (.inl (.inl h))))
              rintro l (h | h)
              · exact .inl (.inl (.inr h))
              · exact .inl (.inr h)
            by_cases hn : (k i).isNone = true
            · rw [if_pos hn]
              obtain ⟨e1, e2, e3⟩ := put H2 t (k2 i) c2 (Changes.refl _ _) hfl hc2' (t.mask ||| newMasker i)
              exact Keeps.step (setNonNilChildM_eq hfl.1) e1 (Keeps.pure ⟨e2, e3⟩)
            · rw [if_neg hn]
              by_cases hn2 : (k2 i).isNone = true
              · rw [if_pos hn2]
                obtain ⟨e1, e2, e3⟩ := put H2 t (k i) c1 (Changes.refl _ _) hfl hc1 (t.mask ||| newMasker i)
                exact Keeps.step (setNonNilChildM_eq hfl.1) e1 (Keeps.pure ⟨e2, e3⟩)
              · rw [if_neg hn2]
                refine Keeps.bind ((ih H2 (F ∪ New H1 H2) (d + 1) (k i) (k2 i) c1 c2 args hc1 hc2'
                  ((hl.next hc02).union (live_new H1 H2)) (hf.succ hd)).weaken
                  (P' := fun r H' => Changes (arrs (F ∪ New H1 H2)) H2 H' ∧ ∃ n', Rep H' (F ∪ New H1 H2 ∪ New H2 H') (d + 1) r.1 n')
                  (fun l h => .inl ((arrs_union h).imp .inr id)) (fun _ _ hc h => ⟨hc, h⟩)) ?_
                rintro ⟨p', ms⟩ H3 _ ⟨hc3, n', hn'⟩
                obtain ⟨t', ht'⟩ := hfl.shape hc3 (arrs_cell _)
                obtain ⟨e1, e2, e3⟩ := put H3 t' p' n' (hc3.weaken (fun l h => .inl (arrs_union h))) ht'
                  (hn'.mono (sub_new2 hc2 hc3)) t'.mask
                exact Keeps.step (setDataM_eq ht'.1) (e1.weaken (fun l h => .inl (.inl h))) (Keeps.pure ⟨e2, e3⟩)) (bitLoop (m ||| m2)) 0 H1 (Changes.refl _ _)
          ⟨Changes.refl _ _, _, _, filled_new⟩
        refine Keeps.bind (hloop.weaken (fun l h => .inl (hfr l h)) (fun _ _ _ h => h)) ?_
        rintro ⟨ok, ms⟩ H2 _ ⟨hc2, t, km, hfl⟩
        obtain ⟨H3, e1, e2, e3⟩ := hfl.updateMask hretF hret1
        refine Keeps.step e1 (e2.weaken (fun l h => .inl (.inl (hfr l (.inl (.inl h)))))) (Keeps.pure ⟨_, e3.rep hd hc01 ⟨hret0, ?_⟩⟩)
        exact fun h => hret1 (hc2.mono _ (e2.mono _ h))

end Frozen
