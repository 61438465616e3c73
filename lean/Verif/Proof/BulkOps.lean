import Verif.Proof.BulkWork

/-! What `Combine`, `Difference`, `Intersection` and `Where` cost. -/

set_option linter.unusedSectionVars false

namespace Frozen

variable {T : Type} [GoKey T] [LawfulGoKey T]

theorem Sim.withVal {α β : Type} {W : Set Loc} {H : Mem T} {x : MM T α} {v : Go β} {R : α → β → Mem T → Prop} (h : Sim W H x v R) :
    Sim W H x v (fun r s H' => v = .ok s ∧ R r s H') := by
  obtain ⟨h1, h2⟩ := h
  refine ⟨h1, ?_⟩
  revert h2
  cases (x H).1 <;> cases v <;> intro h2 <;> first | exact h2 | exact ⟨rfl, h2⟩

theorem acc_readPtr (q : Ptr) (H : Mem T) : (readPtr q : MM T _).accesses H ≤ 1 := by
  cases q with
  | none => exact Nat.zero_le _
  | some b => exact acc_ret (g := some) (Nat.le_of_eq (acc_readCell b H))

/-- Reading the node of the argument of a type switch. -/
theorem acc_switch {α : Type} {f : Option (Cell T) → MM T α} {H : Mem T} {q : Ptr} {c : Option (Cell T)} {C : Nat}
    (hx : readPtr q H = (.ok c, H)) (hf : (f c).accesses H + 1 ≤ C) : (readPtr q >>= f).accesses H ≤ C := by
  have := acc_step (f := f) hx (acc_readPtr q H) (Nat.le_refl _)
  omega

theorem min_sum_le (a b : Fin 8 → Nat) : ∀ is : List (Fin 8),
    (is.map (fun i => min (a i) (b i))).sum ≤ min (is.map a).sum (is.map b).sum
  | [] => Nat.le_refl _
  | i :: is => by
    have := min_sum_le a b is
    simp only [List.map_cons, List.sum_cons]
    omega

theorem sum_affine (C : Nat → Nat) (A K : Nat) (hC : ∀ x, C x = A + K * x) (a : Fin 8 → Nat) : ∀ is : List (Fin 8),
    (is.map (fun i => C (a i))).sum = A * is.length + K * (is.map a).sum
  | [] => by simp
  | i :: is => by
    have := sum_affine C A K hC a is
    rw [List.map_cons, List.sum_cons, this, hC, List.map_cons, List.sum_cons, List.length_cons, Nat.mul_add, Nat.mul_add]
    omega

/-- The common slots of two branches cost no more than the smaller branch. -/
theorem bulk_sum (A K : Nat) (m m2 : Masker) (k k2 : Fin 8 → Node T) :
    ((List.finRange 8).map (fun i => A + K * min (elems (k i)).length (elems (k2 i)).length)).sum ≤
      8 * A + K * min (elems (.branch m k)).length (elems (.branch m2 k2)).length := by
  rw [sum_affine (fun x => A + K * x) A K (fun _ => rfl) (fun i => min (elems (k i)).length (elems (k2 i)).length)]
  rw [length_branch, length_branch]
  have h1 := Nat.mul_le_mul_left K (min_sum_le (fun i => (elems (k i)).length) (fun i => (elems (k2 i)).length) (List.finRange 8))
  have h2 : (List.finRange 8).length = 8 := by simp
  rw [h2]
  omega

theorem len_pos {n : Node T} {d : Nat} (hw : WF d n) (hn : n.isNil = false) : 1 ≤ (elems n).length := by
  cases n with
  | nil => cases hn
  | leaf1 x => exact Nat.le_refl _
  | leaf2 x y => exact Nat.le_add_left 1 1
  | twig l => have := hw.2.1; simp only [elems]; omega
  | branch m k => have := hw.2; omega

/-! ## Combine -/

variable {args : CombineArgs T}

theorem acc_branchLeaf1 (G : Growth) {H : Mem T} {F : Set Loc} {a d c : Nat} {m : Masker} {kn : Fin 8 → Node T} {x : T}
    (hr : Rep H F d (some a) (.branch m kn)) (hw : WF d (.branch m kn)) (hc : Few c d (.branch m kn)) :
    (branchCombineLeavesM G args a [x] d).accesses H ≤ splitCost d + 3 * c + 4 := by
  unfold branchCombineLeavesM
  simp only [List.foldlM_cons, List.foldlM_nil]
  rw [MM.bind_pure]
  have h1 := withM_cost G args hr memFuel x (newHasher x d)
  have h2 := hc.on hw x
  exact acc_ret (g := fun r : Ptr × Int => (r.1, (0 : Int) + r.2)) (Nat.le_trans h1 (by omega))

theorem acc_branchLeaf2 (G : Growth) (heq : args.eq = GoKey.eq) (hf : ClassPres args.f) {H : Mem T} {F : Set Loc} {a d c : Nat}
    {m : Masker} {kn : Fin 8 → Node T} {x y : T} (hr : Rep H F d (some a) (.branch m kn)) (hl : Live H F)
    (hw : WF d (.branch m kn)) (hc : Few c d (.branch m kn)) (hs : NoAppend args.eq (.branch m kn) x (newHasher x d)) :
    (branchCombineLeavesM G args a [x, y] d).accesses H ≤ 2 * (splitCost d + 3 * c + 4) + 3 := by
  unfold branchCombineLeavesM
  simp only [List.foldlM_cons, List.foldlM_nil]
  have h1 := withM_cost G args hr memFuel x (newHasher x d)
  have h2 := hc.on hw x
  have h3 : ∀ z, z ≤ (splitCost d + 3 * c + 4) + (splitCost d + 3 * (c + 1) + 4) → z ≤ 2 * (splitCost d + 3 * c + 4) + 3 := fun z hz => by omega
  refine h3 _ (acc_bind_le (acc_ret (g := fun r : Ptr × Int => (r.1, (0 : Int) + r.2)) (Nat.le_trans h1 (by omega))) ?_)
  rintro ⟨p, ms⟩ H1 hrun
  have hsim : Sim ∅ H (withM G args memFuel (some a) x d (newHasher x d) >>= fun r => (pure (r.1, (0 : Int) + r.2) : MM T _))
      (withArgs args (.branch m kn) x d (newHasher x d) >>= fun s => (.ok s : Go _))
      (fun r s H' => withArgs args (.branch m kn) x d (newHasher x d) = .ok s ∧ Rep H' (F ∪ New H H') d r.1 s.1) := by
    refine Sim.bind (Sim.withVal (withM_sim G args memFuel H F ∅ d (some a) _ x _ hr hl (fuelOk_mem d) not_cell_empty (.inl hs))) ?_
    rintro ⟨p, ms⟩ ⟨n', ms'⟩ H1 hc ⟨h0, h1, _, h2, _⟩
    exact Sim.pure ⟨h0, h2 rfl⟩
  obtain ⟨⟨n1, ms1⟩, _, _, h5, h6⟩ := hsim.ok hrun
  obtain ⟨n2, ms2, h7, h8⟩ := withArgs_spec heq hf (.branch m kn) d hw rfl x
  rw [h5] at h7
  cases h7
  have h9 := withM_cost G args h6 memFuel y (newHasher y d)
  dsimp only at h9
  have h10 := (hc.with hf h8).on h8.wf y
  dsimp only
  rw [MM.bind_pure]
  exact acc_ret (g := fun r : Ptr × Int => (r.1, ms + r.2)) (Nat.le_trans h9 (by omega))

theorem acc_leaf2Leaf1 (G : Growth) (x y z : T) (d : Nat) (H : Mem T) : (leaf2CombineLeaf1M G args x y z d).accesses H ≤ splitCost d := by
  unfold leaf2CombineLeaf1M
  split
  · show 1 ≤ _; unfold splitCost; omega
  · split
    · show 1 ≤ _; unfold splitCost; omega
    · exact acc_ret (g := fun p : Ptr => (p, (0 : Int))) (acc_newBranchFrom3 G d x y z H)

theorem acc_leaf2Leaf2 (G : Growth) (x y z w : T) (d : Nat) (H : Mem T) :
    (leaf2CombineLeaf2M G args x y z w d).accesses H ≤ 2 * splitCost d := by
  have h1 : 1 ≤ 2 * splitCost d := by unfold splitCost; omega
  have h3 : ∀ (a b c : T) (i : Int), (do let p ← newBranchFromM G d [a, b, c]; pure (p, i) : MM T (Ptr × Int)).accesses H ≤ 2 * splitCost d :=
    fun a b c i => acc_ret (g := fun p : Ptr => (p, i)) (Nat.le_trans (acc_newBranchFrom3 G d a b c H) (by omega))
  unfold leaf2CombineLeaf2M
  split
  · split
    · exact h1
    · exact h3 _ _ _ _
  · split
    · exact h3 _ _ _ _
    · split
      · split
        · exact h1
        · exact h3 _ _ _ _
      · split
        · exact h3 _ _ _ _
        · exact acc_ret (g := fun p : Ptr => (p, (0 : Int))) (acc_newBranchFrom4 G d x y z w H)

theorem acc_twigScan (G : Growth) : ∀ (es : List T) (s : Slice) (cloned : Bool) (ms : Int) (H : Mem T), 2 ≤ s.len →
    (twigScanM G args s cloned es ms).accesses H ≤ (2 * s.len + 2) * es.length
  | [], s, cloned, ms, H, _ => Nat.zero_le _
  | e :: es, s, cloned, ms, H, h2 => by
    unfold twigScanM
    have key : ∀ (s' : Slice), s'.len = s.len → ∀ c m H', (twigScanM G args s' c es m).accesses H' ≤ (2 * s.len + 2) * es.length :=
      fun s' hs c m H' => hs ▸ acc_twigScan G es s' c m H' (by omega)
    have hfin : ∀ z, z ≤ s.len + ((s.len + 2) + (2 * s.len + 2) * es.length) → z ≤ (2 * s.len + 2) * (e :: es).length := fun z hz => by
      rw [List.length_cons, Nat.mul_succ]; omega
    refine hfin _ (acc_bind_le (acc_readSlice s H) ?_)
    intro l H1 _
    split
    · rename_i j _
      have hw : ∀ (s' : Slice) (H2 : Mem T), s'.len = s.len →
          ((l[j]?).elim (pure ()) (fun f => writeArr s'.arr j (args.f f e)) >>= fun _ => twigScanM G args s' true es (ms + 1)).accesses H2
            ≤ 1 + (2 * s.len + 2) * es.length := fun s' H2 hs =>
        acc_bind_le (acc_elim _ _ _ (fun f => args.f f e) H2) (fun _ H3 _ => key s' hs true _ H3)
      cases cloned with
      | true =>
        simp only [if_true]
        exact Nat.le_trans (hw s H1 rfl) (by omega)
      | false =>
        simp only [Bool.false_eq_true, if_false]
        refine acc_then (acc_cloneTwigM s H1) ?_ (Nat.le_of_eq (show (s.len + 1) + (1 + (2 * s.len + 2) * es.length) = _ by omega))
        intro s' H2 hrun
        exact hw s' H2 (cloneTwigM_len hrun)
    · rw [if_neg (by unfold maxLeafLen; omega)]
      exact Nat.le_trans (key s rfl cloned ms H1) (by omega)

theorem twigScan_len (G : Growth) : ∀ (es : List T) (s : Slice) (cloned : Bool) (ms : Int) (H H' : Mem T) (r : Slice × Int), 2 ≤ s.len →
    twigScanM G args s cloned es ms H = (.ok r, H') → r.1.len = s.len
  | [], s, cloned, ms, H, H', r, _, h => by cases h; rfl
  | e :: es, s, cloned, ms, H, H', r, h2, h => by
    unfold twigScanM at h
    rw [MM.run_andThen, readSlice_run] at h
    cases hs : H.slice s with
    | error x => rw [hs] at h; cases h
    | ok l =>
      rw [hs] at h
      dsimp only at h
      split at h
      · rename_i j hj
        have hw : ∀ (s' : Slice) (H2 : Mem T), s'.len = s.len →
            ((l[j]?).elim (pure ()) (fun f => writeArr s'.arr j (args.f f e)) >>= fun _ => twigScanM G args s' true es (ms + 1)) H2 = (.ok r, H') →
            r.1.len = s.len := by
          intro s' H2 hs' h
          rw [MM.run_andThen] at h
          split at h
          · exact (twigScan_len G es s' true _ _ _ _ (by omega) h).trans hs'
          · cases h
        cases cloned with
        | true => exact hw s H rfl h
        | false =>
          simp only [Bool.false_eq_true, if_false] at h
          rw [MM.run_andThen] at h
          split at h
          · rename_i s' H2 hcl
            exact hw s' H2 (cloneTwigM_len hcl) h
          · cases h
      · rw [if_neg (by unfold maxLeafLen; omega)] at h
        exact twigScan_len G es s cloned ms _ _ _ h2 h

/-- What `Combine` may cost for each element of the smaller node. -/
def combineRate (c d : Nat) : Nat := 339 + 3 * c + 7 * (maxTreeDepth - d)

theorem combineM_cost (G : Growth) (c : Nat) (fuel : Nat) : ∀ (H : Mem T) (F : Set Loc) (d : Nat) (p q : Ptr) (n n2 : Node T)
    (args : CombineArgs T), args.eq = GoKey.eq → ClassPres args.f →
    Rep H F d p n → Rep H F d q n2 → Live H F → FuelOk d fuel → CombineSafe n args n2 d → WF d n → WF d n2 → n2.isNil = false →
    Few c d n → Few c d n2 →
    (combineM G fuel args p q d).accesses H ≤ combineRate c d * min (elems n).length (elems n2).length := by
  have h22 : maxTreeDepth = 22 := rfl
  induction fuel with
  | zero => intro H F d p q n n2 args _ _ _ _ _ hf; exact absurd hf.2 (Nat.lt_irrefl 0)
  | succ fuel ih =>
    intro H F d p q n n2 args heq hcp hr hq hl hf hs hwn hwn2 hnn2 hc hc2
    have hself := hr
    have hqs := hq
    have heqf : args.flip.eq = GoKey.eq := heq
    have hcpf : ClassPres args.flip.f := hcp.flip
    have hsc : splitCost d ≤ 332 := by unfold splitCost; omega
    have hrate : 339 + 3 * c ≤ combineRate c d := by unfold combineRate; omega
    have one : ∀ {z : Nat} {a b : Nat}, 1 ≤ a → 1 ≤ b → z ≤ 339 + 3 * c → z ≤ combineRate c d * min a b := by
      intro z a b ha hb hz
      exact Nat.le_trans (by omega) (Nat.mul_le_mul hrate (show 1 ≤ min a b by omega))
    have two : ∀ {z : Nat} {a b : Nat}, 2 ≤ a → 2 ≤ b → z ≤ 678 + 6 * c → z ≤ combineRate c d * min a b := by
      intro z a b ha hb hz
      exact Nat.le_trans (by omega) (Nat.mul_le_mul hrate (show 2 ≤ min a b by omega))
    cases hr with
    | nil _ => exact Nat.zero_le _
    | @leaf1 _ a x hx hF =>
      simp only [combineM]
      cases hq with
      | nil _ => cases hnn2
      | @twig _ b s2 la2 l2 hd2 hx2 hF2 =>
        refine one (Nat.le_refl _) (len_pos hwn2 rfl) (acc_read hx (Nat.succ_le_of_lt (Nat.lt_of_le_of_lt (acc_switch (C := 1) (readPtr_some hx2) (Nat.le_refl _)) (by omega))))
      | @leaf1 _ b y hx2 hF2 =>
        refine one (Nat.le_refl _) (Nat.le_refl _) (acc_read (C := 3) hx (Nat.succ_le_succ (acc_switch (C := 2) (readPtr_some hx2) ?_)) |>.trans (by omega))
        dsimp only
        split
        · exact Nat.le_refl _
        · exact Nat.le_refl _
      | @leaf2 _ b y z hx2 hF2 =>
        exact one (Nat.le_refl _) (len_pos hwn2 rfl) (acc_read (C := splitCost d + 2) hx (Nat.succ_le_succ (acc_switch (C := splitCost d + 1) (readPtr_some hx2)
          (Nat.succ_le_succ (acc_leaf2Leaf1 G y z x d H)))) |>.trans (by omega))
      | @branch _ b m2 k2 kn2 hd2 hx2 hF2 hk2 =>
        exact one (Nat.le_refl _) (len_pos hwn2 rfl) (acc_read (C := splitCost d + 3 * c + 4 + 2) hx (Nat.succ_le_succ
          (acc_switch (C := splitCost d + 3 * c + 4 + 1) (readPtr_some hx2) (Nat.succ_le_succ (acc_branchLeaf1 G hqs hwn2 hc2)))) |>.trans (by omega))
    | @leaf2 _ a x y hx hF =>
      simp only [combineM]
      cases hq with
      | nil _ => cases hnn2
      | @twig _ b s2 la2 l2 hd2 hx2 hF2 =>
        refine one (Nat.le_add_left 1 1) (len_pos hwn2 rfl) (acc_read hx (Nat.succ_le_of_lt (Nat.lt_of_le_of_lt (acc_switch (C := 1) (readPtr_some hx2) (Nat.le_refl _)) (by omega))))
      | @leaf1 _ b z hx2 hF2 =>
        exact one (Nat.le_add_left 1 1) (len_pos hwn2 rfl) (acc_read (C := splitCost d + 2) hx (Nat.succ_le_succ (acc_switch (C := splitCost d + 1) (readPtr_some hx2)
          (Nat.succ_le_succ (acc_leaf2Leaf1 G x y z d H)))) |>.trans (by omega))
      | @leaf2 _ b z w hx2 hF2 =>
        exact two (Nat.le_refl _) (Nat.le_refl _) (acc_read (C := 2 * splitCost d + 2) hx (Nat.succ_le_succ (acc_switch (C := 2 * splitCost d + 1) (readPtr_some hx2)
          (Nat.succ_le_succ (acc_leaf2Leaf2 G x y z w d H)))) |>.trans (by omega))
      | @branch _ b m2 k2 kn2 hd2 hx2 hF2 hk2 =>
        have h3 : 2 ≤ (elems (.branch m2 kn2)).length := Nat.le_of_succ_le hwn2.2
        exact two (Nat.le_refl _) h3 (acc_read (C := 2 * (splitCost d + 3 * c + 4) + 3 + 2) hx (Nat.succ_le_succ
          (acc_switch (C := 2 * (splitCost d + 3 * c + 4) + 3 + 1) (readPtr_some hx2)
            (Nat.succ_le_succ (acc_branchLeaf2 G heqf hcpf hqs hl hwn2 hc2 hs.1)))) |>.trans (by omega))
    | @twig _ a s la l hd hx hF ha hFa h3 hla hsl =>
      simp only [combineM]
      have hll : l.length = s.len := by rw [← hsl]; simp; omega
      cases hq with
      | nil _ => cases hnn2
      | @leaf1 _ b z hx2 hF2 =>
        refine one (len_pos hwn rfl) (len_pos hwn2 rfl) (acc_read hx (Nat.succ_le_of_lt (Nat.lt_of_le_of_lt (acc_switch (C := 1) (readPtr_some hx2) (Nat.le_refl _)) (by omega))))
      | @leaf2 _ b z w hx2 hF2 =>
        refine one (len_pos hwn rfl) (len_pos hwn2 rfl) (acc_read hx (Nat.succ_le_of_lt (Nat.lt_of_le_of_lt (acc_switch (C := 1) (readPtr_some hx2) (Nat.le_refl _)) (by omega))))
      | @branch _ b m2 k2 kn2 hd2 hx2 hF2 hk2 => exact absurd hd2 (by omega)
      | @twig _ b s2 la2 l2 hd2 hx2 hF2 ha2 hFa2 h32 hla2 hs2 =>
        have hll2 : l2.length = s2.len := by rw [← hs2]; simp; omega
        have hcl := hc.twig hd
        have hcl2 := hc2.twig hd2
        have hbound : s2.len + (2 * s.len + 2) * l2.length + 2 ≤ combineRate c d * min (elems (.twig l)).length (elems (.twig l2)).length := by
          simp only [elems]
          have h5 : s.len * l2.length ≤ c * min l.length l2.length := by
            rcases Nat.le_total l.length l2.length with h | h
            · rw [Nat.min_eq_left h, Nat.mul_comm, hll]; exact Nat.mul_le_mul_right _ (by omega)
            · rw [Nat.min_eq_right h]; exact Nat.mul_le_mul_right _ (by omega)
          have h6 : l2.length * 3 ≤ c * min l.length l2.length := Nat.mul_le_mul hcl2 (by omega)
          have h7 : (339 + 3 * c) * min l.length l2.length ≤ combineRate c d * min l.length l2.length := Nat.mul_le_mul_right _ hrate
          have h8 : (2 * s.len + 2) * l2.length = 2 * (s.len * l2.length) + 2 * l2.length := by rw [Nat.add_mul, Nat.mul_assoc]
          have h9 : (339 + 3 * c) * min l.length l2.length = 339 * min l.length l2.length + 3 * (c * min l.length l2.length) := by
            rw [Nat.add_mul, Nat.mul_assoc]
          have h10 : 3 ≤ min l.length l2.length := by omega
          omega
        refine Nat.le_trans ?_ hbound
        refine acc_read hx (Nat.succ_le_succ (acc_switch (readPtr_some hx2) (Nat.succ_le_succ ?_)))
        dsimp only
        refine acc_then (acc_readSlice s2 H) ?_ (Nat.le_refl _)
        intro l2' H1 hrun1
        rw [readSlice_run] at hrun1
        injection hrun1 with he1 he2
        have hl2' := slice_len he1
        refine acc_then (B := 0) (acc_twigScan G l2' s false 0 H1 (by omega)) ?_ (by rw [hl2', hll2]; exact Nat.le_refl _)
        rintro ⟨s', ms⟩ H2 hrun2
        have := twigScan_len G l2' s false 0 H1 H2 _ (by omega) hrun2
        dsimp only at this ⊢
        rw [if_pos (by unfold maxLeafLen; omega)]
        exact Nat.le_refl _
    | @branch _ a m k kn hd hx hF hk =>
      simp only [combineM]
      cases hq with
      | nil _ => cases hnn2
      | @twig _ b s2 la2 l2 hd2 hx2 hF2 => exact absurd hd2 (by omega)
      | @leaf1 _ b x hx2 hF2 =>
        exact one (len_pos hwn rfl) (Nat.le_refl _) (acc_read (C := splitCost d + 3 * c + 4 + 2) hx (Nat.succ_le_succ
          (acc_switch (C := splitCost d + 3 * c + 4 + 1) (readPtr_some hx2) (Nat.succ_le_succ (acc_branchLeaf1 G hself hwn hc)))) |>.trans (by omega))
      | @leaf2 _ b x y hx2 hF2 =>
        have h3 : 2 ≤ (elems (.branch m kn)).length := Nat.le_of_succ_le hwn.2
        exact two h3 (Nat.le_refl _) (acc_read (C := 2 * (splitCost d + 3 * c + 4) + 3 + 2) hx (Nat.succ_le_succ
          (acc_switch (C := 2 * (splitCost d + 3 * c + 4) + 3 + 1) (readPtr_some hx2)
            (Nat.succ_le_succ (acc_branchLeaf2 G heq hcp hself hl hwn hc hs.1)))) |>.trans (by omega))
      | @branch _ b m2 k2 kn2 hd2 hx2 hF2 hk2 =>
        have hw1 := hwn.2
        have hw2 := hwn2.2
        have hstep : combineRate c d = combineRate c (d + 1) + 7 := by unfold combineRate; omega
        have hX : 3 + ((List.finRange 8).map (fun i => 2 + combineRate c (d + 1) * min (elems (kn i)).length (elems (kn2 i)).length)).sum + 0 + 2
            ≤ combineRate c d * min (elems (.branch m kn)).length (elems (.branch m2 kn2)).length := by
          have := bulk_sum 2 (combineRate c (d + 1)) m m2 kn kn2
          rw [hstep, Nat.add_mul]
          omega
        refine Nat.le_trans ?_ hX
        refine acc_read hx (Nat.succ_le_succ (acc_switch (readPtr_some hx2) (Nat.succ_le_succ ?_)))
        dsimp only
        refine acc_fill (P := id) (J := fun _ => True) (d := d) (F := F) (C := fun i => 2 + combineRate c (d + 1) * min (elems (kn i)).length (elems (kn2 i)).length) (L := 0)
          (g := fun i (p : Packer T) =>
            if (kn i).isNil then .ok (p.setNonNilChild i (kn2 i), true, 0)
            else if (kn2 i).isNil then .ok (p.setNonNilChild i (kn i), true, 0)
            else do
              let (n, ms) ← combine (kn i) args (kn2 i) (d + 1)
              pure (⟨p.mask, setSlot p.data i n⟩, true, ms)) (t0 := Packer.zero)
          hl rfl trivial ?_ ?_ (Nat.le_refl _)
        · intro H1 ret i t H2 km hbit hc1 hretF hret1 hc12 hc2' hlive hfl _
          dsimp only [id] at hfl
          rw [(hk i).isNone, (hk2 i).isNone]
          have hfr : ∀ {p n}, Rep H F (d + 1) p n → Rep H2 (F ∪ New H1 H2) (d + 1) p n := fun h =>
            (h.next hc2').mono Set.subset_union_left
          by_cases hn : (kn i).isNil = true
          · rw [if_pos hn, if_pos hn]
            obtain ⟨e1, e2, e3⟩ := hfl.put hc12 (Changes.refl _ _) ((hfr (hk2 i)).mono Set.subset_union_left) hretF hret1 _ i
            exact ⟨Sim.step (setNonNilChildM_eq e1) (e2.weaken (fun _ h => .inl (.inl h))) (Sim.pure ⟨rfl, _, e3, trivial⟩),
              Nat.le_trans (acc_ret (g := fun _ : Unit => (true, (0 : Int))) (acc_setNonNil ret i (k2 i) H2)) (Nat.le_add_right _ _)⟩
          · rw [if_neg hn, if_neg hn]
            by_cases hn2 : (kn2 i).isNil = true
            · rw [if_pos hn2, if_pos hn2]
              obtain ⟨e1, e2, e3⟩ := hfl.put hc12 (Changes.refl _ _) ((hfr (hk i)).mono Set.subset_union_left) hretF hret1 _ i
              exact ⟨Sim.step (setNonNilChildM_eq e1) (e2.weaken (fun _ h => .inl (.inl h))) (Sim.pure ⟨rfl, _, e3, trivial⟩),
                Nat.le_trans (acc_ret (g := fun _ : Unit => (true, (0 : Int))) (acc_setNonNil ret i (k i) H2)) (Nat.le_add_right _ _)⟩
            · rw [if_neg hn2, if_neg hn2]
              have hsafe := hs i (by simpa using hn) (by simpa using hn2)
              refine ⟨?_, ?_⟩
              · refine Sim.bind ((combineM_sim G fuel H2 _ (d + 1) (k i) (k2 i) (kn i) (kn2 i) args (hfr (hk i)) (hfr (hk2 i)) hlive
                  (hf.succ hd) hsafe).weaken (W' := {Loc.cell ret} ∪ Fresh H1)
                  (R' := fun r s H' => r.2 = s.2 ∧ Changes ∅ H2 H' ∧ Rep H' (F ∪ New H1 H2 ∪ New H2 H') (d + 1) r.1 s.1)
                  (fun _ h => h.elim) (fun r s H' hc hr => ⟨hr.1, hc, hr.2⟩)) ?_
                rintro ⟨p', ms⟩ ⟨n', ms'⟩ H3 _ ⟨h1, hc3, h2⟩
                obtain rfl : ms = ms' := h1
                obtain ⟨e1, e2, e3⟩ := hfl.put hc12 hc3 h2 hretF hret1 t.mask i
                exact Sim.step (setDataM_eq e1) (e2.weaken (fun _ h => .inl (.inl (.inl h)))) (Sim.pure ⟨rfl, _, e3, trivial⟩)
              · refine acc_then (ih H2 _ (d + 1) (k i) (k2 i) (kn i) (kn2 i) args heq hcp (hfr (hk i)) (hfr (hk2 i)) hlive
                  (hf.succ hd) hsafe (hwn.1.2.2.1 i) (hwn2.1.2.2.1 i) (by simpa using hn2) (hc.kid hwn i) (hc2.kid hwn2 i)) ?_
                  (Nat.le_of_eq (Nat.add_comm _ 2))
                rintro ⟨p', ms⟩ H3 _
                exact acc_ret (g := fun _ : Unit => (true, ms)) (acc_setData ret i p' H3)
        · intro H1 ret t ok ms H2 km hc1 hret hc2 hfl _
          exact Nat.le_refl _

/-! ## Filtering a twig -/

theorem acc_twigFilter (G : Growth) (keep : T → MM T Bool) {H : Mem T} {A c : Nat}
    (hk : ∀ H', Changes ∅ H H' → ∀ e, (keep e).accesses H' ≤ A) (hkr : ∀ H', Changes ∅ H H' → ∀ e r H2, keep e H' = (.ok r, H2) → H2 = H') :
    ∀ (l : List T) (s : Slice) (H1 : Mem T), Changes ∅ H H1 → (s = Slice.nil ∨ Loc.arr s.arr ∈ Fresh H) → s.len + l.length ≤ c →
      (l.foldlM (fun s e => do if ← keep e then goAppend G s e else pure s) s).accesses H1 ≤ (A + c) * l.length ∧
      ∀ s' H', (l.foldlM (fun s e => do if ← keep e then goAppend G s e else pure s) s) H1 = (.ok s', H') → s'.len ≤ c
  | [], s, H1, _, _, hlen => ⟨Nat.zero_le _, fun s' H' h => by cases h; simpa using hlen⟩
  | e :: l, s, H1, hc, hs, hlen => by
    rw [List.length_cons] at hlen
    have hgo : ∀ b : Bool, (if b then goAppend G s e else pure s : MM T Slice).accesses H1 ≤ c := by
      intro b
      cases b with
      | true => exact Nat.le_trans (acc_goAppend G s e H1) (by omega)
      | false => exact Nat.zero_le _
    have hstep : (do if ← keep e then goAppend G s e else pure s : MM T Slice).accesses H1 ≤ A + c := by
      refine acc_bind_le (hk H1 hc e) ?_
      intro b H2 hrun
      rw [hkr H1 hc e b H2 hrun]
      exact hgo b
    have hnext : ∀ s' H2, (do if ← keep e then goAppend G s e else pure s : MM T Slice) H1 = (.ok s', H2) →
        Changes ∅ H H2 ∧ (s' = Slice.nil ∨ Loc.arr s'.arr ∈ Fresh H) ∧ s'.len ≤ s.len + 1 := by
      intro s' H2 hrun
      rw [MM.run_andThen] at hrun
      split at hrun
      · rename_i b H3 hb
        rw [hkr H1 hc e b H3 hb] at hrun
        cases b with
        | false => cases hrun; exact ⟨hc, hs, Nat.le_succ _⟩
        | true =>
          simp only [if_true] at hrun
          have hlen' := goAppend_len hrun
          unfold goAppend at hrun
          split at hrun
          · cases hrun
            rename_i hcap
            have hfr : Loc.arr s.arr ∈ Fresh H := by
              rcases hs with rfl | h
              · simp [Slice.nil] at hcap
              · exact h
            exact ⟨hc.trans (changes_writeArr _ _ _ _ (.inr hfr)), .inr hfr, by dsimp only; omega⟩
          · rw [MM.run_andThen, readSlice_run] at hrun
            cases hsl : H1.slice s with
            | error x => rw [hsl] at hrun; cases hrun
            | ok la =>
              rw [hsl] at hrun
              cases hrun
              exact ⟨hc.trans (changes_allocArr _ _ _), .inr (hc.mono _ (Nat.le_refl _)), by dsimp only; omega⟩
      · cases hrun
    rw [List.foldlM_cons]
    constructor
    · refine acc_then hstep ?_ (Nat.le_of_eq (show (A + c) + (A + c) * l.length = _ by rw [List.length_cons, Nat.mul_succ, Nat.add_comm]))
      intro s' H2 hrun
      obtain ⟨h1, h2, h3⟩ := hnext s' H2 hrun
      exact (acc_twigFilter G keep hk hkr l s' H2 h1 h2 (by omega)).1
    · intro s' H' hrun
      rw [MM.run_andThen] at hrun
      split at hrun
      · rename_i s2 H2 hrun2
        obtain ⟨h1, h2, h3⟩ := hnext s2 H2 hrun2
        exact (acc_twigFilter G keep hk hkr l s2 H2 h1 h2 (by omega)).2 s' H' hrun
      · cases hrun

/-- Filtering a twig and bringing it into canonical form. -/
theorem acc_twigFilterCanon {α : Type} (G : Growth) (keep : T → MM T Bool) {H : Mem T} {A c : Nat}
    (hk : ∀ H', Changes ∅ H H' → ∀ e, (keep e).accesses H' ≤ A) (hkr : ∀ H', Changes ∅ H H' → ∀ e r H2, keep e H' = (.ok r, H2) → H2 = H')
    {l : List T} (hl : l.length ≤ c) {d : Nat} (hd : maxTreeDepth ≤ d) (fm : Ptr → Slice → α) :
    (do let s' ← twigFilterM G keep l
        let b ← alloc (.twig s')
        let p ← twigCanonicalM G b s' d
        pure (fm p s') : MM T α).accesses H ≤ (A + c) * l.length + (c + 2) := by
  have h := acc_twigFilter G keep hk hkr l Slice.nil H (Changes.refl _ _) (.inl rfl) (by simpa [Slice.nil] using hl)
  refine acc_then h.1 ?_ (Nat.le_refl _)
  intro s' H1 hrun
  have hlen := h.2 s' H1 hrun
  refine acc_new ?_
  have := acc_ret (g := fun p : Ptr => fm p s') (acc_twigCanonical G H1.cells.length s' d ⟨H1.cells ++ [.twig s'], H1.arrays, H1.log⟩ (.inl hd))
  omega

/-- `Get` does not touch the memory. -/
theorem getP_pure {H H2 : Mem T} {F : Set Loc} {d : Nat} {q : Ptr} {n : Node T} (hq : Rep H F d q n) {x : T} {h : Hasher} {α : Type}
    (g : Option T → α) {r : α} (hr : (getP memFuel q x h >>= fun o => (pure (g o) : MM T α)) H = (.ok r, H2)) : H2 = H := by
  rw [MM.run_andThen, getP_run] at hr
  cases hv : getM H memFuel q x h with
  | error e => rw [hv] at hr; cases hr
  | ok o => rw [hv] at hr; cases hr; rfl

theorem acc_keep {H : Mem T} {F : Set Loc} {d c : Nat} {q : Ptr} {n : Node T} (hq : Rep H F d q n) (hw : WF d n) (hc : Few c d n)
    (hd : maxTreeDepth ≤ d) {α : Type} (g : Option T → α) (x : T) :
    (getP memFuel q x (newHasher x d) >>= fun o => (pure (g o) : MM T α)).accesses H ≤ 1 + c := by
  have h1 := acc_getP hq memFuel x (newHasher x d)
  have h2 := hc.on hw x
  exact acc_ret (g := g) (Nat.le_trans h1 (by omega))

/-! ## Difference -/

/-- What `Difference` may cost for each element of the smaller node. -/
def differenceRate (c d : Nat) : Nat := 710 + 4 * c + 2 * (c * c) + 17 * (maxTreeDepth - d)

theorem twig_bound {c l : Nat} (hl : l ≤ c) : (1 + c + c) * l + (c + 2) + l + 1 ≤ 3 + 4 * c + 2 * (c * c) := by
  have h1 : (1 + c + c) * l ≤ (1 + c + c) * c := Nat.mul_le_mul_left _ hl
  have h2 : (1 + c + c) * c = c + 2 * (c * c) := by rw [Nat.add_mul, Nat.add_mul, Nat.one_mul]; omega
  omega

theorem differenceM_cost (G : Growth) (c : Nat) (fuel : Nat) : ∀ (H : Mem T) (F : Set Loc) (d : Nat) (p q : Ptr) (n n2 : Node T),
    Rep H F d p n → Rep H F d q n2 → Live H F → FuelOk d fuel → WF d n → WF d n2 → n2.isNil = false → Few c d n → Few c d n2 →
    (differenceM G fuel p q d).accesses H ≤ differenceRate c d * min (elems n).length (elems n2).length := by
  have h22 : maxTreeDepth = 22 := rfl
  induction fuel with
  | zero => intro H F d p q n n2 _ _ _ hf; exact absurd hf.2 (Nat.lt_irrefl 0)
  | succ fuel ih =>
    intro H F d p q n n2 hr hq hl hf hwn hwn2 hnn2 hc hc2
    have hself := hr
    have hpos2 := len_pos hwn2 hnn2
    have hrate : 710 + 4 * c + 2 * (c * c) ≤ differenceRate c d := by unfold differenceRate; omega
    have one : ∀ {z : Nat} {a b : Nat}, 1 ≤ a → 1 ≤ b → z ≤ 710 + 4 * c + 2 * (c * c) → z ≤ differenceRate c d * min a b := by
      intro z a b ha hb hz
      exact Nat.le_trans (by omega) (Nat.mul_le_mul hrate (show 1 ≤ min a b by omega))
    have two : ∀ {z : Nat} {a b : Nat}, 2 ≤ a → 2 ≤ b → z ≤ 1420 + 8 * c + 4 * (c * c) → z ≤ differenceRate c d * min a b := by
      intro z a b ha hb hz
      exact Nat.le_trans (by omega) (Nat.mul_le_mul hrate (show 2 ≤ min a b by omega))
    have hget : ∀ x, (getP memFuel q x (newHasher x d)).accesses H ≤ 23 + c := fun x => by
      have h1 := acc_getP hq memFuel x (newHasher x d)
      have h2 := hc2.on hwn2 x
      omega
    cases hr with
    | nil _ => exact Nat.zero_le _
    | @leaf1 _ a x hx hF =>
      simp only [differenceM]
      refine one (Nat.le_refl _) hpos2 (acc_read (C := 24 + c) hx ?_ |>.trans (by omega))
      dsimp only
      refine Nat.le_trans (Nat.succ_le_succ (acc_then (B := 0) (hget x) ?_ (Nat.le_refl _))) (by omega)
      intro o H' _
      split <;> exact Nat.le_refl _
    | @leaf2 _ a x y hx hF =>
      simp only [differenceM]
      refine one (Nat.le_add_left 1 1) hpos2 (acc_read (C := 48 + 2 * c) hx ?_ |>.trans (by omega))
      dsimp only
      refine Nat.le_trans (Nat.succ_le_succ (acc_then (B := 24 + c) (hget x) ?_ (Nat.le_refl _))) (by omega)
      intro o H' hrun
      rw [getP_run] at hrun
      injection hrun with _ he
      subst he
      refine acc_then (B := 1) (hget y) ?_ (by omega)
      intro o2 H' _
      split
      · exact Nat.zero_le _
      · split
        · exact Nat.le_refl _
        · split
          · exact Nat.le_refl _
          · exact Nat.zero_le _
    | @twig _ a s la l hd hx hF ha hFa h3 hla hs =>
      simp only [differenceM]
      have hll : l.length = s.len := by rw [← hs]; simp; omega
      have hcl := hc.twig hd
      have hb := twig_bound hcl
      refine one (len_pos hwn rfl) hpos2 (acc_read (C := 3 + 4 * c + 2 * (c * c)) hx ?_ |>.trans (by omega))
      dsimp only
      refine Nat.le_trans (Nat.succ_le_succ (acc_step (B := (1 + c + c) * l.length + (c + 2)) (a := l) (H1 := H) (hs ▸ readSlice_eq ha hla)
        (acc_readSlice s H) ?_)) (by omega)
      refine acc_twigFilterCanon G _ ?_ ?_ hcl hd (fun p s' => (p, (l.length : Int) - s'.len))
      · intro H' hch e
        exact acc_keep (hq.next hch) hwn2 hc2 hd (fun g => !g.isSome) e
      · intro H' hch e r H2 hrun
        exact getP_pure (hq.next hch) (fun g => !g.isSome) hrun
    | @branch _ a m k kn hd hx hF hk =>
      simp only [differenceM]
      cases hq with
      | nil _ => cases hnn2
      | @twig _ b s2 la2 l2 hd2 hx2 hF2 => exact absurd hd2 (by omega)
      | @leaf1 _ b x hx2 hF2 =>
        have h1 := withoutM_cost G memFuel H F d (some a) _ x hself hl (fuelOk_mem d) hwn
        have h2 := hc.on hwn x
        exact one (len_pos hwn rfl) (Nat.le_refl _) (acc_read (C := 708 + 3 * c + 2) hx (Nat.succ_le_succ (acc_switch (C := 708 + 3 * c + 1)
          (readPtr_some hx2) (Nat.succ_le_succ (Nat.le_trans h1 (show _ ≤ 708 + 3 * c by omega))))) |>.trans (by omega))
      | @leaf2 _ b x y hx2 hF2 =>
        have h3 : 2 ≤ (elems (.branch m kn)).length := Nat.le_of_succ_le hwn.2
        refine two h3 (Nat.le_refl _) (acc_read (C := 1416 + 6 * c + 2) hx (Nat.succ_le_succ (acc_switch (C := 1416 + 6 * c + 1)
          (readPtr_some hx2) (Nat.succ_le_succ ?_))) |>.trans (by omega))
        dsimp only
        have h1 := withoutM_cost G memFuel H F d (some a) _ x hself hl (fuelOk_mem d) hwn
        have h2 := hc.on hwn x
        refine acc_then (A := 708 + 3 * c) (B := 708 + 3 * c) (Nat.le_trans h1 (by omega)) ?_ (by omega)
        rintro ⟨p1, m1⟩ H1 hrun
        obtain ⟨⟨n1, m1', sm1⟩, hv, hch, _, hr1, _⟩ := (withoutM_sim G memFuel H F d (some a) _ x _ hself hl (fuelOk_mem d)).ok hrun
        obtain ⟨n1', ms1', sm1', hv', hsp, _⟩ := without_spec (.branch m kn) d hwn rfl x
        rw [hv] at hv'
        cases hv'
        have h4 := withoutM_cost G memFuel H1 _ d p1 n1 y hr1 ((hl.next hch).union (live_new H H1)) (fuelOk_mem d) hsp.wf
        have h5 := (hc.sub hsp.perm).on hsp.wf y
        exact acc_ret (g := fun r : Ptr × Int => (r.1, m1 + r.2)) (Nat.le_trans h4 (by omega))
      | @branch _ b m2 k2 kn2 hd2 hx2 hF2 hk2 =>
        have hw1 := hwn.2
        have hw2 := hwn2.2
        have hstep : differenceRate c d = differenceRate c (d + 1) + 17 := by unfold differenceRate; omega
        have hX : 3 + ((List.finRange 8).map (fun i => 2 + differenceRate c (d + 1) * min (elems (kn i)).length (elems (kn2 i)).length)).sum + 30 + 2
            ≤ differenceRate c d * min (elems (.branch m kn)).length (elems (.branch m2 kn2)).length := by
          have := bulk_sum 2 (differenceRate c (d + 1)) m m2 kn kn2
          rw [hstep, Nat.add_mul]
          omega
        refine Nat.le_trans ?_ hX
        refine acc_read hx (Nat.succ_le_succ (acc_switch (readPtr_some hx2) (Nat.succ_le_succ ?_)))
        dsimp only
        refine acc_fill (P := id) (J := fun t => ∀ i, WF (d + 1) (t.data i)) (d := d) (F := F)
          (C := fun i => 2 + differenceRate c (d + 1) * min (elems (kn i)).length (elems (kn2 i)).length) (L := 30)
          (g := fun i (p : Packer T) =>
            if (kn2 i).isNil then .ok (⟨p.mask, setSlot p.data i (kn i)⟩, true, 0)
            else do
              let (n, ms) ← difference (kn i) (kn2 i) (d + 1)
              pure (⟨p.mask, setSlot p.data i n⟩, true, ms)) (t0 := Packer.zero)
          hl rfl (fun _ => trivial) ?_ ?_ (Nat.le_refl _)
        · intro H1 ret i t H2 km hbit hc1 hretF hret1 hc12 hc2' hlive hfl hJ
          dsimp only [id] at hfl
          rw [(hk2 i).isNone]
          have hput : ∀ n', WF (d + 1) n' → ∀ j, WF (d + 1) (setSlot t.data i n' j) := by
            intro n' hn' j
            by_cases hj : j = i
            · subst hj; rw [setSlot_same]; exact hn'
            · rw [setSlot_ne _ _ hj]; exact hJ j
          have hfr : ∀ {p n}, Rep H F (d + 1) p n → Rep H2 (F ∪ New H1 H2) (d + 1) p n := fun h =>
            (h.next hc2').mono Set.subset_union_left
          by_cases hn : (kn2 i).isNil = true
          · rw [if_pos hn, if_pos hn]
            obtain ⟨e1, e2, e3⟩ := hfl.put hc12 (Changes.refl _ _) ((hfr (hk i)).mono Set.subset_union_left) hretF hret1 t.mask i
            exact ⟨Sim.step (setDataM_eq e1) (e2.weaken (fun _ h => .inl (.inl h))) (Sim.pure ⟨rfl, _, e3, hput _ (hwn.1.2.2.1 i)⟩),
              Nat.le_trans (acc_ret (g := fun _ : Unit => (true, (0 : Int))) (acc_setData ret i (k i) H2)) (Nat.le_add_right _ _)⟩
          · rw [if_neg hn, if_neg hn]
            refine ⟨?_, ?_⟩
            · refine Sim.bind ((differenceM_sim G fuel H2 _ (d + 1) (k i) (k2 i) (kn i) (kn2 i) (hfr (hk i)) (hfr (hk2 i)) hlive
                (hf.succ hd)).withVal.weaken (W' := {Loc.cell ret} ∪ Fresh H1)
                (R' := fun r s H' => difference (kn i) (kn2 i) (d + 1) = .ok s ∧ r.2 = s.2 ∧ Changes ∅ H2 H' ∧
                  Rep H' (F ∪ New H1 H2 ∪ New H2 H') (d + 1) r.1 s.1)
                (fun _ h => h.elim) (fun r s H' hc hr => ⟨hr.1, hr.2.1, hc, hr.2.2⟩)) ?_
              rintro ⟨p', ms⟩ ⟨n', ms'⟩ H3 _ ⟨hv, h1, hc3, h2⟩
              obtain rfl : ms = ms' := h1
              obtain ⟨e1, e2, e3⟩ := hfl.put hc12 hc3 h2 hretF hret1 t.mask i
              have hki : (kn i).isNil = false := by
                have := mask_bit hwn.1 i
                rw [hbit] at this
                cases h : (kn i).isNil with
                | false => rfl
                | true => rw [h] at this; cases this
              obtain ⟨r, ms2, hv2, hsp⟩ := difference_spec (kn i) (d + 1) (kn2 i) (hwn.1.2.2.1 i) hki (hwn2.1.2.2.1 i) (by simpa using hn)
              rw [hv] at hv2
              cases hv2
              exact Sim.step (setDataM_eq e1) (e2.weaken (fun _ h => .inl (.inl (.inl h)))) (Sim.pure ⟨rfl, _, e3, hput _ hsp.wf⟩)
            · refine acc_then (ih H2 _ (d + 1) (k i) (k2 i) (kn i) (kn2 i) (hfr (hk i)) (hfr (hk2 i)) hlive
                (hf.succ hd) (hwn.1.2.2.1 i) (hwn2.1.2.2.1 i) (by simpa using hn) (hc.kid hwn i) (hc2.kid hwn2 i)) ?_
                (Nat.le_of_eq (Nat.add_comm _ 2))
              rintro ⟨p', ms⟩ H3 _
              exact acc_ret (g := fun _ : Unit => (true, ms)) (acc_setData ret i p' H3)
        · intro H1 ret t ok ms H2 km hc1 hret hc2 hfl hJ
          have hrep := hfl.rep hd hc1 hret
          refine acc_ret (g := fun p : Ptr => (p, ms)) (acc_branchCanonical G (F := F ∪ New H H2) (kn := t.data) hd hfl.1 (.inr hret) ?_ hJ)
          intro i
          exact (hfl.2 i).mono (by
            rintro l (h | h)
            · exact .inl h
            · exact .inr (new_sub' hc1 h))

/-! ## Intersection -/

theorem mask_kid {d : Nat} {m : Masker} {k : Fin 8 → Node T} (h : WF d (.branch m k)) {i : Fin 8} (hb : m.getLsbD i = true) :
    (k i).isNil = false := by
  have := mask_bit h.1 i
  rw [hb] at this
  cases h : (k i).isNil with
  | false => rfl
  | true => rw [h] at this; cases this

/-- What `Intersection` may cost for each element of the smaller node. -/
def intersectionRate (c d : Nat) : Nat := 49 + 4 * c + 2 * (c * c) + 17 * (maxTreeDepth - d)

theorem acc_leaf1Inter {H : Mem T} {F : Set Loc} {a d c : Nat} {x : T} {q : Ptr} {n : Node T} (hq : Rep H F d q n) (hw : WF d n)
    (hc : Few c d n) : (leaf1IntersectionM a x q d).accesses H ≤ 23 + c := by
  have h22 : maxTreeDepth = 22 := rfl
  unfold leaf1IntersectionM
  have h1 := acc_getP hq memFuel x (newHasher x d)
  have h2 := hc.on hw x
  refine acc_then (B := 0) (Nat.le_trans h1 (show _ ≤ 23 + c by omega)) ?_ (Nat.le_refl _)
  intro o H' _
  split <;> exact Nat.le_refl _

theorem acc_leaf2Inter {H : Mem T} {F : Set Loc} {a d c : Nat} {x y : T} {q : Ptr} {n : Node T} (hq : Rep H F d q n) (hw : WF d n)
    (hc : Few c d n) : (leaf2IntersectionM a x y q d).accesses H ≤ 47 + 2 * c := by
  have h22 : maxTreeDepth = 22 := rfl
  unfold leaf2IntersectionM
  have h1 := acc_getP hq memFuel x (newHasher x d)
  have h2 := hc.on hw x
  have h3 := acc_getP hq memFuel y (newHasher y d)
  have h4 := hc.on hw y
  refine acc_then (B := 24 + c) (Nat.le_trans h1 (show _ ≤ 23 + c by omega)) ?_ (by omega)
  intro o H' hrun
  rw [getP_run] at hrun
  injection hrun with _ he
  subst he
  refine acc_then (B := 1) (Nat.le_trans h3 (show _ ≤ 23 + c by omega)) ?_ (by omega)
  intro o2 H' _
  split
  · exact Nat.zero_le _
  · split
    · exact Nat.le_refl _
    · split
      · exact Nat.le_refl _
      · exact Nat.zero_le _

theorem intersectionM_cost (G : Growth) (c : Nat) (fuel : Nat) : ∀ (H : Mem T) (F : Set Loc) (d : Nat) (p q : Ptr) (n n2 : Node T),
    Rep H F d p n → Rep H F d q n2 → Live H F → FuelOk d fuel → WF d n → WF d n2 → n2.isNil = false → Few c d n → Few c d n2 →
    (intersectionM G fuel p q d).accesses H ≤ intersectionRate c d * min (elems n).length (elems n2).length := by
  have h22 : maxTreeDepth = 22 := rfl
  induction fuel with
  | zero => intro H F d p q n n2 _ _ _ hf; exact absurd hf.2 (Nat.lt_irrefl 0)
  | succ fuel ih =>
    intro H F d p q n n2 hr hq hl hf hwn hwn2 hnn2 hc hc2
    have hself := hr
    have hpos2 := len_pos hwn2 hnn2
    have hrate : 49 + 4 * c + 2 * (c * c) ≤ intersectionRate c d := by unfold intersectionRate; omega
    have one : ∀ {z : Nat} {a b : Nat}, 1 ≤ a → 1 ≤ b → z ≤ 49 + 4 * c + 2 * (c * c) → z ≤ intersectionRate c d * min a b := by
      intro z a b ha hb hz
      exact Nat.le_trans (by omega) (Nat.mul_le_mul hrate (show 1 ≤ min a b by omega))
    cases hr with
    | nil _ => exact Nat.zero_le _
    | @leaf1 _ a x hx hF =>
      simp only [intersectionM]
      exact one (Nat.le_refl _) hpos2 (acc_read hx (Nat.succ_le_succ (acc_leaf1Inter hq hwn2 hc2)) |>.trans (by omega))
    | @leaf2 _ a x y hx hF =>
      simp only [intersectionM]
      exact one (Nat.le_add_left 1 1) hpos2 (acc_read hx (Nat.succ_le_succ (acc_leaf2Inter hq hwn2 hc2)) |>.trans (by omega))
    | @twig _ a s la l hd hx hF ha hFa h3 hla hs =>
      simp only [intersectionM]
      have hll : l.length = s.len := by rw [← hs]; simp; omega
      have hcl := hc.twig hd
      have hb := twig_bound hcl
      refine one (len_pos hwn rfl) hpos2 (acc_read (C := 3 + 4 * c + 2 * (c * c)) hx ?_ |>.trans (by omega))
      dsimp only
      refine Nat.le_trans (Nat.succ_le_succ (acc_step (B := (1 + c + c) * l.length + (c + 2)) (a := l) (H1 := H) (hs ▸ readSlice_eq ha hla)
        (acc_readSlice s H) ?_)) (by omega)
      refine acc_twigFilterCanon G _ ?_ ?_ hcl hd (fun p s' => (p, (s'.len : Int)))
      · intro H' hch e
        exact acc_keep (hq.next hch) hwn2 hc2 hd (fun g => g.isSome) e
      · intro H' hch e r H2 hrun
        exact getP_pure (hq.next hch) (fun g => g.isSome) hrun
    | @branch _ a m k kn hd hx hF hk =>
      simp only [intersectionM]
      cases hq with
      | nil _ => cases hnn2
      | @twig _ b s2 la2 l2 hd2 hx2 hF2 => exact absurd hd2 (by omega)
      | @leaf1 _ b x hx2 hF2 =>
        exact one (len_pos hwn rfl) (Nat.le_refl _) (acc_read (C := 23 + c + 2) hx (Nat.succ_le_succ (acc_switch (C := 23 + c + 1)
          (readPtr_some hx2) (Nat.succ_le_succ (acc_leaf1Inter hself hwn hc)))) |>.trans (by omega))
      | @leaf2 _ b x y hx2 hF2 =>
        exact one (len_pos hwn rfl) (Nat.le_add_left 1 1) (acc_read (C := 47 + 2 * c + 2) hx (Nat.succ_le_succ (acc_switch (C := 47 + 2 * c + 1)
          (readPtr_some hx2) (Nat.succ_le_succ (acc_leaf2Inter hself hwn hc)))) |>.trans (by omega))
      | @branch _ b m2 k2 kn2 hd2 hx2 hF2 hk2 =>
        have hw1 := hwn.2
        have hw2 := hwn2.2
        have hstep : intersectionRate c d = intersectionRate c (d + 1) + 17 := by unfold intersectionRate; omega
        have hX : 3 + ((List.finRange 8).map (fun i => 2 + intersectionRate c (d + 1) * min (elems (kn i)).length (elems (kn2 i)).length)).sum + 30 + 2
            ≤ intersectionRate c d * min (elems (.branch m kn)).length (elems (.branch m2 kn2)).length := by
          have := bulk_sum 2 (intersectionRate c (d + 1)) m m2 kn kn2
          rw [hstep, Nat.add_mul]
          omega
        refine Nat.le_trans ?_ hX
        refine acc_read hx (Nat.succ_le_succ (acc_switch (readPtr_some hx2) (Nat.succ_le_succ ?_)))
        dsimp only
        refine acc_fill (P := id) (J := fun t => ∀ i, WF (d + 1) (t.data i)) (d := d) (F := F)
          (C := fun i => 2 + intersectionRate c (d + 1) * min (elems (kn i)).length (elems (kn2 i)).length) (L := 30)
          (g := fun i (p : Packer T) => do
              let (n, ms) ← intersection (kn i) (kn2 i) (d + 1)
              pure (⟨p.mask, setSlot p.data i n⟩, true, ms)) (t0 := Packer.zero)
          hl rfl (fun _ => trivial) ?_ ?_ (Nat.le_refl _)
        · intro H1 ret i t H2 km hbit hc1 hretF hret1 hc12 hc2' hlive hfl hJ
          dsimp only [id] at hfl
          rw [BitVec.getLsbD_and, Bool.and_eq_true] at hbit
          have hki := mask_kid hwn hbit.1
          have hki2 := mask_kid hwn2 hbit.2
          have hput : ∀ n', WF (d + 1) n' → ∀ j, WF (d + 1) (setSlot t.data i n' j) := by
            intro n' hn' j
            by_cases hj : j = i
            · subst hj; rw [setSlot_same]; exact hn'
            · rw [setSlot_ne _ _ hj]; exact hJ j
          have hfr : ∀ {p n}, Rep H F (d + 1) p n → Rep H2 (F ∪ New H1 H2) (d + 1) p n := fun h =>
            (h.next hc2').mono Set.subset_union_left
          refine ⟨?_, ?_⟩
          · refine Sim.bind ((intersectionM_sim G fuel H2 _ (d + 1) (k i) (k2 i) (kn i) (kn2 i) (hfr (hk i)) (hfr (hk2 i)) hlive
              (hf.succ hd)).withVal.weaken (W' := {Loc.cell ret} ∪ Fresh H1)
              (R' := fun r s H' => intersection (kn i) (kn2 i) (d + 1) = .ok s ∧ r.2 = s.2 ∧ Changes ∅ H2 H' ∧
                Rep H' (F ∪ New H1 H2 ∪ New H2 H') (d + 1) r.1 s.1)
              (fun _ h => h.elim) (fun r s H' hc hr => ⟨hr.1, hr.2.1, hc, hr.2.2⟩)) ?_
            rintro ⟨p', ms⟩ ⟨n', ms'⟩ H3 _ ⟨hv, h1, hc3, h2⟩
            obtain rfl : ms = ms' := h1
            obtain ⟨e1, e2, e3⟩ := hfl.put hc12 hc3 h2 hretF hret1 t.mask i
            obtain ⟨r, ms2, hv2, hsp⟩ := intersection_spec (kn i) (d + 1) (kn2 i) (hwn.1.2.2.1 i) hki (hwn2.1.2.2.1 i) hki2
            rw [hv] at hv2
            cases hv2
            exact Sim.step (setDataM_eq e1) (e2.weaken (fun _ h => .inl (.inl (.inl h)))) (Sim.pure ⟨rfl, _, e3, hput _ hsp.wf⟩)
          · refine acc_then (ih H2 _ (d + 1) (k i) (k2 i) (kn i) (kn2 i) (hfr (hk i)) (hfr (hk2 i)) hlive
              (hf.succ hd) (hwn.1.2.2.1 i) (hwn2.1.2.2.1 i) hki2 (hc.kid hwn i) (hc2.kid hwn2 i)) ?_
              (Nat.le_of_eq (Nat.add_comm _ 2))
            rintro ⟨p', ms⟩ H3 _
            exact acc_ret (g := fun _ : Unit => (true, ms)) (acc_setData ret i p' H3)
        · intro H1 ret t ok ms H2 km hc1 hret hc2 hfl hJ
          refine acc_ret (g := fun p : Ptr => (p, ms)) (acc_branchCanonical G (F := F ∪ New H H2) (kn := t.data) hd hfl.1 (.inr hret) ?_ hJ)
          intro i
          exact (hfl.2 i).mono (by
            rintro l (h | h)
            · exact .inl h
            · exact .inr (new_sub' hc1 h))

/-! ## Where -/

/-- What `Where` may cost for each element. -/
def whereRate (c d : Nat) : Nat := c + 4 + 18 * (maxTreeDepth - d)

theorem whereM_cost (G : Growth) (pred : T → Bool) (c : Nat) (fuel : Nat) : ∀ (H : Mem T) (F : Set Loc) (d : Nat) (p : Ptr) (n : Node T),
    Rep H F d p n → Live H F → FuelOk d fuel → WF d n → Few c d n →
    (whereM G pred fuel p d).accesses H ≤ whereRate c d * (elems n).length := by
  have h22 : maxTreeDepth = 22 := rfl
  induction fuel with
  | zero => intro H F d p n _ _ hf; exact absurd hf.2 (Nat.lt_irrefl 0)
  | succ fuel ih =>
    intro H F d p n hr hl hf hwn hc
    have hrate : c + 4 ≤ whereRate c d := by unfold whereRate; omega
    cases hr with
    | nil _ => exact Nat.zero_le _
    | @leaf1 _ a x hx hF =>
      simp only [whereM]
      refine Nat.le_trans (acc_read (C := 1) hx ?_) (show 1 ≤ _ * 1 by omega)
      dsimp only
      split <;> exact Nat.le_refl _
    | @leaf2 _ a x y hx hF =>
      simp only [whereM]
      refine Nat.le_trans (acc_read (C := 2) hx ?_) (show 2 ≤ _ * 2 by omega)
      dsimp only
      split
      · exact Nat.le_succ _
      · split
        · exact Nat.le_refl _
        · split
          · exact Nat.le_refl _
          · exact Nat.le_succ _
    | @twig _ a s la l hd hx hF ha hFa h3 hla hs =>
      simp only [whereM]
      have hll : l.length = s.len := by rw [← hs]; simp; omega
      have hcl := hc.twig hd
      have hb : (0 + l.length) * l.length + (l.length + 2) + s.len + 1 ≤ whereRate c d * (elems (.twig l)).length := by
        have h1 : (c + 4) * l.length ≤ whereRate c d * (elems (.twig l)).length := Nat.mul_le_mul_right _ hrate
        have h2 : (0 + l.length) * l.length ≤ c * l.length := Nat.mul_le_mul_right _ (by omega)
        have h3 : (c + 4) * l.length = c * l.length + 4 * l.length := Nat.add_mul _ _ _
        omega
      refine Nat.le_trans (acc_read (C := (0 + l.length) * l.length + (l.length + 2) + s.len + 1) hx ?_) hb
      dsimp only
      refine Nat.le_trans (Nat.succ_le_succ (acc_step (B := (0 + l.length) * l.length + (l.length + 2)) (a := l) (H1 := H) (hs ▸ readSlice_eq ha hla)
        (acc_readSlice s H) ?_)) (by omega)
      refine acc_twigFilterCanon G _ ?_ ?_ (Nat.le_refl _) hd (fun p s' => (p, (s'.len : Int)))
      · intro H' hch e
        exact Nat.le_refl _
      · intro H' hch e r H2 hrun
        cases hrun
        rfl
    | @branch _ a m k kn hd hx hF hk =>
      simp only [whereM]
      have hw1 := hwn.2
      have hstep : whereRate c d = whereRate c (d + 1) + 18 := by unfold whereRate; omega
      have hX : 3 + ((List.finRange 8).map (fun i => 2 + whereRate c (d + 1) * (elems (kn i)).length)).sum + 32 + 1
          ≤ whereRate c d * (elems (.branch m kn)).length := by
        have h1 := sum_affine (fun x => 2 + whereRate c (d + 1) * x) 2 (whereRate c (d + 1)) (fun _ => rfl) (fun i => (elems (kn i)).length) (List.finRange 8)
        have h2 := length_branch m kn
        have h3 : (List.finRange 8).length = 8 := by simp
        rw [h1, h3, ← h2, hstep, Nat.add_mul]
        omega
      refine Nat.le_trans ?_ hX
      refine acc_read hx (Nat.succ_le_succ ?_)
      dsimp only
      refine acc_fill (P := id) (J := fun t => ∀ i, WF (d + 1) (t.data i)) (d := d) (F := F)
        (C := fun i => 2 + whereRate c (d + 1) * (elems (kn i)).length) (L := 32)
        (g := fun i (p : Packer T) => do
            let (n, ms, _) ← «where» pred (kn i) (d + 1)
            pure (⟨p.mask, setSlot p.data i n⟩, true, ms)) (t0 := Packer.zero)
        hl rfl (fun _ => trivial) ?_ ?_ (Nat.le_refl _)
      · intro H1 ret i t H2 km hbit hc1 hretF hret1 hc12 hc2' hlive hfl hJ
        dsimp only [id] at hfl
        have hki := mask_kid hwn hbit
        have hput : ∀ n', WF (d + 1) n' → ∀ j, WF (d + 1) (setSlot t.data i n' j) := by
          intro n' hn' j
          by_cases hj : j = i
          · subst hj; rw [setSlot_same]; exact hn'
          · rw [setSlot_ne _ _ hj]; exact hJ j
        have hfr : ∀ {p n}, Rep H F (d + 1) p n → Rep H2 (F ∪ New H1 H2) (d + 1) p n := fun h =>
          (h.next hc2').mono Set.subset_union_left
        refine ⟨?_, ?_⟩
        · refine Sim.bind ((whereM_sim G pred fuel H2 _ (d + 1) (k i) (kn i) (hfr (hk i)) hlive
            (hf.succ hd)).withVal.weaken (W' := {Loc.cell ret} ∪ Fresh H1)
            (R' := fun r s H' => «where» pred (kn i) (d + 1) = .ok s ∧ r.2 = s.2.1 ∧ Changes ∅ H2 H' ∧
              Rep H' (F ∪ New H1 H2 ∪ New H2 H') (d + 1) r.1 s.1)
            (fun _ h => h.elim) (fun r s H' hc hr => ⟨hr.1, hr.2.1, hc, hr.2.2.1⟩)) ?_
          rintro ⟨p', ms⟩ ⟨n', ms', sm⟩ H3 _ ⟨hv, h1, hc3, h2⟩
          obtain rfl : ms = ms' := h1
          obtain ⟨e1, e2, e3⟩ := hfl.put hc12 hc3 h2 hretF hret1 t.mask i
          obtain ⟨r, ms2, sm2, hv2, hwr, _⟩ := where_spec pred (kn i) (d + 1) (hwn.1.2.2.1 i) hki
          rw [hv] at hv2
          cases hv2
          exact Sim.step (setDataM_eq e1) (e2.weaken (fun _ h => .inl (.inl (.inl h)))) (Sim.pure ⟨rfl, _, e3, hput _ hwr⟩)
        · refine acc_then (ih H2 _ (d + 1) (k i) (kn i) (hfr (hk i)) hlive (hf.succ hd) (hwn.1.2.2.1 i) (hc.kid hwn i)) ?_
            (Nat.le_of_eq (Nat.add_comm _ 2))
          rintro ⟨p', ms⟩ H3 _
          exact acc_ret (g := fun _ : Unit => (true, ms)) (acc_setData ret i p' H3)
      · intro H1 ret t ok ms H2 km hc1 hret hc2 hfl hJ
        refine acc_read hfl.1 (Nat.succ_le_succ (m := 31) ?_)
        dsimp only
        split
        · exact Nat.zero_le _
        · refine acc_new (Nat.succ_le_succ (m := 30) ?_)
          have hca := changes_alloc ∅ H2 (.branch t.updateMask.mask km : Cell T)
          refine acc_ret (g := fun p : Ptr => (p, ms)) (acc_branchCanonical G
            (F := F ∪ New H H2 ∪ New H2 ⟨H2.cells ++ [.branch t.updateMask.mask km], H2.arrays, H2.log⟩) (kn := t.data) hd cells_new (.inr new_cell) ?_ hJ)
          intro i
          refine ((hfl.2 i).next hca).mono (fun l h => ?_)
          rcases h with h | h
          · exact .inl (.inl h)
          · exact .inl (.inr (new_sub' hc1 h))

/-! ## The calls on trees -/

theorem few_of_hash {n : Node T} {c : Nat} (h : ∀ v : T, ((elems n).filter (fun e => decide (hash0 e = hash0 v))).length ≤ c) : Few c 0 n := by
  intro v
  refine Nat.le_trans (Nat.le_of_eq ?_) (h v)
  congr 1
  refine List.filter_congr (fun e _ => Bool.eq_iff_iff.2 ?_)
  rw [agree_22, decide_eq_true_eq]

variable {H : Mem T} {F : Set Loc} {t u : MTree} {n n2 : Node T} {c : Nat}

theorem acc_tree_combine (G : Growth) {args : CombineArgs T} (heq : args.eq = GoKey.eq) (hcp : ClassPres args.f) (h : Rep H F 0 t.root n)
    (h2 : Rep H F 0 u.root n2) (hl : Live H F) (hs : CombineSafe n args n2 0) (hw : WF 0 n) (hw2 : WF 0 n2) (hc : Few c 0 n) (hc2 : Few c 0 n2) :
    (t.combine G args u).accesses H ≤ (493 + 3 * c) * min (elems n).length (elems n2).length := by
  unfold MTree.combine
  split
  · exact Nat.zero_le _
  · split
    · exact Nat.zero_le _
    · rename_i hu
      have hn2 : n2.isNil = false := by rw [← h2.isNone]; exact Bool.eq_false_iff.2 hu
      refine acc_ret (g := fun r : Ptr × Int => (⟨r.1, t.count + u.count - r.2⟩ : MTree)) (Nat.le_trans
        (combineM_cost G c memFuel H F 0 t.root u.root n n2 args heq hcp h h2 hl (fuelOk_mem 0) hs hw hw2 hn2 hc hc2) (Nat.mul_le_mul_right _ ?_))
      have h22 : maxTreeDepth = 22 := rfl
      unfold combineRate
      omega

theorem acc_tree_difference (G : Growth) (h : Rep H F 0 t.root n)
    (h2 : Rep H F 0 u.root n2) (hl : Live H F) (hw : WF 0 n) (hw2 : WF 0 n2) (hc : Few c 0 n) (hc2 : Few c 0 n2) :
    (t.difference G u).accesses H ≤ (1084 + 4 * c + 2 * (c * c)) * min (elems n).length (elems n2).length := by
  unfold MTree.difference
  split
  · exact Nat.zero_le _
  · rename_i hu
    rw [Bool.or_eq_true, not_or] at hu
    have hn2 : n2.isNil = false := by rw [← h2.isNone]; exact Bool.eq_false_iff.2 hu.2
    refine acc_ret (g := fun r : Ptr × Int => (⟨r.1, t.count - r.2⟩ : MTree)) (Nat.le_trans
      (differenceM_cost G c memFuel H F 0 t.root u.root n n2 h h2 hl (fuelOk_mem 0) hw hw2 hn2 hc hc2) (Nat.mul_le_mul_right _ ?_))
    have h22 : maxTreeDepth = 22 := rfl
    unfold differenceRate
    omega

theorem acc_tree_intersection (G : Growth) (h : Rep H F 0 t.root n)
    (h2 : Rep H F 0 u.root n2) (hl : Live H F) (hw : WF 0 n) (hw2 : WF 0 n2) (hc : Few c 0 n) (hc2 : Few c 0 n2) :
    (t.intersection G u).accesses H ≤ (423 + 4 * c + 2 * (c * c)) * min (elems n).length (elems n2).length := by
  have h22 : maxTreeDepth = 22 := rfl
  unfold MTree.intersection
  split
  · exact Nat.zero_le _
  · rename_i hu
    rw [Bool.or_eq_true, not_or] at hu
    have hn : n.isNil = false := by rw [← h.isNone]; exact Bool.eq_false_iff.2 hu.1
    have hn2 : n2.isNil = false := by rw [← h2.isNone]; exact Bool.eq_false_iff.2 hu.2
    have hrate : intersectionRate c 0 ≤ 423 + 4 * c + 2 * (c * c) := by unfold intersectionRate; omega
    by_cases hcnt : t.count > u.count
    · rw [if_pos hcnt]
      refine acc_ret (g := fun r : Ptr × Int => (⟨r.1, r.2⟩ : MTree)) (Nat.le_trans
        (intersectionM_cost G c memFuel H F 0 u.root t.root n2 n h2 h hl (fuelOk_mem 0) hw2 hw hn hc2 hc) ?_)
      rw [Nat.min_comm]
      exact Nat.mul_le_mul_right _ hrate
    · rw [if_neg hcnt]
      exact acc_ret (g := fun r : Ptr × Int => (⟨r.1, r.2⟩ : MTree)) (Nat.le_trans
        (intersectionM_cost G c memFuel H F 0 t.root u.root n n2 h h2 hl (fuelOk_mem 0) hw hw2 hn2 hc hc2) (Nat.mul_le_mul_right _ hrate))

theorem acc_tree_where (G : Growth) (pred : T → Bool) (h : Rep H F 0 t.root n) (hl : Live H F) (hw : WF 0 n) (hc : Few c 0 n) :
    (t.where G pred).accesses H ≤ (400 + c) * (elems n).length := by
  unfold MTree.where
  split
  · exact Nat.zero_le _
  · refine acc_ret (g := fun r : Ptr × Int => (⟨r.1, r.2⟩ : MTree)) (Nat.le_trans
      (whereM_cost G pred c memFuel H F 0 t.root n h hl (fuelOk_mem 0) hw hc) (Nat.mul_le_mul_right _ ?_))
    have h22 : maxTreeDepth = 22 := rfl
    unfold whereRate
    omega

end Frozen
