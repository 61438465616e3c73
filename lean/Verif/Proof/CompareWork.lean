import Verif.Proof.BulkOps
import Verif.Proof.MemCompare

/-! What `Equal` and `SubsetOf` cost. -/

set_option linter.unusedSectionVars false

namespace Frozen

variable {T : Type} [GoKey T] [LawfulGoKey T]

theorem acc_allP {f : T → MM T Bool} {H : Mem T} {C : Nat} (hf : ∀ e, (f e H).2 = H) (hC : ∀ e, (f e).accesses H ≤ C) :
    ∀ l : List T, (allP f l).accesses H ≤ C * l.length
  | [] => Nat.zero_le _
  | e :: es => by
    unfold allP
    have ih := acc_allP hf hC es
    refine acc_then (hC e) (B := C * es.length) ?_ (by rw [List.length_cons, Nat.mul_succ]; omega)
    intro b H' hr
    have := hf e
    rw [hr] at this
    dsimp only at this
    subst this
    cases b with
    | true => exact ih
    | false => exact Nat.zero_le _

/-- Bodies that change nothing. -/
theorem acc_parallelPure {f : Fin 8 → MM T (Bool × Int)} {H : Mem T} {C : Fin 8 → Nat} (hf : ∀ i, (f i H).2 = H) :
    ∀ (is : List Nat) (ms : Int), (∀ i : Fin 8, i.val ∈ is → (f i).accesses H ≤ C i) → (parallelLoopM f is ms).accesses H ≤ slotSum C is
  | [], _, _ => Nat.zero_le _
  | i :: is, ms, hC => by
    unfold parallelLoopM slotSum
    rw [List.map_cons, List.sum_cons]
    by_cases h : i < 8
    · simp only [dif_pos h]
      refine acc_then (hC ⟨i, h⟩ (by simp)) ?_ (Nat.le_refl _)
      rintro ⟨ok, m⟩ H' hr
      have := hf ⟨i, h⟩
      rw [hr] at this
      dsimp only at this
      subst this
      cases ok with
      | false => exact Nat.zero_le _
      | true => exact acc_parallelPure hf is (ms + m) (fun j hj => hC j (by simp [hj]))
    · simp only [dif_neg h]
      exact Nat.zero_le _

theorem acc_slots {f : Fin 8 → MM T (Bool × Int)} {H : Mem T} {C : Fin 8 → Nat} {mask : Masker} (hf : ∀ i, (f i H).2 = H)
    (hC : ∀ i : Fin 8, mask.getLsbD i = true → (f i).accesses H ≤ C i) :
    (parallelM mask f).accesses H ≤ ((List.finRange 8).map C).sum :=
  Nat.le_trans (acc_parallelPure hf _ _ (fun i hi => hC i (by rw [bitLoop_eq, List.mem_filter] at hi; exact hi.2))) (slotSum_bits C mask)

/-! ## Equal -/

/-- What `Equal` may cost for each element of the smaller node. -/
def equalRate (c d : Nat) : Nat := 2 + c + c * c + 2 * (maxTreeDepth - d)

theorem equalP_cost (eq : T → T → Bool) (c : Nat) (fuel : Nat) : ∀ (H : Mem T) (F : Set Loc) (d : Nat) (p q : Ptr) (n n2 : Node T),
    Rep H F d p n → Rep H F d q n2 → FuelOk d fuel → WF d n → WF d n2 → n2.isNil = false → Few c d n → Few c d n2 →
    (Frozen.equalP eq fuel p q).accesses H ≤ equalRate c d * min (elems n).length (elems n2).length := by
  have h22 : maxTreeDepth = 22 := rfl
  induction fuel with
  | zero => intro H F d p q n n2 _ _ hf; exact absurd hf.2 (Nat.lt_irrefl 0)
  | succ fuel ih =>
    intro H F d p q n n2 hr hq hf hwn hwn2 hnn2 hc hc2
    have hpos2 := len_pos hwn2 hnn2
    have hrate : 2 + c + c * c ≤ equalRate c d := by unfold equalRate; omega
    have one : ∀ {z : Nat} {a b : Nat}, 1 ≤ a → 1 ≤ b → z ≤ 2 + c + c * c → z ≤ equalRate c d * min a b := by
      intro z a b ha hb hz
      exact Nat.le_trans (by omega) (Nat.mul_le_mul hrate (show 1 ≤ min a b by omega))
    have two : ∀ {f : Option (Cell T) → MM T Bool}, (∀ x, (f x).accesses H = 0) → (readPtr q >>= f).accesses H + 1 ≤ 2 + c + c * c := by
      intro f hz
      have := acc_then (acc_readPtr q H) (f := f) (B := 0) (C := 1) (fun x H' hx => ?_) (Nat.le_refl _)
      · omega
      · cases q with
        | none => cases hx; exact Nat.le_of_eq (hz _)
        | some b =>
          obtain ⟨cl, hcl⟩ : ∃ cl, H.cells[b]? = some cl := by cases hq <;> exact ⟨_, by assumption⟩
          rw [readPtr_at hcl] at hx
          cases hx; exact Nat.le_of_eq (hz _)
    cases hr with
    | nil _ => exact Nat.zero_le _
    | @leaf1 _ a x hx hF =>
      simp only [Frozen.equalP]
      refine one (Nat.le_refl _) hpos2 (acc_read hx (two (fun x => ?_)))
      split <;> rfl
    | @leaf2 _ a x y hx hF =>
      simp only [Frozen.equalP]
      refine one (Nat.le_add_left 1 1) hpos2 (acc_read hx (two (fun x => ?_)))
      split <;> rfl
    | @twig _ a s la l hd hx hF ha hFa h3 hla hs =>
      have hll : l.length = s.len := by rw [← hs]; simp; omega
      have hcl := hc.twig hd
      refine one (len_pos hwn rfl) hpos2 ?_
      simp only [Frozen.equalP]
      refine acc_read hx ?_
      cases hq with
      | nil _ => cases hnn2
      | leaf1 hy _ => exact Nat.succ_le_succ (acc_switch (C := 1) (readPtr_at hy) (Nat.le_refl _)) |>.trans (by omega)
      | leaf2 hy _ => exact Nat.succ_le_succ (acc_switch (C := 1) (readPtr_at hy) (Nat.le_refl _)) |>.trans (by omega)
      | branch _ hy _ _ => exact Nat.succ_le_succ (acc_switch (C := 1) (readPtr_at hy) (Nat.le_refl _)) |>.trans (by omega)
      | @twig _ _ s' la' l' _ hy _ ha' _ _ hl' hs' =>
        have hll' : l'.length = s'.len := by rw [← hs']; simp; omega
        have hcl' := hc2.twig hd
        refine Nat.succ_le_succ (acc_switch (C := 1 + c + c * c) (readPtr_at hy) (Nat.le_trans (Nat.succ_le_succ (m := c + c * c) ?_) (by omega)))
          |>.trans (by omega)
        dsimp only
        split
        · exact Nat.zero_le _
        · refine acc_step (A := c) (B := c * c) (a := l) (H1 := H) (hs ▸ readSlice_eq ha hla) (Nat.le_trans (acc_readSlice s H) (by omega)) ?_
          refine Nat.le_trans (acc_allP (C := c) (fun e => ?_) (fun e => ?_) l) (Nat.mul_le_mul_left _ hcl)
          · rw [run_bind (readSlice_eq ha' hl')]; rfl
          · exact acc_ret (g := fun l' : List T => l'.any (fun f => eq e f)) (Nat.le_trans (acc_readSlice s' H) (by omega))
    | @branch _ a m k kn hd hx hF hk =>
      simp only [Frozen.equalP]
      cases hq with
      | nil _ => cases hnn2
      | leaf1 hy _ => exact one (len_pos hwn rfl) hpos2 (acc_read hx (Nat.succ_le_succ (acc_switch (C := 1) (readPtr_at hy) (Nat.le_refl _)) |>.trans (by omega)))
      | leaf2 hy _ => exact one (len_pos hwn rfl) hpos2 (acc_read hx (Nat.succ_le_succ (acc_switch (C := 1) (readPtr_at hy) (Nat.le_refl _)) |>.trans (by omega)))
      | twig hd2 => exact absurd hd2 (by omega)
      | @branch _ b m2 k2 kn2 _ hy hF2 hk2 =>
        have hstep : equalRate c d = equalRate c (d + 1) + 2 := by unfold equalRate; omega
        have hw1 := hwn.2
        have hw2 := hwn2.2
        have hX : ((List.finRange 8).map (fun i => 0 + equalRate c (d + 1) * min (elems (kn i)).length (elems (kn2 i)).length)).sum + 2
            ≤ equalRate c d * min (elems (.branch m kn)).length (elems (.branch m2 kn2)).length := by
          have := bulk_sum 0 (equalRate c (d + 1)) m m2 kn kn2
          rw [hstep, Nat.add_mul]
          omega
        refine Nat.le_trans ?_ hX
        refine acc_read hx (Nat.succ_le_succ (acc_switch (readPtr_at hy) (Nat.succ_le_succ ?_)))
        dsimp only
        by_cases hm : m = m2
        · subst hm
          simp only [ne_eq, not_true_eq_false, if_false]
          refine acc_ret (g := fun r : Bool × Int => r.1) (acc_slots (fun i => ?_) (fun i hb => ?_))
          · rw [MM.run_andThen, Frozen.equalP_eq eq (hk i) fuel (hk2 i) (hf.succ hd)]
            cases equal eq (kn i) (kn2 i) <;> rfl
          · rw [Nat.zero_add]
            exact acc_ret (g := fun r : Bool => (r, (0 : Int))) (ih H F (d + 1) (k i) (k2 i) (kn i) (kn2 i) (hk i) (hk2 i) (hf.succ hd)
              (hwn.1.2.2.1 i) (hwn2.1.2.2.1 i) (mask_kid hwn2 hb) (hc.kid hwn i) (hc2.kid hwn2 i))
        · simp only [hm, ne_eq, not_false_eq_true, if_true]
          exact Nat.zero_le _

/-! ## SubsetOf -/

/-- What `SubsetOf` may cost for each element of the smaller node. -/
def subsetRate (c d : Nat) : Nat := 47 + 2 * c + c * c + 2 * (maxTreeDepth - d)

theorem subsetOfP_cost (c : Nat) (fuel : Nat) : ∀ (H : Mem T) (F : Set Loc) (d : Nat) (p q : Ptr) (n n2 : Node T),
    Rep H F d p n → Rep H F d q n2 → FuelOk d fuel → WF d n → WF d n2 → n2.isNil = false → Few c d n → Few c d n2 →
    (Frozen.subsetOfP fuel p q d).accesses H ≤ subsetRate c d * min (elems n).length (elems n2).length := by
  have h22 : maxTreeDepth = 22 := rfl
  induction fuel with
  | zero => intro H F d p q n n2 _ _ hf; exact absurd hf.2 (Nat.lt_irrefl 0)
  | succ fuel ih =>
    intro H F d p q n n2 hr hq hf hwn hwn2 hnn2 hc hc2
    have hpos2 := len_pos hwn2 hnn2
    have hrate : 47 + 2 * c + c * c ≤ subsetRate c d := by unfold subsetRate; omega
    have one : ∀ {z : Nat} {a b : Nat}, 1 ≤ a → 1 ≤ b → z ≤ 47 + 2 * c + c * c → z ≤ subsetRate c d * min a b := by
      intro z a b ha hb hz
      exact Nat.le_trans (by omega) (Nat.mul_le_mul hrate (show 1 ≤ min a b by omega))
    have hget : ∀ x, (getP memFuel q x (newHasher x d)).accesses H ≤ 23 + c := fun x => by
      have h1 := acc_getP hq memFuel x (newHasher x d)
      have h2 := hc2.on hwn2 x
      omega
    have hpure : ∀ (x : T) (g : Option T → Bool), ((getP memFuel q x (newHasher x d) >>= fun o => (pure (g o) : MM T Bool)) H).2 = H := by
      intro x g
      rw [MM.run_andThen, getP_run]
      cases getM H memFuel q x (newHasher x d) <;> rfl
    cases hr with
    | nil _ => exact Nat.zero_le _
    | @leaf1 _ a x hx hF =>
      simp only [Frozen.subsetOfP]
      exact one (Nat.le_refl _) hpos2 (acc_read hx (Nat.succ_le_succ (acc_ret (g := fun g : Option T => g.isSome) (hget x)) |>.trans (by omega)))
    | @leaf2 _ a x y hx hF =>
      simp only [Frozen.subsetOfP]
      refine one (Nat.le_add_left 1 1) hpos2 (acc_read hx (Nat.succ_le_succ (acc_then (hget x) (B := 23 + c) ?_ (Nat.le_refl _)) |>.trans (by omega)))
      intro o H' hr
      rw [getP_run] at hr
      injection hr with _ he
      subst he
      split
      · exact acc_ret (g := fun g : Option T => g.isSome) (hget y)
      · exact Nat.zero_le _
    | @twig _ a s la l hd hx hF ha hFa h3 hla hs =>
      simp only [Frozen.subsetOfP]
      have hll : l.length = s.len := by rw [← hs]; simp; omega
      have hcl := hc.twig hd
      refine one (len_pos hwn rfl) hpos2 (acc_read hx ?_)
      dsimp only
      refine Nat.le_trans (Nat.succ_le_succ (acc_step (A := c) (B := (1 + c) * l.length) (a := l) (H1 := H) (hs ▸ readSlice_eq ha hla)
        (Nat.le_trans (acc_readSlice s H) (by omega)) ?_)) ?_
      · exact acc_allP (fun e => hpure e (fun g => g.isSome)) (fun e => acc_keep hq hwn2 hc2 hd (fun g => g.isSome) e) l
      · have h1 : (1 + c) * l.length ≤ (1 + c) * c := Nat.mul_le_mul_left _ hcl
        have h2 : (1 + c) * c = c + c * c := by rw [Nat.add_mul, Nat.one_mul]
        omega
    | @branch _ a m k kn hd hx hF hk =>
      simp only [Frozen.subsetOfP]
      cases hq with
      | nil _ => cases hnn2
      | leaf1 hy _ => exact one (len_pos hwn rfl) hpos2 (acc_read hx (Nat.succ_le_succ (acc_switch (C := 1) (readPtr_at hy) (Nat.le_refl _)) |>.trans (by omega)))
      | leaf2 hy _ => exact one (len_pos hwn rfl) hpos2 (acc_read hx (Nat.succ_le_succ (acc_switch (C := 1) (readPtr_at hy) (Nat.le_refl _)) |>.trans (by omega)))
      | twig hd2 => exact absurd hd2 (by omega)
      | @branch _ b m2 k2 kn2 _ hy hF2 hk2 =>
        have hstep : subsetRate c d = subsetRate c (d + 1) + 2 := by unfold subsetRate; omega
        have hw1 := hwn.2
        have hw2 := hwn2.2
        have hX : ((List.finRange 8).map (fun i => 0 + subsetRate c (d + 1) * min (elems (kn i)).length (elems (kn2 i)).length)).sum + 2
            ≤ subsetRate c d * min (elems (.branch m kn)).length (elems (.branch m2 kn2)).length := by
          have := bulk_sum 0 (subsetRate c (d + 1)) m m2 kn kn2
          rw [hstep, Nat.add_mul]
          omega
        refine Nat.le_trans ?_ hX
        refine acc_read hx (Nat.succ_le_succ (acc_switch (readPtr_at hy) (Nat.succ_le_succ ?_)))
        dsimp only
        refine acc_ret (g := fun r : Bool × Int => r.1) (acc_slots (fun i => ?_) (fun i _ => ?_))
        · split
          · rfl
          · split
            · rfl
            · rw [MM.run_andThen, Frozen.subsetOfP_eq (hk i) fuel (hk2 i) (hf.succ hd)]
              cases subsetOf (kn i) (kn2 i) (d + 1) <;> rfl
        · split
          · exact Nat.zero_le _
          · split
            · exact Nat.zero_le _
            · rename_i hn2
              have hnil : (kn2 i).isNil = false := by rw [← (hk2 i).isNone]; exact Bool.eq_false_iff.2 hn2
              rw [Nat.zero_add]
              exact acc_ret (g := fun r : Bool => (r, (0 : Int))) (ih H F (d + 1) (k i) (k2 i) (kn i) (kn2 i) (hk i) (hk2 i) (hf.succ hd)
                (hwn.1.2.2.1 i) (hwn2.1.2.2.1 i) hnil (hc.kid hwn i) (hc2.kid hwn2 i))

/-! ## The calls on trees -/

variable {H : Mem T} {F : Set Loc} {t u : MTree} {n n2 : Node T} {c : Nat}

theorem acc_tree_equal (eq : T → T → Bool) (h : Rep H F 0 t.root n) (h2 : Rep H F 0 u.root n2) (hV : (t.val n).Valid) (hV2 : (u.val n2).Valid)
    (hc : Few c 0 n) (hc2 : Few c 0 n2) :
    (t.equalP eq u).accesses H ≤ if (elems n).length = (elems n2).length then (46 + c + c * c) * (elems n).length else 0 := by
  have h22 : maxTreeDepth = 22 := rfl
  have e1 : t.count = (elems n).length := hV.count
  have e2 : u.count = (elems n2).length := hV2.count
  unfold MTree.equalP
  by_cases hne : t.count = u.count
  · have hl : (elems n).length = (elems n2).length := by omega
    rw [if_neg (not_not.2 hne), if_pos hl]
    split
    · exact Nat.zero_le _
    · rename_i hz
      have hn2 : n2.isNil = false := by
        cases hn : n2.isNil with
        | false => rfl
        | true =>
          exfalso
          cases n2 with
          | nil =>
            have e3 : u.count = 0 := e2
            exact hz ⟨by omega, e3⟩
          | _ => cases hn
      have := equalP_cost eq c memFuel H F 0 t.root u.root n n2 h h2 (fuelOk_mem 0) hV.wf hV2.wf hn2 hc hc2
      refine Nat.le_trans this (Nat.mul_le_mul ?_ (by omega))
      unfold equalRate; omega
  · rw [if_pos hne]; exact Nat.zero_le _

theorem acc_tree_subset (h : Rep H F 0 t.root n) (h2 : Rep H F 0 u.root n2) (hw : WF 0 n) (hw2 : WF 0 n2) (hc : Few c 0 n)
    (hc2 : Few c 0 n2) : (t.subsetOfP u).accesses H ≤ (91 + 2 * c + c * c) * min (elems n).length (elems n2).length := by
  have h22 : maxTreeDepth = 22 := rfl
  unfold MTree.subsetOfP
  split
  · exact Nat.zero_le _
  · split
    · exact Nat.zero_le _
    · rename_i hu
      have hn2 : n2.isNil = false := by rw [← h2.isNone]; exact Bool.eq_false_iff.2 hu
      refine Nat.le_trans (subsetOfP_cost c memFuel H F 0 t.root u.root n n2 h h2 (fuelOk_mem 0) hw hw2 hn2 hc hc2)
        (Nat.mul_le_mul_right _ ?_)
      unfold subsetRate; omega

end Frozen
