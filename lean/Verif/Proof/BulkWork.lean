import Verif.Proof.Work
import Verif.Proof.MemOps
import Verif.Proof.MemCombine
import Verif.Proof.MemSafe

/-! Bounds on the memory accesses of the operations on two collections and of `Where`. -/

set_option linter.unusedSectionVars false

namespace Frozen

variable {T : Type} [GoKey T] [LawfulGoKey T]

/-! ## Four elements in a new branch -/

theorem addFastWith_empty {mk : Nat → List T → Go (Node T)} {x : T} {d : Nat} {hh : Hasher} {r : Node T × Int}
    (h : addFastWith mk (.branch 0#16 fun _ => .nil) x d hh = .ok r) : Low1 r.1 := by
  simp only [addFastWith, Node.isNil, if_true, Packer.setNonNilChild, Packer.toNode] at h
  cases h
  intro i
  by_cases hi : i = hh.idx
  · subst hi; rw [setSlot_same]; exact .inr ⟨x, rfl⟩
  · rw [setSlot_ne _ _ hi]; exact .inl rfl

theorem addFastWith_low1 {mk : Nat → List T → Go (Node T)} {n : Node T} (hn : Low1 n) {x : T} {d : Nat} {hh : Hasher}
    {r : Node T × Int} (h : addFastWith mk n x d hh = .ok r) : Low2 r.1 := by
  cases n with
  | branch m k =>
    have old : ∀ i, k i = .nil ∨ (∃ x, k i = .leaf1 x) ∨ ∃ x y, k i = .leaf2 x y := fun i => (hn i).imp id .inl
    have key : ∀ (m' : Masker) (c : Node T), (c = .nil ∨ (∃ x, c = .leaf1 x) ∨ ∃ x y, c = .leaf2 x y) →
        Low2 (.branch m' (setSlot k hh.idx c)) := by
      intro m' c hc i
      by_cases hi : i = hh.idx
      · subst hi; rw [setSlot_same]; exact hc
      · rw [setSlot_ne _ _ hi]; exact old i
    rcases hn hh.idx with h1 | ⟨y, h1⟩
    · simp only [addFastWith, h1, Node.isNil, if_true] at h
      cases h
      exact key _ _ (.inr (.inl ⟨x, rfl⟩))
    · simp only [addFastWith, h1, Node.isNil, Bool.false_eq_true, if_false] at h
      by_cases he : GoKey.eq y x = true
      · rw [if_pos he] at h
        cases h
        exact key _ _ (.inr (.inl ⟨_, rfl⟩))
      · rw [if_neg he] at h
        cases h
        exact key _ _ (.inr (.inr ⟨_, _, rfl⟩))
  | _ => exact hn.elim

/-- The third step: what a fourth costs. -/
theorem addFastWith_low2 {mk : Nat → List T → Go (Node T)} {n : Node T} (hn : Low2 n) {x : T} {d : Nat} {hh : Hasher}
    {r : Node T × Int} (hmk : ∀ a b c n', mk (d + 1) [a, b, c] = .ok n' → ∀ h, addCost n' (d + 1) h ≤ splitCost (d + 1) + 9)
    (h : addFastWith mk n x d hh = .ok r) (h' : Hasher) : addCost r.1 d h' ≤ splitCost (d + 1) + 12 := by
  have h22 : maxTreeDepth = 22 := rfl
  cases n with
  | branch m k =>
    have old : ∀ i h, addCost (k i) (d + 1) h ≤ splitCost (d + 1) + 9 := by
      intro i h
      rcases hn i with h1 | ⟨y, h1⟩ | ⟨y, z, h1⟩ <;> simp only [h1, addCost] <;> omega
    have key : ∀ (m' : Masker) (c : Node T), (∀ h, addCost c (d + 1) h ≤ splitCost (d + 1) + 9) →
        addCost (.branch m' (setSlot k hh.idx c)) d h' ≤ splitCost (d + 1) + 12 := by
      intro m' c hc
      have hall : ∀ i, addCost (setSlot k hh.idx c i) (d + 1) h'.next ≤ splitCost (d + 1) + 9 := by
        intro i
        by_cases hi : i = hh.idx
        · subst hi; rw [setSlot_same]; exact hc _
        · rw [setSlot_ne _ _ hi]; exact old _ _
      simp only [addCost]
      split
      · unfold splitCost; omega
      · have := hall h'.idx; omega
    rcases hn hh.idx with h1 | ⟨y, h1⟩ | ⟨y, z, h1⟩
    · simp only [addFastWith, h1, Node.isNil, if_true] at h
      cases h
      exact key _ _ (fun _ => by simp only [addCost]; omega)
    · simp only [addFastWith, h1, Node.isNil, Bool.false_eq_true, if_false] at h
      by_cases he : GoKey.eq y x = true
      · rw [if_pos he] at h
        cases h
        exact key _ _ (fun _ => by simp only [addCost]; omega)
      · rw [if_neg he] at h
        cases h
        exact key _ _ (fun _ => by simp only [addCost]; omega)
    · simp only [addFastWith, h1, Node.isNil, Bool.false_eq_true, if_false] at h
      by_cases he : GoKey.eq y x = true
      · rw [if_pos he] at h
        cases h
        exact key _ _ (fun _ => by simp only [addCost]; omega)
      · rw [if_neg he] at h
        by_cases he2 : GoKey.eq z x = true
        · rw [if_pos he2] at h
          cases h
          exact key _ _ (fun _ => by simp only [addCost]; omega)
        · rw [if_neg he2] at h
          cases hm : mk (d + 1) [y, z, x] with
          | error e => rw [hm] at h; cases h
          | ok n' =>
            rw [hm] at h
            cases h
            exact key _ _ (hmk _ _ _ _ hm)
  | _ => exact hn.elim

theorem addCost_nb3 : ∀ (fuel d : Nat) (x y z : T) (n : Node T), newBranchFromAux fuel d [x, y, z] = .ok n →
    ∀ h, addCost n d h ≤ splitCost d + 9 := by
  have h22 : maxTreeDepth = 22 := rfl
  intro fuel
  induction fuel with
  | zero =>
    intro d x y z n h hh
    unfold newBranchFromAux at h
    by_cases hd : d ≥ maxTreeDepth
    · rw [if_pos hd] at h; cases h; simp only [addCost, List.length_cons, List.length_nil]; omega
    · rw [if_neg hd] at h; cases h
  | succ fuel ih =>
    intro d x y z n h hh
    unfold newBranchFromAux at h
    by_cases hd : d ≥ maxTreeDepth
    · rw [if_pos hd] at h; cases h; simp only [addCost, List.length_cons, List.length_nil]; omega
    · rw [if_neg hd] at h
      have h3 : splitCost d = splitCost (d + 1) + 15 := by unfold splitCost; omega
      simp only [List.foldlM_cons, List.foldlM_nil] at h
      cases h1 : addFastWith (newBranchFromAux fuel) (.branch 0#16 fun _ => .nil) x d (newHasher x d) with
      | error e => rw [h1] at h; cases h
      | ok r1 =>
        rw [h1] at h
        change (do let b ← (do let (n, _) ← addFastWith (newBranchFromAux fuel) r1.1 y d (newHasher y d); pure n); _) = _ at h
        cases h2 : addFastWith (newBranchFromAux fuel) r1.1 y d (newHasher y d) with
        | error e => rw [h2] at h; cases h
        | ok r2 =>
          rw [h2] at h
          change (do let b ← (do let (n, _) ← addFastWith (newBranchFromAux fuel) r2.1 z d (newHasher z d); pure n); _) = _ at h
          cases h4 : addFastWith (newBranchFromAux fuel) r2.1 z d (newHasher z d) with
          | error e => rw [h4] at h; cases h
          | ok r3 =>
            rw [h4] at h
            cases h
            have := addFastWith_low2 (addFastWith_low1 (addFastWith_empty h1) h2) (fun a b c n' hn => ih (d + 1) a b c n' hn) h4 hh
            omega

/-- One step of the loop that fills a new branch. -/
theorem acc_nb_step {G : Growth} {d : Nat} {H1 : Mem T} {F : Set Loc} {b : Nat} {n : Node T} {e : T} {k : MM T Unit} {A B : Nat}
    (ho : Own H1 F d (some b) n) (hl : Live H1 F) (hb : n.isBranch = true) (hA : addCost n d (newHasher e d) ≤ A)
    (hB : ∀ H2 F2 n2 ms, addFast n e d (newHasher e d) = .ok (n2, ms) → Own H2 F2 d (some b) n2 → Live H2 F2 → n2.isBranch = true →
      k.accesses H2 ≤ B) :
    ((do let _ ← addFastM G memFuel (some b) e d (newHasher e d)) >>= fun _ => k).accesses H1 ≤ A + B := by
  have h22 : maxTreeDepth = 22 := rfl
  have hneed : addNeed n d ≤ memFuel := by unfold addNeed memFuel; split <;> omega
  refine acc_bind_le (acc_ret (g := fun _ => ()) (Nat.le_trans (addFastM_cost G memFuel H1 F d (some b) n e _ ho hl hneed (by decide)) hA)) ?_
  intro _ H2 hrun
  rw [MM.run_andThen] at hrun
  cases hr : addFastM G memFuel (some b) e d (newHasher e d) H1 with
  | mk r H3 =>
    rw [hr] at hrun
    cases r with
    | error e => cases hrun
    | ok r =>
      cases hrun
      obtain ⟨⟨n2, ms⟩, hv, hc, _, ho2, _, hbr⟩ := (addFastM_sim G memFuel H1 F d (some b) n e _ ho hl hneed (by decide)).ok hr
      refine hB _ _ n2 ms hv ?_ ((hl.next hc).union (live_new H1 _)) (hbr hb).2
      rw [← (hbr hb).1]
      exact ho2

theorem acc_newBranchFrom4 (G : Growth) (d : Nat) (x y z w : T) (H : Mem T) :
    (newBranchFromM G d [x, y, z, w]).accesses H ≤ 2 * splitCost d := by
  unfold newBranchFromM newBranchFromWith
  have h22 : maxTreeDepth = 22 := rfl
  by_cases hd : d ≥ maxTreeDepth
  · rw [if_pos hd]
    refine acc_ret (g := some) (Nat.le_trans (acc_newTwigM _ _) ?_)
    unfold splitCost; omega
  · rw [if_neg hd]
    have hd' : d < maxTreeDepth := Nat.lt_of_not_le hd
    refine acc_new ?_
    let H1 : Mem T := ⟨H.cells ++ [.branch 0#16 (fun _ => none)], H.arrays, H.log⟩
    have ho : Own H1 (New H H1) d (some H.cells.length) (.branch 0#16 fun _ => .nil) :=
      .branch (fun _ => ∅) hd' cells_new new_cell (fun i => .nil _ _) (fun _ => Set.empty_subset _) (fun _ h => h.elim)
        (fun _ _ _ _ h => h.elim)
    have h1 : ((do let _ ← addFastM G memFuel (some H.cells.length) x d (newHasher x d)) >>= fun _ =>
        ((do let _ ← addFastM G memFuel (some H.cells.length) y d (newHasher y d)) >>= fun _ =>
        ((do let _ ← addFastM G memFuel (some H.cells.length) z d (newHasher z d)) >>= fun _ =>
        ((do let _ ← addFastM G memFuel (some H.cells.length) w d (newHasher w d)) >>= fun _ => (pure () : MM T Unit))))).accesses H1
          ≤ 4 + (5 + ((splitCost (d + 1) + 5) + ((splitCost (d + 1) + 12) + 0))) := by
      refine acc_nb_step ho (live_new H H1) rfl (by simp [addCost, Node.isNil]) ?_
      intro H2 F2 n2 ms hv ho2 hl2 hb2
      refine acc_nb_step ho2 hl2 hb2 (addCost_low1 (addFast_empty hv) _ _) ?_
      intro H3 F3 n3 ms3 hv3 ho3 hl3 hb3
      refine acc_nb_step ho3 hl3 hb3 (addCost_low2 (addFast_low1 (addFast_empty hv) hv3) _ _) ?_
      intro H4 F4 n4 ms4 hv4 ho4 hl4 hb4
      refine acc_nb_step ho4 hl4 hb4 (addFastWith_low2 (addFast_low1 (addFast_empty hv) hv3)
        (fun a b c n' hn => addCost_nb3 maxTreeDepth (d + 1) a b c n' hn) hv4 _) ?_
      intros
      exact Nat.le_refl _
    have h2 := acc_ret (g := fun _ : Unit => some H.cells.length) h1
    have h3 : splitCost d = splitCost (d + 1) + 15 := by unfold splitCost; omega
    have h4 : ∀ z, z ≤ 4 + (5 + ((splitCost (d + 1) + 5) + ((splitCost (d + 1) + 12) + 0))) → z + 1 ≤ 2 * splitCost d := fun z hz => by omega
    exact h4 _ h2

/-! ## How many elements share a path -/

/-- At most `c` elements of the node agree on the rest of a path. -/
def Few (c d : Nat) (n : Node T) : Prop := ∀ v, ((elems n).filter (agree d 22 · v)).length ≤ c

theorem agree_swap {d : Nat} {x y : T} (h : agree d 22 x y = true) : agree d 22 y x = true :=
  agree_iff.2 (fun j h1 h2 => (agree_iff.1 h j h1 h2).symm)

theorem agree_chain {d : Nat} {x y z : T} (h : agree d 22 x y = true) (h' : agree d 22 y z = true) : agree d 22 x z = true :=
  agree_iff.2 (fun j h1 h2 => (agree_iff.1 h j h1 h2).trans (agree_iff.1 h' j h1 h2))

theorem Few.kid {c d : Nat} {m : Masker} {k : Fin 8 → Node T} (hw : WF d (.branch m k)) (h : Few c d (.branch m k)) (i : Fin 8) :
    Few c (d + 1) (k i) := by
  intro v
  have hs := hw.1
  have hd : d < 22 := hs.1
  cases hl : (elems (k i)).filter (agree (d + 1) 22 · v) with
  | nil => exact Nat.zero_le _
  | cons e es =>
    rw [← hl]
    have he : e ∈ (elems (k i)).filter (agree (d + 1) 22 · v) := by rw [hl]; simp
    have hek := (List.mem_filter.1 he).1
    have hev := (List.mem_filter.1 he).2
    have hsub : (elems (k i)).Sublist (elems (.branch m k)) := by
      simp only [elems]
      exact List.sublist_flatten_of_mem (List.mem_map.2 ⟨_, List.mem_finRange _, rfl⟩)
    refine Nat.le_trans ?_ (h e)
    have h1 : (elems (k i)).filter (agree (d + 1) 22 · v) = (elems (k i)).filter (agree d 22 · e) := by
      refine List.filter_congr (fun u hu => Bool.eq_iff_iff.2 ⟨fun h1 => ?_, fun h1 => ?_⟩)
      · rw [agree_step hd, Bool.and_eq_true, decide_eq_true_eq]
        exact ⟨(hs.2.2.2 i u hu).trans (hs.2.2.2 i e hek).symm, agree_chain h1 (agree_swap hev)⟩
      · rw [agree_step hd, Bool.and_eq_true] at h1
        exact agree_chain h1.2 hev
    rw [h1]
    exact (hsub.filter _).length_le

theorem Few.twig {c d : Nat} {l : List T} (hd : maxTreeDepth ≤ d) (h : Few c d (.twig l)) : l.length ≤ c := by
  cases l with
  | nil => exact Nat.zero_le _
  | cons x l =>
    have h22 : maxTreeDepth = 22 := rfl
    have := h x
    have he : (elems (.twig (x :: l))).filter (agree d 22 · x) = x :: l :=
      List.filter_eq_self.2 (fun e _ => agree_iff.2 (fun j h1 h2 => by omega))
    rw [he] at this
    exact this

theorem Few.on {c d : Nat} {n : Node T} (hw : WF d n) (h : Few c d n) (v : T) : twigOn n (newHasher v d) ≤ c :=
  (twigOn_agree n d v hw).trans (h v)

/-- A call that adds one element to the collection adds at most one to a path. -/
theorem Few.with {c d : Nat} {n n' : Node T} {f : T → T → T} {v : T} {ms : Int} (hf : ClassPres f) (h : Few c d n)
    (hs : WithSpec f d n v n' ms) : Few (c + 1) d n' := by
  intro u
  rw [(hs.eff.perm.filter _).length_eq]
  unfold addL
  rw [List.filter_append, List.length_append]
  have h1 : (((elems n).map (fun e => if GoKey.eq e v then f e v else e)).filter (agree d 22 · u)).length ≤ c := by
    refine Nat.le_trans (Nat.le_of_eq ?_) (h u)
    rw [List.filter_map, List.length_map]
    congr 1
    refine List.filter_congr (fun e _ => ?_)
    simp only [Function.comp]
    by_cases he : GoKey.eq e v = true
    · rw [if_pos he]
      have hh : ∀ j, chunk (f e v) j = chunk e j := fun j => chunk_congr (hf e v he) j
      simp only [agree, hh]
    · rw [if_neg he]
  have h2 : ((if ((elems n).find? (fun e => GoKey.eq e v)).isSome then [] else [v] : List T).filter (agree d 22 · u)).length ≤ 1 :=
    Nat.le_trans (List.length_filter_le _ _) (by split <;> simp)
  omega

/-- A call that leaves some elements out. -/
theorem Few.sub {c d : Nat} {n n' : Node T} {P : T → Bool} (h : Few c d n) (hp : (elems n').Perm ((elems n).filter P)) : Few c d n' := by
  intro u
  rw [(hp.filter _).length_eq]
  exact Nat.le_trans ((List.filter_sublist (l := elems n)).filter _).length_le (h u)

/-! ## Loops over the slots -/

theorem acc_setData (b : Nat) (i : Fin 8) (p : Ptr) (H : Mem T) : (setDataM b i p).accesses H ≤ 2 := by
  refine acc_bind_le (A := 1) (B := 1) (Nat.le_of_eq (acc_readCell _ _)) (fun c H' _ => ?_)
  cases c <;> first | exact Nat.zero_le _ | exact Nat.le_refl 1

/-- What a loop over slots costs. -/
def slotSum (C : Fin 8 → Nat) (is : List Nat) : Nat := (is.map (fun i => if h : i < 8 then C ⟨i, h⟩ else 0)).sum

theorem slotSum_bits (C : Fin 8 → Nat) (mask : Masker) : slotSum C (bitLoop mask) ≤ ((List.finRange 8).map C).sum := by
  have h1 : ∀ (l : List Nat) (p : Nat → Bool), slotSum C (l.filter p) ≤ slotSum C l := by
    intro l p
    induction l with
    | nil => exact Nat.le_refl _
    | cons i l ih =>
      rw [List.filter_cons]
      unfold slotSum at ih ⊢
      split
      · simp only [List.map_cons, List.sum_cons]; omega
      · simp only [List.map_cons, List.sum_cons]; omega
  rw [bitLoop_eq]
  refine Nat.le_trans (h1 _ _) ?_
  have h16 : List.range 16 = [0, 1, 2, 3, 4, 5, 6, 7, 8, 9, 10, 11, 12, 13, 14, 15] := by decide
  have h8 : List.finRange 8 = [0, 1, 2, 3, 4, 5, 6, 7] := by decide
  rw [h16, h8]
  exact Nat.le_refl _

theorem acc_parallelLoop {σ : Type} (W : Set Loc) (H0 : Mem T) (f : Fin 8 → MM T (Bool × Int))
    (g : Fin 8 → σ → Go (σ × Bool × Int)) (I : σ → Mem T → Prop) (C : Fin 8 → Nat) (M : Nat → Prop)
    (body : ∀ i s H, M i.val → Changes W H0 H → I s H →
      Sim (W ∪ Fresh H0) H (f i) (g i s) (fun r t H' => r = t.2 ∧ I t.1 H') ∧ (f i).accesses H ≤ C i) :
    ∀ (is : List Nat) (s : σ) (ms : Int) (H : Mem T), (∀ i ∈ is, M i) → Changes W H0 H → I s H →
      Sim (W ∪ Fresh H0) H (parallelLoopM f is ms) (parallelLoop g is s ms) (fun r t H' => r = t.2 ∧ I t.1 H') ∧
      (parallelLoopM f is ms).accesses H ≤ slotSum C is
  | [], s, ms, H, _, hc, hi => ⟨Sim.pure ⟨rfl, hi⟩, Nat.zero_le _⟩
  | i :: is, s, ms, H, hM, hc, hi => by
    unfold parallelLoopM parallelLoop slotSum
    rw [List.map_cons, List.sum_cons]
    by_cases h : i < 8
    · simp only [dif_pos h]
      have hb := body ⟨i, h⟩ s H (hM i (by simp)) hc hi
      constructor
      · refine Sim.bind hb.1 ?_
        rintro ⟨ok, m⟩ ⟨s', ok', m'⟩ H1 hc1 ⟨he, hi1⟩
        cases he
        cases ok with
        | false => exact Sim.pure ⟨rfl, hi1⟩
        | true =>
          refine (acc_parallelLoop W H0 f g I C M body is s' (ms + m) H1 (fun j hj => hM j (by simp [hj])) (hc.trans hc1) hi1).1.weaken ?_
            (fun _ _ _ _ h => h)
          exact fun l h => .inl (.inl h)
      · refine acc_then hb.2 ?_ (Nat.le_refl _)
        rintro ⟨ok, m⟩ H1 hrun
        obtain ⟨⟨s', ok', m'⟩, _, hc1, he, hi1⟩ := hb.1.ok hrun
        cases he
        cases ok with
        | false => exact Nat.zero_le _
        | true => exact (acc_parallelLoop W H0 f g I C M body is s' (ms + m) H1 (fun j hj => hM j (by simp [hj])) (hc.trans hc1) hi1).2
    · simp only [dif_neg h]
      exact ⟨Sim.raise, Nat.zero_le _⟩

/-- What the scheme of `Sim.fill` costs. -/
theorem acc_fill {σ α : Type} {H : Mem T} {F : Set Loc} {d : Nat} {mask : Masker}
    {f : Nat → Fin 8 → MM T (Bool × Int)} {g : Fin 8 → σ → Go (σ × Bool × Int)} {t0 : σ} {P : σ → Packer T}
    {J : σ → Prop} {fin : Nat → Bool × Int → MM T α} {C : Fin 8 → Nat} {L X : Nat}
    (hl : Live H F) (h0 : P t0 = Packer.zero) (hJ0 : J t0)
    (body : ∀ (H1 : Mem T) (ret : Nat) (i : Fin 8) (t : σ) (H2 : Mem T) (km : Fin 8 → Ptr), mask.getLsbD i = true →
      Changes ∅ H H1 → Loc.cell ret ∉ F →
      Loc.cell ret ∉ Fresh H1 → Changes {Loc.cell ret} H1 H2 → Changes ∅ H H2 → Live H2 (F ∪ New H1 H2) →
      Filled H1 H2 F d ret (P t) km → J t →
      Sim ({Loc.cell ret} ∪ Fresh H1) H2 (f ret i) (g i t)
        (fun r t' H' => r = t'.2 ∧ ∃ km, Filled H1 H' F d ret (P t'.1) km ∧ J t'.1) ∧ (f ret i).accesses H2 ≤ C i)
    (last : ∀ (H1 : Mem T) (ret : Nat) (t : σ) (ok : Bool) (ms : Int) (H2 : Mem T) (km : Fin 8 → Ptr), Changes ∅ H H1 →
      Loc.cell ret ∈ New H H2 → Changes ∅ H H2 → Filled H1 H2 F d ret (P t).updateMask km → J t →
      (fin ret (ok, ms)).accesses H2 ≤ L)
    (hX : 3 + ((List.finRange 8).map C).sum + L ≤ X) :
    (alloc (.branch 0#16 (fun _ => none)) >>= fun ret => parallelM mask (f ret) >>= fun x =>
      updateMaskM ret >>= fun _ => fin ret x).accesses H ≤ X := by
  let H1 : Mem T := ⟨H.cells ++ [.branch 0#16 (fun _ => none)], H.arrays, H.log⟩
  have hc01 : Changes ∅ H H1 := changes_alloc _ _ _
  have hretF : Loc.cell H.cells.length ∉ F := fun h => hl _ h (Nat.le_refl _)
  have hret0 : Loc.cell H.cells.length ∈ Fresh H := Nat.le_refl _
  have hret1 : Loc.cell H.cells.length ∉ Fresh H1 := by rw [mem_fresh_cell]; simp [H1]
  have hfr : ∀ l, l ∈ ({Loc.cell H.cells.length} : Set Loc) ∪ Fresh H1 → l ∈ Fresh H := by
    rintro l (rfl | h)
    · exact hret0
    · exact hc01.mono _ h
  have hloop := acc_parallelLoop {Loc.cell H.cells.length} H1 (f H.cells.length) g
    (fun t H' => Changes {Loc.cell H.cells.length} H1 H' ∧ ∃ km, Filled H1 H' F d H.cells.length (P t) km ∧ J t) C
    (fun i => mask.getLsbD i = true) (by
      rintro i t H2 hM hc2 ⟨_, km, hfl, hJ⟩
      have hc02 : Changes ∅ H H2 := hc01.trans (hc2.weaken (fun l h => .inl (.inr (hfr l (.inl h)))))
      have hb := body H1 _ i t H2 km hM hc01 hretF hret1 hc2 hc02 ((hl.next hc02).union (live_new H1 H2)) hfl hJ
      refine ⟨hb.1.mono ?_, hb.2⟩
      rintro r t' H' hc ⟨hr, hk⟩
      exact ⟨hr, hc2.trans hc, hk⟩) (bitLoop mask) t0 0 H1 (fun i hi => by
        rw [bitLoop_eq, List.mem_filter] at hi; exact hi.2) (Changes.refl _ _)
    ⟨Changes.refl _ _, _, by rw [h0]; exact filled_new, hJ0⟩
  refine acc_new ?_
  have hsum := slotSum_bits C mask
  have key : (parallelM mask (f H.cells.length) >>= fun x => updateMaskM H.cells.length >>= fun _ => fin H.cells.length x).accesses H1
      ≤ slotSum C (bitLoop mask) + (2 + L) := by
    refine acc_then hloop.2 ?_ (Nat.le_refl _)
    rintro ⟨ok, ms⟩ H2 hrun
    obtain ⟨⟨t, ok', ms'⟩, _, _, he, hc2, km, hfl, hJ⟩ := hloop.1.ok hrun
    cases he
    obtain ⟨H3, e1, e2, e3⟩ := hfl.updateMask hretF hret1
    have hc02 : Changes ∅ H H2 := hc01.trans (hc2.weaken (fun l h => .inl (.inr (hfr l (.inl h)))))
    have hc03 : Changes ∅ H H3 := hc02.trans (e2.weaken (fun l h => .inl (.inr (hfr l (.inl h)))))
    refine acc_then (acc_updateMask _ _) ?_ (Nat.le_refl _)
    intro _ H4 hrun4
    rw [e1] at hrun4
    cases hrun4
    exact last H1 H.cells.length t ok ms H3 km hc01 ⟨hret0, fun h => hret1 (hc2.mono _ (e2.mono _ h))⟩ hc03 e3 hJ
  show _ + 1 ≤ X
  exact Nat.le_trans (Nat.succ_le_succ key) (by omega)

end Frozen
