import Verif.Spec.IterWork
import Verif.Proof.IterHist
import Verif.Proof.Work

/-! How many memory accesses an iteration makes. -/

set_option linter.unusedSectionVars false

namespace Frozen

variable {T : Type}

/-- The accesses of a whole iteration over the node, after it has been read itself. -/
def nodeCost : Node T → Nat
  | .branch _ k => ((List.finRange 8).map (fun i => 1 + (if (k i).isNil then 0 else 1) + nodeCost (k i))).sum
  | _ => 0

/-- The accesses for one slot of a branch. -/
def slotCost (n : Node T) : Nat := 1 + (if n.isNil then 0 else 1) + nodeCost n

/-- The accesses that the rest of an iteration can make. -/
def pot : Iter T → Nat
  | .empty => 0
  | .slice _ _ => 0
  | .packer rest it => (rest.map slotCost).sum + pot it

theorem pot_iter {c : Node T} {cv : Iter T} (h : c.iter = .ok cv) : pot cv = nodeCost c := by
  cases c with
  | nil => cases h
  | branch m k =>
    cases h
    simp only [pot, nodeCost, List.map_map]
    rfl
  | _ => cases h; rfl

/-- The most that one `Next` at depth `d` takes if it starts there. -/
def freshBound (d : Nat) : Nat := 9 * (maxTreeDepth - d)

/-- The most that one `Next` at depth `d` takes. -/
def nextBound (d : Nat) : Nat := 9 * ((maxTreeDepth - d) * (maxTreeDepth + 1 - d) / 2)

theorem freshBound_succ {d : Nat} (h : d < maxTreeDepth) : freshBound d = 9 + freshBound (d + 1) := by
  unfold freshBound; omega

theorem nextBound_succ {d : Nat} (h : d < maxTreeDepth) : nextBound d = nextBound (d + 1) + freshBound d := by
  unfold freshBound nextBound
  obtain ⟨m, hm⟩ : ∃ m, maxTreeDepth - d = m + 1 := ⟨maxTreeDepth - d - 1, by omega⟩
  have h1 : maxTreeDepth + 1 - d = m + 2 := by omega
  have h2 : maxTreeDepth - (d + 1) = m := by omega
  have h3 : maxTreeDepth + 1 - (d + 1) = m + 1 := by omega
  rw [hm, h1, h2, h3]
  have : (m + 1) * (m + 2) = m * (m + 1) + 2 * (m + 1) := by
    rw [Nat.mul_comm (m + 1) (m + 2), Nat.add_mul m 2]
  rw [this]
  generalize m * (m + 1) = z
  omega

/-- What one `Next` costs. -/
def NextAcc (G : Growth) (H : Mem T) (S : Set Loc) (d fuel : Nat) : Prop :=
  ∀ (it : MIter T) (v : Iter T), RepIt H S it.bufs d it.levels it.leaf v → ∀ v' ok, v.next = .ok (v', ok) →
    (nextM G fuel it).accesses H + pot v' ≤ pot v ∧ (nextM G fuel it).accesses H ≤ nextBound d ∧
    (it.levels.length ≤ 1 → it.leaf = .empty → (nextM G fuel it).accesses H ≤ freshBound d) ∧
    (it.levels = [] → (nextM G fuel it).accesses H = 0)

/-- The loop over the unvisited children. -/
theorem packLoop_acc (G : Growth) {H : Mem T} {S : Set Loc} {d fuel : Nat} (hn : NextSim G H S (d + 1) fuel) (ha : NextAcc G H S (d + 1) fuel)
    {b off a : Nat} {m : Masker} {k : Fin 8 → Ptr} {kn : Fin 8 → Node T} (hd : d < maxTreeDepth) (hc : H.cells[a]? = some (.branch m k))
    (hF : .cell a ∈ S) (hk : ∀ i, Rep H S (d + 1) (k i) (kn i)) : ∀ (n p : Nat), p + n = 8 → ∀ (it : MIter T) (v : Iter T),
      slotAt it.bufs b off = some (a, p) → RepIt H S it.bufs (d + 1) it.levels it.leaf v → (∀ l ∈ it.levels, Before (b, off) l) →
      ∀ v' ok, packLoop v (((List.finRange 8).drop p).map kn) = .ok (v', ok) →
        (packLoopM G (nextM G fuel) b off a it ((List.finRange 8).drop p)).accesses H + pot v' ≤
          (((List.finRange 8).drop p).map (fun i => slotCost (kn i))).sum + pot v ∧
        (packLoopM G (nextM G fuel) b off a it ((List.finRange 8).drop p)).accesses H ≤ n + 1 + freshBound (d + 1)
  | 0, p, hp, it, v, hs, hr, hb, v', ok, hv => by
    obtain rfl : p = 8 := by omega
    have he : (List.finRange 8).drop 8 = [] := by decide
    rw [he] at hv ⊢
    cases hv
    simp only [packLoopM, acc_pure, pot, List.map_nil, List.sum_nil]
    omega
  | n + 1, p, hp, it, v, hs, hr, hb, v', ok, hv => by
    have hp8 : p < 8 := by omega
    rw [finRange_drop hp8] at hv ⊢
    simp only [List.map_cons, packLoop] at hv
    simp only [packLoopM, List.map_cons, List.sum_cons]
    obtain ⟨buf, hbuf, hlt, _⟩ := slotAt_some hs
    have hs1 : slotAt (setSlotAt it.bufs b off (a, p + 1)) b off = some (a, p + 1) := slotAt_set_same _ hbuf (Nat.le_of_lt hlt)
    have hrest : ∀ x ∈ it.levels, slotAt (setSlotAt it.bufs b off (a, p + 1)) x.1 x.2 = slotAt it.bufs x.1 x.2 :=
      fun x hx => slotAt_set_other _ hs (fun e => (hb x hx).ne ⟨e.1.symm, e.2.symm⟩)
    -- start with this child
    have start : ∀ (ci : MIter T) (cv : Iter T) (c : Node T), c.isNil = false → c.iter = .ok cv →
        RepIt H S ci.bufs (d + 1) ci.levels ci.leaf cv →
        (ci.levels = [] ∨ ci.levels.length ≤ 1 ∧ ci.leaf = .empty) →
        (do let (it, ok) ← startNext c; pure (Iter.packer (((List.finRange 8).drop (p + 1)).map kn) it, ok)) = Except.ok (v', ok) →
        (do let (it', ok) ← nextM G fuel ci; pure (it'.under (b, off), ok) : MM T (MIter T × Bool)).accesses H + 2 + pot v' ≤
          slotCost c + (((List.finRange 8).drop (p + 1)).map (fun i => slotCost (kn i))).sum ∧
        (do let (it', ok) ← nextM G fuel ci; pure (it'.under (b, off), ok) : MM T (MIter T × Bool)).accesses H ≤ freshBound (d + 1) := by
      intro ci cv c hnil hci hrep hlev he
      obtain ⟨it2, v2, ok2, h1, h2, h3⟩ := hn ci cv hrep
      have hacc : (do let (it', ok) ← nextM G fuel ci; pure (it'.under (b, off), ok) : MM T (MIter T × Bool)).accesses H =
          (nextM G fuel ci).accesses H := by
        rw [accesses_bind, h2]; rfl
      rw [hacc]
      rw [startNext_eq, hci] at he
      simp only [bind, Except.bind, h1, pure, Except.pure, Except.ok.injEq, Prod.mk.injEq] at he
      obtain ⟨rfl, rfl⟩ := he
      obtain ⟨g1, g2, g3, g4⟩ := ha ci cv hrep v2 ok2 h1
      refine ⟨?_, ?_⟩
      · have := pot_iter hci
        simp only [pot, slotCost, hnil, List.map_map]
        have e : (List.map (slotCost ∘ kn) (List.drop (p + 1) (List.finRange 8))).sum =
          (List.map (fun i => slotCost (kn i)) (List.drop (p + 1) (List.finRange 8))).sum := rfl
        simp only [slotCost] at e
        simp only [Bool.false_eq_true, if_false]
        simp only [Function.comp_def] at *
        omega
      · rcases hlev with hlev | ⟨h5, h6⟩
        · rw [g4 hlev]; omega
        · exact g3 h5 h6
    have finish : ∀ (c : Node T) (A : Nat), (A + 2 + pot v' ≤ slotCost c + (((List.finRange 8).drop (p + 1)).map (fun i => slotCost (kn i))).sum ∧
        A ≤ freshBound (d + 1)) → 1 + (1 + A) + pot v' ≤
          slotCost c + (((List.finRange 8).drop (p + 1)).map (fun i => slotCost (kn i))).sum + pot v ∧
        1 + (1 + A) ≤ n + 1 + 1 + freshBound (d + 1) := by
      intro c A h; omega
    have hki := hk ⟨p, hp8⟩
    rw [accesses_bind, acc_readCell, show (readCell a) H = (.ok (Cell.branch m k), H) by unfold readCell; simp only [MM.run, hc]; rfl]
    dsimp only
    generalize k ⟨p, hp8⟩ = q at hki ⊢
    generalize hcc : kn ⟨p, hp8⟩ = c at hki hv ⊢
    cases hki with
    | nil =>
      simp only [Node.isNil, Bool.true_or, if_true] at hv
      have ih := packLoop_acc G hn ha hd hc hF hk n (p + 1) (by omega)
        ⟨setSlotAt it.bufs b off (a, p + 1), it.levels, it.leaf⟩ v hs1 (hr.rebuf hrest) hb v' ok hv
      dsimp only
      simp only [slotCost, nodeCost, Node.isNil] at ih ⊢
      omega
    | leaf1 h1 h2 =>
      rename_i a' x
      dsimp only
      rw [accesses_bind, acc_readCell, show (readCell a') H = (.ok (Cell.leaf1 x), H) by unfold readCell; simp only [MM.run, h1]; rfl]
      dsimp only
      exact finish _ _ (start ⟨setSlotAt it.bufs b off (a, p + 1), [], .own x (-1)⟩ _ (.leaf1 x) rfl rfl (.leaf (.own x _)) (.inl rfl) hv)
    | leaf2 h1 h2 =>
      rename_i a' x y
      dsimp only
      rw [accesses_bind, acc_readCell, show (readCell a') H = (.ok (Cell.leaf2 x y), H) by unfold readCell; simp only [MM.run, h1]; rfl]
      dsimp only
      exact finish _ _ (start ⟨setSlotAt it.bufs b off (a, p + 1), [], .leaf2 a' (-1)⟩ _ (.leaf2 x y) rfl rfl (.leaf (.leaf2 _ h1 h2)) (.inl rfl) hv)
    | twig hd' h1 h2 ha' hFa h3 hl hs' =>
      rename_i a' s la l
      dsimp only
      rw [accesses_bind, acc_readCell, show (readCell a') H = (.ok (Cell.twig s), H) by unfold readCell; simp only [MM.run, h1]; rfl]
      dsimp only
      rw [if_neg (by omega)]
      have hlen : l.length = s.len := by rw [← hs', List.length_take]; omega
      rw [if_neg (by cases l with
        | nil => simp at hlen; omega
        | cons => simp [Node.isNil, Node.isEmptyNode])] at hv
      exact finish _ _ (start ⟨setSlotAt it.bufs b off (a, p + 1), [], .twig s (-1)⟩ _ (.twig l) rfl rfl (.leaf (.twig _ ha' hFa hl hs')) (.inl rfl) hv)
    | branch hd' h1 h2 hk' =>
      rename_i a' m' k' kn'
      dsimp only
      rw [accesses_bind, acc_readCell, show (readCell a') H = (.ok (Cell.branch m' k'), H) by unfold readCell; simp only [MM.run, h1]; rfl]
      dsimp only
      obtain ⟨e1, e2, e3, e4⟩ := appendSlot_spec G hs1 (a', 0)
      exact finish _ _ (start ⟨_, [_], .empty⟩ _ (.branch m' kn') rfl rfl
        (.packer (pos := 0) e2 (by omega) hd' h1 h2 hk' (by simp) (.leaf .empty)) (.inr ⟨by simp, rfl⟩) hv)

theorem next_acc (G : Growth) (H : Mem T) (S : Set Loc) : ∀ (fuel d : Nat), FuelOk d fuel → NextAcc G H S d fuel
  | 0, d, hf => absurd hf.2 (Nat.lt_irrefl 0)
  | fuel + 1, d, hf => by
    rintro ⟨bufs, levels, leaf⟩ v hr v' ok hv
    dsimp only at hr ⊢
    cases hr with
    | leaf h =>
      simp only [nextM, acc_pure]
      refine ⟨?_, Nat.zero_le _, fun _ _ => Nat.zero_le _, fun _ => trivial⟩
      cases h <;> simp only [Iter.next, sliceNext, Except.ok.injEq, Prod.mk.injEq] at hv <;> obtain ⟨rfl, _⟩ := hv <;> simp [pot]
    | packer hs hp hd hc hF hk hb hr =>
      rename_i b off a pos m k kn rest it
      have hn := next_sim G H S fuel (d + 1) (hf.succ hd)
      have ha := next_acc G H S fuel (d + 1) (hf.succ hd)
      obtain ⟨it1, v1, ok1, h1, h2, h3⟩ := hn ⟨bufs, rest, leaf⟩ it hr
      obtain ⟨g1, g2, g3, g4⟩ := ha ⟨bufs, rest, leaf⟩ it hr v1 ok1 h1
      obtain ⟨h4, h5⟩ := h3.keep (b, off) hb (slotAt_lt hs)
      have hs1 : slotAt it1.bufs b off = some (a, pos) := h4.trans hs
      simp only [nextM]
      rw [accesses_bind, h2]
      dsimp only
      simp only [Iter.next, h1, bind, Except.bind] at hv
      have hfb := freshBound_succ hd
      have hnb := nextBound_succ hd
      have hrest0 : ((b, off) :: rest).length ≤ 1 → (nextM G fuel ⟨bufs, rest, leaf⟩).accesses H = 0 := fun hl =>
        g4 (by simpa using hl)
      cases ok1 with
      | true =>
        simp only [if_true, pure, Except.pure, Except.ok.injEq, Prod.mk.injEq] at hv
        obtain ⟨rfl, _⟩ := hv
        simp only [if_true, acc_pure]
        refine ⟨?_, by omega, fun hl _ => by rw [hrest0 hl]; omega, fun hl => by cases hl⟩
        simp only [pot]
        omega
      | false =>
        simp only [Bool.false_eq_true, if_false, hs1] at hv ⊢
        obtain ⟨e1, e2⟩ := packLoop_acc G hn ha hd hc hF hk (8 - pos) pos (by omega) it1 v1 hs1 h3.rep h5 v' ok hv
        refine ⟨?_, by omega, fun hl _ => by rw [hrest0 hl]; omega, fun hl => by cases hl⟩
        simp only [pot, List.map_map, Function.comp_def]
        omega

/-- Any number of `Next` calls. -/
theorem nextsWork_le (G : Growth) {H : Mem T} {S : Set Loc} : ∀ (n : Nat) {it : MIter T} {v : Iter T}, it.Is H S v →
    it.nextsWork G H n ≤ pot v
  | 0, _, _, _ => Nat.zero_le _
  | n + 1, it, v, h => by
    obtain ⟨it', v', ok, h1, h2, h3⟩ := MIter.next_eq G h
    have h4 := (next_acc G H S memFuel 0 (fuelOk_mem 0) it v h v' ok h1).1
    have ih := nextsWork_le G n h3
    unfold MIter.nextsWork
    rw [h2]
    dsimp only
    unfold MIter.next
    omega

theorem sum_map_le {α : Type} (f g : α → Nat) (l : List α) (h : ∀ a ∈ l, f a ≤ g a) : (l.map f).sum ≤ (l.map g).sum := by
  induction l with
  | nil => exact Nat.le_refl _
  | cons a l ih =>
    simp only [List.map_cons, List.sum_cons]
    exact Nat.add_le_add (h a (by simp)) (ih (fun b hb => h b (by simp [hb])))

variable [GoKey T]

/-- A whole iteration over a node. -/
theorem nodeCost_le : ∀ (n : Node T) (d : Nat), WF d n → nodeCost n ≤ 9 * (maxTreeDepth - d) * (elems n).length := by
  intro n
  induction n with
  | branch m k ih =>
    intro d hw
    obtain ⟨⟨hd, _, hk, _⟩, h3⟩ := WF_branch.1 hw
    have hslot : ∀ i, 1 + (if (k i).isNil then 0 else 1) + nodeCost (k i) ≤
        1 + (1 + 9 * (maxTreeDepth - (d + 1))) * (elems (k i)).length := by
      intro i
      have h1 := ih i (d + 1) (hk i)
      have h2 : (if (k i).isNil then 0 else 1) ≤ (elems (k i)).length := by
        have hw := hk i
        cases hki : k i with
        | nil => simp [Node.isNil]
        | leaf1 a => simp [Node.isNil, elems]
        | leaf2 a b => simp [Node.isNil, elems]
        | twig l => rw [hki] at hw; have := hw.2.1; simp [Node.isNil, elems]; omega
        | branch m' k' => rw [hki] at hw; have := hw.2; simp [Node.isNil]; omega
      rw [Nat.add_mul, Nat.one_mul]
      omega
    have hsum := sum_map_le _ _ (List.finRange 8) (fun i _ => hslot i)
    have hlen : (elems (.branch m k)).length = ((List.finRange 8).map (fun i => (elems (k i)).length)).sum := by
      simp only [elems, List.length_flatMap]
    have hexp : ((List.finRange 8).map (fun i => 1 + (1 + 9 * (maxTreeDepth - (d + 1))) * (elems (k i)).length)).sum =
        8 + (1 + 9 * (maxTreeDepth - (d + 1))) * (elems (.branch m k)).length := by
      rw [hlen]
      generalize (1 + 9 * (maxTreeDepth - (d + 1))) = c
      have : ∀ l : List (Fin 8), (l.map (fun i => 1 + c * (elems (k i)).length)).sum =
          l.length + c * (l.map (fun i => (elems (k i)).length)).sum := by
        intro l
        induction l with
        | nil => simp
        | cons i l ih' => simp only [List.map_cons, List.sum_cons, List.length_cons, ih', Nat.mul_add]; omega
      rw [this]; rfl
    show ((List.finRange 8).map _).sum ≤ _
    rw [hexp] at hsum
    refine Nat.le_trans hsum ?_
    obtain ⟨z, hz⟩ : ∃ z, maxTreeDepth - d = z + 1 := ⟨maxTreeDepth - d - 1, by omega⟩
    have hz' : maxTreeDepth - (d + 1) = z := by omega
    rw [hz, hz', Nat.mul_add, Nat.add_mul, Nat.add_mul]
    generalize 9 * z * (elems (.branch m k)).length = y at *
    omega
  | _ => intro d _; exact Nat.zero_le _

/-- The rest of a new iterator is the whole tree. -/
theorem pot_start {s : MTree} {n : Node T} {v : Iter T} (h : (s.val n).iterator = .ok v) : pot v = nodeCost n := by
  unfold Tree.iterator MTree.val at h
  cases n with
  | nil => cases h; rfl
  | _ => exact pot_iter h

end Frozen
