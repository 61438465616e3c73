import Verif.Spec.Work
import Verif.Proof.MemHistory

/-! How many memory accesses `Get`, `With`, `Without`, `Add` and `Remove` make. -/

set_option linter.unusedSectionVars false

namespace Frozen

variable {T : Type}

theorem accesses_bind {α β : Type} (x : MM T α) (f : α → MM T β) (H : Mem T) :
    (x >>= f).accesses H = x.accesses H + (match (x H).1 with | .ok a => (f a).accesses (x H).2 | .error _ => 0) := by
  show (x.andThen f).accesses H = _
  induction x generalizing H with
  | done r => cases r with
    | ok a => simp [MM.andThen, MM.accesses, MM.run]
    | error e => simp [MM.andThen, MM.accesses, MM.run]
  | readCell a k ih => simp only [MM.andThen, MM.accesses, MM.run, ih]; omega
  | readElem arr i k ih => simp only [MM.andThen, MM.accesses, MM.run, ih]; omega
  | alloc c k ih => simp only [MM.andThen, MM.accesses, MM.run, ih]; omega
  | allocArr l k ih => simp only [MM.andThen, MM.accesses, MM.run, ih]; omega
  | writeCell a c k ih => simp only [MM.andThen, MM.accesses, MM.run, ih]; omega
  | writeElem arr i v k ih => simp only [MM.andThen, MM.accesses, MM.run, ih]; omega

theorem acc_bind_le {α β : Type} {x : MM T α} {f : α → MM T β} {H : Mem T} {A B : Nat} (hx : x.accesses H ≤ A)
    (hf : ∀ a H', x H = (.ok a, H') → (f a).accesses H' ≤ B) : (x >>= f).accesses H ≤ A + B := by
  rw [accesses_bind]
  cases hr : x H with
  | mk r H' =>
    cases r with
    | error e => simp only; omega
    | ok a => have := hf a H' hr; simp only; omega

/-- A step whose result is known. -/
theorem acc_step {α β : Type} {x : MM T α} {f : α → MM T β} {H H1 : Mem T} {a : α} {A B : Nat} (hr : x H = (.ok a, H1))
    (hx : x.accesses H ≤ A) (hf : (f a).accesses H1 ≤ B) : (x >>= f).accesses H ≤ A + B :=
  acc_bind_le hx (fun a' H' h => by rw [hr] at h; cases h; exact hf)

theorem acc_pure {α : Type} (a : α) (H : Mem T) : (pure a : MM T α).accesses H = 0 := rfl

theorem acc_raise {α : Type} (e : Panic) (H : Mem T) : (raise e : MM T α).accesses H = 0 := rfl

theorem acc_readCell (a : Nat) (H : Mem T) : (readCell a).accesses H = 1 := by
  simp only [readCell, MM.accesses]
  cases H.cells[a]? <;> rfl

theorem acc_alloc (c : Cell T) (H : Mem T) : (alloc c).accesses H = 1 := rfl

theorem acc_allocArr (l : List T) (H : Mem T) : (allocArr l).accesses H = 1 := rfl

theorem acc_writeCell (a : Nat) (c : Cell T) (H : Mem T) : (writeCell a c).accesses H = 1 := rfl

theorem acc_writeArr (a i : Nat) (v : T) (H : Mem T) : (writeArr a i v).accesses H = 1 := rfl

theorem acc_readFrom (arr : Nat) : ∀ (n i : Nat) (H : Mem T), (readFrom arr i n).accesses H ≤ n
  | 0, _, _ => Nat.le_refl _
  | n + 1, i, H => by
    simp only [readFrom, MM.accesses]
    cases (H.arrays[arr]?.bind (·[i]?)) with
    | none => simp only [acc_raise]; omega
    | some e =>
      have := acc_bind_le (B := 0) (acc_readFrom arr n (i + 1) H) (f := fun l => (pure (e :: l) : MM T (List T)))
        (fun _ _ _ => Nat.le_refl _)
      simp only
      omega

theorem acc_readSlice (s : Slice) (H : Mem T) : (readSlice s).accesses H ≤ s.len := acc_readFrom _ _ _ _

theorem acc_goAppend (G : Growth) (s : Slice) (v : T) (H : Mem T) : (goAppend G s v).accesses H ≤ s.len + 1 := by
  unfold goAppend
  split
  · show 1 ≤ _; omega
  · exact acc_bind_le (acc_readSlice s H) (fun l H' _ => acc_step (B := 0) rfl (Nat.le_of_eq (acc_allocArr _ _)) (Nat.le_refl _))

theorem acc_setNonNil (b : Nat) (i : Fin 8) (p : Ptr) (H : Mem T) : (setNonNilChildM b i p).accesses H ≤ 2 := by
  refine acc_bind_le (A := 1) (B := 1) (Nat.le_of_eq (acc_readCell _ _)) (fun c H' _ => ?_)
  cases c <;> first | exact Nat.zero_le _ | exact Nat.le_refl 1

theorem acc_newTwigM (l : List T) (H : Mem T) : (newTwigM l).accesses H ≤ 2 :=
  acc_bind_le (A := 1) (B := 1) (Nat.le_of_eq (acc_allocArr _ _)) (fun _ _ _ => Nat.le_of_eq (acc_alloc _ _))

theorem acc_cloneTwigM (s : Slice) (H : Mem T) : (cloneTwigM s).accesses H ≤ s.len + 1 :=
  acc_bind_le (acc_readSlice s H) (fun _ _ _ => acc_step (B := 0) rfl (Nat.le_of_eq (acc_allocArr _ _)) (Nat.le_refl _))

variable [GoKey T]

/-- The length of the twig at the end of the path of a hash; zero if there is none. -/
def twigOn : Node T → Hasher → Nat
  | .twig l, _ => l.length
  | .branch _ k, h => twigOn (k h.idx) h.next
  | _, _ => 0

/-- Reading a node that is there. -/
theorem acc_read {α : Type} {f : Cell T → MM T α} {H : Mem T} {a : Nat} {c : Cell T} {C : Nat} (hx : H.cells[a]? = some c)
    (hf : (f c).accesses H + 1 ≤ C) : (readCell a >>= f).accesses H ≤ C := by
  have := acc_step (f := f) (readCell_eq hx) (Nat.le_of_eq (acc_readCell a H)) (Nat.le_refl _)
  omega

/-- Allocating a node. -/
theorem acc_new {α : Type} {f : Nat → MM T α} {H : Mem T} {c : Cell T} {C : Nat}
    (hf : (f H.cells.length).accesses ⟨H.cells ++ [c], H.arrays, H.log⟩ + 1 ≤ C) : (alloc c >>= f).accesses H ≤ C := by
  have := acc_step (x := alloc c) (f := f) (H := H) rfl (Nat.le_of_eq (acc_alloc c H)) (Nat.le_refl _)
  omega

theorem acc_then {α β : Type} {x : MM T α} {f : α → MM T β} {H : Mem T} {A B C : Nat} (hx : x.accesses H ≤ A)
    (hf : ∀ a H', x H = (.ok a, H') → (f a).accesses H' ≤ B) (hC : A + B ≤ C) : (x >>= f).accesses H ≤ C :=
  Nat.le_trans (acc_bind_le hx hf) hC

theorem acc_ret {α β : Type} {x : MM T α} {g : α → β} {H : Mem T} {C : Nat} (hx : x.accesses H ≤ C) :
    (x >>= fun a => (pure (g a) : MM T β)).accesses H ≤ C := acc_then (B := 0) hx (fun _ _ _ => Nat.le_refl _) (Nat.le_refl _)

theorem acc_getP {H : Mem T} {F : Set Loc} {d : Nat} {p : Ptr} {n : Node T} (h : Rep H F d p n) : ∀ (fuel : Nat) (v : T) (hh : Hasher),
    (getP fuel p v hh).accesses H ≤ (maxTreeDepth - d) + 1 + twigOn n hh := by
  induction h with
  | nil d => intro fuel v hh; cases fuel <;> exact Nat.zero_le _
  | @leaf1 d a x hx _ =>
    intro fuel v hh
    cases fuel with
    | zero => exact Nat.zero_le _
    | succ fuel => exact acc_read hx (by simp only [acc_pure]; omega)
  | @leaf2 d a x y hx _ =>
    intro fuel v hh
    cases fuel with
    | zero => exact Nat.zero_le _
    | succ fuel => exact acc_read hx (by simp only [acc_pure]; omega)
  | @twig d a s la l hd hx hF ha hFa h3 hla hs =>
    intro fuel v hh
    cases fuel with
    | zero => exact Nat.zero_le _
    | succ fuel =>
      have hll : l.length = s.len := by rw [← hs]; simp; omega
      refine acc_read hx ?_
      have := acc_ret (g := fun l : List T => l.find? (fun e => GoKey.eq e v)) (acc_readSlice s H)
      simp only [twigOn]
      omega
  | @branch d a m k kn hd hx hF hk ih =>
    intro fuel v hh
    cases fuel with
    | zero => exact Nat.zero_le _
    | succ fuel =>
      refine acc_read hx ?_
      have := ih hh.idx fuel v hh.next
      simp only [twigOn]
      split
      · simp only [acc_pure]; omega
      · omega

/-! ## AddFast and newBranchFrom -/

theorem Sim.ok {α β : Type} {W : Set Loc} {H H' : Mem T} {x : MM T α} {v : Go β} {R : α → β → Mem T → Prop} {a : α}
    (h : Sim W H x v R) (hx : x H = (.ok a, H')) : ∃ b, v = .ok b ∧ Changes W H H' ∧ R a b H' := by
  unfold Sim at h
  rw [hx] at h
  cases v with
  | error e => exact h.2.elim
  | ok b => exact ⟨b, rfl, h.1, h.2⟩

/-- What adding three elements to a new branch at a depth may cost. -/
def splitCost (d : Nat) : Nat := 15 * (maxTreeDepth - d) + 2

/-- What `AddFast` may cost. -/
def addCost : Node T → Nat → Hasher → Nat
  | .nil, _, _ => 0
  | .leaf1 _, _, _ => 2
  | .leaf2 _ _, d, _ => splitCost d + 2
  | .twig l, _, _ => 2 * l.length + 3
  | .branch _ k, d, h => if (k h.idx).isNil then 4 else addCost (k h.idx) (d + 1) h.next + 3

/-- A branch whose children are at most leaves with one element. -/
def Low1 : Node T → Prop
  | .branch _ k => ∀ i, k i = .nil ∨ ∃ x, k i = .leaf1 x
  | _ => False

/-- A branch whose children are at most leaves. -/
def Low2 : Node T → Prop
  | .branch _ k => ∀ i, k i = .nil ∨ (∃ x, k i = .leaf1 x) ∨ ∃ x y, k i = .leaf2 x y
  | _ => False

theorem addCost_low1 {n : Node T} (h : Low1 n) (d : Nat) (hh : Hasher) : addCost n d hh ≤ 5 := by
  cases n with
  | branch m k =>
    rcases h hh.idx with h | ⟨x, h⟩ <;> simp [addCost, h, Node.isNil]
  | _ => exact h.elim

theorem addCost_low2 {n : Node T} (h : Low2 n) (d : Nat) (hh : Hasher) : addCost n d hh ≤ splitCost (d + 1) + 5 := by
  cases n with
  | branch m k =>
    rcases h hh.idx with h | ⟨x, h⟩ | ⟨x, y, h⟩ <;> simp [addCost, h, Node.isNil] <;> omega
  | _ => exact h.elim

/-- The first of three steps. -/
theorem addFast_empty {x : T} {d : Nat} {r : Node T × Int} (h : addFast (.branch 0#16 fun _ => .nil) x d (newHasher x d) = .ok r) :
    Low1 r.1 := by
  simp only [addFast, addFastWith, Node.isNil, if_true, Packer.setNonNilChild, Packer.toNode] at h
  cases h
  intro i
  by_cases hi : i = (newHasher x d).idx
  · subst hi; rw [setSlot_same]; exact .inr ⟨x, rfl⟩
  · rw [setSlot_ne _ _ hi]; exact .inl rfl

/-- The second. -/
theorem addFast_low1 {n : Node T} (hn : Low1 n) {x : T} {d : Nat} {hh : Hasher} {r : Node T × Int} (h : addFast n x d hh = .ok r) :
    Low2 r.1 := by
  cases n with
  | branch m k =>
    have old : ∀ i, k i = .nil ∨ (∃ x, k i = .leaf1 x) ∨ ∃ x y, k i = .leaf2 x y := fun i => (hn i).imp id .inl
    have key : ∀ (m' : Masker) (c : Node T), (c = .nil ∨ (∃ x, c = .leaf1 x) ∨ ∃ x y, c = .leaf2 x y) →
        Low2 (.branch m' (setSlot k hh.idx c)) := by
      intro m' c hc i
      by_cases hi : i = hh.idx
      · subst hi; rw [setSlot_same]; exact hc
      · rw [setSlot_ne _ _ hi]; exact old i
    rcases hn hh.idx with h1 | ⟨y, h1⟩
    · simp only [addFast, addFastWith, h1, Node.isNil, if_true] at h
      cases h
      exact key _ _ (.inr (.inl ⟨x, rfl⟩))
    · simp only [addFast, addFastWith, h1, Node.isNil, Bool.false_eq_true, if_false] at h
      by_cases he : GoKey.eq y x = true
      · rw [if_pos he] at h
        cases h
        exact key _ _ (.inr (.inl ⟨_, rfl⟩))
      · rw [if_neg he] at h
        cases h
        exact key _ _ (.inr (.inr ⟨_, _, rfl⟩))
  | _ => exact hn.elim

/-- What the cost theorem for `AddFast` says of a given fuel. -/
def AddCostOk (G : Growth) (fuel : Nat) : Prop :=
  ∀ (H : Mem T) (F : Set Loc) (d : Nat) (p : Ptr) (n : Node T) (v : T) (h : Hasher), Own H F d p n → Live H F →
    addNeed n d ≤ fuel → 0 < fuel → (addFastM G fuel p v d h).accesses H ≤ addCost n d h

theorem acc_split {G : Growth} {fuel : Nat} (ih : AddCostOk (T := T) G fuel) {d : Nat} (hf : d < maxTreeDepth → 2 * (maxTreeDepth - d) ≤ fuel)
    (x y v : T) (H : Mem T) :
    (newBranchFromWith (fun b e => do let _ ← addFastM G fuel (some b) e d (newHasher e d)) d [x, y, v]).accesses H ≤ splitCost d := by
  unfold newBranchFromWith
  have h22 : maxTreeDepth = 22 := rfl
  by_cases hd : d ≥ maxTreeDepth
  · rw [if_pos hd]
    refine acc_ret (g := some) (Nat.le_trans (acc_newTwigM _ _) ?_)
    unfold splitCost; omega
  · rw [if_neg hd]
    have hd' : d < maxTreeDepth := Nat.lt_of_not_le hd
    have hfu := hf hd'
    refine acc_new ?_
    let H1 : Mem T := ⟨H.cells ++ [.branch 0#16 (fun _ => none)], H.arrays, H.log⟩
    have ho : Own H1 (New H H1) d (some H.cells.length) (.branch 0#16 fun _ => .nil) :=
      .branch (fun _ => ∅) hd' cells_new new_cell (fun i => .nil _ _) (fun _ => Set.empty_subset _) (fun _ h => h.elim)
        (fun _ _ _ _ h => h.elim)
    -- one step of the loop
    have step : ∀ (H1 : Mem T) (F : Set Loc) (b : Nat) (n : Node T) (e : T) (k : MM T Unit) (A B : Nat), Own H1 F d (some b) n → Live H1 F →
        n.isBranch = true → addCost n d (newHasher e d) ≤ A →
        (∀ H2 F2 n2 ms, addFast n e d (newHasher e d) = .ok (n2, ms) → Own H2 F2 d (some b) n2 → Live H2 F2 → n2.isBranch = true →
          k.accesses H2 ≤ B) →
        ((do let _ ← addFastM G fuel (some b) e d (newHasher e d)) >>= fun _ => k).accesses H1 ≤ A + B := by
      intro H1 F b n e k A B ho hl hb hA hB
      have hneed : addNeed n d ≤ fuel := by unfold addNeed; rw [if_pos hb]; exact hfu
      have h0 : 0 < fuel := by omega
      refine acc_bind_le (acc_ret (g := fun _ => ()) (Nat.le_trans (ih H1 F d (some b) n e _ ho hl hneed h0) hA)) ?_
      intro _ H2 hrun
      rw [MM.run_andThen] at hrun
      cases hr : addFastM G fuel (some b) e d (newHasher e d) H1 with
      | mk r H3 =>
        rw [hr] at hrun
        cases r with
        | error e => cases hrun
        | ok r =>
          cases hrun
          obtain ⟨⟨n2, ms⟩, hv, hc, _, ho2, _, hbr⟩ := (addFastM_sim G fuel H1 F d (some b) n e _ ho hl hneed h0).ok hr
          refine hB _ _ n2 ms hv ?_ ((hl.next hc).union (live_new H1 _)) (hbr hb).2
          rw [← (hbr hb).1]
          exact ho2
    have h1 : ((do let _ ← addFastM G fuel (some H.cells.length) x d (newHasher x d)) >>= fun _ =>
        ((do let _ ← addFastM G fuel (some H.cells.length) y d (newHasher y d)) >>= fun _ =>
        ((do let _ ← addFastM G fuel (some H.cells.length) v d (newHasher v d)) >>= fun _ => (pure () : MM T Unit)))).accesses H1
          ≤ 4 + (5 + ((splitCost (d + 1) + 5) + 0)) := by
      refine step H1 _ _ _ x _ 4 _ ho (live_new H H1) rfl (by simp [addCost, Node.isNil]) ?_
      intro H2 F2 n2 ms hv ho2 hl2 hb2
      refine step H2 F2 _ n2 y _ 5 _ ho2 hl2 hb2 (addCost_low1 (addFast_empty hv) _ _) ?_
      intro H3 F3 n3 ms3 hv3 ho3 hl3 hb3
      refine step H3 F3 _ n3 v _ _ _ ho3 hl3 hb3 (addCost_low2 (addFast_low1 (addFast_empty hv) hv3) _ _) ?_
      intros
      exact Nat.le_refl _
    have h2 := acc_ret (g := fun _ : Unit => some H.cells.length) h1
    have h3 : splitCost d = splitCost (d + 1) + 15 := by unfold splitCost; omega
    rw [h3]
    have h4 : ∀ z, z ≤ 4 + (5 + ((splitCost (d + 1) + 5) + 0)) → z + 1 ≤ splitCost (d + 1) + 15 := fun z hz => by omega
    exact h4 _ h2

theorem addFastM_cost (G : Growth) (fuel : Nat) : AddCostOk (T := T) G fuel := by
  induction fuel with
  | zero => intro H F d p n v h _ _ _ h0; exact absurd h0 (Nat.lt_irrefl 0)
  | succ fuel ih =>
    intro H F d p n v h ho hl hf _
    have h22 : maxTreeDepth = 22 := rfl
    cases ho with
    | nil _ _ => exact Nat.zero_le _
    | @leaf1 _ _ a x hx hF =>
      simp only [addFastM]
      refine acc_read hx ?_
      dsimp only
      split
      · exact Nat.le_refl _
      · exact Nat.le_refl _
    | @leaf2 _ _ a x y hx hF =>
      simp only [addFastM]
      refine acc_read hx ?_
      dsimp only
      have h2 : ∀ z, z ≤ splitCost d → z + 1 ≤ splitCost d + 2 := fun z hz => by omega
      split
      · exact h2 1 (by unfold splitCost; omega)
      · split
        · exact h2 1 (by unfold splitCost; omega)
        · refine h2 _ (acc_ret (g := fun p : Ptr => (p, (0 : Int))) (acc_split ih ?_ x y v H))
          intro hd
          unfold addNeed at hf; simp [Node.isBranch] at hf; exact hf
    | @twig _ _ a s la l hd hx hF ha hFa h3 hla hs =>
      have hll : l.length = s.len := by rw [← hs]; simp; omega
      simp only [addFastM]
      refine acc_read hx ?_
      dsimp only
      have : ∀ z, z ≤ s.len + (s.len + 2) → z + 1 ≤ addCost (.twig l) d h := fun z hz => by simp only [addCost]; omega
      refine this _ (acc_bind_le (acc_readSlice s H) ?_)
      intro l' H' _
      split
      · exact Nat.le_trans (show _ ≤ 1 from Nat.le_refl _) (by omega)
      · rw [if_pos (.inr hd)]
        exact acc_then (B := 1) (acc_goAppend G s v H') (fun _ _ _ => Nat.le_refl _) (by omega)
    | @branch _ _ a m k kn Fs hd hx hF hk hsub hna hdis =>
      simp only [addFastM]
      refine acc_read hx ?_
      dsimp only
      rw [(hk h.idx).rep.isNone]
      cases hn : (kn h.idx).isNil with
      | true =>
        simp only [addCost, hn, if_true]
        have := acc_new (c := Cell.leaf1 v) (H := H) (f := fun l => do setNonNilChildM a h.idx (some l); pure (some a, (0 : Int))) (C := 3)
          (by
            have := acc_ret (g := fun _ : Unit => ((some a, 0) : Ptr × Int))
              (acc_setNonNil a h.idx (some H.cells.length) ⟨H.cells ++ [.leaf1 v], H.arrays, H.log⟩)
            omega)
        omega
      | false =>
        simp only [addCost, hn, Bool.false_eq_true, if_false]
        have h2 : addNeed (kn h.idx) (d + 1) ≤ fuel ∧ 0 < fuel := by
          unfold addNeed at hf ⊢
          simp only [Node.isBranch, if_true] at hf
          constructor
          · split <;> omega
          · omega
        have := acc_bind_le (B := 2) (ih H (Fs h.idx) (d + 1) (k h.idx) (kn h.idx) v h.next (hk _) (fun l hl' => hl l (hsub _ hl')) h2.1 h2.2)
          (f := fun r => do setNonNilChildM a h.idx r.1; pure (some a, r.2))
          (fun r H' _ => acc_ret (g := fun _ : Unit => ((some a, r.2) : Ptr × Int)) (acc_setNonNil a h.idx r.1 H'))
        have h3 : ∀ z, z ≤ addCost (kn h.idx) (d + 1) h.next + 2 → z + 1 ≤ addCost (kn h.idx) (d + 1) h.next + 3 := fun z hz => by omega
        exact h3 _ this

theorem acc_newBranchFrom3 (G : Growth) (d : Nat) (x y v : T) (H : Mem T) :
    (newBranchFromM G d [x, y, v]).accesses H ≤ splitCost d := by
  unfold newBranchFromM
  refine acc_split (addFastM_cost G memFuel) (fun _ => ?_) x y v H
  unfold memFuel; have h22 : maxTreeDepth = 22 := rfl; omega

/-! ## With -/

theorem goAppend_len {G : Growth} {s s' : Slice} {v : T} {H H' : Mem T} (h : goAppend G s v H = (.ok s', H')) : s'.len = s.len + 1 := by
  unfold goAppend at h
  split at h
  · cases h; rfl
  · rw [MM.run_andThen, readSlice_run] at h
    cases hs : H.slice s with
    | error e => rw [hs] at h; cases h
    | ok l => rw [hs] at h; cases h; rfl

theorem slice_len {H : Mem T} {s : Slice} {l : List T} (h : H.slice s = .ok l) : l.length = s.len := by
  unfold Mem.slice at h
  split at h
  · cases h; simp_all
  · split at h
    · cases h
    · split at h
      · cases h; simp; omega
      · cases h

theorem cloneTwigM_len {s s' : Slice} {H H' : Mem T} (h : cloneTwigM s H = (.ok s', H')) : s'.len = s.len := by
  unfold cloneTwigM at h
  rw [MM.run_andThen, readSlice_run] at h
  cases hs : H.slice s with
  | error e => rw [hs] at h; cases h
  | ok l => rw [hs] at h; cases h; exact slice_len hs

theorem acc_twigCanonical (G : Growth) (a : Nat) (s : Slice) (d : Nat) (H : Mem T) (hd : maxTreeDepth ≤ d ∨ s.len ≤ 2) :
    (twigCanonicalM G a s d).accesses H ≤ s.len + 1 := by
  unfold twigCanonicalM
  refine acc_bind_le (acc_readSlice s H) ?_
  intro l H' hrun
  rw [readSlice_run] at hrun
  injection hrun with hl _
  have hlen := slice_len hl
  match l, hlen with
  | [], _ => exact Nat.zero_le _
  | [x], _ => exact Nat.le_refl _
  | [x, y], _ => exact Nat.le_refl _
  | x :: y :: z :: l, hlen =>
    have h22 : maxTreeDepth = 22 := rfl
    have hc : (x :: y :: z :: l).length ≤ maxLeafLen ∨ d * fanoutBits ≥ 64 := by
      right
      simp only [List.length_cons] at hlen
      simp only [fanoutBits]
      omega
    dsimp only
    rw [if_pos hc]
    exact Nat.zero_le _

theorem acc_elim (o : Option T) (arr i : Nat) (g : T → T) (H : Mem T) :
    (o.elim (pure ()) (fun e => writeArr arr i (g e)) : MM T Unit).accesses H ≤ 1 := by
  cases o <;> simp [acc_pure, acc_writeArr]

theorem withM_cost (G : Growth) (args : CombineArgs T) {H : Mem T} {F : Set Loc} {d : Nat} {p : Ptr} {n : Node T}
    (hr : Rep H F d p n) : ∀ (fuel : Nat) (v : T) (h : Hasher),
    (withM G args fuel p v d h).accesses H ≤ splitCost d + 3 * twigOn n h + 4 := by
  have h22 : maxTreeDepth = 22 := rfl
  induction hr with
  | nil d => intro fuel v h; cases fuel <;> exact Nat.zero_le _
  | @leaf1 d a x hx _ =>
    intro fuel v h
    cases fuel with
    | zero => exact Nat.zero_le _
    | succ fuel =>
      simp only [withM]
      refine acc_read hx ?_
      dsimp only
      split
      · show 1 + 1 ≤ _; omega
      · show 1 + 1 ≤ _; omega
  | @leaf2 d a x y hx _ =>
    intro fuel v h
    cases fuel with
    | zero => exact Nat.zero_le _
    | succ fuel =>
      simp only [withM]
      refine acc_read hx ?_
      dsimp only
      split
      · show 1 + 1 ≤ _; omega
      · split
        · show 1 + 1 ≤ _; omega
        · have h2 : ∀ z, z ≤ splitCost d → z + 1 ≤ splitCost d + 3 * twigOn (.leaf2 x y) h + 4 := fun z hz => by omega
          exact h2 _ (acc_ret (g := fun p : Ptr => (p, (0 : Int))) (acc_newBranchFrom3 G d x y v H))
  | @twig d a s la l hd hx hF ha hFa h3 hla hs =>
    intro fuel v h
    cases fuel with
    | zero => exact Nat.zero_le _
    | succ fuel =>
      have hll : l.length = s.len := by rw [← hs]; simp; omega
      simp only [withM]
      refine acc_read hx ?_
      dsimp only
      have : ∀ z, z ≤ s.len + (2 * s.len + 4) → z + 1 ≤ splitCost d + 3 * twigOn (.twig l) h + 4 := fun z hz => by
        simp only [twigOn, splitCost]; omega
      refine this _ (acc_bind_le (acc_readSlice s H) ?_)
      intro l' H' _
      split
      · rename_i i _
        refine acc_then (B := 2) (acc_cloneTwigM s H') ?_ (by omega)
        intro s' H1 _
        exact acc_then (A := 1) (B := 1) (acc_elim _ _ _ (fun e => args.f e v) H1) (fun _ _ _ => Nat.le_refl _) (by omega)
      · refine acc_then (B := s.len + 3) (acc_goAppend G s v H') ?_ (by omega)
        intro s' H1 hrun
        have hl' := goAppend_len hrun
        refine acc_new ?_
        have := acc_ret (g := fun p : Ptr => (p, (0 : Int))) (acc_twigCanonical G H1.cells.length s' d
          ⟨H1.cells ++ [.twig s'], H1.arrays, H1.log⟩ (.inl hd))
        omega
  | @branch d a m k kn hd hx hF hk ih =>
    intro fuel v h
    cases fuel with
    | zero => exact Nat.zero_le _
    | succ fuel =>
      simp only [withM]
      refine acc_read hx ?_
      dsimp only
      split
      · show 2 + 1 ≤ _; omega
      · have h1 := ih h.idx fuel v h.next
        have h2 : splitCost d = splitCost (d + 1) + 15 := by unfold splitCost; omega
        have h3 : ∀ z, z ≤ splitCost (d + 1) + 3 * twigOn (kn h.idx) h.next + 4 + 1 → z + 1 ≤ splitCost d + 3 * twigOn (.branch m kn) h + 4 :=
          fun z hz => by simp only [twigOn]; omega
        refine h3 _ (acc_bind_le h1 ?_)
        rintro ⟨p, ms⟩ H' _
        dsimp only
        split
        · exact Nat.le_refl _
        · exact Nat.zero_le _

/-! ## AppendTo and the canonical form of a branch -/

variable [LawfulGoKey T]

theorem acc_fold_none {β : Type} (f : Option (List T) → β → MM T (Option (List T))) (hf : ∀ i, f none i = pure none) : ∀ (is : List β) (H : Mem T),
    (is.foldlM f none).accesses H = 0
  | [], _ => rfl
  | i :: is, H => by
    rw [List.foldlM_cons, hf i, accesses_bind]
    exact (Nat.zero_add _).trans (acc_fold_none f hf is H)

/-- The loop of `AppendTo` over children that can be read at a known cost. -/
theorem acc_fold_kids {F : Set Loc} {H : Mem T} {d fuel : Nat} {k : Fin 8 → Ptr} {kn : Fin 8 → Node T} (hk : ∀ i, Rep H F (d + 1) (k i) (kn i))
    (hf : FuelOk (d + 1) fuel) {C : Nat}
    (hc : ∀ i dest, (k i).isNone = false → dest.length ≤ 2 →
      (appendToP maxLeafLen fuel (k i) dest).accesses H ≤ C + 2 - dest.length ∧
      ∀ dest', appendTo maxLeafLen (kn i) dest = .ok (some dest') →
        (appendToP maxLeafLen fuel (k i) dest).accesses H + dest.length ≤ dest'.length ∧ dest'.length ≤ 2) :
    ∀ (is : List (Fin 8)) (dest : List T), dest.length ≤ 2 →
      (is.foldlM (fun acc i =>
        match acc with
        | none => pure none
        | some dest => if (k i).isNone then pure (some dest) else appendToP maxLeafLen fuel (k i) dest) (some dest) : MM T _).accesses H
        ≤ C + 2 - dest.length
  | [], dest, _ => Nat.zero_le _
  | i :: is, dest, hd => by
    rw [List.foldlM_cons]
    dsimp only
    cases hn : (k i).isNone with
    | true =>
      rw [if_pos rfl, accesses_bind]
      exact Nat.le_trans (Nat.le_of_eq (Nat.zero_add _)) (acc_fold_kids hk hf hc is dest hd)
    | false =>
      rw [if_neg (by simp), accesses_bind, appendToP_run, appendToM_eq maxLeafLen (hk i) fuel dest hf]
      obtain ⟨h1, h2⟩ := hc i dest hn hd
      cases hr : appendTo maxLeafLen (kn i) dest with
      | error e => simp only; omega
      | ok o =>
        cases o with
        | none =>
          simp only
          rw [acc_fold_none _ (fun _ => rfl)]
          omega
        | some dest' =>
          obtain ⟨h3, h4⟩ := h2 dest' hr
          have := acc_fold_kids hk hf hc is dest' h4
          simp only
          omega

theorem acc_appendTo {F : Set Loc} {H : Mem T} {d : Nat} {p : Ptr} {n : Node T} (hr : Rep H F d p n) : ∀ (fuel : Nat) (dest : List T),
    WF d n → FuelOk d fuel → p.isNone = false → dest.length ≤ 2 →
      (appendToP maxLeafLen fuel p dest).accesses H ≤ (maxTreeDepth - d + 1) + 2 - dest.length ∧
      ∀ dest', appendTo maxLeafLen n dest = .ok (some dest') →
        (appendToP maxLeafLen fuel p dest).accesses H + dest.length ≤ dest'.length ∧ dest'.length ≤ 2 := by
  induction hr with
  | nil d => intro fuel dest _ _ h; cases h
  | @leaf1 d a x hx _ =>
    intro fuel dest hw hf _ hd
    obtain ⟨f, rfl⟩ : ∃ f, fuel = f + 1 := Nat.exists_eq_succ_of_ne_zero hf.2.ne'
    have h1 : (appendToP maxLeafLen (f + 1) (some a) dest).accesses H ≤ 1 := acc_read hx (Nat.le_refl 1)
    refine ⟨by omega, fun dest' he => ?_⟩
    rw [appendTo_spec maxLeafLen _ dest rfl hd] at he
    split at he
    · rename_i hle
      cases he
      simp only [elems, List.length_append, List.length_cons, List.length_nil] at hle ⊢
      have : maxLeafLen = 2 := rfl
      omega
    · cases he
  | @leaf2 d a x y hx _ =>
    intro fuel dest hw hf _ hd
    obtain ⟨f, rfl⟩ : ∃ f, fuel = f + 1 := Nat.exists_eq_succ_of_ne_zero hf.2.ne'
    have h1 : (appendToP maxLeafLen (f + 1) (some a) dest).accesses H ≤ 1 := acc_read hx (Nat.le_refl 1)
    refine ⟨by omega, fun dest' he => ?_⟩
    rw [appendTo_spec maxLeafLen _ dest rfl hd] at he
    split at he
    · rename_i hle
      cases he
      simp only [elems, List.length_append, List.length_cons, List.length_nil] at hle ⊢
      have : maxLeafLen = 2 := rfl
      omega
    · cases he
  | @twig d a s la l hd' hx hF ha hFa h3 hla hs =>
    intro fuel dest hw hf _ hd
    obtain ⟨f, rfl⟩ : ∃ f, fuel = f + 1 := Nat.exists_eq_succ_of_ne_zero hf.2.ne'
    have hll : l.length = s.len := by rw [← hs]; simp; omega
    have h1 : (appendToP maxLeafLen (f + 1) (some a) dest).accesses H ≤ 1 := by
      refine acc_read hx ?_
      dsimp only
      rw [if_pos (by simp only [maxLeafLen]; omega)]
      exact Nat.le_refl 1
    refine ⟨by omega, fun dest' he => ?_⟩
    rw [appendTo_spec maxLeafLen _ dest rfl hd, if_neg (by simp only [elems, maxLeafLen]; omega)] at he
    cases he
  | @branch d a m k kn hd' hx hF hk ih =>
    intro fuel dest hw hf _ hd
    obtain ⟨f, rfl⟩ : ∃ f, fuel = f + 1 := Nat.exists_eq_succ_of_ne_zero hf.2.ne'
    have hsp := appendTo_spec maxLeafLen (.branch m kn) dest rfl hd
    rw [if_neg (by have := hw.2; simp only [maxLeafLen]; omega)] at hsp
    refine ⟨?_, fun dest' he => by rw [hsp] at he; cases he⟩
    refine acc_read hx ?_
    have hfo := hf.succ hd'
    have := acc_fold_kids hk hfo (C := maxTreeDepth - (d + 1) + 1)
      (fun i dest hn hl => ih i f dest (hw.1.2.2.1 i) hfo hn hl) (List.finRange 8) dest hd
    have h22 : maxTreeDepth = 22 := rfl
    have h4 : ∀ z, z ≤ maxTreeDepth - (d + 1) + 1 + 2 - dest.length → z + 1 ≤ maxTreeDepth - d + 1 + 2 - dest.length := fun z hz => by omega
    exact h4 _ this

/-- `AppendTo` on a branch with well-formed children. -/
theorem acc_appendTo_branch {F : Set Loc} {H : Mem T} {d b : Nat} {m : Masker} {k : Fin 8 → Ptr} {kn : Fin 8 → Node T}
    (hx : H.cells[b]? = some (.branch m k)) (hk : ∀ i, Rep H F (d + 1) (k i) (kn i)) (hw : ∀ i, WF (d + 1) (kn i)) :
    (appendToP maxLeafLen memFuel (some b) []).accesses H ≤ 25 := by
  have hfo : FuelOk (d + 1) 63 := ⟨by have : maxTreeDepth = 22 := rfl; omega, by decide⟩
  have h22 : maxTreeDepth = 22 := rfl
  refine acc_read hx ?_
  have := acc_fold_kids hk hfo (C := maxTreeDepth - (d + 1) + 1) (fun i dest hn hl => acc_appendTo (hk i) 63 dest (hw i) hfo hn hl)
    (List.finRange 8) [] (Nat.zero_le _)
  have h4 : ∀ z, z ≤ maxTreeDepth - (d + 1) + 1 + 2 - ([] : List T).length → z + 1 ≤ 25 := fun z hz => by
    simp only [List.length_nil] at hz; omega
  exact h4 _ this

theorem appendTo_branch_len {F : Set Loc} {H H' : Mem T} {d b : Nat} {m : Masker} {k : Fin 8 → Ptr} {kn : Fin 8 → Node T} {data : List T}
    (hd : d < maxTreeDepth) (hx : H.cells[b]? = some (.branch m k)) (hb : .cell b ∈ F) (hk : ∀ i, Rep H F (d + 1) (k i) (kn i))
    (h : appendToP maxLeafLen memFuel (some b) [] H = (.ok (some data), H')) : data.length ≤ 2 := by
  rw [appendToP_run, appendToM_eq maxLeafLen (Rep.branch hd hx hb hk) memFuel [] (fuelOk_mem d),
    appendTo_spec maxLeafLen (.branch m kn) [] rfl (Nat.zero_le _)] at h
  split at h
  · rename_i hl
    cases h
    simpa [maxLeafLen] using hl
  · cases h

theorem acc_branchCanonical (G : Growth) {F : Set Loc} {H : Mem T} {d b : Nat} {m : Masker} {k : Fin 8 → Ptr} {kn : Fin 8 → Node T}
    (hd : d < maxTreeDepth) (hx : H.cells[b]? = some (.branch m k)) (hb : .cell b ∈ F) (hk : ∀ i, Rep H F (d + 1) (k i) (kn i))
    (hw : ∀ i, WF (d + 1) (kn i)) : (branchCanonicalM G b).accesses H ≤ 30 := by
  unfold branchCanonicalM
  refine acc_then (B := 5) (acc_appendTo_branch hx hk hw) ?_ (Nat.le_refl _)
  intro o H' hrun
  cases o with
  | none => exact Nat.zero_le _
  | some data =>
    have hlen := appendTo_branch_len hd hx hb hk hrun
    dsimp only
    refine acc_then (A := 1) (B := 4) (Nat.le_refl _) ?_ (Nat.le_refl _)
    intro arr H1 _
    refine acc_new ?_
    have := acc_twigCanonical G H1.cells.length ⟨arr, data.length, maxLeafLen⟩ 0
      ⟨H1.cells ++ [.twig ⟨arr, data.length, maxLeafLen⟩], H1.arrays, H1.log⟩ (.inr hlen)
    dsimp only at this
    omega

/-! ## Without and Remove -/

theorem withoutM_cost (G : Growth) (fuel : Nat) : ∀ (H : Mem T) (F : Set Loc) (d : Nat) (p : Ptr) (n : Node T) (v : T),
    Rep H F d p n → Live H F → FuelOk d fuel → WF d n →
    (withoutM G fuel p v d (newHasher v d)).accesses H ≤ 32 * (maxTreeDepth - d) + 3 * twigOn n (newHasher v d) + 4 := by
  have h22 : maxTreeDepth = 22 := rfl
  induction fuel with
  | zero => intro H F d p n v _ _ hf; exact absurd hf.2 (Nat.lt_irrefl 0)
  | succ fuel ih =>
    intro H F d p n v hr hl hf hw
    cases hr with
    | nil _ => exact Nat.zero_le _
    | @leaf1 _ a x hx _ =>
      simp only [withoutM]
      refine acc_read hx ?_
      dsimp only
      split <;> simp only [acc_pure] <;> omega
    | @leaf2 _ a x y hx _ =>
      simp only [withoutM]
      refine acc_read hx ?_
      dsimp only
      split
      · show 1 + 1 ≤ _; omega
      · split
        · show 1 + 1 ≤ _; omega
        · simp only [acc_pure]; omega
    | @twig _ a s la l hd hx hF ha hFa h3 hla hs =>
      have hll : l.length = s.len := by rw [← hs]; simp; omega
      simp only [withoutM]
      refine acc_read hx ?_
      dsimp only
      have : ∀ z, z ≤ s.len + (2 * s.len + 2) → z + 1 ≤ 32 * (maxTreeDepth - d) + 3 * twigOn (.twig l) (newHasher v d) + 4 := fun z hz => by
        simp only [twigOn]; omega
      refine this _ (acc_bind_le (acc_readSlice s H) ?_)
      intro l' H' _
      split
      · refine acc_then (B := s.len + 2) (acc_cloneTwigM ⟨s.arr, s.len - 1, s.cap⟩ H') ?_ (by dsimp only; omega)
        intro s' H1 hrun
        have hl' := cloneTwigM_len hrun
        dsimp only at hl'
        have key : ∀ (x : MM T Unit), x.accesses H1 ≤ 1 → (do
            x
            let b ← alloc (.twig s')
            let p ← twigCanonicalM G b s' d
            pure (p, (1 : Int)) : MM T (Ptr × Int)).accesses H1 ≤ s.len + 2 := by
          intro x hx
          refine acc_then (B := s.len + 1) hx ?_ (by omega)
          intro _ H2 _
          refine acc_new ?_
          have := acc_ret (g := fun p : Ptr => (p, (1 : Int))) (acc_twigCanonical G H2.cells.length s' d
            ⟨H2.cells ++ [.twig s'], H2.arrays, H2.log⟩ (.inl hd))
          omega
        split
        · exact key _ (acc_elim _ _ _ (fun e => e) H1)
        · exact key (pure ()) (Nat.zero_le _)
      · simp only [acc_pure]; omega
    | @branch _ a m k kn hd hx hF hk =>
      simp only [withoutM]
      refine acc_read hx ?_
      dsimp only
      split
      · simp only [acc_pure]; omega
      · rename_i hnone
        have hn : (kn (newHasher v d).idx).isNil = false := by
          have := (hk (newHasher v d).idx).isNone
          rw [← this]; exact Bool.eq_false_iff.2 hnone
        have hwk : WF (d + 1) (kn (newHasher v d).idx) := hw.1.2.2.1 _
        have h1 := ih H F (d + 1) (k (newHasher v d).idx) (kn (newHasher v d).idx) v (hk _) hl (hf.succ hd) hwk
        rw [newHasher_next]
        have h3 : ∀ z, z ≤ 32 * (maxTreeDepth - (d + 1)) + 3 * twigOn (kn (newHasher v d).idx) (newHasher v (d + 1)) + 4 + 31 →
            z + 1 ≤ 32 * (maxTreeDepth - d) + 3 * twigOn (.branch m kn) (newHasher v d) + 4 :=
          fun z hz => by simp only [twigOn, newHasher_next]; omega
        refine h3 _ (acc_bind_le h1 ?_)
        rintro ⟨p', ms⟩ H1 hrun
        obtain ⟨⟨n', ms', same⟩, hv, hc, _, hrep, _⟩ := (withoutM_sim G fuel H F (d + 1) _ _ v _ (hk _) hl (hf.succ hd)).ok hrun
        obtain ⟨n2, ms2, same2, hv2, hsp, _⟩ := without_spec (kn (newHasher v d).idx) (d + 1) hwk hn v
        rw [hv] at hv2
        cases hv2
        dsimp only
        split
        · unfold newBranchWithChild
          refine acc_new ?_
          refine Nat.succ_le_succ ?_
          refine acc_ret (g := fun r : Ptr => (r, ms)) ?_
          generalize (if p'.isNone then (m ||| newMasker (newHasher v d).idx) &&& ~~~ newMasker (newHasher v d).idx
            else (m ||| newMasker (newHasher v d).idx) ||| newMasker (newHasher v d).idx) = m'
          let c : Cell T := .branch m' (setSlot k (newHasher v d).idx p')
          have hc2 : Changes ∅ H1 ⟨H1.cells ++ [c], H1.arrays, H1.log⟩ := changes_alloc _ _ _
          refine acc_branchCanonical G (F := (F ∪ New H H1) ∪ New H1 ⟨H1.cells ++ [c], H1.arrays, H1.log⟩)
            (kn := setSlot kn (newHasher v d).idx n') hd cells_new (.inr new_cell) ?_ ?_
          · intro i
            by_cases hi : i = (newHasher v d).idx
            · subst hi; rw [setSlot_same, setSlot_same]; exact (hrep.next hc2).mono Set.subset_union_left
            · rw [setSlot_ne _ _ hi, setSlot_ne _ _ hi]
              exact (((hk i).next hc).next hc2).mono (fun l h => .inl (.inl h))
          · intro i
            by_cases hi : i = (newHasher v d).idx
            · subst hi; rw [setSlot_same]; exact hsp.wf
            · rw [setSlot_ne _ _ hi]; exact hw.1.2.2.1 i
        · exact Nat.zero_le _

theorem acc_isBranch (p : Ptr) (H : Mem T) : (isBranchM p : MM T Bool).accesses H ≤ 1 := by
  cases p with
  | none => exact Nat.zero_le _
  | some a =>
    simp only [isBranchM, MM.accesses]
    split <;> exact Nat.le_refl _

theorem acc_updateMask (b : Nat) (H : Mem T) : (updateMaskM b : MM T Unit).accesses H ≤ 2 := by
  unfold updateMaskM
  refine acc_then (A := 1) (B := 1) (Nat.le_of_eq (acc_readCell b H)) ?_ (Nat.le_refl _)
  intro c H' _
  cases c <;> first | exact Nat.zero_le _ | exact Nat.le_refl _

theorem acc_newLeaf (l : List T) (H : Mem T) : (newLeafM l).accesses H ≤ 1 := by
  unfold newLeafM
  split <;> first | exact Nat.zero_le _ | exact Nat.le_refl _

theorem removeM_cost (G : Growth) (fuel : Nat) : ∀ (H : Mem T) (F : Set Loc) (d : Nat) (p : Ptr) (n : Node T) (v : T),
    Own H F d p n → Live H F → FuelOk d fuel → WF d n →
    (removeM G fuel p v d (newHasher v d)).accesses H ≤ 32 * (maxTreeDepth - d) + 2 * twigOn n (newHasher v d) + 4 := by
  have h22 : maxTreeDepth = 22 := rfl
  induction fuel with
  | zero => intro H F d p n v _ _ hf; exact absurd hf.2 (Nat.lt_irrefl 0)
  | succ fuel ih =>
    intro H F d p n v hr hl hf hw
    cases hr with
    | nil _ => exact Nat.zero_le _
    | @leaf1 _ _ a x hx _ =>
      simp only [removeM]
      refine acc_read hx ?_
      dsimp only
      split <;> simp only [acc_pure] <;> omega
    | @leaf2 _ _ a x y hx _ =>
      simp only [removeM]
      refine acc_read hx ?_
      dsimp only
      split
      · show 1 + 1 ≤ _; omega
      · split
        · show 1 + 1 ≤ _; omega
        · simp only [acc_pure]; omega
    | @twig _ _ a s la l hd hx hF ha hFa h3 hla hs =>
      have hll : l.length = s.len := by rw [← hs]; simp; omega
      simp only [removeM]
      refine acc_read hx ?_
      dsimp only
      have : ∀ z, z ≤ s.len + (s.len + 2) → z + 1 ≤ 32 * (maxTreeDepth - d) + 2 * twigOn (.twig l) (newHasher v d) + 4 := fun z hz => by
        simp only [twigOn]; omega
      refine this _ (acc_bind_le (acc_readSlice s H) ?_)
      intro l' H' _
      split
      · have key : ∀ (x : MM T Unit), x.accesses H' ≤ 1 → (do
            x
            writeCell a (.twig ⟨s.arr, s.len - 1, s.cap⟩)
            let p ← twigCanonicalM G a ⟨s.arr, s.len - 1, s.cap⟩ d
            pure (p, (1 : Int)) : MM T (Ptr × Int)).accesses H' ≤ s.len + 2 := by
          intro x hx
          refine acc_then (B := s.len + 1) hx ?_ (by omega)
          intro _ H2 _
          refine acc_then (A := 1) (B := s.len) (Nat.le_refl _) ?_ (by omega)
          intro _ H3 _
          have := acc_ret (g := fun p : Ptr => (p, (1 : Int))) (acc_twigCanonical G a ⟨s.arr, s.len - 1, s.cap⟩ d H3 (.inl hd))
          dsimp only at this
          omega
        split
        · exact Nat.zero_le _
        · split
          · exact key _ (acc_elim _ _ _ (fun e => e) H')
          · exact key (pure ()) (Nat.zero_le _)
      · simp only [acc_pure]; omega
    | @branch _ _ a m k kn Fs hd hx hF hk hsub hna hdis =>
      simp only [removeM]
      refine acc_read hx ?_
      dsimp only
      split
      · simp only [acc_pure]; omega
      · rename_i hnone
        have hn : (kn (newHasher v d).idx).isNil = false := by
          have := (hk (newHasher v d).idx).rep.isNone
          rw [← this]; exact Bool.eq_false_iff.2 hnone
        have hwk : WF (d + 1) (kn (newHasher v d).idx) := hw.1.2.2.1 _
        have hlk : Live H (Fs (newHasher v d).idx) := fun l hl' => hl l (hsub _ hl')
        have h1 := ih H _ (d + 1) (k (newHasher v d).idx) (kn (newHasher v d).idx) v (hk _) hlk (hf.succ hd) hwk
        rw [newHasher_next]
        have h3 : ∀ z, z ≤ 32 * (maxTreeDepth - (d + 1)) + 2 * twigOn (kn (newHasher v d).idx) (newHasher v (d + 1)) + 4 + 29 →
            z + 1 ≤ 32 * (maxTreeDepth - d) + 2 * twigOn (.branch m kn) (newHasher v d) + 4 :=
          fun z hz => by simp only [twigOn, newHasher_next]; omega
        refine h3 _ (acc_bind_le h1 ?_)
        rintro ⟨p', ms⟩ H1 hrun
        obtain ⟨⟨n', ms'⟩, hv, hc, _, ho⟩ := (removeM_sim G fuel H _ (d + 1) _ _ v _ (hk _) hlk (hf.succ hd)).ok hrun
        obtain ⟨n2, ms2, hv2, hsp⟩ := remove_spec (kn (newHasher v d).idx) (d + 1) hwk hn v
        rw [hv] at hv2
        cases hv2
        dsimp only at ho ⊢
        refine acc_new ?_
        let H2 : Mem T := ⟨H1.cells ++ [.branch m (setSlot k (newHasher v d).idx p')], H1.arrays, H1.log⟩
        have hc12 : Changes ∅ H1 H2 := changes_alloc _ _ _
        have hb : H2.cells[H1.cells.length]? = some (.branch m (setSlot k (newHasher v d).idx p')) := cells_new
        have hkids : ∀ i, Rep H2 Set.univ (d + 1) (setSlot k (newHasher v d).idx p' i) (setSlot kn (newHasher v d).idx n' i) := by
          intro i
          by_cases hi : i = (newHasher v d).idx
          · subst hi; rw [setSlot_same, setSlot_same]; exact (ho.rep.next hc12).mono (Set.subset_univ _)
          · rw [setSlot_ne _ _ hi, setSlot_ne _ _ hi]
            exact (((hk i).rep.frame hc (fun l h1 h2 => hdis i _ hi l h1 h2)).next hc12).mono (Set.subset_univ _)
        have hwks : ∀ i, WF (d + 1) (setSlot kn (newHasher v d).idx n' i) := by
          intro i
          by_cases hi : i = (newHasher v d).idx
          · subst hi; rw [setSlot_same]; exact hsp.wf
          · rw [setSlot_ne _ _ hi]; exact hw.1.2.2.1 i
        have hisb : isBranchM p' H2 = (.ok n'.isBranch, H2) := isBranchM_eq (ho.rep.next hc12)
        have hupd : ∀ (H' : Mem T), (do updateMaskM H1.cells.length; pure (some H1.cells.length, ms) : MM T (Ptr × Int)).accesses H' ≤ 2 := by
          intro H'
          exact acc_ret (g := fun _ : Unit => ((some H1.cells.length : Ptr), ms)) (acc_updateMask _ H')
        refine Nat.succ_le_succ ?_
        refine acc_then (A := 1) (B := 27) (acc_isBranch p' H2) ?_ (Nat.le_refl _)
        intro bo H3 hrun3
        rw [hisb] at hrun3
        cases hrun3
        split
        · refine acc_then (B := 2) (acc_appendTo_branch hb hkids hwks) ?_ (Nat.le_refl _)
          intro o H4 _
          cases o with
          | none => exact hupd H4
          | some data =>
            dsimp only
            exact Nat.le_trans (acc_ret (g := fun r : Ptr => (r, ms)) (acc_newLeaf data H4)) (by decide)
        · exact Nat.le_trans (hupd H2) (by decide)

theorem addCost_le : ∀ (n : Node T) (d : Nat) (h : Hasher), WF d n → addCost n d h ≤ splitCost d + 2 * twigOn n h + 3
  | .nil, d, h, _ => Nat.zero_le _
  | .leaf1 _, d, h, _ => by simp only [addCost]; omega
  | .leaf2 _ _, d, h, _ => by simp only [addCost]; omega
  | .twig l, d, h, _ => by simp only [addCost, twigOn]; omega
  | .branch m k, d, h, hw => by
    have hd : d < maxTreeDepth := hw.1.1
    simp only [addCost]
    split
    · have : splitCost d = 15 * (maxTreeDepth - d) + 2 := rfl
      omega
    · have := addCost_le (k h.idx) (d + 1) h.next (hw.1.2.2.1 _)
      have h2 : splitCost d = splitCost (d + 1) + 15 := by unfold splitCost; omega
      simp only [twigOn]
      omega

theorem twigOn_agree : ∀ (n : Node T) (d : Nat) (v : T), WF d n →
    twigOn n (newHasher v d) ≤ ((elems n).filter (agree d 22 · v)).length
  | .nil, d, v, _ => Nat.zero_le _
  | .leaf1 _, d, v, _ => Nat.zero_le _
  | .leaf2 _ _, d, v, _ => Nat.zero_le _
  | .twig l, d, v, hw => by
    have h1 : maxTreeDepth ≤ d := hw.1
    have h22 : maxTreeDepth = 22 := rfl
    have : (elems (.twig l)).filter (agree d 22 · v) = l := by
      simp only [elems]
      exact List.filter_eq_self.2 (fun e _ => agree_iff.2 (fun j h2 h3 => by omega))
    rw [this]
    exact Nat.le_refl _
  | .branch m k, d, v, hw => by
    have hs := hw.1
    have hd' : d < 22 := hs.1
    have hsub : (elems (k (chunk v d))).Sublist (elems (.branch m k)) := by
      simp only [elems]
      exact List.sublist_flatten_of_mem (List.mem_map.2 ⟨_, List.mem_finRange _, rfl⟩)
    have ih := twigOn_agree (k (chunk v d)) (d + 1) v (hs.2.2.1 _)
    have hidx : (newHasher v d).idx = chunk v d := rfl
    simp only [twigOn, newHasher_next, hidx]
    refine ih.trans ?_
    have he : (elems (k (chunk v d))).filter (agree (d + 1) 22 · v) = (elems (k (chunk v d))).filter (agree d 22 · v) := by
      refine List.filter_congr (fun e he => Bool.eq_iff_iff.2 ?_)
      rw [agree_iff, agree_iff]
      constructor
      · intro h j h1 h2
        rcases Nat.lt_or_ge d j with h3 | h3
        · exact h j h3 h2
        · obtain rfl : j = d := by omega
          exact hs.2.2.2 _ e he
      · exact fun h j h1 h2 => h j (by omega) h2
    rw [he]
    exact (hsub.filter _).length_le

theorem twigOn_le {n : Node T} (v : T) (hw : WF 0 n) :
    twigOn n (newHasher v 0) ≤ ((elems n).filter (fun e => decide (hash0 e = hash0 v))).length := by
  refine (twigOn_agree n 0 v hw).trans (Nat.le_of_eq ?_)
  congr 1
  refine List.filter_congr (fun e _ => Bool.eq_iff_iff.2 ?_)
  rw [agree_22, decide_eq_true_eq]

/-! ## The calls on trees -/

variable {H : Mem T} {F : Set Loc} {t : MTree} {n : Node T}

theorem acc_tree_get (h : Rep H F 0 t.root n) (v : T) (hw : WF 0 n) :
    (t.getP v).accesses H ≤ 23 + ((elems n).filter (fun e => decide (hash0 e = hash0 v))).length := by
  have h22 : maxTreeDepth = 22 := rfl
  have h1 := twigOn_le v hw
  unfold MTree.getP
  split
  · exact Nat.zero_le _
  · have := acc_getP h memFuel v (newHasher v 0)
    omega

theorem acc_tree_with (G : Growth) (h : Rep H F 0 t.root n) (v : T) (hw : WF 0 n) :
    (t.with G v).accesses H ≤ 336 + 3 * ((elems n).filter (fun e => decide (hash0 e = hash0 v))).length := by
  have h1 := twigOn_le v hw
  unfold MTree.with
  split
  · show 1 ≤ _; omega
  · have := acc_ret (g := fun r : Ptr × Int => (⟨r.1, t.count + 1 - r.2⟩ : MTree)) (withM_cost G fastArgs h memFuel v (newHasher v 0))
    have h2 : splitCost 0 = 332 := rfl
    refine Nat.le_trans this ?_
    omega

theorem acc_tree_without (G : Growth) (h : Rep H F 0 t.root n) (hl : Live H F) (v : T) (hw : WF 0 n) :
    (t.without G v).accesses H ≤ 708 + 3 * ((elems n).filter (fun e => decide (hash0 e = hash0 v))).length := by
  have h1 := twigOn_le v hw
  have h22 : maxTreeDepth = 22 := rfl
  unfold MTree.without
  split
  · exact Nat.zero_le _
  · have := acc_ret (g := fun r : Ptr × Int => (⟨r.1, t.count - r.2⟩ : MTree)) (withoutM_cost G memFuel H F 0 t.root n v h hl (fuelOk_mem 0) hw)
    refine Nat.le_trans this ?_
    omega

theorem acc_tree_add (G : Growth) (h : Own H F 0 t.root n) (hl : Live H F) (v : T) (hw : WF 0 n) :
    (t.add G v).accesses H ≤ 335 + 2 * ((elems n).filter (fun e => decide (hash0 e = hash0 v))).length := by
  have h1 := twigOn_le v hw
  have h22 : maxTreeDepth = 22 := rfl
  unfold MTree.add
  split
  · show 1 ≤ _; omega
  · have := acc_ret (g := fun r : Ptr × Int => (⟨r.1, t.count + (1 - r.2)⟩ : MTree)) (addFastM_cost G memFuel H F 0 t.root n v (newHasher v 0) h hl
      (by unfold addNeed memFuel; split <;> omega) (by decide))
    have h3 := addCost_le n 0 (newHasher v 0) hw
    have h2 : splitCost 0 = 332 := rfl
    refine Nat.le_trans this ?_
    omega

theorem acc_tree_remove (G : Growth) (h : Own H F 0 t.root n) (hl : Live H F) (v : T) (hw : WF 0 n) :
    (t.remove G v).accesses H ≤ 708 + 2 * ((elems n).filter (fun e => decide (hash0 e = hash0 v))).length := by
  have h1 := twigOn_le v hw
  have h22 : maxTreeDepth = 22 := rfl
  unfold MTree.remove
  split
  · exact Nat.zero_le _
  · have := acc_ret (g := fun r : Ptr × Int => (⟨r.1, t.count - r.2⟩ : MTree)) (removeM_cost G memFuel H F 0 t.root n v h hl (fuelOk_mem 0) hw)
    refine Nat.le_trans this ?_
    omega

theorem acc_fold_elems {d fuel : Nat} {k : Fin 8 → Ptr} {kn : Fin 8 → Node T} {C : Nat}
    (hr : ∀ i, elemsP fuel (k i) H = (.ok (elems (kn i)), H)) (hc : ∀ i, (elemsP fuel (k i)).accesses H ≤ C * (elems (kn i)).length) :
    ∀ (is : List (Fin 8)) (acc : List T),
      (is.foldlM (fun acc i => do let l ← elemsP fuel (k i); pure (acc ++ l)) acc : MM T _).accesses H ≤ C * (is.flatMap (fun i => elems (kn i))).length
  | [], _ => Nat.zero_le _
  | i :: is, acc => by
    rw [List.foldlM_cons]
    have h1 := acc_fold_elems (d := d) hr hc is (acc ++ elems (kn i))
    have h2 := hc i
    have h3 : (do let l ← elemsP fuel (k i); pure (acc ++ l) : MM T _) H = (.ok (acc ++ elems (kn i)), H) := by
      rw [run_bind (hr i)]; rfl
    have h4 : (do let l ← elemsP fuel (k i); pure (acc ++ l) : MM T _).accesses H ≤ C * (elems (kn i)).length :=
      acc_ret (g := fun l => acc ++ l) h2
    rw [accesses_bind, h3, List.flatMap_cons, List.length_append, Nat.mul_add]
    exact Nat.add_le_add h4 h1

theorem acc_elems {d : Nat} {p : Ptr} (hr : Rep H F d p n) : ∀ (fuel : Nat), WF d n → FuelOk d fuel →
    (elemsP fuel p).accesses H ≤ (maxTreeDepth - d + 2) * (elems n).length := by
  have h22 : maxTreeDepth = 22 := rfl
  induction hr with
  | nil d => intro fuel _ _; cases fuel <;> exact Nat.zero_le _
  | @leaf1 d a x hx _ =>
    intro fuel _ hf
    obtain ⟨f, rfl⟩ : ∃ f, fuel = f + 1 := Nat.exists_eq_succ_of_ne_zero hf.2.ne'
    refine acc_read hx ?_
    simp only [acc_pure, elems, List.length_cons, List.length_nil]
    omega
  | @leaf2 d a x y hx _ =>
    intro fuel _ hf
    obtain ⟨f, rfl⟩ : ∃ f, fuel = f + 1 := Nat.exists_eq_succ_of_ne_zero hf.2.ne'
    refine acc_read hx ?_
    simp only [acc_pure, elems, List.length_cons, List.length_nil]
    omega
  | @twig d a s la l hd' hx hF ha hFa h3 hla hs =>
    intro fuel _ hf
    obtain ⟨f, rfl⟩ : ∃ f, fuel = f + 1 := Nat.exists_eq_succ_of_ne_zero hf.2.ne'
    have hll : l.length = s.len := by rw [← hs]; simp; omega
    refine acc_read hx ?_
    have h1 := acc_readSlice s H
    have h2 : 2 * l.length ≤ (maxTreeDepth - d + 2) * l.length := Nat.mul_le_mul_right _ (by omega)
    simp only [elems]
    omega
  | @branch d a m k kn hd' hx hF hk ih =>
    intro fuel hw hf
    obtain ⟨f, rfl⟩ : ∃ f, fuel = f + 1 := Nat.exists_eq_succ_of_ne_zero hf.2.ne'
    refine acc_read hx ?_
    have hfo := hf.succ hd'
    have h1 := acc_fold_elems (d := d) (C := maxTreeDepth - (d + 1) + 2) (fun i => by
      rw [elemsP_run, elemsM_eq (hk i) f hfo]) (fun i => ih i f (hw.1.2.2.1 i) hfo) (List.finRange 8) []
    have he : (List.finRange 8).flatMap (fun i => elems (kn i)) = elems (.branch m kn) := by
      rw [List.flatMap_def]; rfl
    rw [he] at h1
    have h3 := hw.2
    have h4 : (maxTreeDepth - d + 2) * (elems (.branch m kn)).length =
        (maxTreeDepth - (d + 1) + 2) * (elems (.branch m kn)).length + (elems (.branch m kn)).length := by
      rw [← Nat.succ_mul]; congr 1; omega
    rw [h4]
    exact Nat.add_le_add h1 (by omega)

/-- Every allocation is an access. -/
theorem alloc_le {α : Type} (x : MM T α) : ∀ (H : Mem T),
    (x H).2.cells.length + (x H).2.arrays.length ≤ H.cells.length + H.arrays.length + x.accesses H := by
  induction x with
  | done r => intro H; exact Nat.le_refl _
  | readCell a k ih => intro H; have := ih H.cells[a]? H; simp only [MM.accesses, MM.run] at *; omega
  | readElem arr i k ih => intro H; have := ih (H.arrays[arr]?.bind (·[i]?)) H; simp only [MM.accesses, MM.run] at *; omega
  | alloc c k ih =>
    intro H
    have := ih H.cells.length ⟨H.cells ++ [c], H.arrays, H.log⟩
    simp only [MM.accesses, MM.run, List.length_append, List.length_cons, List.length_nil] at *; omega
  | allocArr l k ih =>
    intro H
    have := ih H.arrays.length ⟨H.cells, H.arrays ++ [l], H.log⟩
    simp only [MM.accesses, MM.run, List.length_append, List.length_cons, List.length_nil] at *; omega
  | writeCell a c k ih =>
    intro H
    have := ih (H.setCell a c)
    simp only [MM.accesses, MM.run, Mem.setCell, List.length_set] at *; omega
  | writeElem arr i v k ih =>
    intro H
    have := ih (H.setElem arr i v)
    simp only [MM.accesses, MM.run, Mem.setElem, List.length_modify] at *; omega

end Frozen
