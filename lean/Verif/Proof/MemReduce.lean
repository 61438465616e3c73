import Verif.Model.MemReduce
import Verif.Proof.MemHistory
import Verif.Proof.Reduce
import Verif.Spec.MemReduce
import Verif.Proof.Clash

/-! `Reduce` in memory. -/

set_option linter.unusedSectionVars false

namespace Frozen

variable {T : Type}

theorem MM.andThen_pure {α : Type} (x : MM T α) : x.andThen (fun a => .done (.ok a)) = x := by
  induction x with
  | done r => cases r <;> rfl
  | readCell a k ih => simp only [MM.andThen, ih]
  | readElem a i k ih => simp only [MM.andThen, ih]
  | alloc c k ih => simp only [MM.andThen, ih]
  | allocArr l k ih => simp only [MM.andThen, ih]
  | writeCell a c k ih => simp only [MM.andThen, ih]
  | writeElem a i v k ih => simp only [MM.andThen, ih]

theorem MM.andThen_assoc {α β γ : Type} (x : MM T α) (f : α → MM T β) (g : β → MM T γ) :
    (x.andThen f).andThen g = x.andThen (fun a => (f a).andThen g) := by
  induction x with
  | done r => cases r <;> rfl
  | readCell a k ih => simp only [MM.andThen, ih]
  | readElem a i k ih => simp only [MM.andThen, ih]
  | alloc c k ih => simp only [MM.andThen, ih]
  | allocArr l k ih => simp only [MM.andThen, ih]
  | writeCell a c k ih => simp only [MM.andThen, ih]
  | writeElem a i v k ih => simp only [MM.andThen, ih]

instance : LawfulMonad (MM T) := LawfulMonad.mk' (MM T) (fun x => MM.andThen_pure x) (fun _ _ => rfl) (fun x f g => MM.andThen_assoc x f g)

/-! ## Functions that write nothing -/

theorem mapM_run_same {β : Type} {f : Nat → MM T β} {g : Nat → β} {H : Mem T} : ∀ (l : List Nat), (∀ i ∈ l, f i H = (.ok (g i), H)) →
    (l.mapM f) H = (.ok (l.map g), H)
  | [], _ => by rw [List.mapM_nil]; rfl
  | i :: l, h => by
    rw [List.mapM_cons, run_bind (h i (by simp)), run_bind (mapM_run_same l (fun j hj => h j (by simp [hj])))]
    rfl

variable [GoKey T] [LawfulGoKey T]

theorem reduceM_readOnly {R : Reducer T} (hR : ∀ l, R.edits l = []) {H : Mem T} {F : Set Loc} {d : Nat} {p : Ptr} {n : Node T}
    (h : Rep H F d p n) : ∀ (fuel : Nat), FuelOk d fuel → WF d n → n.isNil = false → reduceM R fuel p H = (.ok (redv R.result n), H) := by
  induction h with
  | nil d => intro _ _ _ hn; cases hn
  | leaf1 h _ =>
    intro fuel hf _ _
    obtain ⟨fuel, rfl⟩ := Nat.exists_eq_succ_of_ne_zero (Nat.pos_iff_ne_zero.1 hf.2)
    unfold reduceM
    rw [run_bind (readCell_eq h)]
    rfl
  | leaf2 h _ =>
    intro fuel hf _ _
    obtain ⟨fuel, rfl⟩ := Nat.exists_eq_succ_of_ne_zero (Nat.pos_iff_ne_zero.1 hf.2)
    unfold reduceM
    rw [run_bind (readCell_eq h)]
    simp only [hR]
    rfl
  | twig hd h _ ha _ h3 hl hs =>
    intro fuel hf _ _
    obtain ⟨fuel, rfl⟩ := Nat.exists_eq_succ_of_ne_zero (Nat.pos_iff_ne_zero.1 hf.2)
    unfold reduceM
    rw [run_bind (readCell_eq h)]
    dsimp only
    rw [run_bind (readSlice_eq ha hl), hs, hR]
    rfl
  | @branch d a m k kn hd h _ hk ih =>
    intro fuel hf hw _
    obtain ⟨fuel, rfl⟩ := Nat.exists_eq_succ_of_ne_zero (Nat.pos_iff_ne_zero.1 hf.2)
    obtain ⟨hs, _⟩ := WF_branch.1 hw
    have hm := maskOk_wf hs
    unfold reduceM
    rw [run_bind (readCell_eq h)]
    dsimp only
    rw [run_bind (mapM_run_same (g := fun i => if h : i < 8 then redv R.result (kn ⟨i, h⟩) else R.result []) (bitLoop m) ?_)]
    · rw [bitLoop_slots hm, List.map_map]
      simp only [redv]
      show (Except.ok _, H) = _
      congr 3
      apply List.map_congr_left
      intro i _
      simp
    · intro i hi
      rw [bitLoop_slots hm] at hi
      obtain ⟨j, hj, rfl⟩ := List.mem_map.1 hi
      simp only [j.isLt, dite_true, Fin.eta]
      exact ih j fuel (hf.succ hd) (hs.2.2.1 j) (by rw [mem_slots, mask_bit hs] at hj; simpa using hj)

theorem MTree.reduce_readOnly [Inhabited T] {R : Reducer T} (hR : ∀ l, R.edits l = []) {H : Mem T} {F : Set Loc} {s : MTree} {n : Node T}
    (h : Rep H F 0 s.root n) (hv : (s.val n).Valid) : s.reduce R H = ((s.val n).reduce R.result, H) := by
  unfold MTree.reduce Tree.reduce
  rw [h.isNone]
  show (if n.isNil = true then _ else _ : MM T _) H = ((if n.isNil = true then _ else _), H)
  cases hn : n.isNil with
  | true => rfl
  | false =>
    simp only [Bool.false_eq_true, if_false]
    rw [run_bind (reduceM_readOnly hR h memFuel (fuelOk_mem 0) hv.wf hn)]
    show _ = ((do let x ← Frozen.reduce R.result n; pure (some x)), H)
    rw [reduce_spec R.result n 0 hv.wf hn]
    rfl

/-! ## Functions that write -/

/-- What is a tree stays a tree, with other elements perhaps. -/
def KeepsShape (S : Set Loc) (H H' : Mem T) : Prop := ∀ (d : Nat) (p : Ptr), (∃ n, Rep H S d p n) → ∃ n, Rep H' S d p n

theorem KeepsShape.refl (S : Set Loc) (H : Mem T) : KeepsShape S H H := fun _ _ h => h

theorem KeepsShape.trans {S : Set Loc} {H H1 H2 : Mem T} (h1 : KeepsShape S H H1) (h2 : KeepsShape S H1 H2) : KeepsShape S H H2 :=
  fun d p h => h2 d p (h1 d p h)

theorem keepsShape_of {S : Set Loc} {H H' : Mem T}
    (hcell : ∀ (a : Nat) (c : Cell T), H.cells[a]? = some c → H'.cells[a]? = some c ∨ ∃ x y x' y', c = .leaf2 x y ∧ H'.cells[a]? = some (.leaf2 x' y'))
    (harr : ∀ (a : Nat) (la : List T), H.arrays[a]? = some la → ∃ la', H'.arrays[a]? = some la' ∧ la.length ≤ la'.length) :
    KeepsShape S H H' := by
  rintro d p ⟨n, h⟩
  induction h with
  | nil d => exact ⟨_, .nil d⟩
  | leaf1 h hF =>
    rcases hcell _ _ h with h | ⟨_, _, _, _, he, _⟩
    · exact ⟨_, .leaf1 h hF⟩
    · cases he
  | leaf2 h hF =>
    rcases hcell _ _ h with h | ⟨_, _, _, _, _, h⟩
    · exact ⟨_, .leaf2 h hF⟩
    · exact ⟨_, .leaf2 h hF⟩
  | twig hd h hF ha hFa h3 hl hs =>
    obtain ⟨la', h1, h2⟩ := harr _ _ ha
    rcases hcell _ _ h with h | ⟨_, _, _, _, he, _⟩
    · exact ⟨_, .twig hd h hF h1 hFa h3 (Nat.le_trans hl h2) rfl⟩
    · cases he
  | branch hd h hF hk ih =>
    choose kn hkn using ih
    rcases hcell _ _ h with h | ⟨_, _, _, _, he, _⟩
    · exact ⟨_, .branch hd h hF hkn⟩
    · cases he

/-- The code writes to locations of `S` only, and trees stay trees, however it ends. -/
def Tame {α : Type} (S : Set Loc) (H : Mem T) (x : MM T α) : Prop := Changes S H (x H).2 ∧ KeepsShape S H (x H).2

theorem Tame.bind {α β : Type} {S : Set Loc} {H : Mem T} {x : MM T α} {f : α → MM T β} (hx : Tame S H x)
    (hf : ∀ a, (x H).1 = .ok a → Tame S (x H).2 (f a)) : Tame S H (x >>= f) := by
  unfold Tame
  rw [MM.run_andThen]
  cases hr : x H with
  | mk r H1 =>
    obtain ⟨h1, h2⟩ := hx
    rw [hr] at h1 h2 hf
    cases r with
    | error e => exact ⟨h1, h2⟩
    | ok a =>
      obtain ⟨h3, h4⟩ := hf a rfl
      exact ⟨h1.trans (h3.weaken (fun l hl => .inl (.inl hl))), h2.trans h4⟩

theorem Tame.pure {α : Type} {S : Set Loc} {H : Mem T} (a : α) : Tame S H (pure a : MM T α) := ⟨Changes.refl S H, KeepsShape.refl S H⟩

theorem Tame.raise {α : Type} {S : Set Loc} {H : Mem T} (e : Panic) : Tame S H (raise e : MM T α) :=
  ⟨Changes.refl S H, KeepsShape.refl S H⟩

theorem tame_writeArr {S : Set Loc} {H : Mem T} (a i : Nat) (v : T) (ha : .arr a ∈ S) : Tame S H (writeArr a i v) := by
  have hc : Changes S H (writeArr a i v H).2 := changes_writeArr H a i v ha
  exact ⟨hc, keepsShape_of (fun b c h => .inl h) (fun b la h => hc.len b la h)⟩

theorem tame_scribble {S : Set Loc} (s : Slice) (hs : .arr s.arr ∈ S) : ∀ (es : List (Nat × T)) (H : Mem T), Tame S H (scribble s es)
  | [], H => Tame.pure ()
  | (i, v) :: es, H => by
    unfold scribble
    split
    · exact (tame_writeArr s.arr i v hs).bind (fun _ _ => tame_scribble s hs es _)
    · exact tame_scribble s hs es H

theorem tame_mapM {β : Type} {S : Set Loc} {f : Nat → MM T β} {P : Mem T → Prop} (hP : ∀ H H', P H → KeepsShape S H H' → P H')
    (h : ∀ i H, P H → Tame S H (f i)) : ∀ (l : List Nat) (H : Mem T), P H → Tame S H (l.mapM f)
  | [], H, _ => by rw [List.mapM_nil]; exact Tame.pure _
  | i :: l, H, hp => by
    rw [List.mapM_cons]
    refine (h i H hp).bind (fun a _ => ?_)
    refine (tame_mapM hP h l _ (hP _ _ hp (h i H hp).2)).bind (fun _ _ => Tame.pure _)

theorem tame_reduceM (R : Reducer T) {S : Set Loc} : ∀ (fuel : Nat) (d : Nat) (p : Ptr) (H : Mem T), (∃ n, Rep H S d p n) →
    Tame S H (reduceM R fuel p)
  | 0, _, _, _, _ => Tame.raise _
  | fuel + 1, d, none, H, _ => Tame.raise _
  | fuel + 1, d, some a, H, ⟨n, h⟩ => by
    unfold reduceM
    have hread : ∀ c, H.cells[a]? = some c → Tame S H (readCell a) := fun c hc => by
      unfold Tame; rw [readCell_eq hc]; exact ⟨Changes.refl S H, KeepsShape.refl S H⟩
    cases h with
    | leaf1 h hF =>
      refine (hread _ h).bind (fun c hc => ?_)
      rw [readCell_eq h] at hc; cases hc
      exact Tame.pure _
    | @leaf2 _ _ x y h hF =>
      refine (hread _ h).bind (fun c hc => ?_)
      rw [readCell_eq h] at hc ⊢; cases hc
      dsimp only
      split
      · exact Tame.pure _
      · rename_i e es _
        refine Tame.bind ⟨changes_writeCell H a _ hF, keepsShape_of (fun b c hb => ?_) (fun b la hb => ⟨la, hb, Nat.le_refl _⟩)⟩
          (fun _ _ => Tame.pure _)
        show (H.cells.set a _)[b]? = _ ∨ ∃ x y x' y', _ ∧ (H.cells.set a _)[b]? = _
        by_cases hab : a = b
        · subst hab
          rw [h] at hb; cases hb
          exact .inr ⟨_, _, _, _, rfl, List.getElem?_set_self (getElem?_lt h)⟩
        · exact .inl (by rw [List.getElem?_set_ne hab]; exact hb)
    | twig hd h hF ha hFa h3 hl hs =>
      refine (hread _ h).bind (fun c hc => ?_)
      rw [readCell_eq h] at hc ⊢; cases hc
      refine Tame.bind (by unfold Tame; rw [readSlice_eq ha hl]; exact ⟨Changes.refl S H, KeepsShape.refl S H⟩) (fun l _ => ?_)
      exact (tame_scribble _ hFa _ _).bind (fun _ _ => Tame.pure _)
    | @branch _ _ m k kn hd h hF hk =>
      refine (hread _ h).bind (fun c hc => ?_)
      rw [readCell_eq h] at hc ⊢; cases hc
      refine Tame.bind (tame_mapM (P := fun H => ∀ i, ∃ n, Rep H S (d + 1) (k i) n) (fun H1 H2 hp hk i => hk _ _ (hp i)) ?_ _ _
        (fun i => ⟨_, hk i⟩)) (fun _ _ => Tame.pure _)
      intro i H hp
      split
      · exact tame_reduceM R fuel (d + 1) _ H (hp _)
      · exact Tame.raise _

theorem MTree.tame_reduce (R : Reducer T) {S : Set Loc} {H : Mem T} {s : MTree} (h : ∃ n, Rep H S 0 s.root n) : Tame S H (s.reduce R) := by
  unfold MTree.reduce
  split
  · exact Tame.pure _
  · exact (tame_reduceM R _ 0 _ H h).bind (fun _ _ => Tame.pure _)

/-! ## Functions that reorder -/

theorem edits2 : ∀ (es : List (Nat × T)) (x y : T), applyEdits [x, y] es = [(es.foldl edit2 (x, y)).1, (es.foldl edit2 (x, y)).2]
  | [], _, _ => rfl
  | (i, v) :: es, x, y => by
    unfold applyEdits
    rw [List.foldl_cons, List.foldl_cons]
    have : [x, y].set i v = [(edit2 (x, y) (i, v)).1, (edit2 (x, y) (i, v)).2] := by
      unfold edit2
      dsimp only
      by_cases h0 : i = 0
      · subst h0; rfl
      · rw [if_neg h0]
        by_cases h1 : i = 1
        · subst h1; rfl
        · rw [if_neg h1, List.set_eq_of_length_le (by simp; omega)]
    rw [this]
    exact edits2 es _ _

theorem perm_pair {x y x' y' : T} (h : [x', y'].Perm [x, y]) : (x' = x ∧ y' = y) ∨ (x' = y ∧ y' = x) := by
  have hx : x' ∈ [x, y] := h.subset (by simp)
  simp only [List.mem_cons, List.not_mem_nil, or_false] at hx
  rcases hx with rfl | rfl
  · have := (List.perm_cons x').1 h
    exact .inl ⟨rfl, by simpa using this⟩
  · have := (List.perm_cons x').1 (h.trans (List.Perm.swap _ _ _))
    exact .inr ⟨rfl, by simpa using this⟩

/-- Two nodes that differ only in the order of the elements in leaves. -/
inductive LeafSwap : Node T → Node T → Prop
  | nil : LeafSwap .nil .nil
  | leaf1 (x : T) : LeafSwap (.leaf1 x) (.leaf1 x)
  | leaf2 (x y : T) : LeafSwap (.leaf2 x y) (.leaf2 x y)
  | swap (x y : T) : LeafSwap (.leaf2 x y) (.leaf2 y x)
  | twig (l : List T) : LeafSwap (.twig l) (.twig l)
  | branch (m : Masker) {k k' : Fin 8 → Node T} (h : ∀ i, LeafSwap (k i) (k' i)) : LeafSwap (.branch m k) (.branch m k')

theorem LeafSwap.refl : ∀ n : Node T, LeafSwap n n
  | .nil => .nil
  | .leaf1 x => .leaf1 x
  | .leaf2 x y => .leaf2 x y
  | .twig l => .twig l
  | .branch m k => .branch m (fun i => LeafSwap.refl (k i))

theorem LeafSwap.trans {n n' n'' : Node T} (h : LeafSwap n n') (h' : LeafSwap n' n'') : LeafSwap n n'' := by
  induction h generalizing n'' with
  | nil => exact h'
  | leaf1 x => exact h'
  | leaf2 x y => exact h'
  | swap x y =>
    cases h' with
    | leaf2 => exact .swap x y
    | swap => exact .leaf2 x y
  | twig l => exact h'
  | branch m h ih =>
    cases h' with
    | branch _ h' => exact .branch m (fun i => ih i (h' i))

theorem LeafSwap.isNil {n n' : Node T} (h : LeafSwap n n') : n'.isNil = n.isNil := by cases h <;> rfl

theorem flatMap_perm {α β : Type} {f g : α → List β} : ∀ (l : List α), (∀ a ∈ l, (f a).Perm (g a)) → (l.flatMap f).Perm (l.flatMap g)
  | [], _ => List.Perm.refl _
  | a :: l, h => by
    rw [List.flatMap_cons, List.flatMap_cons]
    exact (h a (by simp)).append (flatMap_perm l (fun b hb => h b (by simp [hb])))

theorem LeafSwap.elems {n n' : Node T} (h : LeafSwap n n') : (Frozen.elems n').Perm (Frozen.elems n) := by
  induction h with
  | nil => exact List.Perm.refl _
  | leaf1 x => exact List.Perm.refl _
  | leaf2 x y => exact List.Perm.refl _
  | swap x y => exact List.Perm.swap _ _ _
  | twig l => exact List.Perm.refl _
  | branch m h ih =>
    simp only [Frozen.elems]
    exact flatMap_perm _ (fun i _ => ih i)

theorem LeafSwap.get {n n' : Node T} (h : LeafSwap n n') : ∀ {d : Nat}, WF d n → ∀ (v : T) (hh : Hasher), Frozen.get n' v hh = Frozen.get n v hh := by
  induction h with
  | nil => intro _ _ _ _; rfl
  | leaf1 x => intro _ _ _ _; rfl
  | leaf2 x y => intro _ _ _ _; rfl
  | swap x y =>
    intro d hw v hh
    have hw' : GoKey.eq x y = false := hw
    simp only [Frozen.get]
    cases h1 : GoKey.eq x v with
    | false => cases h2 : GoKey.eq y v <;> simp
    | true =>
      cases h2 : GoKey.eq y v with
      | false => simp
      | true => rw [PerGoKey.trans h1 (PerGoKey.symm h2)] at hw'; cases hw'
  | twig l => intro _ _ _ _; rfl
  | branch m h ih =>
    intro d hw v hh
    obtain ⟨hs, _⟩ := WF_branch.1 hw
    simp only [Frozen.get]
    rw [(h hh.idx).isNil, ih hh.idx (hs.2.2.1 hh.idx)]

theorem LeafSwap.redv {r : List T → T} (hr : ∀ l l', l.Perm l' → r l = r l') {n n' : Node T} (h : LeafSwap n n') :
    Frozen.redv r n' = Frozen.redv r n := by
  induction h with
  | nil => rfl
  | leaf1 x => rfl
  | leaf2 x y => rfl
  | swap x y => exact hr _ _ (List.Perm.swap _ _ _)
  | twig l => rfl
  | branch m h ih =>
    simp only [Frozen.redv]
    congr 1
    exact List.map_congr_left (fun i _ => ih i)

/-- There is no twig. -/
def NoTwig : Node T → Prop
  | .twig _ => False
  | .branch _ k => ∀ i, NoTwig (k i)
  | _ => True

theorem LeafSwap.noTwig {n n' : Node T} (h : LeafSwap n n') : NoTwig n → NoTwig n' := by
  induction h with
  | nil => exact id
  | leaf1 x => exact id
  | leaf2 x y => exact id
  | swap x y => exact id
  | twig l => exact id
  | branch m h ih => exact fun hn i => ih i (hn i)

theorem LeafSwap.wf {n n' : Node T} (h : LeafSwap n n') : ∀ {d : Nat}, WF d n → WF d n' := by
  induction h with
  | nil => exact id
  | leaf1 x => exact id
  | leaf2 x y => exact id
  | swap x y =>
    intro d hw
    have hw' : GoKey.eq x y = false := hw
    show GoKey.eq y x = false
    cases h : GoKey.eq y x with
    | false => rfl
    | true => rw [PerGoKey.symm h] at hw'; cases hw'
  | twig l => exact id
  | @branch m k k' h ih =>
    intro d hw
    obtain ⟨⟨h1, h2, h3, h4⟩, h5⟩ := WF_branch.1 hw
    refine WF_branch.2 ⟨⟨h1, ?_, fun i => ih i (h3 i), fun i e he => h4 i e ((h i).elems.subset he)⟩, ?_⟩
    · rw [h2]
      unfold maskOf Packer.updateMask
      simp only [(h _).isNil]
    · rw [((LeafSwap.branch m h).elems).length_eq]; exact h5

theorem noTwig_of_few (hT : NoTriples T) : ∀ (n : Node T) (d : Nat), WF d n → d ≤ 22 →
    (∀ x ∈ elems n, ∀ y ∈ elems n, agree 0 d x y = true) → NoTwig n
  | .nil, _, _, _, _ => trivial
  | .leaf1 _, _, _, _, _ => trivial
  | .leaf2 _ _, _, _, _, _ => trivial
  | .twig l, d, hw, hd, ha => by
    obtain ⟨h1, h2, h3⟩ : maxTreeDepth ≤ d ∧ 3 ≤ l.length ∧ l.Pairwise (fun a b => GoKey.eq a b = false) := hw
    have hd22 : d = 22 := by have : maxTreeDepth = 22 := rfl; omega
    subst hd22
    match l, h2 with
    | a :: b :: c :: l, _ =>
      refine hT a ⟨[b, c], rfl, ?_, ?_⟩
      · obtain ⟨_, h3⟩ := List.pairwise_cons.1 h3
        obtain ⟨h3, _⟩ := List.pairwise_cons.1 h3
        exact List.pairwise_cons.2 ⟨fun y hy => by rw [List.mem_singleton] at hy; subst hy; exact h3 y (by simp), List.pairwise_singleton _ _⟩
      · obtain ⟨h3, _⟩ := List.pairwise_cons.1 h3
        have hab : ∀ x ∈ b :: c :: l, GoKey.eq x a = false := by
          intro x hx
          cases h : GoKey.eq x a with
          | false => rfl
          | true => have := h3 x hx; rw [PerGoKey.symm h] at this; cases this
        intro x hx
        have hx' : x ∈ b :: c :: l := by
          simp only [List.mem_cons, List.not_mem_nil, or_false] at hx
          rcases hx with rfl | rfl <;> simp
        exact ⟨hab x hx', (agree_22 x a).1 (ha x (List.mem_cons_of_mem _ hx') a (by simp [elems]))⟩
  | .branch m k, d, hw, hd, ha => by
    obtain ⟨⟨h1, h2, h3, h4⟩, h5⟩ := WF_branch.1 hw
    intro i
    have hd' : d + 1 ≤ 22 := h1
    refine noTwig_of_few hT (k i) (d + 1) (h3 i) hd' (fun x hx y hy => ?_)
    have hmem : ∀ z ∈ elems (k i), z ∈ elems (.branch m k) := by
      intro z hz
      simp only [elems, List.mem_flatMap]
      exact ⟨i, List.mem_finRange i, hz⟩
    have := ha x (hmem x hx) y (hmem y hy)
    rw [agree_iff] at this ⊢
    intro j h6 h7
    rcases Nat.lt_succ_iff_lt_or_eq.1 h7 with h8 | rfl
    · exact this j h6 h8
    · rw [h4 i x hx, h4 i y hy]

/-- Only the order in leaves differs between the memories. -/
def MemSwapped (H H' : Mem T) : Prop :=
  H'.arrays = H.arrays ∧ ∀ (a : Nat) (c : Cell T), H.cells[a]? = some c →
    H'.cells[a]? = some c ∨ ∃ x y, c = .leaf2 x y ∧ H'.cells[a]? = some (.leaf2 y x)

theorem MemSwapped.refl (H : Mem T) : MemSwapped H H := ⟨rfl, fun _ _ h => .inl h⟩

theorem MemSwapped.trans {H H1 H2 : Mem T} (h1 : MemSwapped H H1) (h2 : MemSwapped H1 H2) : MemSwapped H H2 := by
  refine ⟨h2.1.trans h1.1, fun a c h => ?_⟩
  rcases h1.2 a c h with h' | ⟨x, y, rfl, h'⟩
  · exact h2.2 a c h'
  · rcases h2.2 a _ h' with h | ⟨x', y', he, h⟩
    · exact .inr ⟨x, y, rfl, h⟩
    · cases he
      exact .inl h

theorem Rep.swapped {H H' : Mem T} (hm : MemSwapped H H') {S : Set Loc} {d : Nat} {p : Ptr} {n : Node T} (h : Rep H S d p n) :
    ∃ n', Rep H' S d p n' ∧ LeafSwap n n' := by
  induction h with
  | nil d => exact ⟨_, .nil d, .nil⟩
  | leaf1 h hF =>
    rcases hm.2 _ _ h with h | ⟨_, _, he, _⟩
    · exact ⟨_, .leaf1 h hF, .leaf1 _⟩
    · cases he
  | leaf2 h hF =>
    rcases hm.2 _ _ h with h | ⟨_, _, he, h⟩
    · exact ⟨_, .leaf2 h hF, .leaf2 _ _⟩
    · cases he; exact ⟨_, .leaf2 h hF, .swap _ _⟩
  | twig hd h hF ha hFa h3 hl hs =>
    rcases hm.2 _ _ h with h | ⟨_, _, he, _⟩
    · exact ⟨_, .twig hd h hF (by rw [hm.1]; exact ha) hFa h3 hl hs, .twig _⟩
    · cases he
  | branch hd h hF hk ih =>
    choose kn hkn hsw using ih
    rcases hm.2 _ _ h with h | ⟨_, _, he, _⟩
    · exact ⟨_, .branch hd h hF hkn, .branch _ hsw⟩
    · cases he

theorem mapM_swapped {β : Type} {f : Fin 8 → MM T β} {g : Fin 8 → β} {P : Mem T → Prop} (hP : ∀ H H', P H → MemSwapped H H' → P H')
    : ∀ (l : List (Fin 8)) (_ : ∀ i ∈ l, ∀ H, P H → (f i H).1 = .ok (g i) ∧ MemSwapped H (f i H).2) (H : Mem T), P H →
      ((l.map Fin.val).mapM (fun i => if h : i < 8 then f ⟨i, h⟩ else raise (.msg "index out of range")) H).1 = .ok (l.map g) ∧
      MemSwapped H ((l.map Fin.val).mapM (fun i => if h : i < 8 then f ⟨i, h⟩ else raise (.msg "index out of range")) H).2
  | [], _, H, _ => by rw [List.map_nil, List.mapM_nil]; exact ⟨rfl, MemSwapped.refl H⟩
  | i :: l, h, H, hp => by
    rw [List.map_cons, List.mapM_cons]
    simp only [i.isLt, dite_true, Fin.eta]
    obtain ⟨h1, h2⟩ := h i (by simp) H hp
    have e1 : f i H = (.ok (g i), (f i H).2) := by rw [← h1]
    obtain ⟨h3, h4⟩ := mapM_swapped hP l (fun j hj => h j (by simp [hj])) (f i H).2 (hP _ _ hp h2)
    rw [run_bind e1]
    rw [run_bind (a := l.map g) (H1 := (List.mapM (fun i => if h : i < 8 then f ⟨i, h⟩ else raise (.msg "index out of range")) (l.map Fin.val) (f i H).2).2)
      (by rw [← h3])]
    exact ⟨rfl, h2.trans h4⟩

/-- A function that reorders a tree without twigs. -/
theorem reduceM_swapped {R : Reducer T} (hR : R.Reorders) (hr : ∀ l l', l.Perm l' → R.result l = R.result l') {S : Set Loc} :
    ∀ (fuel : Nat) {d : Nat} {p : Ptr} (n : Node T) {H : Mem T}, FuelOk d fuel → (∃ n', Rep H S d p n' ∧ LeafSwap n n') → WF d n → NoTwig n →
    n.isNil = false → (reduceM R fuel p H).1 = .ok (redv R.result n) ∧ MemSwapped H (reduceM R fuel p H).2
  | 0, _, _, _, _, hf, _, _, _, _ => absurd hf.2 (Nat.lt_irrefl _)
  | fuel + 1, d, p, n, H, hf, ⟨n', h, hs⟩, hw, ht, hn => by
    cases h with
    | nil => cases hs; cases hn
    | leaf1 h hF =>
      unfold reduceM
      rw [run_bind (readCell_eq h)]
      cases hs
      exact ⟨rfl, MemSwapped.refl H⟩
    | @leaf2 _ a x y h hF =>
      unfold reduceM
      rw [run_bind (readCell_eq h)]
      dsimp only
      have hres : R.result [x, y] = redv R.result n := by
        cases hs
        · rfl
        · exact hr _ _ (List.Perm.swap _ _ _)
      split
      · exact ⟨congrArg _ hres, MemSwapped.refl H⟩
      · rename_i e es he
        refine ⟨congrArg _ hres, rfl, fun b c hb => ?_⟩
        show (H.cells.set a _)[b]? = _ ∨ ∃ x y, _ ∧ (H.cells.set a _)[b]? = _
        by_cases hab : a = b
        · subst hab
          rw [h] at hb; cases hb
          have hp := (hR [x, y]).2
          rw [edits2, he] at hp
          rcases perm_pair hp with ⟨e1, e2⟩ | ⟨e1, e2⟩
          · rw [e1, e2]; exact .inl (List.getElem?_set_self (getElem?_lt h))
          · rw [e1, e2]; exact .inr ⟨x, y, rfl, List.getElem?_set_self (getElem?_lt h)⟩
        · exact .inl (by rw [List.getElem?_set_ne hab]; exact hb)
    | twig hd h hF ha hFa h3 hl hl2 => cases hs; exact ht.elim
    | @branch _ a m k kn hd h hF hk =>
      cases hs with
      | @branch _ k0 _ hs =>
        obtain ⟨hsl, _⟩ := WF_branch.1 hw
        have hm := maskOk_wf hsl
        unfold reduceM
        rw [run_bind (readCell_eq h)]
        dsimp only
        rw [bitLoop_slots hm]
        obtain ⟨h1, h2⟩ := mapM_swapped (f := fun i => reduceM R fuel (k i)) (g := fun i => redv R.result (k0 i))
          (P := fun H => ∀ i, ∃ n', Rep H S (d + 1) (k i) n' ∧ LeafSwap (k0 i) n') (fun H1 H2 hp hsw i => by
            obtain ⟨n1, h1, h2⟩ := hp i
            obtain ⟨n2, h3, h4⟩ := h1.swapped hsw
            exact ⟨n2, h3, h2.trans h4⟩) (slots m) (fun i hi H hp =>
              reduceM_swapped hR hr fuel (k0 i) (hf.succ hd) (hp i) (hsl.2.2.1 i) (ht i) (by
                rw [mem_slots, mask_bit hsl] at hi; simpa using hi)) H (fun i => ⟨_, hk i, hs i⟩)
        rw [run_bind (a := (slots m).map (fun i => redv R.result (k0 i))) (by rw [← h1])]
        exact ⟨rfl, h2⟩

theorem MTree.reduce_swapped [Inhabited T] {R : Reducer T} (hR : R.Reorders) (hr : ∀ l l', l.Perm l' → R.result l = R.result l') {S : Set Loc}
    {H : Mem T} {s : MTree} {n : Node T} (h : Rep H S 0 s.root n) (hv : (s.val n).Valid) (ht : NoTwig n) :
    (s.reduce R H).1 = (s.val n).reduce R.result ∧ MemSwapped H (s.reduce R H).2 := by
  unfold MTree.reduce Tree.reduce
  rw [h.isNone]
  show ((if n.isNil = true then _ else _ : MM T _) H).1 = ((if n.isNil = true then _ else _)) ∧ MemSwapped H ((if n.isNil = true then _ else _ : MM T _) H).2
  cases hn : n.isNil with
  | true => exact ⟨rfl, MemSwapped.refl H⟩
  | false =>
    simp only [Bool.false_eq_true, if_false]
    obtain ⟨h1, h2⟩ := reduceM_swapped hR hr memFuel n (fuelOk_mem 0) ⟨n, h, LeafSwap.refl n⟩ hv.wf ht hn
    rw [run_bind (a := redv R.result n) (by rw [← h1])]
    refine ⟨?_, h2⟩
    show _ = (do let x ← Frozen.reduce R.result n; pure (some x))
    rw [reduce_spec R.result n 0 hv.wf hn]
    rfl

theorem bind_mem {α β : Type} {x : MM T α} {f : α → MM T β} {H : Mem T} (hx : (x H).2 = H) (hf : ∀ a, (f a H).2 = H) : ((x >>= f) H).2 = H := by
  rw [MM.run_andThen]
  cases h : (x H).1 with
  | ok a =>
    have hr : x H = (.ok a, H) := Prod.ext h hx
    rw [hr]; exact hf a
  | error e =>
    have hr : x H = (.error e, H) := Prod.ext h hx
    rw [hr]

theorem mapM_mem {β : Type} {f : Nat → MM T β} {H : Mem T} (hf : ∀ i, (f i H).2 = H) : ∀ l : List Nat, ((l.mapM f) H).2 = H
  | [] => by rw [List.mapM_nil]; rfl
  | i :: l => by
    rw [List.mapM_cons]
    exact bind_mem (hf i) (fun _ => bind_mem (mapM_mem hf l) (fun _ => rfl))

/-- A function that does not write leaves the memory as it is, whatever is in it. -/
theorem reduceM_mem {R : Reducer T} (hR : R.ReadOnly) : ∀ (fuel : Nat) (p : Ptr) (H : Mem T), (reduceM R fuel p H).2 = H
  | 0, _, _ => rfl
  | _ + 1, none, _ => rfl
  | fuel + 1, some a, H => by
    unfold reduceM
    refine bind_mem (by show (MM.run (match H.cells[a]? with | some c => pure c | none => raise .nilDeref) H).2 = H; split <;> rfl) (fun c => ?_)
    cases c with
    | leaf1 x => rfl
    | leaf2 x y => dsimp only; rw [hR]; rfl
    | twig s => exact bind_mem (by rw [readSlice_run]) (fun l => by rw [hR]; rfl)
    | branch m k =>
      refine bind_mem (mapM_mem (fun i => ?_) _) (fun _ => rfl)
      split
      · exact reduceM_mem hR fuel _ H
      · rfl

end Frozen
