import Verif.Proof.MemOps
import Verif.Proof.Combine

/-! `Combine` in memory. -/

set_option linter.unusedSectionVars false

namespace Frozen

variable {T : Type} [GoKey T] [PerGoKey T]

/-! ## Without appends into shared arrays -/

/-- `Combine` does not append to a twig of either tree. -/
def CombineSafe : Node T → CombineArgs T → Node T → Nat → Prop
  | .leaf1 x, args, .branch m k, d => NoAppend args.eq (.branch m k) x (newHasher x d)
  | .leaf2 x y, args, .branch m k, d => NoAppend args.eq (.branch m k) x (newHasher x d) ∧
      ∀ n1 ms, withArgs args.flip (.branch m k) x d (newHasher x d) = .ok (n1, ms) → NoAppend args.eq n1 y (newHasher y d)
  | .branch m k, args, .leaf1 x, d => NoAppend args.eq (.branch m k) x (newHasher x d)
  | .branch m k, args, .leaf2 x y, d => NoAppend args.eq (.branch m k) x (newHasher x d) ∧
      ∀ n1 ms, withArgs args (.branch m k) x d (newHasher x d) = .ok (n1, ms) → NoAppend args.eq n1 y (newHasher y d)
  | .branch _ k, args, .branch _ k2, d => ∀ i, (k i).isNil = false → (k2 i).isNil = false → CombineSafe (k i) args (k2 i) (d + 1)
  | _, _, _, _ => True

theorem MM.bind_assoc {α β γ : Type} (x : MM T α) (f : α → MM T β) (g : β → MM T γ) :
    (x >>= f) >>= g = x >>= fun a => f a >>= g := by
  show (x.andThen f).andThen g = x.andThen _
  induction x with
  | done r => cases r <;> rfl
  | readCell a k ih => exact congrArg (MM.readCell a) (funext ih)
  | readElem a i k ih => exact congrArg (MM.readElem a i) (funext ih)
  | alloc c k ih => exact congrArg (MM.alloc c) (funext ih)
  | allocArr l k ih => exact congrArg (MM.allocArr l) (funext ih)
  | writeCell a c k ih => exact congrArg (MM.writeCell a c) ih
  | writeElem a i v k ih => exact congrArg (MM.writeElem a i v) ih

theorem not_cell_empty (a : Nat) : Loc.cell a ∉ (∅ : Set Loc) := fun h => h

theorem branchCombineLeaf1M_sim (G : Growth) (args : CombineArgs T) {H : Mem T} {F : Set Loc} {a d : Nat} {m : Masker}
    {kn : Fin 8 → Node T} {x : T} (hr : Rep H F d (some a) (.branch m kn)) (hl : Live H F)
    (hs : NoAppend args.eq (.branch m kn) x (newHasher x d)) :
    Sim ∅ H (branchCombineLeavesM G args a [x] d) (branchCombineLeaf1 args m kn x d)
      (fun r s H' => r.2 = s.2 ∧ Rep H' (F ∪ New H H') d r.1 s.1) := by
  unfold branchCombineLeavesM branchCombineLeaf1
  simp only [List.foldlM_cons, List.foldlM_nil]
  have hv : ∀ v : Go (Node T × Int), v = v >>= fun s => .ok s := by intro v; cases v <;> rfl
  rw [hv (withArgs _ _ _ _ _), MM.bind_pure]
  refine Sim.bind (withM_sim G args memFuel H F ∅ d (some a) _ x _ hr hl (fuelOk_mem d) not_cell_empty (.inl hs)) ?_
  rintro ⟨p, ms⟩ ⟨n', ms'⟩ H1 hc ⟨h1, _, h2, _⟩
  obtain rfl : ms = ms' := h1
  exact Sim.pure ⟨by simp, h2 rfl⟩

theorem branchCombineLeaf2M_sim (G : Growth) (args : CombineArgs T) {H : Mem T} {F : Set Loc} {a d : Nat} {m : Masker}
    {kn : Fin 8 → Node T} {x y : T} (hr : Rep H F d (some a) (.branch m kn)) (hl : Live H F)
    (hs : NoAppend args.eq (.branch m kn) x (newHasher x d))
    (hs2 : ∀ n1 ms, withArgs args (.branch m kn) x d (newHasher x d) = .ok (n1, ms) → NoAppend args.eq n1 y (newHasher y d)) :
    Sim ∅ H (branchCombineLeavesM G args a [x, y] d) (branchCombineLeaf2 args m kn x y d)
      (fun r s H' => r.2 = s.2 ∧ Rep H' (F ∪ New H H') d r.1 s.1) := by
  unfold branchCombineLeavesM branchCombineLeaf2
  simp only [List.foldlM_cons, List.foldlM_nil]
  have h0 := withM_sim G args memFuel H F ∅ d (some a) _ x _ hr hl (fuelOk_mem d) not_cell_empty (.inl hs)
  cases hw : withArgs args (.branch m kn) x d (newHasher x d) with
  | error e =>
    rw [hw] at h0
    have : Sim ∅ H (withM G args memFuel (some a) x d (newHasher x d)) (.error e : Go (Node T × Int))
      (fun r s H' => r.2 = s.2 ∧ Rep H' (F ∪ New H H') d r.1 s.1) := h0.mono (fun r s H' _ h => ⟨h.1, h.2.2.1 rfl⟩)
    have h1 := this.1
    have h2 := this.2
    rcases hx : withM G args memFuel (some a) x d (newHasher x d) H with ⟨r, H1⟩
    rw [hx] at h1 h2
    cases r with
    | ok r => exact h2.elim
    | error e' =>
      obtain rfl : e' = e := h2
      exact Sim.error (run_error (run_error hx)) h1
  | ok s =>
    obtain ⟨n1, m1⟩ := s
    rw [hw] at h0
    have hs2 := hs2 n1 m1 hw
    show Sim ∅ H _ (withArgs args n1 y d (newHasher y d) >>= fun s => pure (s.1, m1 + s.2)) _
    rw [MM.bind_assoc]
    · refine Sim.bindOk h0 ?_
      rintro ⟨p1, m1'⟩ H1 hc ⟨h1, _, h2, _⟩
      obtain rfl : m1' = m1 := h1
      have h2 := h2 rfl
      show Sim (∅ ∪ Fresh H) H1 ((withM G args memFuel p1 y d (newHasher y d) >>= fun r => pure (r.1, 0 + m1' + r.2)) >>= fun r => pure r) _ _
      rw [MM.bind_pure]
      refine Sim.bind ((withM_sim G args memFuel H1 _ ∅ d p1 n1 y _ h2 ((hl.next hc).union (live_new H H1)) (fuelOk_mem d)
        not_cell_empty (.inl hs2)).weaken (fun _ h => h.elim) (fun _ _ _ hc h => And.intro hc h)) ?_
      rintro ⟨p2, m2⟩ ⟨n2, m2'⟩ H2 _ ⟨hc2, h3, _, h4, _⟩
      obtain rfl : m2 = m2' := h3
      exact Sim.pure ⟨by simp, (h4 rfl).mono (sub_new2 hc hc2)⟩

/-- Alternatives that allocate one node. -/
theorem simLeaf1 {H : Mem T} {F : Set Loc} {d : Nat} {x : T} {c : Int} :
    Sim ∅ H (do let b ← alloc (.leaf1 x); pure ((some b : Ptr), c)) (.ok (.leaf1 x, c))
      (fun r s H' => r.2 = s.2 ∧ Rep H' (F ∪ New H H') d r.1 s.1) :=
  Sim.step rfl (changes_alloc _ _ _) (Sim.pure ⟨rfl, .leaf1 cells_new (.inr new_cell)⟩)

theorem simLeaf2 {H : Mem T} {F : Set Loc} {d : Nat} {x y : T} {c : Int} :
    Sim ∅ H (do let b ← alloc (.leaf2 x y); pure ((some b : Ptr), c)) (.ok (.leaf2 x y, c))
      (fun r s H' => r.2 = s.2 ∧ Rep H' (F ∪ New H H') d r.1 s.1) :=
  Sim.step rfl (changes_alloc _ _ _) (Sim.pure ⟨rfl, .leaf2 cells_new (.inr new_cell)⟩)

theorem simBranchFrom (G : Growth) {H : Mem T} {F : Set Loc} {d : Nat} {l : List T} {c : Int} (h3 : 3 ≤ l.length) :
    Sim ∅ H (do let p ← newBranchFromM G d l; pure (p, c)) (do let n ← newBranchFrom d l; pure (n, c))
      (fun r s H' => r.2 = s.2 ∧ Rep H' (F ∪ New H H') d r.1 s.1) := by
  refine Sim.bind (newBranchFromM_sim G d l (fun _ => h3) H) ?_
  rintro p n H1 hc ⟨ho, _⟩
  exact Sim.pure ⟨rfl, ho.rep.mono Set.subset_union_right⟩

theorem leaf2CombineLeaf1M_sim (G : Growth) (args : CombineArgs T) (H : Mem T) (F : Set Loc) (d : Nat) (x y z : T) :
    Sim ∅ H (leaf2CombineLeaf1M G args x y z d) (leaf2CombineLeaf1 args x y z d)
      (fun r s H' => r.2 = s.2 ∧ Rep H' (F ∪ New H H') d r.1 s.1) := by
  unfold leaf2CombineLeaf1M leaf2CombineLeaf1
  by_cases h1 : args.eq x z = true
  · rw [if_pos h1, if_pos h1]; exact simLeaf2
  · rw [if_neg h1, if_neg h1]
    by_cases h2 : args.eq y z = true
    · rw [if_pos h2, if_pos h2]; exact simLeaf2
    · rw [if_neg h2, if_neg h2]; exact simBranchFrom G (Nat.le_refl 3)

theorem leaf2CombineLeaf2M_sim (G : Growth) (args : CombineArgs T) (H : Mem T) (F : Set Loc) (d : Nat) (x y z w : T) :
    Sim ∅ H (leaf2CombineLeaf2M G args x y z w d) (leaf2CombineLeaf2 args x y z w d)
      (fun r s H' => r.2 = s.2 ∧ Rep H' (F ∪ New H H') d r.1 s.1) := by
  unfold leaf2CombineLeaf2M leaf2CombineLeaf2
  by_cases h1 : args.eq x z = true
  · rw [if_pos h1, if_pos h1]
    by_cases h2 : args.eq y w = true
    · rw [if_pos h2, if_pos h2]; exact simLeaf2
    · rw [if_neg h2, if_neg h2]; exact simBranchFrom G (Nat.le_refl 3)
  · rw [if_neg h1, if_neg h1]
    by_cases h2 : args.eq y w = true
    · rw [if_pos h2, if_pos h2]; exact simBranchFrom G (Nat.le_refl 3)
    · rw [if_neg h2, if_neg h2]
      by_cases h3 : args.eq x w = true
      · rw [if_pos h3, if_pos h3]
        by_cases h4 : args.eq y z = true
        · rw [if_pos h4, if_pos h4]; exact simLeaf2
        · rw [if_neg h4, if_neg h4]; exact simBranchFrom G (Nat.le_refl 3)
      · rw [if_neg h3, if_neg h3]
        by_cases h4 : args.eq y z = true
        · rw [if_pos h4, if_pos h4]; exact simBranchFrom G (Nat.le_refl 3)
        · rw [if_neg h4, if_neg h4]; exact simBranchFrom G (by simp)

/-- The scan of a twig of three or more elements keeps its length and writes only to a copy. -/
theorem twigScanM_big (G : Growth) (args : CombineArgs T) (H0 : Mem T) : ∀ (es : List T) (s : Slice) (cloned : Bool) (ms : Int) (H : Mem T)
    (la : List T), H.arrays[s.arr]? = some la → s.len ≤ la.length → 3 ≤ s.len → (cloned = true → Loc.arr s.arr ∈ Fresh H0) →
    Changes ∅ H0 H → ∃ s' ms' H', twigScanM G args s cloned es ms H = (.ok (s', ms'), H') ∧ Changes ∅ H0 H' ∧ 3 ≤ s'.len
  | [], s, _, ms, H, _, _, _, h3, _, hc => ⟨s, ms, H, rfl, hc, h3⟩
  | e :: es, s, cloned, ms, H, la, ha, hl, h3, hcl, hc => by
    unfold twigScanM
    rw [run_bind (readSlice_eq ha hl)]
    have hll : (la.take s.len).length = s.len := by simp; omega
    cases hfi : (la.take s.len).findIdx? (fun f => args.eq f e) with
    | none =>
      dsimp only
      rw [if_neg (by unfold maxLeafLen; omega)]
      exact twigScanM_big G args H0 es s cloned ms H la ha hl h3 hcl hc
    | some j =>
      have hj : j < (la.take s.len).length := (List.findIdx?_eq_some_iff_getElem.1 hfi).1
      have hg : (la.take s.len)[j]? = some (la.take s.len)[j] := List.getElem?_eq_getElem hj
      dsimp only
      rw [hg]
      have key : ∀ (s' : Slice) (la' : List T) (H1 : Mem T), H1.arrays[s'.arr]? = some la' → s'.len ≤ la'.length → 3 ≤ s'.len →
          Loc.arr s'.arr ∈ Fresh H0 → Changes ∅ H0 H1 → ∃ s'' ms' H',
          (writeArr s'.arr j (args.f (la.take s.len)[j] e) >>= fun _ => twigScanM G args s' true es (ms + 1)) H1 = (.ok (s'', ms'), H') ∧
          Changes ∅ H0 H' ∧ 3 ≤ s''.len := by
        intro s' la' H1 ha' hl' h3' hf' hc'
        rw [run_bind (show writeArr s'.arr j (args.f (la.take s.len)[j] e) H1 = _ from rfl)]
        refine twigScanM_big G args H0 es s' true (ms + 1) _ (la'.take j ++ args.f (la.take s.len)[j] e :: la'.drop (j + 1)) ?_
          (hl'.trans (write_length _ _ _)) h3' (fun _ => hf') (hc'.trans (changes_writeArr _ _ _ _ (.inr hf')))
        rw [Mem.setElem, List.getElem?_modify, ha']
        simp only [if_true, Option.map_eq_map, Option.map_some]
      cases cloned with
      | true =>
        simp only [if_true]
        exact key s la H ha hl h3 (hcl rfl) hc
      | false =>
        simp only [Bool.false_eq_true, if_false]
        have hcl' : cloneTwigM s H = (.ok ⟨H.arrays.length, s.len, s.len⟩, ⟨H.cells, H.arrays ++ [la.take s.len], H.log⟩) := by
          unfold cloneTwigM
          rw [run_bind (readSlice_eq ha hl)]
          show (Except.ok _, _) = _
          simp only [hll]
        rw [run_bind hcl']
        exact key ⟨H.arrays.length, s.len, s.len⟩ (la.take s.len) _ arrays_new (by dsimp only; omega) h3
          (hc.mono _ (Nat.le_refl _)) (hc.trans (changes_allocArr _ _ _))

theorem combineM_sim (G : Growth) (fuel : Nat) : ∀ (H : Mem T) (F : Set Loc) (d : Nat) (p q : Ptr) (n n2 : Node T) (args : CombineArgs T),
    Rep H F d p n → Rep H F d q n2 → Live H F → FuelOk d fuel → CombineSafe n args n2 d →
    Sim ∅ H (combineM G fuel args p q d) (combine n args n2 d) (fun r s H' => r.2 = s.2 ∧ Rep H' (F ∪ New H H') d r.1 s.1) := by
  induction fuel with
  | zero => intro H F d p q n n2 args _ _ _ hf; exact absurd hf.2 (Nat.lt_irrefl 0)
  | succ fuel ih =>
    intro H F d p q n n2 args hr hq hl hf hs
    have hself := hr
    have hqs := hq
    cases hr with
    | nil _ => exact Sim.raise
    | @leaf1 _ a x hx hF =>
      simp only [combineM, combine]
      refine Sim.read (readCell_eq hx) ?_
      cases hq with
      | nil _ => exact Sim.read (readPtr_nil H) Sim.raise
      | @twig _ b s2 la2 l2 hd2 hx2 hF2 => exact Sim.read (readPtr_some hx2) Sim.raise
      | @leaf1 _ b y hx2 hF2 =>
        refine Sim.read (readPtr_some hx2) ?_
        dsimp only
        by_cases h1 : args.eq x y = true
        · rw [if_pos h1, if_pos h1]; exact simLeaf1
        · rw [if_neg h1, if_neg h1]; exact simLeaf2
      | @leaf2 _ b y z hx2 hF2 => exact Sim.read (readPtr_some hx2) (leaf2CombineLeaf1M_sim G _ H F d y z x)
      | @branch _ b m2 k2 kn2 hd2 hx2 hF2 hk2 =>
        exact Sim.read (readPtr_some hx2) (branchCombineLeaf1M_sim G args.flip hqs hl hs)
    | @leaf2 _ a x y hx hF =>
      simp only [combineM, combine]
      refine Sim.read (readCell_eq hx) ?_
      cases hq with
      | nil _ => exact Sim.read (readPtr_nil H) Sim.raise
      | @twig _ b s2 la2 l2 hd2 hx2 hF2 => exact Sim.read (readPtr_some hx2) Sim.raise
      | @leaf1 _ b z hx2 hF2 => exact Sim.read (readPtr_some hx2) (leaf2CombineLeaf1M_sim G _ H F d x y z)
      | @leaf2 _ b z w hx2 hF2 => exact Sim.read (readPtr_some hx2) (leaf2CombineLeaf2M_sim G _ H F d x y z w)
      | @branch _ b m2 k2 kn2 hd2 hx2 hF2 hk2 =>
        exact Sim.read (readPtr_some hx2) (branchCombineLeaf2M_sim G args.flip hqs hl hs.1 hs.2)
    | @twig _ a s la l hd hx hF ha hFa h3 hla hsl =>
      simp only [combineM, combine]
      refine Sim.read (readCell_eq hx) ?_
      cases hq with
      | nil _ => exact Sim.read (readPtr_nil H) Sim.raise
      | @leaf1 _ b z hx2 hF2 => exact Sim.read (readPtr_some hx2) Sim.raise
      | @leaf2 _ b z w hx2 hF2 => exact Sim.read (readPtr_some hx2) Sim.raise
      | @branch _ b m2 k2 kn2 hd2 hx2 hF2 hk2 => exact absurd hd2 (by omega)
      | @twig _ b s2 la2 l2 hd2 hx2 hF2 ha2 hFa2 h32 hla2 hs2 =>
        refine Sim.read (readPtr_some hx2) ?_
        dsimp only
        refine Sim.read (a := l2) (hs2 ▸ readSlice_eq ha2 hla2) ?_
        obtain ⟨s', ms', H', e1, e2, e3⟩ := twigScanM_big G args H l2 s false 0 H la ha hla h3 (fun h => (nomatch h)) (Changes.refl _ _)
        refine Sim.step e1 e2 ?_
        have hlen := twigScan_length (args := args) l2 l 0
        have hll : l.length = s.len := by rw [← hsl]; simp; omega
        unfold twigCombine
        dsimp only
        rw [if_pos (by unfold maxLeafLen; omega), if_pos (by unfold maxLeafLen; omega)]
        exact Sim.raise
    | @branch _ a m k kn hd hx hF hk =>
      simp only [combineM, combine]
      refine Sim.read (readCell_eq hx) ?_
      cases hq with
      | nil _ => exact Sim.read (readPtr_nil H) Sim.raise
      | @twig _ b s2 la2 l2 hd2 hx2 hF2 => exact absurd hd2 (by omega)
      | @leaf1 _ b x hx2 hF2 => exact Sim.read (readPtr_some hx2) (branchCombineLeaf1M_sim G args hself hl hs)
      | @leaf2 _ b x y hx2 hF2 => exact Sim.read (readPtr_some hx2) (branchCombineLeaf2M_sim G args hself hl hs.1 hs.2)
      | @branch _ b m2 k2 kn2 hd2 hx2 hF2 hk2 =>
        refine Sim.read (readPtr_some hx2) ?_
        dsimp only
        refine Sim.fill (P := id) (J := fun _ _ => True) (d := d) hl rfl trivial ?_ ?_
        · intro H1 ret i t H2 km hc1 hretF hret1 hc12 hc2 hlive hfl _
          dsimp only [id] at hfl
          rw [(hk i).isNone, (hk2 i).isNone]
          have hfr : ∀ {p n}, Rep H F (d + 1) p n → Rep H2 (F ∪ New H1 H2) (d + 1) p n := fun h =>
            (h.next hc2).mono Set.subset_union_left
          by_cases hn : (kn i).isNil = true
          · rw [if_pos hn, if_pos hn]
            obtain ⟨e1, e2, e3⟩ := hfl.put hc12 (Changes.refl _ _) ((hfr (hk2 i)).mono Set.subset_union_left) hretF hret1 _ i
            exact Sim.step (setNonNilChildM_eq e1) (e2.weaken (fun _ h => .inl (.inl h))) (Sim.pure ⟨rfl, _, e3, trivial⟩)
          · rw [if_neg hn, if_neg hn]
            by_cases hn2 : (kn2 i).isNil = true
            · rw [if_pos hn2, if_pos hn2]
              obtain ⟨e1, e2, e3⟩ := hfl.put hc12 (Changes.refl _ _) ((hfr (hk i)).mono Set.subset_union_left) hretF hret1 _ i
              exact Sim.step (setNonNilChildM_eq e1) (e2.weaken (fun _ h => .inl (.inl h))) (Sim.pure ⟨rfl, _, e3, trivial⟩)
            · rw [if_neg hn2, if_neg hn2]
              refine Sim.bind ((ih H2 _ (d + 1) (k i) (k2 i) (kn i) (kn2 i) args (hfr (hk i)) (hfr (hk2 i)) hlive
                (hf.succ hd) (hs i (by simpa using hn) (by simpa using hn2))).weaken (W' := {Loc.cell ret} ∪ Fresh H1)
                (R' := fun r s H' => r.2 = s.2 ∧ Changes ∅ H2 H' ∧ Rep H' (F ∪ New H1 H2 ∪ New H2 H') (d + 1) r.1 s.1)
                (fun _ h => h.elim) (fun r s H' hc hr => ⟨hr.1, hc, hr.2⟩)) ?_
              rintro ⟨p', ms⟩ ⟨n', ms'⟩ H3 _ ⟨h1, hc3, h2⟩
              obtain rfl : ms = ms' := h1
              obtain ⟨e1, e2, e3⟩ := hfl.put hc12 hc3 h2 hretF hret1 t.mask i
              exact Sim.step (setDataM_eq e1) (e2.weaken (fun _ h => .inl (.inl (.inl h)))) (Sim.pure ⟨rfl, _, e3, trivial⟩)
        · intro H1 ret t ok ms H2 km hc1 hret hc2 hfl _
          exact Sim.pure ⟨rfl, hfl.rep hd hc1 hret⟩

end Frozen
