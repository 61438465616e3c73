import Verif.Proof.MemParallel
import Verif.Proof.MemCombine
import Verif.Proof.MemTree

/-! `Combine`, `Intersection` and `Where` with goroutines over the memory. -/

set_option linter.unusedSectionVars false

namespace Frozen

variable {T : Type}

/-- As `Sim`, for code that may start goroutines: it is quiet, and it comes to what `v` says. -/
def PSim {β : Type} (S H : Mem T) (x : PC T) (v : Go β) (R : Ptr × Int → β → Mem T → Prop) : Prop :=
  x.Quiet S H ∧
    match (x.eval H).1, v with
    | .ok a, .ok b => R a b (x.eval H).2
    | .error e, .error e' => e = e'
    | _, _ => False

theorem PSim.mono {β : Type} {S H : Mem T} {x : PC T} {v : Go β} {R R' : Ptr × Int → β → Mem T → Prop} (h : PSim S H x v R)
    (hr : ∀ a b H', R a b H' → R' a b H') : PSim S H x v R' := by
  obtain ⟨h1, h2⟩ := h
  refine ⟨h1, ?_⟩
  revert h2
  cases (x.eval H).1 <;> cases v <;> intro h2 <;> first | exact h2 | exact hr _ _ _ h2

theorem MemExt.fresh {S H : Mem T} (h : MemExt S H) {l : Loc} (hl : l ∈ Fresh H) : l ∈ Fresh S := by
  cases l with
  | cell a => exact Nat.le_trans h.cells_le hl
  | arr a => exact Nat.le_trans h.arrays_le hl

theorem not_hasLoc {S : Mem T} {l : Loc} (h : l ∈ Fresh S) : ¬ S.HasLoc l := by
  cases l with
  | cell a => exact Nat.not_lt.2 h
  | arr a => exact Nat.not_lt.2 h

theorem PSim.ret {β : Type} {W : Set Loc} {S H : Mem T} {x : MM T (Ptr × Int)} {v : Go β} {R : Ptr × Int → β → Mem T → Prop} (hS : MemExt S H)
    (hW : W ⊆ Fresh S) (h : Sim W H x v R) : PSim S H (PC.ret x) v R := by
  obtain ⟨h1, h2⟩ := h
  refine ⟨?_, ?_⟩
  · obtain ⟨L, e1, e2⟩ := h1.wrote
    refine PC.quiet_ofMM _ x H L e1 (fun l hl => not_hasLoc ?_) (fun _ _ _ => trivial)
    rcases e2 l hl with h | h
    · exact hW h
    · exact hS.fresh h
  · unfold PC.ret
    rw [PC.eval_ofMM]
    revert h2
    rcases x H with ⟨r, H'⟩
    cases r <;> cases v <;> exact fun h => h

theorem PC.eval_par (mask : Masker) (kids : Fin 8 → PC T) (k : (Fin 8 → Ptr) → Int → PC T) (H : Mem T) : (PC.par mask kids k).eval H =
    match joinKids H (fun i => ((kids i).eval H).1) (fun i => H.high ((kids i).eval H).2) (bitLoop mask) H (fun _ => none) 0 with
    | (.ok (slots, ms), J) => (k slots ms).eval J
    | (.error e, J) => (.error e, J) := by
  rw [PC.eval]
  rcases joinKids H (fun i => ((kids i).eval H).1) (fun i => H.high ((kids i).eval H).2) (bitLoop mask) H (fun _ => none) 0 with ⟨_ | _, _⟩ <;> rfl

theorem PC.quiet_par (mask : Masker) (kids : Fin 8 → PC T) (k : (Fin 8 → Ptr) → Int → PC T) (S H : Mem T) :
    (PC.par mask kids k).Quiet S H = ((∀ i ∈ mask.indices, (kids i).Quiet H H) ∧
    match joinKids H (fun i => ((kids i).eval H).1) (fun i => H.high ((kids i).eval H).2) (bitLoop mask) H (fun _ => none) 0 with
    | (.ok (slots, ms), J) => (k slots ms).Quiet S J
    | (.error _, _) => True) := by
  rw [PC.Quiet]
  rcases joinKids H (fun i => ((kids i).eval H).1) (fun i => H.high ((kids i).eval H).2) (bitLoop mask) H (fun _ => none) 0 with ⟨_ | _, _⟩ <;> rfl

/-- The results of the goroutines put together are what the sequential loop computes on values. -/
theorem join_sim {σ β : Type} {H : Mem T} {F : Set Loc} {d : Nat} {kids : Fin 8 → PC T} {kv : Fin 8 → Go β}
    {g : Fin 8 → σ → Go (σ × Bool × Int)} {upd : Fin 8 → σ → β → σ} {cnt : β → Int} {node : β → Node T} {P : σ → Packer T}
    {I : σ → (Fin 8 → Ptr) → Prop} {E : Fin 8 → Ptr → β → Mem T → Prop} (hl : Live H F)
    (hg : ∀ i t, g i t = kv i >>= fun b => .ok (upd i t b, true, cnt b))
    (hP : ∀ i t b, (P (upd i t b)).data = setSlot (P t).data i (node b))
    (hE : ∀ i t b p H' J slots, MemExt H J → E i p b H' → I t slots → I (upd i t b) (setSlot slots i (p.map (Move.behind H J).cell))) :
    ∀ (l : List Nat) (_ : ∀ i : Fin 8, i.1 ∈ l → PSim H H (kids i) (kv i) (fun r b H' => r.2 = cnt b ∧
        Rep H' (core H F ∪ New H H') (d + 1) r.1 (node b) ∧ E i r.1 b H'))
      (J : Mem T) (slots : Fin 8 → Ptr) (t : σ) (ms : Int), MemExt H J → (∀ i, Rep J (F ∪ New H J) (d + 1) (slots i) ((P t).data i)) →
      I t slots →
      match joinKids H (fun i => ((kids i).eval H).1) (fun i => H.high ((kids i).eval H).2) l J slots ms, parallelLoop g l t ms with
      | (.ok (slots', ms'), J'), .ok (t', ok, ms'') => ok = true ∧ ms' = ms'' ∧
          (∀ i, Rep J' (F ∪ New H J') (d + 1) (slots' i) ((P t').data i)) ∧ I t' slots'
      | (.error e, _), .error e' => e = e'
      | _, _ => False
  | [], _, J, slots, t, ms, _, hr, hI => ⟨rfl, rfl, hr, hI⟩
  | i :: is, hk, J, slots, t, ms, hJ, hr, hI => by
    unfold joinKids parallelLoop
    by_cases h : i < 8
    · rw [dif_pos h, dif_pos h, hg]
      obtain ⟨hq, hres⟩ := hk ⟨i, h⟩ (by simp)
      have hext := hq.ext'
      revert hres
      cases hv : kv ⟨i, h⟩ with
      | error e =>
        cases hx : ((kids ⟨i, h⟩).eval H).1 with
        | error e' => exact id
        | ok r => exact False.elim
      | ok b =>
        cases hx : ((kids ⟨i, h⟩).eval H).1 with
        | error e' => exact False.elim
        | ok r =>
          rintro ⟨h1, h2, h3⟩
          dsimp only
          show match joinKids H _ _ is _ _ (ms + r.2), parallelLoop g is (upd ⟨i, h⟩ t b) (ms + cnt b) with
            | (.ok (slots', ms'), J'), .ok (t', ok, ms'') => _
            | (.error e, _), .error e' => e = e'
            | _, _ => False
          rw [← h1]
          rw [← hext.plus_high] at h2
          have hmv := Rep.move hJ hl h2 (by
            rintro l (hl | hl)
            · exact .inl hl
            · exact .inr hl.1)
          have hlaid := ext_laid H J (H.high ((kids ⟨i, h⟩).eval H).2)
          have hch := ext_changes hlaid rfl
          refine join_sim hl hg hP hE is (fun j hj => hk j (by simp [hj])) _ _ _ _ (hJ.trans hlaid) (fun j => ?_)
            (hE _ _ _ _ _ _ _ hJ h3 hI)
          rw [hP]
          by_cases hj : j = ⟨i, h⟩
          · subst hj
            rw [setSlot_same, setSlot_same]
            refine hmv.mono ?_
            rintro _ ⟨l, hl' | hl', rfl⟩
            · rw [loc_low (hl _ hl'.1)]; exact .inl hl'.1
            · refine .inr ⟨hJ.fresh (loc_fresh hJ hl'.1), loc_live hJ hl'.2⟩
          · rw [setSlot_ne _ _ hj, setSlot_ne _ _ hj]
            exact ((hr j).next hch).mono (by
              rintro l (hl | hl)
              · exact .inl hl
              · exact .inr (new_sub hch hl))
    · rw [dif_neg h, dif_neg h]

variable [GoKey T] [PerGoKey T]

/-- The scheme of the operations that start goroutines to fill a new branch. -/
theorem PSim.fill {σ β γ : Type} {S H : Mem T} {F : Set Loc} {d : Nat} {mask : Masker} {kids : Fin 8 → PC T} {kv : Fin 8 → Go β}
    {g : Fin 8 → σ → Go (σ × Bool × Int)} {t0 : σ} {upd : Fin 8 → σ → β → σ} {cnt : β → Int} {node : β → Node T} {P : σ → Packer T}
    {I : σ → (Fin 8 → Ptr) → Prop} {E : Mem T → Fin 8 → Ptr → β → Mem T → Prop} {fin : Nat → Int → MM T (Ptr × Int)}
    {vfin : σ × Bool × Int → Go γ} {R : Ptr × Int → γ → Mem T → Prop} (hS : MemExt S H) (hl : Live H F)
    (h0 : P t0 = Packer.zero) (hI0 : I t0 (fun _ => none))
    (hg : ∀ i t, g i t = kv i >>= fun b => .ok (upd i t b, true, cnt b))
    (hP : ∀ i t b, (P (upd i t b)).data = setSlot (P t).data i (node b))
    (hE : ∀ H1, Changes ∅ H H1 → ∀ i t b p H' J slots, MemExt H1 J → E H1 i p b H' → I t slots →
      I (upd i t b) (setSlot slots i (p.map (Move.behind H1 J).cell)))
    (hk : ∀ H1, Changes ∅ H H1 → Live H1 F → ∀ i ∈ mask.indices, PSim H1 H1 (kids i) (kv i) (fun r b H' => r.2 = cnt b ∧
        Rep H' (core H1 F ∪ New H1 H') (d + 1) r.1 (node b) ∧ E H1 i r.1 b H'))
    (last : ∀ (H1 : Mem T) (ret : Nat) (t : σ) (ms : Int) (H2 : Mem T) (km : Fin 8 → Ptr), Changes ∅ H H1 →
      Loc.cell ret ∈ New H H2 → Changes ∅ H H2 → Filled H1 H2 F d ret (P t).updateMask km → I t km →
      Sim (∅ ∪ Fresh H) H2 (fin ret ms) (vfin (t, true, ms)) R) :
    PSim S H (.alloc (.branch 0#16 (fun _ => none)) (fun ret => .par mask kids (fun slots ms => PC.ret
      (writeCell ret (.branch 0#16 slots) >>= fun _ => updateMaskM ret >>= fun _ => fin ret ms)))) (parallel mask t0 g >>= vfin) R := by
  let H1 : Mem T := ⟨H.cells ++ [.branch 0#16 (fun _ => none)], H.arrays, H.log⟩
  have hc01 : Changes ∅ H H1 := changes_alloc _ _ _
  have hret0 : Loc.cell H.cells.length ∈ Fresh H := Nat.le_refl _
  have hret1 : Loc.cell H.cells.length ∉ Fresh H1 := by rw [mem_fresh_cell]; simp [H1]
  have hretF : Loc.cell H.cells.length ∉ F := fun h => hl _ h (Nat.le_refl _)
  have hl1 : Live H1 F := hl.next hc01
  have hkk := hk H1 hc01 hl1
  have hjoin := join_sim (kids := kids) (I := I) (E := E H1) (d := d) hl1 hg hP (hE H1 hc01) (bitLoop mask)
    (fun i hi => hkk i (mem_indices_loop.2 hi)) H1 (fun _ => none) t0 0 (ext_refl H1) (fun i => by rw [h0]; exact .nil _) hI0
  have hje := joinKids_ext H1 (fun i => ((kids i).eval H1).1) (fun i => H1.high ((kids i).eval H1).2) (bitLoop mask) H1 (fun _ => none) 0
  have hSH1 : MemExt S H1 := ⟨hS.1.trans (List.prefix_append ..), hS.2⟩
  change PSim S H1 (.par mask kids (fun slots ms => PC.ret
      (writeCell H.cells.length (.branch 0#16 slots) >>= fun _ => updateMaskM H.cells.length >>= fun _ => fin H.cells.length ms))) _ R
  unfold PSim
  rw [PC.eval_par, PC.quiet_par]
  unfold parallel
  revert hjoin hje
  generalize joinKids H1 (fun i => ((kids i).eval H1).1) (fun i => H1.high ((kids i).eval H1).2) (bitLoop mask) H1 (fun _ => none) 0 = r
  obtain ⟨r, J⟩ := r
  intro hjoin hje
  cases r with
  | error e =>
    refine ⟨⟨fun i hi => (hkk i hi).1, trivial⟩, ?_⟩
    cases hv : parallelLoop g (bitLoop mask) t0 0 with
    | ok x => rw [hv] at hjoin; exact hjoin.elim
    | error e' => rw [hv] at hjoin; exact hjoin
  | ok r =>
    obtain ⟨slots, ms⟩ := r
    cases hv : parallelLoop g (bitLoop mask) t0 0 with
    | error e' => rw [hv] at hjoin; exact hjoin.elim
    | ok x =>
      obtain ⟨t, ok, ms'⟩ := x
      rw [hv] at hjoin
      obtain ⟨rfl, rfl, hr, hI⟩ := hjoin
      have hSJ := hSH1.trans hje.1
      have hc1J : Changes ∅ H1 J := ext_changes hje.1 hje.2
      have hc0J : Changes ∅ H J := hc01.trans (hc1J.weaken (fun _ h => h.elim))
      have hfr : ∀ l, l ∈ ({Loc.cell H.cells.length} : Set Loc) → l ∈ Fresh H := by rintro l rfl; exact hret0
      have hsim : Sim (∅ ∪ Fresh H) J (writeCell H.cells.length (.branch 0#16 slots) >>= fun _ => updateMaskM H.cells.length >>= fun _ =>
          fin H.cells.length ms) (vfin (t, true, ms)) R := by
        let J1 : Mem T := ⟨J.cells.set H.cells.length (.branch 0#16 slots), J.arrays, .cell H.cells.length :: J.log⟩
        have hcw : Changes {Loc.cell H.cells.length} J J1 := changes_writeCell _ _ _ rfl
        refine Sim.step (H1 := J1) (a := ()) rfl (hcw.weaken (fun l h => .inl (.inr (hfr l h)))) ?_
        have hcell : H.cells.length < J.cells.length := by
          have := hje.1.cells_le
          simp [H1] at this; omega
        have hfl : Filled H1 J1 F d H.cells.length ⟨0#16, (P t).data⟩ slots := by
          refine ⟨List.getElem?_set_self hcell, fun i => ((hr i).frame hcw ?_).mono ?_⟩
          · rintro l hl' rfl
            rcases hl' with h | h
            · exact hretF h
            · exact hret1 h.1
          · rintro l (h | h)
            · exact .inl h
            · exact .inr (new_sub hcw h)
        obtain ⟨H3, e1, e2, e3⟩ := hfl.updateMask hretF hret1
        have hcJ1 : Changes ∅ H J1 := hc0J.trans (hcw.weaken (fun l h => .inl (.inr (hfr l h))))
        have hc03 : Changes ∅ H H3 := hcJ1.trans (e2.weaken (fun l h => .inl (.inr (hfr l h))))
        refine Sim.step e1 (e2.weaken (fun l h => .inl (.inl (.inr (hfr l h))))) ?_
        refine (last H1 H.cells.length t ms H3 slots hc01 ⟨hret0, ?_⟩ hc03 e3 hI).weaken (fun l h => .inl (.inl (.inl h)))
          (fun _ _ _ _ h => h)
        exact fun h => hret1 (hc1J.mono _ (hcw.mono _ (e2.mono _ h)))
      have hp := PSim.ret hSJ (by
        rintro l (h | h)
        · exact h.elim
        · exact hS.fresh h) hsim
      exact ⟨⟨fun i hi => (hkk i hi).1, hp.1⟩, hp.2⟩

theorem PSim.readCell {β : Type} {S H : Mem T} {a : Nat} {k : Option (Cell T) → PC T} {v : Go β} {R : Ptr × Int → β → Mem T → Prop}
    (h : PSim S H (k H.cells[a]?) v R) : PSim S H (.readCell a k) v R := h

/-- The region a goroutine works in: what exists of `F`, all of it below the memory at the fork. -/
theorem Rep.fork {H H1 : Mem T} {F : Set Loc} {d : Nat} {p : Ptr} {n : Node T} (h : Rep H F d p n) (hc : Changes ∅ H H1) :
    Rep H1 (Frozen.core H1 F) d p n := (h.next hc).core

theorem live_core {H : Mem T} {F : Set Loc} (h : Live H F) : Live H (Frozen.core H F) := fun l hl => h l hl.1

theorem combineP_sim (G : Growth) (g : Int) (fuel : Nat) : ∀ (S H : Mem T) (F : Set Loc) (d : Nat) (p q : Ptr) (n n2 : Node T)
    (args : CombineArgs T), MemExt S H → Rep H F d p n → Rep H F d q n2 → Live H F → FuelOk d fuel → CombineSafe n args n2 d →
    PSim S H (combineP G g fuel args p q d) (combine n args n2 d) (fun r s H' => r.2 = s.2 ∧ Rep H' (F ∪ New H H') d r.1 s.1) := by
  induction fuel with
  | zero => intro S H F d p q n n2 args _ _ _ _ hf; exact absurd hf.2 (Nat.lt_irrefl 0)
  | succ fuel ih =>
    intro S H F d p q n n2 args hS hr hq hl hf hs
    have hbase : PSim S H (PC.ret (combineM G (fuel + 1) args p q d)) (combine n args n2 d)
        (fun r s H' => r.2 = s.2 ∧ Rep H' (F ∪ New H H') d r.1 s.1) :=
      PSim.ret hS (fun _ h => h.elim) (combineM_sim G (fuel + 1) H F d p q n n2 args hr hq hl hf hs)
    rcases p with _ | a
    · rw [combineP]
      · exact hbase
      · simp
    rcases q with _ | b
    · rw [combineP]
      · exact hbase
      · simp
    rw [combineP]
    refine PSim.readCell (PSim.readCell ?_)
    · cases hr with
      | @leaf1 _ _ x hx hF => rw [hx]; exact hbase
      | @leaf2 _ _ x y hx hF => rw [hx]; exact hbase
      | @twig _ _ s la l hd hx hF => rw [hx]; exact hbase
      | @branch _ _ m k kn hd hx hF hk =>
        rw [hx]
        cases hq with
        | @leaf1 _ _ x hx2 hF2 => rw [hx2]; exact hbase
        | @leaf2 _ _ x y hx2 hF2 => rw [hx2]; exact hbase
        | @twig _ _ s la l hd2 hx2 hF2 => rw [hx2]; exact hbase
        | @branch _ _ m2 k2 kn2 hd2 hx2 hF2 hk2 =>
          rw [hx2]
          dsimp only
          by_cases hdg : (d : Int) < g
          · rw [if_pos hdg]
            simp only [combine]
            refine PSim.fill (P := id) (I := fun _ _ => True) (E := fun _ _ _ _ _ => True) (cnt := fun b : Node T × Int => b.2)
              (node := fun b => b.1)
              (kv := fun i => if (kn i).isNil then .ok (kn2 i, 0) else if (kn2 i).isNil then .ok (kn i, 0)
                else combine (kn i) args (kn2 i) (d + 1))
              (upd := fun i t b => if (kn i).isNil || (kn2 i).isNil then t.setNonNilChild i b.1 else ⟨t.mask, setSlot t.data i b.1⟩)
              (d := d) hS hl rfl trivial ?_ ?_ (fun _ _ _ _ _ _ _ _ _ _ _ _ => trivial) ?_ ?_
            · intro i t
              by_cases hn : (kn i).isNil = true
              · simp only [hn, if_true, Bool.true_or]; rfl
              · by_cases hn2 : (kn2 i).isNil = true
                · simp only [hn, hn2, if_true, Bool.or_true, Bool.false_eq_true, if_false]; rfl
                · simp only [hn, hn2, Bool.or_self, Bool.false_eq_true, if_false]; rfl
            · intro i t b
              dsimp only [id]
              split <;> rfl
            · intro H1 hc1 hl1 i _
              rw [(hk i).isNone, (hk2 i).isNone]
              by_cases hn : (kn i).isNil = true
              · simp only [hn, if_true]
                exact ⟨trivial, rfl, ((hk2 i).fork hc1).mono Set.subset_union_left, trivial⟩
              · by_cases hn2 : (kn2 i).isNil = true
                · simp only [hn, hn2, if_true, Bool.false_eq_true, if_false]
                  exact ⟨trivial, rfl, ((hk i).fork hc1).mono Set.subset_union_left, trivial⟩
                · simp only [hn, hn2, Bool.false_eq_true, if_false]
                  exact (ih H1 H1 _ (d + 1) (k i) (k2 i) (kn i) (kn2 i) args (ext_refl H1) ((hk i).fork hc1) ((hk2 i).fork hc1)
                    (live_core hl1) (hf.succ hd) (hs i (by simpa using hn) (by simpa using hn2))).mono
                    (fun r s H' hr => ⟨hr.1, hr.2, trivial⟩)
            · intro H1 ret t ms H2 km hc1 hret hc2 hfl _
              exact Sim.pure ⟨rfl, hfl.rep hd hc1 hret⟩
          · rw [if_neg hdg]; exact hbase

theorem intersectionP_sim (G : Growth) (g : Int) (fuel : Nat) : ∀ (S H : Mem T) (F : Set Loc) (d : Nat) (p q : Ptr) (n n2 : Node T),
    MemExt S H → Rep H F d p n → Rep H F d q n2 → Live H F → FuelOk d fuel →
    PSim S H (intersectionP G g fuel p q d) (intersection n n2 d) (fun r s H' => r.2 = s.2 ∧ Rep H' (F ∪ New H H') d r.1 s.1) := by
  induction fuel with
  | zero => intro S H F d p q n n2 _ _ _ _ hf; exact absurd hf.2 (Nat.lt_irrefl 0)
  | succ fuel ih =>
    intro S H F d p q n n2 hS hr hq hl hf
    have hbase : PSim S H (PC.ret (intersectionM G (fuel + 1) p q d)) (intersection n n2 d)
        (fun r s H' => r.2 = s.2 ∧ Rep H' (F ∪ New H H') d r.1 s.1) :=
      PSim.ret hS (fun _ h => h.elim) (intersectionM_sim G (fuel + 1) H F d p q n n2 hr hq hl hf)
    rcases p with _ | a
    · rw [intersectionP]
      · exact hbase
      · simp
    rcases q with _ | b
    · rw [intersectionP]
      · exact hbase
      · simp
    rw [intersectionP]
    refine PSim.readCell (PSim.readCell ?_)
    · cases hr with
      | @leaf1 _ _ x hx hF => rw [hx]; exact hbase
      | @leaf2 _ _ x y hx hF => rw [hx]; exact hbase
      | @twig _ _ s la l hd hx hF => rw [hx]; exact hbase
      | @branch _ _ m k kn hd hx hF hk =>
        rw [hx]
        cases hq with
        | @leaf1 _ _ x hx2 hF2 => rw [hx2]; exact hbase
        | @leaf2 _ _ x y hx2 hF2 => rw [hx2]; exact hbase
        | @twig _ _ s la l hd2 hx2 hF2 => rw [hx2]; exact hbase
        | @branch _ _ m2 k2 kn2 hd2 hx2 hF2 hk2 =>
          rw [hx2]
          dsimp only
          by_cases hdg : (d : Int) < g
          · rw [if_pos hdg]
            simp only [intersection]
            refine PSim.fill (P := id) (I := fun _ _ => True) (E := fun _ _ _ _ _ => True) (cnt := fun b : Node T × Int => b.2)
              (node := fun b => b.1) (kv := fun i => intersection (kn i) (kn2 i) (d + 1))
              (upd := fun i t b => ⟨t.mask, setSlot t.data i b.1⟩)
              (d := d) hS hl rfl trivial (fun _ _ => rfl) (fun _ _ _ => rfl) (fun _ _ _ _ _ _ _ _ _ _ _ _ => trivial) ?_ ?_
            · intro H1 hc1 hl1 i _
              exact (ih H1 H1 _ (d + 1) (k i) (k2 i) (kn i) (kn2 i) (ext_refl H1) ((hk i).fork hc1) ((hk2 i).fork hc1)
                (live_core hl1) (hf.succ hd)).mono (fun r s H' hr => ⟨hr.1, hr.2, trivial⟩)
            · intro H1 ret t ms H2 km hc1 hret hc2 hfl _
              refine Sim.bind ((branchCanonicalM_sim G H2 (F ∪ New H H2) ret d t.updateMask (hfl.rep hd hc1 hret)).weaken
                (fun _ h => h.elim) (fun _ _ _ _ h => h)) ?_
              rintro p3 n3 H3 hc3 ⟨hr3, _⟩
              exact Sim.pure ⟨rfl, hr3.mono (sub_new2 hc2 hc3)⟩
          · rw [if_neg hdg]; exact hbase

theorem differenceP_sim (G : Growth) (g : Int) (fuel : Nat) : ∀ (S H : Mem T) (F : Set Loc) (d : Nat) (p q : Ptr) (n n2 : Node T),
    MemExt S H → Rep H F d p n → Rep H F d q n2 → Live H F → FuelOk d fuel →
    PSim S H (differenceP G g fuel p q d) (difference n n2 d) (fun r s H' => r.2 = s.2 ∧ Rep H' (F ∪ New H H') d r.1 s.1) := by
  induction fuel with
  | zero => intro S H F d p q n n2 _ _ _ _ hf; exact absurd hf.2 (Nat.lt_irrefl 0)
  | succ fuel ih =>
    intro S H F d p q n n2 hS hr hq hl hf
    have hbase : PSim S H (PC.ret (differenceM G (fuel + 1) p q d)) (difference n n2 d)
        (fun r s H' => r.2 = s.2 ∧ Rep H' (F ∪ New H H') d r.1 s.1) :=
      PSim.ret hS (fun _ h => h.elim) (differenceM_sim G (fuel + 1) H F d p q n n2 hr hq hl hf)
    rcases p with _ | a
    · rw [differenceP]
      · exact hbase
      · simp
    rcases q with _ | b
    · rw [differenceP]
      · exact hbase
      · simp
    rw [differenceP]
    refine PSim.readCell (PSim.readCell ?_)
    · cases hr with
      | @leaf1 _ _ x hx hF => rw [hx]; exact hbase
      | @leaf2 _ _ x y hx hF => rw [hx]; exact hbase
      | @twig _ _ s la l hd hx hF => rw [hx]; exact hbase
      | @branch _ _ m k kn hd hx hF hk =>
        rw [hx]
        cases hq with
        | @leaf1 _ _ x hx2 hF2 => rw [hx2]; exact hbase
        | @leaf2 _ _ x y hx2 hF2 => rw [hx2]; exact hbase
        | @twig _ _ s la l hd2 hx2 hF2 => rw [hx2]; exact hbase
        | @branch _ _ m2 k2 kn2 hd2 hx2 hF2 hk2 =>
          rw [hx2]
          dsimp only
          by_cases hdg : (d : Int) < g
          · rw [if_pos hdg]
            simp only [difference]
            refine PSim.fill (P := id) (I := fun _ _ => True) (E := fun _ _ _ _ _ => True) (cnt := fun b : Node T × Int => b.2)
              (node := fun b => b.1) (kv := fun i => if (kn2 i).isNil then .ok (kn i, 0) else difference (kn i) (kn2 i) (d + 1))
              (upd := fun i t b => ⟨t.mask, setSlot t.data i b.1⟩)
              (d := d) hS hl rfl trivial ?_ (fun _ _ _ => rfl) (fun _ _ _ _ _ _ _ _ _ _ _ _ => trivial) ?_ ?_
            · intro i t
              by_cases hn2 : (kn2 i).isNil = true
              · simp only [hn2, if_true]; rfl
              · simp only [hn2, Bool.false_eq_true, if_false]; rfl
            · intro H1 hc1 hl1 i _
              rw [(hk2 i).isNone]
              by_cases hn2 : (kn2 i).isNil = true
              · simp only [hn2, if_true]
                exact ⟨trivial, rfl, ((hk i).fork hc1).mono Set.subset_union_left, trivial⟩
              simp only [hn2, Bool.false_eq_true, if_false]
              exact (ih H1 H1 _ (d + 1) (k i) (k2 i) (kn i) (kn2 i) (ext_refl H1) ((hk i).fork hc1) ((hk2 i).fork hc1)
                (live_core hl1) (hf.succ hd)).mono (fun r s H' hr => ⟨hr.1, hr.2, trivial⟩)
            · intro H1 ret t ms H2 km hc1 hret hc2 hfl _
              refine Sim.bind ((branchCanonicalM_sim G H2 (F ∪ New H H2) ret d t.updateMask (hfl.rep hd hc1 hret)).weaken
                (fun _ h => h.elim) (fun _ _ _ _ h => h)) ?_
              rintro p3 n3 H3 hc3 ⟨hr3, _⟩
              exact Sim.pure ⟨rfl, hr3.mono (sub_new2 hc2 hc3)⟩
          · rw [if_neg hdg]; exact hbase

theorem whereP_sim (G : Growth) (g : Int) (pred : T → Bool) (fuel : Nat) : ∀ (S H : Mem T) (F : Set Loc) (d : Nat) (p : Ptr) (n : Node T),
    MemExt S H → Rep H F d p n → Live H F → FuelOk d fuel →
    PSim S H (whereP G g pred fuel p d) («where» pred n d) (fun r s H' => r.2 = s.2.1 ∧ Rep H' (F ∪ New H H') d r.1 s.1 ∧
      (if s.2.2 then r.1 = p else NewPtr H H' r.1)) := by
  induction fuel with
  | zero => intro S H F d p n _ _ _ hf; exact absurd hf.2 (Nat.lt_irrefl 0)
  | succ fuel ih =>
    intro S H F d p n hS hr hl hf
    have hbase : PSim S H (PC.ret (whereM G pred (fuel + 1) p d)) («where» pred n d)
        (fun r s H' => r.2 = s.2.1 ∧ Rep H' (F ∪ New H H') d r.1 s.1 ∧ (if s.2.2 then r.1 = p else NewPtr H H' r.1)) :=
      PSim.ret hS (fun _ h => h.elim) (whereM_sim G pred (fuel + 1) H F d p n hr hl hf)
    rcases p with _ | a
    · rw [whereP]
      · exact hbase
      · simp
    rw [whereP]
    refine PSim.readCell ?_
    have hself := hr
    cases hr with
    | @leaf1 _ _ x hx hF => rw [hx]; exact hbase
    | @leaf2 _ _ x y hx hF => rw [hx]; exact hbase
    | @twig _ _ s la l hd hx hF => rw [hx]; exact hbase
    | @branch _ _ m k kn hd hx hF hk =>
      rw [hx]
      dsimp only
      by_cases hdg : (d : Int) < g
      · rw [if_pos hdg]
        simp only [«where»]
        refine PSim.fill (P := fun t : Packer T × (Fin 8 → Bool) => t.1) (I := fun t km => ∀ i, t.2 i = true ↔ km i = k i)
          (E := fun H1 i p b H' => k i ≠ none ∧ if b.2.2 then p = k i else NewPtr H1 H' p)
          (cnt := fun b : Node T × Int × Bool => b.2.1) (node := fun b => b.1) (kv := fun i => «where» pred (kn i) (d + 1))
          (upd := fun i t b => (⟨t.1.mask, setSlot t.1.data i b.1⟩, setSlot t.2 i b.2.2))
          (d := d) hS hl rfl ?_ (fun _ _ => rfl) (fun _ _ _ => rfl) ?_ ?_ ?_
        · intro i
          show (kn i).isNil = true ↔ none = k i
          rw [← (hk i).isNone]
          cases k i <;> simp
        · intro H1 hc1 i t b p H' J slots hJ hE hI j
          by_cases hj : j = i
          · subst hj
            simp only [setSlot_same]
            obtain ⟨hne, hE⟩ := hE
            obtain ⟨c, hc⟩ := Option.ne_none_iff_exists'.1 hne
            have hcF : Loc.cell c ∈ F := (hc ▸ hk j).root_mem
            have hc1 : c < H1.cells.length := Nat.lt_of_not_le (hl.next hc1 _ hcF)
            cases hb : b.2.2 with
            | true =>
              rw [hb] at hE
              rw [show p = k j from hE, hc]
              simp only [Option.map_some, Move.cell_low hc1]
            | false =>
              rw [hb] at hE
              refine ⟨fun h => (nomatch h), fun he => ?_⟩
              rw [hc] at he
              cases p with
              | none => cases he
              | some e =>
                have he' : H1.cells.length ≤ e := (hE e rfl).1
                simp only [Option.map_some, Option.some.injEq, Move.cell_high he'] at he
                omega
          · simp only [setSlot_ne _ _ hj]; exact hI j
        · intro H1 hc1 hl1 i _
          by_cases hn : kn i = .nil
          · have hki : k i = none := by
              have := (hk i).isNone
              rw [hn] at this
              cases hki : k i with
              | none => rfl
              | some b => rw [hki] at this; simp [Node.isNil] at this
            rw [hn, hki]
            obtain ⟨f', rfl⟩ : ∃ f', fuel = f' + 1 := ⟨fuel - 1, by have := (hf.succ hd).2; omega⟩
            exact ⟨trivial, rfl⟩
          · have hne : k i ≠ none := fun h => hn (by have := (hk i).isNone; rw [h] at this; exact isNil_iff.1 this.symm)
            exact (ih H1 H1 _ (d + 1) (k i) (kn i) (ext_refl H1) ((hk i).fork hc1) (live_core hl1) (hf.succ hd)).mono
              (fun r s H' hr => ⟨hr.1, hr.2.1, hne, hr.2.2⟩)
        · intro H1 ret t ms H2 km hc1 hret hc2 hfl hJ
          refine Sim.read (readCell_eq hfl.1) ?_
          dsimp only
          have hiff : (t.1.updateMask.mask = m ∧ ∀ i, km i = k i) ↔ (t.1.updateMask.mask = m ∧ (List.finRange 8).all t.2 = true) := by
            simp only [List.all_eq_true, List.mem_finRange, true_implies, hJ]
          by_cases hc : t.1.updateMask.mask = m ∧ ∀ i, km i = k i
          · rw [if_pos hc, if_pos (hiff.1 hc)]
            exact Sim.pure ⟨rfl, (hself.next hc2).mono Set.subset_union_left, rfl⟩
          · rw [if_neg hc, if_neg (fun h => hc (hiff.2 h))]
            have hrep := hfl.rep hd hc1 hret
            let H3 : Mem T := ⟨H2.cells ++ [.branch t.1.updateMask.mask km], H2.arrays, H2.log⟩
            have hc23 : Changes ∅ H2 H3 := changes_alloc _ _ _
            have hc3 : Changes ∅ H H3 := hc2.trans (hc23.weaken (fun _ h => .inl (.inl h)))
            have hnew : Loc.cell H2.cells.length ∈ New H H3 := new_sub' hc2 new_cell
            have hb3 : Rep H3 (F ∪ New H H3) d (some H2.cells.length) t.1.updateMask.toNode :=
              .branch hd cells_new (.inr hnew) (fun i => ((hfl.next hc23).2 i).mono (by
                rintro l (h | h)
                · exact .inl h
                · exact .inr (new_sub' hc1 h)))
            refine Sim.step (H1 := H3) (a := H2.cells.length) rfl (changes_alloc _ _ _) ?_
            refine Sim.bind ((branchCanonicalM_sim G H3 (F ∪ New H H3) _ d t.1.updateMask hb3).weaken
              (fun _ h => h.elim) (fun _ _ _ _ h => h)) ?_
            rintro p3 n3 H4 hc4 ⟨hr4, hp⟩
            refine Sim.pure ⟨rfl, hr4.mono (sub_new2 hc3 hc4), ?_⟩
            rcases hp with rfl | hp
            · rintro b h; cases h; exact new_sub hc4 hnew
            · exact fun b h => new_sub' hc3 (hp b h)
      · rw [if_neg hdg]; exact hbase

/-! ## Whole trees -/

/-- What the call comes to, whatever the schedule. -/
def PCall.eval (x : PCall T) (H : Mem T) : Go MTree × Mem T :=
  ((x.code.eval H).1.map (fun p => ⟨p.1, x.count p.2⟩), (x.code.eval H).2)

/-- As `Sim` with `TreeRes`, for the code of a call on whole trees. -/
def CSim (H : Mem T) (F : Set Loc) (x : PCall T) (v : Go (Tree T)) : Prop :=
  x.code.Quiet H H ∧ match (x.eval H).1, v with
    | .ok a, .ok b => TreeRes H F a b (x.eval H).2
    | .error e, .error e' => e = e'
    | _, _ => False

theorem PSim.call {β : Type} {H : Mem T} {F : Set Loc} {x : PC T} {v : Go β} {R : Ptr × Int → β → Mem T → Prop} {c : Int → Int}
    {f : β → Tree T} {v' : Go (Tree T)} (h : PSim H H x v R) (hv : v' = v >>= fun b => pure (f b))
    (hR : ∀ a b H', R a b H' → TreeRes H F ⟨a.1, c a.2⟩ (f b) H') :
    CSim H F ⟨x, c⟩ v' := by
  obtain ⟨h1, h2⟩ := h
  subst hv
  refine ⟨h1, ?_⟩
  unfold PCall.eval
  dsimp only
  revert h2
  cases (x.eval H).1 with
  | error e => cases v <;> exact id
  | ok r =>
    cases v with
    | error e => exact id
    | ok b => exact fun h => hR r b _ h

theorem MTree.whereP_sim (G : Growth) (g : Int) {H : Mem T} {S : Set Loc} {t : MTree} {n : Node T} (h : Rep H S 0 t.root n) (hl : Live H S)
    (p : T → Bool) : CSim H S (t.whereP G g p) ((t.val n).where p) := by
  unfold MTree.whereP Tree.where MTree.val
  rw [h.isNone]
  by_cases hn : n.isNil = true
  · rw [if_pos hn, if_pos hn]
    exact ⟨trivial, rfl, h.mono Set.subset_union_left⟩
  · rw [if_neg hn, if_neg hn]
    exact (Frozen.whereP_sim G g p memFuel H H S 0 t.root n (ext_refl H) h hl (fuelOk_mem 0)).call (f := fun b : Node T × Int × Bool => (⟨b.1, b.2.1⟩ : Tree T)) rfl
      (fun a b H' hr => ⟨hr.1, hr.2.1⟩)

theorem MTree.intersectionP_sim (G : Growth) (g : Int) {H : Mem T} {S : Set Loc} {t u : MTree} {n m : Node T} (h : Rep H S 0 t.root n)
    (hu : Rep H S 0 u.root m) (hl : Live H S) : CSim H S (t.intersectionP G g u) ((t.val n).intersection (u.val m)) := by
  unfold MTree.intersectionP Tree.intersection MTree.val
  rw [h.isNone, hu.isNone]
  by_cases hn : (n.isNil || m.isNil) = true
  · rw [if_pos hn, if_pos hn]
    exact ⟨trivial, rfl, .nil _⟩
  · rw [if_neg hn, if_neg hn]
    dsimp only
    by_cases hc : t.count > u.count
    · simp only [if_pos hc]
      exact (Frozen.intersectionP_sim G g memFuel H H S 0 u.root t.root m n (ext_refl H) hu h hl (fuelOk_mem 0)).call
        (f := fun b : Node T × Int => (⟨b.1, b.2⟩ : Tree T)) rfl (fun a b H' hr => hr)
    · simp only [if_neg hc]
      exact (Frozen.intersectionP_sim G g memFuel H H S 0 t.root u.root n m (ext_refl H) h hu hl (fuelOk_mem 0)).call
        (f := fun b : Node T × Int => (⟨b.1, b.2⟩ : Tree T)) rfl (fun a b H' hr => hr)

theorem MTree.differenceP_sim (G : Growth) (g : Int) {H : Mem T} {S : Set Loc} {t u : MTree} {n m : Node T} (h : Rep H S 0 t.root n)
    (hu : Rep H S 0 u.root m) (hl : Live H S) : CSim H S (t.differenceP G g u) ((t.val n).difference (u.val m)) := by
  unfold MTree.differenceP Tree.difference MTree.val
  rw [h.isNone, hu.isNone]
  by_cases hn : (n.isNil || m.isNil) = true
  · rw [if_pos hn, if_pos hn]
    exact ⟨trivial, rfl, h.mono Set.subset_union_left⟩
  · rw [if_neg hn, if_neg hn]
    exact (Frozen.differenceP_sim G g memFuel H H S 0 t.root u.root n m (ext_refl H) h hu hl (fuelOk_mem 0)).call
      (f := fun b : Node T × Int => (⟨b.1, t.count - b.2⟩ : Tree T)) rfl (fun a b H' hr => ⟨congrArg (t.count - ·) hr.1, hr.2⟩)

theorem MTree.combineP_sim (G : Growth) (g : Int) {H : Mem T} {S : Set Loc} {t u : MTree} {n m : Node T} (h : Rep H S 0 t.root n)
    (hu : Rep H S 0 u.root m) (hl : Live H S) (args : CombineArgs T) (hs : CombineSafe n args m 0) :
    CSim H S (t.combineP G g args u) ((t.val n).combine args (u.val m)) := by
  unfold MTree.combineP Tree.combine MTree.val
  rw [h.isNone, hu.isNone]
  by_cases hn : n.isNil = true
  · rw [if_pos hn, if_pos hn]
    exact ⟨trivial, rfl, hu.mono Set.subset_union_left⟩
  · rw [if_neg hn, if_neg hn]
    by_cases hn2 : m.isNil = true
    · rw [if_pos hn2, if_pos hn2]
      exact ⟨trivial, rfl, h.mono Set.subset_union_left⟩
    · rw [if_neg hn2, if_neg hn2]
      exact (Frozen.combineP_sim G g memFuel H H S 0 t.root u.root n m args (ext_refl H) h hu hl (fuelOk_mem 0) hs).call
        (f := fun b => ⟨b.1, t.count + u.count - b.2⟩) rfl (fun a b H' hr => ⟨congrArg (t.count + u.count - ·) hr.1, hr.2⟩)

end Frozen
