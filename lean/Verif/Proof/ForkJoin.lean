import Verif.Spec.ForkJoin
import Verif.Proof.Concurrent

/-! Programs that start goroutines and wait for them: moving memory, and the invariant of histories across a join. -/

set_option linter.unusedSectionVars false

namespace Frozen

variable {T : Type}

/-! ## Moving memory -/

/-- The new place of a location. -/
def Move.loc (M : Move) : Loc → Loc
  | .cell a => .cell (M.cell a)
  | .arr a => .arr (M.arr a)

theorem Move.loc_inj (M : Move) {l l' : Loc} (h : M.loc l = M.loc l') : l = l' := by
  cases l with
  | cell a =>
    cases l' with
    | cell b =>
      have h' : M.cell a = M.cell b := Loc.cell.inj h
      unfold Move.cell at h'
      congr 1
      split at h' <;> split at h' <;> omega
    | arr b => cases h
  | arr a =>
    cases l' with
    | cell b => cases h
    | arr b =>
      have h' : M.arr a = M.arr b := Loc.arr.inj h
      unfold Move.arr at h'
      congr 1
      split at h' <;> split at h' <;> omega

theorem MemExt.cells_le {S J : Mem T} (h : MemExt S J) : S.cells.length ≤ J.cells.length := h.1.length_le

theorem MemExt.arrays_le {S J : Mem T} (h : MemExt S J) : S.arrays.length ≤ J.arrays.length := h.2.length_le

theorem MemExt.cell {S J : Mem T} (h : MemExt S J) {a : Nat} (ha : a < S.cells.length) : J.cells[a]? = S.cells[a]? := by
  obtain ⟨⟨c, hc⟩, _⟩ := h
  rw [← hc, List.getElem?_append_left ha]

theorem MemExt.arr {S J : Mem T} (h : MemExt S J) {a : Nat} (ha : a < S.arrays.length) : J.arrays[a]? = S.arrays[a]? := by
  obtain ⟨_, ⟨c, hc⟩⟩ := h
  rw [← hc, List.getElem?_append_left ha]

theorem MemExt.trans {S J K : Mem T} (h : MemExt S J) (h' : MemExt J K) : MemExt S K := ⟨h.1.trans h'.1, h.2.trans h'.2⟩

theorem ext_laid (S J own : Mem T) : MemExt J (S.laid J own) := ⟨List.prefix_append .., List.prefix_append ..⟩

theorem Move.cell_low {S J : Mem T} {a : Nat} (h : a < S.cells.length) : (Move.behind S J).cell a = a := if_pos h

theorem Move.arr_low {S J : Mem T} {a : Nat} (h : a < S.arrays.length) : (Move.behind S J).arr a = a := if_pos h

theorem Move.cell_high {S J : Mem T} {a : Nat} (h : S.cells.length ≤ a) :
    (Move.behind S J).cell a = a + (J.cells.length - S.cells.length) := if_neg (Nat.not_lt.2 h)

theorem Move.arr_high {S J : Mem T} {a : Nat} (h : S.arrays.length ≤ a) :
    (Move.behind S J).arr a = a + (J.arrays.length - S.arrays.length) := if_neg (Nat.not_lt.2 h)

theorem laid_cell_high {S J own : Mem T} (hJ : MemExt S J) {a : Nat} (h : S.cells.length ≤ a) {c : Cell T}
    (hc : (S.plus own).cells[a]? = some c) :
    (S.laid J own).cells[(Move.behind S J).cell a]? = some (c.moved (Move.behind S J)) := by
  have hle := hJ.cells_le
  rw [Move.cell_high h]
  show (J.cells ++ _)[_]? = _
  rw [List.getElem?_append_right (by omega), List.getElem?_map]
  have : (S.cells ++ own.cells)[a]? = some c := hc
  rw [List.getElem?_append_right h] at this
  rw [show a + (J.cells.length - S.cells.length) - J.cells.length = a - S.cells.length by omega, this]
  rfl

theorem laid_arr_high {S J own : Mem T} (hJ : MemExt S J) {a : Nat} (h : S.arrays.length ≤ a) {c : List T}
    (hc : (S.plus own).arrays[a]? = some c) : (S.laid J own).arrays[(Move.behind S J).arr a]? = some c := by
  have hle := hJ.arrays_le
  rw [Move.arr_high h]
  show (J.arrays ++ _)[_]? = _
  rw [List.getElem?_append_right (by omega)]
  have : (S.arrays ++ own.arrays)[a]? = some c := hc
  rw [List.getElem?_append_right h] at this
  rw [show a + (J.arrays.length - S.arrays.length) - J.arrays.length = a - S.arrays.length by omega, this]

/-- The locations of a region from which only valid pointers are found. -/
def core (S : Mem T) (F : Set Loc) : Set Loc := fun l => l ∈ F ∧ ∀ a, l = .cell a → ∃ d n, Rep S F d (some a) n

theorem core_sub (S : Mem T) (F : Set Loc) : core S F ⊆ F := fun _ h => h.1

theorem Rep.core {S : Mem T} {F : Set Loc} {d : Nat} {p : Ptr} {n : Node T} (h : Rep S F d p n) : Rep S (core S F) d p n := by
  induction h with
  | nil d => exact .nil d
  | @leaf1 d a x h hF =>
    exact .leaf1 h ⟨hF, fun b hb => by cases hb; exact ⟨d, _, .leaf1 h hF⟩⟩
  | @leaf2 d a x y h hF =>
    exact .leaf2 h ⟨hF, fun b hb => by cases hb; exact ⟨d, _, .leaf2 h hF⟩⟩
  | @twig d a s la l hd h hF ha hFa h3 hl hs =>
    exact .twig hd h ⟨hF, fun b hb => by cases hb; exact ⟨d, _, .twig hd h hF ha hFa h3 hl hs⟩⟩ ha ⟨hFa, fun b hb => by cases hb⟩ h3 hl hs
  | @branch d a m k kn hd h hF hk ih =>
    exact .branch hd h ⟨hF, fun b hb => by cases hb; exact ⟨d, _, .branch hd h hF hk⟩⟩ ih

theorem Rep.lt {S : Mem T} {F : Set Loc} {d a : Nat} {n : Node T} (h : Rep S F d (some a) n) : a < S.cells.length := by
  cases h with
  | leaf1 h _ => exact getElem?_lt h
  | leaf2 h _ => exact getElem?_lt h
  | twig _ h _ _ _ _ _ _ => exact getElem?_lt h
  | branch _ h _ _ => exact getElem?_lt h

theorem laid_cell_core {S J own : Mem T} {F : Set Loc} (hJ : MemExt S J) {a : Nat} (h : Loc.cell a ∈ core S F) {c : Cell T}
    (hc : (S.plus own).cells[a]? = some c) :
    (S.laid J own).cells[(Move.behind S J).cell a]? = some (c.moved (Move.behind S J)) := by
  obtain ⟨_, h2⟩ := h
  obtain ⟨d, n, hr⟩ := h2 a rfl
  have hlt := hr.lt
  rw [Move.cell_low hlt, (ext_laid S J own).cell (Nat.lt_of_lt_of_le hlt hJ.cells_le), hJ.cell hlt]
  rw [(ext_plus S own).cell hlt] at hc
  rw [hc]
  congr 1
  cases hr with
  | leaf1 h _ => rw [hc] at h; cases h; rfl
  | leaf2 h _ => rw [hc] at h; cases h; rfl
  | twig _ h _ ha _ _ _ _ =>
    rw [hc] at h; cases h
    unfold Cell.moved
    dsimp only
    rw [Move.arr_low (getElem?_lt ha)]
  | @branch _ _ m k kn hd h _ hk =>
    rw [hc] at h; cases h
    unfold Cell.moved
    congr 1
    funext i
    cases hki : k i with
    | none => rfl
    | some b =>
      have hb := hk i
      rw [hki] at hb
      show some b = some _
      rw [Move.cell_low hb.lt]

/-- Trees survive the move. -/
theorem Rep.move {S J own : Mem T} {F0 F : Set Loc} (hJ : MemExt S J) (hl : Live S F0) {d : Nat} {p : Ptr} {n : Node T}
    (h : Rep (S.plus own) F d p n) (hF : ∀ l ∈ F, l ∈ Frozen.core S F0 ∨ l ∈ Fresh S) :
    Rep (S.laid J own) ((Move.behind S J).loc '' F) d (p.map (Move.behind S J).cell) n := by
  have hcell : ∀ (a : Nat) (c : Cell T), Loc.cell a ∈ F → (S.plus own).cells[a]? = some c →
      (S.laid J own).cells[(Move.behind S J).cell a]? = some (c.moved (Move.behind S J)) := by
    intro a c ha hc
    rcases hF _ ha with h | h
    · exact laid_cell_core hJ h hc
    · exact laid_cell_high hJ h hc
  have harr : ∀ (a : Nat) (c : List T), Loc.arr a ∈ F → (S.plus own).arrays[a]? = some c →
      (S.laid J own).arrays[(Move.behind S J).arr a]? = some c := by
    intro a c ha hc
    rcases hF _ ha with h | h
    · have hlt : a < S.arrays.length := Nat.lt_of_not_le (hl _ h.1)
      rw [Move.arr_low hlt, (ext_laid S J own).arr (Nat.lt_of_lt_of_le hlt hJ.arrays_le), hJ.arr hlt]
      rwa [(ext_plus S own).arr hlt] at hc
    · exact laid_arr_high hJ h hc
  induction h with
  | nil d => exact .nil d
  | leaf1 h hF => exact .leaf1 (hcell _ _ hF h) ⟨_, hF, rfl⟩
  | leaf2 h hF => exact .leaf2 (hcell _ _ hF h) ⟨_, hF, rfl⟩
  | twig hd h hF ha hFa h3 hl hs => exact .twig hd (hcell _ _ hF h) ⟨_, hF, rfl⟩ (harr _ _ hFa ha) ⟨_, hFa, rfl⟩ h3 hl hs
  | branch hd h hF _ ih => exact .branch hd (hcell _ _ hF h) ⟨_, hF, rfl⟩ ih

theorem Own.move {S J own : Mem T} {F : Set Loc} (hJ : MemExt S J) {d : Nat} {p : Ptr} {n : Node T}
    (h : Own (S.plus own) F d p n) (hF : ∀ l ∈ F, l ∈ Fresh S) :
    Own (S.laid J own) ((Move.behind S J).loc '' F) d (p.map (Move.behind S J).cell) n := by
  induction h with
  | nil F d => exact .nil _ d
  | leaf1 h hf => exact .leaf1 (laid_cell_high hJ (hF _ hf) h) ⟨_, hf, rfl⟩
  | leaf2 h hf => exact .leaf2 (laid_cell_high hJ (hF _ hf) h) ⟨_, hf, rfl⟩
  | twig hd h hf ha hfa h3 hl hs =>
    exact .twig hd (laid_cell_high hJ (hF _ hf) h) ⟨_, hf, rfl⟩ (laid_arr_high hJ (hF _ hfa) ha) ⟨_, hfa, rfl⟩ h3 hl hs
  | branch Fs hd h hf _ hsub hna hdis ih =>
    refine .branch (fun i => (Move.behind S J).loc '' Fs i) hd (laid_cell_high hJ (hF _ hf) h) ⟨_, hf, rfl⟩
      (fun i => ih i (fun l hl => hF l (hsub i hl))) (fun i => Set.image_mono (hsub i)) ?_ ?_
    · rintro i ⟨l, hl, he⟩
      have : l = .cell _ := (Move.behind S J).loc_inj (l' := .cell _) he
      subst this
      exact hna i hl
    · rintro i j hij _ ⟨l, hl, rfl⟩ ⟨l', hl', he⟩
      have := (Move.behind S J).loc_inj he
      subst this
      exact hdis i j hij _ hl hl'

theorem loc_fresh {S J : Mem T} (hJ : MemExt S J) {l : Loc} (h : l ∈ Fresh S) : (Move.behind S J).loc l ∈ Fresh J := by
  cases l with
  | cell a =>
    have ha : S.cells.length ≤ a := h
    show J.cells.length ≤ (Move.behind S J).cell a
    rw [Move.cell_high ha]; have := hJ.cells_le; omega
  | arr a =>
    have ha : S.arrays.length ≤ a := h
    show J.arrays.length ≤ (Move.behind S J).arr a
    rw [Move.arr_high ha]; have := hJ.arrays_le; omega

theorem loc_low {S J : Mem T} {l : Loc} (h : l ∉ Fresh S) : (Move.behind S J).loc l = l := by
  cases l with
  | cell a => exact congrArg Loc.cell (Move.cell_low (Nat.lt_of_not_le h))
  | arr a => exact congrArg Loc.arr (Move.arr_low (Nat.lt_of_not_le h))

theorem loc_live {S J own : Mem T} (hJ : MemExt S J) {l : Loc} (h : l ∉ Fresh (S.plus own)) :
    (Move.behind S J).loc l ∉ Fresh (S.laid J own) := by
  cases l with
  | cell a =>
    have ha : a < (S.cells ++ own.cells).length := Nat.lt_of_not_le h
    have hle := hJ.cells_le
    intro h'
    have h'' : (J.cells ++ own.cells.map (Cell.moved (Move.behind S J))).length ≤ (Move.behind S J).cell a := h'
    rw [List.length_append, List.length_map] at h''
    rw [List.length_append] at ha
    rcases Nat.lt_or_ge a S.cells.length with hlt | hge
    · rw [Move.cell_low hlt] at h''; omega
    · rw [Move.cell_high hge] at h''; omega
  | arr a =>
    have ha : a < (S.arrays ++ own.arrays).length := Nat.lt_of_not_le h
    have hle := hJ.arrays_le
    intro h'
    have h'' : (J.arrays ++ own.arrays).length ≤ (Move.behind S J).arr a := h'
    rw [List.length_append] at h'' ha
    rcases Nat.lt_or_ge a S.arrays.length with hlt | hge
    · rw [Move.arr_low hlt] at h''; omega
    · rw [Move.arr_high hge] at h''; omega

theorem ext_changes {J K : Mem T} (h : MemExt J K) (hlog : K.log = J.log) : Changes ∅ J K := by
  refine ⟨fun l hl => ?_, fun l hl _ => ?_, fun a la ha => ⟨la, ?_, Nat.le_refl _⟩, [], hlog, by simp⟩
  · cases l with
    | cell a => exact Nat.le_trans h.cells_le hl
    | arr a => exact Nat.le_trans h.arrays_le hl
  · cases l with
    | cell a => exact h.cell (Nat.lt_of_not_le hl)
    | arr a => exact h.arr (Nat.lt_of_not_le hl)
  · rw [h.arr (getElem?_lt ha)]; exact ha

variable [GoKey T] [LawfulGoKey T]

/-! ## Taking over -/

theorem getElem?_append_cases {α : Type} {l l' : List α} {i : Nat} {a : α} (h : (l ++ l')[i]? = some a) :
    (i < l.length ∧ l[i]? = some a) ∨ (l.length ≤ i ∧ l'[i - l.length]? = some a) := by
  rcases Nat.lt_or_ge i l.length with hi | hi
  · rw [List.getElem?_append_left hi] at h; exact .inl ⟨hi, h⟩
  · rw [List.getElem?_append_right hi] at h; exact .inr ⟨hi, h⟩

/-- The region of a builder after taking over. -/
def joinedB (n : Nat) (M : Move) (BJ Bg : Nat → Set Loc) : Nat → Set Loc :=
  fun k => if k < n then BJ k else M.loc '' Bg (k - n)

theorem take_inv {strict : Bool} {w J : World T} {vw vJ vc : VWorld T} {S SJ Sg : Set Loc} {BJ Bg : Nat → Set Loc}
    {c : Client T} {own : Mem T} (hS : Live w.mem S) (hlen : strict = true → w.sets.length = vw.sets.length) (hJ : HistInv strict J vJ SJ BJ)
    (hext : MemExt w.mem J.mem) (hSJ : S ⊆ SJ)
    (hg : HistInv strict (c.world (w.mem.plus own)) vc Sg Bg) (hSg : ∀ l ∈ Sg, l ∈ Frozen.core w.mem S ∨ l ∈ Fresh w.mem)
    (hBg : ∀ k, ∀ l ∈ Bg k, l ∈ Fresh w.mem) :
    HistInv strict (w.take J ⟨.done (.ok c), own⟩)
      ⟨vJ.sets ++ vc.sets.drop vw.sets.length, vJ.builders ++ vc.builders⟩
      (SJ ∪ (Move.behind w.mem J.mem).loc '' Sg) (joinedB J.builders.length (Move.behind w.mem J.mem) BJ Bg) := by
  have hch := ext_changes (ext_laid w.mem J.mem own) rfl
  show HistInv strict ⟨w.mem.laid J.mem own, J.sets ++ (c.sets.drop w.sets.length).map (MTree.moved (Move.behind w.mem J.mem)),
    J.builders ++ c.builders.map (MTree.moved (Move.behind w.mem J.mem))⟩ _ _ _
  refine ⟨?_, ?_, ?_, ?_, ?_, ?_, ?_, ?_⟩
  · rintro l (hl | ⟨l, hl, rfl⟩)
    · exact hJ.live.next hch l hl
    · exact loc_live hext (hg.live l hl)
  · intro i s hs
    rcases getElem?_append_cases hs with ⟨hi, hs⟩ | ⟨hi, hs⟩
    · obtain ⟨n, hn, hv⟩ := hJ.sets i s hs
      refine ⟨n, (hn.next hch).mono Set.subset_union_left, fun hst => ⟨?_, (hv hst).2⟩⟩
      show (vJ.sets ++ _)[i]? = _
      rw [List.getElem?_append_left (by rw [← hJ.setsLen hst]; exact hi)]
      exact (hv hst).1
    · rw [List.getElem?_map, List.getElem?_drop, Option.map_eq_some_iff] at hs
      obtain ⟨s', hs', rfl⟩ := hs
      obtain ⟨n, hn, hv⟩ := hg.sets _ s' hs'
      refine ⟨n, (Rep.move hext hS hn hSg).mono Set.subset_union_right, fun hst => ⟨?_, (hv hst).2⟩⟩
      show (vJ.sets ++ _)[i]? = _
      rw [List.getElem?_append_right (by rw [← hJ.setsLen hst]; exact hi), List.getElem?_drop, ← hJ.setsLen hst, ← hlen hst]
      exact (hv hst).1
  · intro hst
    have h1 := hg.setsLen hst
    have h2 := hJ.setsLen hst
    have h3 := hlen hst
    show (J.sets ++ _).length = (vJ.sets ++ _).length
    have h1' : c.sets.length = vc.sets.length := h1
    simp [h2, h3, h1']
  · have h1 : c.builders.length = vc.builders.length := hg.blen
    show (J.builders ++ _).length = (vJ.builders ++ _).length
    simp [hJ.blen, h1]
  · intro k b hb
    rcases getElem?_append_cases hb with ⟨hk, hb⟩ | ⟨hk, hb⟩
    · obtain ⟨n, hn, hv⟩ := hJ.blds k b hb
      refine ⟨n, ?_, ?_, hv.2⟩
      · unfold joinedB; rw [if_pos hk]; exact hn.frame hch (fun _ _ h => h)
      · show (vJ.builders ++ _)[k]? = _
        rw [List.getElem?_append_left (by rw [← hJ.blen]; exact hk)]
        exact hv.1
    · rw [List.getElem?_map, Option.map_eq_some_iff] at hb
      obtain ⟨b', hb', rfl⟩ := hb
      obtain ⟨n, hn, hv⟩ := hg.blds _ b' hb'
      refine ⟨n, ?_, ?_, hv.2⟩
      · unfold joinedB; rw [if_neg (Nat.not_lt.2 hk)]; exact hn.move hext (hBg _)
      · show (vJ.builders ++ _)[k]? = _
        rw [List.getElem?_append_right (by rw [← hJ.blen]; exact hk), ← hJ.blen]
        exact hv.1
  · intro k l hl
    unfold joinedB at hl
    split at hl
    · exact (hJ.blive k).next hch l hl
    · obtain ⟨l, hl, rfl⟩ := hl
      exact loc_live hext (hg.blive _ l hl)
  · intro k l hl hl'
    unfold joinedB at hl
    split at hl
    · rcases hl' with hl' | ⟨l', hl', rfl⟩
      · exact hJ.dis k l hl hl'
      · rcases hSg l' hl' with h | h
        · rw [loc_low (hS _ h.1)] at hl
          exact hJ.dis k l' hl (hSJ h.1)
        · exact hJ.blive k _ hl (loc_fresh hext h)
    · obtain ⟨l, hl, rfl⟩ := hl
      rcases hl' with hl' | ⟨l', hl', he⟩
      · exact hJ.live _ hl' (loc_fresh hext (hBg _ l hl))
      · have := (Move.behind w.mem J.mem).loc_inj he
        subst this
        exact hg.dis _ _ hl hl'
  · intro i j hij l hl hl'
    unfold joinedB at hl hl'
    split at hl <;> split at hl'
    · exact hJ.dis2 i j hij l hl hl'
    · obtain ⟨l', hl', rfl⟩ := hl'
      exact hJ.blive i _ hl (loc_fresh hext (hBg _ l' hl'))
    · obtain ⟨l, hl, rfl⟩ := hl
      exact hJ.blive j _ hl' (loc_fresh hext (hBg _ l hl))
    · obtain ⟨l, hl, rfl⟩ := hl
      obtain ⟨l', hl', he⟩ := hl'
      have := (Move.behind w.mem J.mem).loc_inj he
      subst this
      exact hg.dis2 _ _ (by omega) _ hl hl'

/-! ## All goroutines at their end -/

/-- The goroutine at its end. -/
def endOf (G : Growth) (w : World T) (ops : List (GOp T)) : Goroutine T :=
  ⟨.done (goroutine G ⟨w.sets, [], []⟩ ops w.mem).1, w.mem.high (goroutine G ⟨w.sets, [], []⟩ ops w.mem).2⟩

theorem high_plus (S own : Mem T) : S.high (S.plus own) = own := by
  unfold Mem.high Mem.plus
  rw [List.drop_left, List.drop_left]

/-- Quiet goroutines that have ended are at their end, whatever the schedule was. -/
theorem ended_gs (G : Growth) (w : World T) (hs : List (List (GOp T)))
    (hq : ∀ ops ∈ hs, Quiet w.mem (goroutine G ⟨w.sets, [], []⟩ ops)) (sched : List Nat) (he : ((fork G w hs).run sched).Ended) :
    (fork G w hs).run sched = ⟨w.mem, hs.map (endOf G w)⟩ := by
  have hat := Machine.run_at (S := w.mem) (xs := hs.map (fun ops => goroutine G ⟨w.sets, [], []⟩ ops)) (by
    intro x hx
    obtain ⟨ops, ho, rfl⟩ := List.mem_map.1 hx
    exact hq ops ho) sched (fork_at G w hs)
  obtain ⟨h1, h2, h3⟩ := hat
  have hgs : ((fork G w hs).run sched).gs = hs.map (endOf G w) := by
    apply List.ext_getElem?
    intro i
    cases hg : ((fork G w hs).run sched).gs[i]? with
    | none =>
      rw [List.getElem?_eq_none_iff, h2, List.length_map] at hg
      rw [List.getElem?_eq_none_iff.2 (by rw [List.length_map]; exact hg)]
    | some g =>
      have hlt : i < hs.length := by
        have := getElem?_lt hg
        rwa [h2, List.length_map] at this
      have hops := List.getElem?_eq_getElem hlt
      rw [List.getElem?_map, hops]
      obtain ⟨h4, h5⟩ := h3 i _ g (by rw [List.getElem?_map, hops]; rfl) hg
      simp only [Nat.zero_add] at h4
      obtain ⟨r, hr⟩ := he g (List.mem_of_getElem? hg)
      have hrun := MM.run_steps (goroutine G ⟨w.sets, [], []⟩ hs[i]) w.mem (sched.count i)
      rw [← h4] at hrun
      dsimp only at hrun
      rw [hr] at hrun
      have e1 : r = (goroutine G ⟨w.sets, [], []⟩ hs[i] w.mem).1 := congrArg Prod.fst hrun
      have e2 : w.mem.plus g.own = (goroutine G ⟨w.sets, [], []⟩ hs[i] w.mem).2 := congrArg Prod.snd hrun
      show some g = some (endOf G w hs[i])
      congr 1
      unfold endOf
      rw [← e1, ← e2, ← hr, high_plus]
  cases hm : (fork G w hs).run sched with
  | mk sh gs =>
    rw [hm] at h1 hgs
    dsimp only at h1 hgs
    rw [h1, hgs]

/-- A goroutine at its end: what it holds, and in which memory. -/
theorem endOf_ok (G : Growth) {strict : Bool} {w : World T} {vw : VWorld T} {S : Set Loc} {B : Nat → Set Loc} (h : HistInv strict w vw S B)
    (ops : List (GOp T)) (hu : strict = true → UncrowdedRun G ⟨w.mem, w.sets, []⟩ (GOp.calls ops))
    (ho : strict = true ∨ ∀ op ∈ GOp.calls ops, op.mayAppend = false) :
    ∃ c own Sg Bg, endOf G w ops = ⟨.done (.ok c), own⟩ ∧
      HistInv strict (c.world (w.mem.plus own)) (VWorld.run ⟨vw.sets, []⟩ (GOp.calls ops)) Sg Bg ∧
      (∀ l ∈ Sg, l ∈ Frozen.core w.mem S ∨ l ∈ Fresh w.mem) ∧ ∀ k, ∀ l ∈ Bg k, l ∈ Fresh w.mem := by
  have hstart : HistInv strict ⟨w.mem, w.sets, []⟩ ⟨vw.sets, []⟩ (Frozen.core w.mem S) (fun _ => ∅) :=
    ⟨fun l hl => h.live l hl.1, fun i s hs => by
        obtain ⟨n, hn, hv⟩ := h.sets i s hs
        exact ⟨n, hn.core, hv⟩,
      h.setsLen, rfl, fun _ _ hb => by simp at hb, fun _ => live_empty _, fun _ _ h => h.elim, fun _ _ _ _ h => h.elim⟩
  obtain ⟨Sg, Bg, hgr, hinv⟩ := run_grown G (GOp.calls ops) hstart hu
  obtain ⟨c, H', h1, h2, ⟨L, h3, h4⟩, _⟩ := goroutine_ok G ops (c := ⟨w.sets, [], []⟩) (H := w.mem) h.start hu ho
  have hq : Quiet w.mem (goroutine G ⟨w.sets, [], []⟩ ops) := (start_ok G h ops hu ho).1
  have hext : MemExt w.mem H' := by
    obtain ⟨n, hn⟩ := MM.finishes (goroutine G ⟨w.sets, [], []⟩ ops) w.mem
    have hk : ∀ n, MemExt w.mem ((goroutine G ⟨w.sets, [], []⟩ ops).steps w.mem n).2 := by
      intro n
      induction n with
      | zero => exact ⟨List.prefix_refl _, List.prefix_refl _⟩
      | succ n ih => exact ih.step _ (fun l hl => hq.nextWrite n l hl)
    have := hk n
    rw [hn n (Nat.le_refl _), h1] at this
    exact this
  refine ⟨c, w.mem.high H', Sg, Bg, ?_, ?_, ?_, ?_⟩
  · unfold endOf; rw [h1]
  · rw [hext.plus_high, h2]; exact hinv
  · intro l hl
    rcases hgr.up l hl with h | ⟨k, h⟩ | h
    · exact .inl h
    · exact h.elim
    · exact .inr h
  · intro k l hl
    rcases hgr.bup k l hl with h | h
    · exact h.elim
    · exact h

/-- Taking over from goroutines at their end. -/
theorem takes_inv (G : Growth) {strict : Bool} {w : World T} {vw : VWorld T} {S : Set Loc} {B : Nat → Set Loc} (h : HistInv strict w vw S B) :
    ∀ (hs : List (List (GOp T))) (J : World T) (vJ : VWorld T) (SJ : Set Loc) (BJ : Nat → Set Loc),
    (∀ ops ∈ hs, strict = true → UncrowdedRun G ⟨w.mem, w.sets, []⟩ (GOp.calls ops)) →
    (strict = true ∨ ∀ ops ∈ hs, ∀ op ∈ GOp.calls ops, op.mayAppend = false) →
    HistInv strict J vJ SJ BJ → MemExt w.mem J.mem → S ⊆ SJ →
    ∃ SK BK, HistInv strict ((hs.map (endOf G w)).foldl w.take J)
      (hs.foldl (fun J h =>
        let r := VWorld.run ⟨vw.sets, []⟩ (GOp.calls h)
        ⟨J.sets ++ r.sets.drop vw.sets.length, J.builders ++ r.builders⟩) vJ) SK BK ∧
      J.sets <+: ((hs.map (endOf G w)).foldl w.take J).sets ∧ J.builders <+: ((hs.map (endOf G w)).foldl w.take J).builders ∧
      MemExt J.mem ((hs.map (endOf G w)).foldl w.take J).mem ∧ ((hs.map (endOf G w)).foldl w.take J).mem.log = J.mem.log
  | [], J, vJ, SJ, BJ, _, _, hJ, _, _ => ⟨SJ, BJ, hJ, List.prefix_refl _, List.prefix_refl _, ⟨List.prefix_refl _, List.prefix_refl _⟩, rfl⟩
  | ops :: hs, J, vJ, SJ, BJ, hu, ho, hJ, hext, hSJ => by
    obtain ⟨c, own, Sg, Bg, h1, h2, h3, h4⟩ := endOf_ok G h ops (hu ops (by simp)) (ho.imp id (fun hh => hh ops (by simp)))
    have hi := take_inv h.live h.setsLen hJ hext hSJ h2 h3 h4
    obtain ⟨SK, BK, h5, h6, h7, h8, h9⟩ := takes_inv G h hs (w.take J (endOf G w ops)) _ _ _ (fun o ho => hu o (by simp [ho]))
      (ho.imp id (fun hh o ho => hh o (by simp [ho]))) (by rw [h1]; exact hi) (by rw [h1]; exact hext.trans (ext_laid w.mem J.mem own))
      (hSJ.trans Set.subset_union_left)
    rw [List.map_cons, List.foldl_cons, List.foldl_cons]
    refine ⟨SK, BK, h5, ?_, ?_, ?_, ?_⟩
    · refine List.IsPrefix.trans ?_ h6
      rw [h1]; exact List.prefix_append _ _
    · refine List.IsPrefix.trans ?_ h7
      rw [h1]; exact List.prefix_append _ _
    · refine MemExt.trans ?_ h8
      rw [h1]; exact ext_laid w.mem J.mem own
    · rw [h9, h1]; rfl

/-- A whole parallel stage. -/
theorem par_ok (G : Growth) {strict : Bool} {w : World T} {vw : VWorld T} {S : Set Loc} {B : Nat → Set Loc} (h : HistInv strict w vw S B)
    (hs : List (List (GOp T))) (sched : List Nat)
    (hu : ∀ ops ∈ hs, strict = true → UncrowdedRun G ⟨w.mem, w.sets, []⟩ (GOp.calls ops))
    (ho : strict = true ∨ ∀ ops ∈ hs, ∀ op ∈ GOp.calls ops, op.mayAppend = false) (he : ((fork G w hs).run sched).Ended) :
    w.stage G (.par hs sched) = (hs.map (endOf G w)).foldl w.take w ∧
    (∃ S' B', HistInv strict (w.stage G (.par hs sched)) (vw.par hs) S' B') ∧
    w.sets <+: (w.stage G (.par hs sched)).sets ∧ w.builders <+: (w.stage G (.par hs sched)).builders ∧
    Changes ∅ w.mem (w.stage G (.par hs sched)).mem := by
  have hq := fun ops hops => (start_ok G h ops (hu ops hops) (ho.imp id (fun hh => hh ops hops))).1
  have hph : w.stage G (.par hs sched) = (hs.map (endOf G w)).foldl w.take w := by
    show w.join _ = _
    unfold World.join
    rw [ended_gs G w hs hq sched he]
  obtain ⟨SK, BK, h1, h2, h3, h4, h5⟩ := takes_inv G h hs w vw S B hu ho h ⟨List.prefix_refl _, List.prefix_refl _⟩ (fun _ h => h)
  refine ⟨hph, ?_, ?_, ?_, ?_⟩
  · rw [hph]; exact ⟨SK, BK, h1⟩
  · rw [hph]; exact h2
  · rw [hph]; exact h3
  · rw [hph]; exact ext_changes h4 h5

theorem go_quiet {p : Bool} {hs : List (List (GOp T))} {sched : List Nat}
    (h : p = true ∨ (Stage.par hs sched).goMayAppend = false) : p = true ∨ ∀ ops ∈ hs, ∀ op ∈ GOp.calls ops, op.mayAppend = false := by
  refine h.imp id (fun h ops ho op hop => ?_)
  simp only [Stage.goMayAppend, List.any_eq_false, List.any_eq_true, not_exists, not_and, Bool.not_eq_true] at h
  exact h ops ho op hop

/-- Programs keep the invariant. -/
theorem stages_inv (G : Growth) {strict : Bool} : ∀ (ps : List (Stage T)) {w : World T} {vw : VWorld T} {S : Set Loc} {B : Nat → Set Loc},
    HistInv strict w vw S B → (strict = true → UncrowdedStages G w ps) → (strict = true ∨ ∀ p ∈ ps, p.goMayAppend = false) →
    EndedRun G w ps → ∃ S' B', HistInv strict (w.stages G ps) (vw.stages ps) S' B'
  | [], _, _, S, B, h, _, _, _ => ⟨S, B, h⟩
  | .call op :: ps, w, vw, S, B, h, hu, ho, he => by
    obtain ⟨⟨S', B', _, h'⟩, _⟩ := step_ok G h op (fun hst => (hu hst).1)
    exact stages_inv G ps h' (fun hst => (hu hst).2) (ho.imp id (fun hh p hp => hh p (by simp [hp]))) he
  | .par hs sched :: ps, w, vw, S, B, h, hu, ho, he => by
    obtain ⟨_, ⟨S', B', h'⟩, _⟩ := par_ok G h hs sched (fun ops ho hst => (hu hst).1 ops ho)
      (go_quiet (sched := sched) (ho.imp id (fun hh => hh _ (by simp)))) he.1
    exact stages_inv G ps h' (fun hst => (hu hst).2) (ho.imp id (fun hh p hp => hh p (by simp [hp]))) he.2

/-- Programs keep the sets. -/
theorem stages_view (G : Growth) {strict : Bool} : ∀ (ps : List (Stage T)) {w : World T} {vw : VWorld T} {S : Set Loc} {B : Nat → Set Loc},
    HistInv strict w vw S B → (strict = true → UncrowdedStages G w ps) → (strict = true ∨ ∀ p ∈ ps, p.mayAppend = false) →
    EndedRun G w ps → ∀ {i : Nat} {s : MTree}, w.sets[i]? = some s →
    (w.stages G ps).sets[i]? = some s ∧ SameView w.mem (w.stages G ps).mem s
  | [], _, _, _, _, h, _, _, _, i, s, hs => by
    obtain ⟨n, hn, _⟩ := h.sets i s hs
    exact ⟨hs, sameView_of hn hn⟩
  | .call op :: ps, w, vw, S, B, h, hu, ho, he, i, s, hs => by
    have hst := step_ok G h op (fun hst => (hu hst).1)
    obtain ⟨hi, hv⟩ := run_view G [op] h (fun hst => ⟨(hu hst).1, trivial⟩) (ho.imp id (fun hh o ho => by
      rw [List.mem_singleton] at ho; subst ho; exact hh (.call o) (by simp))) hs
    obtain ⟨⟨S', B', _, h'⟩, _⟩ := hst
    obtain ⟨h1, h2⟩ := stages_view G ps h' (fun hst => (hu hst).2) (ho.imp id (fun hh p hp => hh p (by simp [hp]))) he hi
    exact ⟨h1, hv.trans h2⟩
  | .par hs sched :: ps, w, vw, S, B, h, hu, ho, he, i, s, hi => by
    obtain ⟨_, ⟨S', B', h'⟩, h3, _, h5⟩ := par_ok G h hs sched (fun ops ho hst => (hu hst).1 ops ho)
      (go_quiet (sched := sched) (ho.imp id (fun hh => hh (.par hs sched) (by simp)))) he.1
    obtain ⟨n, hn, _⟩ := h.sets i s hi
    have hi' : (w.stage G (.par hs sched)).sets[i]? = some s := by
      obtain ⟨l, hl⟩ := h3
      rw [← hl, List.getElem?_append_left (getElem?_lt hi)]; exact hi
    obtain ⟨h1, h2⟩ := stages_view G ps h' (fun hst => (hu hst).2) (ho.imp id (fun hh p hp => hh p (by simp [hp]))) he.2 hi'
    exact ⟨h1, (sameView_of hn (hn.next h5)).trans h2⟩

/-- The scheduler has no influence. -/
theorem stages_plan (G : Growth) {strict : Bool} : ∀ (ps ps' : List (Stage T)) {w : World T} {vw : VWorld T} {S : Set Loc} {B : Nat → Set Loc},
    HistInv strict w vw S B → (strict = true → UncrowdedStages G w ps) → (strict = true ∨ ∀ p ∈ ps, p.goMayAppend = false) →
    EndedRun G w ps → EndedRun G w ps' → ps.map Stage.plan = ps'.map Stage.plan → w.stages G ps = w.stages G ps'
  | [], [], _, _, _, _, _, _, _, _, _, _ => rfl
  | [], _ :: _, _, _, _, _, _, _, _, _, _, hp => by cases hp
  | _ :: _, [], _, _, _, _, _, _, _, _, _, hp => by cases hp
  | .call op :: ps, p' :: ps', w, vw, S, B, h, hu, ho, he, he', hp => by
    rw [List.map_cons, List.map_cons, List.cons.injEq] at hp
    obtain ⟨hp1, hp2⟩ := hp
    cases p' with
    | par hs' sched' => cases hp1
    | call op' =>
      cases hp1
      obtain ⟨⟨S', B', _, h'⟩, _⟩ := step_ok G h op (fun hst => (hu hst).1)
      exact stages_plan G ps ps' h' (fun hst => (hu hst).2) (ho.imp id (fun hh p hp => hh p (by simp [hp]))) he he' hp2
  | .par hs sched :: ps, p' :: ps', w, vw, S, B, h, hu, ho, he, he', hp => by
    rw [List.map_cons, List.map_cons, List.cons.injEq] at hp
    obtain ⟨hp1, hp2⟩ := hp
    cases p' with
    | call op' => cases hp1
    | par hs' sched' =>
      cases hp1
      have hq := go_quiet (sched := sched) (ho.imp id (fun hh => hh (.par hs sched) (by simp)))
      obtain ⟨e, ⟨S', B', h'⟩, _⟩ := par_ok G h hs sched (fun ops ho hst => (hu hst).1 ops ho) hq he.1
      obtain ⟨e', _⟩ := par_ok G h hs sched' (fun ops ho hst => (hu hst).1 ops ho) hq he'.1
      have hww : w.stage G (.par hs sched) = w.stage G (.par hs sched') := e.trans e'.symm
      have he2 := he'.2
      rw [← hww] at he2
      have := stages_plan G ps ps' h' (fun hst => (hu hst).2) (ho.imp id (fun hh p hp => hh p (by simp [hp]))) he.2 he2 hp2
      show World.stages G (w.stage G (.par hs sched)) ps = World.stages G (w.stage G (.par hs sched')) ps'
      rw [← hww]
      exact this

theorem stages_append (G : Growth) (w : World T) (ps ps' : List (Stage T)) : w.stages G (ps ++ ps') = (w.stages G ps).stages G ps' := by
  unfold World.stages
  rw [List.foldl_append]

theorem ended_append (G : Growth) : ∀ (ps ps' : List (Stage T)) (w : World T), EndedRun G w (ps ++ ps') →
    EndedRun G w ps ∧ EndedRun G (w.stages G ps) ps'
  | [], _, _, h => ⟨trivial, h⟩
  | .call _ :: ps, ps', _, h => ended_append G ps ps' _ h
  | .par _ _ :: ps, ps', _, h => ⟨⟨h.1, (ended_append G ps ps' _ h.2).1⟩, (ended_append G ps ps' _ h.2).2⟩

theorem uncrowdedStages_append (G : Growth) : ∀ (ps ps' : List (Stage T)) (w : World T), UncrowdedStages G w (ps ++ ps') →
    UncrowdedStages G w ps ∧ UncrowdedStages G (w.stages G ps) ps'
  | [], _, _, h => ⟨trivial, h⟩
  | .call _ :: ps, ps', _, h => ⟨⟨h.1, (uncrowdedStages_append G ps ps' _ h.2).1⟩, (uncrowdedStages_append G ps ps' _ h.2).2⟩
  | .par _ _ :: ps, ps', _, h => ⟨⟨h.1, (uncrowdedStages_append G ps ps' _ h.2).1⟩, (uncrowdedStages_append G ps ps' _ h.2).2⟩

end Frozen
