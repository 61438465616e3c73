import Verif.Proof.MemRemove

/-! `Difference`, `Intersection` and `Where` in memory. -/

set_option linter.unusedSectionVars false

namespace Frozen

variable {T : Type}

theorem run_error {α β : Type} {x : MM T α} {f : α → MM T β} {H H1 : Mem T} {e : Panic} (h : x H = (.error e, H1)) :
    (x >>= f) H = (.error e, H1) := by
  rw [MM.run_andThen, h]

theorem Sim.error {α β : Type} {W : Set Loc} {H H1 : Mem T} {x : MM T α} {e : Panic} {R : α → β → Mem T → Prop}
    (h : x H = (.error e, H1)) (hc : Changes W H H1) : Sim W H x (.error e) R := by
  unfold Sim; rw [h]; exact ⟨hc, rfl⟩

/-- A step whose value-level counterpart is known. -/
theorem Sim.bindOk {α β α' β' : Type} {W : Set Loc} {H : Mem T} {x : MM T α} {b : β} {R : α → β → Mem T → Prop}
    {f : α → MM T α'} {v : Go β'} {R' : α' → β' → Mem T → Prop} (h : Sim W H x (.ok b) R)
    (hf : ∀ a H1, Changes W H H1 → R a b H1 → Sim (W ∪ Fresh H) H1 (f a) v R') : Sim W H (x >>= f) v R' := by
  have h' : Sim W H x (.ok b) (fun a b' H1 => b' = b ∧ R a b' H1) := by
    refine ⟨h.1, ?_⟩
    have := h.2
    revert this
    cases (x H).1 with
    | ok a => exact fun h => ⟨rfl, h⟩
    | error e => exact fun h => h.elim
  have := Sim.bind (g := fun _ => v) h' (f := f) (R' := R') (by
    rintro a b' H1 hc ⟨rfl, hr⟩
    exact hf a H1 hc hr)
  exact this

theorem parallelLoopM_sim {σ : Type} (W : Set Loc) (H0 : Mem T) (f : Fin 8 → MM T (Bool × Int))
    (g : Fin 8 → σ → Go (σ × Bool × Int)) (I : σ → Mem T → Prop)
    (body : ∀ i s H, Changes W H0 H → I s H → Sim (W ∪ Fresh H0) H (f i) (g i s) (fun r t H' => r = t.2 ∧ I t.1 H')) :
    ∀ (is : List Nat) (s : σ) (ms : Int) (H : Mem T), Changes W H0 H → I s H →
      Sim (W ∪ Fresh H0) H (parallelLoopM f is ms) (parallelLoop g is s ms) (fun r t H' => r = t.2 ∧ I t.1 H')
  | [], s, ms, H, hc, hi => Sim.pure ⟨rfl, hi⟩
  | i :: is, s, ms, H, hc, hi => by
    unfold parallelLoopM parallelLoop
    by_cases h : i < 8
    · simp only [dif_pos h]
      refine Sim.bind (body ⟨i, h⟩ s H hc hi) ?_
      rintro ⟨ok, m⟩ ⟨s', ok', m'⟩ H1 hc1 ⟨he, hi1⟩
      cases he
      cases ok with
      | false => exact Sim.pure ⟨rfl, hi1⟩
      | true =>
        refine (parallelLoopM_sim W H0 f g I body is s' (ms + m) H1 (hc.trans hc1) hi1).weaken ?_ (fun _ _ _ _ h => h)
        exact fun l h => .inl (.inl h)
    · simp only [dif_neg h]
      exact Sim.raise

/-- The branch `ret` being filled: it holds the children of `q`, which were there at `H1` or are new. -/
def Filled (H1 H : Mem T) (F : Set Loc) (d ret : Nat) (q : Packer T) (km : Fin 8 → Ptr) : Prop :=
  H.cells[ret]? = some (.branch q.mask km) ∧ ∀ i, Rep H (F ∪ New H1 H) (d + 1) (km i) (q.data i)

theorem Filled.next {H1 H H' : Mem T} {F : Set Loc} {d ret : Nat} {q : Packer T} {km : Fin 8 → Ptr}
    (h : Filled H1 H F d ret q km) (hc : Changes ∅ H H') : Filled H1 H' F d ret q km :=
  ⟨hc.cell h.1 (fun h => h), fun i => ((h.2 i).next hc).mono (by
    rintro l (h | h)
    · exact .inl h
    · exact .inr (new_sub hc h))⟩

theorem Filled.write {H1 H : Mem T} {F : Set Loc} {d ret : Nat} {q : Packer T} {km : Fin 8 → Ptr} (h : Filled H1 H F d ret q km)
    (hret : Loc.cell ret ∉ F) (hret1 : Loc.cell ret ∉ Fresh H1) (m : Masker) (i : Fin 8) (p : Ptr) (n : Node T)
    (hr : Rep H (F ∪ New H1 H) (d + 1) p n) :
    Filled H1 ⟨H.cells.set ret (.branch m (setSlot km i p)), H.arrays, .cell ret :: H.log⟩ F d ret ⟨m, setSlot q.data i n⟩ (setSlot km i p) := by
  have hcw : Changes {Loc.cell ret} H ⟨H.cells.set ret (.branch m (setSlot km i p)), H.arrays, .cell ret :: H.log⟩ := changes_writeCell H ret _ rfl
  have hx : ∀ {p : Ptr} {n : Node T}, Rep H (F ∪ New H1 H) (d + 1) p n →
      Rep ⟨H.cells.set ret (.branch m (setSlot km i p)), H.arrays, .cell ret :: H.log⟩
        (F ∪ New H1 ⟨H.cells.set ret (.branch m (setSlot km i p)), H.arrays, .cell ret :: H.log⟩) (d + 1) p n := by
    intro p n hr
    refine (hr.frame (changes_writeCell (W := {Loc.cell ret}) H ret _ rfl) ?_).mono ?_
    · rintro l hl rfl
      rcases hl with h | h
      · exact hret h
      · exact hret1 h.1
    · rintro l (h | h)
      · exact .inl h
      · exact .inr (new_sub (changes_writeCell (W := {Loc.cell ret}) H ret _ rfl) h)
  have hx' : ∀ {p' : Ptr} {n : Node T}, Rep H (F ∪ New H1 H) (d + 1) p' n →
      Rep ⟨H.cells.set ret (.branch m (setSlot km i p)), H.arrays, .cell ret :: H.log⟩
        (F ∪ New H1 ⟨H.cells.set ret (.branch m (setSlot km i p)), H.arrays, .cell ret :: H.log⟩) (d + 1) p' n := by
    intro p n hr
    refine (hr.frame hcw ?_).mono ?_
    · rintro l hl rfl
      rcases hl with h | h
      · exact hret h
      · exact hret1 h.1
    · rintro l (h | h)
      · exact .inl h
      · exact .inr (new_sub hcw h)
  refine ⟨List.getElem?_set_self (getElem?_lt h.1), fun j => ?_⟩
  by_cases hj : j = i
  · subst hj; simp only [setSlot_same]; exact hx hr
  · simp only [setSlot_ne _ _ hj]; exact hx' (h.2 j)

/-- The finished branch. -/
theorem Filled.rep {H H1 H2 : Mem T} {W : Set Loc} {F : Set Loc} {d ret : Nat} {q : Packer T} {km : Fin 8 → Ptr}
    (h : Filled H1 H2 F d ret q km) (hd : d < maxTreeDepth) (hc : Changes W H H1) (hret : Loc.cell ret ∈ New H H2) :
    Rep H2 (F ∪ New H H2) d (some ret) q.toNode :=
  .branch hd h.1 (.inr hret) (fun i => (h.2 i).mono (by
    rintro l (h | h)
    · exact .inl h
    · exact .inr (new_sub' hc h)))

theorem Filled.updateMask [GoKey T] [PerGoKey T] {H1 H : Mem T} {F : Set Loc} {d ret : Nat} {q : Packer T} {km : Fin 8 → Ptr}
    (h : Filled H1 H F d ret q km) (hret : Loc.cell ret ∉ F) (hret1 : Loc.cell ret ∉ Fresh H1) :
    ∃ H', updateMaskM ret H = (.ok (), H') ∧ Changes {Loc.cell ret} H H' ∧ Filled H1 H' F d ret q.updateMask km := by
  refine ⟨_, updateMaskM_eq h.1, changes_writeCell _ _ _ rfl, ?_⟩
  have := h.write hret hret1 (maskOfPtrs km) 0 (km 0) (q.data 0) (h.2 0)
  have e1 : setSlot km 0 (km 0) = km := by
    funext j; by_cases hj : j = 0
    · subst hj; rw [setSlot_same]
    · rw [setSlot_ne _ _ hj]
  have e2 : setSlot q.data 0 (q.data 0) = q.data := by
    funext j; by_cases hj : j = 0
    · subst hj; rw [setSlot_same]
    · rw [setSlot_ne _ _ hj]
  rw [e1, e2] at this
  have e3 : (⟨maskOfPtrs km, q.data⟩ : Packer T) = q.updateMask := by
    rw [maskOfPtrs_eq (fun i => (h.2 i).isNone)]; rfl
  rwa [e3] at this

/-- An empty branch was just allocated. -/
theorem filled_new {H : Mem T} {F : Set Loc} {d : Nat} :
    Filled ⟨H.cells ++ [.branch 0#16 (fun _ => none)], H.arrays, H.log⟩ ⟨H.cells ++ [.branch 0#16 (fun _ => none)], H.arrays, H.log⟩ F d
      H.cells.length Packer.zero (fun _ => none) :=
  ⟨cells_new, fun _ => .nil _⟩

/-! ## Filtering a twig -/

/-- The elements that `keep` selects, in order. -/
def filterGo (keep : T → Go Bool) : List T → Go (List T)
  | [] => .ok []
  | e :: l => do
    let b ← keep e
    let r ← filterGo keep l
    pure (if b then e :: r else r)

theorem filterGo_ok (pred : T → Bool) (l : List T) : filterGo (fun e => .ok (pred e)) l = .ok (l.filter pred) := by
  induction l with
  | nil => rfl
  | cons e l ih =>
    unfold filterGo
    rw [ih]
    by_cases h : pred e = true
    · simp [h, bind, Except.bind, pure, Except.pure]
    · simp [h, bind, Except.bind, pure, Except.pure]

theorem twigFilterGet_eq [GoKey T] (keep : Bool) (l : List T) (n : Node T) (d : Nat) : twigFilterGet keep l n d =
    filterGo (fun e => do let g ← get n e (newHasher e d); pure (g.isSome == keep)) l := by
  induction l with
  | nil => rfl
  | cons e l ih =>
    unfold twigFilterGet filterGo
    rw [ih]
    cases get n e (newHasher e d) <;> rfl

/-- The slice built so far. -/
def SliceIs (H0 H : Mem T) (s : Slice) (l : List T) : Prop :=
  s.len = l.length ∧ (s = Slice.nil ∧ l = [] ∨
    ∃ la, H.arrays[s.arr]? = some la ∧ s.len ≤ la.length ∧ la.take s.len = l ∧ Loc.arr s.arr ∈ New H0 H)

theorem SliceIs.append (G : Growth) {H0 H : Mem T} {s : Slice} {l : List T} (hc : Changes ∅ H0 H) (h : SliceIs H0 H s l) (e : T) :
    ∃ s' H1, goAppend G s e H = (.ok s', H1) ∧ Changes (Fresh H0) H H1 ∧ SliceIs H0 H1 s' (l ++ [e]) ∧ H1.cells = H.cells := by
  obtain ⟨hl, ⟨rfl, rfl⟩ | ⟨la, ha, hla, ht, hn⟩⟩ := h
  · refine ⟨⟨H.arrays.length, 1, G.cap 0 1⟩, ⟨H.cells, H.arrays ++ [[e]], H.log⟩, ?_, changes_allocArr _ _ _, ⟨rfl, .inr ?_⟩, rfl⟩
    · unfold goAppend
      rw [if_neg (by simp [Slice.nil])]
      have : readSlice Slice.nil H = (.ok [], H) := by rw [readSlice_run]; simp [Mem.slice, Slice.nil]
      rw [run_bind this]; rfl
    · exact ⟨[e], arrays_new, Nat.le_refl _, rfl, new_sub' hc new_arr⟩
  · obtain ⟨s', H1, la', h1, h2, h4, h5, h6, h7, h8, h9⟩ := goAppend_spec G H s e la (Fresh H0) ha hla (fun _ => hn.1)
    refine ⟨s', H1, h1, h2, ⟨by rw [h5, hl]; simp, .inr ⟨la', h4, h6, by rw [h7, ht], ?_⟩⟩, h9⟩
    rcases h8 with h8 | h8
    · rw [h8.1]; exact new_sub h2 hn
    · exact new_sub' hc h8

theorem twigFilterM_sim (G : Growth) (keep : T → MM T Bool) (kv : T → Go Bool) (H0 : Mem T)
    (hk : ∀ H, Changes ∅ H0 H → H.cells = H0.cells → ∀ e, keep e H = (kv e, H)) : ∀ (l : List T) (H : Mem T) (s : Slice) (acc : List T),
    Changes ∅ H0 H → H.cells = H0.cells → SliceIs H0 H s acc →
    Sim (Fresh H0) H
      (l.foldlM (fun s e => do if ← keep e then goAppend G s e else pure s) s)
      (do let r ← filterGo kv l; pure (acc ++ r))
      (fun s' l' H' => SliceIs H0 H' s' l')
  | [], H, s, acc, hc, _, hs => by
    show Sim _ _ _ (.ok (acc ++ [])) _
    rw [List.append_nil]
    exact Sim.pure hs
  | e :: l, H, s, acc, hc, hcl, hs => by
    rw [List.foldlM_cons]
    unfold filterGo
    have hke := hk H hc hcl e
    cases hkv : kv e with
    | error err =>
      have hlook : keep e H = (.error err, H) := by rw [hke, hkv]
      exact Sim.error (run_error (run_error hlook)) (Changes.refl _ _)
    | ok b =>
      have hlook : keep e H = (.ok b, H) := by rw [hke, hkv]
      have key : ∀ (s' : Slice) (H1 : Mem T) (acc' : List T), Changes (Fresh H0) H H1 → H1.cells = H.cells → SliceIs H0 H1 s' acc' →
          (do if ← keep e then goAppend G s e else pure s : MM T Slice) H = (.ok s', H1) →
          acc' = acc ++ (if b then [e] else []) →
          Sim (Fresh H0) H (do
            let s' ← (do if ← keep e then goAppend G s e else pure s)
            l.foldlM (fun s e => do if ← keep e then goAppend G s e else pure s) s')
            (do let r ← (do let b ← Except.ok b; let r ← filterGo kv l; pure (if b = true then e :: r else r)); pure (acc ++ r))
            (fun s' l' H' => SliceIs H0 H' s' l') := by
        intro s' H1 acc' hc1 hcl1 hs1 hrun hacc
        refine Sim.step hrun hc1 ?_
        have hv : (do let r ← (do let b ← Except.ok b; let r ← filterGo kv l; pure (if b = true then e :: r else r)); pure (acc ++ r)
            : Go (List T)) = (do let r ← filterGo kv l; pure (acc' ++ r)) := by
          subst hacc
          cases b <;> cases filterGo kv l <;> simp [bind, Except.bind, pure, Except.pure]
        rw [hv]
        refine (twigFilterM_sim G keep kv H0 hk l H1 s' acc' (hc.trans (hc1.weaken (fun _ h => .inl (.inr h)))) (hcl1.trans hcl)
          hs1).weaken (fun _ h => .inl (.inl h)) (fun _ _ _ _ h => h)
      cases b with
      | true =>
        obtain ⟨s', H1, h1, h2, h3, h4⟩ := hs.append G hc e
        refine key s' H1 (acc ++ [e]) h2 h4 h3 ?_ rfl
        rw [run_bind hlook]; exact h1
      | false =>
        refine key s H acc (Changes.refl _ _) rfl hs ?_ (by simp)
        rw [run_bind hlook]; rfl

variable [GoKey T] [PerGoKey T]

/-- Filter a twig and bring the result into canonical form. -/
theorem twigFilterCanon_sim {α : Type} (G : Growth) (keep : T → MM T Bool) (kv : T → Go Bool) (H : Mem T)
    (hk : ∀ H', Changes ∅ H H' → H'.cells = H.cells → ∀ e, keep e H' = (kv e, H')) (l : List T) (d : Nat) (F : Set Loc)
    (fm : Ptr → Slice → α) {β : Type} (fv : Node T → List T → β) (R : α → β → Mem T → Prop)
    (hR : ∀ p n s l H', Changes ∅ H H' → s.len = l.length → Rep H' (New H H') d p n → R (fm p s) (fv n l) H') :
    Sim ∅ H (do
      let s' ← twigFilterM G keep l
      let b ← alloc (.twig s')
      let p ← twigCanonicalM G b s' d
      pure (fm p s'))
      (do
        let ret ← filterGo kv l
        let r ← twigCanonical ret d
        pure (fv r ret)) R := by
  have hf := twigFilterM_sim G keep kv H hk l H Slice.nil [] (Changes.refl _ _) rfl ⟨rfl, .inl ⟨rfl, rfl⟩⟩
  have he : (do let r ← filterGo kv l; pure ([] ++ r) : Go (List T)) = filterGo kv l := by
    cases filterGo kv l <;> rfl
  rw [he] at hf
  refine Sim.bind (hf.weaken (W' := ∅) (fun _ h => .inr h) (fun _ _ _ _ h => h)) ?_
  rintro s ret H1 hc1 hs
  let H2 : Mem T := ⟨H1.cells ++ [.twig s], H1.arrays, H1.log⟩
  have hc12 : Changes ∅ H1 H2 := changes_alloc _ _ _
  have hc02 : Changes ∅ H H2 := hc1.trans (changes_alloc _ _ _)
  refine Sim.step (H1 := H2) rfl (changes_alloc _ _ _) ?_
  obtain ⟨hl, ⟨rfl, rfl⟩ | ⟨la, ha, hla, ht, hn⟩⟩ := hs
  · refine Sim.step (a := none) (H1 := H2) ?_ (Changes.refl _ _) ?_
    · unfold twigCanonicalM
      have : readSlice Slice.nil H2 = (.ok [], H2) := by rw [readSlice_run]; simp [Mem.slice, Slice.nil]
      rw [run_bind this]; rfl
    · exact Sim.pure (hR _ _ _ _ _ hc02 rfl (.nil _))
  · refine Sim.bind ((twigCanonicalM_sim G H2 (New H H2) H1.cells.length d d s la ret (.inr rfl) cells_new (new_sub' hc1 new_cell) ha
      (new_sub hc12 hn) hla ht).weaken (fun _ h => h.elim) (fun _ _ _ _ h => h)) ?_
    rintro p n H3 hc3 ⟨ho, _⟩
    have hc23 : Changes (∅ ∪ Fresh H) H2 H3 := hc3.weaken (fun l h => by
      rcases h with (h | h) | h
      · exact h.elim
      · exact .inl (.inr h)
      · exact .inl (.inr (hc1.mono _ h)))
    refine Sim.pure (hR _ _ _ _ _ (hc02.trans hc23) hl (ho.rep.mono ?_))
    rintro l (h | h)
    · exact new_sub hc3 h
    · exact new_sub' hc02 h

end Frozen
