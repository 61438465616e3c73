import Verif.Proof.Parallel
import Verif.Proof.Reduce

/-! The operations that fan out: every outcome is the sequential one. -/

set_option linter.unusedSectionVars false

namespace Frozen

variable {T X : Type}

/-- Masks have only their low eight bits set. -/
def MasksOk : Node T → Prop
  | .branch m k => MaskOk m ∧ ∀ i, MasksOk (k i)
  | _ => True

theorem WF.masksOk [GoKey T] [LawfulGoKey T] : ∀ {d : Nat} {n : Node T}, WF d n → MasksOk n
  | _, .nil, _ => trivial
  | _, .leaf1 _, _ => trivial
  | _, .leaf2 _ _, _ => trivial
  | _, .twig _, _ => trivial
  | _, .branch m k, h => by
    have hs := (WF_branch.1 h).1
    exact ⟨maskOk_wf hs, fun i => WF.masksOk (hs.2.2.1 i)⟩

/-- In a loop whose closures never return false, a loop that ends without panic has run each closure without panic. -/
theorem parallelLoop_ok {σ : Type} (f : Fin 8 → σ → Go (σ × Bool × Int)) (hb : ∀ i s s' b m, f i s = .ok (s', b, m) → b = true) :
    ∀ (is : List (Fin 8)) (s : σ) (ms : Int) r, parallelLoop f (is.map Fin.val) s ms = .ok r →
      ∀ i ∈ is, ∃ s o, f i s = .ok o
  | [], _, _, _, _, i, hi => by simp at hi
  | j :: is, s, ms, r, h, i, hi => by
    simp only [List.map_cons, parallelLoop, j.isLt, dite_true, Fin.eta, bind, Except.bind] at h
    cases hf : f j s with
    | error e => rw [hf] at h; cases h
    | ok o =>
      obtain ⟨s', b, m⟩ := o
      have := hb j s s' b m hf
      subst this
      rw [hf] at h
      simp only [Bool.not_true, Bool.false_eq_true, if_false] at h
      rw [List.mem_cons] at hi
      rcases hi with rfl | hi
      · exact ⟨s, _, hf⟩
      · exact parallelLoop_ok f hb is s' _ r h i hi

theorem parallel_ok {σ : Type} {f : Fin 8 → σ → Go (σ × Bool × Int)} (hb : ∀ i s s' b m, f i s = .ok (s', b, m) → b = true)
    {m : Masker} (hm : MaskOk m) {s : σ} {r} (h : parallel m s f = .ok r) :
    ∀ i ∈ m.indices, ∃ s o, f i s = .ok o := by
  rw [parallel, bitLoop_slots hm] at h
  rw [indices_eq_slots hm]
  exact parallelLoop_ok f hb _ _ _ _ h

/-- Closures that all succeed. -/
theorem out_par {mask : Masker} {body : Fin 8 → Comp X} {sets k o} (h : Out (.par mask body sets k) o)
    (hb : ∀ i ∈ mask.indices, ∀ q, Out (body i) q → q.2.1 = true) :
    ∃ R : Fin 8 → X × Bool × Int, (∀ i ∈ mask.indices, Out (body i) (R i)) ∧
      ∃ pm, k pm (fun i => if i ∈ mask.indices then some (R i).1 else none) true ((mask.indices.map (fun i => (R i).2.2)).sum) = .ok o := by
  rcases h with ⟨R, h1, h2⟩ | ⟨i, hi, q, h1, h2, _⟩
  · exact ⟨R, fun i hi => (h1 i hi).1, h2⟩
  · rw [hb i hi q h1] at h2; cases h2

theorem out_seqOf {r : Go (X × Int)} {o} (h : Out (seqOf r) o) : o.2.1 = true ∧ r = .ok (o.1, o.2.2) := by
  cases r with
  | error e => cases h
  | ok p => cases h; exact ⟨rfl, rfl⟩

theorem noPanic_seqOf {r : Go (X × Int)} {o} (h : r = .ok o) : NoPanic (seqOf r) := by
  subst h; exact ⟨_, rfl⟩

theorem packed_updateMask (m : Masker) (sl : Fin 8 → Option (Node T)) (p : Packer T) (h : ∀ i, p.data i = (sl i).getD .nil) :
    (packed m sl).updateMask = p.updateMask := by
  rw [updateMask_eq, updateMask_eq]
  have : (packed m sl).data = p.data := by funext i; rw [h]; rfl
  rw [this]

variable [GoKey T]

theorem out_combineC (g : Int) : ∀ (n1 : Node T) (args : CombineArgs T) (n2 : Node T) (d : Nat) o, MasksOk n1 → MasksOk n2 →
    Out (combineC g n1 args n2 d) o → o.2.1 = true ∧ combine n1 args n2 d = .ok (o.1, o.2.2)
  | .nil, args, n2, d, o, _, _, h => out_seqOf h
  | .leaf1 _, args, n2, d, o, _, _, h => out_seqOf h
  | .leaf2 _ _, args, n2, d, o, _, _, h => out_seqOf h
  | .twig _, args, n2, d, o, _, _, h => out_seqOf h
  | .branch m k, args, .nil, d, o, _, _, h => out_seqOf h
  | .branch m k, args, .leaf1 _, d, o, _, _, h => out_seqOf h
  | .branch m k, args, .leaf2 _ _, d, o, _, _, h => out_seqOf h
  | .branch m k, args, .twig _, d, o, _, _, h => out_seqOf h
  | .branch m k, args, .branch m2 k2, d, o, h1, h2, h => by
    unfold combineC at h
    by_cases hg : (d : Int) < g
    · simp only [if_pos hg] at h
      have hm := h1.1.or h2.1
      have hbody : ∀ i q, Out (if (k i).isNil then .seq (.ok (k2 i, true, 0))
            else if (k2 i).isNil then .seq (.ok (k i, true, 0))
            else combineC g (k i) args (k2 i) (d + 1)) q → q.2.1 = true ∧
          ∀ s : Packer T, ∃ s' : Packer T, (if (k i).isNil then pure (s.setNonNilChild i (k2 i), true, 0)
            else if (k2 i).isNil then pure (s.setNonNilChild i (k i), true, 0)
            else do
              let (n', ms') ← combine (k i) args (k2 i) (d + 1)
              pure (⟨s.mask, setSlot s.data i n'⟩, true, ms') : Go (Packer T × Bool × Int)) = .ok (s', true, q.2.2) ∧
            ∀ j, s'.data j = if j = i then q.1 else s.data j := by
        intro i q hq
        by_cases c1 : (k i).isNil = true
        · simp only [c1, if_true] at hq ⊢
          cases hq
          exact ⟨rfl, fun s => ⟨_, rfl, fun j => rfl⟩⟩
        · by_cases c2 : (k2 i).isNil = true
          · simp only [c1, c2, if_true, if_false, Bool.false_eq_true] at hq ⊢
            cases hq
            exact ⟨rfl, fun s => ⟨_, rfl, fun j => rfl⟩⟩
          · simp only [c1, c2, if_false, Bool.false_eq_true] at hq ⊢
            obtain ⟨e1, e2⟩ := out_combineC g (k i) args (k2 i) (d + 1) q (h1.2 i) (h2.2 i) hq
            refine ⟨e1, fun s => ⟨⟨s.mask, setSlot s.data i q.1⟩, ?_, fun j => rfl⟩⟩
            simp only [e2, bind, Except.bind, pure, Except.pure]
      obtain ⟨R, hR, pm, hk⟩ := out_par h (fun i _ q hq => (hbody i q hq).1)
      cases hk
      refine ⟨rfl, ?_⟩
      rw [indices_eq_slots hm] at hR ⊢
      obtain ⟨s', hp, hd⟩ := parallel_write (σ := Packer T) (α := Node T) (fun s j => s.data j)
        (fun i ret =>
          if (k i).isNil then pure (ret.setNonNilChild i (k2 i), true, 0)
          else if (k2 i).isNil then pure (ret.setNonNilChild i (k i), true, 0)
          else do
            let (n', ms') ← combine (k i) args (k2 i) (d + 1)
            pure (⟨ret.mask, setSlot ret.data i n'⟩, true, ms'))
        (fun i => ((R i).1, (R i).2.2)) hm
        (fun i hi s => (hbody i (R i) (hR i (mem_slots.2 hi))).2 s) Packer.zero
      simp only [combine]
      rw [hp]
      simp only [bind, Except.bind, pure, Except.pure]
      rw [packed_updateMask pm _ s']
      intro i
      rw [hd i]
      by_cases hi : (m ||| m2).getLsbD i = true
      · rw [if_pos hi, if_pos (mem_slots.2 hi)]; rfl
      · rw [if_neg hi, if_neg (fun h => hi (mem_slots.1 h))]; rfl
    · simp only [if_neg hg] at h
      exact out_seqOf h

theorem noPanic_combineC (g : Int) : ∀ (n1 : Node T) (args : CombineArgs T) (n2 : Node T) (d : Nat) o, MasksOk n1 → MasksOk n2 →
    combine n1 args n2 d = .ok o → NoPanic (combineC g n1 args n2 d)
  | .nil, args, n2, d, o, _, _, h => noPanic_seqOf h
  | .leaf1 _, args, n2, d, o, _, _, h => noPanic_seqOf h
  | .leaf2 _ _, args, n2, d, o, _, _, h => noPanic_seqOf h
  | .twig _, args, n2, d, o, _, _, h => noPanic_seqOf h
  | .branch m k, args, .nil, d, o, _, _, h => noPanic_seqOf h
  | .branch m k, args, .leaf1 _, d, o, _, _, h => noPanic_seqOf h
  | .branch m k, args, .leaf2 _ _, d, o, _, _, h => noPanic_seqOf h
  | .branch m k, args, .twig _, d, o, _, _, h => noPanic_seqOf h
  | .branch m k, args, .branch m2 k2, d, o, h1, h2, h => by
    unfold combineC
    by_cases hg : (d : Int) < g
    · simp only [if_pos hg]
      refine ⟨?_, fun _ _ _ _ => ⟨_, rfl⟩⟩
      intro i hi
      by_cases c1 : (k i).isNil = true
      · simp only [c1, if_true]; exact ⟨_, rfl⟩
      by_cases c2 : (k2 i).isNil = true
      · simp only [c1, c2, if_true, if_false, Bool.false_eq_true]; exact ⟨_, rfl⟩
      simp only [c1, c2, if_false, Bool.false_eq_true]
      simp only [combine, bind, Except.bind] at h
      split at h
      · cases h
      rename_i v hv
      have := parallel_ok (by
        intro i s s' b m hf
        split at hf
        · cases hf; rfl
        split at hf
        · cases hf; rfl
        split at hf
        · cases hf
        · cases hf; rfl) (h1.1.or h2.1) hv i hi
      obtain ⟨s, o', ho'⟩ := this
      simp only [c1, c2, if_false, Bool.false_eq_true] at ho'
      cases hc : combine (k i) args (k2 i) (d + 1) with
      | ok q => exact noPanic_combineC g _ _ _ _ q (h1.2 i) (h2.2 i) hc
      | error e => rw [hc] at ho'; cases ho'
    · simp only [if_neg hg]
      exact noPanic_seqOf h

/-! ### Canonical never panics -/

theorem appendTo_ok (cap : Nat) : ∀ (n : Node T) (dest : List T), n.isNil = false → dest.length ≤ cap →
    ∃ o, appendTo cap n dest = .ok o ∧ ∀ l, o = some l → l.length ≤ cap
  | .nil, _, h, _ => by cases h
  | .leaf1 a, dest, _, hd => by
    refine ⟨_, rfl, ?_⟩
    intro l hl
    split at hl
    · cases hl
    · cases hl; simp; omega
  | .leaf2 a b, dest, _, hd => by
    refine ⟨_, rfl, ?_⟩
    intro l hl
    split at hl
    · cases hl
    · cases hl; simp; omega
  | .twig t, dest, _, hd => by
    refine ⟨_, rfl, ?_⟩
    intro l hl
    split at hl
    · cases hl
    · cases hl; simp; omega
  | .branch m k, dest, _, hd => by
    simp only [appendTo]
    have : ∀ (is : List (Fin 8)) (acc : Option (List T)), (∀ l, acc = some l → l.length ≤ cap) →
        ∃ o, is.foldlM (m := Go) (fun acc i =>
          match acc with
          | none => pure none
          | some dest => if (k i).isNil then pure (some dest) else appendTo cap (k i) dest) acc = .ok o ∧
          ∀ l, o = some l → l.length ≤ cap := by
      intro is
      induction is with
      | nil => intro acc ha; exact ⟨acc, rfl, ha⟩
      | cons i is ih =>
        intro acc ha
        rw [List.foldlM_cons]
        cases acc with
        | none => exact ih none (by simp)
        | some dest =>
          by_cases hk : (k i).isNil = true
          · simp only [hk, if_true]; exact ih (some dest) ha
          · obtain ⟨o, h1, h2⟩ := appendTo_ok cap (k i) dest (by simpa using hk) (ha dest rfl)
            simp only [hk, Bool.false_eq_true, if_false, h1]
            exact ih o h2
    exact this _ _ (by intro l hl; cases hl; exact hd)

theorem branchCanonical_ok (p : Packer T) : ∃ r, branchCanonical p = .ok r := by
  obtain ⟨o, h1, h2⟩ := appendTo_ok maxLeafLen p.toNode [] rfl (by simp)
  unfold branchCanonical
  rw [h1]
  cases o with
  | none => exact ⟨_, rfl⟩
  | some l =>
    have := h2 l rfl
    match l, this with
    | [], _ => exact ⟨_, rfl⟩
    | [a], _ => exact ⟨_, rfl⟩
    | [a, b], _ => exact ⟨_, rfl⟩
    | a :: b :: c :: l, h => simp [maxLeafLen] at h

/-! ### Difference, Intersection -/

theorem map_ok {α β : Type} {r : Go α} {f : α → β} {b : β} (h : r.map f = .ok b) : ∃ a, r = .ok a ∧ f a = b := by
  cases r with
  | error e => cases h
  | ok a => cases h; exact ⟨a, rfl, rfl⟩

/-- Both `Difference` and `Intersection` fill a packer and make it canonical. -/
theorem out_canonical {m : Masker} (hm : MaskOk m) {body : Fin 8 → Comp (Node T)} {f : Fin 8 → Packer T → Go (Packer T × Bool × Int)}
    (hbody : ∀ i ∈ m.indices, ∀ q, Out (body i) q → q.2.1 = true ∧ ∀ s : Packer T, ∃ s', f i s = .ok (s', true, q.2.2) ∧
      ∀ j, s'.data j = if j = i then q.1 else s.data j) {o}
    (h : Out (.par m body (fun _ => false)
      (fun mask slots _ ms => (branchCanonical (packed mask slots).updateMask).map (fun r => (r, true, ms)))) o) :
    o.2.1 = true ∧ (do
      let (ret, _, ms) ← parallel m Packer.zero f
      let r ← branchCanonical ret.updateMask
      pure (r, ms) : Go (Node T × Int)) = .ok (o.1, o.2.2) := by
  obtain ⟨R, hR, pm, hk⟩ := out_par h (fun i hi q hq => (hbody i hi q hq).1)
  obtain ⟨r, hr, rfl⟩ := map_ok hk
  refine ⟨rfl, ?_⟩
  rw [indices_eq_slots hm] at hR hbody hr ⊢
  obtain ⟨s', hp, hd⟩ := parallel_write (σ := Packer T) (α := Node T) (fun s j => s.data j) f
    (fun i => ((R i).1, (R i).2.2)) hm
    (fun i hi s => (hbody i (mem_slots.2 hi) (R i) (hR i (mem_slots.2 hi))).2 s) Packer.zero
  rw [hp]
  simp only [bind, Except.bind, pure, Except.pure]
  rw [packed_updateMask pm _ s'] at hr
  · rw [hr]
  intro i
  rw [hd i]
  by_cases hi : m.getLsbD i = true
  · rw [if_pos hi, if_pos (mem_slots.2 hi)]; rfl
  · rw [if_neg hi, if_neg (fun h => hi (mem_slots.1 h))]; rfl

theorem out_differenceC (g : Int) : ∀ (n1 n2 : Node T) (d : Nat) o, MasksOk n1 →
    Out (differenceC g n1 n2 d) o → o.2.1 = true ∧ difference n1 n2 d = .ok (o.1, o.2.2)
  | .nil, n2, d, o, _, h => out_seqOf h
  | .leaf1 _, n2, d, o, _, h => out_seqOf h
  | .leaf2 _ _, n2, d, o, _, h => out_seqOf h
  | .twig _, n2, d, o, _, h => out_seqOf h
  | .branch m k, .nil, d, o, _, h => out_seqOf h
  | .branch m k, .leaf1 _, d, o, _, h => out_seqOf h
  | .branch m k, .leaf2 _ _, d, o, _, h => out_seqOf h
  | .branch m k, .twig _, d, o, _, h => out_seqOf h
  | .branch m k, .branch m2 k2, d, o, h1, h => by
    unfold differenceC at h
    by_cases hg : (d : Int) < g
    · simp only [if_pos hg] at h
      simp only [difference]
      refine out_canonical h1.1 ?_ h
      intro i _ q hq
      by_cases c2 : (k2 i).isNil = true
      · simp only [c2, if_true] at hq ⊢
        cases hq
        exact ⟨rfl, fun s => ⟨_, rfl, fun j => rfl⟩⟩
      · simp only [c2, if_false, Bool.false_eq_true] at hq ⊢
        obtain ⟨e1, e2⟩ := out_differenceC g (k i) (k2 i) (d + 1) q (h1.2 i) hq
        refine ⟨e1, fun s => ⟨⟨s.mask, setSlot s.data i q.1⟩, ?_, fun j => rfl⟩⟩
        simp only [e2, bind, Except.bind, pure, Except.pure]
    · simp only [if_neg hg] at h
      exact out_seqOf h

theorem noPanic_differenceC (g : Int) : ∀ (n1 n2 : Node T) (d : Nat) o, MasksOk n1 →
    difference n1 n2 d = .ok o → NoPanic (differenceC g n1 n2 d)
  | .nil, n2, d, o, _, h => noPanic_seqOf h
  | .leaf1 _, n2, d, o, _, h => noPanic_seqOf h
  | .leaf2 _ _, n2, d, o, _, h => noPanic_seqOf h
  | .twig _, n2, d, o, _, h => noPanic_seqOf h
  | .branch m k, .nil, d, o, _, h => noPanic_seqOf h
  | .branch m k, .leaf1 _, d, o, _, h => noPanic_seqOf h
  | .branch m k, .leaf2 _ _, d, o, _, h => noPanic_seqOf h
  | .branch m k, .twig _, d, o, _, h => noPanic_seqOf h
  | .branch m k, .branch m2 k2, d, o, h1, h => by
    unfold differenceC
    by_cases hg : (d : Int) < g
    · simp only [if_pos hg]
      refine ⟨?_, ?_⟩
      · intro i hi
        by_cases c2 : (k2 i).isNil = true
        · simp only [c2, if_true]; exact ⟨_, rfl⟩
        simp only [c2, if_false, Bool.false_eq_true]
        simp only [difference, bind, Except.bind] at h
        split at h
        · cases h
        rename_i v hv
        have := parallel_ok (by
          intro i s s' b m hf
          split at hf
          · cases hf; rfl
          split at hf
          · cases hf
          · cases hf; rfl) h1.1 hv i hi
        obtain ⟨s, o', ho'⟩ := this
        simp only [c2, if_false, Bool.false_eq_true] at ho'
        cases hc : difference (k i) (k2 i) (d + 1) with
        | ok q => exact noPanic_differenceC g _ _ _ q (h1.2 i) hc
        | error e => rw [hc] at ho'; cases ho'
      · intro pm slots ok ms
        obtain ⟨r, hr⟩ := branchCanonical_ok (packed pm slots).updateMask
        exact ⟨_, by dsimp only; rw [hr]; rfl⟩
    · simp only [if_neg hg]
      exact noPanic_seqOf h

theorem out_intersectionC (g : Int) : ∀ (n1 n2 : Node T) (d : Nat) o, MasksOk n1 →
    Out (intersectionC g n1 n2 d) o → o.2.1 = true ∧ intersection n1 n2 d = .ok (o.1, o.2.2)
  | .nil, n2, d, o, _, h => out_seqOf h
  | .leaf1 _, n2, d, o, _, h => out_seqOf h
  | .leaf2 _ _, n2, d, o, _, h => out_seqOf h
  | .twig _, n2, d, o, _, h => out_seqOf h
  | .branch m k, .nil, d, o, _, h => out_seqOf h
  | .branch m k, .leaf1 _, d, o, _, h => out_seqOf h
  | .branch m k, .leaf2 _ _, d, o, _, h => out_seqOf h
  | .branch m k, .twig _, d, o, _, h => out_seqOf h
  | .branch m k, .branch m2 k2, d, o, h1, h => by
    unfold intersectionC at h
    by_cases hg : (d : Int) < g
    · simp only [if_pos hg] at h
      simp only [intersection]
      refine out_canonical h1.1.and ?_ h
      intro i _ q hq
      obtain ⟨e1, e2⟩ := out_intersectionC g (k i) (k2 i) (d + 1) q (h1.2 i) hq
      refine ⟨e1, fun s => ⟨⟨s.mask, setSlot s.data i q.1⟩, ?_, fun j => rfl⟩⟩
      simp only [e2, bind, Except.bind, pure, Except.pure]
    · simp only [if_neg hg] at h
      exact out_seqOf h

theorem noPanic_intersectionC (g : Int) : ∀ (n1 n2 : Node T) (d : Nat) o, MasksOk n1 →
    intersection n1 n2 d = .ok o → NoPanic (intersectionC g n1 n2 d)
  | .nil, n2, d, o, _, h => noPanic_seqOf h
  | .leaf1 _, n2, d, o, _, h => noPanic_seqOf h
  | .leaf2 _ _, n2, d, o, _, h => noPanic_seqOf h
  | .twig _, n2, d, o, _, h => noPanic_seqOf h
  | .branch m k, .nil, d, o, _, h => noPanic_seqOf h
  | .branch m k, .leaf1 _, d, o, _, h => noPanic_seqOf h
  | .branch m k, .leaf2 _ _, d, o, _, h => noPanic_seqOf h
  | .branch m k, .twig _, d, o, _, h => noPanic_seqOf h
  | .branch m k, .branch m2 k2, d, o, h1, h => by
    unfold intersectionC
    by_cases hg : (d : Int) < g
    · simp only [if_pos hg]
      refine ⟨?_, ?_⟩
      · intro i hi
        simp only [intersection, bind, Except.bind] at h
        split at h
        · cases h
        rename_i v hv
        have := parallel_ok (by
          intro i s s' b m hf
          split at hf
          · cases hf
          · cases hf; rfl) h1.1.and hv i hi
        obtain ⟨s, o', ho'⟩ := this
        cases hc : intersection (k i) (k2 i) (d + 1) with
        | ok q => exact noPanic_intersectionC g _ _ _ q (h1.2 i) hc
        | error e => rw [hc] at ho'; cases ho'
      · intro pm slots ok ms
        obtain ⟨r, hr⟩ := branchCanonical_ok (packed pm slots).updateMask
        exact ⟨_, by dsimp only; rw [hr]; rfl⟩
    · simp only [if_neg hg]
      exact noPanic_seqOf h

/-! ### Where -/

theorem out_whereC (g : Int) (P : T → Bool) : ∀ (n : Node T) (d : Nat) o, MasksOk n →
    Out (whereC g P n d) o → o.2.1 = true ∧ «where» P n d = .ok (o.1.1, o.2.2, o.1.2)
  | .nil, d, o, _, h => by cases h
  | .leaf1 a, d, o, _, h => by
    obtain ⟨q, h1, h2⟩ := map_ok h
    subst h2; exact ⟨rfl, h1⟩
  | .leaf2 a b, d, o, _, h => by
    obtain ⟨q, h1, h2⟩ := map_ok h
    subst h2; exact ⟨rfl, h1⟩
  | .twig l, d, o, _, h => by
    obtain ⟨q, h1, h2⟩ := map_ok h
    subst h2; exact ⟨rfl, h1⟩
  | .branch m k, d, o, hm, h => by
    unfold whereC at h
    by_cases hg : (d : Int) < g
    · simp only [if_pos hg] at h
      obtain ⟨R, hR, pm, hk⟩ := out_par h (fun i _ q hq => (out_whereC g P (k i) (d + 1) q (hm.2 i) hq).1)
      rw [indices_eq_slots hm.1] at hR hk
      obtain ⟨s', hp, hd⟩ := parallel_write (σ := Packer T × (Fin 8 → Bool)) (α := Node T × Bool)
        (fun s j => (s.1.data j, s.2 j))
        (fun i st => do
          let (n, ms', s) ← «where» P (k i) (d + 1)
          pure ((⟨st.1.mask, setSlot st.1.data i n⟩, setSlot st.2 i s), true, ms'))
        (fun i => ((R i).1, (R i).2.2)) hm.1
        (by
          intro i hi s
          have := (out_whereC g P (k i) (d + 1) (R i) (hm.2 i) (hR i (mem_slots.2 hi))).2
          refine ⟨(⟨s.1.mask, setSlot s.1.data i (R i).1.1⟩, setSlot s.2 i (R i).1.2), ?_, ?_⟩
          · rw [this]; rfl
          · intro j
            by_cases hj : j = i
            · subst hj; simp [setSlot]
            · simp [hj, setSlot])
        (Packer.zero, fun i => (k i).isNil)
      simp only [«where»]
      rw [hp]
      simp only [bind, Except.bind, pure, Except.pure]
      have hdata : ∀ i, s'.1.data i = (((if i ∈ slots m then some (R i).1 else none : Option (Node T × Bool))).map (·.1)).getD .nil := by
        intro i
        have := congrArg Prod.fst (hd i)
        simp only at this
        rw [this]
        by_cases hi : m.getLsbD i = true
        · rw [if_pos hi, if_pos (mem_slots.2 hi)]; rfl
        · rw [if_neg hi, if_neg (fun h => hi (mem_slots.1 h))]; rfl
      have hsame : ∀ i, (if i ∈ slots m then some (R i).1 else none : Option (Node T × Bool)).elim (k i).isNil (·.2) = s'.2 i := by
        intro i
        have := congrArg Prod.snd (hd i)
        simp only at this
        rw [this]
        by_cases hi : m.getLsbD i = true
        · rw [if_pos hi, if_pos (mem_slots.2 hi)]; rfl
        · rw [if_neg hi, if_neg (fun h => hi (mem_slots.1 h))]; rfl
      rw [packed_updateMask pm _ s'.1 hdata] at hk
      simp only [hsame] at hk
      by_cases hc : s'.1.updateMask.mask = m ∧ ((List.finRange 8).all fun i => s'.2 i) = true
      · rw [if_pos hc] at hk
        cases hk
        refine ⟨rfl, ?_⟩
        rw [if_pos hc]
      · rw [if_neg hc] at hk
        obtain ⟨r, hr, rfl⟩ := map_ok hk
        refine ⟨rfl, ?_⟩
        rw [if_neg hc, hr]
    · simp only [if_neg hg] at h
      obtain ⟨q, h1, h2⟩ := map_ok h
      subst h2; exact ⟨rfl, h1⟩

theorem noPanic_map {α β : Type} {r : Go α} {f : α → β} {o} (h : r = .ok o) : ∃ b, r.map f = .ok b := by
  subst h; exact ⟨_, rfl⟩

theorem noPanic_whereC (g : Int) (P : T → Bool) : ∀ (n : Node T) (d : Nat) o, MasksOk n →
    «where» P n d = .ok o → NoPanic (whereC g P n d)
  | .nil, d, o, _, h => by cases h
  | .leaf1 a, d, o, _, h => noPanic_map h
  | .leaf2 a b, d, o, _, h => noPanic_map h
  | .twig l, d, o, _, h => noPanic_map h
  | .branch m k, d, o, hm, h => by
    unfold whereC
    by_cases hg : (d : Int) < g
    · simp only [if_pos hg]
      refine ⟨?_, ?_⟩
      · intro i hi
        simp only [«where», bind, Except.bind] at h
        split at h
        · cases h
        rename_i v hv
        have := parallel_ok (by
          intro i s s' b m hf
          split at hf
          · cases hf
          · cases hf; rfl) hm.1 hv i hi
        obtain ⟨s, o', ho'⟩ := this
        cases hc : «where» P (k i) (d + 1) with
        | ok q => exact noPanic_whereC g P _ _ q (hm.2 i) hc
        | error e => rw [hc] at ho'; cases ho'
      · intro pm slots ok ms
        dsimp only
        split
        · exact ⟨_, rfl⟩
        · obtain ⟨r, hr⟩ := branchCanonical_ok (packed pm (fun i => (slots i).map (·.1))).updateMask
          exact ⟨_, by rw [hr]; rfl⟩
    · simp only [if_neg hg]
      exact noPanic_map h

/-! ### Reduce -/

omit [GoKey T]

theorem out_reduceC [Inhabited T] (g : Int) (f : List T → T) : ∀ (n : Node T) (d : Nat) o, MasksOk n →
    Out (reduceC g f n d) o → o.2.1 = true ∧ reduce f n = .ok o.1
  | .nil, d, o, _, h => by cases h
  | .leaf1 a, d, o, _, h => by
    obtain ⟨q, h1, h2⟩ := map_ok h
    subst h2; exact ⟨rfl, h1⟩
  | .leaf2 a b, d, o, _, h => by
    obtain ⟨q, h1, h2⟩ := map_ok h
    subst h2; exact ⟨rfl, h1⟩
  | .twig l, d, o, _, h => by
    obtain ⟨q, h1, h2⟩ := map_ok h
    subst h2; exact ⟨rfl, h1⟩
  | .branch m k, d, o, hm, h => by
    unfold reduceC at h
    by_cases hg : (d : Int) < g
    · simp only [if_pos hg] at h
      obtain ⟨R, hR, pm, hk⟩ := out_par h (fun i _ q hq => (out_reduceC g f (k i) (d + 1) q (hm.2 i) hq).1)
      rw [indices_eq_slots hm.1] at hR hk
      obtain ⟨s', hp, hd⟩ := parallel_write (σ := Fin 8 → T) (α := T) (fun s => s)
        (fun i res => do
          let x ← reduce f (k i)
          pure (setSlot res i x, true, 0)) (fun i => ((R i).1, 0)) hm.1 (by
          intro i hi s
          have := (out_reduceC g f (k i) (d + 1) (R i) (hm.2 i) (hR i (mem_slots.2 hi))).2
          refine ⟨setSlot s i (R i).1, ?_, ?_⟩
          · rw [this]; rfl
          · intro j; rfl) (fun _ => default)
      rw [reduce, hp]
      have he : (fun i : Nat => if h : i < 8 then (.ok (((if (⟨i, h⟩ : Fin 8) ∈ slots m then some (R ⟨i, h⟩).1 else none).getD default) : T) : Go T)
          else .error (.msg "index out of range")) =
          (fun i : Nat => if h : i < 8 then (.ok (s' ⟨i, h⟩) : Go T) else .error (.msg "index out of range")) := by
        funext i
        split
        · rename_i hi
          rw [hd ⟨i, hi⟩]
          by_cases hb : m.getLsbD i = true
          · rw [if_pos hb, if_pos (mem_slots.2 hb)]; rfl
          · rw [if_neg hb, if_neg (fun h => hb (mem_slots.1 h))]; rfl
        · rfl
      simp only at hk
      rw [he, mapM_slots hm.1 s'] at hk
      cases hk
      refine ⟨rfl, ?_⟩
      simp only [bind, Except.bind]
      rw [mapM_slots hm.1 s']
      rfl
    · simp only [if_neg hg] at h
      obtain ⟨q, h1, h2⟩ := map_ok h
      subst h2; exact ⟨rfl, h1⟩

theorem noPanic_reduceC [Inhabited T] (g : Int) (f : List T → T) : ∀ (n : Node T) (d : Nat) o, MasksOk n →
    reduce f n = .ok o → NoPanic (reduceC g f n d)
  | .nil, d, o, _, h => by cases h
  | .leaf1 a, d, o, _, h => noPanic_map h
  | .leaf2 a b, d, o, _, h => noPanic_map h
  | .twig l, d, o, _, h => noPanic_map h
  | .branch m k, d, o, hm, h => by
    unfold reduceC
    by_cases hg : (d : Int) < g
    · simp only [if_pos hg]
      refine ⟨?_, ?_⟩
      · intro i hi
        simp only [reduce, bind, Except.bind] at h
        split at h
        · cases h
        rename_i v hv
        have := parallel_ok (by
          intro i s s' b m hf
          split at hf
          · cases hf
          · cases hf; rfl) hm.1 hv i hi
        obtain ⟨s, o', ho'⟩ := this
        cases hc : reduce f (k i) with
        | ok q => exact noPanic_reduceC g f _ _ q (hm.2 i) hc
        | error e => rw [hc] at ho'; cases ho'
      · intro pm slots ok ms
        dsimp only
        rw [mapM_slots hm.1 (fun i => (slots i).getD default)]
        exact ⟨_, rfl⟩
    · simp only [if_neg hg]
      exact noPanic_map h

/-! ### Equal, SubsetOf -/

/-- Closures that return a Boolean: if each one's outcome is determined, so is that of the call. -/
theorem out_all {m : Masker} (hm : MaskOk m) {body : Fin 8 → Comp Unit} {f : Fin 8 → Unit → Go (Unit × Bool × Int)} {b : Fin 8 → Bool}
    (hf : ∀ i ∈ m.indices, f i () = .ok ((), b i, 0)) (hbody : ∀ i ∈ m.indices, ∀ q, Out (body i) q → q.2.1 = b i) {o}
    (h : Out (.par m body (fun _ => false) (fun _ _ ok _ => .ok ((), ok, 0))) o) :
    (do let (_, ok, _) ← parallel m () f; pure ok : Go Bool) = .ok o.2.1 := by
  rw [indices_eq_slots hm] at hf hbody
  rw [parallel_all f b hm (fun i hi => hf i (mem_slots.2 hi))]
  simp only [bind, Except.bind, pure, Except.pure]
  congr 1
  rcases h with ⟨R, h1, pm, h2⟩ | ⟨i, hi, q, h1, h2, pm, sl, ms, h3⟩
  · cases h2
    rw [indices_eq_slots hm] at h1
    rw [List.all_eq_true]
    intro i hi
    rw [← hbody i hi _ (h1 i hi).1]
    exact (h1 i hi).2
  · cases h3
    rw [indices_eq_slots hm] at hi
    rw [List.all_eq_false]
    exact ⟨i, hi, by rw [← hbody i hi q h1, h2]; simp⟩

theorem out_seqBool {r : Go Bool} {o} (h : Out (seqBool r) o) : r = .ok o.2.1 := by
  obtain ⟨q, h1, h2⟩ := map_ok h
  subst h2; exact h1

variable [GoKey T] [LawfulGoKey T]

theorem equalC_seq (g : Int) {eqv : T → T → Bool} (he : ∀ a b, eqv a b = true → GoKey.eq a b = true) (n1 : Node T) (d : Nat)
    (n2 : Node T) (w1 : WF d n1) (h1 : n1.isNil = false) (w2 : WF d n2) (h2 : n2.isNil = false)
    (h : equalC g eqv n1 n2 d = seqBool (equal eqv n1 n2)) :
    NoPanic (equalC g eqv n1 n2 d) ∧ ∀ o, Out (equalC g eqv n1 n2 d) o → equal eqv n1 n2 = .ok o.2.1 := by
  rw [h]
  refine ⟨?_, fun o ho => out_seqBool ho⟩
  obtain ⟨r, hr, _⟩ := equal_spec he n1 d n2 w1 h1 w2 h2
  exact noPanic_map hr

theorem equalC_spec (g : Int) {eqv : T → T → Bool} (he : ∀ a b, eqv a b = true → GoKey.eq a b = true) :
    ∀ (n1 : Node T) (d : Nat) (n2 : Node T), WF d n1 → n1.isNil = false → WF d n2 → n2.isNil = false →
    NoPanic (equalC g eqv n1 n2 d) ∧ ∀ o, Out (equalC g eqv n1 n2 d) o → equal eqv n1 n2 = .ok o.2.1
  | .nil, _, _, _, h, _, _ => by cases h
  | .leaf1 _, d, n2, w1, h1, w2, h2 => equalC_seq g he _ d n2 w1 h1 w2 h2 rfl
  | .leaf2 _ _, d, n2, w1, h1, w2, h2 => equalC_seq g he _ d n2 w1 h1 w2 h2 rfl
  | .twig _, d, n2, w1, h1, w2, h2 => equalC_seq g he _ d n2 w1 h1 w2 h2 rfl
  | .branch m k, d, .nil, w1, h1, w2, h2 => by cases h2
  | .branch m k, d, .leaf1 _, w1, h1, w2, h2 => equalC_seq g he _ d _ w1 h1 w2 h2 rfl
  | .branch m k, d, .leaf2 _ _, w1, h1, w2, h2 => equalC_seq g he _ d _ w1 h1 w2 h2 rfl
  | .branch m k, d, .twig _, w1, h1, w2, h2 => equalC_seq g he _ d _ w1 h1 w2 h2 rfl
  | .branch m k, d, .branch m2 k2, w1, h1, w2, h2 => by
    by_cases hm : m = m2
    · subst hm
      by_cases hg : (d : Int) < g
      · have hs := (WF_branch.1 w1).1
        have hs2 := (WF_branch.1 w2).1
        have hnn : ∀ i ∈ m.indices, (k i).isNil = false ∧ (k2 i).isNil = false := by
          intro i hi
          rw [mem_indices] at hi
          have g1 := mask_bit hs i
          have g2 := mask_bit hs2 i
          rw [hi] at g1 g2
          exact ⟨by simpa using g1.symm, by simpa using g2.symm⟩
        have ih : ∀ i ∈ m.indices, NoPanic (equalC g eqv (k i) (k2 i) (d + 1)) ∧
            ∀ o, Out (equalC g eqv (k i) (k2 i) (d + 1)) o → equal eqv (k i) (k2 i) = .ok o.2.1 := fun i hi =>
          equalC_spec g he (k i) (d + 1) (k2 i) (hs.2.2.1 i) (hnn i hi).1 (hs2.2.2.1 i) (hnn i hi).2
        have ht : ∀ i, ∃ b, i ∈ m.indices → equal eqv (k i) (k2 i) = .ok b := by
          intro i
          by_cases hi : i ∈ m.indices
          · obtain ⟨r, hr, _⟩ := equal_spec he (k i) (d + 1) (k2 i) (hs.2.2.1 i) (hnn i hi).1 (hs2.2.2.1 i) (hnn i hi).2
            exact ⟨r, fun _ => hr⟩
          · exact ⟨true, fun h => absurd h hi⟩
        choose b hb using ht
        unfold equalC
        simp only [ne_eq, not_true_eq_false, if_false, if_pos hg]
        refine ⟨⟨fun i hi => (ih i hi).1, fun _ _ _ _ => ⟨_, rfl⟩⟩, ?_⟩
        intro o ho
        simp only [equal, ne_eq, not_true_eq_false, if_false]
        refine out_all (maskOk_wf hs) (b := b) ?_ ?_ ho
        · intro i hi; rw [hb i hi]; rfl
        · intro i hi q hq
          have := (ih i hi).2 q hq
          rw [hb i hi] at this
          exact (Except.ok.inj this).symm
      · apply equalC_seq g he _ d _ w1 h1 w2 h2
        unfold equalC
        simp only [ne_eq, not_true_eq_false, if_false, if_neg hg]
    · apply equalC_seq g he _ d _ w1 h1 w2 h2
      unfold equalC equal
      simp only [ne_eq, hm, not_false_eq_true, if_true]

theorem subsetOfC_seq (g : Int) (n1 : Node T) (d : Nat)
    (n2 : Node T) (w1 : WF d n1) (h1 : n1.isNil = false) (w2 : WF d n2) (h2 : n2.isNil = false)
    (h : subsetOfC g n1 n2 d = seqBool (subsetOf n1 n2 d)) :
    NoPanic (subsetOfC g n1 n2 d) ∧ ∀ o, Out (subsetOfC g n1 n2 d) o → subsetOf n1 n2 d = .ok o.2.1 := by
  rw [h]
  exact ⟨noPanic_map (subsetOf_spec n1 d n2 w1 h1 w2 h2), fun o ho => out_seqBool ho⟩

theorem subsetOfC_spec (g : Int) :
    ∀ (n1 : Node T) (d : Nat) (n2 : Node T), WF d n1 → n1.isNil = false → WF d n2 → n2.isNil = false →
    NoPanic (subsetOfC g n1 n2 d) ∧ ∀ o, Out (subsetOfC g n1 n2 d) o → subsetOf n1 n2 d = .ok o.2.1
  | .nil, _, _, _, h, _, _ => by cases h
  | .leaf1 _, d, n2, w1, h1, w2, h2 => subsetOfC_seq g _ d n2 w1 h1 w2 h2 rfl
  | .leaf2 _ _, d, n2, w1, h1, w2, h2 => subsetOfC_seq g _ d n2 w1 h1 w2 h2 rfl
  | .twig _, d, n2, w1, h1, w2, h2 => subsetOfC_seq g _ d n2 w1 h1 w2 h2 rfl
  | .branch m k, d, .nil, w1, h1, w2, h2 => by cases h2
  | .branch m k, d, .leaf1 _, w1, h1, w2, h2 => subsetOfC_seq g _ d _ w1 h1 w2 h2 rfl
  | .branch m k, d, .leaf2 _ _, w1, h1, w2, h2 => subsetOfC_seq g _ d _ w1 h1 w2 h2 rfl
  | .branch m k, d, .twig _, w1, h1, w2, h2 => subsetOfC_seq g _ d _ w1 h1 w2 h2 rfl
  | .branch m k, d, .branch m2 k2, w1, h1, w2, h2 => by
    by_cases hg : (d : Int) < g
    · have hs := (WF_branch.1 w1).1
      have hs2 := (WF_branch.1 w2).1
      have ih : ∀ i, (k i).isNil = false → (k2 i).isNil = false → NoPanic (subsetOfC g (k i) (k2 i) (d + 1)) ∧
          ∀ o, Out (subsetOfC g (k i) (k2 i) (d + 1)) o → subsetOf (k i) (k2 i) (d + 1) = .ok o.2.1 := fun i h1 h2 =>
        subsetOfC_spec g (k i) (d + 1) (k2 i) (hs.2.2.1 i) h1 (hs2.2.2.1 i) h2
      unfold subsetOfC
      simp only [if_pos hg]
      refine ⟨⟨?_, fun _ _ _ _ => ⟨_, rfl⟩⟩, ?_⟩
      · intro i hi
        by_cases c1 : (k i).isNil = true
        · simp only [c1, if_true]; exact ⟨_, rfl⟩
        by_cases c2 : (k2 i).isNil = true
        · simp only [c1, c2, if_true, if_false, Bool.false_eq_true]; exact ⟨_, rfl⟩
        simp only [c1, c2, if_false, Bool.false_eq_true]
        exact (ih i (by simpa using c1) (by simpa using c2)).1
      intro o ho
      simp only [subsetOf]
      refine out_all ((maskOk_wf hs).or (maskOk_wf hs2))
        (b := fun i => if (k i).isNil then true else if (k2 i).isNil then false else (elems (k i)).all fun e => (look (k2 i) e).isSome) ?_ ?_ ho
      · intro i hi
        by_cases c1 : (k i).isNil = true
        · simp only [c1, if_true]; rfl
        by_cases c2 : (k2 i).isNil = true
        · simp only [c1, c2, if_true, if_false, Bool.false_eq_true]; rfl
        simp only [c1, c2, if_false, Bool.false_eq_true]
        rw [subsetOf_spec (k i) (d + 1) (k2 i) (hs.2.2.1 i) (by simpa using c1) (hs2.2.2.1 i) (by simpa using c2)]
        rfl
      · intro i hi q hq
        by_cases c1 : (k i).isNil = true
        · simp only [c1, if_true] at hq ⊢; cases hq; rfl
        by_cases c2 : (k2 i).isNil = true
        · simp only [c1, c2, if_true, if_false, Bool.false_eq_true] at hq ⊢; cases hq; rfl
        simp only [c1, c2, if_false, Bool.false_eq_true] at hq ⊢
        have := (ih i (by simpa using c1) (by simpa using c2)).2 q hq
        rw [subsetOf_spec (k i) (d + 1) (k2 i) (hs.2.2.1 i) (by simpa using c1) (hs2.2.2.1 i) (by simpa using c2)] at this
        exact (Except.ok.inj this).symm
    · apply subsetOfC_seq g _ d _ w1 h1 w2 h2
      unfold subsetOfC
      simp only [if_neg hg]

/-! ### Trees -/

theorem Tree.combineC_behaves (g : Int) {t u : Tree T} (ht : t.Valid) (hu : u.Valid) (args : CombineArgs T) :
    (t.combineC g args u).Behaves (t.combine args u) := by
  unfold Tree.combineC Tree.combine
  by_cases h1 : t.root.isNil = true
  · simp only [h1, if_true]; exact Call.behaves_seq _
  by_cases h2 : u.root.isNil = true
  · simp only [h1, h2, if_true, if_false, Bool.false_eq_true]; exact Call.behaves_seq _
  simp only [h1, h2, if_false, Bool.false_eq_true]
  apply Call.behaves_run
  · intro o ho
    rw [(out_combineC g _ _ _ _ o ht.wf.masksOk hu.wf.masksOk ho).2]; rfl
  · intro a ha
    cases hc : Frozen.combine t.root args u.root 0 with
    | ok q => exact noPanic_combineC g _ _ _ _ q ht.wf.masksOk hu.wf.masksOk hc
    | error e => rw [hc] at ha; cases ha

theorem Tree.differenceC_behaves (g : Int) {t u : Tree T} (ht : t.Valid) :
    (t.differenceC g u).Behaves (t.difference u) := by
  unfold Tree.differenceC Tree.difference
  by_cases h1 : (t.root.isNil || u.root.isNil) = true
  · simp only [h1, if_true]; exact Call.behaves_seq _
  simp only [h1, if_false, Bool.false_eq_true]
  apply Call.behaves_run
  · intro o ho
    rw [(out_differenceC g _ _ _ o ht.wf.masksOk ho).2]; rfl
  · intro a ha
    cases hc : Frozen.difference t.root u.root 0 with
    | ok q => exact noPanic_differenceC g _ _ _ q ht.wf.masksOk hc
    | error e => rw [hc] at ha; cases ha

theorem Tree.intersectionC_behaves (g : Int) {t u : Tree T} (ht : t.Valid) (hu : u.Valid) :
    (t.intersectionC g u).Behaves (t.intersection u) := by
  unfold Tree.intersectionC Tree.intersection
  by_cases h1 : (t.root.isNil || u.root.isNil) = true
  · simp only [h1, if_true]; exact Call.behaves_seq _
  simp only [h1, if_false, Bool.false_eq_true]
  have key : ∀ a b : Tree T, a.Valid → (Call.run (Frozen.intersectionC g a.root b.root 0) (fun r => .ok (⟨r.1, r.2.2⟩ : Tree T))).Behaves
      (do let (root, ms) ← Frozen.intersection a.root b.root 0; pure ⟨root, ms⟩) := by
    intro a b ha
    apply Call.behaves_run
    · intro o ho
      rw [(out_intersectionC g _ _ _ o ha.wf.masksOk ho).2]; rfl
    · intro x hx
      cases hc : Frozen.intersection a.root b.root 0 with
      | ok q => exact noPanic_intersectionC g _ _ _ q ha.wf.masksOk hc
      | error e => rw [hc] at hx; cases hx
  by_cases hc : t.count > u.count
  · simp only [if_pos hc]; exact key u t hu
  · simp only [if_neg hc]; exact key t u ht

theorem Tree.whereC_behaves (g : Int) {t : Tree T} (ht : t.Valid) (P : T → Bool) :
    (t.whereC g P).Behaves (t.where P) := by
  unfold Tree.whereC Tree.where
  by_cases h1 : t.root.isNil = true
  · simp only [h1, if_true]; exact Call.behaves_seq _
  simp only [h1, if_false, Bool.false_eq_true]
  apply Call.behaves_run
  · intro o ho
    rw [(out_whereC g P _ _ o ht.wf.masksOk ho).2]; rfl
  · intro a ha
    cases hc : Frozen.where P t.root 0 with
    | ok q => exact noPanic_whereC g P _ _ q ht.wf.masksOk hc
    | error e => rw [hc] at ha; cases ha

theorem Tree.reduceC_behaves [Inhabited T] (g : Int) {t : Tree T} (ht : t.Valid) (f : List T → T) :
    (t.reduceC g f).Behaves (t.reduce f) := by
  unfold Tree.reduceC Tree.reduce
  by_cases h1 : t.root.isNil = true
  · simp only [h1, if_true]; exact Call.behaves_seq _
  simp only [h1, if_false, Bool.false_eq_true]
  apply Call.behaves_run
  · intro o ho
    rw [(out_reduceC g f _ _ o ht.wf.masksOk ho).2]; rfl
  · intro a ha
    cases hc : Frozen.reduce f t.root with
    | ok q => exact noPanic_reduceC g f _ _ q ht.wf.masksOk hc
    | error e => rw [hc] at ha; cases ha

theorem Tree.Valid.root_nonNil {t : Tree T} (ht : t.Valid) (h : t.count ≠ 0) : t.root.isNil = false := by
  cases hn : t.root.isNil with
  | false => rfl
  | true =>
    exfalso
    apply h
    rw [ht.count_eq, Tree.list, isNil_iff.1 hn]; rfl

theorem Tree.equalC_behaves (g : Int) {t u : Tree T} (ht : t.Valid) (hu : u.Valid) {eqv : T → T → Bool}
    (he : ∀ a b, eqv a b = true → GoKey.eq a b = true) : (t.equalC g eqv u).Behaves (t.equal eqv u) := by
  unfold Tree.equalC Tree.equal
  by_cases h1 : t.count = u.count
  · by_cases h0 : t.count = 0 ∧ u.count = 0
    · simp only [ne_eq, h1, not_true_eq_false, if_false]
      rw [← h1]
      simp only [h0.1, and_self, if_true]; exact Call.behaves_seq _
    · simp only [ne_eq, h1, not_true_eq_false, if_false]
      rw [← h1]
      have h0' : t.count ≠ 0 := by intro h; exact h0 ⟨h, h1 ▸ h⟩
      simp only [h0', and_self, if_false]
      have hspec := equalC_spec g he t.root 0 u.root ht.wf (ht.root_nonNil h0') hu.wf (hu.root_nonNil (h1 ▸ h0'))
      exact Call.behaves_run (fun o ho => hspec.2 o ho) (fun _ _ => hspec.1)
  · simp only [ne_eq, h1, not_false_eq_true, if_true]; exact Call.behaves_seq _

theorem Tree.subsetOfC_behaves (g : Int) {t u : Tree T} (ht : t.Valid) (hu : u.Valid) :
    (t.subsetOfC g u).Behaves (t.subsetOf u) := by
  unfold Tree.subsetOfC Tree.subsetOf
  by_cases h1 : t.root.isNil = true
  · simp only [h1, if_true]; exact Call.behaves_seq _
  by_cases h2 : u.root.isNil = true
  · simp only [h1, h2, if_true, if_false, Bool.false_eq_true]; exact Call.behaves_seq _
  simp only [h1, h2, if_false, Bool.false_eq_true]
  have hspec := subsetOfC_spec g t.root 0 u.root ht.wf (by simpa using h1) hu.wf (by simpa using h2)
  exact Call.behaves_run (fun o ho => hspec.2 o ho) (fun _ _ => hspec.1)

end Frozen
