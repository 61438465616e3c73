import Verif.Model.MemCompare
import Verif.Proof.MemHistory

/-! `Equal` and `SubsetOf` in memory answer what they answer on values, and write nothing. -/

set_option linter.unusedSectionVars false

namespace Frozen

variable {T : Type}

theorem run_bind_go {α β : Type} {x : MM T α} {f : α → MM T β} {H : Mem T} {v : Go α} {g : α → Go β} (h : x H = (v, H))
    (hf : ∀ a, f a H = (g a, H)) : (x >>= f) H = (v >>= g, H) := by
  rw [MM.run_andThen, h]
  cases v with
  | error e => rfl
  | ok a => exact hf a

theorem readPtr_at {H : Mem T} {b : Nat} {c : Cell T} (h : H.cells[b]? = some c) : readPtr (some b) H = (.ok (some c), H) := by
  show (readCell b >>= fun c => pure (some c)) H = _
  rw [run_bind (readCell_eq h)]
  rfl

theorem allP_run {f : T → MM T Bool} {g : T → Go Bool} {H : Mem T} (h : ∀ e, f e H = (g e, H)) : ∀ l : List T, allP f l H = (l.allM g, H)
  | [] => rfl
  | e :: es => by
    unfold allP
    rw [List.allM]
    refine run_bind_go (h e) (fun b => ?_)
    cases b with
    | true => exact allP_run h es
    | false => rfl

theorem allM_ok (p : T → Bool) : ∀ l : List T, l.allM (fun e => (Except.ok (p e) : Go Bool)) = .ok (l.all p)
  | [] => rfl
  | e :: es => by
    rw [List.allM, List.all_cons]
    cases hp : p e with
    | true => exact allM_ok p es
    | false => rfl

/-- Bodies that change nothing. -/
theorem parallelLoopM_run {f : Fin 8 → MM T (Bool × Int)} {g : Fin 8 → Unit → Go (Unit × Bool × Int)} {H : Mem T}
    (h : ∀ i, f i H = ((g i ()).map (·.2), H)) : ∀ (is : List Nat) (ms : Int),
    parallelLoopM f is ms H = ((parallelLoop g is () ms).map (·.2), H)
  | [], ms => rfl
  | i :: is, ms => by
    unfold parallelLoopM parallelLoop
    by_cases hi : i < 8
    · simp only [dif_pos hi]
      rw [MM.run_andThen, h ⟨i, hi⟩]
      cases hg : g ⟨i, hi⟩ () with
      | error e => rfl
      | ok t =>
        obtain ⟨u, ok, m⟩ := t
        cases ok with
        | false => rfl
        | true => exact parallelLoopM_run h is (ms + m)
    · simp only [dif_neg hi]; rfl

theorem equalP_eq (eq : T → T → Bool) {H : Mem T} {F : Set Loc} {d : Nat} {p : Ptr} {n : Node T} (h : Rep H F d p n) :
    ∀ {F' : Set Loc} {q : Ptr} {n' : Node T} (fuel : Nat), Rep H F' d q n' → FuelOk d fuel →
      Frozen.equalP eq fuel p q H = (equal eq n n', H) := by
  induction h with
  | nil d => intro F' q n' fuel _ hf; obtain ⟨f, rfl⟩ := Nat.exists_eq_succ_of_ne_zero hf.2.ne'; rfl
  | @leaf1 d a x hx _ =>
    intro F' q n' fuel hq hf
    obtain ⟨f, rfl⟩ := Nat.exists_eq_succ_of_ne_zero hf.2.ne'
    unfold Frozen.equalP
    rw [run_bind (readCell_eq hx)]
    cases hq with
    | nil => rfl
    | leaf1 hy _ => simp only; rw [run_bind (readPtr_at hy)]; rfl
    | leaf2 hy _ => simp only; rw [run_bind (readPtr_at hy)]; rfl
    | twig _ hy _ _ _ _ _ _ => simp only; rw [run_bind (readPtr_at hy)]; rfl
    | branch _ hy _ _ => simp only; rw [run_bind (readPtr_at hy)]; rfl
  | @leaf2 d a x y hx _ =>
    intro F' q n' fuel hq hf
    obtain ⟨f, rfl⟩ := Nat.exists_eq_succ_of_ne_zero hf.2.ne'
    unfold Frozen.equalP
    rw [run_bind (readCell_eq hx)]
    cases hq with
    | nil => rfl
    | leaf1 hy _ => simp only; rw [run_bind (readPtr_at hy)]; rfl
    | leaf2 hy _ => simp only; rw [run_bind (readPtr_at hy)]; rfl
    | twig _ hy _ _ _ _ _ _ => simp only; rw [run_bind (readPtr_at hy)]; rfl
    | branch _ hy _ _ => simp only; rw [run_bind (readPtr_at hy)]; rfl
  | @twig d a s la l hd hx _ ha _ h3 hl hs =>
    intro F' q n' fuel hq hf
    obtain ⟨f, rfl⟩ := Nat.exists_eq_succ_of_ne_zero hf.2.ne'
    unfold Frozen.equalP
    rw [run_bind (readCell_eq hx)]
    cases hq with
    | nil => rfl
    | leaf1 hy _ => simp only; rw [run_bind (readPtr_at hy)]; rfl
    | leaf2 hy _ => simp only; rw [run_bind (readPtr_at hy)]; rfl
    | @twig _ _ s' la' l' _ hy _ ha' _ _ hl' hs' =>
      simp only
      rw [run_bind (readPtr_at hy)]
      have e1 : l.length = s.len := by rw [← hs, List.length_take]; omega
      have e2 : l'.length = s'.len := by rw [← hs', List.length_take]; omega
      simp only [equal, e1, e2]
      by_cases hne : s.len = s'.len
      · simp only [hne, ne_eq, not_true_eq_false, if_false]
        rw [run_bind (readSlice_eq ha hl), hs]
        rw [allP_run (g := fun e => .ok (l'.any (fun f => eq e f))) (fun e => by
          rw [run_bind (readSlice_eq ha' hl'), hs']; rfl), allM_ok]
      · simp only [hne, ne_eq, not_false_eq_true, if_true]; rfl
    | branch _ hy _ _ => simp only; rw [run_bind (readPtr_at hy)]; rfl
  | @branch d a m k kn hd hx _ hk ih =>
    intro F' q n' fuel hq hf
    obtain ⟨f, rfl⟩ := Nat.exists_eq_succ_of_ne_zero hf.2.ne'
    unfold Frozen.equalP
    rw [run_bind (readCell_eq hx)]
    cases hq with
    | nil => rfl
    | leaf1 hy _ => simp only; rw [run_bind (readPtr_at hy)]; rfl
    | leaf2 hy _ => simp only; rw [run_bind (readPtr_at hy)]; rfl
    | twig _ hy _ _ _ _ _ _ => simp only; rw [run_bind (readPtr_at hy)]; rfl
    | @branch _ _ m' k' kn' _ hy _ hk' =>
      simp only
      rw [run_bind (readPtr_at hy)]
      simp only [equal]
      by_cases hm : m = m'
      · subst hm
        simp only [ne_eq, not_true_eq_false, if_false]
        have hloop := parallelLoopM_run (H := H) (f := fun i => Frozen.equalP eq f (k i) (k' i) >>= fun r => (pure (r, (0 : Int)) : MM T _))
          (g := fun i _ => do
            let r ← equal eq (kn i) (kn' i)
            pure ((), r, 0)) (fun i => by
              rw [MM.run_andThen, ih i f (hk' i) (hf.succ hd)]
              cases equal eq (kn i) (kn' i) <;> rfl) (bitLoop m) 0
        rw [MM.run_andThen]
        unfold parallelM parallel
        rw [hloop]
        cases parallelLoop _ (bitLoop m) () 0 <;> rfl
      · simp only [hm, ne_eq, not_false_eq_true, if_true]; rfl

variable [GoKey T]

theorem subsetOfP_eq {H : Mem T} {F : Set Loc} {d : Nat} {p : Ptr} {n : Node T} (h : Rep H F d p n) :
    ∀ {F' : Set Loc} {q : Ptr} {n' : Node T} (fuel : Nat), Rep H F' d q n' → FuelOk d fuel →
      Frozen.subsetOfP fuel p q d H = (subsetOf n n' d, H) := by
  have get1 : ∀ {F' : Set Loc} {q : Ptr} {n' : Node T} {d : Nat} (v : T) (hh : Hasher), Rep H F' d q n' →
      getP memFuel q v hh H = (get n' v hh, H) := fun v hh hq => by
    rw [getP_run, getM_eq hq memFuel v hh (fuelOk_mem _)]
  induction h with
  | nil d => intro F' q n' fuel _ hf; obtain ⟨f, rfl⟩ := Nat.exists_eq_succ_of_ne_zero hf.2.ne'; rfl
  | @leaf1 d a x hx _ =>
    intro F' q n' fuel hq hf
    obtain ⟨f, rfl⟩ := Nat.exists_eq_succ_of_ne_zero hf.2.ne'
    unfold Frozen.subsetOfP
    rw [run_bind (readCell_eq hx)]
    exact run_bind_go (get1 _ _ hq) (fun _ => rfl)
  | @leaf2 d a x y hx _ =>
    intro F' q n' fuel hq hf
    obtain ⟨f, rfl⟩ := Nat.exists_eq_succ_of_ne_zero hf.2.ne'
    unfold Frozen.subsetOfP
    rw [run_bind (readCell_eq hx)]
    refine run_bind_go (get1 _ _ hq) (fun g => ?_)
    cases g with
    | none => rfl
    | some _ => exact run_bind_go (get1 _ _ hq) (fun _ => rfl)
  | @twig d a s la l hd hx _ ha _ h3 hl hs =>
    intro F' q n' fuel hq hf
    obtain ⟨f, rfl⟩ := Nat.exists_eq_succ_of_ne_zero hf.2.ne'
    unfold Frozen.subsetOfP
    rw [run_bind (readCell_eq hx)]
    simp only
    rw [run_bind (readSlice_eq ha hl), hs]
    exact allP_run (fun e => run_bind_go (get1 _ _ hq) (fun _ => rfl)) l
  | @branch d a m k kn hd hx _ hk ih =>
    intro F' q n' fuel hq hf
    obtain ⟨f, rfl⟩ := Nat.exists_eq_succ_of_ne_zero hf.2.ne'
    unfold Frozen.subsetOfP
    rw [run_bind (readCell_eq hx)]
    cases hq with
    | nil => rfl
    | leaf1 hy _ => simp only; rw [run_bind (readPtr_at hy)]; rfl
    | leaf2 hy _ => simp only; rw [run_bind (readPtr_at hy)]; rfl
    | twig _ hy _ _ _ _ _ _ => simp only; rw [run_bind (readPtr_at hy)]; rfl
    | @branch _ _ m' k' kn' _ hy _ hk' =>
      simp only
      rw [run_bind (readPtr_at hy)]
      simp only [subsetOf]
      have hloop := parallelLoopM_run (H := H)
        (f := fun i => if (k i).isNone then pure (true, 0) else if (k' i).isNone then pure (false, 0)
          else Frozen.subsetOfP f (k i) (k' i) (d + 1) >>= fun r => (pure (r, (0 : Int)) : MM T _))
        (g := fun i _ => if (kn i).isNil then pure ((), true, 0) else if (kn' i).isNil then pure ((), false, 0)
          else do
            let r ← subsetOf (kn i) (kn' i) (d + 1)
            pure ((), r, 0)) (fun i => by
              rw [(hk i).isNone, (hk' i).isNone]
              cases (kn i).isNil with
              | true => rfl
              | false =>
                cases (kn' i).isNil with
                | true => rfl
                | false =>
                  simp only [Bool.false_eq_true, if_false]
                  rw [MM.run_andThen, ih i f (hk' i) (hf.succ hd)]
                  cases subsetOf (kn i) (kn' i) (d + 1) <;> rfl) (bitLoop (m ||| m')) 0
      rw [MM.run_andThen]
      unfold parallelM parallel
      rw [hloop]
      cases parallelLoop _ (bitLoop (m ||| m')) () 0 <;> rfl

theorem MTree.equalP_eq (eq : T → T → Bool) {H : Mem T} {S : Set Loc} {s t : MTree} {n n' : Node T} (h : Rep H S 0 s.root n)
    (h' : Rep H S 0 t.root n') : s.equalP eq t H = ((s.val n).equal eq (t.val n'), H) := by
  unfold MTree.equalP Tree.equal
  show _ = ((if s.count ≠ t.count then _ else if s.count = 0 ∧ t.count = 0 then _ else _), H)
  split
  · rfl
  · split
    · rfl
    · exact Frozen.equalP_eq eq h memFuel h' (fuelOk_mem 0)

theorem MTree.subsetOfP_eq {H : Mem T} {S : Set Loc} {s t : MTree} {n n' : Node T} (h : Rep H S 0 s.root n)
    (h' : Rep H S 0 t.root n') : s.subsetOfP t H = ((s.val n).subsetOf (t.val n'), H) := by
  unfold MTree.subsetOfP Tree.subsetOf
  rw [h.isNone, h'.isNone]
  show _ = ((if n.isNil then _ else if n'.isNil then _ else _), H)
  split
  · rfl
  · split
    · rfl
    · exact Frozen.subsetOfP_eq h memFuel h' (fuelOk_mem 0)

end Frozen
