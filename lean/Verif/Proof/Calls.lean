import Verif.Spec.Calls
import Verif.Proof.SetMore
import Verif.Proof.Reduce

/-! # Callbacks: the models with pure functions are evaluations, and the order of the calls -/

set_option linter.unusedSectionVars false

namespace Frozen

section Basics

variable {Q A R S : Type}

@[simp] theorem CB.pure_def (r : R) : (pure r : CB Q A R) = .done r := rfl

@[simp] theorem CB.bind_def (x : CB Q A R) (g : R → CB Q A S) : (x >>= g) = x.bind g := rfl

@[simp] theorem CB.done_bind (r : R) (g : R → CB Q A S) : (CB.done r).bind g = g r := rfl

@[simp] theorem CB.panic_bind (p : Panic) (g : R → CB Q A S) : (CB.panic p).bind g = .panic p := rfl

@[simp] theorem CB.call_bind (q : Q) (k : A → CB Q A R) (g : R → CB Q A S) : (CB.call q k).bind g = .call q (fun a => (k a).bind g) := rfl

theorem CB.bind_done (x : CB Q A R) : x.bind .done = x := by
  induction x with
  | done r => rfl
  | panic p => rfl
  | call q k ih => simp only [CB.call_bind, ih]

theorem CB.bind_assoc {R' : Type} (x : CB Q A R) (g : R → CB Q A S) (h : S → CB Q A R') :
    (x.bind g).bind h = x.bind (fun r => (g r).bind h) := by
  induction x with
  | done r => rfl
  | panic p => rfl
  | call q k ih => simp only [CB.call_bind, ih]

instance : LawfulMonad (CB Q A) := LawfulMonad.mk' _
  (id_map := fun x => CB.bind_done x)
  (pure_bind := fun _ _ => rfl)
  (bind_assoc := fun x g h => CB.bind_assoc x g h)

@[simp] theorem CB.eval_done (f : Q → A) (r : R) : (CB.done r).eval f = .ok r := rfl

@[simp] theorem CB.eval_panic (f : Q → A) (p : Panic) : (CB.panic p : CB Q A R).eval f = .error p := rfl

@[simp] theorem CB.eval_call (f : Q → A) (q : Q) (k : A → CB Q A R) : (CB.call q k).eval f = (k (f q)).eval f := rfl

@[simp] theorem CB.eval_bind (f : Q → A) (x : CB Q A R) (g : R → CB Q A S) :
    (x.bind g).eval f = (x.eval f).bind (fun r => (g r).eval f) := by
  induction x with
  | done r => rfl
  | panic p => rfl
  | call q k ih => simp only [CB.call_bind, CB.eval_call, ih]

@[simp] theorem CB.eval_lib (f : Q → A) (x : Go R) : (CB.lib x : CB Q A R).eval f = x := by cases x <;> rfl

@[simp] theorem CB.eval_ask (f : Q → A) (q : Q) : (CB.ask q).eval f = .ok (f q) := rfl

theorem CB.eval_ite (f : Q → A) (c : Prop) [Decidable c] (x y : CB Q A R) : (if c then x else y).eval f = if c then x.eval f else y.eval f := by
  split <;> rfl

theorem CB.eval_foldlM {B X : Type} (f : Q → A) (g : B → X → CB Q A B) (g' : B → X → Go B) (h : ∀ b x, (g b x).eval f = g' b x) :
    ∀ (l : List X) (b : B), (l.foldlM g b).eval f = l.foldlM g' b
  | [], _ => rfl
  | x :: l, b => by
    simp only [List.foldlM_cons, CB.bind_def, CB.eval_bind, h]
    show (g' b x).bind _ = (g' b x).bind _
    congr 1; funext b'
    exact CB.eval_foldlM f g g' h l b'

theorem eval_parallelLoopE {σ : Type} (P : Q → A) (f : Fin 8 → σ → CB Q A (σ × Bool × Int)) (f' : Fin 8 → σ → Go (σ × Bool × Int))
    (h : ∀ i s, (f i s).eval P = f' i s) : ∀ (is : List Nat) (s : σ) (ms : Int),
    (parallelLoopE f is s ms).eval P = parallelLoop f' is s ms
  | [], _, _ => rfl
  | i :: is, s, ms => by
    unfold parallelLoopE parallelLoop
    split
    · simp only [CB.bind_def, CB.eval_bind, h]
      show Except.bind _ _ = Except.bind _ _
      congr 1; funext r
      obtain ⟨s', ok, m⟩ := r
      dsimp only
      cases ok
      · rfl
      · exact eval_parallelLoopE P f f' h is s' (ms + m)
    · rfl

theorem eval_parallelE {σ : Type} (P : Q → A) (f : Fin 8 → σ → CB Q A (σ × Bool × Int)) (f' : Fin 8 → σ → Go (σ × Bool × Int))
    (h : ∀ i s, (f i s).eval P = f' i s) (m : Masker) (s : σ) : (parallelE m s f).eval P = parallel m s f' :=
  eval_parallelLoopE P f f' h _ _ _

/-! ## Shapes of calls -/

/-- The calls are on `qs`, in this order, as long as the answers are as `V` says and the library does not panic. -/
def CB.MakesV (V : Q → A → Prop) : List Q → CB Q A R → Prop
  | _, .panic _ => True
  | [], .done _ => True
  | q :: qs, .call q' next => q' = q ∧ ∀ a, V q a → CB.MakesV V qs (next a)
  | _, _ => False

/-- The calls are on `qs`, in this order, as long as the library does not panic. -/
abbrev CB.Makes (qs : List Q) (x : CB Q A R) : Prop := CB.MakesV (fun _ _ => True) qs x

variable {V : Q → A → Prop}

theorem CB.makes_lib (x : Go R) : CB.MakesV V [] (CB.lib x : CB Q A R) := by cases x <;> trivial

theorem CB.makes_ask (q : Q) : CB.MakesV V [q] (CB.ask q : CB Q A A) := ⟨rfl, fun _ _ => trivial⟩

theorem CB.MakesV.bind {x : CB Q A R} {g : R → CB Q A S} : ∀ {qs qs' : List Q}, CB.MakesV V qs x → (∀ r, CB.MakesV V qs' (g r)) →
    CB.MakesV V (qs ++ qs') (x.bind g) := by
  induction x with
  | done r =>
    intro qs qs' h hg
    cases qs with
    | nil => exact hg r
    | cons => exact h.elim
  | panic p =>
    intro qs qs' _ _
    cases qs <;> cases qs' <;> trivial
  | call q k ih =>
    intro qs qs' h hg
    cases qs with
    | nil => exact h.elim
    | cons q' qs => exact ⟨h.1, fun a hv => ih a (h.2 a hv) hg⟩

theorem CB.MakesV.bind' {x : CB Q A R} {g : R → CB Q A S} {qs : List Q} (h : CB.MakesV V qs x) (hg : ∀ r, CB.MakesV V [] (g r)) :
    CB.MakesV V qs (x.bind g) := by simpa using h.bind hg

theorem CB.MakesV.foldlM {B X : Type} {g : B → X → CB Q A B} {q : X → Q} (h : ∀ b x, CB.MakesV V [q x] (g b x)) :
    ∀ (l : List X) (b : B), CB.MakesV V (l.map q) (l.foldlM g b)
  | [], _ => trivial
  | x :: l, b => by
    simp only [List.foldlM_cons, CB.bind_def, List.map_cons]
    exact (h b x).bind (fun b' => CB.MakesV.foldlM h l b')

theorem CB.MakesV.loop {σ : Type} {f : Fin 8 → σ → CB Q A (σ × Bool × Int)} {q : Fin 8 → List Q}
    (h : ∀ i s, CB.MakesV V (q i) (f i s)) (ht : ∀ i s, ∃ g : CB Q A (σ × Int), f i s = g.bind (fun r => .done (r.1, true, r.2))) :
    ∀ (is : List (Fin 8)) (s : σ) (ms : Int), CB.MakesV V (is.flatMap q) (parallelLoopE f (is.map Fin.val) s ms)
  | [], _, _ => trivial
  | i :: is, s, ms => by
    simp only [List.map_cons, parallelLoopE, i.isLt, dite_true, Fin.eta, List.flatMap_cons, CB.bind_def]
    obtain ⟨g, hg⟩ := ht i s
    have h' := h i s
    rw [hg] at h' ⊢
    rw [CB.bind_assoc]
    simp only [CB.done_bind, Bool.not_true, Bool.false_eq_true, if_false]
    have hgm : CB.MakesV V (q i) g := by
      revert h'
      generalize q i = l
      clear hg
      induction g generalizing l with
      | done r => cases l <;> exact id
      | panic p => intro _; cases l <;> trivial
      | call q k ih =>
        cases l with
        | nil => exact id
        | cons => exact fun h => ⟨h.1, fun a hv => ih a _ (h.2 a hv)⟩
    exact hgm.bind (fun r => CB.MakesV.loop h ht is r.1 _)

theorem CB.Makes.eval_congr {x : CB Q A R} {f f' : Q → A} : ∀ {qs : List Q}, CB.Makes qs x → (∀ q ∈ qs, f q = f' q) → x.eval f = x.eval f' := by
  induction x with
  | done r => intros; rfl
  | panic p => intros; rfl
  | call q k ih =>
    intro qs h hq
    cases qs with
    | nil => exact h.elim
    | cons q' qs =>
      obtain ⟨rfl, h⟩ := h
      simp only [CB.eval_call]
      rw [hq q (List.mem_cons_self ..)]
      exact ih _ (h _ trivial) (fun q' hq' => hq q' (List.mem_cons_of_mem _ hq'))

/-- If the calls are on different arguments, what is known for pure functions is known for all ways of answering. -/
theorem CB.Makes.asks {x : CB Q A R} : ∀ {qs : List Q} {I : List A → R → Prop}, CB.Makes qs x → qs.Nodup →
    (∀ f : Q → A, ∃ r, x.eval f = .ok r ∧ I (qs.map f) r) → [Nonempty A] → CB.Asks qs I x := by
  classical
  induction x with
  | done r =>
    intro qs I h _ hf _
    cases qs with
    | nil =>
      obtain ⟨a⟩ := ‹Nonempty A›
      obtain ⟨r', h1, h2⟩ := hf (fun _ => a)
      cases h1
      exact h2
    | cons => exact h.elim
  | panic p =>
    intro qs I _ _ hf _
    obtain ⟨a⟩ := ‹Nonempty A›
    obtain ⟨r', h1, h2⟩ := hf (fun _ => a)
    cases h1
  | call q k ih =>
    intro qs I h hn hf _
    cases qs with
    | nil => exact h.elim
    | cons q' qs =>
      obtain ⟨rfl, h⟩ := h
      rw [List.nodup_cons] at hn
      refine ⟨rfl, fun a => ih a (h a trivial) hn.2 (fun f => ?_)⟩
      obtain ⟨r, h1, h2⟩ := hf (fun x => if x = q then a else f x)
      have hne : ∀ x ∈ qs, (if x = q then a else f x) = f x := fun x hx => if_neg (by rintro rfl; exact hn.1 hx)
      simp only [CB.eval_call, if_true] at h1
      rw [CB.Makes.eval_congr (h a trivial) hne] at h1
      refine ⟨r, h1, ?_⟩
      rw [List.map_cons, if_pos rfl, List.map_congr_left hne] at h2
      exact h2

/-- A pure function gives the answers it must. -/
theorem CB.Asks.eval {x : CB Q A R} (f : Q → A) : ∀ {qs : List Q} {I : List A → R → Prop}, CB.Asks qs I x →
    ∃ r, x.eval f = .ok r ∧ I (qs.map f) r := by
  induction x with
  | done r =>
    intro qs I h
    cases qs with
    | nil => exact ⟨r, rfl, h⟩
    | cons => exact h.elim
  | panic p => intro qs I h; cases qs <;> exact h.elim
  | call q k ih =>
    intro qs I h
    cases qs with
    | nil => exact h.elim
    | cons q' qs =>
      obtain ⟨rfl, h⟩ := h
      exact ih (f q) (I := fun as => I (f q :: as)) (h (f q))

theorem CB.Asks.mono {x : CB Q A R} : ∀ {qs : List Q} {I J : List A → R → Prop}, CB.Asks qs I x →
    (∀ as r, as.length = qs.length → I as r → J as r) → CB.Asks qs J x := by
  induction x with
  | done r =>
    intro qs I J h hij
    cases qs with
    | nil => exact hij [] r rfl h
    | cons => exact h.elim
  | panic p => intro qs I J h; cases qs <;> exact h.elim
  | call q k ih =>
    intro qs I J h hij
    cases qs with
    | nil => exact h.elim
    | cons q' qs => exact ⟨h.1, fun a => ih a (h.2 a) (fun as r hl => hij (a :: as) r (by simp [hl]))⟩

/-- The user's function as a program in any monad: it is run on each argument in order, and nothing else happens. -/
theorem CB.Asks.perform {m : Type → Type} [Monad m] [LawfulMonad m] [Nonempty R] (f : Q → m A) {x : CB Q A R} :
    ∀ {qs : List Q} {I : List A → R → Prop}, CB.Asks qs I x →
    ∃ F : List A → R, (∀ as, as.length = qs.length → I as (F as)) ∧ x.perform f = (do let as ← qs.mapM f; pure (.ok (F as))) := by
  induction x with
  | done r =>
    intro qs I h
    cases qs with
    | nil =>
      refine ⟨fun _ => r, fun as has => ?_, by simp [CB.perform]⟩
      cases as with
      | nil => exact h
      | cons => cases has
    | cons => exact h.elim
  | panic p => intro qs I h; cases qs <;> exact h.elim
  | call q k ih =>
    intro qs I h
    cases qs with
    | nil => exact h.elim
    | cons q' qs =>
      obtain ⟨rfl, h⟩ := h
      choose F hF1 hF2 using fun a => ih a (I := fun as => I (a :: as)) (h a)
      obtain ⟨r0⟩ := ‹Nonempty R›
      refine ⟨fun as => match as with | [] => r0 | a :: as => F a as, fun as has => ?_, ?_⟩
      · cases as with
        | nil => cases has
        | cons a as => exact hF1 a as (by simpa using has)
      · simp only [CB.perform, List.mapM_cons, LawfulMonad.bind_assoc, LawfulMonad.pure_bind, hF2]

end Basics

section Where

variable {T : Type} [GoKey T] [LawfulGoKey T]

omit [GoKey T] [LawfulGoKey T] in
theorem eval_twigWhereE (P : T → Bool) : ∀ l : List T, (twigWhereE l).eval P = .ok (l.filter P)
  | [] => rfl
  | e :: l => by
    simp only [twigWhereE, CB.bind_def, CB.eval_bind, CB.eval_ask, eval_twigWhereE P l, Except.bind, CB.pure_def, CB.eval_done,
      List.filter_cons]

/-- With a pure predicate `whereE` is `where`. -/
theorem eval_whereE (P : T → Bool) : ∀ (n : Node T) (d : Nat), (whereE n d).eval P = «where» P n d
  | .nil, _ => rfl
  | .leaf1 a, _ => by
    simp only [whereE, «where», CB.bind_def, CB.eval_bind, CB.eval_ask, Except.bind, CB.pure_def, CB.eval_done]
    split <;> rfl
  | .leaf2 a b, _ => by
    simp only [whereE, «where», CB.bind_def, CB.eval_bind, CB.eval_ask, Except.bind, CB.pure_def, CB.eval_done]
    cases P a <;> cases P b <;> rfl
  | .twig l, d => by
    simp only [whereE, «where», CB.bind_def, CB.eval_bind, eval_twigWhereE, Except.bind, CB.eval_lib, bind, CB.pure_def]
    cases twigCanonical (l.filter P) d <;> rfl
  | .branch m k, d => by
    simp only [whereE, «where», CB.bind_def, CB.eval_bind]
    rw [eval_parallelE P _ (fun i (st : Packer T × (Fin 8 → Bool)) => do
      let (n, ms', s) ← «where» P (k i) (d + 1)
      pure ((⟨st.1.mask, setSlot st.1.data i n⟩, setSlot st.2 i s), true, ms'))]
    · show Except.bind _ _ = Except.bind _ _
      congr 1; funext r
      obtain ⟨⟨nodes, same⟩, ok, ms⟩ := r
      dsimp only
      rw [CB.eval_ite]
      split
      · rfl
      · simp only [CB.eval_bind, CB.eval_lib, CB.pure_def]
        rfl
    · intro i s
      simp only [CB.eval_bind, eval_whereE P (k i) (d + 1), CB.pure_def]
      rfl

omit [GoKey T] [LawfulGoKey T] in
theorem makes_twigWhereE : ∀ l : List T, CB.Makes l (twigWhereE l)
  | [] => trivial
  | e :: l => by
    simp only [twigWhereE, CB.bind_def]
    exact (CB.makes_ask e).bind (fun p => (makes_twigWhereE l).bind' (fun _ => trivial))

/-- The predicate is asked about each element in iteration order. -/
theorem makes_whereE : ∀ (n : Node T) (d : Nat), WF d n → CB.Makes (elems n) (whereE n d)
  | .nil, _, _ => trivial
  | .leaf1 a, _, _ => (CB.makes_ask a).bind' (fun _ => trivial)
  | .leaf2 a b, _, _ => (CB.makes_ask a).bind (qs' := [b]) (fun _ => (CB.makes_ask b).bind' (fun _ => trivial))
  | .twig l, d, _ => by
    simp only [whereE, CB.bind_def, elems]
    exact (makes_twigWhereE l).bind' (fun _ => (CB.makes_lib _).bind' (fun _ => trivial))
  | .branch m k, d, hw => by
    obtain ⟨hs, _⟩ := WF_branch.1 hw
    rw [flatMap_slots hs, ← List.flatMap_def]
    simp only [whereE, CB.bind_def, parallelE, bitLoop_slots (maskOk_wf hs)]
    refine CB.MakesV.bind' (CB.MakesV.loop (q := fun i => elems (k i)) (fun i s => ?_) (fun i s => ?_) _ _ _) (fun r => ?_)
    · exact (makes_whereE (k i) (d + 1) (hs.2.2.1 i)).bind' (fun _ => trivial)
    · exact ⟨(whereE (k i) (d + 1)).bind (fun r => .done ((⟨s.1.mask, setSlot s.1.data i r.1⟩, setSlot s.2 i r.2.2), r.2.1)), by
        rw [CB.bind_assoc]; rfl⟩
    · split
      · trivial
      · exact (CB.makes_lib _).bind' (fun _ => trivial)

theorem Tree.eval_whereE (t : Tree T) (P : T → Bool) : t.whereE.eval P = t.where P := by
  unfold Tree.whereE Tree.where
  split
  · rfl
  · simp only [CB.bind_def, CB.eval_bind, Frozen.eval_whereE, CB.pure_def]
    rfl

theorem Tree.makes_whereE {t : Tree T} (h : t.Valid) : CB.Makes t.list t.whereE := by
  unfold Tree.whereE
  split
  · rename_i hn
    rw [(Tree.isNil_iff_list h).1 hn]; trivial
  · exact (Frozen.makes_whereE _ _ h.wf).bind' (fun _ => trivial)

end Where

section Reduce

variable {T : Type} [GoKey T] [LawfulGoKey T] {Q R : Type}

omit [GoKey T] [LawfulGoKey T] in
theorem CB.Spends.perm {args : Q → List T} {x : CB Q T (Option T)} {p p' : List T} (h : CB.Spends args p x) (hp : p.Perm p') :
    CB.Spends args p' x := by
  cases x with
  | done r => exact hp.symm.trans h
  | panic p => exact h
  | call q k =>
    obtain ⟨h1, rest, h2, h3⟩ := h
    exact ⟨h1, rest, hp.symm.trans h2, h3⟩

/-- Reducing a node puts its result in the place of its elements. -/
theorem spends_reduceE [Inhabited T] : ∀ (n : Node T) (d : Nat), WF d n → n.isNil = false →
    ∀ (frame : List T) (g : T → CB (List T) T (Option T)), (∀ r, CB.Spends id (r :: frame) (g r)) →
    CB.Spends id (elems n ++ frame) ((reduceE n).bind g)
  | .nil, _, _, hn, _, _, _ => by cases hn
  | .leaf1 a, _, _, _, frame, g, hg => ⟨by simp, frame, List.Perm.refl _, hg⟩
  | .leaf2 a b, _, _, _, frame, g, hg => ⟨by simp, frame, List.Perm.refl _, hg⟩
  | .twig l, d, hw, hn, frame, g, hg => ⟨elems_ne_nil hw hn, frame, List.Perm.refl _, hg⟩
  | .branch m k, d, hw, hn, frame, g, hg => by
    obtain ⟨hs, _⟩ := WF_branch.1 hw
    have hm := maskOk_wf hs
    rw [flatMap_slots hs, ← List.flatMap_def]
    simp only [reduceE, CB.bind_def, parallelE, bitLoop_slots hm, CB.bind_assoc, CB.pure_def]
    have key : ∀ (is : List (Fin 8)), is.Nodup → (∀ i ∈ is, (k i).isNil = false) → ∀ (res : Fin 8 → T) (ms : Int) (frame : List T)
        (g : (Fin 8 → T) × Bool × Int → CB (List T) T (Option T)),
        (∀ res' : Fin 8 → T, (∀ i, i ∉ is → res' i = res i) → ∀ ms, CB.Spends id (is.map res' ++ frame) (g (res', true, ms))) →
        CB.Spends id ((is.flatMap fun i => elems (k i)) ++ frame) ((parallelLoopE (fun i res => (reduceE (k i)).bind
          (fun x => .done (setSlot res i x, true, 0))) (is.map Fin.val) res ms).bind g) := by
      intro is
      induction is with
      | nil => intro _ _ res ms frame g hg; exact hg res (fun _ _ => rfl) ms
      | cons i is ih =>
        intro hnd hnn res ms frame g hg
        simp only [List.map_cons, parallelLoopE, i.isLt, dite_true, Fin.eta, List.flatMap_cons, CB.bind_def, CB.bind_assoc, CB.done_bind,
          Bool.not_true, Bool.false_eq_true, if_false, List.append_assoc]
        rw [List.nodup_cons] at hnd
        refine spends_reduceE (k i) (d + 1) (hs.2.2.1 i) (hnn i (List.mem_cons_self ..)) _ _ (fun r => ?_)
        refine CB.Spends.perm (ih hnd.2 (fun j hj => hnn j (List.mem_cons_of_mem _ hj)) (setSlot res i r) _ (r :: frame) g (fun res' hr ms => ?_))
          (List.perm_middle)
        refine (hg res' (fun j hj => ?_) ms).perm ?_
        · rw [List.mem_cons, not_or] at hj
          rw [hr j hj.2, setSlot_ne _ _ hj.1]
        · have : res' i = r := by rw [hr i hnd.1]; simp
          rw [List.map_cons, this]
          exact List.perm_middle.symm
    refine key (slots m) (nodup_slots m) (fun i hi => ?_) _ _ frame _ (fun res' _ ms => ?_)
    · have := mask_bit hs i
      rw [mem_slots.1 hi] at this
      simpa using this.symm
    · dsimp only
      rw [← bitLoop_slots hm, mapM_slots hm]
      exact ⟨by simpa using slots_ne_nil hw, frame, List.Perm.refl _, hg⟩

end Reduce

end Frozen
