import Verif.Proof.Races
import Verif.Proof.Map

/-! When goroutines of a merge race in `Flip`. -/

set_option linter.unusedSectionVars false

namespace Frozen

variable {X : Type}

/-! ### All goroutines started, none run -/

/-- The address leads to sequential code. -/
def Comp.leafAt : Comp X → List (Fin 8) → Prop
  | .seq _, [] => True
  | .par mask body _ _, i :: p => i ∈ mask.indices ∧ (body i).leafAt p
  | _, _ => False

/-- All goroutines have been started and none has run. -/
def Comp.opened : Comp X → St X
  | .seq r => .start (.seq r)
  | .par mask body sets k => .par ⟨mask, body, sets, k⟩ (fun i => if i ∈ mask.indices then (body i).opened else .idle)
      ⟨[], fun _ => .run, 0#16, fun _ => none, [], mask.indices.length, 0, none⟩

theorem lift_all {c : Comp X} {fr : Frame X} {v : Vars X} (h1 : ∀ i, Reaches (fr.body i) (fr.body i).opened) : ∀ (is : List (Fin 8))
    (kids : Fin 8 → St X), is.Nodup → (∀ i ∈ is, kids i = .start (fr.body i)) → Reaches c (.par fr kids v) →
    Reaches c (.par fr (fun i => if i ∈ is then (fr.body i).opened else kids i) v)
  | [], kids, _, _, h => by simpa using h
  | i :: is, kids, hn, hk, h => by
    have hn' := List.nodup_cons.1 hn
    have h2 := h.lift (hk i (by simp)) (h1 i)
    have h3 := lift_all h1 is _ hn'.2 (fun j hj => by
      have : j ≠ i := by rintro rfl; exact hn'.1 hj
      rw [setSlot_other _ _ this]; exact hk j (by simp [hj])) h2
    have : (fun j => if j ∈ is then (fr.body j).opened else setSlot kids i (fr.body i).opened j) =
        (fun j => if j ∈ i :: is then (fr.body j).opened else kids j) := by
      funext j
      by_cases hj : j = i
      · subst hj; simp [setSlot_self]
      · by_cases hm : j ∈ is <;> simp [hj, hm, setSlot_other]
    rw [this] at h3
    exact h3

theorem reaches_opened : ∀ c : Comp X, Reaches c c.opened
  | .seq r => .start
  | .par mask body sets k => by
    have h := lift_all (fr := ⟨mask, body, sets, k⟩) (fun i => reaches_opened (body i)) mask.indices _ (nodup_indices mask)
      (fun i hi => by simp [hi]) (reaches_spawned mask body sets k)
    have : (fun i => if i ∈ mask.indices then (body i).opened else if i ∈ mask.indices then St.start (body i) else .idle) =
        (fun i => if i ∈ mask.indices then (body i).opened else .idle) := by
      funext i
      by_cases hi : i ∈ mask.indices <;> simp [hi]
    dsimp only at h
    rw [this] at h
    exact h

theorem opened_at : ∀ {c : Comp X} {p : List (Fin 8)}, c.leafAt p → ∃ r, c.opened.at p = some (.start (.seq r))
  | .seq r, [], _ => ⟨r, rfl⟩
  | .seq r, _ :: _, h => h.elim
  | .par mask body sets k, [], h => h.elim
  | .par mask body sets k, i :: p, h => by
    obtain ⟨r, hr⟩ := opened_at h.2
    refine ⟨r, ?_⟩
    simp only [Comp.opened, St.at, if_pos h.1]
    exact hr

theorem opened_done : ∀ (c : Comp X) (p : List (Fin 8)) (r), c.opened.at p ≠ some (.done r)
  | .seq r, [], _, h => by cases h
  | .seq r, _ :: _, _, h => by cases h
  | .par mask body sets k, [], _, h => by cases h
  | .par mask body sets k, i :: p, r, h => by
    simp only [Comp.opened, St.at] at h
    by_cases hi : i ∈ mask.indices
    · rw [if_pos hi] at h; exact opened_done (body i) p r h
    · rw [if_neg hi] at h
      cases p <;> cases h

theorem flipRace_iff {c : Comp X} {flips : List (Fin 8) → Bool} (hl : ∀ p, flips p = true → c.leafAt p) :
    (∃ s, Reaches c s ∧ s.flipRace flips) ↔ ∃ p q, p ≠ q ∧ flips p = true ∧ flips q = true := by
  constructor
  · rintro ⟨s, _, p, q, h1, h2, h3, _⟩
    exact ⟨p, q, h1, h2, h3⟩
  · rintro ⟨p, q, h1, h2, h3⟩
    exact ⟨_, reaches_opened c, p, q, h1, h2, h3, opened_at (hl p h2), opened_at (hl q h3), fun p' _ r => opened_done c p' r⟩

/-! ### Merging -/

variable {T : Type} [GoKey T] [LawfulGoKey T]

theorem flipper_leafAt (g : Int) (args : CombineArgs T) : ∀ (n1 n2 : Node T) (d : Nat) (p : List (Fin 8)), WF d n1 → WF d n2 →
    flipper g n1 args n2 d p = true → (combineC g n1 args n2 d).leafAt p := by
  have triv : ∀ (r : Go (Node T × Int)) (p : List (Fin 8)) (b : Bool), (p.isEmpty && b) = true → (seqOf r).leafAt p := by
    intro r p b h
    cases p with
    | nil => trivial
    | cons i p => simp at h
  intro n1
  induction n1 with
  | nil => intro n2 d p _ _ h; cases n2 <;> exact triv _ p _ h
  | leaf1 _ => intro n2 d p _ _ h; cases n2 <;> exact triv _ p _ h
  | leaf2 _ _ => intro n2 d p _ _ h; cases n2 <;> exact triv _ p _ h
  | twig _ => intro n2 d p _ _ h; cases n2 <;> exact triv _ p _ h
  | branch m k ih =>
    intro n2 d p hw hw2 h
    cases n2 with
    | branch m2 k2 =>
      have hs := (WF_branch.1 hw).1
      have hs2 := (WF_branch.1 hw2).1
      unfold flipper at h
      unfold combineC
      by_cases hg : (d : Int) < g
      · simp only [if_pos hg] at h ⊢
        cases p with
        | nil => cases h
        | cons i p =>
          simp only [Bool.and_eq_true, Bool.not_eq_true'] at h
          obtain ⟨⟨h1, h2⟩, h3⟩ := h
          refine ⟨?_, ?_⟩
          · have hm := getLsbD_maskOf k i
            rw [← hs.2.1] at hm
            rw [mem_indices, BitVec.getLsbD_or, hm, h1]; simp
          · dsimp only
            rw [if_neg (by rw [h1]; simp), if_neg (by rw [h2]; simp)]
            exact ih i (k2 i) (d + 1) p (hs.2.2.1 i) (hs2.2.2.1 i) h3
      · simp only [if_neg hg] at h ⊢
        exact triv _ p _ h
    | _ => exact triv _ p _ h

/-- `FlipAt` below a node, on lists of elements. -/
def FlipAtL (d n : Nat) (a b : List T) (x : T) : Prop :=
  d ≤ n ∧ 1 ≤ (a.filter (agree d n x)).length ∧ (a.filter (agree d n x)).length ≤ 2 ∧
    (a.filter (agree d n x)).length < (b.filter (agree d n x)).length ∧ (22 ≤ n → (b.filter (agree d n x)).length ≤ 2) ∧
    (d < n → 3 ≤ (a.filter (agree d (n - 1) x)).length ∧ 3 ≤ (b.filter (agree d (n - 1) x)).length)

theorem filter_all (d n : Nat) (h : n ≤ d) (x : T) (l : List T) : l.filter (agree d n x) = l := by
  apply List.filter_eq_self.2; intro e _; exact agree_ge h x e

theorem flipAtL_long {d n : Nat} {a b : List T} {x : T} (h : FlipAtL d n a b x) (hd : a.length < 3 ∨ b.length < 3) : n = d := by
  obtain ⟨h1, _, _, _, _, h6⟩ := h
  by_contra hc
  have := h6 (by omega)
  have := List.length_filter_le (agree d (n - 1) x) a
  have := List.length_filter_le (agree d (n - 1) x) b
  omega

theorem FlipAtL.mem {d n : Nat} {a b : List T} {x : T} (h : FlipAtL d n a b x) :
    ∃ y ∈ a, agree d n x y = true := by
  obtain ⟨y, hy⟩ := List.exists_mem_of_length_pos (l := a.filter (agree d n x)) (by have := h.2.1; omega)
  rw [List.mem_filter] at hy
  exact ⟨y, hy.1, hy.2⟩

/-- A flip below two branches is a flip below one of their slots. -/
theorem flipAtL_slot {d n : Nat} {m m2 : Masker} {k k2 : Fin 8 → Node T} (hw : WF d (.branch m k)) (hw2 : WF d (.branch m2 k2))
    (x : T) : FlipAtL d n (elems (.branch m k)) (elems (.branch m2 k2)) x ↔
      FlipAtL (d + 1) n (elems (k (chunk x d))) (elems (k2 (chunk x d))) x := by
  obtain ⟨hs, h3⟩ := WF_branch.1 hw
  obtain ⟨hs2, h32⟩ := WF_branch.1 hw2
  by_cases hn : d < n
  · unfold FlipAtL
    rw [filter_slot hs hn, filter_slot hs2 hn]
    by_cases hn1 : d + 1 < n
    · rw [filter_slot hs (by omega), filter_slot hs2 (by omega)]
      constructor
      · rintro ⟨h1, h2, h3, h4, h5, h6⟩; exact ⟨by omega, h2, h3, h4, h5, fun _ => h6 hn⟩
      · rintro ⟨h1, h2, h3, h4, h5, h6⟩; exact ⟨by omega, h2, h3, h4, h5, fun _ => h6 hn1⟩
    · have : n = d + 1 := by omega
      subst this
      rw [filter_all d (d + 1 - 1) (by omega), filter_all d (d + 1 - 1) (by omega)]
      constructor
      · rintro ⟨h1, h2, h3, h4, h5, h6⟩; exact ⟨by omega, h2, h3, h4, h5, fun h => absurd h (by omega)⟩
      · rintro ⟨h1, h2, h3', h4, h5, h6⟩; exact ⟨by omega, h2, h3', h4, h5, fun _ => ⟨h3, h32⟩⟩
  · constructor
    · rintro ⟨h1, h2, h4, _⟩
      rw [filter_all d n (by omega)] at h4
      omega
    · rintro ⟨h1, _⟩; omega

variable {args : CombineArgs T} (heq : args.eq = GoKey.eq) (hf : ClassPres args.f)

include heq hf in
theorem callsFlip_iff : ∀ (n1 n2 : Node T) (d : Nat), WF d n1 → n1.isNil = false → WF d n2 → n2.isNil = false → ¬ Clash n1 n2 →
    (callsFlip n1 args n2 d = true ↔ ∃ n x, FlipAtL d n (elems n1) (elems n2) x) := by
  have base : ∀ (n1 n2 : Node T) (d : Nat), WF d n1 → WF d n2 → ((elems n1).length < 3 ∨ (elems n2).length < 3) →
      ((∃ n x, FlipAtL d n (elems n1) (elems n2) x) ↔ ((∃ x : T, True) ∧ 1 ≤ (elems n1).length ∧ (elems n1).length ≤ 2 ∧
        (elems n1).length < (elems n2).length ∧ (22 ≤ d → (elems n2).length ≤ 2))) := by
    intro n1 n2 d h1 h2 hl
    constructor
    · rintro ⟨n, x, h⟩
      have := flipAtL_long h hl
      subst this
      obtain ⟨_, g2, g3, g4, g5, _⟩ := h
      rw [filter_all _ _ (Nat.le_refl _)] at g2 g3 g4
      rw [filter_all _ _ (Nat.le_refl _)] at g4 g5
      exact ⟨⟨x, trivial⟩, g2, g3, g4, g5⟩
    · rintro ⟨⟨x, _⟩, g2, g3, g4, g5⟩
      refine ⟨d, x, Nat.le_refl _, ?_, ?_, ?_, ?_, fun h => absurd h (by omega)⟩
      · rw [filter_all _ _ (Nat.le_refl _)]; exact g2
      · rw [filter_all _ _ (Nat.le_refl _)]; exact g3
      · rw [filter_all _ _ (Nat.le_refl _), filter_all _ _ (Nat.le_refl _)]; exact g4
      · rw [filter_all _ _ (Nat.le_refl _)]; exact g5
  intro n1
  induction n1 with
  | nil => intro n2 d _ h; cases h
  | leaf1 a =>
    intro n2 d w1 _ w2 h2 hc
    rw [base _ _ d w1 w2 (.inl (by simp [elems]))]
    cases n2 with
    | nil => cases h2
    | leaf1 b => simp [callsFlip, elems]
    | leaf2 b c => simp [callsFlip, elems]; exact ⟨a⟩
    | twig l => exact absurd trivial hc
    | branch m k =>
      have h3 := (WF_branch.1 w2).2
      have hd : d < 22 := (WF_branch.1 w2).1.1
      have e : callsFlip (.leaf1 a) args (.branch m k) d = true := rfl
      rw [e]
      refine iff_of_true rfl ⟨⟨a, trivial⟩, by simp [elems], by simp [elems], ?_, by omega⟩
      have : (elems (.leaf1 a)).length = 1 := rfl
      omega
  | leaf2 a a' =>
    intro n2 d w1 _ w2 h2 hc
    rw [base _ _ d w1 w2 (.inl (by simp [elems]))]
    cases n2 with
    | nil => cases h2
    | leaf1 b => simp [callsFlip, elems]
    | leaf2 b c => simp [callsFlip, elems]
    | twig l => exact absurd trivial hc
    | branch m k =>
      have h3 := (WF_branch.1 w2).2
      have hd : d < 22 := (WF_branch.1 w2).1.1
      have e : callsFlip (.leaf2 a a') args (.branch m k) d = true := rfl
      rw [e]
      refine iff_of_true rfl ⟨⟨a, trivial⟩, by simp [elems], by simp [elems], ?_, by omega⟩
      have : (elems (.leaf2 a a')).length = 2 := rfl
      omega
  | twig l =>
    intro n2 d w1 _ w2 h2 hc
    exact absurd h2 hc
  | branch m k ih =>
    intro n2 d w1 _ w2 h2 hc
    obtain ⟨hs, h3⟩ := WF_branch.1 w1
    have h3' := h3
    cases n2 with
    | nil => cases h2
    | leaf1 b =>
      rw [base _ _ d w1 w2 (.inr (by simp [elems]))]
      refine iff_of_false (by simp [callsFlip]) ?_
      rintro ⟨_, _, h, _⟩; omega
    | leaf2 b c =>
      rw [base _ _ d w1 w2 (.inr (by simp [elems]))]
      refine iff_of_false (by simp [callsFlip]) ?_
      rintro ⟨_, _, h, _⟩; omega
    | twig l => have h22 : 22 ≤ d := w2.1; have : d < 22 := hs.1; omega
    | branch m2 k2 =>
      obtain ⟨hs2, h32⟩ := WF_branch.1 w2
      have hc' : ∀ i, ¬ Clash (k i) (k2 i) := fun i h => hc ⟨i, h⟩
      have hok : (m ||| m2).indices.all (fun j => decide (j < j) || (k j).isNil || (k2 j).isNil ||
          (combine (k j) args (k2 j) (d + 1)).toBool) = true := by
        rw [List.all_eq_true]
        intro j _
        by_cases c1 : (k j).isNil = true
        · simp [c1]
        · by_cases c2 : (k2 j).isNil = true
          · simp [c2]
          · obtain ⟨r, ms, he, _⟩ := (combine_spec heq hf (k j) (d + 1) (k2 j) (hs.2.2.1 j) (by simpa using c1) (hs2.2.2.1 j)
              (by simpa using c2)).2 (hc' j)
            rw [he]; simp [Except.toBool]
      have hall : ∀ i : Fin 8, (m ||| m2).indices.all (fun j => decide (i ≤ j) || (k j).isNil || (k2 j).isNil ||
          (combine (k j) args (k2 j) (d + 1)).toBool) = true := by
        intro i
        rw [List.all_eq_true] at hok ⊢
        intro j hj
        have := hok j hj
        revert this
        simp only [lt_self_iff_false, decide_false, Bool.false_or]
        intro this
        rw [Bool.or_assoc, Bool.or_assoc, ← Bool.or_assoc (k j).isNil, this]; simp
      unfold callsFlip
      simp only [hall, Bool.and_true, List.any_eq_true, Bool.and_eq_true, Bool.not_eq_true']
      constructor
      · rintro ⟨i, _, ⟨h4, h5⟩, h6⟩
        obtain ⟨n, x, hx⟩ := (ih i (k2 i) (d + 1) (hs.2.2.1 i) h4 (hs2.2.2.1 i) h5 (hc' i)).1 h6
        obtain ⟨y, hy, hxy⟩ := hx.mem
        have hyi := hs.2.2.2 i y hy
        refine ⟨n, y, (flipAtL_slot w1 w2 y).2 ?_⟩
        rw [hyi]
        have : agree (d + 1) n x = agree (d + 1) n y := by
          funext e
          rw [agree_iff] at hxy
          rw [Bool.eq_iff_iff, agree_iff, agree_iff]
          exact ⟨fun h j a b => (hxy j a b).symm.trans (h j a b), fun h j a b => (hxy j a b).trans (h j a b)⟩
        have t2 : agree (d + 1) (n - 1) x = agree (d + 1) (n - 1) y := by
          funext e
          rw [agree_iff] at hxy
          rw [Bool.eq_iff_iff, agree_iff, agree_iff]
          exact ⟨fun h j a b => (hxy j a (by omega)).symm.trans (h j a b), fun h j a b => (hxy j a (by omega)).trans (h j a b)⟩
        unfold FlipAtL at hx ⊢
        rw [← this, ← t2]; exact hx
      · rintro ⟨n, x, hx⟩
        have hx' := (flipAtL_slot w1 w2 x).1 hx
        have n1 : (k (chunk x d)).isNil = false := by
          cases hn : (k (chunk x d)).isNil with
          | false => rfl
          | true => have := hx'.2.1; rw [isNil_iff.1 hn] at this; simp [elems] at this
        have n2 : (k2 (chunk x d)).isNil = false := by
          cases hn : (k2 (chunk x d)).isNil with
          | false => rfl
          | true => have := hx'.2.2.2.1; rw [isNil_iff.1 hn] at this; simp [elems] at this
        refine ⟨chunk x d, ?_, ⟨n1, n2⟩, (ih _ _ (d + 1) (hs.2.2.1 _) n1 (hs2.2.2.1 _) n2 (hc' _)).2 ⟨n, x, hx'⟩⟩
        have hm := getLsbD_maskOf k (chunk x d)
        rw [← hs.2.1] at hm
        rw [mem_indices, BitVec.getLsbD_or, hm, n1]; simp


theorem FlipAtL.congr {d n : Nat} {a b : List T} {x y : T} (h : FlipAtL d n a b x) (hxy : agree d n x y = true) : FlipAtL d n a b y := by
  have t : ∀ m, m ≤ n → agree d m x = agree d m y := by
    intro m hm
    funext e
    rw [agree_iff] at hxy
    rw [Bool.eq_iff_iff, agree_iff, agree_iff]
    exact ⟨fun h j a b => (hxy j a (by omega)).symm.trans (h j a b), fun h j a b => (hxy j a (by omega)).trans (h j a b)⟩
  unfold FlipAtL at h ⊢
  rw [← t n (Nat.le_refl _), ← t (n - 1) (by omega)]; exact h

/-- A flip in a slot of two branches is a flip below them, at an element of the slot. -/
theorem flipAtL_up {d n : Nat} {m m2 : Masker} {k k2 : Fin 8 → Node T} (hw : WF d (.branch m k)) (hw2 : WF d (.branch m2 k2))
    {i : Fin 8} {x : T} (h : FlipAtL (d + 1) n (elems (k i)) (elems (k2 i)) x) :
    ∃ y, chunk y d = i ∧ agree (d + 1) n x y = true ∧ FlipAtL d n (elems (.branch m k)) (elems (.branch m2 k2)) y := by
  obtain ⟨y, hy, hxy⟩ := h.mem
  have hyi := (WF_branch.1 hw).1.2.2.2 i y hy
  refine ⟨y, hyi, hxy, (flipAtL_slot hw hw2 y).2 ?_⟩
  rw [hyi]
  exact h.congr hxy

theorem FlipAtL.notNil {d n : Nat} {a b : Node T} {x : T} (h : FlipAtL d n (elems a) (elems b) x) : a.isNil = false ∧ b.isNil = false := by
  constructor
  · cases hn : a.isNil with
    | false => rfl
    | true => have := h.2.1; rw [isNil_iff.1 hn] at this; simp [elems] at this
  · cases hn : b.isNil with
    | false => rfl
    | true => have := h.2.2.2.1; rw [isNil_iff.1 hn] at this; simp [elems] at this

/-- Where `combineC` starts no goroutines, the caller itself is the only one that can call `Flip`. -/
theorem flipper_seq {g : Int} {n1 n2 : Node T} {d : Nat} (h : ∀ m k m2 k2, n1 = .branch m k → n2 = .branch m2 k2 → ¬ (d : Int) < g)
    (p : List (Fin 8)) : flipper g n1 args n2 d p = (p.isEmpty && callsFlip n1 args n2 d) := by
  cases n1 with
  | branch m k =>
    cases n2 with
    | branch m2 k2 => unfold flipper; rw [if_neg (h _ _ _ _ rfl rfl)]
    | _ => rfl
  | _ => cases n2 <;> rfl

theorem flipper_par {g : Int} {m m2 : Masker} {k k2 : Fin 8 → Node T} {d : Nat} (h : (d : Int) < g) (p : List (Fin 8)) :
    flipper g (.branch m k) args (.branch m2 k2) d p = true ↔
      ∃ i q, p = i :: q ∧ (k i).isNil = false ∧ (k2 i).isNil = false ∧ flipper g (k i) args (k2 i) (d + 1) q = true := by
  cases p with
  | nil => unfold flipper; rw [if_pos h]; simp
  | cons i q =>
    have e : flipper g (.branch m k) args (.branch m2 k2) d (i :: q) =
        (!(k i).isNil && !(k2 i).isNil && flipper g (k i) args (k2 i) (d + 1) q) := by
      conv_lhs => unfold flipper
      rw [if_pos h]
    rw [e]
    simp only [Bool.and_eq_true, Bool.not_eq_true']
    constructor
    · rintro ⟨⟨h1, h2⟩, h3⟩; exact ⟨i, q, rfl, h1, h2, h3⟩
    · rintro ⟨_, _, he, h1, h2, h3⟩; cases he; exact ⟨⟨h1, h2⟩, h3⟩

include heq hf in
theorem flipper_exists (g : Int) : ∀ (n1 n2 : Node T) (d : Nat), WF d n1 → n1.isNil = false → WF d n2 → n2.isNil = false → ¬ Clash n1 n2 →
    ((∃ p, flipper g n1 args n2 d p = true) ↔ ∃ n x, FlipAtL d n (elems n1) (elems n2) x) := by
  have triv : ∀ (n1 n2 : Node T) (d : Nat), WF d n1 → n1.isNil = false → WF d n2 → n2.isNil = false → ¬ Clash n1 n2 →
      (∀ m k m2 k2, n1 = .branch m k → n2 = .branch m2 k2 → ¬ (d : Int) < g) →
      ((∃ p, flipper g n1 args n2 d p = true) ↔ ∃ n x, FlipAtL d n (elems n1) (elems n2) x) := by
    intro n1 n2 d w1 h1 w2 h2 hc h
    rw [← callsFlip_iff heq hf n1 n2 d w1 h1 w2 h2 hc]
    simp only [flipper_seq h, Bool.and_eq_true, exists_and_right]
    exact ⟨fun h => h.2, fun h => ⟨⟨[], rfl⟩, h⟩⟩
  intro n1
  induction n1 with
  | branch m k ih =>
    intro n2 d w1 h1 w2 h2 hc
    cases n2 with
    | branch m2 k2 =>
      by_cases hg : (d : Int) < g
      · obtain ⟨hs, _⟩ := WF_branch.1 w1
        obtain ⟨hs2, _⟩ := WF_branch.1 w2
        have hc' : ∀ i, ¬ Clash (k i) (k2 i) := fun i h => hc ⟨i, h⟩
        constructor
        · rintro ⟨p, hp⟩
          obtain ⟨i, q, _, e1, e2, hq⟩ := (flipper_par hg p).1 hp
          obtain ⟨n, x, hx⟩ := (ih i (k2 i) (d + 1) (hs.2.2.1 i) e1 (hs2.2.2.1 i) e2 (hc' i)).1 ⟨q, hq⟩
          obtain ⟨y, _, _, hy⟩ := flipAtL_up w1 w2 hx
          exact ⟨n, y, hy⟩
        · rintro ⟨n, x, hx⟩
          have hx' := (flipAtL_slot w1 w2 x).1 hx
          obtain ⟨e1, e2⟩ := hx'.notNil
          obtain ⟨q, hq⟩ := (ih _ _ (d + 1) (hs.2.2.1 _) e1 (hs2.2.2.1 _) e2 (hc' _)).2 ⟨n, x, hx'⟩
          exact ⟨_ :: q, (flipper_par hg _).2 ⟨_, q, rfl, e1, e2, hq⟩⟩
      · exact triv _ _ d w1 h1 w2 h2 hc (fun _ _ _ _ _ _ => hg)
    | _ => exact triv _ _ d w1 h1 w2 h2 hc (fun _ _ _ _ _ h => by cases h)
  | _ =>
    intro n2 d w1 h1 w2 h2 hc
    exact triv _ _ d w1 h1 w2 h2 hc (fun _ _ _ _ h => by cases h)

include heq hf in
/-- Two goroutines call `Flip` if and only if there are two hash beginnings with a flip that differ where goroutines are started. -/
theorem flipper_two (g : Int) : ∀ (n1 n2 : Node T) (d : Nat), WF d n1 → n1.isNil = false → WF d n2 → n2.isNil = false → ¬ Clash n1 n2 →
    ((∃ p q, p ≠ q ∧ flipper g n1 args n2 d p = true ∧ flipper g n1 args n2 d q = true) ↔
      ∃ n m x y, FlipAtL d n (elems n1) (elems n2) x ∧ FlipAtL d m (elems n1) (elems n2) y ∧ agree d (min (min n m) g.toNat) x y = false) := by
  have seq : ∀ (n1 n2 : Node T) (d : Nat), (∀ m k m2 k2, n1 = .branch m k → n2 = .branch m2 k2 → ¬ (d : Int) < g) →
      ¬ ∃ p q, p ≠ q ∧ flipper g n1 args n2 d p = true ∧ flipper g n1 args n2 d q = true := by
    rintro n1 n2 d h ⟨p, q, hpq, h1, h2⟩
    rw [flipper_seq h] at h1 h2
    simp only [Bool.and_eq_true, List.isEmpty_iff] at h1 h2
    exact hpq (h1.1.trans h2.1.symm)
  have short : ∀ (n1 n2 : Node T) (d : Nat), ((elems n1).length < 3 ∨ (elems n2).length < 3) →
      ¬ ∃ n m x y, FlipAtL d n (elems n1) (elems n2) x ∧ FlipAtL d m (elems n1) (elems n2) y ∧ agree d (min (min n m) g.toNat) x y = false := by
    rintro n1 n2 d hl ⟨n, m, x, y, h1, h2, h3⟩
    have := flipAtL_long h1 hl
    rw [agree_ge (by omega)] at h3
    cases h3
  intro n1
  induction n1 with
  | nil => intro n2 d _ h; cases h
  | leaf1 a =>
    intro n2 d _ _ _ _ _
    exact iff_of_false (seq _ _ d (fun _ _ _ _ h => by cases h)) (short _ _ d (.inl (by simp [elems])))
  | leaf2 a b =>
    intro n2 d _ _ _ _ _
    exact iff_of_false (seq _ _ d (fun _ _ _ _ h => by cases h)) (short _ _ d (.inl (by simp [elems])))
  | twig l => intro n2 d _ _ _ h2 hc; exact absurd h2 hc
  | branch m k ih =>
    intro n2 d w1 h1 w2 h2 hc
    obtain ⟨hs, _⟩ := WF_branch.1 w1
    cases n2 with
    | nil => cases h2
    | leaf1 a => exact iff_of_false (seq _ _ d (fun _ _ _ _ _ h => by cases h)) (short _ _ d (.inr (by simp [elems])))
    | leaf2 a b => exact iff_of_false (seq _ _ d (fun _ _ _ _ _ h => by cases h)) (short _ _ d (.inr (by simp [elems])))
    | twig l => have h22 : 22 ≤ d := w2.1; have : d < 22 := hs.1; omega
    | branch m2 k2 =>
      obtain ⟨hs2, _⟩ := WF_branch.1 w2
      have hc' : ∀ i, ¬ Clash (k i) (k2 i) := fun i h => hc ⟨i, h⟩
      by_cases hg : (d : Int) < g
      · have hdg : d < g.toNat := by omega
        constructor
        · rintro ⟨p, q, hpq, hp, hq⟩
          obtain ⟨i, p, rfl, e1, e2, hp⟩ := (flipper_par hg p).1 hp
          obtain ⟨j, q, rfl, e3, e4, hq⟩ := (flipper_par hg q).1 hq
          by_cases hij : i = j
          · subst hij
            obtain ⟨n, m', x, y, hx, hy, hxy⟩ := (ih i (k2 i) (d + 1) (hs.2.2.1 i) e1 (hs2.2.2.1 i) e2 (hc' i)).1
              ⟨p, q, fun h => hpq (by rw [h]), hp, hq⟩
            obtain ⟨x', cx, ax, hx'⟩ := flipAtL_up w1 w2 hx
            obtain ⟨y', cy, ay, hy'⟩ := flipAtL_up w1 w2 hy
            refine ⟨n, m', x', y', hx', hy', ?_⟩
            rw [Bool.eq_false_iff] at hxy ⊢
            intro hc
            apply hxy
            rw [agree_iff] at ax ay hc ⊢
            intro l l1 l2
            exact (ax l l1 (by omega)).trans ((hc l (by omega) l2).trans (ay l l1 (by omega)).symm)
          · obtain ⟨n, x, hx⟩ := (flipper_exists heq hf g (k i) (k2 i) (d + 1) (hs.2.2.1 i) e1 (hs2.2.2.1 i) e2 (hc' i)).1 ⟨p, hp⟩
            obtain ⟨m', y, hy⟩ := (flipper_exists heq hf g (k j) (k2 j) (d + 1) (hs.2.2.1 j) e3 (hs2.2.2.1 j) e4 (hc' j)).1 ⟨q, hq⟩
            have hn := hx.1
            have hm := hy.1
            obtain ⟨x', cx, ax, hx'⟩ := flipAtL_up w1 w2 hx
            obtain ⟨y', cy, ay, hy'⟩ := flipAtL_up w1 w2 hy
            refine ⟨n, m', x', y', hx', hy', ?_⟩
            rw [Bool.eq_false_iff]
            intro hc
            rw [agree_iff] at hc
            have := hc d (Nat.le_refl _) (by omega)
            rw [cx, cy] at this
            exact hij this
        · rintro ⟨n, m', x, y, hx, hy, hxy⟩
          have hx' := (flipAtL_slot w1 w2 x).1 hx
          have hy' := (flipAtL_slot w1 w2 y).1 hy
          obtain ⟨e1, e2⟩ := hx'.notNil
          obtain ⟨e3, e4⟩ := hy'.notNil
          have hn := hx'.1
          have hm := hy'.1
          by_cases hij : chunk x d = chunk y d
          · rw [← hij] at hy' e3 e4
            rw [agree_step (by omega), hij] at hxy
            simp only [decide_true, Bool.true_and] at hxy
            obtain ⟨p, q, hpq, hp, hq⟩ := (ih _ _ (d + 1) (hs.2.2.1 _) e1 (hs2.2.2.1 _) e2 (hc' _)).2 ⟨n, m', x, y, hx', hy', hxy⟩
            exact ⟨_ :: p, _ :: q, fun h => hpq (List.cons.inj h).2, (flipper_par hg _).2 ⟨_, p, rfl, e1, e2, hp⟩,
              (flipper_par hg _).2 ⟨_, q, rfl, e1, e2, hq⟩⟩
          · obtain ⟨p, hp⟩ := (flipper_exists heq hf g _ _ (d + 1) (hs.2.2.1 _) e1 (hs2.2.2.1 _) e2 (hc' _)).2 ⟨n, x, hx'⟩
            obtain ⟨q, hq⟩ := (flipper_exists heq hf g _ _ (d + 1) (hs.2.2.1 _) e3 (hs2.2.2.1 _) e4 (hc' _)).2 ⟨m', y, hy'⟩
            exact ⟨_ :: p, _ :: q, fun h => hij (List.cons.inj h).1, (flipper_par hg _).2 ⟨_, p, rfl, e1, e2, hp⟩,
              (flipper_par hg _).2 ⟨_, q, rfl, e3, e4, hq⟩⟩
      · refine iff_of_false (seq _ _ d (fun _ _ _ _ _ _ => hg)) ?_
        rintro ⟨n, m', x, y, _, _, h⟩
        rw [agree_ge (by omega)] at h
        cases h

/-! ### In terms of the sets -/

theorem flipAt_iff {n : Nat} {a b : Node T} (ha : WF 0 a) (hb : WF 0 b) (x : T) :
    FlipAtL 0 n (elems a) (elems b) x ↔ FlipAt n (memL (elems a)) (memL (elems b)) x := by
  have hfl : ∀ (d : Nat) (l : List T), l.filter (agree 0 d x) = l.filter (fun e => decide (SameStart d e x)) := by
    intro d l; apply List.filter_congr; intro e _
    rw [Bool.eq_iff_iff, agree_start, decide_eq_true_eq]
    exact ⟨SameStart.symm, SameStart.symm⟩
  have hc : ∀ (d : Nat) {u v : T}, GoKey.eq u v = true → (SameStart d u x ↔ SameStart d v x) :=
    fun d u v h => SameStart.congr h (eq_refl x)
  unfold FlipAtL FlipAt
  simp only [atLeast_iff ha.distinct _ _ (hc _), atLeast_iff hb.distinct _ _ (hc _), hfl]
  constructor
  · rintro ⟨_, h1, h2, h3, h4, h5⟩
    refine ⟨h1, by omega, by omega, fun _ => by omega, fun h => ?_, h5⟩
    have := h4 h
    omega
  · rintro ⟨h1, h2, h3, h4, h5, h6⟩
    refine ⟨Nat.zero_le _, h1, by omega, ?_, fun h => ?_, h6⟩
    · by_cases hl : 2 ≤ (List.filter (fun e => decide (SameStart n e x)) (elems a)).length
      · have := h4 hl; omega
      · omega
    · have := h5 h
      omega

theorem Tree.flipFree_iff {a b : Tree T} (g : Int) (ha : a.Valid) (hb : b.Valid) (heq : args.eq = GoKey.eq) (hf : ClassPres args.f)
    (hc : ¬ Clash a.root b.root) : a.FlipFree g args b ↔ ¬ FlipClash g (memL (elems a.root)) (memL (elems b.root)) := by
  unfold Tree.FlipFree FlipClash
  by_cases h1 : a.root.isNil = false
  · by_cases h2 : b.root.isNil = false
    · have := flipper_two heq hf g a.root b.root 0 ha.1 h1 hb.1 h2 hc
      rw [← flipRace_iff (fun p => flipper_leafAt g args a.root b.root 0 p ha.1 hb.1)] at this
      simp only [flipAt_iff ha.1 hb.1] at this
      have e : ∀ (n : Nat) (x y : T), agree 0 n x y = false ↔ ¬ SameStart n x y := by
        intro n x y; rw [← agree_start, Bool.eq_false_iff]
      simp only [e] at this
      rw [← this]
      constructor
      · rintro h ⟨s, hs, hr⟩; exact h h1 h2 s hs hr
      · intro h _ _ s hs hr; exact h ⟨s, hs, hr⟩
    · refine iff_of_true (fun _ h => absurd h h2) ?_
      rintro ⟨n, m, x, y, hx, _⟩
      exact h2 ((flipAt_iff ha.1 hb.1 x).2 hx).notNil.2
  · refine iff_of_true (fun h => absurd h h1) ?_
    rintro ⟨n, m, x, y, hx, _⟩
    exact h1 ((flipAt_iff ha.1 hb.1 x).2 hx).notNil.1

theorem Tree.combineC_raceFree_iff {a b : Tree T} (g : Int) (ha : a.Valid) (hb : b.Valid) :
    (a.combineC g args b).RaceFree ↔ ¬ MaskClash g (memL (elems a.root)) (memL (elems b.root)) := by
  rw [← maskClash_iff ha.1 hb.1, ← doubles_combineC g args a.root b.root 0 ha.1 hb.1]
  unfold Tree.combineC
  split
  · rename_i h
    refine iff_of_true trivial ?_
    rw [doubles_combineC g args a.root b.root 0 ha.1 hb.1]
    intro hm
    have := hm.long
    rw [isNil_iff.1 h] at this
    simp [elems] at this
  · split
    · rename_i h
      refine iff_of_true trivial ?_
      rw [doubles_combineC g args a.root b.root 0 ha.1 hb.1]
      intro hm
      have := hm.long
      rw [isNil_iff.1 h] at this
      simp [elems] at this
    · exact raceFree_iff (atOnce_combineC g _ _ _ _) _

/-! ### Congruence and symmetry -/

omit [LawfulGoKey T] in
theorem MaskClash.congr {g : Int} {P P' Q Q' : T → Prop} (hp : ∀ x, P x ↔ P' x) (hq : ∀ x, Q x ↔ Q' x) :
    MaskClash g P Q ↔ MaskClash g P' Q' := by
  obtain rfl : P = P' := funext fun x => propext (hp x)
  obtain rfl : Q = Q' := funext fun x => propext (hq x)
  exact Iff.rfl

omit [LawfulGoKey T] in
theorem FlipClash.congr {g : Int} {P P' Q Q' : T → Prop} (hp : ∀ x, P x ↔ P' x) (hq : ∀ x, Q x ↔ Q' x) :
    FlipClash g P Q ↔ FlipClash g P' Q' := by
  obtain rfl : P = P' := funext fun x => propext (hp x)
  obtain rfl : Q = Q' := funext fun x => propext (hq x)
  exact Iff.rfl

omit [LawfulGoKey T] in
theorem MaskClash.symm {g : Int} {P Q : T → Prop} (h : MaskClash g P Q) : MaskClash g Q P := by
  obtain ⟨d, x, y, h1, h2, h3, h4, h5, h6, h7⟩ := h
  exact ⟨d, x, y, h1, h2, h3, h4.symm, h5.symm, h7, h6⟩

theorem Call.map_raceFree_iff {α β : Type} {c : Call α} (f : α → β) : (c.map f).RaceFree ↔ c.RaceFree := by
  cases c <;> exact Iff.rfl

theorem FSet.memL_iff {s : FSet T} (h : s.Valid) (w : T) : memL (elems s.tree.root) w ↔ s.Mem w := (FSet.mem_iff_list h w).symm

/-! ### Maps -/

section
variable {K V : Type} [GoKey K] [LawfulGoKey K] [Inhabited V]

omit [LawfulGoKey K] in
theorem atLeast_keys (n : Nat) (R : K → Prop) : AtLeast n (fun e : Entry K V => R e.key) ↔ AtLeast n R := by
  constructor
  · rintro ⟨l, h1, h2, h3⟩
    refine ⟨l.map (·.key), by simp [h1], ?_, ?_⟩
    · unfold PairwiseDifferent at *
      rw [List.pairwise_map]; exact h2
    · intro x hx
      obtain ⟨e, he, rfl⟩ := List.mem_map.1 hx
      exact h3 e he
  · rintro ⟨l, h1, h2, h3⟩
    refine ⟨l.map newMapKey, by simp [h1], ?_, ?_⟩
    · unfold PairwiseDifferent at *
      rw [List.pairwise_map]; exact h2
    · intro x hx
      obtain ⟨e, he, rfl⟩ := List.mem_map.1 hx
      exact h3 e he

omit [LawfulGoKey K] in
theorem lone_keys (d : Nat) (P Q : K → Prop) (x : Entry K V) :
    Lone d (fun e : Entry K V => P e.key) (fun e => Q e.key) x ↔ Lone d P Q x.key := by
  constructor
  · rintro (⟨h1, h2⟩ | ⟨h1, h2⟩)
    · exact .inl ⟨h1, fun a ha => h2 (newMapKey a) ha⟩
    · exact .inr ⟨h1, fun a ha => h2 (newMapKey a) ha⟩
  · rintro (⟨h1, h2⟩ | ⟨h1, h2⟩)
    · exact .inl ⟨h1, fun a ha => h2 a.key ha⟩
    · exact .inr ⟨h1, fun a ha => h2 a.key ha⟩

omit [LawfulGoKey K] in
theorem crowd_keys (n d : Nat) (P : K → Prop) (x : Entry K V) :
    AtLeast n (fun e : Entry K V => P e.key ∧ SameStart d e x) ↔ AtLeast n (fun e => P e ∧ SameStart d e x.key) :=
  atLeast_keys n (fun k => P k ∧ SameStart d k x.key)

omit [LawfulGoKey K] in
theorem maskClash_keys (g : Int) (P Q : K → Prop) :
    MaskClash g (fun e : Entry K V => P e.key) (fun e => Q e.key) ↔ MaskClash g P Q := by
  unfold MaskClash
  simp only [lone_keys, crowd_keys]
  constructor
  · rintro ⟨d, x, y, h⟩; exact ⟨d, x.key, y.key, h⟩
  · rintro ⟨d, x, y, h⟩; exact ⟨d, newMapKey x, newMapKey y, h⟩

omit [LawfulGoKey K] in
theorem flipClash_keys (g : Int) (P Q : K → Prop) :
    FlipClash g (fun e : Entry K V => P e.key) (fun e => Q e.key) ↔ FlipClash g P Q := by
  unfold FlipClash FlipAt
  simp only [crowd_keys]
  constructor
  · rintro ⟨n, m, x, y, h⟩; exact ⟨n, m, x.key, y.key, h⟩
  · rintro ⟨n, m, x, y, h⟩; exact ⟨n, m, newMapKey x, newMapKey y, h⟩

theorem FMap.memL_iff {m : FMap K V} (h : m.Valid) (e : Entry K V) : memL (elems m.tree.root) e ↔ m.HasKey e.key := by
  rw [FMap.hasKey_iff h, Tree.lk_find]
  simp [List.find?_isSome]
  rfl

theorem FMap.combineC_raceFree_iff {m n : FMap K V} (g : Int) (args : CombineArgs (Entry K V)) (hm : m.Valid) (hn : n.Valid) :
    (m.tree.combineC g args n.tree).RaceFree ↔ ¬ MaskClash g m.HasKey n.HasKey := by
  rw [Tree.combineC_raceFree_iff g hm hn, MaskClash.congr (FMap.memL_iff hm) (FMap.memL_iff hn), maskClash_keys]

theorem FMap.flipFree_iff {m n : FMap K V} (g : Int) {f : Entry K V → Entry K V → Entry K V} (hf : ClassPres f) (hm : m.Valid)
    (hn : n.Valid) (hc : ¬ TripleClash m.HasKey n.HasKey) : m.tree.FlipFree g ⟨mapEntryKeyEqual, f⟩ n.tree ↔ ¬ FlipClash g m.HasKey n.HasKey := by
  rw [Tree.flipFree_iff (args := ⟨mapEntryKeyEqual, f⟩) g hm hn rfl hf (by rw [FMap.clash_iff hm hn]; exact hc),
    FlipClash.congr (FMap.memL_iff hm) (FMap.memL_iff hn), flipClash_keys]

end

end Frozen
