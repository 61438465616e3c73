import Verif.Model.Memory
import Verif.Proof.With
import Mathlib.Data.Set.Basic
import Mathlib.Data.Set.Lattice

/-! Reasoning about the memory model: footprints, what a run changes, and simulation of the value-level functions. -/

set_option linter.unusedSectionVars false

namespace Frozen

variable {T : Type}

/-- The location is not allocated. -/
def Fresh (H : Mem T) : Set Loc := fun l =>
  match l with
  | .cell a => H.cells.length ≤ a
  | .arr a => H.arrays.length ≤ a

/-- The locations allocated between the two states. -/
def New (H H' : Mem T) : Set Loc := {l | l ∈ Fresh H ∧ l ∉ Fresh H'}

/-- The two states hold the same at a location. -/
def SameAt (H H' : Mem T) : Loc → Prop
  | .cell a => H'.cells[a]? = H.cells[a]?
  | .arr a => H'.arrays[a]? = H.arrays[a]?

/-- Of the allocated locations only those in `W` differ, and no others were written even temporarily; arrays do not get shorter. -/
structure Changes (W : Set Loc) (H H' : Mem T) : Prop where
  mono : ∀ l, l ∈ Fresh H' → l ∈ Fresh H
  same : ∀ l, l ∉ Fresh H → l ∉ W → SameAt H H' l
  len : ∀ (a : Nat) (la : List T), H.arrays[a]? = some la → ∃ la' : List T, H'.arrays[a]? = some la' ∧ la.length ≤ la'.length
  wrote : ∃ L : List Loc, H'.log = L ++ H.log ∧ ∀ l ∈ L, l ∈ W ∨ l ∈ Fresh H

theorem mem_fresh_cell {H : Mem T} {a : Nat} : Loc.cell a ∈ Fresh H ↔ H.cells.length ≤ a := Iff.rfl
theorem mem_fresh_arr {H : Mem T} {a : Nat} : Loc.arr a ∈ Fresh H ↔ H.arrays.length ≤ a := Iff.rfl

theorem SameAt.refl (H : Mem T) (l : Loc) : SameAt H H l := by cases l <;> rfl

theorem SameAt.trans {H H1 H2 : Mem T} {l : Loc} (h1 : SameAt H H1 l) (h2 : SameAt H1 H2 l) : SameAt H H2 l := by
  cases l
  · exact Eq.trans h2 h1
  · exact Eq.trans h2 h1

theorem Changes.refl (W : Set Loc) (H : Mem T) : Changes W H H := ⟨fun _ h => h, fun l _ _ => SameAt.refl H l, fun _ la h => ⟨la, h, Nat.le_refl _⟩,
  [], rfl, by simp⟩

theorem Changes.weaken {W W' : Set Loc} {H H' : Mem T} (h : Changes W H H') (hw : W ⊆ W' ∪ Fresh H) : Changes W' H H' :=
  ⟨h.mono, fun l h1 h2 => h.same l h1 (fun h3 => (hw h3).elim h2 h1), h.len, by
    obtain ⟨L, h1, h2⟩ := h.wrote
    exact ⟨L, h1, fun l hl => (h2 l hl).elim (fun h => hw h) .inr⟩⟩

theorem Changes.trans {W : Set Loc} {H H1 H2 : Mem T} (h1 : Changes W H H1) (h2 : Changes (W ∪ Fresh H) H1 H2) :
    Changes W H H2 :=
  ⟨fun l h => h1.mono l (h2.mono l h), fun l hf hw => (h1.same l hf hw).trans
    (h2.same l (fun h => hf (h1.mono l h)) (fun h => h.elim hw hf)), fun a la h => by
      obtain ⟨la1, e1, l1⟩ := h1.len a la h
      obtain ⟨la2, e2, l2⟩ := h2.len a la1 e1
      exact ⟨la2, e2, l1.trans l2⟩, by
    obtain ⟨L1, e1, w1⟩ := h1.wrote
    obtain ⟨L2, e2, w2⟩ := h2.wrote
    refine ⟨L2 ++ L1, by rw [e2, e1, List.append_assoc], fun l hl => ?_⟩
    rcases List.mem_append.1 hl with hl | hl
    · exact (w2 l hl).elim (fun h => h) (fun h => .inr (h1.mono l h))
    · exact w1 l hl⟩

theorem new_sub {H H1 H2 : Mem T} {W : Set Loc} (h : Changes W H1 H2) : New H H1 ⊆ New H H2 :=
  fun _ hl => ⟨hl.1, fun h2 => hl.2 (h.mono _ h2)⟩

theorem new_sub' {H H1 H2 : Mem T} {W : Set Loc} (h : Changes W H H1) : New H1 H2 ⊆ New H H2 :=
  fun _ hl => ⟨h.mono _ hl.1, hl.2⟩

theorem new_fresh {H H1 : Mem T} : New H H1 ⊆ Fresh H := fun _ hl => hl.1

/-- Running one code after the other. -/
theorem MM.run_andThen {α β : Type} (x : MM T α) (f : α → MM T β) (H : Mem T) :
    (x >>= f) H = match x H with | (.ok a, H') => f a H' | (.error e, H') => (.error e, H') := by
  show (x.andThen f).run H = _
  induction x generalizing H with
  | done r => cases r <;> rfl
  | readCell a k ih => exact ih _ H
  | readElem a i k ih => exact ih _ H
  | alloc c k ih => exact ih _ _
  | allocArr c k ih => exact ih _ _
  | writeCell a c k ih => exact ih _
  | writeElem a i v k ih => exact ih _

/-- Running `x` from `H` does what `v` says: both panic alike or both return, the results are related, and only `W` changes. -/
def Sim {α β : Type} (W : Set Loc) (H : Mem T) (x : MM T α) (v : Go β) (R : α → β → Mem T → Prop) : Prop :=
  Changes W H (x H).2 ∧
    match (x H).1, v with
    | .ok a, .ok b => R a b (x H).2
    | .error e, .error e' => e = e'
    | _, _ => False

theorem Sim.bind {α α' β β' : Type} {W : Set Loc} {H : Mem T} {x : MM T α} {v : Go β} {R : α → β → Mem T → Prop}
    {f : α → MM T α'} {g : β → Go β'} {R' : α' → β' → Mem T → Prop} (h : Sim W H x v R)
    (hf : ∀ a b H1, Changes W H H1 → R a b H1 → Sim (W ∪ Fresh H) H1 (f a) (g b) R') :
    Sim W H (x >>= f) (v >>= g) R' := by
  unfold Sim at h ⊢
  rw [MM.run_andThen]
  change _ ∧ match (match x H with | (.ok a, H') => f a H' | (.error e, H') => (.error e, H')).1, Except.bind v g with
    | .ok a, .ok b => R' a b (match x H with | (.ok a, H') => f a H' | (.error e, H') => (.error e, H')).2
    | .error e, .error e' => e = e'
    | _, _ => False
  rcases hx : x H with ⟨r, H1⟩
  rw [hx] at h
  obtain ⟨hc, hr⟩ := h
  cases r with
  | error e =>
    cases v with
    | error e' => exact ⟨hc, hr⟩
    | ok b => exact hr.elim
  | ok a =>
    cases v with
    | error e' => exact hr.elim
    | ok b =>
      have := hf a b H1 hc hr
      unfold Sim at this
      exact ⟨hc.trans this.1, this.2⟩

theorem Sim.pure {α β : Type} {W : Set Loc} {H : Mem T} {a : α} {b : β} {R : α → β → Mem T → Prop} (h : R a b H) :
    Sim W H (pure a) (.ok b) R := ⟨Changes.refl _ _, h⟩

theorem Sim.raise {α β : Type} {W : Set Loc} {H : Mem T} {e : Panic} {R : α → β → Mem T → Prop} :
    Sim W H (raise e) (.error e) R := ⟨Changes.refl _ _, rfl⟩

theorem Sim.weaken {α β : Type} {W W' : Set Loc} {H : Mem T} {x : MM T α} {v : Go β} {R R' : α → β → Mem T → Prop}
    (h : Sim W H x v R) (hw : W ⊆ W' ∪ Fresh H) (hr : ∀ a b H', Changes W H H' → R a b H' → R' a b H') : Sim W' H x v R' := by
  obtain ⟨h1, h2⟩ := h
  refine ⟨h1.weaken hw, ?_⟩
  revert h2
  cases (x H).1 <;> cases v <;> intro h2 <;> first | exact h2 | exact hr _ _ _ h1 h2

theorem Sim.mono {α β : Type} {W : Set Loc} {H : Mem T} {x : MM T α} {v : Go β} {R R' : α → β → Mem T → Prop}
    (h : Sim W H x v R) (hr : ∀ a b H', Changes W H H' → R a b H' → R' a b H') : Sim W H x v R' :=
  h.weaken Set.subset_union_left hr

/-- A step that has no counterpart at value level. -/
theorem Sim.step {α α' β' : Type} {W : Set Loc} {H H1 : Mem T} {x : MM T α} {a : α} {f : α → MM T α'} {v : Go β'}
    {R' : α' → β' → Mem T → Prop} (hx : x H = (.ok a, H1)) (hc : Changes W H H1)
    (hf : Sim (W ∪ Fresh H) H1 (f a) v R') : Sim W H (x >>= f) v R' := by
  have : Sim W H x (.ok ()) (fun a' _ H' => a' = a ∧ H' = H1) := by
    unfold Sim
    rw [hx]
    exact ⟨hc, rfl, rfl⟩
  have h := Sim.bind (g := fun _ => v) this (R' := R') (f := f) (by
    rintro a' _ H' _ ⟨rfl, rfl⟩
    exact hf)
  exact h

/-- A reading step. -/
theorem Sim.read {α α' β' : Type} {W : Set Loc} {H : Mem T} {x : MM T α} {a : α} {f : α → MM T α'} {v : Go β'}
    {R' : α' → β' → Mem T → Prop} (hx : x H = (.ok a, H)) (hf : Sim W H (f a) v R') : Sim W H (x >>= f) v R' :=
  Sim.step hx (Changes.refl _ _) (hf.weaken (fun _ h => Or.inl (Or.inl h)) (fun _ _ _ _ h => h))

/-! ## Primitive steps -/

theorem changes_alloc (W : Set Loc) (H : Mem T) (c : Cell T) : Changes W H ⟨H.cells ++ [c], H.arrays, H.log⟩ := by
  refine ⟨fun l h => ?_, fun l h _ => ?_, fun _ la h => ⟨la, h, Nat.le_refl _⟩, [], rfl, by simp⟩
  · cases l with
    | cell a => rw [mem_fresh_cell] at h ⊢; simp only [List.length_append, List.length_singleton] at h; omega
    | arr a => exact h
  · cases l with
    | cell a =>
      have : a < H.cells.length := Nat.lt_of_not_le h
      show (H.cells ++ [c])[a]? = _
      rw [List.getElem?_append_left this]
    | arr a => rfl

theorem changes_allocArr (W : Set Loc) (H : Mem T) (c : List T) : Changes W H ⟨H.cells, H.arrays ++ [c], H.log⟩ := by
  refine ⟨fun l h => ?_, fun l h _ => ?_, fun a la h => ⟨la, ?_, Nat.le_refl _⟩, [], rfl, by simp⟩
  · cases l with
    | arr a => rw [mem_fresh_arr] at h ⊢; simp only [List.length_append, List.length_singleton] at h; omega
    | cell a => exact h
  · cases l with
    | arr a =>
      have : a < H.arrays.length := Nat.lt_of_not_le h
      show (H.arrays ++ [c])[a]? = _
      rw [List.getElem?_append_left this]
    | cell a => rfl
  · show (H.arrays ++ [c])[a]? = _
    rw [List.getElem?_append_left (List.getElem?_eq_some_iff.1 h).1, h]

theorem changes_writeCell {W : Set Loc} (H : Mem T) (a : Nat) (c : Cell T) (hw : .cell a ∈ W) :
    Changes W H ⟨H.cells.set a c, H.arrays, .cell a :: H.log⟩ := by
  refine ⟨fun l h => ?_, fun l _ hl => ?_, fun _ la h => ⟨la, h, Nat.le_refl _⟩, [.cell a], rfl, by simp [hw]⟩
  · cases l with
    | cell b => rw [mem_fresh_cell] at h ⊢; simpa using h
    | arr b => exact h
  · cases l with
    | cell b =>
      have : a ≠ b := fun e => hl (e ▸ hw)
      show (H.cells.set a c)[b]? = _
      rw [List.getElem?_set_ne this]
    | arr b => rfl

theorem changes_writeArr {W : Set Loc} (H : Mem T) (a i : Nat) (v : T) (hw : .arr a ∈ W) :
    Changes W H ⟨H.cells, H.arrays.modify a (fun l => l.take i ++ v :: l.drop (i + 1)), .arr a :: H.log⟩ := by
  refine ⟨fun l h => ?_, fun l _ hl => ?_, fun b la h => ?_, [.arr a], rfl, by simp [hw]⟩
  · cases l with
    | arr b => rw [mem_fresh_arr] at h ⊢; simpa using h
    | cell b => exact h
  · cases l with
    | arr b =>
      have : a ≠ b := fun e => hl (e ▸ hw)
      show (H.arrays.modify a _)[b]? = _
      rw [List.getElem?_modify]; simp [this]
    | cell b => rfl
  · simp only [List.getElem?_modify, h]
    by_cases hab : a = b
    · exact ⟨_, by simp only [hab, if_true]; rfl, by simp; omega⟩
    · exact ⟨la, by simp [hab], Nat.le_refl _⟩

theorem readCell_eq {H : Mem T} {a : Nat} {c : Cell T} (h : H.cells[a]? = some c) : readCell a H = (.ok c, H) := by
  show (MM.run _ H) = _
  simp only [readCell, MM.run, h]
  rfl

theorem slice_eq {H : Mem T} {s : Slice} {la : List T} (h : H.arrays[s.arr]? = some la) (hl : s.len ≤ la.length) :
    H.slice s = .ok (la.take s.len) := by
  unfold Mem.slice
  by_cases h0 : s.len = 0
  · rw [if_pos h0, h0, List.take_zero]
  · rw [if_neg h0, h]; exact if_pos hl

theorem readFrom_eq (arr : Nat) (H : Mem T) {la : List T} (h : H.arrays[arr]? = some la) : ∀ (n i : Nat),
    readFrom arr i n H =
      (if n = 0 ∨ i + n ≤ la.length then .ok ((la.drop i).take n) else .error (.msg "index out of range"), H)
  | 0, i => by simp [readFrom]; rfl
  | n + 1, i => by
    unfold readFrom
    simp only [MM.run, h, Option.bind_some]
    cases hi : la[i]? with
    | none =>
      have := List.getElem?_eq_none_iff.1 hi
      rw [if_neg (by omega)]
      rfl
    | some e =>
      obtain ⟨h1, h2⟩ := List.getElem?_eq_some_iff.1 hi
      simp only
      rw [MM.run_andThen, readFrom_eq arr H h n (i + 1), List.drop_eq_getElem_cons h1, List.take_succ_cons, h2]
      by_cases hc : i + (n + 1) ≤ la.length
      · rw [if_pos (by omega), if_pos (by omega)]; rfl
      · rw [if_neg (by omega), if_neg (by omega)]

theorem readSlice_run (s : Slice) (H : Mem T) : readSlice s H = (H.slice s, H) := by
  unfold readSlice Mem.slice
  cases h : H.arrays[s.arr]? with
  | none =>
    cases hn : s.len with
    | zero => rfl
    | succ n => unfold readFrom; simp only [MM.run, h]; rfl
  | some la =>
    rw [readFrom_eq s.arr H h, List.drop_zero, Nat.zero_add]
    by_cases h0 : s.len = 0
    · rw [if_pos (.inl h0), if_pos h0, h0, List.take_zero]
    · rw [if_neg h0]; simp only [h0, false_or]

theorem readSlice_eq {H : Mem T} {s : Slice} {la : List T} (h : H.arrays[s.arr]? = some la) (hl : s.len ≤ la.length) :
    readSlice s H = (.ok (la.take s.len), H) := by
  rw [readSlice_run, slice_eq h hl]

theorem run_bind {α β : Type} {x : MM T α} {f : α → MM T β} {H H1 : Mem T} {a : α} (h : x H = (.ok a, H1)) :
    (x >>= f) H = f a H1 := by
  rw [MM.run_andThen, h]

/-! ## Trees in memory -/

/-- The pointer represents the node `n` at depth `d`, and everything it reaches lies in `F`. Twigs exist only from depth 22 on and
have at least three elements; branches only above. -/
inductive Rep (H : Mem T) (F : Set Loc) : Nat → Ptr → Node T → Prop
  | nil (d : Nat) : Rep H F d none .nil
  | leaf1 {d a : Nat} {x : T} (h : H.cells[a]? = some (.leaf1 x)) (hF : .cell a ∈ F) : Rep H F d (some a) (.leaf1 x)
  | leaf2 {d a : Nat} {x y : T} (h : H.cells[a]? = some (.leaf2 x y)) (hF : .cell a ∈ F) : Rep H F d (some a) (.leaf2 x y)
  | twig {d a : Nat} {s : Slice} {la l : List T} (hd : maxTreeDepth ≤ d) (h : H.cells[a]? = some (.twig s))
      (hF : .cell a ∈ F) (ha : H.arrays[s.arr]? = some la) (hFa : .arr s.arr ∈ F) (h3 : 3 ≤ s.len) (hl : s.len ≤ la.length)
      (hs : la.take s.len = l) : Rep H F d (some a) (.twig l)
  | branch {d a : Nat} {m : Masker} {k : Fin 8 → Ptr} {kn : Fin 8 → Node T} (hd : d < maxTreeDepth)
      (h : H.cells[a]? = some (.branch m k)) (hF : .cell a ∈ F) (hk : ∀ i, Rep H F (d + 1) (k i) (kn i)) :
      Rep H F d (some a) (.branch m kn)

/-- Like `Rep`, and no location is reached along two paths: the pointer owns its footprint `F`. -/
inductive Own (H : Mem T) : Set Loc → Nat → Ptr → Node T → Prop
  | nil (F : Set Loc) (d : Nat) : Own H F d none .nil
  | leaf1 {F : Set Loc} {d a : Nat} {x : T} (h : H.cells[a]? = some (.leaf1 x)) (hF : .cell a ∈ F) :
      Own H F d (some a) (.leaf1 x)
  | leaf2 {F : Set Loc} {d a : Nat} {x y : T} (h : H.cells[a]? = some (.leaf2 x y)) (hF : .cell a ∈ F) :
      Own H F d (some a) (.leaf2 x y)
  | twig {F : Set Loc} {d a : Nat} {s : Slice} {la l : List T} (hd : maxTreeDepth ≤ d) (h : H.cells[a]? = some (.twig s))
      (hF : .cell a ∈ F) (ha : H.arrays[s.arr]? = some la) (hFa : .arr s.arr ∈ F) (h3 : 3 ≤ s.len) (hl : s.len ≤ la.length)
      (hs : la.take s.len = l) : Own H F d (some a) (.twig l)
  | branch {F : Set Loc} {d a : Nat} {m : Masker} {k : Fin 8 → Ptr} {kn : Fin 8 → Node T} (Fs : Fin 8 → Set Loc)
      (hd : d < maxTreeDepth) (h : H.cells[a]? = some (.branch m k)) (hF : .cell a ∈ F)
      (hk : ∀ i, Own H (Fs i) (d + 1) (k i) (kn i)) (hsub : ∀ i, Fs i ⊆ F) (hna : ∀ i, .cell a ∉ Fs i)
      (hdis : ∀ i j, i ≠ j → ∀ l ∈ Fs i, l ∉ Fs j) : Own H F d (some a) (.branch m kn)

theorem Rep.mono {H : Mem T} {F F' : Set Loc} {d : Nat} {p : Ptr} {n : Node T} (h : Rep H F d p n) (hF : F ⊆ F') :
    Rep H F' d p n := by
  induction h with
  | nil d => exact .nil d
  | leaf1 h hf => exact .leaf1 h (hF hf)
  | leaf2 h hf => exact .leaf2 h (hF hf)
  | twig hd h hf ha hfa h3 hl hs => exact .twig hd h (hF hf) ha (hF hfa) h3 hl hs
  | branch hd h hf _ ih => exact .branch hd h (hF hf) ih

theorem Own.mono {H : Mem T} {F F' : Set Loc} {d : Nat} {p : Ptr} {n : Node T} (h : Own H F d p n) (hF : F ⊆ F') :
    Own H F' d p n := by
  cases h with
  | nil _ d => exact .nil _ _
  | leaf1 h hf => exact .leaf1 h (hF hf)
  | leaf2 h hf => exact .leaf2 h (hF hf)
  | twig hd h hf ha hfa h3 hl hs => exact .twig hd h (hF hf) ha (hF hfa) h3 hl hs
  | branch Fs hd h hf hk hsub hna hdis => exact .branch Fs hd h (hF hf) hk (fun i => (hsub i).trans hF) hna hdis

theorem Own.rep {H : Mem T} {F : Set Loc} {d : Nat} {p : Ptr} {n : Node T} (h : Own H F d p n) : Rep H F d p n := by
  induction h with
  | nil _ d => exact .nil d
  | leaf1 h hf => exact .leaf1 h hf
  | leaf2 h hf => exact .leaf2 h hf
  | twig hd h hf ha hfa h3 hl hs => exact .twig hd h hf ha hfa h3 hl hs
  | branch Fs hd h hf _ hsub _ _ ih => exact .branch hd h hf (fun i => (ih i).mono (hsub i))

theorem getElem?_lt {α : Type} {l : List α} {a : Nat} {c : α} (h : l[a]? = some c) : a < l.length := by
  rcases Nat.lt_or_ge a l.length with h' | h'
  · exact h'
  · rw [List.getElem?_eq_none h'] at h; cases h

theorem Changes.cell {W : Set Loc} {H H' : Mem T} (hc : Changes W H H') {a : Nat} {c : Cell T} (h : H.cells[a]? = some c)
    (hw : .cell a ∉ W) : H'.cells[a]? = some c := by
  rw [← h]; exact hc.same (.cell a) (by rw [mem_fresh_cell]; have := getElem?_lt h; omega) hw

theorem Changes.arr {W : Set Loc} {H H' : Mem T} (hc : Changes W H H') {a : Nat} {c : List T} (h : H.arrays[a]? = some c)
    (hw : .arr a ∉ W) : H'.arrays[a]? = some c := by
  rw [← h]; exact hc.same (.arr a) (by rw [mem_fresh_arr]; have := getElem?_lt h; omega) hw

theorem Rep.frame {H H' : Mem T} {F W : Set Loc} {d : Nat} {p : Ptr} {n : Node T} (h : Rep H F d p n) (hc : Changes W H H')
    (hd : ∀ l ∈ F, l ∉ W) : Rep H' F d p n := by
  induction h with
  | nil d => exact .nil d
  | leaf1 h hf => exact .leaf1 (hc.cell h (hd _ hf)) hf
  | leaf2 h hf => exact .leaf2 (hc.cell h (hd _ hf)) hf
  | twig hd' h hf ha hfa h3 hl hs => exact .twig hd' (hc.cell h (hd _ hf)) hf (hc.arr ha (hd _ hfa)) hfa h3 hl hs
  | branch hd' h hf _ ih => exact .branch hd' (hc.cell h (hd _ hf)) hf ih

theorem Own.frame {H H' : Mem T} {F W : Set Loc} {d : Nat} {p : Ptr} {n : Node T} (h : Own H F d p n) (hc : Changes W H H')
    (hd : ∀ l ∈ F, l ∉ W) : Own H' F d p n := by
  induction h with
  | nil _ d => exact .nil _ d
  | leaf1 h hf => exact .leaf1 (hc.cell h (hd _ hf)) hf
  | leaf2 h hf => exact .leaf2 (hc.cell h (hd _ hf)) hf
  | twig hd' h hf ha hfa h3 hl hs => exact .twig hd' (hc.cell h (hd _ hf)) hf (hc.arr ha (hd _ hfa)) hfa h3 hl hs
  | branch Fs hd' h hf _ hsub hna hdis ih =>
    exact .branch Fs hd' (hc.cell h (hd _ hf)) hf (fun i => ih i (fun l hl => hd l (hsub i hl))) hsub hna hdis

/-- `Rep` survives changes outside its footprint, also when `W` covers locations that are not allocated. -/
theorem Rep.frame' {H H' : Mem T} {F W : Set Loc} {d : Nat} {p : Ptr} {n : Node T} (h : Rep H F d p n) (hc : Changes W H H')
    (hd : ∀ l ∈ F, l ∈ W → l ∈ Fresh H) : Rep H' F d p n := by
  refine h.frame (hc.weaken (W' := {l | l ∈ W ∧ l ∉ Fresh H}) ?_) (fun l hl hw => hw.2 (hd l hl hw.1))
  intro l hl
  by_cases hf : l ∈ Fresh H
  · exact .inr hf
  · exact .inl ⟨hl, hf⟩

theorem Rep.isNone {H : Mem T} {F : Set Loc} {d : Nat} {p : Ptr} {n : Node T} (h : Rep H F d p n) : p.isNone = n.isNil := by
  cases h <;> rfl

/-! ## Reading -/

variable [GoKey T]

/-- Enough fuel for a tree at depth `d`. -/
def FuelOk (d fuel : Nat) : Prop := maxTreeDepth + 1 ≤ d + fuel ∧ 0 < fuel

theorem FuelOk.succ {d fuel : Nat} (h : FuelOk d (fuel + 1)) (hd : d < maxTreeDepth) : FuelOk (d + 1) fuel := by
  have := h.1
  exact ⟨by omega, by omega⟩

theorem fuelOk_mem (d : Nat) : FuelOk d memFuel := ⟨by unfold memFuel; have : maxTreeDepth = 22 := rfl; omega, by decide⟩

theorem getM_eq {H : Mem T} {F : Set Loc} {d : Nat} {p : Ptr} {n : Node T} (h : Rep H F d p n) (fuel : Nat) (v : T) (hh : Hasher)
    (hf : FuelOk d fuel) : getM H fuel p v hh = get n v hh := by
  induction h generalizing fuel hh with
  | nil d => obtain ⟨f, rfl⟩ := Nat.exists_eq_succ_of_ne_zero hf.2.ne'; rfl
  | leaf1 h _ => obtain ⟨f, rfl⟩ := Nat.exists_eq_succ_of_ne_zero hf.2.ne'; simp only [getM, h, get]
  | leaf2 h _ => obtain ⟨f, rfl⟩ := Nat.exists_eq_succ_of_ne_zero hf.2.ne'; simp only [getM, h, get]
  | twig _ h _ ha _ _ hl hs =>
    obtain ⟨f, rfl⟩ := Nat.exists_eq_succ_of_ne_zero hf.2.ne'
    simp only [getM, h, get, slice_eq ha hl, hs]; rfl
  | branch hd h _ hk ih =>
    obtain ⟨f, rfl⟩ := Nat.exists_eq_succ_of_ne_zero hf.2.ne'
    simp only [getM, h, get, (hk _).isNone]
    split
    · rfl
    · exact ih _ f _ (hf.succ hd)

/-- The code of `Get` returns what `getM` says. -/
theorem getP_run (H : Mem T) : ∀ (fuel : Nat) (p : Ptr) (v : T) (h : Hasher), getP fuel p v h H = (getM H fuel p v h, H)
  | 0, _, _, _ => rfl
  | _ + 1, none, _, _ => rfl
  | fuel + 1, some a, v, h => by
    cases hc : H.cells[a]? with
    | none => simp only [getP, getM, hc]; rw [MM.run_andThen]; simp only [readCell, MM.run, hc]; rfl
    | some c =>
      simp only [getP, getM, hc]
      rw [run_bind (readCell_eq hc)]
      cases c with
      | leaf1 x => rfl
      | leaf2 x y => rfl
      | twig s => simp only; rw [MM.run_andThen, readSlice_run]; cases H.slice s <;> rfl
      | branch m k =>
        simp only
        split
        · rfl
        · exact getP_run H fuel _ v _

theorem foldlM_collect {α β : Type} (l : List α) (f : α → Go (List β)) (g : α → List β) (acc : List β)
    (h : ∀ a, f a = .ok (g a)) :
    l.foldlM (fun acc a => do let x ← f a; pure (acc ++ x)) acc = (.ok (acc ++ l.flatMap g) : Go (List β)) := by
  induction l generalizing acc with
  | nil => simp [pure, Except.pure]
  | cons a l ih =>
    rw [List.foldlM_cons, h a, List.flatMap_cons, ← List.append_assoc]
    exact ih _

theorem elemsM_eq {H : Mem T} {F : Set Loc} {d : Nat} {p : Ptr} {n : Node T} (h : Rep H F d p n) (fuel : Nat)
    (hf : FuelOk d fuel) : elemsM H fuel p = .ok (elems n) := by
  induction h generalizing fuel with
  | nil d => obtain ⟨f, rfl⟩ := Nat.exists_eq_succ_of_ne_zero hf.2.ne'; rfl
  | leaf1 h _ => obtain ⟨f, rfl⟩ := Nat.exists_eq_succ_of_ne_zero hf.2.ne'; simp only [elemsM, h, elems]
  | leaf2 h _ => obtain ⟨f, rfl⟩ := Nat.exists_eq_succ_of_ne_zero hf.2.ne'; simp only [elemsM, h, elems]
  | twig _ h _ ha _ _ hl hs =>
    obtain ⟨f, rfl⟩ := Nat.exists_eq_succ_of_ne_zero hf.2.ne'
    simp only [elemsM, h, elems, slice_eq ha hl, hs]
  | branch hd h _ hk ih =>
    obtain ⟨f, rfl⟩ := Nat.exists_eq_succ_of_ne_zero hf.2.ne'
    simp only [elemsM, h, elems]
    refine foldlM_collect _ _ (fun i => elems _) [] (fun i => ?_)
    exact ih i f (hf.succ hd)

theorem foldlM_run {α β : Type} {f : β → α → MM T β} {g : β → α → Go β} {H : Mem T} (h : ∀ b a, f b a H = (g b a, H)) :
    ∀ (l : List α) (b : β), l.foldlM f b H = (l.foldlM g b, H)
  | [], _ => rfl
  | a :: l, b => by
    rw [List.foldlM_cons, List.foldlM_cons, MM.run_andThen, h]
    cases hg : g b a with
    | error e => rfl
    | ok b' => exact foldlM_run h l b'

/-- The code of `AppendTo` returns what `appendToM` says. -/
theorem appendToP_run (cap : Nat) (H : Mem T) : ∀ (fuel : Nat) (p : Ptr) (dest : List T),
    appendToP cap fuel p dest H = (appendToM cap H fuel p dest, H)
  | 0, _, _ => rfl
  | _ + 1, none, _ => rfl
  | fuel + 1, some a, dest => by
    cases hc : H.cells[a]? with
    | none => simp only [appendToP, appendToM, hc]; rw [MM.run_andThen]; simp only [readCell, MM.run, hc]; rfl
    | some c =>
      simp only [appendToP, appendToM, hc]
      rw [run_bind (readCell_eq hc)]
      cases c with
      | leaf1 x => rfl
      | leaf2 x y => rfl
      | twig s =>
        simp only
        split
        · rfl
        · rw [MM.run_andThen, readSlice_run]; cases H.slice s <;> rfl
      | branch m k =>
        refine foldlM_run (fun acc i => ?_) _ _
        cases acc with
        | none => rfl
        | some dest =>
          simp only
          split
          · rfl
          · exact appendToP_run cap H fuel _ dest

/-- The code of an iteration collects what `elemsM` says. -/
theorem elemsP_run (H : Mem T) : ∀ (fuel : Nat) (p : Ptr), elemsP fuel p H = (elemsM H fuel p, H)
  | 0, _ => rfl
  | _ + 1, none => rfl
  | fuel + 1, some a => by
    cases hc : H.cells[a]? with
    | none => simp only [elemsP, elemsM, hc]; rw [MM.run_andThen]; simp only [readCell, MM.run, hc]; rfl
    | some c =>
      simp only [elemsP, elemsM, hc]
      rw [run_bind (readCell_eq hc)]
      cases c with
      | leaf1 x => rfl
      | leaf2 x y => rfl
      | twig s => exact readSlice_run s H
      | branch m k =>
        refine foldlM_run (fun acc i => ?_) _ _
        rw [MM.run_andThen, elemsP_run H fuel (k i)]
        cases elemsM H fuel (k i) <;> rfl

theorem foldlM_congr' {α β : Type} {f g : β → α → Go β} (l : List α) (h : ∀ a ∈ l, ∀ b, f b a = g b a) (b : β) :
    l.foldlM f b = l.foldlM g b := by
  induction l generalizing b with
  | nil => rfl
  | cons a l ih =>
    rw [List.foldlM_cons, List.foldlM_cons, h a (List.mem_cons_self ..) b]
    congr 1
    funext b'
    exact ih (fun a' h' => h a' (List.mem_cons_of_mem _ h')) b'

theorem appendToM_eq (cap : Nat) {H : Mem T} {F : Set Loc} {d : Nat} {p : Ptr} {n : Node T} (h : Rep H F d p n) (fuel : Nat)
    (dest : List T) (hf : FuelOk d fuel) : appendToM cap H fuel p dest = appendTo cap n dest := by
  induction h generalizing fuel dest with
  | nil d => obtain ⟨f, rfl⟩ := Nat.exists_eq_succ_of_ne_zero hf.2.ne'; rfl
  | leaf1 h _ => obtain ⟨f, rfl⟩ := Nat.exists_eq_succ_of_ne_zero hf.2.ne'; simp only [appendToM, h, appendTo]
  | leaf2 h _ => obtain ⟨f, rfl⟩ := Nat.exists_eq_succ_of_ne_zero hf.2.ne'; simp only [appendToM, h, appendTo]
  | @twig _ _ s la l _ h _ ha _ _ hl hs =>
    obtain ⟨f, rfl⟩ := Nat.exists_eq_succ_of_ne_zero hf.2.ne'
    have hll : l.length = s.len := by rw [← hs]; simp; omega
    simp only [appendToM, h, appendTo, slice_eq ha hl, hs, hll]
    split <;> rfl
  | branch hd h _ hk ih =>
    obtain ⟨f, rfl⟩ := Nat.exists_eq_succ_of_ne_zero hf.2.ne'
    simp only [appendToM, h, appendTo]
    apply foldlM_congr'
    intro i _ acc
    cases acc with
    | none => rfl
    | some dest =>
      simp only [(hk i).isNone]
      split
      · rfl
      · exact ih i f dest (hf.succ hd)

end Frozen
