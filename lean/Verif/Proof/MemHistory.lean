import Verif.Proof.MemTree
import Verif.Spec.History

/-! The invariant of histories: sets share a region `S` of the memory, each builder owns a region of its own. -/

set_option linter.unusedSectionVars false

namespace Frozen

variable {T : Type} [GoKey T] [LawfulGoKey T]

/-- With `strict`, the sets in memory are the ones of the value model; otherwise they are just trees. -/
structure HistInv (strict : Bool) (w : World T) (vw : VWorld T) (S : Set Loc) (B : Nat → Set Loc) : Prop where
  live : Live w.mem S
  sets : ∀ (i : Nat) (s : MTree), w.sets[i]? = some s → ∃ n, Rep w.mem S 0 s.root n ∧
    (strict = true → vw.sets[i]? = some (s.val n) ∧ (s.val n).Valid)
  setsLen : strict = true → w.sets.length = vw.sets.length
  blen : w.builders.length = vw.builders.length
  blds : ∀ (k : Nat) (b : MTree), w.builders[k]? = some b → ∃ n, Own w.mem (B k) 0 b.root n ∧ vw.builders[k]? = some (b.val n) ∧ (b.val n).Valid
  blive : ∀ k, Live w.mem (B k)
  dis : ∀ k, ∀ l ∈ B k, l ∉ S
  dis2 : ∀ k k', k ≠ k' → ∀ l ∈ B k, l ∉ B k'

theorem new_mem {H : Mem T} {S : Set Loc} (h : Live H S) {H' : Mem T} {l : Loc} (hl : l ∈ New H H') : l ∉ S := fun hs => h l hs hl.1

theorem HistInv.push {strict : Bool} {w : World T} {vw : VWorld T} {S : Set Loc} {B : Nat → Set Loc} {W : Set Loc}
    (h : HistInv strict w vw S B) {r : Go MTree × Mem T} {v : Go (Tree T)} (hc : Changes W w.mem r.2) (hW : W ⊆ arrs S)
    (hst : strict = true → W = ∅)
    (hok : ∀ t, r.1 = .ok t → ∃ n, Rep r.2 (S ∪ New w.mem r.2) 0 t.root n ∧ (strict = true → v = .ok (t.val n) ∧ (t.val n).Valid))
    (herr : strict = true → ∀ e, r.1 = .error e → v = .error e) :
    HistInv strict (w.push r) (vw.push v) (S ∪ New w.mem r.2) B := by
  have hvb : (vw.push v).builders = vw.builders := by cases v <;> rfl
  have hmem : (w.push r).mem = r.2 := by unfold World.push; cases r.1 <;> rfl
  have hbl : (w.push r).builders = w.builders := by unfold World.push; cases r.1 <;> rfl
  have hold : ∀ (i : Nat) (s : MTree), w.sets[i]? = some s → ∃ n, Rep r.2 (S ∪ New w.mem r.2) 0 s.root n ∧
      (strict = true → vw.sets[i]? = some (s.val n) ∧ (s.val n).Valid) := by
    intro i s hs
    obtain ⟨n, hn, hv⟩ := h.sets i s hs
    cases strict with
    | true =>
      have := hst rfl
      subst this
      exact ⟨n, (hn.next hc).mono Set.subset_union_left, hv⟩
    | false =>
      obtain ⟨n', hn'⟩ := hn.shape hc (fun a _ hw => absurd (hW hw) (arrs_cell S a))
      exact ⟨n', hn'.mono Set.subset_union_left, fun h => nomatch h⟩
  refine ⟨?_, ?_, ?_, ?_, ?_, ?_, ?_, h.dis2⟩
  · rw [hmem]; exact (h.live.next hc).union (live_new _ _)
  · rw [hmem]
    intro i s hs
    unfold World.push at hs
    cases hr : r.1 with
    | error e =>
      rw [hr] at hs
      obtain ⟨n, hn, hv⟩ := hold i s hs
      refine ⟨n, hn, fun hst' => ?_⟩
      subst hst'
      rw [herr rfl e hr]
      exact hv rfl
    | ok t =>
      rw [hr] at hs
      obtain ⟨nt, hnt, hvt⟩ := hok t hr
      dsimp only at hs
      rcases Nat.lt_or_ge i w.sets.length with hi | hi
      · rw [List.getElem?_append_left hi] at hs
        obtain ⟨n, hn, hv⟩ := hold i s hs
        refine ⟨n, hn, fun hst' => ?_⟩
        subst hst'
        rw [(hvt rfl).1]
        refine ⟨?_, (hv rfl).2⟩
        show (vw.sets ++ [t.val nt])[i]? = _
        rw [List.getElem?_append_left (by rw [← h.setsLen rfl]; exact hi)]
        exact (hv rfl).1
      · rw [List.getElem?_append_right hi] at hs
        have hi0 : i - w.sets.length = 0 := by
          have := getElem?_lt hs
          simpa using this
        rw [hi0] at hs
        cases hs
        refine ⟨nt, hnt, fun hst' => ?_⟩
        subst hst'
        rw [(hvt rfl).1]
        refine ⟨?_, (hvt rfl).2⟩
        show (vw.sets ++ [s.val nt])[i]? = _
        rw [List.getElem?_append_right (by rw [← h.setsLen rfl]; exact hi), ← h.setsLen rfl, hi0]
        rfl
  · intro hst'
    subst hst'
    unfold World.push
    cases hr : r.1 with
    | error e => rw [herr rfl e hr]; exact h.setsLen rfl
    | ok t =>
      obtain ⟨nt, hnt, hvt⟩ := hok t hr
      rw [(hvt rfl).1]
      show (w.sets ++ [t]).length = (vw.sets ++ [t.val nt]).length
      simp [h.setsLen rfl]
  · rw [hvb, hbl]; exact h.blen
  · rw [hvb, hbl, hmem]
    intro k b hb
    obtain ⟨n, ho, hv⟩ := h.blds k b hb
    exact ⟨n, ho.frame hc (fun l hl hw => h.dis k l hl (hW hw).1), hv⟩
  · rw [hmem]; exact fun k => (h.blive k).next hc
  · rintro k l hl (hs | hs)
    · exact h.dis k l hl hs
    · exact new_mem (h.blive k) hs hl

theorem HistInv.update {strict : Bool} {w : World T} {vw : VWorld T} {S : Set Loc} {B : Nat → Set Loc}
    (h : HistInv strict w vw S B) {k : Nat} {b0 : MTree} (hk : w.builders[k]? = some b0) {r : Go MTree × Mem T} {v : Go (Tree T)}
    (hc : Changes (B k) w.mem r.2)
    (hok : ∃ t n, r.1 = .ok t ∧ Own r.2 (B k ∪ New w.mem r.2) 0 t.root n ∧ v = .ok (t.val n) ∧ (t.val n).Valid) :
    HistInv strict (w.update k r) (vw.update k v) S (fun j => if j = k then B k ∪ New w.mem r.2 else B j) := by
  obtain ⟨t, nt, ht, hown, hv, hvalid⟩ := hok
  have hw : w.update k r = ⟨r.2, w.sets, w.builders.set k t⟩ := by unfold World.update; rw [ht]
  have hvw : vw.update k v = ⟨vw.sets, vw.builders.set k (t.val nt)⟩ := by unfold VWorld.update; rw [hv]
  have hsk : ∀ l ∈ S, l ∉ B k := fun l hl hb => h.dis k l hb hl
  have hlt := getElem?_lt hk
  rw [hw, hvw]
  refine ⟨h.live.next hc, ?_, h.setsLen, by simpa using h.blen, ?_, ?_, ?_, ?_⟩
  · intro i s hs
    obtain ⟨n, hn, hv⟩ := h.sets i s hs
    exact ⟨n, hn.frame hc hsk, hv⟩
  · intro j b hb
    dsimp only at hb ⊢
    by_cases hj : j = k
    · subst hj
      rw [List.getElem?_set_self hlt] at hb
      cases hb
      refine ⟨nt, ?_, List.getElem?_set_self (by rw [← h.blen]; exact hlt), hvalid⟩
      rw [if_pos rfl]; exact hown
    · rw [List.getElem?_set_ne (Ne.symm hj)] at hb ⊢
      obtain ⟨n, ho, hv⟩ := h.blds j b hb
      refine ⟨n, ?_, hv⟩
      rw [if_neg hj]
      exact ho.frame hc (h.dis2 j k hj)
  · intro j
    dsimp only
    by_cases hj : j = k
    · rw [if_pos hj]; exact ((h.blive k).next hc).union (live_new _ _)
    · rw [if_neg hj]; exact (h.blive j).next hc
  · intro j l hl
    by_cases hj : j = k
    · simp only [if_pos hj] at hl
      rcases hl with hl | hl
      · exact h.dis k l hl
      · exact new_mem h.live hl
    · simp only [if_neg hj] at hl
      exact h.dis j l hl
  · intro i j hij l hl hl'
    by_cases hi : i = k
    · simp only [if_pos hi] at hl
      have hj : j ≠ k := fun e => hij (hi.trans e.symm)
      simp only [if_neg hj] at hl'
      rcases hl with hl | hl
      · exact h.dis2 k j (Ne.symm hj) l hl hl'
      · exact new_mem (h.blive j) hl hl'
    · simp only [if_neg hi] at hl
      by_cases hj : j = k
      · simp only [if_pos hj] at hl'
        rcases hl' with hl' | hl'
        · exact h.dis2 i k hi l hl hl'
        · exact new_mem (h.blive i) hl' hl
      · simp only [if_neg hj] at hl'
        exact h.dis2 i j hij l hl hl'

theorem tree_has {s : MTree} {H : Mem T} {S : Set Loc} {n : Node T} (hr : Rep H S 0 s.root n) (hv : (s.val n).Valid) (w : T) :
    s.Has H w ↔ memL (elems n) w := by
  unfold MTree.Has
  rw [MTree.get_eq hr, Tree.get_spec hv, memL_find]
  show (∃ e, (Except.ok (look n w) : Go (Option T)) = .ok (some e)) ↔ _
  unfold look
  cases (elems n).find? (fun e => GoKey.eq e w) <;> simp

theorem crowded_iff {P Q : T → Prop} (h : ∀ w, P w ↔ Q w) (v : T) : Crowded P v ↔ CrowdAt 0 Q v := by
  unfold Crowded CrowdAt
  have : ∀ w, (P w ∧ GoKey.eq w v = false ∧ hash0 w = hash0 v) ↔ (Q w ∧ GoKey.eq w v = false ∧ agree 0 22 w v = true) := by
    intro w; rw [h w, agree_22]
  exact ⟨fun hc => AtLeast.imp hc (fun w hw => (this w).1 hw), fun hc => AtLeast.imp hc (fun w hw => (this w).2 hw)⟩

/-- How one call changes the regions: that of the sets grows by what builders had or by new memory, those of builders by new memory. -/
structure Grown (H : Mem T) (S : Set Loc) (B : Nat → Set Loc) (S' : Set Loc) (B' : Nat → Set Loc) : Prop where
  sub : S ⊆ S'
  up : ∀ l ∈ S', l ∈ S ∨ (∃ k, l ∈ B k) ∨ l ∈ Fresh H
  bup : ∀ k, ∀ l ∈ B' k, l ∈ B k ∨ l ∈ Fresh H

theorem Grown.refl (H : Mem T) (S : Set Loc) (B : Nat → Set Loc) : Grown H S B S B := ⟨fun _ h => h, fun _ h => .inl h, fun _ _ h => .inl h⟩

theorem Grown.trans {H H1 : Mem T} {W : Set Loc} {S S1 S2 : Set Loc} {B B1 B2 : Nat → Set Loc} (h1 : Grown H S B S1 B1)
    (hc : Changes W H H1) (h2 : Grown H1 S1 B1 S2 B2) : Grown H S B S2 B2 := by
  refine ⟨h1.sub.trans h2.sub, fun l hl => ?_, fun k l hl => ?_⟩
  · rcases h2.up l hl with h | ⟨k, h⟩ | h
    · exact h1.up l h
    · exact .inr ((h1.bup k l h).imp (fun h => ⟨k, h⟩) id)
    · exact .inr (.inr (hc.mono l h))
  · rcases h2.bup k l hl with h | h
    · exact h1.bup k l h
    · exact .inr (hc.mono l h)

/-- What one call leaves alone. The region of the sets only grows. -/
structure StepOk (strict : Bool) (w : World T) (S : Set Loc) (B : Nat → Set Loc) (op : HOp T) (w' : World T) (vw' : VWorld T) : Prop where
  inv : ∃ S' B', Grown w.mem S B S' B' ∧ HistInv strict w' vw' S' B'
  chg : ∃ W, Changes W w.mem w'.mem ∧ (op.mayAppend = false ∨ strict = true → ∀ l ∈ S, l ∉ W) ∧
    (∀ k, op.builder ≠ some k → ∀ l ∈ B k, l ∉ W) ∧ ∀ a, Loc.cell a ∈ S → Loc.cell a ∉ W
  sets : ∀ (i : Nat) (s : MTree), w.sets[i]? = some s → w'.sets[i]? = some s
  blds : ∀ (k : Nat) (b : MTree), op.builder ≠ some k → w.builders[k]? = some b → w'.builders[k]? = some b


theorem World.push_sets {w : World T} {r : Go MTree × Mem T} {i : Nat} {s : MTree} (h : w.sets[i]? = some s) :
    (w.push r).sets[i]? = some s := by
  unfold World.push
  cases r.1 with
  | error e => exact h
  | ok t => show (w.sets ++ [t])[i]? = _; rw [List.getElem?_append_left (getElem?_lt h)]; exact h

theorem StepOk.push {strict : Bool} {w : World T} {vw : VWorld T} {S : Set Loc} {B : Nat → Set Loc} {W : Set Loc}
    (h : HistInv strict w vw S B) {op : HOp T} {x : MM T MTree} {v : Go (Tree T)} (hc : Changes W w.mem (x w.mem).2) (hW : W ⊆ arrs S)
    (hst : op.mayAppend = false ∨ strict = true → W = ∅)
    (hok : ∀ t, (x w.mem).1 = .ok t → ∃ n, Rep (x w.mem).2 (S ∪ New w.mem (x w.mem).2) 0 t.root n ∧
      (strict = true → v = .ok (t.val n) ∧ (t.val n).Valid))
    (herr : strict = true → ∀ e, (x w.mem).1 = .error e → v = .error e) :
    StepOk strict w S B op (w.push (x w.mem)) (vw.push v) := by
  have hmem : (w.push (x w.mem)).mem = (x w.mem).2 := by unfold World.push; cases (x w.mem).1 <;> rfl
  have hbl : (w.push (x w.mem)).builders = w.builders := by unfold World.push; cases (x w.mem).1 <;> rfl
  refine ⟨⟨_, _, ⟨Set.subset_union_left, fun l hl => hl.imp id (fun h => .inr h.1), fun _ _ h => .inl h⟩,
    h.push hc hW (fun hs => hst (.inr hs)) hok herr⟩, ⟨W, by rw [hmem]; exact hc, ?_, ?_, fun a _ hw => absurd (hW hw) (arrs_cell S a)⟩, fun i s hs => World.push_sets hs, ?_⟩
  · intro ha l _ hw; rw [hst ha] at hw; exact hw
  · intro k _ l hl hw; exact h.dis k l hl (hW hw).1
  · intro k b _ hb; rw [hbl]; exact hb

/-- The case of a call that writes to no shared place. -/
theorem StepOk.sim {strict : Bool} {w : World T} {vw : VWorld T} {S : Set Loc} {B : Nat → Set Loc}
    (h : HistInv strict w vw S B) {op : HOp T} {x : MM T MTree} {v v' : Go (Tree T)} (hx : Sim ∅ w.mem x v (TreeRes w.mem S))
    (hv : strict = true → v' = v ∧ ∀ t, v = .ok t → t.Valid) :
    StepOk strict w S B op (w.push (x w.mem)) (vw.push v') := by
  obtain ⟨hc, hr⟩ := hx
  refine StepOk.push h hc (fun _ h => h.elim) (fun _ => rfl) ?_ ?_
  · intro t ht
    rw [ht] at hr
    cases v with
    | error e => exact hr.elim
    | ok t' =>
      refine ⟨t'.root, hr.2, fun hs => ?_⟩
      have : t' = t.val t'.root := by
        have h1 : t.count = t'.count := hr.1
        cases t'; simp only [MTree.val, h1]
      rw [← this]
      exact ⟨(hv hs).1, (hv hs).2 t' rfl⟩
  · intro hs e he
    rw [he] at hr
    cases v with
    | ok t' => exact hr.elim
    | error e' => obtain rfl : e = e' := hr; exact (hv hs).1

theorem StepOk.skip {strict : Bool} {w : World T} {vw : VWorld T} {S : Set Loc} {B : Nat → Set Loc}
    (h : HistInv strict w vw S B) {op : HOp T} (vw' : VWorld T) (hb : vw'.builders = vw.builders) (hs : strict = true → vw' = vw) :
    StepOk strict w S B op w vw' := by
  refine ⟨⟨S, B, Grown.refl _ _ _, ?_⟩, ⟨∅, Changes.refl _ _, fun _ _ _ h => h, fun _ _ _ _ h => h, fun _ _ h => h⟩, fun _ _ h => h, fun _ _ _ h => h⟩
  cases strict with
  | true => rw [hs rfl]; exact h
  | false =>
    refine ⟨h.live, ?_, (nomatch ·), by rw [hb]; exact h.blen, by rw [hb]; exact h.blds, h.blive, h.dis, h.dis2⟩
    intro i s hs
    obtain ⟨n, hn, _⟩ := h.sets i s hs
    exact ⟨n, hn, (nomatch ·)⟩

theorem VWorld.push_builders (vw : VWorld T) (v : Go (Tree T)) : (vw.push v).builders = vw.builders := by cases v <;> rfl

theorem VWorld.on_builders (vw : VWorld T) (i : Nat) (f : Tree T → Go (Tree T)) : (vw.on i f).builders = vw.builders := by
  unfold VWorld.on
  cases vw.sets[i]? with
  | none => rfl
  | some s => exact vw.push_builders _

theorem VWorld.on2_builders (vw : VWorld T) (i j : Nat) (f : Tree T → Tree T → Go (Tree T)) : (vw.on2 i j f).builders = vw.builders := by
  unfold VWorld.on2
  cases vw.sets[i]? with
  | none => rfl
  | some s =>
    cases vw.sets[j]? with
    | none => rfl
    | some t => exact vw.push_builders _

/-- Outside strict mode the sets of the value model do not matter. -/
theorem StepOk.loose {w w' : World T} {vw1 vw2 : VWorld T} {S : Set Loc} {B : Nat → Set Loc} {op : HOp T}
    (h : StepOk false w S B op w' vw1) (hb : vw2.builders = vw1.builders) : StepOk false w S B op w' vw2 := by
  obtain ⟨⟨S', B', hsub, hi⟩, h2, h3, h4⟩ := h
  refine ⟨⟨S', B', hsub, ?_⟩, h2, h3, h4⟩
  refine ⟨hi.live, ?_, (nomatch ·), by rw [hb]; exact hi.blen, by rw [hb]; exact hi.blds, hi.blive, hi.dis, hi.dis2⟩
  intro i s hs
  obtain ⟨n, hn, _⟩ := hi.sets i s hs
  exact ⟨n, hn, (nomatch ·)⟩

theorem none_sets {w : World T} {vw : VWorld T} {S : Set Loc} {B : Nat → Set Loc} (h : HistInv true w vw S B) {i : Nat}
    (hi : w.sets[i]? = none) : vw.sets[i]? = none := by
  rw [List.getElem?_eq_none_iff] at hi ⊢
  rw [← h.setsLen rfl]; exact hi

theorem StepOk.on {strict : Bool} {w : World T} {vw : VWorld T} {S : Set Loc} {B : Nat → Set Loc} (h : HistInv strict w vw S B)
    {op : HOp T} (i : Nat) (f : MTree → MM T MTree) (g : Tree T → Go (Tree T))
    (hf : ∀ s n (v' : Go (Tree T)), w.sets[i]? = some s → Rep w.mem S 0 s.root n → (strict = true → (s.val n).Valid) →
      (strict = true → v' = g (s.val n)) → StepOk strict w S B op (w.push (f s w.mem)) (vw.push v')) :
    StepOk strict w S B op (w.on i f) (vw.on i g) := by
  cases hs : w.sets[i]? with
  | none =>
    have : w.on i f = w := by unfold World.on; rw [hs]
    rw [this]
    refine StepOk.skip h _ (vw.on_builders i g) (fun hst => ?_)
    subst hst
    unfold VWorld.on
    rw [none_sets h hs]
  | some s =>
    have hw : w.on i f = w.push (f s w.mem) := by unfold World.on; rw [hs]
    rw [hw]
    obtain ⟨n, hn, hv⟩ := h.sets i s hs
    cases strict with
    | true =>
      have : vw.on i g = vw.push (g (s.val n)) := by unfold VWorld.on; rw [(hv rfl).1]
      rw [this]
      exact hf s n _ hs hn (fun _ => (hv rfl).2) (fun _ => rfl)
    | false =>
      exact (hf s n (g (s.val n)) hs hn (nomatch ·) (nomatch ·)).loose ((vw.on_builders i g).trans (vw.push_builders _).symm)

theorem StepOk.on2 {strict : Bool} {w : World T} {vw : VWorld T} {S : Set Loc} {B : Nat → Set Loc} (h : HistInv strict w vw S B)
    {op : HOp T} (i j : Nat) (f : MTree → MTree → MM T MTree) (g : Tree T → Tree T → Go (Tree T))
    (hf : ∀ s t n m (v' : Go (Tree T)), w.sets[i]? = some s → w.sets[j]? = some t → Rep w.mem S 0 s.root n → Rep w.mem S 0 t.root m →
      (strict = true → (s.val n).Valid) → (strict = true → (t.val m).Valid) →
      (strict = true → v' = g (s.val n) (t.val m)) → StepOk strict w S B op (w.push (f s t w.mem)) (vw.push v')) :
    StepOk strict w S B op (w.on2 i j f) (vw.on2 i j g) := by
  cases hs : w.sets[i]? with
  | none =>
    have : w.on2 i j f = w := by unfold World.on2; rw [hs]
    rw [this]
    refine StepOk.skip h _ (vw.on2_builders i j g) (fun hst => ?_)
    subst hst
    unfold VWorld.on2
    rw [none_sets h hs]
  | some s =>
    cases ht : w.sets[j]? with
    | none =>
      have : w.on2 i j f = w := by unfold World.on2; rw [hs, ht]
      rw [this]
      refine StepOk.skip h _ (vw.on2_builders i j g) (fun hst => ?_)
      subst hst
      unfold VWorld.on2
      rw [none_sets h ht]
      cases vw.sets[i]? <;> rfl
    | some t =>
      have hw : w.on2 i j f = w.push (f s t w.mem) := by unfold World.on2; rw [hs, ht]
      rw [hw]
      obtain ⟨n, hn, hv⟩ := h.sets i s hs
      obtain ⟨m, hm, hu⟩ := h.sets j t ht
      cases strict with
      | true =>
        have : vw.on2 i j g = vw.push (g (s.val n) (t.val m)) := by unfold VWorld.on2; rw [(hv rfl).1, (hu rfl).1]
        rw [this]
        exact hf s t n m _ hs ht hn hm (fun _ => (hv rfl).2) (fun _ => (hu rfl).2) (fun _ => rfl)
      | false =>
        exact (hf s t n m (g (s.val n) (t.val m)) hs ht hn hm (nomatch ·) (nomatch ·) (nomatch ·)).loose
          ((vw.on2_builders i j g).trans (vw.push_builders _).symm)

theorem StepOk.onBuilder {strict : Bool} {w : World T} {vw : VWorld T} {S : Set Loc} {B : Nat → Set Loc} (h : HistInv strict w vw S B)
    {op : HOp T} (k : Nat) (hop : op.builder = some k) (f : MTree → MM T MTree) (g : Tree T → Go (Tree T))
    (hf : ∀ b n, Own w.mem (B k) 0 b.root n → (b.val n).Valid →
      Sim (B k) w.mem (f b) (g (b.val n)) (fun r s H' => r.count = s.count ∧ Own H' (B k ∪ New w.mem H') 0 r.root s.root) ∧
      ∃ t, g (b.val n) = .ok t ∧ t.Valid) :
    StepOk strict w S B op (w.onBuilder k f) (vw.onBuilder k g) := by
  cases hb : w.builders[k]? with
  | none =>
    have h1 : w.onBuilder k f = w := by unfold World.onBuilder; rw [hb]
    have h2 : vw.onBuilder k g = vw := by
      unfold VWorld.onBuilder
      have : vw.builders[k]? = none := by
        rw [List.getElem?_eq_none_iff] at hb ⊢
        rw [← h.blen]; exact hb
      rw [this]
    rw [h1, h2]
    exact StepOk.skip h _ rfl (fun _ => rfl)
  | some b =>
    obtain ⟨n, ho, hvb, hv⟩ := h.blds k b hb
    have h1 : w.onBuilder k f = w.update k (f b w.mem) := by unfold World.onBuilder; rw [hb]
    have h2 : vw.onBuilder k g = vw.update k (g (b.val n)) := by unfold VWorld.onBuilder; rw [hvb]
    rw [h1, h2]
    obtain ⟨⟨hc, hr⟩, t', ht', hvt⟩ := hf b n ho hv
    rw [ht'] at hr ⊢
    cases hx : (f b w.mem).1 with
    | error e => rw [hx] at hr; exact hr.elim
    | ok t =>
      rw [hx] at hr
      have he : t' = t.val t'.root := by
        have h1 : t.count = t'.count := hr.1
        cases t'; simp only [MTree.val, h1]
      have hmem : (w.update k (f b w.mem)) = ⟨(f b w.mem).2, w.sets, w.builders.set k t⟩ := by unfold World.update; rw [hx]
      refine ⟨⟨_, _, ⟨fun _ h => h, fun _ h => .inl h, fun j l hl => ?_⟩, h.update hb hc ⟨t, t'.root, hx, hr.2, by rw [← he], by rw [← he]; exact hvt⟩⟩, ⟨B k, ?_, ?_, ?_, fun a hs hb => h.dis k _ hb hs⟩, ?_, ?_⟩
      · split at hl
        · rename_i hj
          subst hj
          exact hl.imp id (fun h => h.1)
        · exact .inl hl
      · rw [hmem]; exact hc
      · intro _ l hl hb; exact h.dis k l hb hl
      · intro j hj l hl; exact h.dis2 j k (fun e => hj (by rw [hop, e])) l hl
      · rw [hmem]; exact fun _ _ hs => hs
      · rw [hmem]
        intro j b' hj hb'
        show (w.builders.set k t)[j]? = _
        rw [List.getElem?_set_ne (fun e => hj (by rw [hop, e]))]
        exact hb'

theorem live_empty (H : Mem T) : Live H ∅ := fun _ h => h.elim

theorem HistInv.init (strict : Bool) : HistInv strict (World.init : World T) ⟨[], []⟩ ∅ (fun _ => ∅) :=
  ⟨live_empty _, fun i s h => by simp [World.init] at h, fun _ => rfl, rfl, fun i s h => by simp [World.init] at h, fun _ => live_empty _,
    fun _ _ h => h.elim, fun _ _ _ _ h => h.elim⟩

theorem getElem?_snoc {α : Type} {l : List α} {a b : α} {i : Nat} (h : (l ++ [a])[i]? = some b) :
    l[i]? = some b ∨ (i = l.length ∧ b = a) := by
  rcases Nat.lt_or_ge i l.length with hi | hi
  · rw [List.getElem?_append_left hi] at h; exact .inl h
  · rw [List.getElem?_append_right hi] at h
    have hi0 : i - l.length = 0 := by
      have := getElem?_lt h
      simpa using this
    rw [hi0] at h
    cases h
    exact .inr ⟨by omega, rfl⟩

/-- `Finish` gives the builder's memory to the sets. -/
theorem finish_ok {strict : Bool} {w : World T} {vw : VWorld T} {S : Set Loc} {B : Nat → Set Loc} (h : HistInv strict w vw S B)
    (G : Growth) (k : Nat) : StepOk strict w S B (.finish k) (w.step G (.finish k)) (vw.step (.finish k)) := by
  cases hb : w.builders[k]? with
  | none =>
    have h1 : w.step G (.finish k) = w := by simp only [World.step, hb]
    have h2 : vw.step (.finish k) = vw := by
      have : vw.builders[k]? = none := by
        rw [List.getElem?_eq_none_iff] at hb ⊢
        rw [← h.blen]; exact hb
      simp only [VWorld.step, this]
    rw [h1, h2]
    exact StepOk.skip h _ rfl (fun _ => rfl)
  | some b =>
    obtain ⟨n, ho, hvb, hv⟩ := h.blds k b hb
    have h1 : w.step G (.finish k) = ⟨w.mem, w.sets ++ [b], w.builders.set k MTree.zero⟩ := by simp only [World.step, hb]
    have h2 : vw.step (.finish k) = ⟨vw.sets ++ [b.val n], vw.builders.set k Tree.zero⟩ := by simp only [VWorld.step, hvb]
    have hlt := getElem?_lt hb
    rw [h1, h2]
    refine ⟨⟨S ∪ B k, fun j => if j = k then ∅ else B j, ⟨Set.subset_union_left, fun l hl => hl.imp id (fun h => .inl ⟨k, h⟩),
      fun j l hl => ?_⟩, ?_⟩, ⟨∅, Changes.refl _ _, fun _ _ _ h => h, fun _ _ _ _ h => h, fun _ _ h => h⟩, ?_, ?_⟩
    · split at hl
      · exact hl.elim
      · exact .inl hl
    · refine ⟨h.live.union (h.blive k), ?_, ?_, by simpa using h.blen, ?_, ?_, ?_, ?_⟩
      · intro i s hs
        rcases getElem?_snoc hs with hs | ⟨hi, rfl⟩
        · obtain ⟨m, hm, hvm⟩ := h.sets i s hs
          refine ⟨m, hm.mono Set.subset_union_left, fun hst => ⟨?_, (hvm hst).2⟩⟩
          show (vw.sets ++ [b.val n])[i]? = _
          rw [List.getElem?_append_left (by rw [← h.setsLen hst]; exact getElem?_lt hs)]
          exact (hvm hst).1
        · refine ⟨n, ho.rep.mono Set.subset_union_right, fun hst => ⟨?_, hv⟩⟩
          show (vw.sets ++ [s.val n])[i]? = _
          rw [hi, h.setsLen hst]
          simp
      · intro hst
        show (w.sets ++ [b]).length = (vw.sets ++ [b.val n]).length
        simp [h.setsLen hst]
      · intro j b' hb'
        dsimp only at hb' ⊢
        by_cases hj : j = k
        · subst hj
          rw [List.getElem?_set_self hlt] at hb'
          cases hb'
          exact ⟨.nil, .nil _ _, List.getElem?_set_self (by rw [← h.blen]; exact hlt), Tree.valid_zero⟩
        · rw [List.getElem?_set_ne (Ne.symm hj)] at hb' ⊢
          rw [if_neg hj]
          exact h.blds j b' hb'
      · intro j
        dsimp only
        split
        · exact live_empty _
        · exact h.blive j
      · intro j l hl
        by_cases hj : j = k
        · simp only [if_pos hj] at hl; exact hl.elim
        · simp only [if_neg hj] at hl
          rintro (hs | hs)
          · exact h.dis j l hl hs
          · exact h.dis2 j k hj l hl hs
      · intro i j hij l hl hl'
        by_cases hi : i = k
        · simp only [if_pos hi] at hl; exact hl.elim
        · by_cases hj : j = k
          · simp only [if_pos hj] at hl'; exact hl'.elim
          · simp only [if_neg hi] at hl
            simp only [if_neg hj] at hl'
            exact h.dis2 i j hij l hl hl'
    · intro i s hs
      show (w.sets ++ [b])[i]? = _
      rw [List.getElem?_append_left (getElem?_lt hs)]; exact hs
    · intro j b' hj hb'
      show (w.builders.set k MTree.zero)[j]? = _
      rw [List.getElem?_set_ne (fun e => hj (by rw [e]; rfl))]
      exact hb'

theorem newBuilder_ok {strict : Bool} {w : World T} {vw : VWorld T} {S : Set Loc} {B : Nat → Set Loc} (h : HistInv strict w vw S B)
    (G : Growth) : StepOk strict w S B .newBuilder (w.step G .newBuilder) (vw.step .newBuilder) := by
  show StepOk strict w S B .newBuilder ⟨w.mem, w.sets, w.builders ++ [MTree.zero]⟩ ⟨vw.sets, vw.builders ++ [Tree.zero]⟩
  refine ⟨⟨S, fun j => if j = w.builders.length then ∅ else B j, ⟨fun _ h => h, fun _ h => .inl h, fun j l hl => ?_⟩, ?_⟩, ⟨∅, Changes.refl _ _, fun _ _ _ h => h, fun _ _ _ _ h => h, fun _ _ h => h⟩,
    fun _ _ h => h, ?_⟩
  · split at hl
    · exact hl.elim
    · exact .inl hl
  · refine ⟨h.live, h.sets, h.setsLen, by simp [h.blen], ?_, ?_, ?_, ?_⟩
    · intro j b' hb'
      dsimp only at hb' ⊢
      rcases getElem?_snoc hb' with hb' | ⟨hj, rfl⟩
      · have hlt := getElem?_lt hb'
        rw [if_neg (by omega), List.getElem?_append_left (by rw [← h.blen]; exact hlt)]
        exact h.blds j b' hb'
      · refine ⟨.nil, .nil _ _, ?_, Tree.valid_zero⟩
        rw [hj, h.blen]
        simp [MTree.val, MTree.zero, Tree.zero]
    · intro j
      dsimp only
      split
      · exact live_empty _
      · exact h.blive j
    · intro j l hl
      by_cases hj : j = w.builders.length
      · simp only [if_pos hj] at hl; exact hl.elim
      · simp only [if_neg hj] at hl; exact h.dis j l hl
    · intro i j hij l hl hl'
      by_cases hi : i = w.builders.length
      · simp only [if_pos hi] at hl; exact hl.elim
      · by_cases hj : j = w.builders.length
        · simp only [if_pos hj] at hl'; exact hl'.elim
        · simp only [if_neg hi] at hl
          simp only [if_neg hj] at hl'
          exact h.dis2 i j hij l hl hl'
  · intro j b' hj hb'
    show (w.builders ++ [MTree.zero])[j]? = _
    rw [List.getElem?_append_left (getElem?_lt hb')]; exact hb'

theorem empty_ok {strict : Bool} {w : World T} {vw : VWorld T} {S : Set Loc} {B : Nat → Set Loc} (h : HistInv strict w vw S B)
    (G : Growth) : StepOk strict w S B .empty (w.step G .empty) (vw.step .empty) := by
  have hx : Sim ∅ w.mem (pure MTree.zero) (.ok Tree.zero) (TreeRes w.mem S) := Sim.pure ⟨rfl, .nil _⟩
  exact StepOk.sim h (op := .empty) (v' := .ok Tree.zero) hx (fun _ => ⟨rfl, fun t ht => by cases ht; exact Tree.valid_zero⟩)

theorem step_ok (G : Growth) {strict : Bool} {w : World T} {vw : VWorld T} {S : Set Loc} {B : Nat → Set Loc}
    (h : HistInv strict w vw S B) (op : HOp T) (hu : strict = true → Uncrowded w op) :
    StepOk strict w S B op (w.step G op) (vw.step op) := by
  cases op with
  | empty => exact empty_ok h G
  | newBuilder => exact newBuilder_ok h G
  | finish k => exact finish_ok h G k
  | add k v =>
    refine StepOk.onBuilder h k rfl (fun b => b.add G v) (fun b => Builder.add b v) (fun b n ho hv => ⟨MTree.add_sim G ho (h.blive k) v, ?_⟩)
    obtain ⟨t, h1, h2, _⟩ := Builder.add_spec hv v
    exact ⟨t, h1, h2⟩
  | remove k v =>
    refine StepOk.onBuilder h k rfl (fun b => b.remove G v) (fun b => Builder.remove b v) (fun b n ho hv => ⟨MTree.remove_sim G ho (h.blive k) v, ?_⟩)
    obtain ⟨t, h1, h2, _⟩ := Builder.remove_spec hv v
    exact ⟨t, h1, h2⟩
  | without i v =>
    refine StepOk.on h i (fun s => s.without G v) (fun s => s.without v) (fun s n v' _ hr hv hg =>
      StepOk.sim h (MTree.without_sim G hr h.live v) (fun hst => ⟨hg hst, fun t ht => ?_⟩))
    obtain ⟨t', h1, h2, _⟩ := Tree.without_spec (hv hst) v
    rw [h1] at ht; cases ht; exact h2
  | «where» i p =>
    refine StepOk.on h i (fun s => s.where G p) (fun s => s.where p) (fun s n v' _ hr hv hg =>
      StepOk.sim h (MTree.where_sim G hr h.live p) (fun hst => ⟨hg hst, fun t ht => ?_⟩))
    obtain ⟨t', h1, h2, _⟩ := Tree.where_spec (hv hst) p
    rw [h1] at ht; cases ht; exact h2
  | intersection i j =>
    refine StepOk.on2 h i j (fun s t => s.intersection G t) (fun s t => s.intersection t) (fun s t n m v' _ _ hr hr2 hv hv2 hg =>
      StepOk.sim h (MTree.intersection_sim G hr hr2 h.live) (fun hst => ⟨hg hst, fun t ht => ?_⟩))
    obtain ⟨t', h1, h2, _⟩ := Tree.intersection_spec (hv hst) (hv2 hst)
    rw [h1] at ht; cases ht; exact h2
  | difference i j =>
    refine StepOk.on2 h i j (fun s t => s.difference G t) (fun s t => s.difference t) (fun s t n m v' _ _ hr hr2 hv hv2 hg =>
      StepOk.sim h (MTree.difference_sim G hr hr2 h.live) (fun hst => ⟨hg hst, fun t ht => ?_⟩))
    obtain ⟨t', h1, h2, _⟩ := Tree.difference_spec (hv hst) (hv2 hst)
    rw [h1] at ht; cases ht; exact h2
  | «with» i v =>
    refine StepOk.on h i (fun s => s.with G v) (fun s => s.with v) (fun s n v' hs hr hv hg => ?_)
    cases strict with
    | true =>
      have hV := hv rfl
      have hna : NoAppend GoKey.eq n v (newHasher v 0) := by
        refine noAppend_of n 0 v hV.wf ?_
        refine (hu rfl s hs).imp (fun hh => (tree_has hr hV v).1 hh) (fun hh hc => hh ?_)
        exact (crowded_iff (fun w => tree_has hr hV w) v).2 hc
      refine StepOk.sim h ((MTree.with_sim G hr h.live v (W := ∅) (fun _ h => h) (.inl hna)).mono
        (fun a b H' _ hh => ⟨hh.1, hh.2.1 rfl⟩)) (fun hst => ⟨hg hst, fun t ht => ?_⟩)
      obtain ⟨t', h1, h2, _⟩ := Tree.with_spec hV v
      rw [h1] at ht; cases ht; exact h2
    | false =>
      have hk := MTree.with_sim G hr h.live v (W := arrs S) (arrs_cell S) (.inr (fun _ h => h))
      obtain ⟨hc, hp⟩ := hk.keeps (Post := fun r H' => ∃ n', Rep H' (S ∪ New w.mem H') 0 r.root n') (fun a b H' _ hh => hh.2.2)
      refine StepOk.push h hc (fun _ h => h) (by simp [HOp.mayAppend]) ?_ (nomatch ·)
      intro t ht
      obtain ⟨n', hn'⟩ := hp t ht
      exact ⟨n', hn', (nomatch ·)⟩
  | merge i j f =>
    refine StepOk.on2 h i j (fun s t => s.combine G ⟨GoKey.eq, f⟩ t) (fun s t => s.combine ⟨GoKey.eq, f⟩ t)
      (fun s t n m v' hs ht hr hr2 hv hv2 hg => ?_)
    cases strict with
    | true =>
      have hV := hv rfl
      have hV2 := hv2 rfl
      obtain ⟨hf, hcr⟩ := hu rfl
      have hsafe : SafeAt 0 (memL (elems n)) (memL (elems m)) := by
        intro e he hc
        rcases hcr s t hs ht e with hh | hh
        · rw [tree_has hr hV, tree_has hr2 hV2] at hh
          rcases he with he | he
          · exact he.2 (hh.1 he.1)
          · exact he.2 (hh.2 he.1)
        · exact hh ((crowded_iff (fun u => by rw [tree_has hr hV, tree_has hr2 hV2]) e).2 hc)
      have hcs := combineSafe_of (args := ⟨GoKey.eq, f⟩) rfl hf n 0 m hV.wf hV2.wf hsafe
      refine StepOk.sim h (MTree.combine_sim G hr hr2 h.live _ hcs) (fun hst => ⟨hg hst, fun t ht => ?_⟩)
      have hsp := Tree.combine_spec hV hV2 (args := ⟨GoKey.eq, f⟩) rfl hf
      by_cases hcl : Clash n m
      · rw [hsp.1 hcl] at ht; cases ht
      · obtain ⟨t', h1, h2, _⟩ := hsp.2 hcl
        rw [h1] at ht; cases ht; exact h2
    | false =>
      obtain ⟨hc, hp⟩ := MTree.combine_keeps G hr hr2 h.live ⟨GoKey.eq, f⟩
      refine StepOk.push h hc (fun _ h => h) (by simp [HOp.mayAppend]) ?_ (nomatch ·)
      intro t ht
      obtain ⟨n', hn'⟩ := hp t ht
      exact ⟨n', hn', (nomatch ·)⟩


theorem get_total : ∀ (n : Node T) (v : T) (hh : Hasher), n.isNil = false → ∃ r, get n v hh = .ok r
  | .nil, _, _, h => by cases h
  | .leaf1 _, _, _, _ => ⟨_, rfl⟩
  | .leaf2 _ _, _, _, _ => ⟨_, rfl⟩
  | .twig _, _, _, _ => ⟨_, rfl⟩
  | .branch _ k, v, hh, _ => by
    unfold get
    by_cases hn : (k hh.idx).isNil = true
    · rw [if_pos hn]; exact ⟨_, rfl⟩
    · rw [if_neg hn]; exact get_total (k hh.idx) v hh.next (by simpa using hn)

theorem sameView_of {H H' : Mem T} {S S' : Set Loc} {s : MTree} {n : Node T} (h : Rep H S 0 s.root n) (h' : Rep H' S' 0 s.root n) :
    SameView H H' s := by
  refine ⟨fun v => by rw [MTree.get_eq h, MTree.get_eq h'], fun v => ?_, ?_, _, elemsM_eq h memFuel (fuelOk_mem 0)⟩
  · rw [MTree.get_eq h]
    unfold Tree.get MTree.val
    by_cases hn : n.isNil = true
    · rw [if_pos hn]; exact ⟨_, rfl⟩
    · rw [if_neg hn]; exact get_total n v _ (by simpa using hn)
  · unfold MTree.elems
    rw [elemsM_eq h memFuel (fuelOk_mem 0), elemsM_eq h' memFuel (fuelOk_mem 0)]

theorem SameView.trans {H H1 H2 : Mem T} {s : MTree} (h1 : SameView H H1 s) (h2 : SameView H1 H2 s) : SameView H H2 s :=
  ⟨fun v => (h2.get v).trans (h1.get v), h1.ok, h2.elems.trans h1.elems, h1.elemsOk⟩

theorem StepOk.view {strict : Bool} {w w' : World T} {vw vw' : VWorld T} {S : Set Loc} {B : Nat → Set Loc} {op : HOp T}
    (h : HistInv strict w vw S B) (hs : StepOk strict w S B op w' vw') (ho : op.mayAppend = false ∨ strict = true)
    {i : Nat} {s : MTree} (hi : w.sets[i]? = some s) : SameView w.mem w'.mem s := by
  obtain ⟨n, hn, _⟩ := h.sets i s hi
  obtain ⟨W, hc, hW, _⟩ := hs.chg
  exact sameView_of hn (hn.frame hc (hW ho))

theorem StepOk.bview {strict : Bool} {w w' : World T} {vw vw' : VWorld T} {S : Set Loc} {B : Nat → Set Loc} {op : HOp T}
    (h : HistInv strict w vw S B) (hs : StepOk strict w S B op w' vw') {k : Nat} (hk : op.builder ≠ some k)
    {b : MTree} (hb : w.builders[k]? = some b) : SameView w.mem w'.mem b := by
  obtain ⟨n, ho, _⟩ := h.blds k b hb
  obtain ⟨W, hc, _, hW, _⟩ := hs.chg
  exact sameView_of ho.rep (ho.rep.frame hc (hW k hk))

theorem run_inv (G : Growth) {strict : Bool} : ∀ (ops : List (HOp T)) {w : World T} {vw : VWorld T} {S : Set Loc} {B : Nat → Set Loc},
    HistInv strict w vw S B → (strict = true → UncrowdedRun G w ops) → ∃ S' B', HistInv strict (w.run G ops) (vw.run ops) S' B'
  | [], _, _, S, B, h, _ => ⟨S, B, h⟩
  | op :: ops, w, vw, S, B, h, hu => by
    obtain ⟨⟨S', B', _, h'⟩, _⟩ := step_ok G h op (fun hs => (hu hs).1)
    exact run_inv G ops h' (fun hs => (hu hs).2)

/-- The regions after a history. -/
theorem run_grown (G : Growth) {strict : Bool} : ∀ (ops : List (HOp T)) {w : World T} {vw : VWorld T} {S : Set Loc} {B : Nat → Set Loc},
    HistInv strict w vw S B → (strict = true → UncrowdedRun G w ops) →
    ∃ S' B', Grown w.mem S B S' B' ∧ HistInv strict (w.run G ops) (vw.run ops) S' B'
  | [], _, _, S, B, h, _ => ⟨S, B, Grown.refl _ _ _, h⟩
  | op :: ops, w, vw, S, B, h, hu => by
    obtain ⟨⟨S1, B1, hg, h'⟩, ⟨W, hc, _⟩, _, _⟩ := step_ok G h op (fun hs => (hu hs).1)
    obtain ⟨S2, B2, hg2, h2⟩ := run_grown G ops h' (fun hs => (hu hs).2)
    exact ⟨S2, B2, hg.trans hc hg2, h2⟩

theorem run_view (G : Growth) {strict : Bool} : ∀ (ops : List (HOp T)) {w : World T} {vw : VWorld T} {S : Set Loc} {B : Nat → Set Loc},
    HistInv strict w vw S B → (strict = true → UncrowdedRun G w ops) → (strict = true ∨ ∀ op ∈ ops, op.mayAppend = false) →
    ∀ {i : Nat} {s : MTree}, w.sets[i]? = some s → (w.run G ops).sets[i]? = some s ∧ SameView w.mem (w.run G ops).mem s
  | [], _, _, _, _, h, _, _, i, s, hs => by
    obtain ⟨n, hn, _⟩ := h.sets i s hs
    exact ⟨hs, sameView_of hn hn⟩
  | op :: ops, w, vw, S, B, h, hu, ho, i, s, hs => by
    have hst := step_ok G h op (fun hs => (hu hs).1)
    have hv := hst.view h (ho.symm.imp (fun hh => hh op (by simp)) id) hs
    obtain ⟨⟨S', B', _, h'⟩, _, h3, _⟩ := hst
    obtain ⟨h1, h2⟩ := run_view G ops h' (fun hs => (hu hs).2) (ho.imp id (fun hh op hop => hh op (by simp [hop]))) (h3 i s hs)
    exact ⟨h1, hv.trans h2⟩

theorem run_bview (G : Growth) : ∀ (ops : List (HOp T)) {w : World T} {vw : VWorld T} {S : Set Loc} {B : Nat → Set Loc},
    HistInv false w vw S B → ∀ {k : Nat}, (∀ op ∈ ops, op.builder ≠ some k) →
    ∀ {b : MTree}, w.builders[k]? = some b → (w.run G ops).builders[k]? = some b ∧ SameView w.mem (w.run G ops).mem b
  | [], _, _, _, _, h, k, _, b, hb => by
    obtain ⟨n, hn, _⟩ := h.blds k b hb
    exact ⟨hb, sameView_of hn.rep hn.rep⟩
  | op :: ops, w, vw, S, B, h, k, ho, b, hb => by
    have hst := step_ok G h op (nomatch ·)
    have hv := hst.bview h (ho op (by simp)) hb
    obtain ⟨⟨S', B', _, h'⟩, _, _, h4⟩ := hst
    obtain ⟨h1, h2⟩ := run_bview G ops h' (fun op hop => ho op (by simp [hop])) (h4 k b (ho op (by simp)) hb)
    exact ⟨h1, hv.trans h2⟩

theorem run_append (G : Growth) (w : World T) (ops ops' : List (HOp T)) : w.run G (ops ++ ops') = (w.run G ops).run G ops' := by
  unfold World.run; rw [List.foldl_append]

theorem uncrowdedRun_append (G : Growth) : ∀ (ops ops' : List (HOp T)) (w : World T), UncrowdedRun G w (ops ++ ops') →
    UncrowdedRun G w ops ∧ UncrowdedRun G (w.run G ops) ops'
  | [], _, _, h => ⟨trivial, h⟩
  | op :: ops, ops', w, h => by
    obtain ⟨h1, h2⟩ := uncrowdedRun_append G ops ops' (w.step G op) h.2
    exact ⟨⟨h.1, h1⟩, h2⟩

/-- The value model of builders decides the last call about a value. -/
theorem vrun_builder : ∀ (ops : List (HOp T)) {vw : VWorld T} {k : Nat} {b : Builder T}, (∀ (j : Nat) (b : Builder T), vw.builders[j]? = some b → Tree.Valid b) →
    vw.builders[k]? = some b →
    ∃ b', (vw.run ops).builders[k]? = some b' ∧ ∀ v, Tree.look b' v = lastCall k v ops (Tree.look b v)
  | [], _, _, b, _, hb => ⟨b, hb, fun _ => rfl⟩
  | op :: ops, vw, k, b, hv, hb => by
    have hsame : (vw.step op).builders = vw.builders → (∀ v r, lastCall k v (op :: ops) r = lastCall k v ops r) →
        ∃ b', (vw.run (op :: ops)).builders[k]? = some b' ∧ ∀ v, Tree.look b' v = lastCall k v (op :: ops) (Tree.look b v) := by
      intro h1 h2
      obtain ⟨b', h3, h4⟩ := vrun_builder ops (vw := vw.step op) (by rw [h1]; exact hv) (by rw [h1]; exact hb)
      exact ⟨b', h3, fun v => by rw [h2]; exact h4 v⟩
    have hset : ∀ (j : Nat) (b0 b1 : Builder T), vw.builders[j]? = some b0 → Tree.Valid b1 → (vw.step op).builders = vw.builders.set j b1 →
        (∀ v, lastCall k v (op :: ops) (Tree.look b v) = lastCall k v ops (if j = k then Tree.look b1 v else Tree.look b v)) →
        ∃ b', (vw.run (op :: ops)).builders[k]? = some b' ∧ ∀ v, Tree.look b' v = lastCall k v (op :: ops) (Tree.look b v) := by
      intro j b0 b1 hj hv1 h1 h2
      have hlt := getElem?_lt hj
      have hval : ∀ (i : Nat) (b : Builder T), (vw.step op).builders[i]? = some b → Tree.Valid b := by
        intro i b2 hi
        rw [h1] at hi
        by_cases hij : j = i
        · subst hij
          rw [List.getElem?_set_self hlt] at hi
          cases hi; exact hv1
        · rw [List.getElem?_set_ne hij] at hi
          exact hv i b2 hi
      by_cases hjk : j = k
      · subst hjk
        obtain ⟨b', h3, h4⟩ := vrun_builder ops (vw := vw.step op) (k := j) (b := b1) hval (by rw [h1, List.getElem?_set_self hlt])
        exact ⟨b', h3, fun v => by rw [h2, if_pos rfl]; exact h4 v⟩
      · obtain ⟨b', h3, h4⟩ := vrun_builder ops (vw := vw.step op) (k := k) (b := b) hval (by rw [h1, List.getElem?_set_ne hjk]; exact hb)
        exact ⟨b', h3, fun v => by rw [h2, if_neg hjk]; exact h4 v⟩
    cases op with
    | empty => exact hsame rfl (fun _ _ => rfl)
    | «with» i v => exact hsame (vw.on_builders _ _) (fun _ _ => rfl)
    | without i v => exact hsame (vw.on_builders _ _) (fun _ _ => rfl)
    | «where» i v => exact hsame (vw.on_builders _ _) (fun _ _ => rfl)
    | merge i j f => exact hsame (vw.on2_builders _ _ _) (fun _ _ => rfl)
    | intersection i j => exact hsame (vw.on2_builders _ _ _) (fun _ _ => rfl)
    | difference i j => exact hsame (vw.on2_builders _ _ _) (fun _ _ => rfl)
    | newBuilder =>
      obtain ⟨b', h3, h4⟩ := vrun_builder ops (vw := vw.step .newBuilder) (k := k) (b := b)
        (fun j b hj => (getElem?_snoc hj).elim (hv j b) (fun h => h.2 ▸ Tree.valid_zero))
        (by show (vw.builders ++ [_])[k]? = _; rw [List.getElem?_append_left (getElem?_lt hb)]; exact hb)
      exact ⟨b', h3, h4⟩
    | add j x =>
      cases hj : vw.builders[j]? with
      | none =>
        have hjk : j ≠ k := fun e => by rw [e, hb] at hj; cases hj
        exact hsame (by simp only [VWorld.step, VWorld.onBuilder, hj]) (fun v r => by simp only [lastCall, hjk, false_and, if_false])
      | some b0 =>
        obtain ⟨b1, h1, h2, h3, _⟩ := Builder.add_spec (hv j b0 hj) x
        refine hset j b0 b1 hj h2 (by simp only [VWorld.step, VWorld.onBuilder, hj, VWorld.update, h1]) (fun v => ?_)
        simp only [lastCall]
        by_cases hjk : j = k
        · subst hjk
          rw [hb] at hj; cases hj
          simp only [true_and, if_true, h3]
        · simp only [hjk, false_and, if_false]
    | remove j x =>
      cases hj : vw.builders[j]? with
      | none =>
        have hjk : j ≠ k := fun e => by rw [e, hb] at hj; cases hj
        exact hsame (by simp only [VWorld.step, VWorld.onBuilder, hj]) (fun v r => by simp only [lastCall, hjk, false_and, if_false])
      | some b0 =>
        obtain ⟨b1, h1, h2, h3, _⟩ := Builder.remove_spec (hv j b0 hj) x
        refine hset j b0 b1 hj h2 (by simp only [VWorld.step, VWorld.onBuilder, hj, VWorld.update, h1]) (fun v => ?_)
        simp only [lastCall]
        by_cases hjk : j = k
        · subst hjk
          rw [hb] at hj; cases hj
          simp only [true_and, if_true, h3]
        · simp only [hjk, false_and, if_false]
    | finish j =>
      cases hj : vw.builders[j]? with
      | none =>
        have hjk : j ≠ k := fun e => by rw [e, hb] at hj; cases hj
        exact hsame (by simp only [VWorld.step, hj]) (fun v r => by simp only [lastCall, hjk, if_false])
      | some b0 =>
        refine hset j b0 Tree.zero hj Tree.valid_zero (by simp only [VWorld.step, hj]) (fun v => ?_)
        simp only [lastCall, Tree.look_zero]

theorem HistInv.bvalid {strict : Bool} {w : World T} {vw : VWorld T} {S : Set Loc} {B : Nat → Set Loc} (h : HistInv strict w vw S B)
    (j : Nat) (b : Builder T) (hb : vw.builders[j]? = some b) : Tree.Valid b := by
  have hlt : j < w.builders.length := by rw [h.blen]; exact getElem?_lt hb
  obtain ⟨n, _, h2, h3⟩ := h.blds j _ (List.getElem?_eq_getElem hlt)
  rw [hb] at h2; cases h2; exact h3

end Frozen
