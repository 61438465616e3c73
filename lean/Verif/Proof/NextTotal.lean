import Verif.Proof.IntIter

/-!
# `Next` of a map iterator does not panic

`MapIterator.Next` reads the entry as soon as the tree's iterator says that there is one (map.go:282-288). That read succeeds whatever the
history was: a tree iterator whose `Next` has returned true has a value.
-/

set_option linter.unusedSectionVars false

namespace Frozen

section
variable {T : Type}

theorem slotLoop_true (k : Fin 8 → Node T) (start : Fin 8 → Go (Iter T × Bool)) (cur : Iter T)
    (hst : ∀ i it, start i = .ok (it, true) → ∃ a, it.value = .ok a) :
    ∀ (is : List (Fin 8)) (it : Iter T), slotLoop k start cur is = .ok (it, true) → ∃ a, it.value = .ok a
  | [], it, h => by cases h
  | i :: is, it, h => by
    unfold slotLoop at h
    split at h
    · exact slotLoop_true k start cur hst is it h
    · cases hs : start i with
      | error e => rw [hs] at h; cases h
      | ok r =>
        obtain ⟨it1, ok⟩ := r
        rw [hs] at h
        simp only [bind, Except.bind, pure, Except.pure, Except.ok.injEq, Prod.mk.injEq] at h
        obtain ⟨rfl, rfl⟩ := h
        exact hst i it1 hs

theorem sliceNext_true {l : List T} {i : Int} (hi : -1 ≤ i) (h : (sliceNext l i).2 = true) : ∃ a, (sliceNext l i).1.value = .ok a := by
  simp only [sliceNext, decide_eq_true_eq] at h ⊢
  simp only [Iter.value]
  rw [if_neg (by omega), List.getElem?_eq_getElem (by omega)]
  exact ⟨_, rfl⟩

theorem startNext_true : ∀ (c : Node T) (it : Iter T), startNext c = .ok (it, true) → ∃ a, it.value = .ok a
  | .nil, it, h => by cases h
  | .leaf1 a, it, h => by cases h; exact ⟨_, rfl⟩
  | .leaf2 a b, it, h => by cases h; exact ⟨_, rfl⟩
  | .twig l, it, h => by
    simp only [startNext, Except.ok.injEq] at h
    have := sliceNext_true (l := l) (i := -1) (by omega) (by rw [h])
    rwa [h] at this
  | .branch m k, it, h => slotLoop_true k (fun i => startNext (k i)) .empty (fun i it' h' => startNext_true (k i) it' h') _ it h

theorem packLoop_true (cur : Iter T) :
    ∀ (cs : List (Node T)) (it : Iter T), packLoop cur cs = .ok (it, true) → ∃ a, it.value = .ok a
  | [], it, h => by cases h
  | c :: cs, it, h => by
    unfold packLoop at h
    split at h
    · exact packLoop_true cur cs it h
    · cases hs : startNext c with
      | error e => rw [hs] at h; cases h
      | ok r =>
        obtain ⟨it1, ok⟩ := r
        rw [hs] at h
        simp only [bind, Except.bind, pure, Except.pure, Except.ok.injEq, Prod.mk.injEq] at h
        obtain ⟨rfl, rfl⟩ := h
        exact startNext_true c it1 hs

/-- The index of the current leaf has not wrapped below the start. -/
def Iter.Started : Iter T → Prop
  | .empty => True
  | .slice _ i => -1 ≤ i
  | .packer _ i => i.Started

/-- After `Next` has returned true, `Value` does not panic. -/
theorem next_true_value : ∀ (v v' : Iter T), v.Started → v.next = .ok (v', true) → ∃ a, v'.value = .ok a
  | .empty, v', _, h => by cases h
  | .slice l i, v', hs, h => by
    simp only [Iter.next, Except.ok.injEq] at h
    have := sliceNext_true (l := l) (i := i) hs (by rw [h])
    rwa [h] at this
  | .packer rest i, v', hs, h => by
    simp only [Iter.next] at h
    cases hi : i.next with
    | error e => rw [hi] at h; cases h
    | ok r =>
      obtain ⟨i', ok⟩ := r
      rw [hi] at h
      simp only [bind, Except.bind, pure, Except.pure] at h
      cases ok with
      | true =>
        simp only [if_true, Except.ok.injEq, Prod.mk.injEq, and_true] at h
        subst h
        exact next_true_value i i' hs hi
      | false =>
        simp only [Bool.false_eq_true, if_false] at h
        exact packLoop_true i' rest v' h

theorem slotLoop_started (k : Fin 8 → Node T) (start : Fin 8 → Go (Iter T × Bool)) (cur : Iter T) (hcur : cur.Started)
    (hst : ∀ i it ok, start i = .ok (it, ok) → it.Started) :
    ∀ (is : List (Fin 8)) (it : Iter T) (ok : Bool), slotLoop k start cur is = .ok (it, ok) → it.Started
  | [], it, _, h => by cases h; exact hcur
  | i :: is, it, ok, h => by
    unfold slotLoop at h
    split at h
    · exact slotLoop_started k start cur hcur hst is it ok h
    · cases hs : start i with
      | error e => rw [hs] at h; cases h
      | ok r =>
        obtain ⟨it1, ok1⟩ := r
        rw [hs] at h
        simp only [bind, Except.bind, pure, Except.pure, Except.ok.injEq, Prod.mk.injEq] at h
        obtain ⟨rfl, rfl⟩ := h
        exact hst i it1 _ hs

theorem startNext_started : ∀ (c : Node T) (it : Iter T) (ok : Bool), startNext c = .ok (it, ok) → it.Started
  | .nil, it, _, h => by cases h
  | .leaf1 a, it, _, h => by cases h; show (-1 : Int) ≤ -1 + 1; omega
  | .leaf2 a b, it, _, h => by cases h; show (-1 : Int) ≤ -1 + 1; omega
  | .twig l, it, _, h => by cases h; show (-1 : Int) ≤ -1 + 1; omega
  | .branch m k, it, ok, h =>
    slotLoop_started k (fun i => startNext (k i)) .empty trivial (fun i it' ok' h' => startNext_started (k i) it' ok' h') _ it ok h

theorem packLoop_started (cur : Iter T) (hcur : cur.Started) :
    ∀ (cs : List (Node T)) (it : Iter T) (ok : Bool), packLoop cur cs = .ok (it, ok) → it.Started
  | [], it, _, h => by cases h; exact hcur
  | c :: cs, it, ok, h => by
    unfold packLoop at h
    split at h
    · exact packLoop_started cur hcur cs it ok h
    · cases hs : startNext c with
      | error e => rw [hs] at h; cases h
      | ok r =>
        obtain ⟨it1, ok1⟩ := r
        rw [hs] at h
        simp only [bind, Except.bind, pure, Except.pure, Except.ok.injEq, Prod.mk.injEq] at h
        obtain ⟨rfl, rfl⟩ := h
        exact startNext_started c it1 _ hs

theorem next_started : ∀ (v v' : Iter T) (ok : Bool), v.Started → v.next = .ok (v', ok) → v'.Started
  | .empty, v', _, _, h => by cases h; trivial
  | .slice l i, v', _, hs, h => by
    cases h
    have : -1 ≤ i := hs
    show -1 ≤ i + 1
    omega
  | .packer rest i, v', ok, hs, h => by
    simp only [Iter.next] at h
    cases hi : i.next with
    | error e => rw [hi] at h; cases h
    | ok r =>
      obtain ⟨i', ok'⟩ := r
      rw [hi] at h
      have hi' := next_started i i' ok' hs hi
      simp only [bind, Except.bind, pure, Except.pure] at h
      cases ok' with
      | true =>
        simp only [if_true, Except.ok.injEq, Prod.mk.injEq] at h
        obtain ⟨rfl, _⟩ := h
        exact hi'
      | false =>
        simp only [Bool.false_eq_true, if_false] at h
        exact packLoop_started i' hi' rest v' ok h

theorem iterator_started {t : Tree T} {v : Iter T} (h : t.iterator = .ok v) : v.Started := by
  unfold Tree.iterator at h
  split at h
  · cases h; trivial
  · cases hr : t.root <;> rw [hr] at h <;> cases h
    · exact Int.le_refl _
    · exact Int.le_refl _
    · exact Int.le_refl _
    · trivial

/-- The index of the current leaf, in memory. -/
def LeafIter.Started : LeafIter T → Prop
  | .empty => True
  | .own _ i => -1 ≤ i
  | .leaf2 _ i => -1 ≤ i
  | .twig _ i => -1 ≤ i

theorem started_iff {H : Mem T} {S : Set Loc} {bufs : List IterBuf} {d : Nat} {ls : List (Nat × Nat)} {l : LeafIter T} {v : Iter T}
    (h : RepIt H S bufs d ls l v) : l.Started ↔ v.Started := by
  induction h with
  | leaf h => cases h <;> exact Iff.rfl
  | packer _ _ _ _ _ _ _ _ ih => exact ih

end

section
variable {K V : Type} [GoKey K] [LawfulGoKey K] [Inhabited K] [Inhabited V]

/-- `Next` of a map iterator in memory: no panic, and nothing is written. -/
theorem mapNext_total (G : Growth) {H : Mem (Entry K V)} {S : Set Loc} {it : MMapIter K V} {v : Iter (Entry K V)} (h : it.i.Is H S v)
    (hs : it.i.leaf.Started) : ∃ it' ok, it.next G H = (.ok (it', ok), H) ∧ it'.i.leaf.Started := by
  obtain ⟨i', v', ok, h1, h2, h3⟩ := MIter.next_eq G h
  have hv' := next_started v v' ok ((started_iff h).1 hs) h1
  have hi' : i'.leaf.Started := (started_iff h3).2 hv'
  cases ok with
  | false => exact ⟨⟨i', it.kv⟩, false, by simp only [MMapIter.next, h2], hi'⟩
  | true =>
    obtain ⟨a, ha⟩ := next_true_value v v' ((started_iff h).1 hs) h1
    have hval : i'.value H = (.ok a, H) := by
      have := value_sim h3
      rw [ha] at this
      exact this
    exact ⟨⟨i', a⟩, true, by simp only [MMapIter.next, h2, hval], hi'⟩

/-- What holds of the map iterators after any history. -/
structure NextFine (w : MIWorld K V) : Prop where
  any : MIAny w
  started : ∀ it ∈ w.iters, it.i.leaf.Started

theorem NextFine.next (G : Growth) {w : MIWorld K V} (h : NextFine w) {j : Nat} {it : MMapIter K V} (hj : w.iters[j]? = some it) :
    ∃ it' ok, it.next G w.world.mem = (.ok (it', ok), w.world.mem) ∧ it'.i.leaf.Started := by
  obtain ⟨lw, S, B, hI⟩ := h.any
  obtain ⟨v, hv, _⟩ := hI.iters j it.i (by show (w.iters.map (·.i))[j]? = _; rw [List.getElem?_map, hj]; rfl)
  exact mapNext_total G hv (h.started it (List.mem_of_getElem? hj))

theorem NextFine.step (G : Growth) {w : MIWorld K V} (h : NextFine w) (op : MIOp K V) : NextFine (w.step G op) := by
  refine ⟨(h.any.step G op).1, ?_⟩
  cases op with
  | call o => exact h.started
  | range i =>
    simp only [MIWorld.step]
    cases hs : w.world.sets[i]? with
    | none => exact h.started
    | some m =>
      obtain ⟨lw, S, B, hI⟩ := h.any
      obtain ⟨n, hn, _⟩ := hI.inv.sets i m hs
      obtain ⟨it, v, h1, h2, h3⟩ := MTree.iterator_eq G hn
      simp only [MTree.mapIterator, h2]
      intro it' hit
      rcases List.mem_append.1 hit with hit | hit
      · exact h.started it' hit
      · rw [List.mem_singleton.1 hit]
        exact (started_iff h3).2 (iterator_started h1)
  | next j =>
    simp only [MIWorld.step]
    cases hj : w.iters[j]? with
    | none => exact h.started
    | some it =>
      obtain ⟨it', ok, h1, h2⟩ := h.next G hj
      simp only [h1]
      intro it2 hit
      rcases List.mem_or_eq_of_mem_set hit with hit | rfl
      · exact h.started it2 hit
      · exact h2
  | entry j =>
    simp only [MIWorld.step]
    split <;> exact h.started

theorem NextFine.run (G : Growth) : ∀ (ops : List (MIOp K V)) {w : MIWorld K V}, NextFine w →
    (∀ j r, (j, MIAnswer.next r) ∈ w.seen → ∃ b, r = some b) → ∀ j r, (j, MIAnswer.next r) ∈ (w.run G ops).seen → ∃ b, r = some b
  | [], _, _, hn => hn
  | op :: ops, w, h, hn => by
    show ∀ j r, (j, MIAnswer.next r) ∈ ((w.step G op).run G ops).seen → _
    refine NextFine.run G ops (h.step G op) ?_
    cases op with
    | call o => exact hn
    | range i =>
      simp only [MIWorld.step]
      cases hs : w.world.sets[i]? with
      | none => exact hn
      | some m =>
        rcases e : m.mapIterator G w.world.mem with ⟨r, H⟩
        cases r <;> simp only [e] <;> exact hn
    | next j =>
      simp only [MIWorld.step]
      cases hj : w.iters[j]? with
      | none => exact hn
      | some it =>
        obtain ⟨it', ok, h1, _⟩ := h.next G hj
        simp only [h1]
        intro j' r hr
        rcases List.mem_append.1 hr with hr | hr
        · exact hn j' r hr
        · simp only [List.mem_singleton, Prod.mk.injEq, MIAnswer.next.injEq] at hr
          exact ⟨ok, hr.2⟩
    | entry j =>
      simp only [MIWorld.step]
      cases hj : w.iters[j]? with
      | none => exact hn
      | some it =>
        intro j' r hr
        rcases List.mem_append.1 hr with hr | hr
        · exact hn j' r hr
        · simp at hr

end

/-! ## Integer sets -/

section
variable {w : Nat} [GoKey (BitVec w)] [PrimKey (BitVec w)]

theorem NextFine.int_next (G : Growth) {x : IIWorld w} (h : NextFine x.cells) {j : Nat} {it : MIntIter w} (hj : x.iters[j]? = some it) :
    ∃ it' ok W, it.next G x.world.maps = (.ok (it', ok), W) ∧ it'.cells.i.leaf.Started := by
  have hcj : x.cells.iters[j]? = some it.cells := by simp [IIWorld.cells, hj]
  unfold MIntIter.next
  by_cases hz : clearLow it.cell = 0#64
  · obtain ⟨c, ok, h1, h2⟩ := h.next G hcj
    have h1' : it.cells.next G x.world.maps.mem = (.ok (c, ok), x.world.maps.mem) := h1
    simp only [if_pos hz, h1']
    cases ok <;> exact ⟨_, _, _, rfl, h2⟩
  · simp only [if_neg hz]
    exact ⟨_, _, _, rfl, h.started it.cells (List.mem_of_getElem? hcj)⟩

theorem NextFine.int_step (G : Growth) (sg : Bool) {x : IIWorld w} (h : NextFine x.cells) (op : IIOp w) :
    NextFine (x.step G sg op).cells := by
  refine ⟨(x.step_any G sg h.any op).1, ?_⟩
  cases op with
  | call o => exact h.started
  | range i =>
    simp only [IIWorld.step]
    cases hi : x.world.sets[i]? with
    | none => exact h.started
    | some s =>
      simp only [MInt.range]
      cases hs : x.world.maps.sets[s.data]? with
      | none => simp only; exact h.started
      | some m =>
        obtain ⟨lw, S, B, hI⟩ := h.any
        obtain ⟨n, hn, _⟩ := hI.inv.sets s.data m hs
        obtain ⟨it, v, h1, h2, h3⟩ := MTree.iterator_eq G hn
        have h2' : m.iterator G x.world.maps.mem = (.ok it, x.world.maps.mem) := h2
        simp only [MTree.mapIterator, h2']
        intro it' hit
        simp only [IIWorld.cells, List.map_append, List.map_cons, List.map_nil] at hit
        rcases List.mem_append.1 hit with hit | hit
        · exact h.started it' hit
        · rw [List.mem_singleton.1 hit]
          exact (started_iff h3).2 (iterator_started h1)
  | next j =>
    simp only [IIWorld.step]
    cases hj : x.iters[j]? with
    | none => exact h.started
    | some it =>
      obtain ⟨it', ok, W, h1, h2⟩ := h.int_next G hj
      simp only [h1]
      intro it2 hit
      simp only [IIWorld.cells, List.map_set] at hit
      rcases List.mem_or_eq_of_mem_set hit with hit | rfl
      · exact h.started it2 hit
      · exact h2

theorem NextFine.int_run (G : Growth) (sg : Bool) : ∀ (ops : List (IIOp w)) {x : IIWorld w}, NextFine x.cells →
    (∀ j r, (j, r) ∈ x.seen → ∃ b, r = some b) → ∀ j r, (j, r) ∈ (x.run G sg ops).seen → ∃ b, r = some b
  | [], _, _, hn => hn
  | op :: ops, x, h, hn => by
    show ∀ j r, (j, r) ∈ ((x.step G sg op).run G sg ops).seen → _
    refine NextFine.int_run G sg ops (h.int_step G sg op) ?_
    cases op with
    | call o => exact hn
    | range i =>
      simp only [IIWorld.step]
      cases hi : x.world.sets[i]? with
      | none => exact hn
      | some s =>
        rcases e : s.range G x.world.maps with ⟨r, W⟩
        cases r <;> simp only [e] <;> exact hn
    | next j =>
      simp only [IIWorld.step]
      cases hj : x.iters[j]? with
      | none => exact hn
      | some it =>
        obtain ⟨it', ok, W, h1, _⟩ := h.int_next G hj
        simp only [h1]
        intro j' r hr
        rcases List.mem_append.1 hr with hr | hr
        · exact hn j' r hr
        · simp only [List.mem_singleton, Prod.mk.injEq] at hr
          exact ⟨_, hr.2⟩

end

end Frozen
