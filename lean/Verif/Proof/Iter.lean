import Verif.Model.Tree
import Verif.Proof.WF

/-! Iterators: what is left to visit, and that `Next`/`Value` visit it. -/

set_option linter.unusedSectionVars false

namespace Frozen

variable {T : Type}

/-- The values an iterator has still to deliver. -/
def Iter.rem : Iter T → List T
  | .empty => []
  | .slice l index => l.drop (index + 1).toNat
  | .packer rest i => i.rem ++ rest.flatMap elems

/-- Branches, at every level, have an element. -/
def NodeOk : Node T → Prop
  | .branch m k => elems (.branch m k) ≠ [] ∧ ∀ i, NodeOk (k i)
  | _ => True

/-- Iterators met in practice. -/
def Iter.Ok : Iter T → Prop
  | .empty => True
  | .slice _ index => -1 ≤ index
  | .packer rest i => i.Ok ∧ ∀ c ∈ rest, NodeOk c

theorem skip_iff {c : Node T} (h : NodeOk c) : (c.isNil || c.isEmptyNode) = true ↔ elems c = [] := by
  cases c with
  | nil => simp [Node.isNil, elems]
  | leaf1 a => simp [Node.isNil, Node.isEmptyNode, elems]
  | leaf2 a b => simp [Node.isNil, Node.isEmptyNode, elems]
  | twig l => simp [Node.isNil, Node.isEmptyNode, elems]
  | branch m k => simp only [Node.isNil, Node.isEmptyNode, Bool.or_self, Bool.false_eq_true, false_iff]; exact h.1

/-- A call of `Next` that delivered `x` and left `xs`. -/
def Delivers (r : Go (Iter T × Bool)) (x : T) (xs : List T) : Prop :=
  ∃ it, r = .ok (it, true) ∧ it.rem = xs ∧ it.value = .ok x ∧ it.Ok

/-- A call of `Next` that found nothing. -/
def Exhausts (r : Go (Iter T × Bool)) : Prop := ∃ it, r = .ok (it, false) ∧ it.rem = [] ∧ it.Ok

theorem slotLoop_spec (k : Fin 8 → Node T) (start : Fin 8 → Go (Iter T × Bool)) (cur : Iter T) (hcur : cur.Ok) (hr : cur.rem = [])
    (hk : ∀ i, NodeOk (k i)) (hst : ∀ i x xs, elems (k i) = x :: xs → Delivers (start i) x xs) :
    ∀ is : List (Fin 8),
      (is.flatMap (fun i => elems (k i)) = [] → Exhausts (slotLoop k start cur is)) ∧
      (∀ x xs, is.flatMap (fun i => elems (k i)) = x :: xs → Delivers (slotLoop k start cur is) x xs)
  | [] => by
    refine ⟨fun _ => ⟨_, rfl, ?_, ?_⟩, by simp⟩
    · simp [Iter.rem, hr]
    · exact ⟨hcur, by simp⟩
  | i :: is => by
    have ih := slotLoop_spec k start cur hcur hr hk hst is
    simp only [slotLoop, List.flatMap_cons]
    by_cases hs : ((k i).isNil || (k i).isEmptyNode) = true
    · rw [if_pos hs]
      have he := (skip_iff (hk i)).1 hs
      rw [he, List.nil_append]
      exact ih
    · rw [if_neg hs]
      have he : elems (k i) ≠ [] := fun h => hs ((skip_iff (hk i)).2 h)
      obtain ⟨x, xs, hx⟩ := List.exists_cons_of_ne_nil he
      obtain ⟨it, h1, h2, h3, h4⟩ := hst i x xs hx
      rw [hx]
      refine ⟨by simp, ?_⟩
      intro y ys hy
      simp only [List.cons_append, List.cons.injEq] at hy
      refine ⟨.packer (is.map k) it, ?_, ?_, ?_, ?_⟩
      · rw [h1]; rfl
      · simp only [Iter.rem, h2, List.flatMap_map]; exact hy.2
      · rw [← hy.1]; exact h3
      · exact ⟨h4, by intro c hc; obtain ⟨j, _, rfl⟩ := List.mem_map.1 hc; exact hk j⟩

theorem startNext_spec : ∀ (c : Node T), NodeOk c → ∀ x xs, elems c = x :: xs → Delivers (startNext c) x xs
  | .nil, _, x, xs, h => by simp [elems] at h
  | .leaf1 a, _, x, xs, h => by
    simp only [elems, List.cons.injEq] at h
    obtain ⟨rfl, rfl⟩ := h
    exact ⟨.slice [a] 0, rfl, rfl, rfl, by simp [Iter.Ok]⟩
  | .leaf2 a b, _, x, xs, h => by
    simp only [elems, List.cons.injEq] at h
    obtain ⟨rfl, rfl⟩ := h
    exact ⟨.slice [a, b] 0, rfl, rfl, rfl, by simp [Iter.Ok]⟩
  | .twig l, _, x, xs, h => by
    simp only [elems] at h
    subst h
    refine ⟨.slice (x :: xs) 0, ?_, rfl, rfl, by simp [Iter.Ok]⟩
    simp only [startNext, sliceNext]
    have : decide ((-1 : Int) + 1 < ((x :: xs).length : Int)) = true := by simp
    rw [this]; rfl
  | .branch m k, hok, x, xs, h => by
    refine (slotLoop_spec k (fun i => startNext (k i)) .empty trivial rfl hok.2 ?_ (List.finRange 8)).2 x xs h
    intro i y ys hy
    exact startNext_spec (k i) (hok.2 i) y ys hy

theorem packLoop_map (cur : Iter T) (k : Fin 8 → Node T) : ∀ is : List (Fin 8),
    packLoop cur (is.map k) = slotLoop k (fun i => startNext (k i)) cur is
  | [] => rfl
  | i :: is => by
    simp only [List.map_cons, packLoop, slotLoop, packLoop_map cur k is]

/-- `startNext` is `Iterator` followed by `Next`. -/
theorem startNext_eq (c : Node T) : startNext c = (do let it ← c.iter; it.next) := by
  cases c with
  | branch m k =>
    simp only [Node.iter, startNext, bind, Except.bind, Iter.next, Bool.false_eq_true, if_false, packLoop_map]
  | _ => rfl

theorem packLoop_spec (cur : Iter T) (hcur : cur.Ok) (hr : cur.rem = []) : ∀ cs : List (Node T), (∀ c ∈ cs, NodeOk c) →
    (cs.flatMap elems = [] → Exhausts (packLoop cur cs)) ∧
    (∀ x xs, cs.flatMap elems = x :: xs → Delivers (packLoop cur cs) x xs)
  | [], _ => by
    refine ⟨fun _ => ⟨_, rfl, ?_, ?_⟩, by simp⟩
    · simp [Iter.rem, hr]
    · exact ⟨hcur, by simp⟩
  | c :: cs, hk => by
    have ih := packLoop_spec cur hcur hr cs (fun c hc => hk c (by simp [hc]))
    simp only [packLoop, List.flatMap_cons]
    have hc := hk c (by simp)
    by_cases hs : (c.isNil || c.isEmptyNode) = true
    · rw [if_pos hs, (skip_iff hc).1 hs, List.nil_append]
      exact ih
    · rw [if_neg hs]
      obtain ⟨x, xs, hx⟩ := List.exists_cons_of_ne_nil (fun h => hs ((skip_iff hc).2 h))
      obtain ⟨it, h1, h2, h3, h4⟩ := startNext_spec c hc x xs hx
      rw [hx]
      refine ⟨by simp, ?_⟩
      intro y ys hy
      simp only [List.cons_append, List.cons.injEq] at hy
      refine ⟨.packer cs it, ?_, ?_, ?_, ?_⟩
      · rw [h1]; rfl
      · simp only [Iter.rem, h2]; exact hy.2
      · rw [← hy.1]; exact h3
      · exact ⟨h4, fun c hc => hk c (by simp [hc])⟩

theorem next_spec : ∀ (it : Iter T), it.Ok →
    (it.rem = [] → Exhausts it.next) ∧ (∀ x xs, it.rem = x :: xs → Delivers it.next x xs)
  | .empty, _ => ⟨fun _ => ⟨.empty, rfl, rfl, trivial⟩, by simp [Iter.rem]⟩
  | .slice l index, hok => by
    have hok : -1 ≤ index := hok
    have e : (index + 1 + 1).toNat = (index + 1).toNat + 1 := by omega
    constructor
    · intro h
      simp only [Iter.rem, List.drop_eq_nil_iff] at h
      refine ⟨.slice l (index + 1), ?_, ?_, ?_⟩
      · simp only [Iter.next, sliceNext]
        rw [decide_eq_false (by omega)]
      · simp only [Iter.rem, List.drop_eq_nil_iff]; omega
      · show -1 ≤ index + 1; omega
    · intro x xs h
      simp only [Iter.rem] at h
      have hlt : (index + 1).toNat < l.length := by
        by_contra hge
        rw [List.drop_eq_nil_of_le (by omega)] at h; simp at h
      rw [List.drop_eq_getElem_cons hlt, List.cons.injEq] at h
      refine ⟨.slice l (index + 1), ?_, ?_, ?_, ?_⟩
      · simp only [Iter.next, sliceNext]
        rw [decide_eq_true (by omega)]
      · simp only [Iter.rem, e]; exact h.2
      · simp only [Iter.value]
        rw [if_neg (by omega), List.getElem?_eq_getElem hlt]
        simp only [h.1]
      · show -1 ≤ index + 1; omega
  | .packer rest i, hok => by
    have ih := next_spec i hok.1
    simp only [Iter.next, Iter.rem]
    cases hi : i.rem with
    | nil =>
      obtain ⟨it, h1, h2, h3⟩ := ih.1 hi
      rw [h1]
      exact packLoop_spec it h3 h2 rest hok.2
    | cons x xs =>
      obtain ⟨it, h1, h2, h3, h4⟩ := ih.2 x xs hi
      rw [h1]
      refine ⟨by simp, ?_⟩
      intro y ys hy
      simp only [List.cons_append, List.cons.injEq] at hy
      refine ⟨.packer rest it, rfl, ?_, ?_, ?_⟩
      · simp only [Iter.rem, h2]; exact hy.2
      · rw [← hy.1]; exact h3
      · exact ⟨h4, hok.2⟩

/-- Enough fuel: the loop visits exactly what is left. -/
theorem drain_enough : ∀ (fuel : Nat) (it : Iter T), it.Ok → it.rem.length < fuel → it.drain fuel = .ok it.rem
  | 0, _, _, h => by simp at h
  | fuel + 1, it, hok, h => by
    unfold Iter.drain
    cases hr : it.rem with
    | nil =>
      obtain ⟨it', h1, h2, h3⟩ := (next_spec it hok).1 hr
      rw [h1]; rfl
    | cons x xs =>
      obtain ⟨it', h1, h2, h3, h4⟩ := (next_spec it hok).2 x xs hr
      have hl : it'.rem.length < fuel := by rw [h2]; rw [hr] at h; simp at h; omega
      simp only [h1, h3, bind, Except.bind, pure, Except.pure, if_true, drain_enough fuel it' h4 hl, h2]

theorem size_eq : ∀ n : Node T, n.size = (elems n).length
  | .nil => rfl
  | .leaf1 _ => rfl
  | .leaf2 _ _ => rfl
  | .twig _ => rfl
  | .branch m k => by
    simp only [elems, List.length_flatMap, Node.size]
    congr 1
    apply List.map_congr_left
    intro i _
    exact size_eq (k i)

theorem iter_spec {c : Node T} (hn : c.isNil = false) (h : NodeOk c) :
    ∃ it, c.iter = .ok it ∧ it.rem = elems c ∧ it.Ok := by
  cases c with
  | nil => simp [Node.isNil] at hn
  | leaf1 a => exact ⟨_, rfl, rfl, by simp [Iter.Ok]⟩
  | leaf2 a b => exact ⟨_, rfl, rfl, by simp [Iter.Ok]⟩
  | twig l => exact ⟨_, rfl, rfl, by simp [Iter.Ok]⟩
  | branch m k =>
    refine ⟨_, rfl, ?_, trivial, ?_⟩
    · simp [Iter.rem, elems, List.flatMap_map]
    · intro c hc; obtain ⟨j, _, rfl⟩ := List.mem_map.1 hc; exact h.2 j

theorem iterator_spec {t : Tree T} (h : NodeOk t.root) : ∃ it, t.iterator = .ok it ∧ it.rem = elems t.root ∧ it.Ok := by
  unfold Tree.iterator
  cases hn : t.root.isNil with
  | true => exact ⟨.empty, rfl, by rw [isNil_iff.1 hn]; rfl, trivial⟩
  | false =>
    simp only [Bool.false_eq_true, if_false]
    exact iter_spec hn h

theorem rangeList_spec {t : Tree T} (h : NodeOk t.root) : t.rangeList = .ok (elems t.root) := by
  obtain ⟨it, h1, h2, h3⟩ := iterator_spec h
  unfold Tree.rangeList
  rw [h1]
  simp only [bind, Except.bind]
  rw [drain_enough _ it h3 (by rw [h2, size_eq]; omega), h2]

theorem WF.nodeOk [GoKey T] : ∀ {d : Nat} {n : Node T}, WF d n → NodeOk n
  | _, .nil, _ => trivial
  | _, .leaf1 _, _ => trivial
  | _, .leaf2 _ _, _ => trivial
  | _, .twig _, _ => trivial
  | d, .branch m k, h => by
    obtain ⟨hs, h3⟩ := WF_branch.1 h
    refine ⟨fun he => by rw [he] at h3; simp at h3, fun i => (hs.2.2.1 i).nodeOk⟩

end Frozen
