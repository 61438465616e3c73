import Verif.Proof.IntMem
import Verif.Props.IntSet

/-!
# C71: integer sets share memory, and a client cannot tell

Histories of calls that return IntSets, with the sets' maps in one memory (Model/IntMem.lean, Spec/IntHistory.lean), compared with the same
calls on values (Model/IntSet.lean, which the other theorems about IntSet speak of).
-/

set_option linter.unusedSectionVars false

namespace Frozen

variable {w : Nat} [GoKey (BitVec w)] [PrimKey (BitVec w)]

theorem ask_of_runs {α : Type} {x : IntWorld w} {V : IntVals w} {f : IM w α} {r : Go α} (h : MRuns f x.maps V (fun a _ => r = .ok a)) :
    x.ask f = r := by
  obtain ⟨a, W', V', h1, _, _, h2⟩ := h
  unfold IntWorld.ask
  rw [h1.1, h2]; rfl

/-- C71, for histories in which no call adds a cell to a set that has three others with the same 64-bit hash: after any such history over
one memory a client holds as many sets as if every set were a value of its own, and each answers every question as that value does. No call
panics, unless it does on values. Missing: the other histories; the property is false of them (`C71_fails`). -/
theorem C71_sharing_unobservable_partial (G : Growth) (sg : Bool) (ops : List (IntOp w)) (hr : RoomyFrom sg [] ops) :
    let x := (IntWorld.init : IntWorld w).run G sg ops
    let l := intRun sg ops
    x.sets.length = l.length ∧ ∀ (i : Nat) (s : MInt) (v : IntSet w), x.sets[i]? = some s → l[i]? = some v →
      s.count = v.count ∧ (∀ n, x.ask (s.has sg n) = v.has sg n) ∧ x.ask s.elements = v.elements ∧
      ∀ (j : Nat) (t : MInt) (u : IntSet w), x.sets[j]? = some t → l[j]? = some u →
        x.ask (s.equal t) = v.equal u ∧ x.ask (s.isSubsetOf t) = v.isSubsetOf u := by
  intro x l
  obtain ⟨V, h1, h2, h3⟩ := IntSim.run G sg ops IntSim.init hr
  refine ⟨h2, fun i s v hs hv => ?_⟩
  obtain ⟨v', k1, k2⟩ := h3 i s hs
  obtain rfl : v = v' := Option.some.inj (hv.symm.trans k1)
  refine ⟨k2.2, fun n => ask_of_runs (runs_has h1 k2 sg n), ask_of_runs ((runs_elements h1 k2).mono (fun _ _ _ h => h.2)),
    fun j t u ht hu => ?_⟩
  obtain ⟨u', j1, j2⟩ := h3 j t ht
  obtain rfl : u = u' := Option.some.inj (hu.symm.trans j1)
  exact ⟨ask_of_runs ((runs_equal h1 k2.1 j2.1).mono (fun _ _ _ h => h.2)), ask_of_runs (runs_isSubsetOf h1 k2 j2)⟩

theorem IntWorld.keep_old (x : IntWorld w) (f : IM w MInt) {i : Nat} {s : MInt} (h : x.sets[i]? = some s) :
    (x.keep f).sets[i]? = some s := by
  unfold IntWorld.keep
  split
  · show (x.sets ++ [_])[i]? = some s
    rw [List.getElem?_append_left (List.getElem?_eq_some_iff.1 h).1, h]
  · exact h

theorem IntWorld.step_old (G : Growth) (sg : Bool) (x : IntWorld w) (op : IntOp w) {i : Nat} {s : MInt} (h : x.sets[i]? = some s) :
    (x.step G sg op).sets[i]? = some s := by
  cases op <;> simp only [IntWorld.step] <;> (try split) <;> first | exact x.keep_old _ h | exact h

theorem IntWorld.run_old (G : Growth) (sg : Bool) : ∀ (ops : List (IntOp w)) (x : IntWorld w) {i : Nat} {s : MInt}, x.sets[i]? = some s →
    (x.run G sg ops).sets[i]? = some s
  | [], _, _, _, h => h
  | op :: ops, x, _, _, h => IntWorld.run_old G sg ops (x.step G sg op) (x.step_old G sg op h)

theorem keepInt_old (l : List (IntSet w)) (r : Go (IntSet w)) {i : Nat} {v : IntSet w} (h : l[i]? = some v) : (keepInt l r)[i]? = some v := by
  unfold keepInt
  split
  · rw [List.getElem?_append_left (List.getElem?_eq_some_iff.1 h).1, h]
  · exact h

theorem intRun_old (sg : Bool) : ∀ (ops : List (IntOp w)) (l : List (IntSet w)) {i : Nat} {v : IntSet w}, l[i]? = some v →
    (ops.foldl (intStep sg) l)[i]? = some v
  | [], _, _, _, h => h
  | op :: ops, l, _, _, h => intRun_old sg ops (intStep sg l op) (by
      cases op <;> simp only [intStep] <;> (try split) <;> first | exact keepInt_old l _ h | exact h)

theorem RoomyFrom.left {sg : Bool} {ops' : List (IntOp w)} : ∀ {ops : List (IntOp w)} {l : List (IntSet w)},
    RoomyFrom sg l (ops ++ ops') → RoomyFrom sg l ops
  | [], _, _ => trivial
  | _ :: _, _, h => ⟨h.1, RoomyFrom.left h.2⟩

/-- C71, persistence, for such histories: whatever calls follow, a set stays where it is and keeps its count, its elements, their order, and
what it answers about the other sets. Missing: as above. -/
theorem C71_persistence_partial (G : Growth) (sg : Bool) (ops ops' : List (IntOp w)) (hr : RoomyFrom sg [] (ops ++ ops')) (i : Nat) (s : MInt)
    (hs : ((IntWorld.init : IntWorld w).run G sg ops).sets[i]? = some s) :
    let x := (IntWorld.init : IntWorld w).run G sg ops
    let y := (IntWorld.init : IntWorld w).run G sg (ops ++ ops')
    y.sets[i]? = some s ∧ (∀ n, y.ask (s.has sg n) = x.ask (s.has sg n)) ∧ y.ask s.elements = x.ask s.elements ∧
      ∀ (j : Nat) (t : MInt), x.sets[j]? = some t →
        y.ask (s.equal t) = x.ask (s.equal t) ∧ y.ask (s.isSubsetOf t) = x.ask (s.isSubsetOf t) := by
  intro x y
  have hy : y = x.run G sg ops' := List.foldl_append
  have hl : intRun (w := w) sg (ops ++ ops') = ops'.foldl (intStep sg) (intRun sg ops) := List.foldl_append
  obtain ⟨hx1, hx2⟩ := C71_sharing_unobservable_partial G sg ops hr.left
  obtain ⟨hy1, hy2⟩ := C71_sharing_unobservable_partial G sg (ops ++ ops') hr
  have hv : ∀ (j : Nat) (t : MInt), x.sets[j]? = some t → ∃ u, (intRun sg ops)[j]? = some u := fun j t ht =>
    ⟨_, List.getElem?_eq_getElem (by rw [← hx1]; exact (List.getElem?_eq_some_iff.1 ht).1)⟩
  have old : ∀ (j : Nat) (t : MInt), x.sets[j]? = some t → y.sets[j]? = some t := fun j t ht => by
    rw [hy]; exact IntWorld.run_old G sg ops' x ht
  have oldv : ∀ (j : Nat) (u : IntSet w), (intRun sg ops)[j]? = some u → (intRun sg (ops ++ ops'))[j]? = some u := fun j u hu => by
    rw [hl]; exact intRun_old sg ops' _ hu
  obtain ⟨v, hv1⟩ := hv i s hs
  obtain ⟨a1, a2, a3, a4⟩ := hx2 i s v hs hv1
  obtain ⟨b1, b2, b3, b4⟩ := hy2 i s v (old i s hs) (oldv i v hv1)
  refine ⟨old i s hs, fun n => (b2 n).trans (a2 n).symm, b3.trans a3.symm, fun j t ht => ?_⟩
  obtain ⟨u, hu⟩ := hv j t ht
  obtain ⟨c1, c2⟩ := a4 j t u ht hu
  obtain ⟨d1, d2⟩ := b4 j t u (old j t ht) (oldv j u hu)
  exact ⟨d1.trans c1.symm, d2.trans c2.symm⟩

theorem crowded_few (hK : FewCollisions (BitVec w)) (P : BitVec w → Prop) (c : BitVec w) : ¬ Crowded P c := by
  rintro ⟨l, h1, h2, h3⟩
  exact hK c ⟨l, h1, h2, fun x hx => (h3 x hx).2⟩

/-- All histories are like that if no four values of the integer type share a 64-bit hash. -/
theorem roomy_of_few (hK : FewCollisions (BitVec w)) (sg : Bool) : ∀ (ops : List (IntOp w)) (l : List (IntSet w)), RoomyFrom sg l ops
  | [], _ => trivial
  | op :: ops, l => by
    refine ⟨?_, roomy_of_few hK sg ops _⟩
    cases op with
    | «with» i n => exact fun s _ => .inr (crowded_few hK _ _)
    | union i j => exact fun s t _ _ c _ => .inr (crowded_few hK _ _)
    | _ => trivial

/-- C71, persistence, for integer types of which no four values share a 64-bit hash: for every history whatsoever. -/
theorem C71_persistence_few_collisions_partial (hK : FewCollisions (BitVec w)) (G : Growth) (sg : Bool) (ops ops' : List (IntOp w)) (i : Nat)
    (s : MInt) (hs : ((IntWorld.init : IntWorld w).run G sg ops).sets[i]? = some s) :
    let x := (IntWorld.init : IntWorld w).run G sg ops
    let y := (IntWorld.init : IntWorld w).run G sg (ops ++ ops')
    y.sets[i]? = some s ∧ (∀ n, y.ask (s.has sg n) = x.ask (s.has sg n)) ∧ y.ask s.elements = x.ask s.elements ∧
      ∀ (j : Nat) (t : MInt), x.sets[j]? = some t →
        y.ask (s.equal t) = x.ask (s.equal t) ∧ y.ask (s.isSubsetOf t) = x.ask (s.isSubsetOf t) :=
  C71_persistence_partial G sg ops ops' (roomy_of_few hK sg _ _) i s hs

/-! ## Mathematical sets -/

/-- The values are the results of programs that denote these sets. -/
def AreProgs (sg : Bool) (l : List (IntSet w)) (L : List (BitVec w → Prop)) : Prop :=
  l.length = L.length ∧ ∀ (i : Nat) (v : IntSet w), l[i]? = some v →
    ∃ p : IntProg w, p.AllStorable sg ∧ p.run sg = .ok v ∧ L[i]? = some p.denote

theorem AreProgs.none {sg : Bool} {l : List (IntSet w)} {L : List (BitVec w → Prop)} (h : AreProgs sg l L) {i : Nat} (hi : l[i]? = none) :
    L[i]? = none := by
  rw [List.getElem?_eq_none_iff] at *
  have := h.1
  omega

theorem AreProgs.keep (hw : 8 ≤ w) (hw2 : w ≤ 64) {sg : Bool} {l : List (IntSet w)} {L : List (BitVec w → Prop)} (h : AreProgs sg l L)
    (p : IntProg w) (hp : p.AllStorable sg) {r : Go (IntSet w)} (hr : p.run sg = r) {P : BitVec w → Prop} (hP : P = p.denote) :
    AreProgs sg (keepInt l r) (L ++ [P]) := by
  obtain ⟨s, h1, _⟩ := C21_intset_partial hw hw2 sg p hp
  subst hr hP
  have hk : keepInt l (p.run sg) = l ++ [s] := by rw [h1]; rfl
  rw [hk]
  refine ⟨by simp [h.1], fun i v hi => ?_⟩
  rw [List.getElem?_append] at hi
  split at hi
  · rename_i hlt
    obtain ⟨q, k1, k2, k3⟩ := h.2 i v hi
    exact ⟨q, k1, k2, by rw [List.getElem?_append_left (by rw [← h.1]; exact hlt), k3]⟩
  · obtain ⟨hi1, hi2⟩ := List.getElem?_eq_some_iff.1 hi
    simp only [List.length_cons, List.length_nil] at hi1
    have : i = L.length := by have := h.1; omega
    subst this
    simp at hi2
    exact ⟨p, hp, by rw [h1, hi2], by simp⟩

theorem AreProgs.step (hw : 8 ≤ w) (hw2 : w ≤ 64) {sg : Bool} {l : List (IntSet w)} {L : List (BitVec w → Prop)} (h : AreProgs sg l L)
    (op : IntOp w) (hf : op.Fits sg L) : AreProgs sg (intStep sg l op) (setStep L op) := by
  cases op with
  | new order is => exact h.keep hw hw2 (.new order hf.1 is) hf.2 rfl rfl
  | «with» i n =>
    simp only [intStep, setStep]
    cases hi : l[i]? with
    | none => rw [h.none hi]; exact h
    | some v =>
      obtain ⟨p, k1, k2, k3⟩ := h.2 i v hi
      rw [k3]; exact h.keep hw hw2 (.with p n) ⟨k1, hf⟩ (by simp only [IntProg.run, k2]; rfl) rfl
  | without i n =>
    simp only [intStep, setStep]
    cases hi : l[i]? with
    | none => rw [h.none hi]; exact h
    | some v =>
      obtain ⟨p, k1, k2, k3⟩ := h.2 i v hi
      rw [k3]; exact h.keep hw hw2 (.without p n) k1 (by simp only [IntProg.run, k2]; rfl) rfl
  | «where» i q =>
    simp only [intStep, setStep]
    cases hi : l[i]? with
    | none => rw [h.none hi]; exact h
    | some v =>
      obtain ⟨p, k1, k2, k3⟩ := h.2 i v hi
      rw [k3]; exact h.keep hw hw2 (.where p q) k1 (by simp only [IntProg.run, k2]; rfl) rfl
  | map i order f =>
    simp only [intStep, setStep]
    cases hi : l[i]? with
    | none => rw [h.none hi]; exact h
    | some v =>
      obtain ⟨p, k1, k2, k3⟩ := h.2 i v hi
      rw [k3]; exact h.keep hw hw2 (.map p order hf.1 f) ⟨k1, hf.2 _ k3⟩ (by simp only [IntProg.run, k2]; rfl) rfl
  | union i j =>
    simp only [intStep, setStep]
    cases hi : l[i]? with
    | none => rw [h.none hi]; exact h
    | some v =>
      obtain ⟨p, k1, k2, k3⟩ := h.2 i v hi
      rw [k3]
      cases hj : l[j]? with
      | none => rw [h.none hj]; exact h
      | some u =>
        obtain ⟨q, j1, j2, j3⟩ := h.2 j u hj
        rw [j3]; exact h.keep hw hw2 (.union p q) ⟨k1, j1⟩ (by simp only [IntProg.run, k2, j2]; rfl) rfl
  | intersection i j =>
    simp only [intStep, setStep]
    cases hi : l[i]? with
    | none => rw [h.none hi]; exact h
    | some v =>
      obtain ⟨p, k1, k2, k3⟩ := h.2 i v hi
      rw [k3]
      cases hj : l[j]? with
      | none => rw [h.none hj]; exact h
      | some u =>
        obtain ⟨q, j1, j2, j3⟩ := h.2 j u hj
        rw [j3]; exact h.keep hw hw2 (.intersection p q) ⟨k1, j1⟩ (by simp only [IntProg.run, k2, j2]; rfl) rfl

theorem AreProgs.run (hw : 8 ≤ w) (hw2 : w ≤ 64) {sg : Bool} : ∀ (ops : List (IntOp w)) {l : List (IntSet w)} {L : List (BitVec w → Prop)},
    AreProgs sg l L → FitsFrom sg L ops → AreProgs sg (ops.foldl (intStep sg) l) (ops.foldl setStep L)
  | [], _, _, h, _ => h
  | op :: ops, _, _, h, hf => AreProgs.run hw hw2 ops (h.step hw hw2 op hf.1) hf.2

omit [GoKey (BitVec w)] [PrimKey (BitVec w)] in
theorem block_eq (sg : Bool) (n : BitVec w) : block sg n = (locateCell sg n).1 := (cellOf_eq sg n).symm

/-- The cells of a set are the blocks that its integers are in. -/
theorem hasCell_iff (hw : 8 ≤ w) (hw2 : w ≤ 64) {sg : Bool} {p : IntProg w} (hp : p.AllStorable sg) {v : IntSet w} (hv : p.run sg = .ok v)
    (c : BitVec w) : v.data.HasKey c ↔ ∃ m, p.denote m ∧ block sg m = c := by
  obtain ⟨v', F, h1, h2, h3⟩ := IntProg.run_spec hw hw2 p hp
  obtain rfl : v = v' := Except.ok.inj (hv.symm.trans h1)
  have h4 := h2.cells
  rw [FMap.hasKey_iff h4.valid, h4.lk c]
  constructor
  · intro h
    have h0 : F c ≠ 0#64 := by
      intro h0
      rw [if_pos h0] at h; cases h
    obtain ⟨b, hb⟩ := ne_zero_iff_bit.1 h0
    refine ⟨cellVal c b, (h3 _).1 (memF_val h4.loc hb), ?_⟩
    rw [block_eq]; exact (h4.loc c b hb).1
  · rintro ⟨m, h5, rfl⟩
    have h6 : memF sg F m := (h3 m).2 h5
    rw [block_eq]
    rw [if_neg]
    · rfl
    · intro h0
      unfold memF at h6
      have h0' : F (cellOf sg m) = 0#64 := h0
      rw [h0'] at h6
      simp at h6

theorem setStep_old (L : List (BitVec w → Prop)) (op : IntOp w) : L <+: setStep L op := by
  cases op <;> simp only [setStep] <;> (try split) <;> first | exact List.prefix_append .. | exact List.prefix_refl _

theorem setRun_old : ∀ (ops : List (IntOp w)) (L : List (BitVec w → Prop)), L <+: ops.foldl setStep L
  | [], _ => List.prefix_refl _
  | op :: ops, L => (setStep_old L op).trans (setRun_old ops _)

theorem AreProgs.roomy (hw : 8 ≤ w) (hw2 : w ≤ 64) {sg : Bool} {l : List (IntSet w)} {L : List (BitVec w → Prop)} (h : AreProgs sg l L)
    (op : IntOp w) (hr : ∀ P ∈ setStep L op, RoomySet sg P) : op.Roomy sg l := by
  cases op with
  | «with» i n =>
    intro v hi
    obtain ⟨p, k1, k2, k3⟩ := h.2 i v hi
    refine .inr (fun hc => ?_)
    have h1 : RoomySet sg (fun j => j = n ∨ p.denote j) := hr _ (by simp [setStep, k3])
    refine h1 n (.inl rfl) ?_
    rw [block_eq]
    refine AtLeast.imp hc (fun x hx => ⟨?_, hx.2⟩)
    obtain ⟨m, g1, g2⟩ := (hasCell_iff hw hw2 k1 k2 x).1 hx.1
    exact ⟨m, .inr g1, g2⟩
  | union i j =>
    intro v u hi hj c hc
    obtain ⟨p, k1, k2, k3⟩ := h.2 i v hi
    obtain ⟨q, j1, j2, j3⟩ := h.2 j u hj
    refine .inr (fun hcr => ?_)
    have h1 : RoomySet sg (fun k => p.denote k ∨ q.denote k) := hr _ (by simp [setStep, k3, j3])
    obtain ⟨m, g1, g2⟩ := (hasCell_iff hw hw2 j1 j2 c).1 hc
    refine h1 m (.inr g1) ?_
    rw [g2]
    refine AtLeast.imp hcr (fun x hx => ⟨?_, hx.2⟩)
    rcases hx.1 with hx | hx
    · obtain ⟨m, g1, g2⟩ := (hasCell_iff hw hw2 k1 k2 x).1 hx
      exact ⟨m, .inl g1, g2⟩
    · obtain ⟨m, g1, g2⟩ := (hasCell_iff hw hw2 j1 j2 x).1 hx
      exact ⟨m, .inr g1, g2⟩
  | _ => trivial

theorem AreProgs.roomyRun (hw : 8 ≤ w) (hw2 : w ≤ 64) {sg : Bool} : ∀ (ops : List (IntOp w)) {l : List (IntSet w)}
    {L : List (BitVec w → Prop)}, AreProgs sg l L → FitsFrom sg L ops → (∀ P ∈ ops.foldl setStep L, RoomySet sg P) → RoomyFrom sg l ops
  | [], _, _, _, _, _ => trivial
  | op :: ops, _, L, h, hf, hr => ⟨h.roomy hw hw2 op (fun P hP => hr P ((setRun_old ops _).subset hP)),
      AreProgs.roomyRun hw hw2 ops (h.step hw hw2 op hf.1) hf.2 hr⟩

/-- C71, against mathematical sets: the sets that a history of calls leaves in memory are the ones the calls describe. `Has`, `Count`,
`Elements`, `Equal` and `IsSubsetOf` are exact, for every set of the history at its end. Missing: histories with a set that has integers in
four blocks with one hash, and the negative integers that an IntSet cannot hold (C21). -/
theorem C71_sets_partial (hw : 8 ≤ w) (hw2 : w ≤ 64) (G : Growth) (sg : Bool) (ops : List (IntOp w))
    (hf : FitsFrom sg [] ops) (hr : ∀ P ∈ setRun ops, RoomySet sg P) :
    let x := (IntWorld.init : IntWorld w).run G sg ops
    x.sets.length = (setRun ops).length ∧
    ∀ (i : Nat) (s : MInt) (P : BitVec w → Prop), x.sets[i]? = some s → (setRun ops)[i]? = some P →
      (∀ n, ∃ b, x.ask (s.has sg n) = .ok b ∧ (b = true ↔ P n)) ∧
      (∃ l : List (BitVec w), l.Nodup ∧ (∀ n, n ∈ l ↔ P n) ∧ s.count = l.length ∧ x.ask s.elements = .ok l) ∧
      ∀ (j : Nat) (t : MInt) (Q : BitVec w → Prop), x.sets[j]? = some t → (setRun ops)[j]? = some Q →
        (∃ b, x.ask (s.equal t) = .ok b ∧ (b = true ↔ ∀ n, P n ↔ Q n)) ∧
        (∃ b, x.ask (s.isSubsetOf t) = .ok b ∧ (b = true ↔ ∀ n, P n → Q n)) := by
  intro x
  have hnil : AreProgs sg ([] : List (IntSet w)) [] := ⟨rfl, fun i v h => by simp at h⟩
  obtain ⟨h1, h2⟩ := C71_sharing_unobservable_partial G sg ops (hnil.roomyRun hw hw2 ops hf hr)
  have hp : AreProgs sg (intRun sg ops) (setRun ops) := hnil.run hw hw2 ops hf
  have hv : ∀ (j : Nat) (t : MInt), x.sets[j]? = some t → ∃ u, (intRun sg ops)[j]? = some u := fun j t ht =>
    ⟨_, List.getElem?_eq_getElem (by rw [← h1]; exact (List.getElem?_eq_some_iff.1 ht).1)⟩
  refine ⟨h1.trans hp.1, fun i s P hs hP => ?_⟩
  obtain ⟨v, hi⟩ := hv i s hs
  obtain ⟨p, k1, k2, k3⟩ := hp.2 i v hi
  obtain rfl : P = p.denote := Option.some.inj (hP.symm.trans k3)
  obtain ⟨a1, a2, a3, a4⟩ := h2 i s v hs hi
  obtain ⟨v', g1, g2⟩ := C21_intset_partial hw hw2 sg p k1
  obtain rfl : v = v' := Except.ok.inj (k2.symm.trans g1)
  refine ⟨fun n => ?_, ?_, fun j t Q ht hQ => ?_⟩
  · obtain ⟨b, b1, b2⟩ := g2.has n
    exact ⟨b, (a2 n).trans b1, b2⟩
  · obtain ⟨l, b1, b2, b3, b4, _⟩ := g2.list
    exact ⟨l, b1, b2, a1.trans b3, a3.trans b4⟩
  · obtain ⟨u, hj⟩ := hv j t ht
    obtain ⟨q, j1, j2, j3⟩ := hp.2 j u hj
    obtain rfl : Q = q.denote := Option.some.inj (hQ.symm.trans j3)
    obtain ⟨c1, c2⟩ := a4 j t u ht hj
    obtain ⟨v', u', d1, d2, ⟨b, d3, d4⟩, ⟨b', d5, d6⟩, _⟩ := C21_compare_partial hw hw2 sg p q k1 j1
    obtain rfl : v = v' := Except.ok.inj (k2.symm.trans d1)
    obtain rfl : u = u' := Except.ok.inj (j2.symm.trans d2)
    exact ⟨⟨b, c1.trans d3, d4⟩, ⟨b', c2.trans d5, d6⟩⟩

/-! ## The property fails for crowded hashes -/

/-- A legal but useless hash: every integer has hash 0. -/
def sameIntKey (w : Nat) : GoKey (BitVec w) := ⟨fun a b => decide (a = b), fun _ _ => 0#64⟩

section
attribute [local instance] sameIntKey

instance (w : Nat) : @PrimKey (BitVec w) (sameIntKey w) := @PrimKey.mk _ (sameIntKey w) (fun _ _ => decide_eq_true_iff)

/-- Four integers from four cells, added one by one, and a fifth one. -/
def crowdedIntHistory : List (IntOp 16) := [.new id [0#16], .with 0 64#16, .with 1 128#16, .with 2 192#16, .with 3 256#16]

/-- C71 is false of the code: `s.With(256)` loses 256 and has 320 instead when `s.With(320)` is computed, and still counts five. -/
theorem C71_fails : ∃ (ops : List (IntOp 16)) (op : IntOp 16) (i : Nat) (s : MInt),
    let x := (IntWorld.init : IntWorld 16).run goGrowth true ops
    let y := (IntWorld.init : IntWorld 16).run goGrowth true (ops ++ [op])
    x.sets[i]? = some s ∧ y.sets[i]? = some s ∧ s.count = 5 ∧ x.ask (s.has true 256#16) = .ok true ∧
      y.ask (s.has true 256#16) = .ok false ∧ x.ask (s.has true 320#16) = .ok false ∧ y.ask (s.has true 320#16) = .ok true := by
  refine ⟨crowdedIntHistory, .with 3 320#16, 4, ?_⟩
  have h : ((IntWorld.init.run goGrowth true crowdedIntHistory).sets[4]?).any (fun s =>
      decide ((IntWorld.init.run goGrowth true (crowdedIntHistory ++ [.with 3 320#16])).sets[4]? = some s) &&
      decide (s.count = 5) &&
      isOk ((IntWorld.init.run goGrowth true crowdedIntHistory).ask (s.has true 256#16)) true &&
      isOk ((IntWorld.init.run goGrowth true (crowdedIntHistory ++ [.with 3 320#16])).ask (s.has true 256#16)) false &&
      isOk ((IntWorld.init.run goGrowth true crowdedIntHistory).ask (s.has true 320#16)) false &&
      isOk ((IntWorld.init.run goGrowth true (crowdedIntHistory ++ [.with 3 320#16])).ask (s.has true 320#16)) true) = true := by
    decide +kernel
  cases hs : (IntWorld.init.run goGrowth true crowdedIntHistory).sets[4]? with
  | none => rw [hs] at h; cases h
  | some s =>
    rw [hs] at h
    simp only [Option.any_some, Bool.and_eq_true] at h
    obtain ⟨⟨⟨⟨⟨h1, h2⟩, h3⟩, h4⟩, h5⟩, h6⟩ := h
    exact ⟨s, hs, of_decide_eq_true h1, of_decide_eq_true h2, of_isOk h3, of_isOk h4, of_isOk h5, of_isOk h6⟩

end

/-! ## The hypotheses can be met -/

section
attribute [local instance] sameIntKey

theorem roomy_three {P : BitVec 16 → Prop} (h : ∀ n, P n → block true n ∈ [0#16, 1#16, 2#16]) : RoomySet true P := by
  rintro n hn ⟨l, h1, h2, h3⟩
  have hnd : (block true n :: l).Nodup := by
    refine List.nodup_cons.2 ⟨fun hm => ?_, h2.imp (fun {a b} hab => ?_)⟩
    · have h4 : decide (block true n = block true n) = false := (h3 _ hm).2.1
      simp at h4
    · rintro rfl
      have h4 : decide (a = a) = false := hab
      simp at h4
  have hsub : block true n :: l ⊆ [0#16, 1#16, 2#16] := by
    intro c hc
    rcases List.mem_cons.1 hc with rfl | hc
    · exact h n hn
    · obtain ⟨m, hm, rfl⟩ := (h3 c hc).1
      exact h m hm
  have := (hnd.subperm hsub).length_le
  simp [h1] at this

/-- Even if all integers have one hash: sets of integers from three blocks. -/
example : let ops : List (IntOp 16) := [.new id [0#16, 64#16], .with 0 128#16, .with 0 130#16, .union 1 2]
    FitsFrom true [] ops ∧ ∀ P ∈ setRun ops, RoomySet true P := by
  refine ⟨⟨⟨fun m => List.Perm.refl m, fun i hi => ?_⟩, .inr (.inl (by decide)), .inr (.inl (by decide)), trivial, trivial⟩, fun P hP => ?_⟩
  · simp only [List.mem_cons, List.not_mem_nil, or_false] at hi
    rcases hi with rfl | rfl <;> exact .inr (.inl (by decide))
  · refine roomy_three (fun n hn => ?_)
    have : n ∈ [0#16, 64#16, 128#16, 130#16] := by
      simp [setRun, setStep] at hP
      rcases hP with rfl | rfl | rfl | rfl <;> simp at hn ⊢ <;> tauto
    simp only [List.mem_cons, List.not_mem_nil, or_false] at this
    rcases this with rfl | rfl | rfl | rfl <;> decide

end

section
attribute [local instance] exampleIntKey

/-- A hash for integers of at most 64 bits without collisions. -/
theorem exampleIntKey_few {w : Nat} (hw : w ≤ 64) : FewCollisions (BitVec w) := by
  rintro v ⟨l, hl, -, h⟩
  match l, hl with
  | [a, b, c], _ =>
    obtain ⟨h1, h2⟩ := h a (by simp)
    have h3 : a.setWidth 64 * 11400714819323198485#64 = v.setWidth 64 * 11400714819323198485#64 := by
      have h2' : a.setWidth 64 * 11400714819323198485#64 ^^^ 0#64 = v.setWidth 64 * 11400714819323198485#64 ^^^ 0#64 := h2
      simpa using h2'
    have h4 : a.setWidth 64 = v.setWidth 64 := by
      have h5 := congrArg (· * 17428512612931826493#64) h3
      simp only [BitVec.mul_assoc] at h5
      rwa [show 11400714819323198485#64 * 17428512612931826493#64 = 1#64 by decide, BitVec.mul_one, BitVec.mul_one] at h5
    have h6 : a = v := by
      apply BitVec.eq_of_toNat_eq
      have h7 := congrArg BitVec.toNat h4
      have h8 : 2 ^ w ≤ 2 ^ 64 := Nat.pow_le_pow_right (by omega) hw
      rwa [BitVec.toNat_setWidth, BitVec.toNat_setWidth, Nat.mod_eq_of_lt (Nat.lt_of_lt_of_le a.isLt h8),
        Nat.mod_eq_of_lt (Nat.lt_of_lt_of_le v.isLt h8)] at h7
    have h1' : decide (a = v) = false := h1
    rw [h6] at h1'
    simp at h1'

/-- A history with every kind of call: the sets {1, 2, 200}, {1, 2, 200, 300}, {1, 200, 300}, {200, 300}, {400, 600}, {200, 300, 400, 600}
and {200, 300} again. -/
example :
    let x := (IntWorld.init : IntWorld 64).run goGrowth true [.new id [1#64, 2#64, 200#64], .with 0 300#64, .without 1 2#64,
      .where 2 (fun n => n != 1#64), .map 3 id (fun n => n + n), .union 3 4, .intersection 1 5]
    (x.sets.map (·.count)) = [3, 4, 3, 2, 2, 4, 2] ∧
      (x.sets[6]?.any (fun s => isOk (x.ask (s.has true 300#64)) true && isOk (x.ask (s.has true 1#64)) false &&
        x.sets[3]?.any (fun t => isOk (x.ask (s.equal t)) true)) = true) := by
  decide +kernel

/-- That history fits. -/
example : FitsFrom true [] ([.new id [1#64, 2#64, 200#64], .with 0 300#64, .without 1 2#64,
    .where 2 (fun n => n != 1#64), .map 3 id (fun n => n + n), .union 3 4, .intersection 1 5] : List (IntOp 64)) := by
  refine ⟨⟨fun m => List.Perm.refl m, fun i hi => ?_⟩, .inr (.inl (by decide)), trivial, trivial, ⟨fun m => List.Perm.refl m, ?_⟩,
    trivial, trivial, trivial⟩
  · simp only [List.mem_cons, List.not_mem_nil, or_false] at hi
    rcases hi with rfl | rfl | rfl <;> exact .inr (.inl (by decide))
  · intro P hP j hj
    simp [setStep] at hP
    subst hP
    rcases hj with ⟨⟨h | h, h2⟩, h3⟩
    · subst h; exact .inr (.inl (by decide))
    · rcases h with rfl | rfl | rfl <;> exact .inr (.inl (by decide))

end

end Frozen
