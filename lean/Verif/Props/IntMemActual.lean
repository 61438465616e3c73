import Verif.Props.IntMem
import Verif.Props.IntActual

/-!
# C71 for all integers: what IntSets that share memory really hold

`C71_sets_partial` excludes the negative integers that an IntSet cannot hold. The theorems of this file do not: they compare histories in
memory with `Verif/Spec/IntActual.lean`.
-/

set_option linter.unusedSectionVars false

namespace Frozen

variable {w : Nat} [GoKey (BitVec w)] [PrimKey (BitVec w)]

/-- The sets are those of programs that are described by the states. -/
def AreActual (sg : Bool) (l : List (IntSet w)) (L : List (IntState w)) : Prop :=
  l.length = L.length ∧ ∀ (i : Nat) (v : IntSet w), l[i]? = some v → ∃ p : IntProg w, p.run sg = .ok v ∧ L[i]? = some (p.actual sg)

theorem AreActual.none {sg : Bool} {l : List (IntSet w)} {L : List (IntState w)} (h : AreActual sg l L) {i : Nat} (hi : l[i]? = none) :
    L[i]? = none := by
  rw [List.getElem?_eq_none_iff] at *
  have := h.1
  omega

theorem AreActual.keep (hw : 8 ≤ w) (hw2 : w ≤ 64) {sg : Bool} {l : List (IntSet w)} {L : List (IntState w)} (h : AreActual sg l L)
    (p : IntProg w) {r : Go (IntSet w)} (hr : p.run sg = r) {S : IntState w} (hS : S = p.actual sg) :
    AreActual sg (keepInt l r) (L ++ [S]) := by
  obtain ⟨s, h1, _⟩ := C21_actual hw hw2 sg p
  subst hr hS
  have hk : keepInt l (p.run sg) = l ++ [s] := by rw [h1]; rfl
  rw [hk]
  refine ⟨by simp [h.1], fun i v hi => ?_⟩
  rw [List.getElem?_append] at hi
  split at hi
  · rename_i hlt
    obtain ⟨q, k2, k3⟩ := h.2 i v hi
    exact ⟨q, k2, by rw [List.getElem?_append_left (by rw [← h.1]; exact hlt), k3]⟩
  · obtain ⟨hi1, hi2⟩ := List.getElem?_eq_some_iff.1 hi
    simp only [List.length_cons, List.length_nil] at hi1
    have : i = L.length := by have := h.1; omega
    subst this
    simp at hi2
    exact ⟨p, by rw [h1, hi2], by simp⟩

theorem AreActual.step (hw : 8 ≤ w) (hw2 : w ≤ 64) {sg : Bool} {l : List (IntSet w)} {L : List (IntState w)} (h : AreActual sg l L)
    (op : IntOp w) (hf : op.Orderly) : AreActual sg (intStep sg l op) (stateStep sg L op) := by
  cases op with
  | new order is => exact h.keep hw hw2 (.new order hf is) rfl rfl
  | «with» i n =>
    simp only [intStep, stateStep]
    cases hi : l[i]? with
    | none => rw [h.none hi]; exact h
    | some v =>
      obtain ⟨p, k2, k3⟩ := h.2 i v hi
      rw [k3]; exact h.keep hw hw2 (.with p n) (by simp only [IntProg.run, k2]; rfl) rfl
  | without i n =>
    simp only [intStep, stateStep]
    cases hi : l[i]? with
    | none => rw [h.none hi]; exact h
    | some v =>
      obtain ⟨p, k2, k3⟩ := h.2 i v hi
      rw [k3]; exact h.keep hw hw2 (.without p n) (by simp only [IntProg.run, k2]; rfl) rfl
  | «where» i q =>
    simp only [intStep, stateStep]
    cases hi : l[i]? with
    | none => rw [h.none hi]; exact h
    | some v =>
      obtain ⟨p, k2, k3⟩ := h.2 i v hi
      rw [k3]; exact h.keep hw hw2 (.where p q) (by simp only [IntProg.run, k2]; rfl) rfl
  | map i order f =>
    simp only [intStep, stateStep]
    cases hi : l[i]? with
    | none => rw [h.none hi]; exact h
    | some v =>
      obtain ⟨p, k2, k3⟩ := h.2 i v hi
      rw [k3]; exact h.keep hw hw2 (.map p order hf f) (by simp only [IntProg.run, k2]; rfl) rfl
  | union i j =>
    simp only [intStep, stateStep]
    cases hi : l[i]? with
    | none => rw [h.none hi]; exact h
    | some v =>
      obtain ⟨p, k2, k3⟩ := h.2 i v hi
      rw [k3]
      cases hj : l[j]? with
      | none => rw [h.none hj]; exact h
      | some u =>
        obtain ⟨q, j2, j3⟩ := h.2 j u hj
        rw [j3]; exact h.keep hw hw2 (.union p q) (by simp only [IntProg.run, k2, j2]; rfl) rfl
  | intersection i j =>
    simp only [intStep, stateStep]
    cases hi : l[i]? with
    | none => rw [h.none hi]; exact h
    | some v =>
      obtain ⟨p, k2, k3⟩ := h.2 i v hi
      rw [k3]
      cases hj : l[j]? with
      | none => rw [h.none hj]; exact h
      | some u =>
        obtain ⟨q, j2, j3⟩ := h.2 j u hj
        rw [j3]; exact h.keep hw hw2 (.intersection p q) (by simp only [IntProg.run, k2, j2]; rfl) rfl

theorem AreActual.run (hw : 8 ≤ w) (hw2 : w ≤ 64) {sg : Bool} : ∀ (ops : List (IntOp w)) {l : List (IntSet w)} {L : List (IntState w)},
    AreActual sg l L → (∀ op ∈ ops, op.Orderly) → AreActual sg (ops.foldl (intStep sg) l) (ops.foldl (stateStep sg) L)
  | [], _, _, h, _ => h
  | op :: ops, _, _, h, hf => AreActual.run hw hw2 ops (h.step hw hw2 op (hf op (by simp))) (fun o ho => hf o (by simp [ho]))

/-- The keys of the map in a set are the blocks that have a cell. -/
theorem hasBlock_iff (hw : 8 ≤ w) (hw2 : w ≤ 64) {sg : Bool} {p : IntProg w} {v : IntSet w} (hv : p.run sg = .ok v) (c : BitVec w) :
    v.data.HasKey c ↔ (p.actual sg).blocks c := by
  obtain ⟨v', F, h1, h2, _⟩ := IntProg.run_actual (sg := sg) hw hw2 p
  obtain rfl : v = v' := Except.ok.inj (hv.symm.trans h1)
  rw [FMap.hasKey_iff h2.cells.valid, ← h2.cells.key]

theorem stateStep_old (sg : Bool) (L : List (IntState w)) (op : IntOp w) : L <+: stateStep sg L op := by
  cases op <;> simp only [stateStep] <;> (try split) <;> first | exact List.prefix_append .. | exact List.prefix_refl _

theorem stateRun_old (sg : Bool) : ∀ (ops : List (IntOp w)) (L : List (IntState w)), L <+: ops.foldl (stateStep sg) L
  | [], _ => List.prefix_refl _
  | op :: ops, L => (stateStep_old sg L op).trans (stateRun_old sg ops _)

theorem AreActual.roomy (hw : 8 ≤ w) (hw2 : w ≤ 64) {sg : Bool} {l : List (IntSet w)} {L : List (IntState w)} (h : AreActual sg l L)
    (op : IntOp w) (hr : ∀ S ∈ stateStep sg L op, S.Roomy) : op.Roomy sg l := by
  cases op with
  | «with» i n =>
    intro v hi
    obtain ⟨p, k2, k3⟩ := h.2 i v hi
    refine .inr (fun hc => ?_)
    have h1 : ((p.actual sg).with sg n).Roomy := hr _ (by simp [stateStep, k3])
    refine h1 (block sg n) (.inl rfl) ?_
    rw [block_eq]
    exact AtLeast.imp hc (fun x hx => ⟨.inr ((hasBlock_iff hw hw2 k2 x).1 hx.1), hx.2⟩)
  | union i j =>
    intro v u hi hj c hc
    obtain ⟨p, k2, k3⟩ := h.2 i v hi
    obtain ⟨q, j2, j3⟩ := h.2 j u hj
    refine .inr (fun hcr => ?_)
    have h1 : ((p.actual sg).union (q.actual sg)).Roomy := hr _ (by simp [stateStep, k3, j3])
    refine h1 c (.inr ((hasBlock_iff hw hw2 j2 c).1 hc)) ?_
    refine AtLeast.imp hcr (fun x hx => ⟨?_, hx.2⟩)
    exact hx.1.imp (hasBlock_iff hw hw2 k2 x).1 (hasBlock_iff hw hw2 j2 x).1
  | _ => trivial

theorem AreActual.roomyRun (hw : 8 ≤ w) (hw2 : w ≤ 64) {sg : Bool} : ∀ (ops : List (IntOp w)) {l : List (IntSet w)}
    {L : List (IntState w)}, AreActual sg l L → (∀ op ∈ ops, op.Orderly) → (∀ S ∈ ops.foldl (stateStep sg) L, S.Roomy) → RoomyFrom sg l ops
  | [], _, _, _, _, _ => trivial
  | op :: ops, _, L, h, hf, hr => ⟨h.roomy hw hw2 op (fun S hS => hr S ((stateRun_old sg ops _).subset hS)),
      AreActual.roomyRun hw hw2 ops (h.step hw hw2 op (hf op (by simp))) (fun o ho => hf o (by simp [ho])) hr⟩

/-- C71, for all integers: what is observed at the end of a history of each set in memory is what the specification says that it holds.
Missing: histories with a set that has cells for four blocks with one hash. -/
theorem C71_actual_partial (hw : 8 ≤ w) (hw2 : w ≤ 64) (G : Growth) (sg : Bool) (ops : List (IntOp w)) (hf : ∀ op ∈ ops, op.Orderly)
    (hr : ∀ S ∈ stateRun sg ops, S.Roomy) :
    let x := (IntWorld.init : IntWorld w).run G sg ops
    x.sets.length = (stateRun sg ops).length ∧
    ∀ (i : Nat) (s : MInt) (S : IntState w), x.sets[i]? = some s → (stateRun sg ops)[i]? = some S →
      (∀ n, ∃ b, x.ask (s.has sg n) = .ok b ∧ (b = true ↔ S.has n)) ∧
      (∃ l z e : List (BitVec w), l.Nodup ∧ (∀ n, n ∈ l ↔ S.has n) ∧ z.Nodup ∧ (∀ c, c ∈ z ↔ S.Hollow sg c) ∧
        s.count = l.length + S.extra ∧ x.ask s.elements = .ok e ∧ e.Perm (l ++ z.map afterBlock)) ∧
      ∀ (j : Nat) (t : MInt) (T : IntState w), x.sets[j]? = some t → (stateRun sg ops)[j]? = some T →
        (∃ b, x.ask (s.equal t) = .ok b ∧ (b = true ↔ (∀ n, S.has n ↔ T.has n) ∧ ∀ c, S.blocks c ↔ T.blocks c)) ∧
        (∃ b, x.ask (s.isSubsetOf t) = .ok b ∧ (b = true ↔ (∀ n, S.has n → T.has n) ∧ ∀ c, S.blocks c → T.blocks c)) := by
  intro x
  have hnil : AreActual sg ([] : List (IntSet w)) [] := ⟨rfl, fun i v h => by simp at h⟩
  obtain ⟨h1, h2⟩ := C71_sharing_unobservable_partial G sg ops (hnil.roomyRun hw hw2 ops hf hr)
  have hp : AreActual sg (intRun sg ops) (stateRun sg ops) := hnil.run hw hw2 ops hf
  have hv : ∀ (j : Nat) (t : MInt), x.sets[j]? = some t → ∃ u, (intRun sg ops)[j]? = some u := fun j t ht =>
    ⟨_, List.getElem?_eq_getElem (by rw [← h1]; exact (List.getElem?_eq_some_iff.1 ht).1)⟩
  refine ⟨h1.trans hp.1, fun i s S hs hS => ?_⟩
  obtain ⟨v, hi⟩ := hv i s hs
  obtain ⟨p, k2, k3⟩ := hp.2 i v hi
  obtain rfl : S = p.actual sg := Option.some.inj (hS.symm.trans k3)
  obtain ⟨a1, a2, a3, a4⟩ := h2 i s v hs hi
  obtain ⟨v', g1, g2⟩ := C21_actual hw hw2 sg p
  obtain rfl : v = v' := Except.ok.inj (k2.symm.trans g1)
  refine ⟨fun n => ?_, ?_, fun j t T ht hT => ?_⟩
  · obtain ⟨b, b1, b2⟩ := g2.has n
    exact ⟨b, (a2 n).trans b1, b2⟩
  · obtain ⟨l, z, e, b1, b2, b3, b4, b5, b6, b7, _⟩ := g2.list
    exact ⟨l, z, e, b1, b2, b3, b4, a1.trans b5, a3.trans b6, b7⟩
  · obtain ⟨u, hj⟩ := hv j t ht
    obtain ⟨q, j2, j3⟩ := hp.2 j u hj
    obtain rfl : T = q.actual sg := Option.some.inj (hT.symm.trans j3)
    obtain ⟨c1, c2⟩ := a4 j t u ht hj
    obtain ⟨v', u', d1, d2, ⟨b, d3, d4, _⟩, ⟨b', d5, d6⟩⟩ := C21_actual_compare hw hw2 sg p q
    obtain rfl : v = v' := Except.ok.inj (k2.symm.trans d1)
    obtain rfl : u = u' := Except.ok.inj (j2.symm.trans d2)
    exact ⟨⟨b, c1.trans d3, d4⟩, ⟨b', c2.trans d5, d6⟩⟩

/-! ## The hypotheses can be met -/

section
attribute [local instance] sameIntKey

/-- With the worst of hashes: integers that cannot be held, next to others, in three blocks. -/
def oddIntHistory : List (IntOp 16) := [.new id [-1#16, 5#16, 70#16], .with 0 (-3#16), .without 1 5#16, .map 1 id (fun n => n)]

example : ∀ op ∈ oddIntHistory, op.Orderly := by
  intro op hop
  simp only [oddIntHistory, List.mem_cons, List.not_mem_nil, or_false] at hop
  rcases hop with rfl | rfl | rfl | rfl <;> first | exact fun m => List.Perm.refl m | trivial

example : ∀ S ∈ stateRun true oddIntHistory, S.Roomy := by
  have hthree : ∀ S : IntState 16, (∀ c, S.blocks c → c ∈ [-1#16, 0#16, 1#16]) → S.Roomy := by
    intro S h c hc hcr
    obtain ⟨l, h1, h2, h3⟩ := hcr
    have hnd : (c :: l).Nodup := by
      refine List.nodup_cons.2 ⟨fun hm => ?_, h2.imp (fun {a b} hab => ?_)⟩
      · have h4 : decide (c = c) = false := (h3 _ hm).2.1
        simp at h4
      · rintro rfl
        have h4 : decide (a = a) = false := hab
        simp at h4
    have hsub : c :: l ⊆ [-1#16, 0#16, 1#16] := by
      intro x hx
      rcases List.mem_cons.1 hx with rfl | hx
      · exact h _ hc
      · exact h _ (h3 x hx).1
    have := (hnd.subperm hsub).length_le
    simp [h1] at this
  have h0 : ∀ c, (IntState.new true (· ∈ [-1#16, 5#16, 70#16])).blocks c → c ∈ [-1#16, 0#16, 1#16] := by
    rintro c ⟨n, hn, rfl⟩
    simp only [List.mem_cons, List.not_mem_nil, or_false] at hn
    rcases hn with rfl | rfl | rfl <;> decide
  have h1 : ∀ c, ((IntState.new true (· ∈ [-1#16, 5#16, 70#16])).with true (-3#16)).blocks c → c ∈ [-1#16, 0#16, 1#16] := by
    rintro c (rfl | hc)
    · decide
    · exact h0 c hc
  have hrun : stateRun true oddIntHistory = [.new true (· ∈ [-1#16, 5#16, 70#16]),
      (IntState.new true (· ∈ [-1#16, 5#16, 70#16])).with true (-3#16),
      ((IntState.new true (· ∈ [-1#16, 5#16, 70#16])).with true (-3#16)).without true 5#16,
      ((IntState.new true (· ∈ [-1#16, 5#16, 70#16])).with true (-3#16)).map true (fun n => n)] := rfl
  rw [hrun]
  intro S hS
  rcases List.mem_cons.1 hS with rfl | hS
  rotate_left
  rcases List.mem_cons.1 hS with rfl | hS
  rotate_left
  rcases List.mem_cons.1 hS with rfl | hS
  rotate_left
  rw [List.mem_singleton] at hS
  subst hS
  rotate_left
  · exact hthree _ h0
  · exact hthree _ h1
  · exact hthree _ (fun c hc => h1 c hc.1)
  · refine hthree _ ?_
    rintro c ⟨n, ⟨m, hm, rfl⟩, rfl⟩
    rcases hm with hm | ⟨c, ⟨hc, hn⟩, rfl⟩
    · rcases hm with ⟨rfl, _⟩ | ⟨hm, _⟩
      · decide
      · simp only [List.mem_cons, List.not_mem_nil, or_false] at hm
        rcases hm with rfl | rfl | rfl <;> decide
    · have := h1 c hc
      simp only [List.mem_cons, List.not_mem_nil, or_false] at this
      rcases this with rfl | rfl | rfl
      · decide
      · decide
      · exact absurd (by decide) (hn 70#16 (.inr ⟨by simp, by decide⟩))

end

end Frozen
