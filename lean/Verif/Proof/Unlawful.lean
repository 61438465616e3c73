import Verif.Proof.SetElems

/-! Adding to a builder elements whose hash does not respect equality.

`A` is what the program uses. `B` has the same hash and a finer equality that the hash respects. As long as no comparison made on the
way says "equal", both builders do the same, and the theory of lawful keys applies to `B`. -/

set_option linter.unusedSectionVars false

namespace Frozen

variable {T : Type} (A B : GoKey T)

/-- Neither takes `x` and `y` for equal. -/
def Apart (x y : T) : Prop := A.eq x y = false ∧ B.eq x y = false

/-- Elements that share a leaf are apart. -/
def FineLoc : Node T → Prop
  | .nil => True
  | .leaf1 _ => True
  | .leaf2 a b => Apart A B a b
  | .twig l => l.Pairwise (Apart A B)
  | .branch _ k => ∀ i, FineLoc (k i)

/-- The elements that a search for `v` meets are apart from it. -/
def Miss (v : T) : Node T → Hasher → Prop
  | .nil, _ => True
  | .leaf1 a, _ => Apart A B a v
  | .leaf2 a b, _ => Apart A B a v ∧ Apart A B b v
  | .twig l, _ => ∀ e ∈ l, Apart A B e v
  | .branch _ k, h => Miss v (k h.idx) h.next

variable {A B}

theorem miss_of_all {v : T} : ∀ {n : Node T} {h : Hasher}, (∀ e ∈ elems n, Apart A B e v) → Miss A B v n h
  | .nil, _, _ => trivial
  | .leaf1 a, _, g => g a (by simp [elems])
  | .leaf2 a b, _, g => ⟨g a (by simp [elems]), g b (by simp [elems])⟩
  | .twig l, _, g => g
  | .branch m k, h, g => by
    refine miss_of_all (n := k h.idx) (h := h.next) fun e he => g e ?_
    simp only [elems, List.mem_flatMap]
    exact ⟨h.idx, List.mem_finRange _, he⟩

/-- What `newBranchFrom` is for either. -/
def MkAgree (mkA mkB : Nat → List T → Go (Node T)) : Prop := ∀ d l, l.Pairwise (Apart A B) →
  mkA d l = mkB d l ∧ ∀ n, mkA d l = .ok n → FineLoc A B n ∧ ∀ x ∈ elems n, x ∈ l

theorem setNonNil_elems {m : Masker} {k : Fin 8 → Node T} {i : Fin 8} {n : Node T} {P : T → Prop} (hn : ∀ x ∈ elems n, P x)
    (hk : ∀ x ∈ elems (.branch m k), P x) : ∀ x ∈ elems ((Packer.setNonNilChild ⟨m, k⟩ i n).toNode), P x := by
  intro x hx
  simp only [Packer.toNode, Packer.setNonNilChild, elems, List.mem_flatMap, setSlot] at hx
  obtain ⟨j, hj, hx⟩ := hx
  by_cases e : j = i
  · rw [if_pos e] at hx; exact hn x hx
  · rw [if_neg e] at hx
    refine hk x ?_
    simp only [elems, List.mem_flatMap]
    exact ⟨j, hj, hx⟩

theorem setNonNil_loc {m : Masker} {k : Fin 8 → Node T} {i : Fin 8} {n : Node T} (hn : FineLoc A B n) (hk : ∀ i, FineLoc A B (k i)) :
    FineLoc A B (Packer.setNonNilChild ⟨m, k⟩ i n).toNode := by
  intro j
  show FineLoc A B (setSlot k i n j)
  unfold setSlot
  split
  · exact hn
  · exact hk j

theorem findIdx_none {l : List T} {p : T → Bool} (h : ∀ e ∈ l, p e = false) : l.findIdx? p = none := by
  rw [List.findIdx?_eq_none_iff]; exact h

theorem addFast_agree {mkA mkB : Nat → List T → Go (Node T)} (hmk : MkAgree (A := A) (B := B) mkA mkB) {v : T} :
    ∀ {n : Node T} {d : Nat} {h : Hasher}, FineLoc A B n → Miss A B v n h →
      @addFastWith T A mkA n v d h = @addFastWith T B mkB n v d h ∧
      ∀ r, @addFastWith T A mkA n v d h = .ok r → FineLoc A B r.1 ∧ ∀ x ∈ elems r.1, x = v ∨ x ∈ elems n
  | .nil, _, _, _, _ => ⟨rfl, fun r hr => by simp [addFastWith] at hr⟩
  | .leaf1 a, _, _, _, hm => by
    have hm : Apart A B a v := hm
    refine ⟨by simp only [addFastWith, hm.1, hm.2], fun r hr => ?_⟩
    simp only [addFastWith, hm.1, Bool.false_eq_true, if_false, Except.ok.injEq] at hr
    subst hr
    refine ⟨hm, fun x hx => ?_⟩
    simp [elems] at hx ⊢
    tauto
  | .leaf2 a b, d, _, hl, hm => by
    have hm : Apart A B a v ∧ Apart A B b v := hm
    have hl : Apart A B a b := hl
    have hp : [a, b, v].Pairwise (Apart A B) := by simp [hl, hm.1, hm.2]
    obtain ⟨h1, h2⟩ := hmk d _ hp
    refine ⟨by simp only [addFastWith, hm.1.1, hm.1.2, hm.2.1, hm.2.2, h1], fun r hr => ?_⟩
    simp only [addFastWith, hm.1.1, hm.2.1, Bool.false_eq_true, if_false] at hr
    cases hk : mkA d [a, b, v] with
    | error e => rw [hk] at hr; simp [bind, Except.bind] at hr
    | ok n =>
      rw [hk] at hr
      simp [bind, Except.bind, pure, Except.pure] at hr
      subst hr
      refine ⟨(h2 n hk).1, fun x hx => ?_⟩
      have := (h2 n hk).2 x hx
      simp [elems] at this ⊢
      tauto
  | .twig l, d, _, hl, hm => by
    have hl : l.Pairwise (Apart A B) := hl
    have hm : ∀ e ∈ l, Apart A B e v := hm
    have hp : (l ++ [v]).Pairwise (Apart A B) := by
      rw [List.pairwise_append]
      exact ⟨hl, List.pairwise_singleton _ _, fun x hx y hy => by rw [List.mem_singleton.1 hy]; exact hm x hx⟩
    have fA : l.findIdx? (fun e => A.eq e v) = none := findIdx_none fun e he => (hm e he).1
    have fB : l.findIdx? (fun e => B.eq e v) = none := findIdx_none fun e he => (hm e he).2
    obtain ⟨h1, h2⟩ := hmk d _ hp
    refine ⟨by simp only [addFastWith, fA, fB, h1], fun r hr => ?_⟩
    simp only [addFastWith, fA] at hr
    split at hr
    · cases hr
      refine ⟨hp, fun x hx => ?_⟩
      simp [elems] at hx ⊢
      tauto
    · cases hk : mkA d (l ++ [v]) with
      | error e => rw [hk] at hr; simp [bind, Except.bind] at hr
      | ok n =>
        rw [hk] at hr
        simp [bind, Except.bind, pure, Except.pure] at hr
        subst hr
        refine ⟨(h2 n hk).1, fun x hx => ?_⟩
        have := (h2 n hk).2 x hx
        simp [elems] at this ⊢
        tauto
  | .branch m k, d, h, hl, hm => by
    have hl : ∀ i, FineLoc A B (k i) := hl
    simp only [addFastWith]
    cases hn : (k h.idx).isNil with
    | true =>
      simp only [if_true]
      refine ⟨trivial, fun r hr => ?_⟩
      cases hr
      refine ⟨setNonNil_loc trivial hl, setNonNil_elems (fun x hx => ?_) fun x hx => .inr hx⟩
      simp [elems] at hx
      exact .inl hx
    | false =>
      obtain ⟨h1, h2⟩ := addFast_agree hmk (n := k h.idx) (d := d + 1) (h := h.next) (hl _) hm
      simp only [Bool.false_eq_true, if_false, h1]
      refine ⟨trivial, fun r hr => ?_⟩
      cases hk : @addFastWith T A mkA (k h.idx) v (d + 1) h.next with
      | error e => rw [← h1, hk] at hr; simp [bind, Except.bind] at hr
      | ok r' =>
        rw [← h1, hk] at hr
        simp [bind, Except.bind, pure, Except.pure] at hr
        subst hr
        obtain ⟨g1, g2⟩ := h2 r' hk
        refine ⟨setNonNil_loc g1 hl, setNonNil_elems (fun x hx => ?_) fun x hx => .inr hx⟩
        rcases g2 x hx with h | h
        · exact .inl h
        · refine .inr ?_
          simp only [elems, List.mem_flatMap]
          exact ⟨_, List.mem_finRange _, h⟩

/-- Same hash. -/
def SameHash (A B : GoKey T) : Prop := ∀ s v, A.hash s v = B.hash s v

theorem hasher_agree (hh : SameHash A B) (v : T) (d : Nat) : @newHasher T A v d = @newHasher T B v d := by
  unfold newHasher; rw [show A.hash 0#64 v = B.hash 0#64 v from hh _ _]

theorem mk_agree (hh : SameHash A B) : ∀ fuel, MkAgree (A := A) (B := B) (@newBranchFromAux T A fuel) (@newBranchFromAux T B fuel) := by
  intro fuel
  induction fuel with
  | zero =>
    intro d l hl
    unfold newBranchFromAux
    split
    · refine ⟨rfl, fun n hn => ?_⟩
      cases hn
      exact ⟨hl, fun x hx => hx⟩
    · refine ⟨rfl, fun n hn => ?_⟩
      cases hn
  | succ fuel ih =>
    intro d l hl
    unfold newBranchFromAux
    split
    · refine ⟨rfl, fun n hn => ?_⟩
      cases hn
      exact ⟨hl, fun x hx => hx⟩
    · -- the loop
      have loop : ∀ (l : List T) (b : Node T), FineLoc A B b → (∀ x ∈ elems b, ∀ y ∈ l, Apart A B x y) → l.Pairwise (Apart A B) →
          l.foldlM (fun b e => do
            let (n, _) ← @addFastWith T A (@newBranchFromAux T A fuel) b e d (@newHasher T A e d)
            pure n) b = l.foldlM (fun b e => do
            let (n, _) ← @addFastWith T B (@newBranchFromAux T B fuel) b e d (@newHasher T B e d)
            pure n) b ∧
          ∀ n, l.foldlM (fun b e => do
            let (n, _) ← @addFastWith T A (@newBranchFromAux T A fuel) b e d (@newHasher T A e d)
            pure n) b = Except.ok n → FineLoc A B n ∧ ∀ x ∈ elems n, x ∈ elems b ∨ x ∈ l := by
        intro l
        induction l with
        | nil =>
          intro b hb _ _
          refine ⟨rfl, fun n hn => ?_⟩
          simp [pure, Except.pure] at hn
          subst hn
          exact ⟨hb, fun x hx => .inl hx⟩
        | cons e l ihl =>
          intro b hb hx hp
          obtain ⟨h1, h2⟩ := addFast_agree ih (v := e) (n := b) (d := d) (h := @newHasher T A e d) hb
            (miss_of_all fun x hx' => hx x hx' e (by simp))
          simp only [List.foldlM_cons, ← hasher_agree hh e d, ← h1]
          cases hk : @addFastWith T A (@newBranchFromAux T A fuel) b e d (@newHasher T A e d) with
          | error z => exact ⟨rfl, fun n hn => by simp [bind, Except.bind] at hn⟩
          | ok r =>
            obtain ⟨g1, g2⟩ := h2 r hk
            rw [List.pairwise_cons] at hp
            obtain ⟨k1, k2⟩ := ihl r.1 g1 (fun x hx' y hy => by
              rcases g2 x hx' with h | h
              · rw [h]; exact hp.1 y hy
              · exact hx x h y (by simp [hy])) hp.2
            refine ⟨k1, fun n hn => ?_⟩
            obtain ⟨k3, k4⟩ := k2 n hn
            refine ⟨k3, fun x hx' => ?_⟩
            rcases k4 x hx' with h | h
            · rcases g2 x h with h | h
              · right; simp [h]
              · exact .inl h
            · right; simp [h]
      obtain ⟨h1, h2⟩ := loop l (.branch 0#16 fun _ => .nil) (fun _ => trivial) (fun x hx => by simp [elems] at hx) hl
      refine ⟨h1, fun n hn => ?_⟩
      obtain ⟨g1, g2⟩ := h2 n hn
      refine ⟨g1, fun x hx => ?_⟩
      rcases g2 x hx with h | h
      · simp [elems] at h
      · exact h

/-- A search under `A` that meets no equal element. -/
theorem miss_of_get {v : T} (hBA : ∀ x, B.eq x v = true → A.eq x v = true) : ∀ {n : Node T} {h : Hasher}, @get T A n v h = .ok none → Miss A B v n h
  | .nil, _, hg => trivial
  | .leaf1 a, _, hg => by
    simp only [get, Except.ok.injEq, ite_eq_right_iff, reduceCtorEq, imp_false] at hg
    have hg : A.eq a v = false := by simpa using hg
    exact ⟨hg, by by_contra hc; have := hBA a (by simpa using hc); simp [this] at hg⟩
  | .leaf2 a b, _, hg => by
    simp only [get, Except.ok.injEq] at hg
    have h1 : A.eq a v = false := by by_contra hc; simp [show A.eq a v = true by simpa using hc] at hg
    have h2 : A.eq b v = false := by by_contra hc; simp [h1, show A.eq b v = true by simpa using hc] at hg
    exact ⟨⟨h1, by by_contra hc; have := hBA a (by simpa using hc); simp [this] at h1⟩,
      ⟨h2, by by_contra hc; have := hBA b (by simpa using hc); simp [this] at h2⟩⟩
  | .twig l, _, hg => by
    simp only [get, Except.ok.injEq, List.find?_eq_none] at hg
    intro e he
    have h1 : A.eq e v = false := by simpa using hg e he
    exact ⟨h1, by by_contra hc; have := hBA e (by simpa using hc); simp [this] at h1⟩
  | .branch m k, h, hg => by
    simp only [get] at hg
    cases hn : (k h.idx).isNil with
    | true =>
      have : k h.idx = .nil := by cases hk : k h.idx <;> simp [hk, Node.isNil] at hn ⊢
      show Miss A B v (k h.idx) h.next
      rw [this]; trivial
    | false =>
      rw [hn] at hg
      simp only [Bool.false_eq_true, if_false] at hg
      exact miss_of_get hBA (n := k h.idx) (h := h.next) hg

theorem fine_get_total {v : T} : ∀ {n : Node T} {h : Hasher}, n ≠ .nil → ∃ o, @get T A n v h = .ok o ∧ ∀ e, o = some e → e ∈ elems n ∧ A.eq e v = true
  | .nil, _, hn => absurd rfl hn
  | .leaf1 a, _, _ => ⟨_, rfl, fun e he => by
      split at he
      · cases he; exact ⟨by simp [elems], by assumption⟩
      · cases he⟩
  | .leaf2 a b, _, _ => ⟨_, rfl, fun e he => by
      split at he
      · cases he; exact ⟨by simp [elems], by assumption⟩
      · split at he
        · cases he; exact ⟨by simp [elems], by assumption⟩
        · cases he⟩
  | .twig l, _, _ => ⟨_, rfl, fun e he => ⟨List.mem_of_find?_eq_some he, by simpa using List.find?_some he⟩⟩
  | .branch m k, h, _ => by
    cases hn : (k h.idx).isNil with
    | true => exact ⟨none, by simp [get, hn], fun e he => by cases he⟩
    | false =>
      obtain ⟨o, h1, h2⟩ := fine_get_total (v := v) (n := k h.idx) (h := h.next) (fun hc => by simp [hc, Node.isNil] at hn)
      refine ⟨o, by simp [get, hn, h1], fun e he => ?_⟩
      obtain ⟨g1, g2⟩ := h2 e he
      refine ⟨?_, g2⟩
      simp only [elems, List.mem_flatMap]
      exact ⟨_, List.mem_finRange _, g1⟩

theorem get_of_miss {v : T} : ∀ {n : Node T} {h : Hasher}, n ≠ .nil → Miss A B v n h → @get T B n v h = .ok none
  | .nil, _, hn, _ => absurd rfl hn
  | .leaf1 a, _, _, hm => by
    have hm : Apart A B a v := hm
    simp [get, hm.2]
  | .leaf2 a b, _, _, hm => by
    have hm : Apart A B a v ∧ Apart A B b v := hm
    simp [get, hm.1.2, hm.2.2]
  | .twig l, _, _, hm => by
    have hm : ∀ e ∈ l, Apart A B e v := hm
    simp only [get, Except.ok.injEq, List.find?_eq_none]
    exact fun e he => by simp [(hm e he).2]
  | .branch m k, h, _, hm => by
    simp only [get]
    split
    · rfl
    · next hn => exact get_of_miss (n := k h.idx) (h := h.next) (fun hc => by simp [hc, Node.isNil] at hn) hm

/-- The finest equality. -/
@[reducible] noncomputable def fine (A : GoKey T) : GoKey T := ⟨fun a b => @decide (a = b) (Classical.propDecidable _), A.hash⟩

theorem fine_eq {A : GoKey T} {a b : T} : (fine A).eq a b = true ↔ a = b := @decide_eq_true_iff (a = b) (Classical.propDecidable _)

theorem fine_lawful (A : GoKey T) : @LawfulGoKey T (fine A) := by
  refine @LawfulGoKey.mk T (fine A) (@PerGoKey.mk T (fine A) (fun h => fine_eq.2 (fine_eq.1 h).symm)
    (fun h g => fine_eq.2 ((fine_eq.1 h).trans (fine_eq.1 g))) (fun s a b h => ?_)) (fun a => fine_eq.2 rfl)
  rw [fine_eq.1 h]

/-- A builder in use with `A`. -/
structure Gathers (A : GoKey T) (b : SetBuilder T) : Prop where
  valid : @Tree.Valid T (fine A) b
  loc : FineLoc A (fine A) b.root

theorem fine_per (A : GoKey T) : @PerGoKey T (fine A) := @LawfulGoKey.toPerGoKey T (fine A) (fine_lawful A)

theorem Gathers.zero : Gathers A (Tree.zero : SetBuilder T) := ⟨@Tree.valid_zero T (fine A) (fine_per A), trivial⟩

/-- `Has` answers; when it says yes, an equal element is there. -/
theorem builder_has_total (b : SetBuilder T) (v : T) :
    ∃ o, @SetBuilder.has T A b v = .ok o ∧ (o = true → ∃ e ∈ Tree.list b, A.eq e v = true) := by
  unfold SetBuilder.has Tree.get
  cases hn : b.root.isNil with
  | true => exact ⟨false, rfl, fun h => by cases h⟩
  | false =>
    obtain ⟨o, h1, h2⟩ := fine_get_total (A := A) (v := v) (n := b.root) (h := @newHasher T A v 0) (fun hc => by simp [hc, Node.isNil] at hn)
    refine ⟨o.isSome, by simp [h1, bind, Except.bind, pure, Except.pure], fun h => ?_⟩
    obtain ⟨e, rfl⟩ := Option.isSome_iff_exists.1 h
    exact ⟨e, h2 e rfl⟩

/-- When `Has` says no, `Add` adds. -/
theorem Gathers.add {b : SetBuilder T} (hb : Gathers A b) {v : T} (hv : A.eq v v = true) (h : @SetBuilder.has T A b v = .ok false) :
    ∃ b', @SetBuilder.add T A b v = .ok b' ∧ Gathers A b' ∧ (Tree.list b').Perm (v :: Tree.list b) := by
  have hBA : ∀ x, (fine A).eq x v = true → A.eq x v = true := fun x hx => by rw [fine_eq.1 hx]; exact hv
  have hmiss : Miss A (fine A) v b.root (@newHasher T A v 0) := by
    cases hn : b.root.isNil with
    | true => rw [show b.root = .nil by cases hk : b.root <;> simp [hk, Node.isNil] at hn ⊢]; trivial
    | false =>
      refine miss_of_get hBA ?_
      unfold SetBuilder.has Tree.get at h
      obtain ⟨o, h1, h2⟩ := fine_get_total (A := A) (v := v) (n := b.root) (h := @newHasher T A v 0) (fun hc => by simp [hc, Node.isNil] at hn)
      simp [hn, h1, bind, Except.bind, pure, Except.pure] at h
      rw [h1, h]
  have hsame : SameHash A (fine A) := fun _ _ => rfl
  obtain ⟨g1, g2⟩ := addFast_agree (mk_agree hsame maxTreeDepth) (n := b.root) (d := 0) hb.loc hmiss
  have heq : @Builder.add T A b v = @Builder.add T (fine A) b v := by
    unfold Builder.add
    split
    · rfl
    · have : @addFast T A b.root v 0 (@newHasher T A v 0) = @addFast T (fine A) b.root v 0 (@newHasher T (fine A) v 0) := g1
      rw [this]
  obtain ⟨b', k1, k2, k3, k4⟩ := @Builder.add_spec T (fine A) (fine_per A) b hb.valid v
  refine ⟨b', heq.trans k1, ⟨k2, ?_⟩, ?_⟩
  · unfold Builder.add at k1
    split at k1
    · cases k1; trivial
    · have k1' : (@addFast T A b.root v 0 (@newHasher T A v 0) >>= fun r => (Except.ok ⟨r.1, b.count + (1 - r.2)⟩ : Go (Tree T))) = .ok b' := by
        have : @addFast T A b.root v 0 (@newHasher T A v 0) = @addFast T (fine A) b.root v 0 (@newHasher T (fine A) v 0) := g1
        rw [this]; exact k1
      cases hr : @addFast T A b.root v 0 (@newHasher T A v 0) with
      | error e => rw [hr] at k1'; simp [bind, Except.bind] at k1'
      | ok r =>
        rw [hr] at k1'
        simp [bind, Except.bind] at k1'
        subst k1'
        exact (g2 r hr).1
  · have hnot : v ∉ Tree.list b := by
      intro hmem
      have hlook := (@FSet.mem_list T (fine A) (fine_lawful A) ⟨b⟩ hb.valid v).1 hmem
      have hg := @Tree.get_spec T (fine A) (fine_per A) b hb.valid v
      rw [show @Tree.look T (fine A) b v = some v from hlook] at hg
      unfold Tree.get at hg
      split at hg
      · cases hg
      · next hn =>
        have := get_of_miss (fun hc => by simp [hc, Node.isNil] at hn) hmiss
        exact absurd (this.symm.trans hg) (by simp)
    refine @FSet.list_perm T (fine A) (fine_lawful A) ⟨b'⟩ k2 _ ?_ fun e => ?_
    · refine List.pairwise_cons.2 ⟨fun x hx => ?_, @Tree.Valid.distinct T (fine A) (fine_per A) b hb.valid⟩
      by_contra hc
      have := fine_eq.1 (by simpa using hc : (fine A).eq v x = true)
      exact hnot (this ▸ hx)
    · show @Tree.look T (fine A) b' e = some e ↔ _
      rw [k3 e, List.mem_cons]
      by_cases he : (fine A).eq v e = true
      · rw [if_pos he]
        have := fine_eq.1 he
        simp [this]
      · rw [if_neg he]
        have h1 := @FSet.mem_list T (fine A) (fine_lawful A) ⟨b⟩ hb.valid e
        have h2 : e ≠ v := fun hc => he (fine_eq.2 hc.symm)
        simp only [h2, false_or]
        exact h1.symm

end Frozen
