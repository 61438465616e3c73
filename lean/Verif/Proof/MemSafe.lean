import Verif.Proof.MemCombine
import Verif.Proof.Clash

/-! When `With` and `Combine` do not append to a twig, in terms of hashes only. -/

set_option linter.unusedSectionVars false

namespace Frozen

variable {T : Type} [GoKey T] [LawfulGoKey T]

/-- Three elements of `P` other than `v` have the hash digits of `v` from depth `d` on. -/
def CrowdAt (d : Nat) (P : T → Prop) (v : T) : Prop :=
  AtLeast 3 (fun w => P w ∧ GoKey.eq w v = false ∧ agree d 22 w v = true)

theorem AtLeast.imp {n : Nat} {P Q : T → Prop} (h : AtLeast n P) (hpq : ∀ w, P w → Q w) : AtLeast n Q := by
  obtain ⟨l, h1, h2, h3⟩ := h
  exact ⟨l, h1, h2, fun x hx => hpq x (h3 x hx)⟩

theorem memL_child {d : Nat} {m : Masker} {k : Fin 8 → Node T} (hs : WFSlots WF d m k) {w : T} {i : Fin 8} :
    memL (elems (k i)) w ↔ memL (elems (.branch m k)) w ∧ chunk w d = i := by
  constructor
  · rintro ⟨e, he, hw⟩
    refine ⟨⟨e, ?_, hw⟩, ?_⟩
    · simp only [elems, List.mem_flatMap]; exact ⟨i, List.mem_finRange i, he⟩
    · rw [← chunk_congr hw]; exact hs.2.2.2 i e he
  · rintro ⟨⟨e, he, hw⟩, hc⟩
    simp only [elems, List.mem_flatMap] at he
    obtain ⟨j, _, hj⟩ := he
    have : j = i := by rw [← hs.2.2.2 j e hj, chunk_congr hw, hc]
    exact ⟨e, this ▸ hj, hw⟩

theorem CrowdAt.up {d : Nat} {P Q : T → Prop} {v : T} (hd : d < 22) (h : CrowdAt (d + 1) P v)
    (hpq : ∀ w, P w → Q w ∧ chunk w d = chunk v d) : CrowdAt d Q v :=
  AtLeast.imp h (fun w ⟨h1, h2, h3⟩ => ⟨(hpq w h1).1, h2, by rw [agree_step hd, h3]; simp [(hpq w h1).2]⟩)

theorem noAppend_of : ∀ (n : Node T) (d : Nat) (v : T), WF d n → (memL (elems n) v ∨ ¬ CrowdAt d (memL (elems n)) v) →
    NoAppend GoKey.eq n v (newHasher v d)
  | .nil, _, _, _, _ => trivial
  | .leaf1 _, _, _, _, _ => trivial
  | .leaf2 _ _, _, _, _, _ => trivial
  | .twig l, d, v, hw, h => by
    by_cases hm : memL l v
    · exact hm
    · exfalso
      refine h.elim hm (fun hc => hc ⟨l.take 3, ?_, hw.2.2.sublist (List.take_sublist 3 l), ?_⟩)
      · have := hw.2.1; simp; omega
      · intro x hx
        have hx := List.mem_of_mem_take hx
        refine ⟨⟨x, hx, eq_refl x⟩, ?_, agree_ge hw.1 _ _⟩
        cases he : GoKey.eq x v with
        | false => rfl
        | true => exact absurd ⟨x, hx, he⟩ hm
  | .branch m k, d, v, hw, h => by
    have hs := (WF_branch.1 hw).1
    show NoAppend GoKey.eq (k (newHasher v d).idx) v (newHasher v d).next
    rw [newHasher_next]
    refine noAppend_of (k (newHasher v d).idx) (d + 1) v (hs.2.2.1 _) ?_
    rcases h with h | h
    · exact .inl ((memL_child hs).2 ⟨h, rfl⟩)
    · exact .inr (fun hc => h (hc.up hs.1 (fun w hw => (memL_child hs).1 hw)))

/-- The two sets can be united without an append to a shared array. -/
def SafeAt (d : Nat) (P Q : T → Prop) : Prop :=
  ∀ e, (P e ∧ ¬ Q e ∨ Q e ∧ ¬ P e) → ¬ CrowdAt d (fun w => P w ∨ Q w) e

theorem SafeAt.symm {d : Nat} {P Q : T → Prop} (h : SafeAt d P Q) : SafeAt d Q P := fun e he hc =>
  h e he.symm (AtLeast.imp hc (fun _ hw => ⟨hw.1.symm, hw.2⟩))

theorem noAppend1 {d : Nat} {n : Node T} {P : T → Prop} {x : T} (hw : WF d n) (hP : P x) (hs : SafeAt d P (memL (elems n))) :
    NoAppend GoKey.eq n x (newHasher x d) := by
  refine noAppend_of n d x hw ?_
  by_cases hm : memL (elems n) x
  · exact .inl hm
  · exact .inr (fun hc => hs x (.inl ⟨hP, hm⟩) (AtLeast.imp hc (fun _ hw => ⟨.inr hw.1, hw.2⟩)))

theorem memL_find {l : List T} {w : T} : memL l w ↔ (l.find? (fun e => GoKey.eq e w)).isSome = true := by
  unfold memL; rw [List.find?_isSome]

theorem noAppend2 {args : CombineArgs T} (heq : args.eq = GoKey.eq) (hf : ClassPres args.f) {d : Nat} {n : Node T} {P : T → Prop}
    {x y : T} (hw : WF d n) (hn : n.isNil = false) (hx : ∀ w, GoKey.eq x w = true → P w) (hy : P y) (hs : SafeAt d P (memL (elems n))) :
    ∀ n1 ms, withArgs args n x d (newHasher x d) = .ok (n1, ms) → NoAppend GoKey.eq n1 y (newHasher y d) := by
  intro n1 ms h1
  obtain ⟨n', ms', h2, hsp⟩ := withArgs_spec heq hf n d hw hn x
  rw [h2] at h1
  cases h1
  have hmem : ∀ w, memL (elems n1) w ↔ GoKey.eq x w = true ∨ memL (elems n) w := by
    intro w
    rw [memL_find, memL_find, hsp.eff.find]
    by_cases he : GoKey.eq x w = true <;> simp [he]
  refine noAppend_of n1 d y hsp.wf ?_
  by_cases hm : memL (elems n1) y
  · exact .inl hm
  · refine .inr (fun hc => hs y (.inl ⟨hy, fun h => hm ((hmem y).2 (.inr h))⟩) (AtLeast.imp hc (fun w hw => ⟨?_, hw.2⟩)))
    exact ((hmem w).1 hw.1).imp (hx w) id

theorem memL_self {l : List T} {x w : T} (hx : x ∈ l) (h : GoKey.eq x w = true) : memL l w := ⟨x, hx, h⟩

theorem combineSafe_of {args : CombineArgs T} (heq : args.eq = GoKey.eq) (hf : ClassPres args.f) : ∀ (a : Node T) (d : Nat) (b : Node T),
    WF d a → WF d b → SafeAt d (memL (elems a)) (memL (elems b)) → CombineSafe a args b d
  | .nil, _, _, _, _, _ => by simp only [CombineSafe]
  | .twig l, _, _, _, _, _ => by simp only [CombineSafe]
  | .leaf1 x, d, b, _, hb, hs => by
    cases b with
    | branch m k =>
      simp only [CombineSafe, heq]
      exact noAppend1 hb (memL_self (by simp [elems]) (eq_refl x)) hs
    | _ => simp only [CombineSafe]
  | .leaf2 x y, d, b, _, hb, hs => by
    cases b with
    | branch m k =>
      simp only [CombineSafe, heq]
      exact ⟨noAppend1 hb (memL_self (by simp [elems]) (eq_refl x)) hs,
        noAppend2 (args := args.flip) heq hf.flip hb rfl (fun w h => memL_self (x := x) (by simp [elems]) h)
          (memL_self (x := y) (by simp [elems]) (eq_refl y)) hs⟩
    | _ => simp only [CombineSafe]
  | .branch m k, d, b, ha, hb, hs => by
    cases b with
    | nil => simp only [CombineSafe]
    | twig l => simp only [CombineSafe]
    | leaf1 x =>
      simp only [CombineSafe, heq]
      exact noAppend1 ha (memL_self (by simp [elems]) (eq_refl x)) hs.symm
    | leaf2 x y =>
      simp only [CombineSafe, heq]
      exact ⟨noAppend1 ha (memL_self (by simp [elems]) (eq_refl x)) hs.symm,
        noAppend2 heq hf ha rfl (fun w h => memL_self (x := x) (by simp [elems]) h)
          (memL_self (x := y) (by simp [elems]) (eq_refl y)) hs.symm⟩
    | branch m2 k2 =>
      simp only [CombineSafe]
      intro i _ _
      have h1 := (WF_branch.1 ha).1
      have h2 := (WF_branch.1 hb).1
      refine combineSafe_of heq hf (k i) (d + 1) (k2 i) (h1.2.2.1 i) (h2.2.2.1 i) ?_
      intro e he hc
      have hce : chunk e d = i := by
        rcases he with he | he
        · exact ((memL_child h1).1 he.1).2
        · exact ((memL_child h2).1 he.1).2
      refine hs e ?_ (hc.up h1.1 ?_)
      · rcases he with ⟨he, he'⟩ | ⟨he, he'⟩
        · exact .inl ⟨((memL_child h1).1 he).1, fun h => he' ((memL_child h2).2 ⟨h, hce⟩)⟩
        · exact .inr ⟨((memL_child h2).1 he).1, fun h => he' ((memL_child h1).2 ⟨h, hce⟩)⟩
      · rintro w (hw | hw)
        · exact ⟨.inl ((memL_child h1).1 hw).1, ((memL_child h1).1 hw).2.trans hce.symm⟩
        · exact ⟨.inr ((memL_child h2).1 hw).1, ((memL_child h2).1 hw).2.trans hce.symm⟩

end Frozen
