import Verif.Proof.CallsPar

/-! # Callbacks from goroutines: Where, Reduce, Merge -/

set_option linter.unusedSectionVars false

namespace Frozen

section Where

variable {T : Type} [GoKey T] [LawfulGoKey T]

theorem map_map_go {α β γ : Type} (r : Go α) (f : α → β) (g : β → γ) : (r.map f).map g = r.map (fun a => g (f a)) := by cases r <;> rfl

theorem comp_whereSeq (f : T → Bool) (n : Node T) (d : Nat) :
    (CComp.seq ((whereE n d).bind (fun r => .done ((r.1, r.2.2), r.2.1)))).comp f =
      .seq ((«where» f n d).map (fun r => ((r.1, r.2.2), true, r.2.1))) := by
  simp only [CComp.comp, seqOf, CB.eval_bind, eval_whereE, CB.eval_done]
  cases «where» f n d <;> rfl

theorem comp_whereCC (g : Int) (f : T → Bool) : ∀ (n : Node T) (d : Nat), (whereCC g n d).comp f = whereC g f n d
  | .nil, d => comp_whereSeq f _ d
  | .leaf1 _, d => comp_whereSeq f _ d
  | .leaf2 _ _, d => comp_whereSeq f _ d
  | .twig _, d => comp_whereSeq f _ d
  | .branch m k, d => by
    unfold whereCC whereC
    by_cases hg : (d : Int) < g
    · simp only [if_pos hg, CComp.comp]
      congr 1
      · funext i; exact comp_whereCC g f (k i) (d + 1)
      · funext pm sl _ ms
        rw [CB.eval_ite]
        split
        · rfl
        · rw [CB.eval_lib, map_map_go]
    · simp only [if_neg hg]
      exact comp_whereSeq f _ d

theorem cmakes_whereCC (g : Int) : ∀ (n : Node T) (d : Nat), WF d n → CMakes (elems n) (whereCC g n d)
  | .nil, d, h => ⟨_, List.Perm.refl _, (makes_whereE _ d h).bind' (fun _ => trivial)⟩
  | .leaf1 _, d, h => ⟨_, List.Perm.refl _, (makes_whereE _ d h).bind' (fun _ => trivial)⟩
  | .leaf2 _ _, d, h => ⟨_, List.Perm.refl _, (makes_whereE _ d h).bind' (fun _ => trivial)⟩
  | .twig _, d, h => ⟨_, List.Perm.refl _, (makes_whereE _ d h).bind' (fun _ => trivial)⟩
  | .branch m k, d, h => by
    unfold whereCC
    by_cases hg : (d : Int) < g
    · simp only [if_pos hg]
      obtain ⟨hs, _⟩ := WF_branch.1 h
      refine ⟨fun i => elems (k i), [], ?_, fun i _ => cmakes_whereCC g (k i) (d + 1) (hs.2.2.1 i), fun pm sl ms => ?_⟩
      · rw [indices_eq_slots (maskOk_wf hs), List.append_nil, flatMap_slots hs, ← List.flatMap_def]
      · dsimp only
        split
        · trivial
        · exact CB.makes_lib _
    · simp only [if_neg hg]
      exact ⟨_, List.Perm.refl _, (makes_whereE _ d h).bind' (fun _ => trivial)⟩

end Where

section Reduce

variable {T : Type} [GoKey T] [LawfulGoKey T] [Inhabited T]

theorem cspends_reduceSeq {n : Node T} {d : Nat} (h : WF d n) (hn : n.isNil = false) :
    CSpends (elems n) (.seq ((reduceE n).bind (fun x => .done (x, 0)))) := by
  have := spends_reduceE n d h hn [] (fun r => .done (some r)) (fun r => List.Perm.refl _)
  rw [List.append_nil] at this
  show CB.Spends id _ (((reduceE n).bind _).bind _)
  rw [CB.bind_assoc]
  exact this

theorem cspends_reduceCC (g : Int) : ∀ (n : Node T) (d : Nat), WF d n → n.isNil = false → CSpends (elems n) (reduceCC g n d)
  | .nil, d, h, hn => by cases hn
  | .leaf1 _, d, h, hn => cspends_reduceSeq h hn
  | .leaf2 _ _, d, h, hn => cspends_reduceSeq h hn
  | .twig _, d, h, hn => cspends_reduceSeq h hn
  | .branch m k, d, h, hn => by
    unfold reduceCC
    by_cases hg : (d : Int) < g
    · simp only [if_pos hg]
      obtain ⟨hs, _⟩ := WF_branch.1 h
      have hm := maskOk_wf hs
      refine ⟨fun i => elems (k i), ?_, fun i hi => cspends_reduceCC g (k i) (d + 1) (hs.2.2.1 i) ?_, fun R pm ms => ?_⟩
      · rw [indices_eq_slots hm, flatMap_slots hs, ← List.flatMap_def]
      · have := mask_bit hs i
        rw [mem_indices.1 hi] at this
        simpa using this.symm
      · dsimp only
        rw [mapM_slots hm (fun i => (if i ∈ m.indices then some (R i) else none).getD default), indices_eq_slots hm]
        have e : (slots m).map (fun i => (if i ∈ slots m then some (R i) else none).getD default) = (slots m).map R :=
          List.map_congr_left (fun i hi => by rw [if_pos hi]; rfl)
        rw [e, CB.lib_ok]
        exact ⟨by simpa using slots_ne_nil h, [], by simp, fun a => List.Perm.refl _⟩
    · simp only [if_neg hg]
      exact cspends_reduceSeq h hn

end Reduce

section Wrap

variable {Q A X Q' A' : Type}

theorem CComp.comp_wrap (h : Q → CB Q' A' A) (f' : Q' → A') (f : Q → A) (hf : ∀ q, (h q).eval f' = .ok (f q)) :
    ∀ c : CComp Q A X, (c.wrap h).comp f' = c.comp f := by
  intro c
  induction c with
  | seq x => simp only [CComp.wrap, CComp.comp, CB.eval_wrap h f' f hf]
  | par mask body sets k ih => simp only [CComp.wrap, CComp.comp, CB.eval_wrap h f' f hf, ih]

theorem CMakesV.wrap {V : Q → A → Prop} {q' : Q → Q'} {g : Q → A' → A} (hV : ∀ q a, V q (g q a)) :
    ∀ (c : CComp Q A X) {l : List Q}, CMakesV V l c → CMakes (l.map q') (c.wrap (fun q => (CB.ask (q' q)).bind (fun a => .done (g q a)))) := by
  intro c
  induction c with
  | seq x =>
    rintro l ⟨l', h1, h2⟩
    exact ⟨_, h1.map q', CB.MakesV.wrap hV h2⟩
  | par mask body sets k ih =>
    rintro l ⟨L, L', h1, h2, h3⟩
    refine ⟨fun i => (L i).map q', L'.map q', ?_, fun i hi => ih i (h2 i hi), fun pm sl ms => CB.MakesV.wrap hV (h3 pm sl ms)⟩
    have := h1.map q'
    rwa [List.map_append, List.map_flatMap] at this

end Wrap

section Merge

variable {T : Type} [GoKey T] [LawfulGoKey T]

theorem comp_combineSeq (eq : T → T → Bool) (f : T × T → T) (n n' : Node T) (d : Nat) :
    (CComp.seq (combineE eq n false n' d)).comp f = seqOf (combine n (cargs eq false f) n' d) := by
  simp only [CComp.comp, eval_combineE]

theorem comp_combineCC (g : Int) (eq : T → T → Bool) (f : T × T → T) : ∀ (n n' : Node T) (d : Nat),
    (combineCC g eq n n' d).comp f = combineC g n (cargs eq false f) n' d
  | .nil, _, d => comp_combineSeq eq f _ _ d
  | .leaf1 _, _, d => comp_combineSeq eq f _ _ d
  | .leaf2 _ _, _, d => comp_combineSeq eq f _ _ d
  | .twig _, _, d => comp_combineSeq eq f _ _ d
  | .branch _ _, .nil, d => comp_combineSeq eq f _ _ d
  | .branch _ _, .leaf1 _, d => comp_combineSeq eq f _ _ d
  | .branch _ _, .leaf2 _ _, d => comp_combineSeq eq f _ _ d
  | .branch _ _, .twig _, d => comp_combineSeq eq f _ _ d
  | .branch m k, .branch m2 k2, d => by
    unfold combineCC combineC
    by_cases hg : (d : Int) < g
    · simp only [if_pos hg, CComp.comp]
      congr 1
      funext i
      by_cases h1 : (k i).isNil = true
      · simp only [h1, if_true]; rfl
      · by_cases h2 : (k2 i).isNil = true
        · simp only [h1, h2, if_true, if_false, Bool.false_eq_true]; rfl
        · simp only [h1, h2, if_false, Bool.false_eq_true]
          exact comp_combineCC g eq f (k i) (k2 i) (d + 1)
    · simp only [if_neg hg]
      exact comp_combineSeq eq f _ _ d

theorem cmakes_combineSeq {a : Node T} {d : Nat} {b : Node T} (ha : WF d a) (hna : a.isNil = false) (hb : WF d b) (hnb : b.isNil = false)
    (hc : ¬ Clash a b) : ∃ L, Comm (elems a) (elems b) L ∧ CMakesV ClassV L (.seq (combineE GoKey.eq a false b d)) := by
  obtain ⟨L, h1, h2⟩ := makes_combineE false a d b ha hna hb hnb hc
  have : L.map (pr false) = L := by
    conv_rhs => rw [← List.map_id L]
    rfl
  rw [this] at h2
  exact ⟨L, h1, L, List.Perm.refl _, h2⟩

theorem cmakes_combineCC (g : Int) : ∀ (a : Node T) (d : Nat) (b : Node T), WF d a → a.isNil = false → WF d b → b.isNil = false →
    ¬ Clash a b → ∃ L, Comm (elems a) (elems b) L ∧ CMakesV ClassV L (combineCC g GoKey.eq a b d)
  | .nil, _, _, _, h, _, _, _ => by cases h
  | .leaf1 _, d, b, ha, hna, hb, hnb, hc => cmakes_combineSeq ha hna hb hnb hc
  | .leaf2 _ _, d, b, ha, hna, hb, hnb, hc => cmakes_combineSeq ha hna hb hnb hc
  | .twig _, d, b, ha, hna, hb, hnb, hc => cmakes_combineSeq ha hna hb hnb hc
  | .branch _ _, d, .nil, ha, hna, hb, hnb, hc => cmakes_combineSeq ha hna hb hnb hc
  | .branch _ _, d, .leaf1 _, ha, hna, hb, hnb, hc => cmakes_combineSeq ha hna hb hnb hc
  | .branch _ _, d, .leaf2 _ _, ha, hna, hb, hnb, hc => cmakes_combineSeq ha hna hb hnb hc
  | .branch _ _, d, .twig _, ha, hna, hb, hnb, hc => cmakes_combineSeq ha hna hb hnb hc
  | .branch m k, d, .branch m2 k2, hwa, hna, hwb, hnb, hc => by
    unfold combineCC
    by_cases hg : (d : Int) < g
    · simp only [if_pos hg]
      have hs := (WF_branch.1 hwa).1
      have hs2 := (WF_branch.1 hwb).1
      have hbit : ∀ i : Fin 8, (m ||| m2).getLsbD i = (!(k i).isNil || !(k2 i).isNil) := by
        intro i
        rw [BitVec.getLsbD_or, mask_bit hs, mask_bit hs2]
      have hok : MaskOk (m ||| m2) := (maskOk_wf hs).or (maskOk_wf hs2)
      have hcl : ∀ i, ¬ Clash (k i) (k2 i) := fun i hi => hc ⟨i, hi⟩
      have ih : ∀ i, ∃ L, Comm (elems (k i)) (elems (k2 i)) L ∧ CMakesV ClassV L
          (if (k i).isNil then .seq (.done (k2 i, 0))
            else if (k2 i).isNil then .seq (.done (k i, 0))
            else combineCC g GoKey.eq (k i) (k2 i) (d + 1)) := by
        intro i
        cases hk : (k i).isNil with
        | true => exact ⟨[], ⟨by simp, fun p => by simp [isNil_iff.1 hk, elems]⟩, [], List.Perm.refl _, trivial⟩
        | false =>
          cases hk2 : (k2 i).isNil with
          | true => exact ⟨[], ⟨by simp, fun p => by simp [isNil_iff.1 hk2, elems]⟩, [], List.Perm.refl _, trivial⟩
          | false => exact cmakes_combineCC g (k i) (d + 1) (k2 i) (hs.2.2.1 i) hk (hs2.2.2.1 i) hk2 (hcl i)
      choose L hL1 hL2 using ih
      refine ⟨(slots (m ||| m2)).flatMap L, ⟨?_, ?_⟩, L, [], ?_, fun i _ => hL2 i, fun pm sl ms => trivial⟩
      · rw [List.nodup_flatMap]
        refine ⟨fun i _ => (hL1 i).1, ?_⟩
        refine (nodup_slots (m ||| m2)).imp (fun {i j} hij => ?_)
        intro p hp hq
        have e1 := hs.2.2.2 i p.1 (((hL1 i).2 p).1 hp).1
        have e2 := hs.2.2.2 j p.1 (((hL1 j).2 p).1 hq).1
        exact hij (e1.symm.trans e2)
      · intro p
        simp only [List.mem_flatMap, elems, mem_slots]
        constructor
        · rintro ⟨i, _, hp⟩
          obtain ⟨h1, h2, h3⟩ := ((hL1 i).2 p).1 hp
          exact ⟨⟨i, List.mem_finRange i, h1⟩, ⟨i, List.mem_finRange i, h2⟩, h3⟩
        · rintro ⟨⟨i, _, h1⟩, ⟨j, _, h2⟩, h3⟩
          have e1 := hs.2.2.2 i p.1 h1
          have e2 := hs2.2.2.2 j p.2 h2
          have hij : i = j := by
            rw [← e1, ← e2]
            exact chunk_congr h3 d
          subst hij
          refine ⟨i, ?_, ((hL1 i).2 p).2 ⟨h1, h2, h3⟩⟩
          rw [hbit]
          have : (k i).isNil = false := by
            cases hk : (k i).isNil with
            | false => rfl
            | true => rw [isNil_iff.1 hk] at h1; cases h1
          rw [this]; rfl
      · rw [indices_eq_slots hok, List.append_nil]
    · simp only [if_neg hg]
      exact cmakes_combineSeq hwa hna hwb hnb hc

end Merge

end Frozen
