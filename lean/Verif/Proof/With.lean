import Verif.Proof.WF
import Mathlib.Data.List.Perm.Basic

/-! `Get`, `AppendTo`, `Canonical`, `newBranchFrom`, `AddFast`, `With`, `WithFast`. -/

set_option linter.unusedSectionVars false

namespace Frozen

variable {T : Type} [GoKey T]

/-! ### AppendTo -/

theorem appendTo_spec (cap : Nat) : ∀ (n : Node T) (dest : List T), n.isNil = false → dest.length ≤ cap →
    appendTo cap n dest = .ok (if dest.length + (elems n).length ≤ cap then some (dest ++ elems n) else none)
  | .nil, _, h, _ => by simp [Node.isNil] at h
  | .leaf1 a, dest, _, _ => by
    simp only [appendTo]
    split <;> split <;> first | rfl | (exfalso; simp only [elems, List.length_cons, List.length_nil] at *; omega)
  | .leaf2 a b, dest, _, _ => by
    simp only [appendTo]
    split <;> split <;> first | rfl | (exfalso; simp only [elems, List.length_cons, List.length_nil] at *; omega)
  | .twig l, dest, _, _ => by
    simp only [appendTo]
    split <;> split <;> first | rfl | (exfalso; simp only [elems, List.length_cons, List.length_nil] at *; omega)
  | .branch m k, dest, _, hd => by
    have ih : ∀ i dest, (k i).isNil = false → dest.length ≤ cap →
      appendTo cap (k i) dest =
        .ok (if dest.length + (elems (k i)).length ≤ cap then some (dest ++ elems (k i)) else none) :=
      fun i dest h hd => appendTo_spec cap (k i) dest h hd
    simp only [appendTo, elems]
    have hnone : ∀ is : List (Fin 8), is.foldlM (fun acc i =>
        match acc with
        | none => pure none
        | some dest => if (k i).isNil then pure (some dest) else appendTo cap (k i) dest) (none : Option (List T)) =
          (.ok none : Go (Option (List T))) := by
      intro is
      induction is with
      | nil => rfl
      | cons i is ih2 => rw [List.foldlM_cons]; simpa [pure, Except.pure, bind, Except.bind] using ih2
    have : ∀ (is : List (Fin 8)) (dest : List T), dest.length ≤ cap → is.foldlM (fun acc i =>
        match acc with
        | none => pure none
        | some dest => if (k i).isNil then pure (some dest) else appendTo cap (k i) dest) (some dest) =
          (.ok (if dest.length + (is.flatMap fun i => elems (k i)).length ≤ cap
            then some (dest ++ is.flatMap fun i => elems (k i)) else none) : Go (Option (List T))) := by
      intro is
      induction is with
      | nil => intro dest hd; simp [hd, pure, Except.pure]
      | cons i is ih2 =>
        intro dest hd
        rw [List.foldlM_cons]
        cases hk : (k i).isNil with
        | true =>
          have hnil : k i = .nil := isNil_iff.1 hk
          simp only [if_true, pure, Except.pure, bind, Except.bind]
          have := ih2 dest hd
          simp only [pure, Except.pure] at this
          rw [this]
          simp [hnil, elems]
        | false =>
          simp only [Bool.false_eq_true, if_false]
          rw [ih i dest hk hd]
          simp only [bind, Except.bind]
          by_cases h : dest.length + (elems (k i)).length ≤ cap
          · simp only [h, if_true]
            rw [ih2 _ (by simpa using h)]
            simp only [List.flatMap_cons, List.length_append, List.append_assoc, Nat.add_assoc]
          · simp only [h, if_false]
            rw [hnone is]
            rw [if_neg]
            simp only [List.flatMap_cons, List.length_append]
            omega
    exact this _ dest hd

/-! ### newBranchFrom without fuel -/

theorem addFastWith_congr {mk1 mk2 : Nat → List T → Go (Node T)} :
    ∀ (n : Node T) (v : T) (d : Nat) (h : Hasher), (∀ d', d ≤ d' → ∀ l, mk1 d' l = mk2 d' l) →
    addFastWith mk1 n v d h = addFastWith mk2 n v d h
  | .nil, _, _, _, _ => rfl
  | .leaf1 _, _, _, _, _ => rfl
  | .leaf2 _ _, _, d, _, hm => by simp only [addFastWith, hm d (Nat.le_refl _)]
  | .twig l, _, d, _, hm => by simp only [addFastWith, hm d (Nat.le_refl _)]
  | .branch m k, v, d, h, hm => by
    simp only [addFastWith]
    rw [addFastWith_congr (k h.idx) v (d + 1) h.next (fun d' hd => hm d' (by omega))]

theorem addFastWith_branch_congr {mk1 mk2 : Nat → List T → Go (Node T)} (m : Masker) (k : Fin 8 → Node T) (v : T) (d : Nat)
    (h : Hasher) (hm : ∀ d', d < d' → ∀ l, mk1 d' l = mk2 d' l) :
    addFastWith mk1 (.branch m k) v d h = addFastWith mk2 (.branch m k) v d h := by
  simp only [addFastWith]
  rw [addFastWith_congr (k h.idx) v (d + 1) h.next (fun d' hd => hm d' (by omega))]

theorem addFastWith_branch {mk : Nat → List T → Go (Node T)} {m : Masker} {k : Fin 8 → Node T} {v : T} {d : Nat}
    {h : Hasher} {r : Node T × Int} (hr : addFastWith mk (.branch m k) v d h = .ok r) : ∃ m' k', r.1 = .branch m' k' := by
  simp only [addFastWith] at hr
  split at hr
  · simp only [Except.ok.injEq] at hr; subst hr; exact ⟨_, _, rfl⟩
  · cases hh : addFastWith mk (k h.idx) v (d + 1) h.next with
    | error e => rw [hh] at hr; simp [bind, Except.bind] at hr
    | ok p =>
      rw [hh] at hr
      simp only [bind, Except.bind, pure, Except.pure, Except.ok.injEq] at hr
      subst hr; exact ⟨_, _, rfl⟩

/-- The loop of `newBranchFrom`. -/
def fillWith (mk : Nat → List T → Go (Node T)) (d : Nat) (data : List T) (b : Node T) : Go (Node T) :=
  data.foldlM (fun b e => do
    let (n, _) ← addFastWith mk b e d (newHasher e d)
    pure n) b

theorem fillWith_congr {mk1 mk2 : Nat → List T → Go (Node T)} (d : Nat) (hm : ∀ d', d < d' → ∀ l, mk1 d' l = mk2 d' l) :
    ∀ (data : List T) (m : Masker) (k : Fin 8 → Node T),
    fillWith mk1 d data (.branch m k) = fillWith mk2 d data (.branch m k)
  | [], _, _ => rfl
  | e :: es, m, k => by
    simp only [fillWith, List.foldlM_cons]
    rw [addFastWith_branch_congr m k e d _ hm]
    cases hh : addFastWith mk2 (.branch m k) e d (newHasher e d) with
    | error e => rfl
    | ok r =>
      obtain ⟨m', k', h'⟩ := addFastWith_branch hh
      simp only [bind, Except.bind, pure, Except.pure, h']
      exact fillWith_congr d hm es m' k'

theorem newBranchFromAux_fuel : ∀ (f1 f2 d : Nat) (l : List T), maxTreeDepth - d ≤ f1 → maxTreeDepth - d ≤ f2 →
    newBranchFromAux f1 d l = newBranchFromAux f2 d l
  | 0, f2, d, l, h1, _ => by
    have : d ≥ maxTreeDepth := by omega
    unfold newBranchFromAux; simp [this]
  | f1 + 1, 0, d, l, _, h2 => by
    have : d ≥ maxTreeDepth := by omega
    unfold newBranchFromAux; simp [this]
  | f1 + 1, f2 + 1, d, l, h1, h2 => by
    by_cases hd : d ≥ maxTreeDepth
    · unfold newBranchFromAux; simp [hd]
    · unfold newBranchFromAux; simp only [hd, if_false]
      exact fillWith_congr d (fun d' hd' l => newBranchFromAux_fuel f1 f2 d' l (by omega) (by omega)) l _ _

/-- `newBranchFrom` as the Go code reads (branch.go:35-45). -/
theorem newBranchFrom_eq (d : Nat) (l : List T) : newBranchFrom d l =
    if d ≥ maxTreeDepth then .ok (.twig l)
    else l.foldlM (fun b e => do
      let (n, _) ← addFast b e d (newHasher e d)
      pure n) (.branch 0#16 fun _ => .nil) := by
  by_cases hd : d ≥ maxTreeDepth
  · unfold newBranchFrom newBranchFromAux; simp [hd]
  · rw [if_neg hd]
    have : newBranchFrom d l = fillWith (newBranchFromAux 21) d l (.branch 0#16 fun _ => .nil) := by
      show newBranchFromAux 22 d l = _
      unfold newBranchFromAux; simp only [hd, if_false]; rfl
    rw [this]
    exact fillWith_congr d (fun d' hd' l => newBranchFromAux_fuel 21 22 d' l
      (by simp only [maxTreeDepth, hashBits, fanoutBits]; omega)
      (by simp only [maxTreeDepth, hashBits, fanoutBits]; omega)) l _ _

variable [PerGoKey T]

/-! ### Get -/

theorem get_spec : ∀ {d : Nat} {n : Node T}, WF d n → n.isNil = false → ∀ v, get n v (newHasher v d) = .ok (look n v)
  | _, .nil, _, h, _ => by simp [Node.isNil] at h
  | _, .leaf1 a, _, _, v => by
    simp only [get, look, elems, List.find?_cons, List.find?_nil]
    cases GoKey.eq a v <;> simp
  | _, .leaf2 a b, _, _, v => by
    simp only [get, look, elems, List.find?_cons, List.find?_nil]
    cases GoKey.eq a v <;> cases GoKey.eq b v <;> simp
  | _, .twig l, _, _, v => rfl
  | d, .branch m k, h, _, v => by
    have hs := (WF_branch.1 h).1
    rw [WF.look_branch hs]
    have hi : (newHasher v d).idx = chunk v d := rfl
    simp only [get, hi]
    cases hk : (k (chunk v d)).isNil with
    | true =>
      have : k (chunk v d) = .nil := isNil_iff.1 hk
      simp [this, look, elems]
    | false =>
      simp only [Bool.false_eq_true, if_false]
      rw [newHasher_next]
      exact get_spec (hs.2.2.1 _) hk v

/-! ### The effect of adding one element, on lists -/

theorem Distinct.perm {l l' : List T} (h : Distinct l) (hp : l.Perm l') : Distinct l' := by
  unfold Distinct at *
  exact (hp.pairwise_iff (fun {a b} hab => by rw [eq_comm]; exact hab)).1 h

theorem Distinct.find?_perm {l l' : List T} (h : Distinct l) (hp : l.Perm l') (w : T) :
    l.find? (fun e => GoKey.eq e w) = l'.find? (fun e => GoKey.eq e w) := by
  cases hf : l.find? (fun e => GoKey.eq e w) with
  | some e =>
    have h1 := List.mem_of_find?_eq_some hf
    have h2 : GoKey.eq e w = true := by simpa using List.find?_some hf
    exact ((h.perm hp).find?_of_eq (hp.mem_iff.1 h1) h2).symm
  | none =>
    symm
    rw [List.find?_eq_none] at hf ⊢
    intro e he
    exact hf e (hp.mem_iff.2 he)

/-- `l` with `v` added: an element equal to `v` is replaced by `f e v`. -/
def addL (f : T → T → T) (l : List T) (v : T) : List T :=
  l.map (fun e => if GoKey.eq e v then f e v else e) ++ if (l.find? (fun e => GoKey.eq e v)).isSome then [] else [v]

/-- `l'` is `l` with `v` added: an element equal to `v` is replaced by `f e v`; `ms` counts the replacements. -/
structure WithL (f : T → T → T) (l : List T) (v : T) (l' : List T) (ms : Int) : Prop where
  distinct : Distinct l'
  find : ∀ w, l'.find? (fun e => GoKey.eq e w) =
    if GoKey.eq v w then some (match l.find? (fun e => GoKey.eq e v) with | some e => f e v | none => v)
    else l.find? (fun e => GoKey.eq e w)
  len : (l'.length : Int) + ms = l.length + 1
  ms_eq : ms = if (l.find? (fun e => GoKey.eq e v)).isSome then 1 else 0
  perm : l'.Perm (addL f l v)

theorem map_ne {f : T → T → T} {l : List T} {v : T} (h : ∀ e ∈ l, GoKey.eq e v = false) :
    l.map (fun e => if GoKey.eq e v then f e v else e) = l :=
  (List.map_congr_left (fun e he => by simp [h e he])).trans (List.map_id l)

theorem addL_new {f : T → T → T} {l : List T} {v : T} (h : l.find? (fun e => GoKey.eq e v) = none) : addL f l v = l ++ [v] := by
  unfold addL
  rw [h, map_ne (by rw [List.find?_eq_none] at h; intro e he; simpa using h e he)]
  rfl

/-- Replacing the first element equal to `v` replaces the only one. -/
theorem modify_eq_map {l : List T} {v : T} {g : T → T} {i : Nat} (hd : Distinct l)
    (h : l.findIdx? (fun e => GoKey.eq e v) = some i) : l.modify i g = l.map (fun e => if GoKey.eq e v then g e else e) := by
  induction l generalizing i with
  | nil => simp at h
  | cons a l ih =>
    unfold Distinct at hd
    rw [List.pairwise_cons] at hd
    rw [List.findIdx?_cons] at h
    by_cases ha : GoKey.eq a v = true
    · simp only [ha, if_true, Option.some.injEq] at h
      subst h
      simp only [List.modify_zero_cons, List.map_cons, ha, if_true]
      congr 1
      refine ((List.map_congr_left (fun e he => ?_)).trans (List.map_id l)).symm
      have := hd.1 e he
      rw [eq_congr_left ha, eq_comm] at this
      simp [this]
    · simp only [ha, if_false] at h
      cases hi : l.findIdx? (fun e => GoKey.eq e v) with
      | none => rw [hi] at h; simp at h
      | some j =>
        rw [hi] at h
        simp at h
        subst h
        simp [ih hd.2 hi, ha]

/-- `f` keeps its result equal to its arguments. -/
def ClassPres (f : T → T → T) : Prop := ∀ a b, GoKey.eq a b = true → GoKey.eq (f a b) a = true

theorem ClassPres.rhs : ClassPres (fun _ b : T => b) := fun _ _ h => PerGoKey.symm h

theorem ClassPres.flip {f : T → T → T} (h : ClassPres f) : ClassPres (fun a b => f b a) := fun a b hab =>
  PerGoKey.trans (h b a (PerGoKey.symm hab)) (PerGoKey.symm hab)

theorem WithL.append {f : T → T → T} {l : List T} {v : T} (hd : Distinct l) (h : l.find? (fun e => GoKey.eq e v) = none) :
    WithL f l v (l ++ [v]) 0 := by
  have h0 : ∀ e ∈ l, GoKey.eq e v = false := by
    rw [List.find?_eq_none] at h
    intro e he; simpa using h e he
  refine ⟨?_, ?_, ?_, ?_, by rw [addL_new h]⟩
  · unfold Distinct
    rw [List.pairwise_append]
    refine ⟨hd, List.pairwise_singleton _ _, ?_⟩
    intro a ha b hb
    simp only [List.mem_singleton] at hb
    subst hb; exact h0 a ha
  · intro w
    rw [List.find?_append]
    by_cases hvw : GoKey.eq v w = true
    · simp only [hvw, if_true, h]
      rw [← find?_congr_key hvw, h]
      simp [hvw]
    · simp only [hvw, if_false, List.find?_cons, List.find?_nil]
      simp
  · simp
  · simp [h]

/-- Replacing the first element equal to `v`. -/
theorem find?_modify {l : List T} {v : T} {g : T → T} {i : Nat} (hd : Distinct l)
    (h : l.findIdx? (fun e => GoKey.eq e v) = some i) (hg : ∀ e, GoKey.eq e v = true → GoKey.eq (g e) v = true) :
    Distinct (l.modify i g) ∧ (∃ e, l.find? (fun e => GoKey.eq e v) = some e ∧
      ∀ w, (l.modify i g).find? (fun e => GoKey.eq e w) =
        if GoKey.eq v w then some (g e) else l.find? (fun e => GoKey.eq e w)) := by
  induction l generalizing i with
  | nil => simp at h
  | cons a l ih =>
    have hd' := hd
    unfold Distinct at hd'
    rw [List.pairwise_cons] at hd'
    rw [List.findIdx?_cons] at h
    by_cases ha : GoKey.eq a v = true
    · simp only [ha, if_true, Option.some.injEq] at h
      subst h
      have hga := hg a ha
      simp only [List.modify_zero_cons, List.find?_cons, ha]
      refine ⟨?_, a, rfl, ?_⟩
      · unfold Distinct
        rw [List.pairwise_cons]
        refine ⟨fun b hb => ?_, hd'.2⟩
        rw [eq_congr_left hga, ← eq_congr_left ha]; exact hd'.1 b hb
      · intro w
        rw [eq_congr_left hga, eq_congr_left ha]
        cases hvw : GoKey.eq v w with
        | true => simp
        | false => simp
    · simp only [ha, if_false] at h
      cases hi : l.findIdx? (fun e => GoKey.eq e v) with
      | none => rw [hi] at h; simp at h
      | some j =>
        rw [hi] at h
        simp only [Option.map_some, Option.some.injEq] at h
        simp at h
        subst h
        obtain ⟨hdm, e, he, hw⟩ := ih hd'.2 hi
        have hev : GoKey.eq e v = true := by simpa using List.find?_some he
        simp only [List.modify_succ_cons, List.find?_cons, ha]
        refine ⟨?_, e, he, ?_⟩
        · unfold Distinct
          rw [List.pairwise_cons]
          refine ⟨?_, hdm⟩
          intro b hb
          -- b is in the modified list, so it is the modified element or an old one
          rw [modify_eq_map hd'.2 hi] at hb
          obtain ⟨e', he', rfl⟩ := List.mem_map.1 hb
          cases hev' : GoKey.eq e' v with
          | true =>
            simp only [if_true]
            rw [eq_congr_right (hg e' hev')]; simpa using ha
          | false => simpa using hd'.1 e' he'
        · intro w
          rw [hw w]
          cases hvw : GoKey.eq v w with
          | true =>
            rw [← eq_congr_right hvw]
            simp [ha]
          | false => simp

theorem WithL.modify {f : T → T → T} (hf : ClassPres f) {l : List T} {v : T} {i : Nat} (hd : Distinct l)
    (h : l.findIdx? (fun e => GoKey.eq e v) = some i) : WithL f l v (l.modify i fun e => f e v) 1 := by
  obtain ⟨h1, e, he, h2⟩ := find?_modify (g := fun e => f e v) hd h
    (fun e hev => PerGoKey.trans (hf e v hev) hev)
  refine ⟨h1, ?_, by simp, by simp [he], ?_⟩
  · intro w; rw [h2, he]
  · unfold addL
    rw [modify_eq_map hd h, he]
    simp

omit [GoKey T] [PerGoKey T] in
theorem set_eq_modify {l : List T} {i : Nat} {v : T} : l.set i v = l.modify i fun _ => v := by
  induction l generalizing i with
  | nil => simp
  | cons a l ih => cases i <;> simp [ih]

/-! ### Adding one element to a node -/

/-- The contract of `With`/`WithFast`/`AddFast`. -/
structure WithSpec (f : T → T → T) (d : Nat) (n : Node T) (v : T) (n' : Node T) (ms : Int) : Prop where
  wf : WF d n'
  nonNil : n'.isNil = false
  eff : WithL f (elems n) v (elems n') ms

theorem WithL.mem {f : T → T → T} (hf : ClassPres f) {l : List T} {v : T} {l' : List T} {ms : Int} (h : WithL f l v l' ms)
    {e : T} (he : e ∈ l') : e = v ∨ GoKey.eq v e = true ∨ e ∈ l := by
  have := h.perm.mem_iff.1 he
  unfold addL at this
  rcases List.mem_append.1 this with h1 | h1
  · obtain ⟨x, hx, rfl⟩ := List.mem_map.1 h1
    cases hxv : GoKey.eq x v with
    | true =>
      refine .inr (.inl ?_)
      simp only [if_true]
      exact PerGoKey.symm (PerGoKey.trans (hf x v hxv) hxv)
    | false => exact .inr (.inr (by simpa using hx))
  · split at h1
    · cases h1
    · exact .inl (List.mem_singleton.1 h1)

theorem WithSpec.chunk {f : T → T → T} (hf : ClassPres f) {d d' : Nat} {n n' : Node T} {v : T} {ms : Int} (h : WithSpec f d n v n' ms)
    (hc : ∀ e ∈ elems n, chunk e d' = chunk v d') :
    ∀ e ∈ elems n', Frozen.chunk e d' = Frozen.chunk v d' := by
  intro e he
  rcases h.eff.mem hf he with rfl | hv | hm
  · rfl
  · exact (chunk_congr hv d').symm
  · exact hc e hm

omit [GoKey T] [PerGoKey T] in
theorem flatMap_tail {A B : Fin 8 → List T} {i : Fin 8} {t : List T} (hi : (B i).Perm (A i ++ t)) (hj : ∀ j, j ≠ i → B j = A j) :
    ∀ (is : List (Fin 8)), is.Nodup → (i ∈ is → (is.flatMap B).Perm (is.flatMap A ++ t)) ∧ (i ∉ is → is.flatMap B = is.flatMap A)
  | [], _ => ⟨fun h => absurd h (by simp), fun _ => rfl⟩
  | j :: is, hn => by
    rw [List.nodup_cons] at hn
    obtain ⟨h1, h2⟩ := flatMap_tail hi hj is hn.2
    simp only [List.flatMap_cons]
    constructor
    · intro h
      by_cases hji : j = i
      · subst hji
        rw [h2 hn.1]
        refine (hi.append_right _).trans ?_
        rw [List.append_assoc, List.append_assoc]
        exact List.Perm.append_left _ List.perm_append_comm
      · rw [hj j hji, List.append_assoc]
        exact List.Perm.append_left _ (h1 ((List.mem_cons.1 h).resolve_left (fun e => hji e.symm)))
    · intro h
      rw [List.mem_cons, not_or] at h
      rw [hj j (fun e => h.1 e.symm), h2 h.2]

/-- Adding to the slot of `v` adds to the branch. -/
theorem addL_slots {f : T → T → T} {d : Nat} {m m' : Masker} {k : Fin 8 → Node T} (h : WFSlots WF d m k) {v : T} {n' : Node T}
    (hp : (elems n').Perm (addL f (elems (k (chunk v d))) v)) :
    (elems (.branch m' (setSlot k (chunk v d) n'))).Perm (addL f (elems (.branch m k)) v) := by
  have h2 := WF.look_branch h v
  unfold look at h2
  unfold addL at hp ⊢
  rw [h2]
  simp only [elems, List.map_flatMap]
  refine (flatMap_tail (i := chunk v d) ?_ ?_ _ (List.nodup_finRange 8)).1 (List.mem_finRange _)
  · rw [setSlot_same]; exact hp
  · intro j hj
    rw [setSlot_ne _ _ hj, map_ne]
    intro e he
    cases hev : GoKey.eq e v with
    | false => rfl
    | true => exact absurd ((h.2.2.2 j e he).symm.trans (chunk_congr hev d)) hj

/-- Updating the slot of `v`. -/
theorem slots_with {f : T → T → T} (hf : ClassPres f) {d : Nat} {m : Masker} {k : Fin 8 → Node T} (h : WFSlots WF d m k) {v : T}
    {n' : Node T} {ms : Int} (hs : WithSpec f (d + 1) (k (chunk v d)) v n' ms) :
    WFSlots WF d (maskOf (setSlot k (chunk v d) n')) (setSlot k (chunk v d) n') ∧
    WithL f (elems (.branch m k)) v (elems (.branch (maskOf (setSlot k (chunk v d) n')) (setSlot k (chunk v d) n'))) ms := by
  have hc := hs.chunk hf (d' := d) (fun e he => h.2.2.2 _ e he)
  have hset := h.set (chunk v d) hs.wf hc
  refine ⟨hset, hset.distinct, ?_, ?_, ?_, addL_slots h hs.eff.perm⟩
  · intro w
    have h1 := look_setSlot (m' := maskOf (setSlot k (chunk v d) n')) h (chunk v d) hc w
    unfold look at h1
    rw [h1, hs.eff.find]
    have h2 := WF.look_branch h v
    have h3 := WF.look_branch h w
    unfold look at h2 h3
    rw [h2, h3]
    by_cases hvw : GoKey.eq v w = true
    · simp [hvw, ← chunk_congr hvw]
    · simp only [hvw]
      by_cases hcw : chunk w d = chunk v d
      · simp [hcw]
      · simp [hcw]
  · have := length_setSlot m (maskOf (setSlot k (chunk v d) n')) k (chunk v d) n'
    have := hs.eff.len
    omega
  · have h2 := WF.look_branch h v
    unfold look at h2
    rw [h2]; exact hs.eff.ms_eq

theorem WithL.ms_le {f : T → T → T} {l : List T} {v : T} {l' : List T} {ms : Int} (h : WithL f l v l' ms) :
    ms = 0 ∨ ms = 1 := by
  rw [h.ms_eq]; split <;> simp

theorem WithL.len_ge {f : T → T → T} {l : List T} {v : T} {l' : List T} {ms : Int} (h : WithL f l v l' ms) :
    l.length ≤ l'.length := by
  have := h.len; rcases h.ms_le with h | h <;> omega

theorem withSpec_nil (f : T → T → T) (d : Nat) (v : T) : WithSpec f d .nil v (.leaf1 v) 0 :=
  ⟨trivial, rfl, WithL.append (l := []) List.Pairwise.nil rfl⟩

/-! #### Leaves -/

theorem withSpec_leaf1_eq {f : T → T → T} (hf : ClassPres f) (d : Nat) {a v : T} (h : GoKey.eq a v = true) :
    WithSpec f d (.leaf1 a) v (.leaf1 (f a v)) 1 :=
  ⟨trivial, rfl, WithL.modify (l := [a]) (i := 0) hf (List.pairwise_singleton _ _) (by simp [List.findIdx?_cons, h])⟩

theorem withSpec_leaf1_ne {f : T → T → T} (d : Nat) {a v : T} (h : GoKey.eq a v = false) :
    WithSpec f d (.leaf1 a) v (.leaf2 a v) 0 :=
  ⟨h, rfl, WithL.append (l := [a]) (List.pairwise_singleton _ _) (by simp [h])⟩

theorem withSpec_leaf2_0 {f : T → T → T} (hf : ClassPres f) (d : Nat) {a b v : T} (hw : WF d (.leaf2 a b))
    (h : GoKey.eq a v = true) : WithSpec f d (.leaf2 a b) v (.leaf2 (f a v) b) 1 := by
  refine ⟨?_, rfl, WithL.modify (l := [a, b]) (i := 0) hf hw.distinct (by simp [List.findIdx?_cons, h])⟩
  show GoKey.eq (f a v) b = false
  rw [eq_congr_left (hf a v h)]; exact hw

theorem withSpec_leaf2_1 {f : T → T → T} (hf : ClassPres f) (d : Nat) {a b v : T} (hw : WF d (.leaf2 a b))
    (h0 : GoKey.eq a v = false) (h : GoKey.eq b v = true) : WithSpec f d (.leaf2 a b) v (.leaf2 a (f b v)) 1 := by
  refine ⟨?_, rfl, WithL.modify (l := [a, b]) (i := 1) hf hw.distinct (by simp [List.findIdx?_cons, h, h0])⟩
  show GoKey.eq a (f b v) = false
  rw [eq_congr_right (hf b v h)]; exact hw

/-- The contract of `newBranchFrom`. -/
def NBSpec (T : Type) [GoKey T] (d : Nat) : Prop := ∀ l : List T, Distinct l → 3 ≤ l.length →
  ∃ n, newBranchFrom d l = .ok n ∧ WF d n ∧ n.isNil = false ∧ (elems n).Perm l

theorem WithL.of_perm {f : T → T → T} {l : List T} {v : T} {l' l'' : List T} {ms : Int} (h : WithL f l v l' ms) (hp : l''.Perm l') :
    WithL f l v l'' ms :=
  ⟨h.distinct.perm hp.symm, fun w => by rw [(h.distinct.perm hp.symm).find?_perm hp, h.find], by rw [hp.length_eq]; exact h.len, h.ms_eq,
    hp.trans h.perm⟩

theorem withSpec_of_list {f : T → T → T} {d : Nat} {n : Node T} {v : T} {n' : Node T} {l' : List T} {ms : Int}
    (h : WithL f (elems n) v l' ms) (hw : WF d n') (hnil : n'.isNil = false) (hp : (elems n').Perm l') :
    WithSpec f d n v n' ms := ⟨hw, hnil, h.of_perm hp⟩

theorem withSpec_leaf2_new {f : T → T → T} {d : Nat} (hNB : NBSpec T d) {a b v : T} (hw : WF d (.leaf2 a b))
    (h0 : GoKey.eq a v = false) (h1 : GoKey.eq b v = false) :
    ∃ n', newBranchFrom d [a, b, v] = .ok n' ∧ WithSpec f d (.leaf2 a b) v n' 0 := by
  have hL : WithL f [a, b] v [a, b, v] 0 := WithL.append (l := [a, b]) hw.distinct (by simp [h0, h1])
  obtain ⟨n, h1, h2, h3, h4⟩ := hNB [a, b, v] hL.distinct (by simp)
  exact ⟨n, h1, withSpec_of_list (n := .leaf2 a b) hL h2 h3 h4⟩

/-! #### AddFast and newBranchFrom -/

theorem maskOf_nil : maskOf (fun _ : Fin 8 => (Node.nil : Node T)) = 0#16 := rfl

theorem setNonNil_eq {d : Nat} {m : Masker} {k : Fin 8 → Node T} (h : WFSlots WF d m k) (i : Fin 8) {n : Node T}
    (hn : n.isNil = false) :
    Packer.setNonNilChild ⟨m, k⟩ i n = ⟨maskOf (setSlot k i n), setSlot k i n⟩ := by
  unfold Packer.setNonNilChild
  rw [h.2.1, maskOf_setSlot_nonNil k i n hn]

theorem withChild_eq {d : Nat} {m : Masker} {k : Fin 8 → Node T} (h : WFSlots WF d m k) (i : Fin 8) (n : Node T) :
    Packer.withChild ⟨m, k⟩ i n = ⟨maskOf (setSlot k i n), setSlot k i n⟩ := by
  unfold Packer.withChild
  rw [setChild_eq m k i n (h.2.1 ▸ maskOk_maskOf k) (fun j _ => by rw [h.2.1])]

theorem addFast_slots {d : Nat} {m : Masker} {k : Fin 8 → Node T} (h : WFSlots WF d m k) (v : T)
    (ih : ∀ i, (k i).isNil = false → ∃ n' ms, addFast (k i) v (d + 1) (newHasher v (d + 1)) = .ok (n', ms) ∧
      WithSpec (fun _ b => b) (d + 1) (k i) v n' ms) :
    ∃ k' ms, addFast (.branch m k) v d (newHasher v d) = .ok (.branch (maskOf k') k', ms) ∧
      WFSlots WF d (maskOf k') k' ∧
      WithL (fun _ b => b) (elems (.branch m k)) v (elems (.branch (maskOf k') k')) ms := by
  have hi : (newHasher v d).idx = chunk v d := rfl
  simp only [addFast, addFastWith, hi, newHasher_next]
  cases hk : (k (chunk v d)).isNil with
  | true =>
    have hnil : k (chunk v d) = .nil := isNil_iff.1 hk
    simp only [if_true]
    rw [setNonNil_eq h _ rfl]
    have hs : WithSpec (fun _ b => b) (d + 1) (k (chunk v d)) v (.leaf1 v) 0 := by
      rw [hnil]; exact withSpec_nil _ _ _
    exact ⟨_, 0, rfl, slots_with ClassPres.rhs h hs⟩
  | false =>
    obtain ⟨n', ms, h1, h2⟩ := ih _ hk
    simp only [Bool.false_eq_true, if_false]
    have h1' : addFastWith newBranchFrom (k (chunk v d)) v (d + 1) (newHasher v (d + 1)) = .ok (n', ms) := h1
    rw [h1']
    simp only [bind, Except.bind, pure, Except.pure]
    rw [setNonNil_eq h _ h2.nonNil]
    exact ⟨_, ms, rfl, slots_with ClassPres.rhs h h2⟩

theorem findIdx?_none_iff {l : List T} {v : T} (h : l.findIdx? (fun e => GoKey.eq e v) = none) :
    l.find? (fun e => GoKey.eq e v) = none := by
  rw [List.findIdx?_eq_none_iff] at h
  rw [List.find?_eq_none]
  intro e he; simp [h e he]

theorem twig_modify_spec {f : T → T → T} (hf : ClassPres f) {d : Nat} {l : List T} (hw : WF d (.twig l)) {v : T} {i : Nat}
    (h : l.findIdx? (fun e => GoKey.eq e v) = some i) : WithSpec f d (.twig l) v (.twig (l.modify i fun e => f e v)) 1 := by
  have hL := WithL.modify hf hw.distinct h
  exact ⟨⟨hw.1, by simpa using hw.2.1, hL.distinct⟩, rfl, hL⟩

theorem twig_append_spec {f : T → T → T} {d : Nat} {l : List T} (hw : WF d (.twig l)) {v : T}
    (h : l.findIdx? (fun e => GoKey.eq e v) = none) : WithSpec f d (.twig l) v (.twig (l ++ [v])) 0 := by
  have hL : WithL f l v (l ++ [v]) 0 := WithL.append hw.distinct (findIdx?_none_iff h)
  exact ⟨⟨hw.1, by have := hw.2.1; simp; omega, hL.distinct⟩, rfl, hL⟩

theorem addFast_of_nb (d0 : Nat) (hNB : ∀ d, d0 ≤ d → NBSpec T d) : ∀ (n : Node T) (d : Nat), d0 ≤ d → WF d n →
    n.isNil = false → ∀ v, ∃ n' ms, addFast n v d (newHasher v d) = .ok (n', ms) ∧ WithSpec (fun _ b => b) d n v n' ms
  | .nil, _, _, _, h, _ => by simp [Node.isNil] at h
  | .leaf1 a, d, _, _, _, v => by
    simp only [addFast, addFastWith]
    cases h : GoKey.eq a v with
    | true => exact ⟨_, _, rfl, withSpec_leaf1_eq (f := fun _ b => b) ClassPres.rhs d h⟩
    | false => exact ⟨_, _, rfl, withSpec_leaf1_ne d h⟩
  | .leaf2 a b, d, hd, hw, _, v => by
    simp only [addFast, addFastWith]
    cases h : GoKey.eq a v with
    | true => exact ⟨_, _, rfl, withSpec_leaf2_0 (f := fun _ b => b) ClassPres.rhs d hw h⟩
    | false =>
      cases h1 : GoKey.eq b v with
      | true => exact ⟨_, _, rfl, withSpec_leaf2_1 (f := fun _ b => b) ClassPres.rhs d hw h h1⟩
      | false =>
        obtain ⟨n', hn, hs⟩ := withSpec_leaf2_new (f := fun _ b => b) (hNB d hd) hw h h1
        refine ⟨n', 0, ?_, hs⟩
        simp [hn, bind, Except.bind, pure, Except.pure]
  | .twig l, d, _, hw, _, v => by
    simp only [addFast, addFastWith]
    cases h : l.findIdx? (fun e => GoKey.eq e v) with
    | some i =>
      refine ⟨_, _, rfl, ?_⟩
      rw [set_eq_modify]
      exact twig_modify_spec (f := fun _ b => b) ClassPres.rhs hw h
    | none =>
      refine ⟨_, _, ?_, twig_append_spec hw h⟩
      have hd : d ≥ maxTreeDepth := hw.1
      simp only [hd, if_true]
  | .branch m k, d, hd, hw, _, v => by
    have hs := (WF_branch.1 hw).1
    obtain ⟨k', ms, h1, h2, h3⟩ := addFast_slots hs v (fun i hi => addFast_of_nb d0 hNB (k i) (d + 1) (by omega) (hs.2.2.1 i) hi v)
    exact ⟨_, ms, h1, ⟨WF_branch.2 ⟨h2, hw.2.trans h3.len_ge⟩, rfl, h3⟩⟩

theorem wfSlots_empty {d : Nat} (hd : d < maxTreeDepth) : WFSlots WF d 0#16 (fun _ : Fin 8 => (Node.nil : Node T)) :=
  ⟨hd, maskOf_nil.symm, fun _ => trivial, fun i e he => by simp [elems] at he⟩

theorem nbSpec (d : Nat) : NBSpec T d := by
  suffices h : ∀ j d, maxTreeDepth - d ≤ j → NBSpec T d from h _ d (Nat.le_refl _)
  intro j
  induction j with
  | zero =>
    intro d hd l hl hlen
    have hd' : d ≥ maxTreeDepth := by omega
    refine ⟨.twig l, by rw [newBranchFrom_eq, if_pos hd'], ⟨hd', hlen, hl⟩, rfl, List.Perm.refl _⟩
  | succ j ih =>
    intro d hd l hl hlen
    by_cases hd' : d ≥ maxTreeDepth
    · exact ⟨.twig l, by rw [newBranchFrom_eq, if_pos hd'], ⟨hd', hlen, hl⟩, rfl, List.Perm.refl _⟩
    rw [newBranchFrom_eq, if_neg hd']
    have hNB : ∀ d', d + 1 ≤ d' → NBSpec T d' := fun d' h => ih d' (by omega)
    -- the loop invariant
    have loop : ∀ (xs ys : List T) (m : Masker) (k : Fin 8 → Node T), Distinct (ys ++ xs) → WFSlots WF d m k →
        (elems (.branch m k)).Perm ys →
        ∃ k', xs.foldlM (fun b e => do
            let (n, _) ← addFast b e d (newHasher e d)
            pure n) (.branch m k) = (.ok (.branch (maskOf k') k') : Go (Node T)) ∧ WFSlots WF d (maskOf k') k' ∧
          (elems (.branch (maskOf k') k')).Perm (ys ++ xs) := by
      intro xs
      induction xs with
      | nil =>
        intro ys m k _ hw hl
        have := hw.2.1
        subst this
        exact ⟨k, rfl, hw, by simpa using hl⟩
      | cons x xs ihx =>
        intro ys m k hdist hw hl
        obtain ⟨k', ms, h1, h2, h3⟩ := addFast_slots hw x
          (fun i hi => addFast_of_nb (d + 1) hNB (k i) (d + 1) (Nat.le_refl _) (hw.2.2.1 i) hi x)
        have hno : (elems (.branch m k)).find? (fun e => GoKey.eq e x) = none := by
          rw [List.find?_eq_none]
          unfold Distinct at hdist
          rw [List.pairwise_append] at hdist
          intro e he
          simp [hdist.2.2 e (hl.mem_iff.1 he) x (by simp)]
        have happ : ys ++ x :: xs = (ys ++ [x]) ++ xs := by simp
        have hp := h3.perm
        rw [addL_new hno] at hp
        obtain ⟨k'', g1, g2, g3⟩ := ihx (ys ++ [x]) (maskOf k') k' (by rwa [← happ]) h2 (hp.trans (hl.append_right _))
        refine ⟨k'', ?_, g2, by rw [happ]; exact g3⟩
        rw [List.foldlM_cons, h1]
        simp only [bind, Except.bind, pure, Except.pure]
        exact g1
    have hempty : elems (.branch 0#16 (fun _ : Fin 8 => (Node.nil : Node T))) = [] := by
      simp [elems, List.flatMap_eq_nil_iff]
    obtain ⟨k', g1, g2, g3⟩ := loop l [] 0#16 (fun _ => .nil) (by simpa using hl) (wfSlots_empty (by omega))
      (by rw [hempty])
    exact ⟨_, g1, WF_branch.2 ⟨g2, by rw [g3.length_eq]; simpa using hlen⟩, rfl, by simpa using g3⟩

theorem addFast_spec {n : Node T} {d : Nat} (hw : WF d n) (hn : n.isNil = false) (v : T) :
    ∃ n' ms, addFast n v d (newHasher v d) = .ok (n', ms) ∧ WithSpec (fun _ b => b) d n v n' ms :=
  addFast_of_nb 0 (fun d _ => nbSpec d) n d (Nat.zero_le _) hw hn v

/-! #### Canonical -/

theorem twigCanonical_twig {l : List T} {d : Nat} (hd : maxTreeDepth ≤ d) (hlen : 3 ≤ l.length) :
    twigCanonical l d = .ok (.twig l) := by
  have : d * fanoutBits ≥ 64 := by
    simp only [maxTreeDepth, hashBits, fanoutBits] at *; omega
  match l, hlen with
  | a :: b :: c :: l, _ => simp [twigCanonical, this]

/-- `Canonical` of distinct data at the maximum depth, or of at most two elements. -/
theorem twigCanonical_spec {l : List T} {d d' : Nat} (hd : maxTreeDepth ≤ d ∨ l.length ≤ 2) (hl : Distinct l)
    (hdd : maxTreeDepth ≤ d → maxTreeDepth ≤ d') :
    ∃ n, twigCanonical l d = .ok n ∧ WF d' n ∧ elems n = l := by
  match l, hd with
  | [], _ => exact ⟨.nil, rfl, trivial, rfl⟩
  | [a], _ => exact ⟨.leaf1 a, rfl, trivial, rfl⟩
  | [a, b], _ => exact ⟨.leaf2 a b, rfl, by simpa [Distinct, WF] using hl, rfl⟩
  | a :: b :: c :: l, hd =>
    have hd' : maxTreeDepth ≤ d := by
      rcases hd with h | h
      · exact h
      · simp at h
    exact ⟨.twig (a :: b :: c :: l), twigCanonical_twig hd' (by simp), ⟨hdd hd', by simp, hl⟩, rfl⟩

theorem branchCanonical_spec {d : Nat} {m : Masker} {k : Fin 8 → Node T} (h : WFSlots WF d m k) :
    ∃ n, branchCanonical ⟨m, k⟩ = .ok n ∧ WF d n ∧ elems n = elems (.branch m k) := by
  unfold branchCanonical
  rw [appendTo_spec maxLeafLen _ [] rfl (by simp)]
  simp only [Packer.toNode, List.length_nil, Nat.zero_add, List.nil_append, maxLeafLen, bind, Except.bind]
  by_cases hl : (elems (.branch m k)).length ≤ 2
  · rw [if_pos hl]
    obtain ⟨n, h1, h2, h3⟩ := twigCanonical_spec (d := 0) (d' := d) (Or.inr hl) h.distinct
      (by intro h; simp [maxTreeDepth] at h)
    exact ⟨n, h1, h2, h3⟩
  · rw [if_neg hl]
    exact ⟨_, rfl, WF_branch.2 ⟨h, by omega⟩, rfl⟩

/-! #### With and WithFast -/

theorem withArgs_spec {args : CombineArgs T} (heq : args.eq = GoKey.eq) (hf : ClassPres args.f) : ∀ (n : Node T) (d : Nat),
    WF d n → n.isNil = false → ∀ v, ∃ n' ms, withArgs args n v d (newHasher v d) = .ok (n', ms) ∧
      WithSpec args.f d n v n' ms
  | .nil, _, _, h, _ => by simp [Node.isNil] at h
  | .leaf1 a, d, _, _, v => by
    simp only [withArgs, heq]
    cases h : GoKey.eq a v with
    | true => exact ⟨_, _, rfl, withSpec_leaf1_eq hf d h⟩
    | false => exact ⟨_, _, rfl, withSpec_leaf1_ne d h⟩
  | .leaf2 a b, d, hw, _, v => by
    simp only [withArgs, heq]
    cases h : GoKey.eq a v with
    | true => exact ⟨_, _, rfl, withSpec_leaf2_0 hf d hw h⟩
    | false =>
      cases h1 : GoKey.eq b v with
      | true => exact ⟨_, _, rfl, withSpec_leaf2_1 hf d hw h h1⟩
      | false =>
        obtain ⟨n', hn, hs⟩ := withSpec_leaf2_new (f := args.f) (nbSpec d) hw h h1
        refine ⟨n', 0, ?_, hs⟩
        simp [hn, bind, Except.bind, pure, Except.pure]
  | .twig l, d, hw, _, v => by
    simp only [withArgs, heq]
    cases h : l.findIdx? (fun e => GoKey.eq e v) with
    | some i => exact ⟨_, _, rfl, twig_modify_spec hf hw h⟩
    | none =>
      refine ⟨_, _, ?_, twig_append_spec hw h⟩
      simp only [twigCanonical_twig hw.1 (show 3 ≤ (l ++ [v]).length by have := hw.2.1; simp; omega)]
      rfl
  | .branch m k, d, hw, _, v => by
    have hs := (WF_branch.1 hw).1
    have hi : (newHasher v d).idx = chunk v d := rfl
    simp only [withArgs, hi, newHasher_next]
    cases hk : (k (chunk v d)).isNil with
    | true =>
      have hnil : k (chunk v d) = .nil := isNil_iff.1 hk
      simp only [if_true]
      rw [withChild_eq hs]
      have hsp : WithSpec args.f (d + 1) (k (chunk v d)) v (.leaf1 v) 0 := by
        rw [hnil]; exact withSpec_nil _ _ _
      obtain ⟨h2, h3⟩ := slots_with hf hs hsp
      exact ⟨_, _, rfl, ⟨WF_branch.2 ⟨h2, hw.2.trans h3.len_ge⟩, rfl, h3⟩⟩
    | false =>
      obtain ⟨n', ms, h1, hsp⟩ := withArgs_spec heq hf (k (chunk v d)) (d + 1) (hs.2.2.1 _) hk v
      simp only [Bool.false_eq_true, if_false]
      rw [h1]
      simp only [bind, Except.bind, pure, Except.pure]
      rw [withChild_eq hs]
      obtain ⟨h2, h3⟩ := slots_with hf hs hsp
      exact ⟨_, _, rfl, ⟨WF_branch.2 ⟨h2, hw.2.trans h3.len_ge⟩, rfl, h3⟩⟩

omit [PerGoKey T] in
/-- `WithFast` is `With` with the default arguments. -/
theorem withFast_eq : ∀ (n : Node T) (v : T) (d : Nat) (h : Hasher),
    withFast n v d h = withArgs ⟨GoKey.eq, fun _ b => b⟩ n v d h
  | .nil, _, _, _ => rfl
  | .leaf1 _, _, _, _ => rfl
  | .leaf2 _ _, _, _, _ => rfl
  | .twig l, v, d, h => by
    simp only [withFast, withArgs]
    cases l.findIdx? (fun e => GoKey.eq e v) with
    | some i => simp only [set_eq_modify]
    | none => rfl
  | .branch m k, v, d, h => by
    simp only [withFast, withArgs, withFast_eq (k h.idx)]

theorem withFast_spec {n : Node T} {d : Nat} (hw : WF d n) (hn : n.isNil = false) (v : T) :
    ∃ n' ms, withFast n v d (newHasher v d) = .ok (n', ms) ∧ WithSpec (fun _ b => b) d n v n' ms := by
  rw [withFast_eq]
  exact withArgs_spec (args := ⟨GoKey.eq, fun _ b => b⟩) rfl ClassPres.rhs n d hw hn v

end Frozen
