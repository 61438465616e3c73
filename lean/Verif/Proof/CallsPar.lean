import Verif.Spec.CallsPar
import Verif.Proof.CallsMerge
import Verif.Proof.ParallelOps

/-! # Callbacks from goroutines -/

set_option linter.unusedSectionVars false

namespace Frozen

variable {Q A X : Type}

/-! ### Every computation ends -/

/-- One element makes a step. -/
inductive LStep {α : Type} (r : α → α → Prop) : List α → List α → Prop
  | head {a a' l} (h : r a' a) : LStep r (a' :: l) (a :: l)
  | tail {a l l'} (h : LStep r l' l) : LStep r (a :: l') (a :: l)

theorem acc_cons {α : Type} {r : α → α → Prop} {a : α} (ha : Acc r a) : ∀ {l : List α}, Acc (LStep r) l → Acc (LStep r) (a :: l) := by
  induction ha with
  | intro a _ iha =>
    intro l hl
    induction hl with
    | intro l hl ihl =>
      refine ⟨_, fun y hy => ?_⟩
      cases hy with
      | head h => exact iha _ h ⟨l, hl⟩
      | tail h => exact ihl _ h

theorem acc_list {α : Type} {r : α → α → Prop} : ∀ {l : List α}, (∀ a ∈ l, Acc r a) → Acc (LStep r) l
  | [], _ => ⟨_, fun _ h => by cases h⟩
  | _ :: _, h => acc_cons (h _ (List.mem_cons_self ..)) (acc_list fun a ha => h a (List.mem_cons_of_mem _ ha))

abbrev CBefore (c2 c1 : CComp Q A X) : Prop := ∃ l, CStep c1 l c2

theorem CComp.acc_seq (x : CB Q A (X × Int)) : Acc CBefore (CComp.seq x) := by
  induction x with
  | done r => exact ⟨_, fun y ⟨l, h⟩ => by cases h⟩
  | panic p => exact ⟨_, fun y ⟨l, h⟩ => by cases h⟩
  | call q k ih => exact ⟨_, fun y ⟨l, h⟩ => by cases h; exact ih _⟩

theorem lstep_map {r : CComp Q A X → CComp Q A X → Prop} {body : Fin 8 → CComp Q A X} {i : Fin 8} {c : CComp Q A X} (h : r c (body i)) :
    ∀ {l : List (Fin 8)}, l.Nodup → i ∈ l → LStep r (l.map (setSlot body i c)) (l.map body)
  | [], _, hi => by cases hi
  | j :: l, hn, hi => by
    rw [List.nodup_cons] at hn
    by_cases hj : j = i
    · subst hj
      rw [List.map_cons, List.map_cons, setSlot_self]
      have : l.map (setSlot body j c) = l.map body :=
        List.map_congr_left (fun x hx => setSlot_other _ _ (fun e => hn.1 (e ▸ hx)))
      rw [this]
      exact .head h
    · rw [List.map_cons, List.map_cons, setSlot_other _ _ hj]
      refine .tail (lstep_map h hn.2 ?_)
      rcases List.mem_cons.1 hi with e | e
      · exact absurd e.symm hj
      · exact e

theorem CComp.acc (c : CComp Q A X) : Acc CBefore c := by
  induction c with
  | seq x => exact CComp.acc_seq x
  | par mask body sets k ih =>
    have h : Acc (LStep CBefore) (mask.indices.map body) := acc_list (fun a ha => by
      obtain ⟨i, _, rfl⟩ := List.mem_map.1 ha
      exact ih i)
    clear ih
    generalize hl : mask.indices.map body = L at h
    induction h generalizing body with
    | intro L _ ih =>
      subst hl
      refine ⟨_, fun y ⟨l, hy⟩ => ?_⟩
      cases hy with
      | kid _ _ _ _ i c _ hi h => exact ih _ (lstep_map ⟨l, h⟩ (nodup_indices mask) hi) _ rfl
      | join => exact CComp.acc_seq _

/-! ### With a pure function -/

/-- The computation when the user's function is pure. -/
def CComp.comp (f : Q → A) : CComp Q A X → Comp X
  | .seq x => seqOf (x.eval f)
  | .par mask body sets k => .par mask (fun i => (body i).comp f) sets (fun pm sl _ ms => ((k pm sl ms).eval f).map (fun p => (p.1, true, p.2)))

/-- A step whose answer is that of the pure function keeps the possible results and does not add panics. -/
theorem CStep.comp {c c' : CComp Q A X} {l : Option (Q × A)} (h : CStep c l c') {f : Q → A} (hf : ∀ q a, l = some (q, a) → f q = a) :
    (∀ o, Out (c'.comp f) o → Out (c.comp f) o) ∧ (NoPanic (c.comp f) → NoPanic (c'.comp f)) := by
  induction h with
  | call q next a =>
    cases hf q a rfl
    exact ⟨fun o h => h, fun h => h⟩
  | kid mask body sets k i c l hi h ih =>
    obtain ⟨h1, h2⟩ := ih hf
    have key : ∀ j o, Out ((setSlot body i c j).comp f) o → Out ((body j).comp f) o := by
      intro j o ho
      by_cases hj : j = i
      · subst hj; rw [setSlot_self] at ho; exact h1 o ho
      · rwa [setSlot_other _ _ hj] at ho
    refine ⟨fun o ho => ?_, fun hp => ⟨fun j hj => ?_, hp.2⟩⟩
    · rcases ho with ⟨R, hR, hk⟩ | ⟨j, hj, q, hq, hk⟩
      · exact .inl ⟨R, fun j hj => ⟨key j _ (hR j hj).1, (hR j hj).2⟩, hk⟩
      · exact .inr ⟨j, hj, q, key j q hq, hk⟩
    · dsimp only
      by_cases e : j = i
      · subst e; rw [setSlot_self]; exact h2 (hp.1 j hj)
      · rw [setSlot_other _ _ e]; exact hp.1 j hj
  | join mask body sets k pm R h =>
    refine ⟨fun o ho => .inl ⟨fun i => ((R i).1, true, (R i).2), fun i hi => ⟨?_, rfl⟩, pm, ho⟩, fun hp => hp.2 pm _ true _⟩
    dsimp only; rw [h i hi]; rfl

theorem CRuns.comp {c0 c : CComp Q A X} {tr : List (Q × A)} (h : CRuns c0 tr c) {f : Q → A} (hf : ∀ q a, (q, a) ∈ tr → f q = a) :
    (∀ o, Out (c.comp f) o → Out (c0.comp f) o) ∧ (NoPanic (c0.comp f) → NoPanic (c.comp f)) := by
  induction h with
  | start => exact ⟨fun o h => h, fun h => h⟩
  | @call tr c c' qa h hs ih =>
    obtain ⟨h1, h2⟩ := ih (fun q a hq => hf q a (List.mem_append_left _ hq))
    obtain ⟨h3, h4⟩ := hs.comp (f := f) (fun q a e => hf q a (List.mem_append_right _ (by cases e; exact List.mem_cons_self ..)))
    exact ⟨fun o ho => h1 o (h3 o ho), fun hp => h4 (h2 hp)⟩
  | quiet h hs ih =>
    obtain ⟨h1, h2⟩ := ih hf
    obtain ⟨h3, h4⟩ := hs.comp (f := f) (fun q a e => by cases e)
    exact ⟨fun o ho => h1 o (h3 o ho), fun hp => h4 (h2 hp)⟩

/-- Nothing blocks. -/
theorem CComp.progress (f : Q → A) : ∀ (c : CComp Q A X), NoPanic (c.comp f) →
    (∃ r, c = .seq (.done r)) ∨ (∃ c', CStep c none c') ∨ ∃ q, ∀ a, ∃ c', CStep c (some (q, a)) c' := by
  intro c
  induction c with
  | seq x =>
    intro h
    cases x with
    | done r => exact .inl ⟨r, rfl⟩
    | panic p => obtain ⟨o, h⟩ := h; cases h
    | call q k => exact .inr (.inr ⟨q, fun a => ⟨_, .call q k a⟩⟩)
  | par mask body sets k ih =>
    intro h
    right
    by_cases hd : ∀ i ∈ mask.indices, ∃ r, body i = .seq (.done r)
    · left
      have : ∀ i, ∃ r : X × Int, i ∈ mask.indices → body i = .seq (.done r) := by
        intro i
        by_cases hi : i ∈ mask.indices
        · obtain ⟨r, hr⟩ := hd i hi; exact ⟨r, fun _ => hr⟩
        · -- any element of `X × Int`: some goroutine exists, or the result of `k` gives one
          have := h.2 0#16 (fun _ => none) true 0
          obtain ⟨o, _⟩ := this
          exact ⟨(o.1, 0), fun h => absurd h hi⟩
      choose R hR using this
      exact ⟨_, .join mask body sets k 0#16 R hR⟩
    · rw [not_forall] at hd
      obtain ⟨i, hd⟩ := hd
      rw [Classical.not_imp] at hd
      obtain ⟨hi, hd⟩ := hd
      rcases ih i (h.1 i hi) with h1 | ⟨c', h1⟩ | ⟨q, h1⟩
      · exact absurd h1 hd
      · exact .inl ⟨_, .kid mask body sets k i c' none hi h1⟩
      · refine .inr ⟨q, fun a => ?_⟩
        obtain ⟨c', h2⟩ := h1 a
        exact ⟨_, .kid mask body sets k i c' _ hi h2⟩

/-! ### The calls as a multiset -/

/-- The calls are on `l`, in some order. -/
def CMakesV (V : Q → A → Prop) : List Q → CComp Q A X → Prop
  | l, .seq x => ∃ l', l.Perm l' ∧ CB.MakesV V l' x
  | l, .par mask body _ k => ∃ (L : Fin 8 → List Q) (L' : List Q), l.Perm (mask.indices.flatMap L ++ L') ∧
      (∀ i ∈ mask.indices, CMakesV V (L i) (body i)) ∧ ∀ pm sl ms, CB.MakesV V L' (k pm sl ms)

abbrev CMakes (l : List Q) (c : CComp Q A X) : Prop := CMakesV (fun _ _ => True) l c

variable {V : Q → A → Prop}

theorem CMakesV.perm {c : CComp Q A X} {l l' : List Q} (h : CMakesV V l c) (hp : l'.Perm l) : CMakesV V l' c := by
  cases c with
  | seq x => obtain ⟨m, h1, h2⟩ := h; exact ⟨m, hp.trans h1, h2⟩
  | par => obtain ⟨L, L', h1, h2⟩ := h; exact ⟨L, L', hp.trans h1, h2⟩

theorem flatMap_setSlot {α : Type} (L : Fin 8 → List α) {i : Fin 8} {q l' : List α} (h : (L i).Perm (q ++ l')) : ∀ {is : List (Fin 8)}, is.Nodup →
    i ∈ is → (is.flatMap L).Perm (q ++ is.flatMap (setSlot L i l'))
  | [], _, hi => by cases hi
  | j :: is, hn, hi => by
    rw [List.nodup_cons] at hn
    by_cases hj : j = i
    · subst hj
      simp only [List.flatMap_cons, setSlot_self]
      have : is.flatMap (setSlot L j l') = is.flatMap L :=
        List.flatMap_congr (fun x hx => setSlot_other _ _ (fun e => hn.1 (e ▸ hx)))
      rw [this, ← List.append_assoc]
      exact h.append_right _
    · simp only [List.flatMap_cons, setSlot_other _ _ hj]
      have ih := flatMap_setSlot L h hn.2 (by
        rcases List.mem_cons.1 hi with e | e
        · exact absurd e.symm hj
        · exact e)
      refine (ih.append_left _).trans ?_
      rw [← List.append_assoc, ← List.append_assoc]
      exact List.perm_append_comm.append_right _

theorem CMakes.step {c c' : CComp Q A X} {l : Option (Q × A)} (h : CStep c l c') : ∀ {qs : List Q}, CMakes qs c →
    ∃ qs', qs.Perm ((l.toList.map (·.1)) ++ qs') ∧ CMakes qs' c' := by
  induction h with
  | call q next a =>
    rintro qs ⟨l', h1, h2⟩
    cases l' with
    | nil => exact h2.elim
    | cons q' l' =>
      obtain ⟨rfl, h3⟩ := h2
      exact ⟨l', h1, l', List.Perm.refl _, h3 a trivial⟩
  | kid mask body sets k i c l hi h ih =>
    rintro qs ⟨L, L', h1, h2, h3⟩
    obtain ⟨li, h4, h5⟩ := ih (h2 i hi)
    refine ⟨mask.indices.flatMap (setSlot L i li) ++ L', ?_, setSlot L i li, L', List.Perm.refl _, ?_, h3⟩
    · refine h1.trans ?_
      rw [← List.append_assoc]
      exact (flatMap_setSlot L h4 (nodup_indices mask) hi).append_right _
    · intro j hj
      by_cases e : j = i
      · subst e; rw [setSlot_self, setSlot_self]; exact h5
      · rw [setSlot_other _ _ e, setSlot_other _ _ e]; exact h2 j hj
  | join mask body sets k pm R h =>
    rintro qs ⟨L, L', h1, h2, h3⟩
    refine ⟨qs, List.Perm.refl _, L', ?_, h3 _ _ _⟩
    have : mask.indices.flatMap L = [] := by
      rw [List.flatMap_eq_nil_iff]
      intro i hi
      have := h2 i hi
      rw [h i hi] at this
      obtain ⟨l', h4, h5⟩ := this
      cases l' with
      | nil => exact h4.eq_nil
      | cons => exact h5.elim
    rw [this] at h1
    exact h1

theorem CMakes.runs {c0 c : CComp Q A X} {qs : List Q} (hm : CMakes qs c0) {tr : List (Q × A)} (h : CRuns c0 tr c) :
    ∃ rest, qs.Perm (tr.map (·.1) ++ rest) ∧ CMakes rest c := by
  induction h with
  | start => exact ⟨qs, List.Perm.refl _, hm⟩
  | @call tr c c' qa h hs ih =>
    obtain ⟨rest, h1, h2⟩ := ih
    obtain ⟨rest', h3, h4⟩ := h2.step hs
    refine ⟨rest', h1.trans ?_, h4⟩
    rw [List.map_append, List.append_assoc]
    exact h3.append_left _
  | quiet h hs ih =>
    obtain ⟨rest, h1, h2⟩ := ih
    obtain ⟨rest', h3, h4⟩ := h2.step hs
    exact ⟨rest', h1.trans (h3.append_left _), h4⟩

/-- The answers of distinct calls are those of some function. -/
theorem exists_fun [Nonempty A] : ∀ {tr : List (Q × A)}, (tr.map (·.1)).Nodup → ∃ f : Q → A, ∀ q a, (q, a) ∈ tr → f q = a
  | [], _ => ⟨fun _ => Classical.arbitrary A, fun _ _ h => by cases h⟩
  | (q, a) :: tr, h => by
    rw [List.map_cons, List.nodup_cons] at h
    obtain ⟨f, hf⟩ := exists_fun h.2
    classical
    refine ⟨fun x => if x = q then a else f x, fun x b hx => ?_⟩
    rcases List.mem_cons.1 hx with e | e
    · cases e; simp
    · have : x ≠ q := fun e' => h.1 (e' ▸ List.mem_map.2 ⟨_, e, rfl⟩)
      simp only [if_neg this]
      exact hf x b e

theorem trace_eq {tr : List (Q × A)} {f : Q → A} (hf : ∀ q a, (q, a) ∈ tr → f q = a) : tr = (tr.map (·.1)).map (fun q => (q, f q)) := by
  rw [List.map_map]
  conv_lhs => rw [← List.map_id tr]
  refine List.map_congr_left (fun p hp => ?_)
  show p = (p.1, f p.1)
  rw [hf p.1 p.2 hp]

/-- From what the calls are and what pure functions give to all schedules and answers. -/
theorem CComp.once [Nonempty A] {α : Type} {c0 : CComp Q A X} {qs : List Q} (hm : CMakes qs c0) (hn : qs.Nodup) {k : X × Int → α}
    {I : List (Q × A) → α → Prop} (hp : ∀ f, NoPanic (c0.comp f))
    (hI : ∀ f o, Out (c0.comp f) o → ∀ tr : List (Q × A), tr.Perm (qs.map fun q => (q, f q)) → I tr (k (o.1, o.2.2))) :
    (CCall.run c0 k).Once qs I := by
  have hf : ∀ {tr c}, CRuns c0 tr c → ∃ f : Q → A, ∀ q a, (q, a) ∈ tr → f q = a := by
    intro tr c h
    obtain ⟨rest, h1, _⟩ := hm.runs h
    exact exists_fun (h1.nodup_iff.1 hn).of_append_left
  refine ⟨fun tr c h => ⟨c.acc, ?_⟩, fun tr c h => ?_⟩
  · obtain ⟨f, hf⟩ := hf h
    exact CComp.progress f c ((h.comp hf).2 (hp f))
  · obtain ⟨rest, h1, h2⟩ := hm.runs h
    refine ⟨⟨rest, h1⟩, fun r hr => ?_⟩
    subst hr
    obtain ⟨f, hf⟩ := hf h
    obtain ⟨l', h3, h4⟩ := h2
    have : rest = [] := by
      cases l' with
      | nil => exact h3.eq_nil
      | cons => exact h4.elim
    rw [this, List.append_nil] at h1
    refine ⟨h1, hI f (r.1, true, r.2) ((h.comp hf).1 _ rfl) tr ?_⟩
    rw [trace_eq hf]
    exact (h1.map _).symm

/-! ### Pools -/

/-- The calls take their arguments out of the pool and put their answers in. -/
def CSpends {T : Type} : List T → CComp (List T) T T → Prop
  | pool, .seq x => CB.Spends id pool (x.bind (fun r => .done (some r.1)))
  | pool, .par mask body _ k => ∃ L : Fin 8 → List T, pool.Perm (mask.indices.flatMap L) ∧ (∀ i ∈ mask.indices, CSpends (L i) (body i)) ∧
      ∀ (R : Fin 8 → T) pm ms, CB.Spends id (mask.indices.map R)
        ((k pm (fun i => if i ∈ mask.indices then some (R i) else none) ms).bind (fun r => .done (some r.1)))

theorem CSpends.perm {T : Type} {c : CComp (List T) T T} {p p' : List T} (h : CSpends p c) (hp : p.Perm p') : CSpends p' c := by
  cases c with
  | seq x => exact CB.Spends.perm h hp
  | par => obtain ⟨L, h1, h2⟩ := h; exact ⟨L, hp.symm.trans h1, h2⟩

theorem CSpends.call {T : Type} {c c' : CComp (List T) T T} {l} (h : CStep c l c') : ∀ {pool : List T}, CSpends pool c →
    (l = none ∧ CSpends pool c') ∨ ∃ q a, l = some (q, a) ∧ q ≠ [] ∧ ∃ rest, pool.Perm (q ++ rest) ∧ CSpends (a :: rest) c' := by
  induction h with
  | call q next a =>
    rintro pool ⟨h1, rest, h2, h3⟩
    exact .inr ⟨q, a, rfl, h1, rest, h2, h3 a⟩
  | kid mask body sets k i c l hi h ih =>
    rintro pool ⟨L, h1, h2, h3⟩
    have upd : ∀ li, CSpends li c → ∀ j ∈ mask.indices, CSpends (setSlot L i li j) (setSlot body i c j) := by
      intro li hli j hj
      by_cases e : j = i
      · subst e; rw [setSlot_self, setSlot_self]; exact hli
      · rw [setSlot_other _ _ e, setSlot_other _ _ e]; exact h2 j hj
    rcases ih (h2 i hi) with ⟨rfl, h4⟩ | ⟨q, a, rfl, hq, rest, h4, h5⟩
    · refine .inl ⟨rfl, setSlot L i (L i), ?_, upd _ h4, h3⟩
      have : setSlot L i (L i) = L := by
        funext j
        by_cases e : j = i
        · subst e; rw [setSlot_self]
        · rw [setSlot_other _ _ e]
      rw [this]; exact h1
    · refine .inr ⟨q, a, rfl, hq, mask.indices.flatMap (setSlot L i rest), h1.trans (flatMap_setSlot L h4 (nodup_indices mask) hi),
        setSlot L i (a :: rest), ?_, upd _ h5, h3⟩
      have := flatMap_setSlot (setSlot L i (a :: rest)) (i := i) (q := [a]) (l' := rest) (by rw [setSlot_self]; exact List.Perm.refl _)
        (nodup_indices mask) hi
      have e : setSlot (setSlot L i (a :: rest)) i rest = setSlot L i rest := by
        funext j
        by_cases e : j = i
        · subst e; rw [setSlot_self, setSlot_self]
        · rw [setSlot_other _ _ e, setSlot_other _ _ e, setSlot_other _ _ e]
      rw [e] at this
      exact this.symm
  | join mask body sets k pm R h =>
    rintro pool ⟨L, h1, h2, h3⟩
    refine .inl ⟨rfl, CB.Spends.perm (h3 (fun i => (R i).1) pm _) ?_⟩
    refine List.Perm.trans ?_ h1.symm
    have : ∀ is : List (Fin 8), (∀ i ∈ is, i ∈ mask.indices) → (is.map fun i => (R i).1).Perm (is.flatMap L) := by
      intro is
      induction is with
      | nil => intro _; exact List.Perm.refl _
      | cons i is ih =>
        intro hs
        rw [List.map_cons, List.flatMap_cons]
        have h4 := h2 i (hs i (List.mem_cons_self ..))
        rw [h i (hs i (List.mem_cons_self ..))] at h4
        have h5 : (L i).Perm [(R i).1] := h4
        exact (h5.symm.append (ih fun j hj => hs j (List.mem_cons_of_mem _ hj)))
    exact this _ (fun _ h => h)

theorem CSpends.runs {T : Type} {c0 c : CComp (List T) T T} {pool : List T} (h0 : CSpends pool c0) {tr} (h : CRuns c0 tr c) :
    ∃ p, PoolAfter pool tr p ∧ CSpends p c := by
  induction h with
  | start => exact ⟨pool, .start (List.Perm.refl _), h0⟩
  | call h hs ih =>
    obtain ⟨p, h1, h2⟩ := ih
    rcases h2.call hs with ⟨e, _⟩ | ⟨q, a, e, hq, rest, h3, h4⟩
    · cases e
    · cases e
      exact ⟨_, .call a h1 h3 hq, h4⟩
  | quiet h hs ih =>
    obtain ⟨p, h1, h2⟩ := ih
    rcases h2.call hs with ⟨_, h3⟩ | ⟨q, a, e, _⟩
    · exact ⟨p, h1, h3⟩
    · cases e

theorem CSpends.progress {T : Type} [Inhabited T] : ∀ (c : CComp (List T) T T) {p : List T}, CSpends p c →
    (∃ r, c = .seq (.done r)) ∨ (∃ c', CStep c none c') ∨ ∃ q, ∀ a, ∃ c', CStep c (some (q, a)) c' := by
  intro c
  induction c with
  | seq x =>
    intro p h
    cases x with
    | done r => exact .inl ⟨r, rfl⟩
    | panic p => exact h.elim
    | call q k => exact .inr (.inr ⟨q, fun a => ⟨_, .call q k a⟩⟩)
  | par mask body sets k ih =>
    rintro p ⟨L, _, h2, _⟩
    right
    by_cases hd : ∀ i ∈ mask.indices, ∃ r, body i = .seq (.done r)
    · left
      have : ∀ i, ∃ r : T × Int, i ∈ mask.indices → body i = .seq (.done r) := by
        intro i
        by_cases hi : i ∈ mask.indices
        · obtain ⟨r, hr⟩ := hd i hi; exact ⟨r, fun _ => hr⟩
        · exact ⟨default, fun h => absurd h hi⟩
      choose R hR using this
      exact ⟨_, .join mask body sets k 0#16 R hR⟩
    · rw [not_forall] at hd
      obtain ⟨i, hd⟩ := hd
      rw [Classical.not_imp] at hd
      obtain ⟨hi, hd⟩ := hd
      rcases ih i (h2 i hi) with h1 | ⟨c', h1⟩ | ⟨q, h1⟩
      · exact absurd h1 hd
      · exact .inl ⟨_, .kid mask body sets k i c' none hi h1⟩
      · refine .inr ⟨q, fun a => ?_⟩
        obtain ⟨c', h2⟩ := h1 a
        exact ⟨_, .kid mask body sets k i c' _ hi h2⟩

theorem CSpends.spends {T : Type} [Inhabited T] {c0 : CComp (List T) T T} {pool : List T} (h0 : CSpends pool c0) :
    (CCall.run c0 (fun r => some r.1)).Spends pool := by
  refine ⟨fun tr c h => ⟨c.acc, ?_⟩, fun tr c h => ?_⟩
  · obtain ⟨p, _, h2⟩ := h0.runs h
    exact CSpends.progress c h2
  · obtain ⟨p, h1, h2⟩ := h0.runs h
    refine ⟨p, h1, fun r hr => ?_⟩
    subst hr
    exact h2

end Frozen
