import Verif.Spec.MemParallel
import Verif.Proof.ForkJoin
import Verif.Proof.Parallel

/-! Calls that run goroutines over the memory: one goroutine alone, the join, and the scheduler. -/

set_option linter.unusedSectionVars false

namespace Frozen

variable {T : Type}

/-! ## Without a scheduler -/

/-- The outcome of the code when the goroutines of every `par` run one by one from the memory at their start. -/
def PC.eval : PC T → Mem T → Go (Ptr × Int) × Mem T
  | .done r, H => (r, H)
  | .readCell a k, H => (k H.cells[a]?).eval H
  | .readElem arr i k, H => (k (H.arrays[arr]?.bind (·[i]?))).eval H
  | .alloc c k, H => (k H.cells.length).eval ⟨H.cells ++ [c], H.arrays, H.log⟩
  | .allocArr l k, H => (k H.arrays.length).eval ⟨H.cells, H.arrays ++ [l], H.log⟩
  | .writeCell a c k, H => k.eval (H.setCell a c)
  | .writeElem arr i v k, H => k.eval (H.setElem arr i v)
  | .par mask kids k, H =>
    match joinKids H (fun i => ((kids i).eval H).1) (fun i => H.high ((kids i).eval H).2) (bitLoop mask) H (fun _ => none) 0 with
    | (.ok (slots, ms), J) => (k slots ms).eval J
    | (.error e, J) => (.error e, J)

/-- The number of steps of the code and its goroutines. -/
def PC.size : PC T → Mem T → Nat
  | .done _, _ => 0
  | .readCell a k, H => (k H.cells[a]?).size H + 1
  | .readElem arr i k, H => (k (H.arrays[arr]?.bind (·[i]?))).size H + 1
  | .alloc c k, H => (k H.cells.length).size ⟨H.cells ++ [c], H.arrays, H.log⟩ + 1
  | .allocArr l k, H => (k H.arrays.length).size ⟨H.cells, H.arrays ++ [l], H.log⟩ + 1
  | .writeCell a c k, H => k.size (H.setCell a c) + 1
  | .writeElem arr i v k, H => k.size (H.setElem arr i v) + 1
  | .par mask kids k, H =>
    (mask.indices.map (fun i => (kids i).size H)).sum + 1 +
    (match joinKids H (fun i => ((kids i).eval H).1) (fun i => H.high ((kids i).eval H).2) (bitLoop mask) H (fun _ => none) 0 with
    | (.ok (slots, ms), J) => (k slots ms).size J
    | (.error _, _) => 0) + 1

/-- The code and its goroutines write to nothing that existed at their start; `S` is the memory at the start of the code. -/
def PC.Quiet : PC T → Mem T → Mem T → Prop
  | .done _, _, _ => True
  | .readCell a k, S, H => (k H.cells[a]?).Quiet S H
  | .readElem arr i k, S, H => (k (H.arrays[arr]?.bind (·[i]?))).Quiet S H
  | .alloc c k, S, H => (k H.cells.length).Quiet S ⟨H.cells ++ [c], H.arrays, H.log⟩
  | .allocArr l k, S, H => (k H.arrays.length).Quiet S ⟨H.cells, H.arrays ++ [l], H.log⟩
  | .writeCell a c k, S, H => ¬ S.HasLoc (.cell a) ∧ k.Quiet S (H.setCell a c)
  | .writeElem arr i v k, S, H => ¬ S.HasLoc (.arr arr) ∧ k.Quiet S (H.setElem arr i v)
  | .par mask kids k, S, H => (∀ i ∈ mask.indices, (kids i).Quiet H H) ∧
    (match joinKids H (fun i => ((kids i).eval H).1) (fun i => H.high ((kids i).eval H).2) (bitLoop mask) H (fun _ => none) 0 with
    | (.ok (slots, ms), J) => (k slots ms).Quiet S J
    | (.error _, _) => True)

theorem ext_refl (H : Mem T) : MemExt H H := ⟨List.prefix_refl _, List.prefix_refl _⟩

theorem joinKids_ext (H : Mem T) (res : Fin 8 → Go (Ptr × Int)) (own : Fin 8 → Mem T) : ∀ (l : List Nat) (J : Mem T) (slots : Fin 8 → Ptr)
    (ms : Int), MemExt J (joinKids H res own l J slots ms).2 ∧ (joinKids H res own l J slots ms).2.log = J.log
  | [], J, _, _ => ⟨ext_refl J, rfl⟩
  | i :: is, J, slots, ms => by
    unfold joinKids
    by_cases h : i < 8
    · rw [dif_pos h]
      cases res ⟨i, h⟩ with
      | error e => exact ⟨ext_refl J, rfl⟩
      | ok r =>
        obtain ⟨h1, h2⟩ := joinKids_ext H res own is (H.laid J (own ⟨i, h⟩)) (setSlot slots ⟨i, h⟩ (r.1.map (Move.behind H J).cell)) (ms + r.2)
        exact ⟨(ext_laid H J _).trans h1, h2⟩
    · rw [dif_neg h]; exact ⟨ext_refl J, rfl⟩

theorem mem_indices_loop {mask : Masker} {i : Fin 8} : i ∈ mask.indices ↔ i.1 ∈ bitLoop mask := by
  unfold Masker.indices
  rw [List.mem_filterMap]
  constructor
  · rintro ⟨j, hj, h⟩
    by_cases hj8 : j < 8
    · rw [dif_pos hj8] at h; cases h; exact hj
    · rw [dif_neg hj8] at h; cases h
  · intro h
    exact ⟨i.1, h, by rw [dif_pos i.2]⟩

theorem joinKids_congr (H : Mem T) {res res' : Fin 8 → Go (Ptr × Int)} {own own' : Fin 8 → Mem T} : ∀ (l : List Nat) (J : Mem T)
    (slots : Fin 8 → Ptr) (ms : Int), (∀ i : Fin 8, i.1 ∈ l → res i = res' i ∧ own i = own' i) →
    joinKids H res own l J slots ms = joinKids H res' own' l J slots ms
  | [], _, _, _, _ => rfl
  | i :: is, J, slots, ms, hh => by
    unfold joinKids
    by_cases h : i < 8
    · rw [dif_pos h, dif_pos h]
      obtain ⟨h1, h2⟩ := hh ⟨i, h⟩ (by simp)
      rw [h1, h2]
      cases res' ⟨i, h⟩ with
      | error e => rfl
      | ok r => exact joinKids_congr H is _ _ _ (fun j hj => hh j (by simp [hj]))
    · rw [dif_neg h, dif_neg h]

theorem MemExt.access {S H : Mem T} (h : MemExt S H) (x : PC T) (hw : ∀ l, x.nextWrite = some l → ¬ S.HasLoc l) :
    MemExt S (x.access H).2 := by
  cases x with
  | done r => exact h
  | readCell a k => exact h
  | readElem a i k => exact h
  | alloc c k => exact h.step (.alloc c (fun _ => .done (.ok ()))) (fun _ hl => by cases hl)
  | allocArr c k => exact h.step (.allocArr c (fun _ => .done (.ok ()))) (fun _ hl => by cases hl)
  | writeCell a c k => exact h.step (.writeCell a c (.done (.ok ()))) (fun l hl => hw l hl)
  | writeElem a i v k => exact h.step (.writeElem a i v (.done (.ok ()))) (fun l hl => hw l hl)
  | par _ _ _ => exact h

theorem PC.Quiet.nextWrite {x : PC T} {S H : Mem T} (h : x.Quiet S H) : ∀ l, x.nextWrite = some l → ¬ S.HasLoc l := by
  intro l hl
  cases x with
  | writeCell a c k => cases hl; exact h.1
  | writeElem a i v k => cases hl; exact h.1
  | _ => cases hl

/-- Quiet code leaves the memory at its start alone. -/
theorem PC.Quiet.ext {x : PC T} : ∀ {S H : Mem T}, MemExt S H → x.Quiet S H → (∃ L, H.log = L ++ S.log ∧ ∀ l ∈ L, l ∈ Fresh S) →
    MemExt S (x.eval H).2 ∧ ∃ L, (x.eval H).2.log = L ++ S.log ∧ ∀ l ∈ L, l ∈ Fresh S := by
  have hfr : ∀ {S : Mem T} {l : Loc}, ¬ S.HasLoc l → l ∈ Fresh S := by
    intro S l h
    cases l with
    | cell a => exact Nat.le_of_not_lt h
    | arr a => exact Nat.le_of_not_lt h
  induction x with
  | done r => intro S H h _ hl; exact ⟨h, hl⟩
  | readCell a k ih => intro S H h hq hl; exact ih _ h hq hl
  | readElem a i k ih => intro S H h hq hl; exact ih _ h hq hl
  | alloc c k ih => intro S H h hq hl; exact ih _ (h.access (.alloc c k) (fun _ hl => by cases hl)) hq hl
  | allocArr c k ih => intro S H h hq hl; exact ih _ (h.access (.allocArr c k) (fun _ hl => by cases hl)) hq hl
  | writeCell a c k ih =>
    intro S H h hq hl
    refine ih (h.access (.writeCell a c k) (fun l hl => by cases hl; exact hq.1)) hq.2 ?_
    obtain ⟨L, h1, h2⟩ := hl
    refine ⟨.cell a :: L, by show _ :: H.log = _; rw [h1]; rfl, fun l hl => ?_⟩
    rcases List.mem_cons.1 hl with rfl | hl
    · exact hfr hq.1
    · exact h2 l hl
  | writeElem a i v k ih =>
    intro S H h hq hl
    refine ih (h.access (.writeElem a i v k) (fun l hl => by cases hl; exact hq.1)) hq.2 ?_
    obtain ⟨L, h1, h2⟩ := hl
    refine ⟨.arr a :: L, by show _ :: H.log = _; rw [h1]; rfl, fun l hl => ?_⟩
    rcases List.mem_cons.1 hl with rfl | hl
    · exact hfr hq.1
    · exact h2 l hl
  | par mask kids k _ ih =>
    intro S H h hq hl
    have hj := joinKids_ext H (fun i => ((kids i).eval H).1) (fun i => H.high ((kids i).eval H).2) (bitLoop mask) H (fun _ => none) 0
    unfold PC.Quiet at hq
    have hq2 := hq.2
    unfold PC.eval
    revert hq2 hj
    generalize joinKids H (fun i => ((kids i).eval H).1) (fun i => H.high ((kids i).eval H).2) (bitLoop mask) H (fun _ => none) 0 = r
    obtain ⟨r, J⟩ := r
    intro hj hq2
    have hlJ : ∃ L, J.log = L ++ S.log ∧ ∀ l ∈ L, l ∈ Fresh S := by rw [hj.2]; exact hl
    cases r with
    | error e => exact ⟨h.trans hj.1, hlJ⟩
    | ok r => exact ih _ _ (h.trans hj.1) hq2 hlJ

theorem PC.Quiet.ext' {x : PC T} {H : Mem T} (h : x.Quiet H H) : MemExt H (x.eval H).2 :=
  (h.ext (ext_refl H) ⟨[], rfl, by simp⟩).1

/-- What quiet code changes. -/
theorem PC.Quiet.changes {x : PC T} {H : Mem T} (h : x.Quiet H H) : Changes ∅ H (x.eval H).2 := by
  obtain ⟨h1, L, h2, h3⟩ := h.ext (ext_refl H) ⟨[], rfl, by simp⟩
  have := ext_changes (J := H) (K := ⟨(x.eval H).2.cells, (x.eval H).2.arrays, H.log⟩) h1 rfl
  refine ⟨this.mono, fun l hl hw => ?_, this.len, L, h2, fun l hl => .inr (h3 l hl)⟩
  have := this.same l hl hw
  cases l <;> exact this

theorem PC.eval_ofMM {α : Type} (f : α → PC T) (x : MM T α) (H : Mem T) :
    (PC.ofMM f x).eval H = match x H with | (.ok a, H') => (f a).eval H' | (.error e, H') => (.error e, H') := by
  induction x generalizing H with
  | done r => cases r <;> rfl
  | readCell a k ih => exact ih _ H
  | readElem a i k ih => exact ih _ H
  | alloc c k ih => exact ih _ _
  | allocArr c k ih => exact ih _ _
  | writeCell a c k ih => exact ih _
  | writeElem a i v k ih => exact ih _

theorem PC.quiet_ofMM {α : Type} (f : α → PC T) (x : MM T α) {S : Mem T} : ∀ (H : Mem T) (L : List Loc),
    (x H).2.log = L ++ H.log → (∀ l ∈ L, ¬ S.HasLoc l) → (∀ a H', x H = (.ok a, H') → (f a).Quiet S H') → (PC.ofMM f x).Quiet S H := by
  induction x with
  | done r =>
    intro H L _ _ hf
    cases r with
    | error e => trivial
    | ok a => exact hf a H rfl
  | readCell a k ih => intro H L h1 h2 hf; exact ih _ H L h1 h2 hf
  | readElem a i k ih => intro H L h1 h2 hf; exact ih _ H L h1 h2 hf
  | alloc c k ih => intro H L h1 h2 hf; exact ih _ _ L h1 h2 hf
  | allocArr c k ih => intro H L h1 h2 hf; exact ih _ _ L h1 h2 hf
  | writeCell a c k ih =>
    intro H L h1 h2 hf
    obtain ⟨L', h3⟩ := k.log_run (H.setCell a c)
    have h1' : (k.run (H.setCell a c)).2.log = L ++ H.log := h1
    have hL : L = L' ++ [.cell a] := by
      have : L ++ H.log = (L' ++ [.cell a]) ++ H.log := by rw [← h1', h3]; simp [Mem.setCell]
      rwa [List.append_cancel_right_eq] at this
    exact ⟨h2 _ (by simp [hL]), ih _ L' h3 (fun l hl => h2 l (by simp [hL, hl])) hf⟩
  | writeElem a i v k ih =>
    intro H L h1 h2 hf
    obtain ⟨L', h3⟩ := k.log_run (H.setElem a i v)
    have h1' : (k.run (H.setElem a i v)).2.log = L ++ H.log := h1
    have hL : L = L' ++ [.arr a] := by
      have : L ++ H.log = (L' ++ [.arr a]) ++ H.log := by rw [← h1', h3]; simp [Mem.setElem]
      rwa [List.append_cancel_right_eq] at this
    exact ⟨h2 _ (by simp [hL]), ih _ L' h3 (fun l hl => h2 l (by simp [hL, hl])) hf⟩

/-! ## The scheduler -/

/-- The goroutine will come to `R` after `n` more steps of it and the goroutines it waits for, whatever the scheduler does. -/
def PSt.Good : PSt T → Mem T → Go (Ptr × Int) × Mem T → Nat → Prop
  | .run code own, S, R, n => code.Quiet S (S.plus own) ∧ code.eval (S.plus own) = R ∧ code.size (S.plus own) = n
  | .wait mask k kids own, S, R, n => ∃ (Rs : Fin 8 → Go (Ptr × Int) × Mem T) (ns : Fin 8 → Nat),
    (∀ i ∈ mask.indices, (kids i).Good (S.plus own) (Rs i) (ns i)) ∧
    match joinKids (S.plus own) (fun i => (Rs i).1) (fun i => (S.plus own).high (Rs i).2) (bitLoop mask) (S.plus own) (fun _ => none) 0 with
    | (.ok (slots, ms), J) => (k slots ms).Quiet S J ∧ (k slots ms).eval J = R ∧ n = (mask.indices.map ns).sum + (k slots ms).size J + 1
    | (.error e, J) => R = (.error e, J) ∧ n = (mask.indices.map ns).sum + 1

theorem high_of_plus (S own : Mem T) : S.high (S.plus own) = own := by
  unfold Mem.high Mem.plus
  simp

theorem low_plus (S own : Mem T) : S.low (S.plus own) = S := (ext_plus S own).low

theorem plus_nil (H : Mem T) : H.plus ⟨[], [], H.log⟩ = H := by
  unfold Mem.plus
  simp

theorem PC.access_eval (x : PC T) (S : Mem T) (H : Mem T) (h : x.Quiet S H) :
    ((x.access H).1.Quiet S (x.access H).2) ∧ (x.access H).1.eval (x.access H).2 = x.eval H := by
  cases x with
  | writeCell a c k => exact ⟨h.2, rfl⟩
  | writeElem a i v k => exact ⟨h.2, rfl⟩
  | _ => exact ⟨h, rfl⟩

theorem PSt.Good.result {st : PSt T} {S : Mem T} {R : Go (Ptr × Int) × Mem T} {n : Nat} (h : st.Good S R n) {r : Go (Ptr × Int)}
    (hr : st.result = some r) : R = (r, S.plus st.own) ∧ n = 0 := by
  cases st with
  | wait => cases hr
  | run code own =>
    cases code with
    | done r' => cases hr; exact ⟨h.2.1.symm, h.2.2.symm⟩
    | _ => cases hr

theorem PSt.Good.ended {st : PSt T} {S : Mem T} {R : Go (Ptr × Int) × Mem T} (h : st.Good S R 0) : ∃ r, st.result = some r := by
  cases st with
  | wait mask k kids own =>
    obtain ⟨Rs, ns, _, h2⟩ := h
    split at h2
    · exact absurd h2.2.2 (by omega)
    · exact absurd h2.2 (by omega)
  | run code own =>
    have := h.2.2
    cases code with
    | done r => exact ⟨r, rfl⟩
    | _ => simp [PC.size] at this

theorem sum_setSlot_dec (ns : Fin 8 → Nat) {i : Fin 8} {n : Nat} : ∀ {l : List (Fin 8)}, l.Nodup → i ∈ l → ns i = n + 1 →
    (l.map ns).sum = (l.map (setSlot ns i n)).sum + 1
  | [], _, h, _ => by cases h
  | j :: l, hn, h, hi => by
    rw [List.nodup_cons] at hn
    rw [List.map_cons, List.map_cons, List.sum_cons, List.sum_cons]
    by_cases hj : i = j
    · subst hj
      rw [setSlot_same, hi]
      have : l.map (setSlot ns i n) = l.map ns := by
        apply List.map_congr_left
        intro a ha
        exact setSlot_ne _ _ (fun e => hn.1 (e ▸ ha))
      rw [this]; omega
    · rw [setSlot_ne _ _ (fun e => hj e.symm), sum_setSlot_dec ns hn.2 ((List.mem_cons.1 h).resolve_left hj) hi]
      omega

theorem PC.access_step (x : PC T) (own S : Mem T) {R : Go (Ptr × Int) × Mem T} {n : Nat} (h : (PSt.run x own).Good S R n)
    (hp : x.size (S.plus own) = (x.access (S.plus own)).1.size (x.access (S.plus own)).2 + 1) :
    S.low (x.access (S.plus own)).2 = S ∧
    ∃ n', n = n' + 1 ∧ (PSt.run (x.access (S.plus own)).1 (S.high (x.access (S.plus own)).2)).Good S R n' := by
  have he := (ext_plus S own).access x h.1.nextWrite
  obtain ⟨h1, h2⟩ := x.access_eval S _ h.1
  refine ⟨he.low, (x.access (S.plus own)).1.size (x.access (S.plus own)).2, ?_, ?_⟩
  · rw [← hp]; exact h.2.2.symm
  · show _ ∧ _
    rw [he.plus_high]
    exact ⟨h1, h2.trans h.2.1, rfl⟩

/-- One step of the scheduler. -/
theorem PSt.Good.step {st : PSt T} : ∀ {S : Mem T} {R : Go (Ptr × Int) × Mem T} {n : Nat} (path : List (Fin 8)), st.Good S R n →
    (st.step S path).2 = S ∧ (st.ready path → ∃ n', n = n' + 1 ∧ (st.step S path).1.Good S R n') ∧
      (¬ st.ready path → (st.step S path).1 = st) := by
  induction st with
  | run code own =>
    intro S R n path h
    cases path with
    | cons i path =>
      refine ⟨by cases code <;> rfl, fun hr => ?_, fun _ => by cases code <;> rfl⟩
      cases code <;> cases hr
    | nil =>
      cases code with
      | done r =>
        refine ⟨low_plus S own, fun hr => hr.elim, fun _ => ?_⟩
        show PSt.run (.done r) (S.high (S.plus own)) = _
        rw [high_of_plus]
      | par mask kids k =>
        refine ⟨rfl, fun _ => ?_, fun hr => absurd rfl hr⟩
        obtain ⟨h1, h2, h3⟩ := h
        unfold PC.Quiet at h1
        have hn : (S.plus own).plus ⟨[], [], own.log⟩ = S.plus own := plus_nil (S.plus own)
        refine ⟨n - 1, by rw [← h3]; simp [PC.size], fun i => (kids i).eval (S.plus own), fun i => (kids i).size (S.plus own), fun i hi => ?_, ?_⟩
        · show _ ∧ _ ∧ _
          rw [hn]
          exact ⟨h1.1 i hi, rfl, rfl⟩
        · have h1' := h1.2
          unfold PC.eval at h2
          unfold PC.size at h3
          revert h1' h2 h3
          generalize joinKids (S.plus own) (fun i => ((kids i).eval (S.plus own)).1) (fun i => (S.plus own).high ((kids i).eval (S.plus own)).2)
            (bitLoop mask) (S.plus own) (fun _ => none) 0 = r
          obtain ⟨r, J⟩ := r
          intro h1' h2 h3
          cases r with
          | error e => exact ⟨h2.symm, by dsimp only at h3; omega⟩
          | ok r => exact ⟨h1', h2, by dsimp only at h3; omega⟩
      | readCell a k => exact ⟨((PC.readCell a k).access_step own S h rfl).1, fun _ => ((PC.readCell a k).access_step own S h rfl).2, fun hr => absurd rfl hr⟩
      | readElem a i k => exact ⟨((PC.readElem a i k).access_step own S h rfl).1, fun _ => ((PC.readElem a i k).access_step own S h rfl).2, fun hr => absurd rfl hr⟩
      | alloc c k => exact ⟨((PC.alloc c k).access_step own S h rfl).1, fun _ => ((PC.alloc c k).access_step own S h rfl).2, fun hr => absurd rfl hr⟩
      | allocArr c k => exact ⟨((PC.allocArr c k).access_step own S h rfl).1, fun _ => ((PC.allocArr c k).access_step own S h rfl).2, fun hr => absurd rfl hr⟩
      | writeCell a c k => exact ⟨((PC.writeCell a c k).access_step own S h rfl).1, fun _ => ((PC.writeCell a c k).access_step own S h rfl).2, fun hr => absurd rfl hr⟩
      | writeElem a i v k => exact ⟨((PC.writeElem a i v k).access_step own S h rfl).1, fun _ => ((PC.writeElem a i v k).access_step own S h rfl).2, fun hr => absurd rfl hr⟩
  | wait mask k kids own ih =>
    intro S R n path h
    cases path with
    | nil =>
      unfold PSt.step PSt.ready
      by_cases hall : mask.indices.all (fun i => (kids i).result.isSome) = true
      · rw [if_pos hall]
        rw [List.all_eq_true] at hall
        obtain ⟨Rs, ns, hk, hc⟩ := h
        have hres : ∀ i ∈ mask.indices, (kids i).result.getD (.ok (none, 0)) = (Rs i).1 ∧ (kids i).own = (S.plus own).high (Rs i).2 ∧ ns i = 0 := by
          intro i hi
          obtain ⟨r, hr⟩ := Option.isSome_iff_exists.1 (hall i hi)
          obtain ⟨h1, h2⟩ := (hk i hi).result hr
          rw [hr, h1]
          exact ⟨rfl, (high_of_plus _ _).symm, h2⟩
        have hs : (mask.indices.map ns).sum = 0 := by
          rw [List.map_congr_left (g := fun _ => 0) (fun i hi => (hres i hi).2.2)]
          simp
        have hje := joinKids_ext (S.plus own) (fun i => (Rs i).1) (fun i => (S.plus own).high (Rs i).2) (bitLoop mask) (S.plus own) (fun _ => none) 0
        dsimp only
        rw [joinKids_congr (S.plus own) (res' := fun i => (Rs i).1) (own' := fun i => (S.plus own).high (Rs i).2) (bitLoop mask) _ _ _
          (fun i hi => ⟨(hres i (mem_indices_loop.2 hi)).1, (hres i (mem_indices_loop.2 hi)).2.1⟩)]
        revert hc hje
        generalize joinKids (S.plus own) (fun i => (Rs i).1) (fun i => (S.plus own).high (Rs i).2) (bitLoop mask) (S.plus own) (fun _ => none) 0 = r
        obtain ⟨r, J⟩ := r
        intro hc hje
        have hSJ : MemExt S J := (ext_plus S own).trans hje.1
        cases r with
        | error e =>
          refine ⟨hSJ.low, fun _ => ⟨0, by rw [hc.2, hs], trivial, ?_, rfl⟩, fun hr => absurd hall hr⟩
          rw [hc.1]
          show (Except.error e, S.plus (S.high J)) = _
          rw [hSJ.plus_high]
        | ok r =>
          refine ⟨hSJ.low, fun _ => ⟨(k r.1 r.2).size J, by rw [hc.2.2, hs, Nat.zero_add], ?_⟩, fun hr => absurd hall hr⟩
          show _ ∧ _ ∧ _
          rw [hSJ.plus_high]
          exact ⟨hc.1, hc.2.1, rfl⟩
      · rw [if_neg hall]
        exact ⟨rfl, fun hr => absurd (List.all_eq_true.2 hr) hall, fun _ => rfl⟩
    | cons i path =>
      unfold PSt.step PSt.ready
      by_cases hi : i ∈ mask.indices
      · rw [if_pos hi]
        obtain ⟨Rs, ns, hk, hc⟩ := h
        obtain ⟨h1, h2, h3⟩ := ih i path (hk i hi)
        dsimp only
        rw [h1, high_of_plus]
        refine ⟨low_plus S own, ?_, ?_⟩
        · rintro ⟨_, hr⟩
          obtain ⟨n', h4, h5⟩ := h2 hr
          have hsum := sum_setSlot_dec ns (nodup_indices mask) hi h4
          refine ⟨n - 1, ?_, Rs, setSlot ns i n', fun j hj => ?_, ?_⟩
          · split at hc <;> omega
          · by_cases hji : j = i
            · subst hji; rw [setSlot_same, setSlot_same]; exact h5
            · rw [setSlot_ne _ _ hji, setSlot_ne _ _ hji]; exact hk j hj
          · revert hc
            generalize joinKids (S.plus own) (fun i => (Rs i).1) (fun i => (S.plus own).high (Rs i).2) (bitLoop mask) (S.plus own) (fun _ => none) 0 = r
            obtain ⟨r, J⟩ := r
            intro hc
            cases r with
            | error e => exact ⟨hc.1, by omega⟩
            | ok r => exact ⟨hc.1, hc.2.1, by dsimp only at hc; omega⟩
        · intro hr
          have := h3 (fun h => hr ⟨hi, h⟩)
          rw [this]
          congr 1
          funext j
          by_cases hji : j = i
          · subst hji; rw [setSlot_same]
          · rw [setSlot_ne _ _ hji]
      · rw [if_neg hi]
        exact ⟨rfl, fun hr => absurd hr.1 hi, fun _ => rfl⟩

/-- A goroutine that has not ended, or one it waits for, can make a step. -/
theorem PSt.Good.progress {st : PSt T} : ∀ {S : Mem T} {R : Go (Ptr × Int) × Mem T} {n : Nat}, st.Good S R n → st.result = none →
    ∃ path, st.ready path := by
  induction st with
  | run code own =>
    intro S R n _ hr
    cases code with
    | done r => cases hr
    | _ => exact ⟨[], rfl⟩
  | wait mask k kids own ih =>
    intro S R n h _
    by_cases hall : ∀ i ∈ mask.indices, (kids i).result.isSome
    · exact ⟨[], hall⟩
    · simp only [Classical.not_forall] at hall
      obtain ⟨i, hi, hr⟩ := hall
      obtain ⟨Rs, ns, hk, _⟩ := h
      obtain ⟨path, hp⟩ := ih i (hk i hi) (by simpa using hr)
      exact ⟨i :: path, hi, hp⟩

/-- Goroutines write only to memory they have allocated themselves. -/
theorem PSt.Good.nextWrite {st : PSt T} : ∀ {S : Mem T} {R : Go (Ptr × Int) × Mem T} {n : Nat}, st.Good S R n →
    ∀ (path : List (Fin 8)) (l : Loc) (H : Mem T), st.nextWrite S path = some (l, H) → ¬ H.HasLoc l := by
  induction st with
  | run code own =>
    intro S R n h path l H hw
    cases path with
    | cons i path => cases hw
    | nil =>
      unfold PSt.nextWrite at hw
      obtain ⟨l', h1, h2⟩ := Option.map_eq_some_iff.1 hw
      cases h2
      exact h.1.nextWrite l h1
  | wait mask k kids own ih =>
    intro S R n h path l H hw
    cases path with
    | nil => cases hw
    | cons i path =>
      unfold PSt.nextWrite at hw
      by_cases hi : i ∈ mask.indices
      · rw [if_pos hi] at hw
        obtain ⟨Rs, ns, hk, _⟩ := h
        exact ih i (hk i hi) path l H hw
      · rw [if_neg hi] at hw; cases hw

theorem PSt.exec_cons (s : PSt T × Mem T) (path : List (Fin 8)) (sched : List (List (Fin 8))) :
    PSt.exec s (path :: sched) = PSt.exec (s.1.step s.2 path) sched := rfl

theorem PSt.Good.exec : ∀ (sched : List (List (Fin 8))) {st : PSt T} {S : Mem T} {R : Go (Ptr × Int) × Mem T} {n : Nat}, st.Good S R n →
    (PSt.exec (st, S) sched).2 = S ∧ ∃ n', (PSt.exec (st, S) sched).1.Good S R n' ∧ n' ≤ n ∧
      (PSt.Busy (st, S) sched → n' + sched.length = n)
  | [], st, S, R, n, h => ⟨rfl, n, h, Nat.le_refl _, fun _ => rfl⟩
  | path :: sched, st, S, R, n, h => by
    rw [PSt.exec_cons]
    obtain ⟨h1, h2, h3⟩ := h.step path
    have he : st.step S path = ((st.step S path).1, S) := Prod.ext rfl h1
    by_cases hr : st.ready path
    · obtain ⟨n1, e1, g1⟩ := h2 hr
      obtain ⟨e2, n2, g2, l2, b2⟩ := PSt.Good.exec sched g1
      rw [← he] at e2 g2 b2
      refine ⟨e2, n2, g2, by omega, fun hb => ?_⟩
      have := b2 hb.2
      rw [List.length_cons]; omega
    · have hs := h3 hr
      obtain ⟨e2, n2, g2, l2, b2⟩ := PSt.Good.exec sched h
      rw [he, hs]
      exact ⟨e2, n2, g2, l2, fun hb => absurd hb.1 hr⟩

/-- A goroutine that has not ended can be brought to its end. -/
theorem PSt.Good.finishes : ∀ (n : Nat) {st : PSt T} {S : Mem T} {R : Go (Ptr × Int) × Mem T}, st.Good S R n →
    ∃ sched, (PSt.exec (st, S) sched).1.result = some R.1
  | 0, st, S, R, h => by
    obtain ⟨r, hr⟩ := h.ended
    refine ⟨[], ?_⟩
    rw [(h.result hr).1]
    exact hr
  | n + 1, st, S, R, h => by
    have hn : st.result = none := by
      cases hr : st.result with
      | none => rfl
      | some r => exact absurd (h.result hr).2 (by omega)
    obtain ⟨path, hp⟩ := h.progress hn
    obtain ⟨h1, h2, _⟩ := h.step path
    obtain ⟨n', e, g⟩ := h2 hp
    obtain rfl : n = n' := by omega
    obtain ⟨sched, hs⟩ := PSt.Good.finishes n g
    refine ⟨path :: sched, ?_⟩
    rw [PSt.exec_cons, show st.step S path = ((st.step S path).1, S) from Prod.ext rfl h1]
    exact hs

theorem PC.Quiet.start {x : PC T} {H : Mem T} (h : x.Quiet H H) : (PSt.start x H).1.Good H (x.eval H) (x.size H) := by
  show _ ∧ _ ∧ _
  rw [plus_nil]
  exact ⟨h, rfl, rfl⟩

end Frozen
