import Verif.Spec.Parallel
import Verif.Proof.Bits
import Mathlib.Algebra.BigOperators.Fin
import Mathlib.Algebra.Order.BigOperators.Group.Finset
import Mathlib.Data.Fintype.BigOperators

/-! The goroutine machine: invariant, termination, progress. -/

set_option linter.unusedSectionVars false

namespace Frozen

variable {X : Type}

theorem mem_indices {m : Masker} {i : Fin 8} : i ∈ m.indices ↔ m.getLsbD i = true := by
  unfold Masker.indices
  rw [List.mem_filterMap]
  constructor
  · rintro ⟨j, hj, h⟩
    split at h
    · cases h
      rw [bitLoop_eq, List.mem_filter] at hj
      exact hj.2
    · cases h
  · intro h
    refine ⟨i.val, ?_, by simp⟩
    rw [bitLoop_eq, List.mem_filter, List.mem_range]
    exact ⟨by omega, h⟩

theorem nodup_indices (m : Masker) : m.indices.Nodup := by
  unfold Masker.indices
  apply List.Nodup.filterMap
  · intro a b c ha hb
    simp only [Option.mem_def] at ha hb
    split at ha <;> split at hb <;> simp_all
    rw [← hb] at ha; simpa using ha
  · rw [bitLoop_eq]; exact List.nodup_range.filter _

theorem indices_eq_slots {m : Masker} (hm : MaskOk m) : m.indices = slots m := by
  unfold Masker.indices
  rw [bitLoop_slots hm, List.filterMap_map]
  have : ((fun i => if h : i < 8 then some (⟨i, h⟩ : Fin 8) else none) ∘ Fin.val) = some := by
    funext i; simp
  rw [this, List.filterMap_some]

theorem indices_length (m : Masker) : m.indices.length ≤ 8 := by
  have h1 := (nodup_indices m).length_le_card
  simpa using h1

/-! ### Results never change -/

theorem Step.result {s s' : St X} (h : Step s (some s')) {r} (hr : s.result = some r) : s'.result = some r := by
  cases h <;> simp_all [St.result]

/-! ### What a computation can return -/

/-- The results that some schedule may give: all closures succeed, or one fails. -/
def Out : Comp X → X × Bool × Int → Prop
  | .seq r, o => r = .ok o
  | .par mask body _ k, o =>
    (∃ R : Fin 8 → X × Bool × Int, (∀ i ∈ mask.indices, Out (body i) (R i) ∧ (R i).2.1 = true) ∧
      ∃ pm, k pm (fun i => if i ∈ mask.indices then some (R i).1 else none) true ((mask.indices.map (fun i => (R i).2.2)).sum) = .ok o) ∨
    (∃ i ∈ mask.indices, ∃ q, Out (body i) q ∧ q.2.1 = false ∧ ∃ pm slots ms, k pm slots false ms = .ok o)

def Frame.comp (fr : Frame X) : Comp X := .par fr.mask fr.body fr.sets fr.k

/-- What goroutine `i` sends. -/
def outc (R : Fin 8 → Option (X × Bool × Int)) (i : Fin 8) : Bool × Int := ((R i).map (·.2)).getD (true, 0)

/-- The invariant of the variables of a call; `R i` is the result of goroutine `i`. -/
structure VarsInv (fr : Frame X) (R : Fin 8 → Option (X × Bool × Int)) (v : Vars X) : Prop where
  todo : ∃ pre, fr.mask.indices = pre ++ v.todo
  unspawned : ∀ i, ¬ (i ∈ fr.mask.indices ∧ i ∉ v.todo) → v.phase i = .run
  past : ∀ i, v.phase i ≠ .run → (R i).isSome = true
  slots : ∀ i, v.slots i = if v.phase i = .send ∨ v.phase i = .sent then (R i).map (·.1) else none
  chan : ∃ rd, (rd ++ v.chan).Perm ((fr.mask.indices.filter (fun i => v.phase i = .sent)).map (outc R)) ∧
    (v.res = none → (∀ p ∈ rd, p.1 = true) ∧ v.want + rd.length = fr.mask.indices.length ∧ v.acc = (rd.map (·.2)).sum)
  res : v.res.isSome = true → v.todo = []

def Inv : St X → Comp X → Prop
  | .idle, _ => False
  | .start c', c => c' = c
  | .done r, c => c = .seq (.ok r)
  | .par fr kids v, c => c = fr.comp ∧
      (∀ i, (i ∈ fr.mask.indices ∧ i ∉ v.todo) → Inv (kids i) (fr.body i)) ∧
      (∀ i, ¬ (i ∈ fr.mask.indices ∧ i ∉ v.todo) → kids i = .idle) ∧
      VarsInv fr (fun i => (kids i).result) v ∧ ∀ r, v.res = some r → Out c r

theorem Inv.out {s : St X} {c : Comp X} (h : Inv s c) {r} (hr : s.result = some r) : Out c r := by
  cases s with
  | idle => exact h.elim
  | start c' => simp [St.result] at hr
  | done r' => simp only [St.result, Option.some.injEq] at hr; subst hr; rw [show c = _ from h]; rfl
  | par fr kids v => exact h.2.2.2.2 r hr

theorem VarsInv.mono {fr : Frame X} {R R' : Fin 8 → Option (X × Bool × Int)} {v : Vars X} (h : VarsInv fr R v)
    (hR : ∀ i r, R i = some r → R' i = some r) : VarsInv fr R' v := by
  have key : ∀ i, v.phase i ≠ .run → R' i = R i := by
    intro i hi
    obtain ⟨r, hr⟩ := Option.isSome_iff_exists.1 (h.past i hi)
    rw [hr, hR i r hr]
  refine ⟨h.todo, h.unspawned, ?_, ?_, ?_, h.res⟩
  · intro i hi; rw [key i hi]; exact h.past i hi
  · intro i
    rw [h.slots i]
    by_cases hp : v.phase i = .send ∨ v.phase i = .sent
    · rw [if_pos hp, if_pos hp, key i (by rcases hp with hp | hp <;> rw [hp] <;> simp)]
    · rw [if_neg hp, if_neg hp]
  · obtain ⟨rd, hp, hrest⟩ := h.chan
    refine ⟨rd, ?_, hrest⟩
    rw [List.map_congr_left (g := outc R)]
    · exact hp
    · intro i hi
      rw [List.mem_filter] at hi
      have hi2 : v.phase i = .sent := by simpa using hi.2
      unfold outc
      rw [key i (by rw [hi2]; simp)]

theorem setSlot_self {α : Type} (d : Fin 8 → α) (i : Fin 8) (a : α) : setSlot d i a i = a := by simp [setSlot]
theorem setSlot_other {α : Type} (d : Fin 8 → α) {i j : Fin 8} (a : α) (h : j ≠ i) : setSlot d i a j = d j := by simp [setSlot, h]

/-- A phase change that neither stores nor sends. -/
theorem VarsInv.phase {fr : Frame X} {R : Fin 8 → Option (X × Bool × Int)} {v : Vars X} (h : VarsInv fr R v) {i : Fin 8} {p : Phase}
    (hsp : i ∈ fr.mask.indices ∧ i ∉ v.todo) (hR : (R i).isSome = true)
    (hold : v.phase i ≠ .send ∧ v.phase i ≠ .sent) (hnew : p ≠ .send ∧ p ≠ .sent) (m : Masker) :
    VarsInv fr R { v with mask := m, phase := setSlot v.phase i p } := by
  have hns : ∀ j, setSlot v.phase i p j = .sent ↔ v.phase j = .sent := by
    intro j
    by_cases hj : j = i
    · subst hj; rw [setSlot_self]; simp [hold.2, hnew.2]
    · rw [setSlot_other _ _ hj]
  refine ⟨h.todo, ?_, ?_, ?_, ?_, h.res⟩
  · intro j hj
    have : j ≠ i := by rintro rfl; exact hj hsp
    exact (setSlot_other _ _ this).trans (h.unspawned j hj)
  · intro j hj
    by_cases hji : j = i
    · subst hji; exact hR
    · simp only [setSlot_other _ _ hji] at hj; exact h.past j hj
  · intro j
    refine (h.slots j).trans ?_
    by_cases hj : j = i
    · subst hj; simp [setSlot_self, hold, hnew]
    · simp only [setSlot_other _ _ hj]
  · simp only [hns]; exact h.chan

theorem kids_result_mono {kids : Fin 8 → St X} {i : Fin 8} {s' : St X} (h : Step (kids i) (some s')) :
    ∀ j r, (kids j).result = some r → (setSlot kids i s' j).result = some r := by
  intro j r hr
  by_cases hj : j = i
  · subst hj; rw [setSlot_self]; exact h.result hr
  · rw [setSlot_other _ _ hj]; exact hr

theorem spawned_of_step {fr : Frame X} {kids : Fin 8 → St X} {v : Vars X} {c : Comp X} (h : Inv (.par fr kids v) c) {i : Fin 8}
    (hi : kids i ≠ .idle) : i ∈ fr.mask.indices ∧ i ∉ v.todo := by
  by_contra hc
  exact hi (h.2.2.1 i hc)

theorem spawned_of_phase {fr : Frame X} {kids : Fin 8 → St X} {v : Vars X} {c : Comp X} (h : Inv (.par fr kids v) c) {i : Fin 8}
    (hi : (kids i).result.isSome = true) : i ∈ fr.mask.indices ∧ i ∉ v.todo := by
  apply spawned_of_step h
  intro he
  rw [he] at hi; simp [St.result] at hi

theorem filter_sent_other {l : List (Fin 8)} (hl : l.Nodup) {ph : Fin 8 → Phase} {i : Fin 8} (hi : i ∈ l) (hp : ph i ≠ .sent) :
    (l.filter (fun j => decide (setSlot ph i Phase.sent j = .sent))).Perm (i :: l.filter (fun j => decide (ph j = .sent))) := by
  rw [List.perm_ext_iff_of_nodup]
  · intro j
    simp only [List.mem_filter, List.mem_cons, decide_eq_true_eq]
    by_cases hj : j = i
    · subst hj; simp [setSlot_self, hi]
    · simp [setSlot_other _ _ hj, hj]
  · exact hl.filter _
  · rw [List.nodup_cons]
    exact ⟨by simp [hp], hl.filter _⟩

/-- All sent: every outcome has been received when nothing is left to receive. -/
theorem VarsInv.all {fr : Frame X} {R : Fin 8 → Option (X × Bool × Int)} {v : Vars X} (h : VarsInv fr R v)
    (hr : v.res = none) (hw : v.want = 0) :
    (∀ i ∈ fr.mask.indices, v.phase i = .sent ∧ (outc R i).1 = true) ∧ v.acc = (fr.mask.indices.map (fun i => (outc R i).2)).sum := by
  obtain ⟨rd, hp, hrest⟩ := h.chan
  obtain ⟨h1, h2, h3⟩ := hrest hr
  have hlen := hp.length_eq
  rw [List.length_append, List.length_map] at hlen
  have hle := List.length_filter_le (fun i => decide (v.phase i = Phase.sent)) fr.mask.indices
  have hall : fr.mask.indices.filter (fun i => decide (v.phase i = Phase.sent)) = fr.mask.indices :=
    List.filter_eq_self.2 (by
      have : (fr.mask.indices.filter (fun i => decide (v.phase i = Phase.sent))).length = fr.mask.indices.length := by omega
      exact List.length_filter_eq_length_iff.1 this)
  have hchan : v.chan = [] := List.length_eq_zero_iff.1 (by rw [hall] at hlen; omega)
  rw [hall, hchan, List.append_nil] at hp
  refine ⟨?_, ?_⟩
  · intro i hi
    refine ⟨by have := List.filter_eq_self.1 hall i hi; simpa using this, ?_⟩
    exact h1 _ (hp.mem_iff.2 (List.mem_map_of_mem hi))
  · rw [h3, show (fun i => (outc R i).2) = (fun p : Bool × Int => p.2) ∘ outc R from rfl, ← List.map_map]
    exact (hp.map _).sum_eq

theorem Inv.step {s s' : St X} {c : Comp X} (hst : Step s (some s')) (h : Inv s c) : Inv s' c := by
  generalize ho : some s' = o at hst
  induction hst generalizing s' c with
  | seqOk r => cases ho; exact h.symm
  | seqPanic e => cases ho
  | enter mask body sets k =>
    cases ho
    refine ⟨h.symm, by simp, by simp, ⟨⟨[], rfl⟩, by simp, by simp, by simp, ⟨[], by simp⟩, by simp⟩, by simp⟩
  | spawn fr kids v i is ht =>
    cases ho
    obtain ⟨h1, h2, h3, h4, h5⟩ := h
    have hnd := nodup_indices fr.mask
    obtain ⟨pre, hpre⟩ := h4.todo
    rw [ht] at hpre
    have hi : i ∈ fr.mask.indices := by rw [hpre]; simp
    have hni : i ∉ is := by
      rw [hpre] at hnd
      have := (List.nodup_append.1 hnd).2.1
      rw [List.nodup_cons] at this
      exact this.1
    have hidle : kids i = .idle := h3 i (by rw [ht]; simp)
    refine ⟨h1, ?_, ?_, ?_, h5⟩
    · rintro j ⟨hj1, hj2⟩
      by_cases hj : j = i
      · subst hj; rw [setSlot_self]; rfl
      · rw [setSlot_other _ _ hj]
        exact h2 j ⟨hj1, by rw [ht, List.mem_cons]; rintro (h | h); exacts [hj h, hj2 h]⟩
    · intro j hj
      have hji : j ≠ i := by rintro rfl; exact hj ⟨hi, hni⟩
      rw [setSlot_other _ _ hji]
      apply h3
      rintro ⟨g1, g2⟩
      exact hj ⟨g1, fun h => g2 (by rw [ht]; simp [h])⟩
    · have hmono : VarsInv fr (fun j => (setSlot kids i (.start (fr.body i)) j).result) v := by
        apply h4.mono
        intro j r hr
        by_cases hj : j = i
        · subst hj; rw [hidle] at hr; cases hr
        · rw [setSlot_other _ _ hj]; exact hr
      refine ⟨⟨pre ++ [i], by rw [hpre]; simp⟩, ?_, hmono.past, hmono.slots, hmono.chan, ?_⟩
      · intro j hj
        apply h4.unspawned
        rintro ⟨g1, g2⟩
        exact hj ⟨g1, fun h => g2 (by rw [ht]; exact List.mem_cons_of_mem _ h)⟩
      · intro hr
        have := h4.res hr
        rw [ht] at this; cases this
  | kid fr kids v i s hk ih =>
    cases ho
    have hsp := spawned_of_step h (i := i) (by intro he; rw [he] at hk; cases hk)
    obtain ⟨h1, h2, h3, h4, h5⟩ := h
    refine ⟨h1, ?_, ?_, h4.mono (kids_result_mono hk), h5⟩
    · intro j hj
      by_cases hji : j = i
      · subst hji; rw [setSlot_self]; exact ih (h2 _ hj) rfl
      · rw [setSlot_other _ _ hji]; exact h2 j hj
    · intro j hj
      have : j ≠ i := by rintro rfl; exact hj hsp
      rw [setSlot_other _ _ this]; exact h3 j hj
  | kidPanic => cases ho
  | computed fr kids v i r hp hr =>
    cases ho
    have hsp := spawned_of_phase h (i := i) (by rw [hr]; rfl)
    obtain ⟨h1, h2, h3, h4, h5⟩ := h
    refine ⟨h1, h2, h3, h4.phase hsp (by simp [hr]) (by simp [hp]) ?_ v.mask, h5⟩
    cases fr.sets i <;> simp
  | readMask fr kids v i hp =>
    cases ho
    have hR := h.2.2.2.1.past i (by rw [hp]; simp)
    have hsp := spawned_of_phase h hR
    obtain ⟨h1, h2, h3, h4, h5⟩ := h
    exact ⟨h1, h2, h3, h4.phase hsp hR (by simp [hp]) (by simp) v.mask, h5⟩
  | writeMask fr kids v i m0 hp =>
    cases ho
    have hR := h.2.2.2.1.past i (by rw [hp]; simp)
    have hsp := spawned_of_phase h hR
    obtain ⟨h1, h2, h3, h4, h5⟩ := h
    exact ⟨h1, h2, h3, h4.phase hsp hR (by simp [hp]) (by simp) _, h5⟩
  | store fr kids v i r hp hr =>
    cases ho
    have hsp := spawned_of_phase h (i := i) (by rw [hr]; rfl)
    obtain ⟨h1, h2, h3, h4, h5⟩ := h
    refine ⟨h1, h2, h3, ⟨h4.todo, ?_, ?_, ?_, ?_, h4.res⟩, h5⟩
    · intro j hj
      have : j ≠ i := by rintro rfl; exact hj hsp
      exact (setSlot_other _ _ this).trans (h4.unspawned j hj)
    · intro j hj
      by_cases hji : j = i
      · subst hji; simp [hr]
      · simp only [setSlot_other _ _ hji] at hj; exact h4.past j hj
    · intro j
      by_cases hj : j = i
      · subst hj; simp [setSlot_self, hr]
      · simp only [setSlot_other _ _ hj]; exact h4.slots j
    · have : ∀ j, setSlot v.phase i Phase.send j = .sent ↔ v.phase j = .sent := by
        intro j
        by_cases hj : j = i
        · subst hj; simp [setSlot_self, hp]
        · rw [setSlot_other _ _ hj]
      simp only [this]; exact h4.chan
  | send fr kids v i r hp hr hc =>
    cases ho
    have hsp := spawned_of_phase h (i := i) (by rw [hr]; rfl)
    obtain ⟨h1, h2, h3, h4, h5⟩ := h
    refine ⟨h1, h2, h3, ⟨h4.todo, ?_, ?_, ?_, ?_, h4.res⟩, h5⟩
    · intro j hj
      have : j ≠ i := by rintro rfl; exact hj hsp
      exact (setSlot_other _ _ this).trans (h4.unspawned j hj)
    · intro j hj
      by_cases hji : j = i
      · subst hji; simp [hr]
      · simp only [setSlot_other _ _ hji] at hj; exact h4.past j hj
    · intro j
      refine (h4.slots j).trans ?_
      by_cases hj : j = i
      · subst hj; simp [setSlot_self, hp]
      · simp only [setSlot_other _ _ hj]
    · obtain ⟨rd, hperm, hrest⟩ := h4.chan
      refine ⟨rd, ?_, hrest⟩
      have hf := filter_sent_other (nodup_indices fr.mask) hsp.1 (ph := v.phase) (by rw [hp]; simp)
      refine List.Perm.trans ?_ (hf.map _).symm
      rw [← List.append_assoc, List.map_cons]
      have : outc (fun i => (kids i).result) i = r.2 := by simp [outc, hr]
      rw [this]
      exact (List.perm_append_singleton _ _).trans (hperm.cons _)
  | recv fr kids v m rest n ht hr hw hc =>
    cases ho
    obtain ⟨h1, h2, h3, h4, h5⟩ := h
    refine ⟨h1, h2, h3, ⟨h4.todo, h4.unspawned, h4.past, h4.slots, ?_, h4.res⟩, h5⟩
    obtain ⟨rd, hperm, hrest⟩ := h4.chan
    obtain ⟨g1, g2, g3⟩ := hrest hr
    refine ⟨rd ++ [(true, m)], ?_, fun _ => ⟨?_, ?_, ?_⟩⟩
    · simpa [hc] using hperm
    · intro p hp
      rw [List.mem_append, List.mem_singleton] at hp
      rcases hp with hp | rfl
      · exact g1 p hp
      · rfl
    · simp only [List.length_append, List.length_singleton]; omega
    · simp [g3]
  | fail fr kids v m rest n r ht hr hw hc hk =>
    cases ho
    obtain ⟨h1, h2, h3, h4, h5⟩ := h
    obtain ⟨rd, hperm, hrest⟩ := h4.chan
    refine ⟨h1, h2, h3, ⟨h4.todo, h4.unspawned, h4.past, h4.slots, ⟨rd ++ [(false, m)], ?_, by simp⟩, fun _ => ht⟩, ?_⟩
    · simpa [hc] using hperm
    · intro r' hr'
      cases hr'
      rw [h1]
      right
      have hm : ((false, m) : Bool × Int) ∈ (fr.mask.indices.filter (fun i => v.phase i = .sent)).map (outc fun i => (kids i).result) := by
        rw [← hperm.mem_iff, hc]; simp
      obtain ⟨i, hi, hie⟩ := List.mem_map.1 hm
      rw [List.mem_filter] at hi
      have hph : v.phase i = .sent := by simpa using hi.2
      obtain ⟨q, hq⟩ := Option.isSome_iff_exists.1 (h4.past i (by rw [hph]; simp))
      have hsp : i ∉ v.todo := by rw [ht]; simp
      refine ⟨i, hi.1, q, (h2 i ⟨hi.1, hsp⟩).out hq, ?_, _, _, _, hk⟩
      simp only [outc, hq, Option.map_some, Option.getD_some] at hie
      rw [hie]
  | failPanic => cases ho
  | finish fr kids v r ht hr hw hk =>
    cases ho
    obtain ⟨h1, h2, h3, h4, h5⟩ := h
    obtain ⟨hall, hacc⟩ := h4.all hr hw
    obtain ⟨rd, hperm, hrest⟩ := h4.chan
    refine ⟨h1, h2, h3, ⟨h4.todo, h4.unspawned, h4.past, h4.slots, ⟨rd, hperm, by simp⟩, fun _ => ht⟩, ?_⟩
    intro r' hr'
    cases hr'
    rw [h1]
    left
    have hex : ∀ i ∈ fr.mask.indices, ∃ q, (kids i).result = some q := by
      intro i hi
      have h := h4.past i (by rw [(hall i hi).1]; simp)
      exact Option.isSome_iff_exists.1 h
    refine ⟨fun i => ((kids i).result).getD r, ?_, v.mask, ?_⟩
    · intro i hi
      obtain ⟨q, hq⟩ := hex i hi
      have := (hall i hi).2
      simp only [outc, hq, Option.map_some, Option.getD_some] at this
      simp only [hq, Option.getD_some]
      exact ⟨(h2 i ⟨hi, by rw [ht]; simp⟩).out hq, this⟩
    · rw [← hk]
      congr 1
      · funext i
        rw [h4.slots i]
        by_cases hi : i ∈ fr.mask.indices
        · obtain ⟨q, hq⟩ := hex i hi
          rw [if_pos hi, if_pos (Or.inr (hall i hi).1)]
          simp [hq]
        · rw [if_neg hi, if_neg]
          rw [h4.unspawned i (by simp [hi])]
          simp
      · rw [hacc]
        congr 1
        apply List.map_congr_left
        intro i hi
        obtain ⟨q, hq⟩ := hex i hi
        simp [outc, hq]
  | finishPanic => cases ho

theorem Reaches.inv {c : Comp X} {s : St X} (h : Reaches c s) : Inv s c := by
  induction h with
  | start => rfl
  | step _ hs ih => exact ih.step hs

/-! ### Panics -/

/-- No leaf of the computation, and no code after a call, panics. -/
def NoPanic : Comp X → Prop
  | .seq r => ∃ o, r = .ok o
  | .par mask body _ k => (∀ i ∈ mask.indices, NoPanic (body i)) ∧ ∀ pm slots ok ms, ∃ o, k pm slots ok ms = .ok o

theorem Inv.noPanic {s : St X} {c : Comp X} (h : Inv s c) (hc : NoPanic c) : ¬ Step s none := by
  intro hst
  generalize ho : (none : Option (St X)) = o at hst
  induction hst generalizing c with
  | seqPanic e =>
    have : Comp.seq (.error e) = c := h
    subst this
    obtain ⟨o, ho⟩ := hc
    cases ho
  | kidPanic fr kids v i hk ih =>
    have hsp := spawned_of_step h (i := i) (by intro he; rw [he] at hk; cases hk)
    have h2 := h.2.1 i hsp
    rw [h.1] at hc
    exact ih h2 (hc.1 i hsp.1) rfl
  | failPanic fr kids v m rest n e ht hr hw hc' hk =>
    rw [h.1] at hc
    obtain ⟨o, ho⟩ := hc.2 v.mask v.slots false v.acc
    rw [hk] at ho; cases ho
  | finishPanic fr kids v e ht hr hw hk =>
    rw [h.1] at hc
    obtain ⟨o, ho⟩ := hc.2 v.mask v.slots true v.acc
    rw [hk] at ho; cases ho
  | _ => cases ho

/-! ### Termination -/

/-- An upper bound for the number of steps a computation takes. -/
def cost : Comp X → Nat
  | .seq _ => 1
  | .par mask body _ _ => 42 + mask.indices.length + (mask.indices.map (fun i => cost (body i) + 1)).sum

/-- What is left to do in a phase. -/
def Phase.left : Phase → Nat
  | .run => 5
  | .readMask => 4
  | .writeMask _ => 3
  | .store => 2
  | .send => 1
  | .sent => 0

def Vars.left (fr : Frame X) (v : Vars X) : Nat :=
  (v.todo.map (fun i => cost (fr.body i) + 1)).sum + v.want + (if v.res.isSome then 0 else 1) +
    ∑ i : Fin 8, (v.phase i).left

/-- What is left to do in a state. -/
def St.left : St X → Nat
  | .idle => 0
  | .start c => cost c
  | .done _ => 0
  | .par fr kids v => v.left fr + ∑ i : Fin 8, (kids i).left

theorem sum_update {α : Type} (f : α → Nat) (d : Fin 8 → α) (i : Fin 8) (a : α) :
    (∑ j, f (setSlot d i a j)) + f (d i) = (∑ j, f (d j)) + f a := by
  rw [← Finset.add_sum_erase _ _ (Finset.mem_univ i), ← Finset.add_sum_erase (a := i) _ (fun j => f (d j)) (Finset.mem_univ i)]
  rw [setSlot_self]
  have : ∑ x ∈ Finset.univ.erase i, f (setSlot d i a x) = ∑ x ∈ Finset.univ.erase i, f (d x) := by
    apply Finset.sum_congr rfl
    intro x hx
    rw [setSlot_other _ _ (Finset.ne_of_mem_erase hx)]
  rw [this]; omega

theorem Step.left {s s' : St X} (hst : Step s (some s')) {c : Comp X} (h : Inv s c) : s'.left < s.left := by
  generalize ho : some s' = o at hst
  induction hst generalizing s' c with
  | seqOk r => cases ho; simp [St.left, cost]
  | seqPanic e => cases ho
  | enter mask body sets k =>
    cases ho
    simp only [St.left, Vars.left, cost, Phase.left, Finset.sum_const_zero]
    simp
    omega
  | spawn fr kids v i is ht =>
    cases ho
    have hidle : kids i = .idle := h.2.2.1 i (by rw [ht]; simp)
    have := sum_update St.left kids i (.start (fr.body i))
    rw [hidle] at this
    simp only [St.left, Vars.left, ht, List.map_cons, List.sum_cons] at this ⊢
    omega
  | kid fr kids v i s hk ih =>
    cases ho
    have hsp := spawned_of_step h (i := i) (by intro he; rw [he] at hk; cases hk)
    have h2 := ih (h.2.1 i hsp) rfl
    have := sum_update St.left kids i s
    simp only [St.left]
    omega
  | kidPanic => cases ho
  | computed fr kids v i r hp hr =>
    cases ho
    have := sum_update Phase.left v.phase i (if fr.sets i then .readMask else .store)
    have h3 : Phase.left (if fr.sets i then .readMask else .store) ≤ 4 := by cases fr.sets i <;> simp [Phase.left]
    rw [hp] at this
    simp only [St.left, Vars.left, show Phase.left .run = 5 from rfl] at this ⊢
    omega
  | readMask fr kids v i hp =>
    cases ho
    have := sum_update Phase.left v.phase i (.writeMask v.mask)
    rw [hp] at this
    simp only [St.left, Vars.left, show ∀ m, Phase.left (.writeMask m) = 3 from fun _ => rfl, show Phase.left .readMask = 4 from rfl] at this ⊢
    omega
  | writeMask fr kids v i m0 hp =>
    cases ho
    have := sum_update Phase.left v.phase i .store
    rw [hp] at this
    simp only [St.left, Vars.left, show ∀ m, Phase.left (.writeMask m) = 3 from fun _ => rfl, show Phase.left .store = 2 from rfl] at this ⊢
    omega
  | store fr kids v i r hp hr =>
    cases ho
    have := sum_update Phase.left v.phase i .send
    rw [hp] at this
    simp only [St.left, Vars.left, show Phase.left .store = 2 from rfl, show Phase.left .send = 1 from rfl] at this ⊢
    omega
  | send fr kids v i r hp hr hc =>
    cases ho
    have := sum_update Phase.left v.phase i .sent
    rw [hp] at this
    simp only [St.left, Vars.left, show Phase.left .sent = 0 from rfl, show Phase.left .send = 1 from rfl] at this ⊢
    omega
  | recv fr kids v m rest n ht hr hw hc =>
    cases ho
    simp only [St.left, Vars.left, hw]
    omega
  | fail fr kids v m rest n r ht hr hw hc hk =>
    cases ho
    simp only [St.left, Vars.left, hw, hr, Option.isSome_some, Option.isSome_none, if_true, Bool.false_eq_true, if_false]
    omega
  | failPanic => cases ho
  | finish fr kids v r ht hr hw hk =>
    cases ho
    simp only [St.left, Vars.left, hw, hr, Option.isSome_some, Option.isSome_none, if_true, Bool.false_eq_true, if_false]
    omega
  | finishPanic => cases ho

theorem Inv.acc {c : Comp X} : ∀ {s : St X}, Inv s c → Acc (fun s2 s1 => Step s1 (some s2)) s := by
  suffices H : ∀ n (s : St X), s.left < n → Inv s c → Acc (fun s2 s1 => Step s1 (some s2)) s from
    fun {s} h => H _ s (Nat.lt_succ_self _) h
  intro n
  induction n with
  | zero => intro s hs; omega
  | succ n ih =>
    intro s hs h
    constructor
    intro s2 hst
    have hl := hst.left h
    exact ih s2 (by omega) (h.step hst)

/-! ### Progress -/

theorem Inv.progress : ∀ {s : St X} {c : Comp X}, Inv s c → (¬ ∃ o, Step s o) → s.result.isSome = true ∧ s.finished
  | .idle, _, h, _ => h.elim
  | .start c', _, _, hn => by
    exfalso; apply hn
    cases c' with
    | seq r =>
      cases r with
      | ok r => exact ⟨_, .seqOk r⟩
      | error e => exact ⟨_, .seqPanic e⟩
    | par mask body sets k => exact ⟨_, .enter mask body sets k⟩
  | .done r, _, _, _ => ⟨rfl, trivial⟩
  | .par fr kids v, c, h, hn => by
    obtain ⟨h1, h2, h3, h4, h5⟩ := h
    have htodo : v.todo = [] := by
      cases ht : v.todo with
      | nil => rfl
      | cons i is => exact absurd ⟨_, .spawn fr kids v i is ht⟩ hn
    have hkid : ∀ i ∈ fr.mask.indices, (kids i).result.isSome = true ∧ (kids i).finished := by
      intro i hi
      apply Inv.progress (h2 i ⟨hi, by rw [htodo]; simp⟩)
      rintro ⟨o, ho⟩
      cases o with
      | none => exact hn ⟨_, .kidPanic fr kids v i ho⟩
      | some s => exact hn ⟨_, .kid fr kids v i s ho⟩
    have hsent : ∀ i ∈ fr.mask.indices, v.phase i = .sent := by
      intro i hi
      obtain ⟨r, hr⟩ := Option.isSome_iff_exists.1 (hkid i hi).1
      cases hp : v.phase i with
      | run => exact absurd ⟨_, .computed fr kids v i r hp hr⟩ hn
      | readMask => exact absurd ⟨_, .readMask fr kids v i hp⟩ hn
      | writeMask m0 => exact absurd ⟨_, .writeMask fr kids v i m0 hp⟩ hn
      | store => exact absurd ⟨_, .store fr kids v i r hp hr⟩ hn
      | send =>
        refine absurd ⟨_, .send fr kids v i r hp hr ?_⟩ hn
        obtain ⟨rd, hperm, _⟩ := h4.chan
        have hlen := hperm.length_eq
        rw [List.length_append, List.length_map] at hlen
        have hlt : (fr.mask.indices.filter (fun i => decide (v.phase i = Phase.sent))).length < fr.mask.indices.length := by
          refine lt_of_le_of_ne (List.length_filter_le _ _) ?_
          intro he
          have := List.length_filter_eq_length_iff.1 he i hi
          rw [hp] at this; simp at this
        have := indices_length fr.mask
        omega
      | sent => rfl
    have hres : v.res.isSome = true := by
      cases hr : v.res with
      | some r => rfl
      | none =>
        exfalso
        cases hw : v.want with
        | zero =>
          cases hk : fr.k v.mask v.slots true v.acc with
          | ok r => exact hn ⟨_, .finish fr kids v r htodo hr hw hk⟩
          | error e => exact hn ⟨_, .finishPanic fr kids v e htodo hr hw hk⟩
        | succ n =>
          obtain ⟨rd, hperm, hrest⟩ := h4.chan
          obtain ⟨g1, g2, g3⟩ := hrest hr
          have hlen := hperm.length_eq
          rw [List.length_append, List.length_map, List.filter_eq_self.2 (by intro i hi; simp [hsent i hi])] at hlen
          cases hc : v.chan with
          | nil => rw [hc] at hlen; simp at hlen; omega
          | cons p rest =>
            obtain ⟨b, m⟩ := p
            cases b with
            | true => exact hn ⟨_, .recv fr kids v m rest n htodo hr hw hc⟩
            | false =>
              cases hk : fr.k v.mask v.slots false v.acc with
              | ok r => exact hn ⟨_, .fail fr kids v m rest n r htodo hr hw hc hk⟩
              | error e => exact hn ⟨_, .failPanic fr kids v m rest n e htodo hr hw hc hk⟩
    refine ⟨hres, htodo, hres, ?_⟩
    intro i
    refine ⟨hsent i, ?_⟩
    by_cases hi : i ∈ fr.mask.indices
    · exact (hkid i hi).2
    · rw [h3 i (by simp [hi])]; trivial

theorem Call.terminates {α : Type} (c : Call α) : c.Terminates := by
  cases c with
  | seq r => trivial
  | run c k => exact fun s h => h.inv.acc

theorem Call.neverStuck {α : Type} (c : Call α) : c.NeverStuck := by
  cases c with
  | seq r => trivial
  | run c k => exact fun s h hn => h.inv.progress hn

/-- Some schedule leads to a result or a panic. -/
theorem exists_end (c : Comp X) : ∃ s, Reaches c s ∧ (Step s none ∨ s.result.isSome = true) := by
  have key : ∀ s, Acc (fun s2 s1 => Step s1 (some s2)) s → Reaches c s → ∃ s', Reaches c s' ∧ (Step s' none ∨ s'.result.isSome = true) := by
    intro s hacc
    induction hacc with
    | intro s _ ih =>
      intro hs
      by_cases hn : ∃ o, Step s o
      · obtain ⟨o, ho⟩ := hn
        cases o with
        | none => exact ⟨s, hs, Or.inl ho⟩
        | some s2 => exact ih s2 ho (hs.step ho)
      · exact ⟨s, hs, Or.inr (hs.inv.progress hn).1⟩
  exact key _ (Reaches.start (c := c)).inv.acc .start

/-- The outcome of a computation determines that of the call. -/
theorem Call.behaves_run {α : Type} {c : Comp X} {k : X × Bool × Int → Go α} {r : Go α}
    (hout : ∀ o, Out c o → r = k o) (hnp : ∀ a, r = .ok a → NoPanic c) : (Call.run c k).Behaves r := by
  refine ⟨?_, ?_, Call.terminates _, Call.neverStuck _⟩
  · intro a
    constructor
    · rintro ⟨s, o, h1, h2, h3⟩
      rw [hout o (h1.inv.out h2), h3]
    · intro ha
      obtain ⟨s, h1, h2 | h2⟩ := exists_end c
      · exact absurd h2 (h1.inv.noPanic (hnp a ha))
      · obtain ⟨o, ho⟩ := Option.isSome_iff_exists.1 h2
        exact ⟨s, o, h1, ho, by rw [← hout o (h1.inv.out ho), ha]⟩
  · constructor
    · intro h
      cases r with
      | error e => exact ⟨e, rfl⟩
      | ok a =>
        exfalso
        rcases h with ⟨s, h1, h2⟩ | ⟨s, o, e, h1, h2, h3⟩
        · exact h1.inv.noPanic (hnp a rfl) h2
        · have := hout o (h1.inv.out h2)
          rw [h3] at this; cases this
    · rintro ⟨e, he⟩
      obtain ⟨s, h1, h2 | h2⟩ := exists_end c
      · exact Or.inl ⟨s, h1, h2⟩
      · obtain ⟨o, ho⟩ := Option.isSome_iff_exists.1 h2
        exact Or.inr ⟨s, o, e, h1, ho, by rw [← hout o (h1.inv.out ho), he]⟩

theorem Call.behaves_seq {α : Type} (r : Go α) : (Call.seq r).Behaves r :=
  ⟨fun _ => Iff.rfl, Iff.rfl, trivial, trivial⟩

theorem except_map_ok {α β : Type} {r : Go α} {f : α → β} {b : β} : r.map f = .ok b ↔ ∃ a, r = .ok a ∧ f a = b := by
  cases r with
  | error e => exact ⟨fun h => (nomatch h), by rintro ⟨a, h, _⟩; cases h⟩
  | ok a =>
    constructor
    · intro h; exact ⟨a, rfl, Except.ok.inj h⟩
    · rintro ⟨a', h1, h2⟩; cases h1; rw [← h2]; rfl

theorem except_map_error {α β : Type} {r : Go α} {f : α → β} {e : Panic} : r.map f = .error e ↔ r = .error e := by
  cases r with
  | error e' => exact ⟨fun h => by cases h; rfl, fun h => by cases h; rfl⟩
  | ok a => exact ⟨fun h => (nomatch h), fun h => (nomatch h)⟩

theorem Call.map_returns {α β : Type} (c : Call α) (f : α → β) (b : β) : (c.map f).Returns b ↔ ∃ a, c.Returns a ∧ f a = b := by
  cases c with
  | seq r => exact except_map_ok
  | run c k =>
    constructor
    · rintro ⟨s, o, h1, h2, h3⟩
      obtain ⟨a, g1, g2⟩ := except_map_ok.1 h3
      exact ⟨a, ⟨s, o, h1, h2, g1⟩, g2⟩
    · rintro ⟨a, ⟨s, o, h1, h2, g1⟩, g2⟩
      exact ⟨s, o, h1, h2, except_map_ok.2 ⟨a, g1, g2⟩⟩

theorem Call.map_panics {α β : Type} (c : Call α) (f : α → β) : (c.map f).Panics ↔ c.Panics := by
  cases c with
  | seq r => simp only [Call.map, Call.Panics, except_map_error]
  | run c k => simp only [Call.map, Call.Panics, except_map_error]

theorem Call.Behaves.map {α β : Type} {c : Call α} {r : Go α} (h : c.Behaves r) (f : α → β) : (c.map f).Behaves (r.map f) := by
  refine ⟨?_, ?_, Call.terminates _, Call.neverStuck _⟩
  · intro b
    rw [Call.map_returns, except_map_ok]
    simp only [h.returns]
  · rw [Call.map_panics, h.panics]
    simp only [except_map_error]

end Frozen
