import Verif.Spec.Goroutines
import Verif.Proof.ParallelOps
import Verif.Proof.BulkOps

/-! Goroutines that have ended, and races. -/

set_option linter.unusedSectionVars false

namespace Frozen

variable {X : Type}

/-- Why a call has a result: all goroutines have sent `true`, or one has sent `false`. -/
def Why : St X → Prop
  | .par fr kids v => (∀ i, Why (kids i)) ∧ ∀ r, v.res = some r →
      (∀ i ∈ fr.mask.indices, v.phase i = .sent ∧ ∃ q, (kids i).result = some q ∧ q.2.1 = true) ∨
      (∃ i ∈ fr.mask.indices, ∃ q, Out (fr.body i) q ∧ q.2.1 = false ∧ ∃ pm sl ms, fr.k pm sl false ms = .ok r)
  | _ => True

/-- A step of a goroutine that has not sent changes nothing about a result. -/
theorem why_phase {fr : Frame X} {kids : Fin 8 → St X} {v v' : Vars X} {i : Fin 8} {p : Phase} (h : Why (.par fr kids v))
    (hp : v.phase i ≠ .sent) (hv : v'.phase = setSlot v.phase i p) (hr : v'.res = v.res) : Why (.par fr kids v') := by
  refine ⟨h.1, fun r he => ?_⟩
  rcases h.2 r (hr ▸ he) with ha | hb
  · left
    intro j hj
    have hji : j ≠ i := by rintro rfl; exact hp (ha j hj).1
    rw [hv, setSlot_other _ _ hji]
    exact ha j hj
  · exact .inr hb

theorem Why.step {s s' : St X} {c : Comp X} (hst : Step s (some s')) (h : Why s) (hi : Inv s c) : Why s' := by
  generalize ho : some s' = o at hst
  induction hst generalizing s' c with
  | seqOk r => cases ho; trivial
  | seqPanic e => cases ho
  | enter mask body sets k => cases ho; exact ⟨fun _ => trivial, by simp⟩
  | spawn fr kids v i is ht =>
    cases ho
    refine ⟨fun j => ?_, fun r hr => ?_⟩
    · by_cases hj : j = i
      · subst hj; rw [setSlot_self]; trivial
      · rw [setSlot_other _ _ hj]; exact h.1 j
    · have := hi.2.2.2.1.res (by rw [hr]; rfl)
      rw [ht] at this; cases this
  | kid fr kids v i s hk ih =>
    cases ho
    have hsp := spawned_of_step hi (i := i) (by intro he; rw [he] at hk; cases hk)
    refine ⟨fun j => ?_, fun r hr => ?_⟩
    · by_cases hj : j = i
      · subst hj; rw [setSlot_self]; exact ih (h.1 j) (hi.2.1 j hsp) rfl
      · rw [setSlot_other _ _ hj]; exact h.1 j
    · rcases h.2 r hr with ha | hb
      · left
        intro j hj
        obtain ⟨h1, q, h2, h3⟩ := ha j hj
        exact ⟨h1, q, kids_result_mono hk j q h2, h3⟩
      · exact .inr hb
  | kidPanic => cases ho
  | computed fr kids v i r hp hr => cases ho; exact why_phase h (by rw [hp]; simp) rfl rfl
  | readMask fr kids v i hp => cases ho; exact why_phase h (by rw [hp]; simp) rfl rfl
  | writeMask fr kids v i m0 hp => cases ho; exact why_phase h (by rw [hp]; simp) rfl rfl
  | store fr kids v i r hp hr => cases ho; exact why_phase h (by rw [hp]; simp) rfl rfl
  | send fr kids v i r hp hr hc => cases ho; exact why_phase h (by rw [hp]; simp) rfl rfl
  | recv fr kids v m rest n ht hr hw hc =>
    cases ho
    refine ⟨h.1, fun r he => ?_⟩
    have : v.res = some r := he
    rw [hr] at this; cases this
  | fail fr kids v m rest n r ht hr hw hc hk =>
    cases ho
    refine ⟨h.1, fun r' he => .inr ?_⟩
    cases he
    obtain ⟨_, h2, _, h4, _⟩ := hi
    obtain ⟨rd, hperm, _⟩ := h4.chan
    have hmem : (false, m) ∈ (fr.mask.indices.filter (fun i => v.phase i = .sent)).map (outc (fun i => (kids i).result)) :=
      hperm.mem_iff.1 (by rw [hc]; simp)
    obtain ⟨i, hi1, hi2⟩ := List.mem_map.1 hmem
    rw [List.mem_filter] at hi1
    have hsent : v.phase i = .sent := by simpa using hi1.2
    obtain ⟨q, hq⟩ := Option.isSome_iff_exists.1 (h4.past i (by rw [hsent]; simp))
    refine ⟨i, hi1.1, q, (h2 i ⟨hi1.1, by rw [ht]; simp⟩).out hq, ?_, _, _, _, hk⟩
    have hq' : (kids i).result = some q := hq
    simp only [outc, hq', Option.map_some, Option.getD_some] at hi2
    rw [hi2]
  | failPanic => cases ho
  | finish fr kids v r ht hr hw hk =>
    cases ho
    refine ⟨h.1, fun r' he => .inl ?_⟩
    obtain ⟨_, h2, _, h4, _⟩ := hi
    intro i hi
    obtain ⟨h5, h6⟩ := (h4.all hr hw).1 i hi
    obtain ⟨q, hq⟩ := Option.isSome_iff_exists.1 (h4.past i (by rw [h5]; simp))
    have hq' : (kids i).result = some q := hq
    refine ⟨h5, q, hq', ?_⟩
    simpa only [outc, hq', Option.map_some, Option.getD_some] using h6
  | finishPanic => cases ho

theorem Reaches.why {c : Comp X} {s : St X} (h : Reaches c s) : Why s := by
  induction h with
  | start => trivial
  | step h hs ih => exact ih.step hs h.inv

/-- Goroutines only fail where the code after them passes the failure on. -/
def Honest : Comp X → Prop
  | .seq _ => True
  | .par mask body _ k => (∀ i, Honest (body i)) ∧
      ((∀ i ∈ mask.indices, ∀ q, Out (body i) q → q.2.1 = true) ∨ ∀ pm sl ms o, k pm sl false ms = .ok o → o.2.1 = false)

theorem finished_of_result : ∀ {s : St X} {c : Comp X}, Inv s c → Why s → Honest c → ∀ {r}, s.result = some r → r.2.1 = true → s.finished
  | .idle, _, h, _, _, _, _, _ => h.elim
  | .start _, _, _, _, _, _, hr, _ => by cases hr
  | .done _, _, _, _, _, _, _, _ => trivial
  | .par fr kids v, c, hi, hw, hc, r, hr, hk => by
    have hres : v.res = some r := hr
    have htodo := hi.2.2.2.1.res (by rw [hres]; rfl)
    have hc' : Honest fr.comp := hi.1 ▸ hc
    rcases hw.2 r hres with ha | ⟨i, h1, q, h2, h3, pm, sl, ms, h4⟩
    · refine ⟨htodo, by rw [hres]; rfl, fun i => ⟨fun hm => (ha i hm).1, ?_⟩⟩
      by_cases hm : i ∈ fr.mask.indices
      · obtain ⟨_, q, h1, h2⟩ := ha i hm
        exact finished_of_result (hi.2.1 i ⟨hm, by rw [htodo]; simp⟩) (hw.1 i) (hc'.1 i) h1 h2
      · rw [hi.2.2.1 i (fun h => hm h.1)]; trivial
    · rcases hc'.2 with h | h
      · rw [h i h1 q h2] at h3; cases h3
      · rw [h pm sl ms r h4] at hk; cases hk

/-! ### Races -/

/-- No goroutine touches the mask. -/
def NoSets : Comp X → Prop
  | .seq _ => True
  | .par _ body sets _ => (∀ i, NoSets (body i)) ∧ ∀ i, sets i = false

def SlotsOnly : St X → Prop
  | .idle => True
  | .start c => NoSets c
  | .done _ => True
  | .par fr kids v => NoSets fr.comp ∧ (∀ i, SlotsOnly (kids i)) ∧ ∀ i x w, (v.phase i).access i = some (x, w) → x = .slot i

theorem slotsOnly_phase {fr : Frame X} {kids : Fin 8 → St X} {v v' : Vars X} {i : Fin 8} {p : Phase} (h : SlotsOnly (.par fr kids v))
    (hp : ∀ x w, p.access i = some (x, w) → x = .slot i) (hv : v'.phase = setSlot v.phase i p) : SlotsOnly (.par fr kids v') := by
  refine ⟨h.1, h.2.1, fun j x w hj => ?_⟩
  rw [hv] at hj
  by_cases hji : j = i
  · subst hji; rw [setSlot_self] at hj; exact hp x w hj
  · rw [setSlot_other _ _ hji] at hj; exact h.2.2 j x w hj

theorem SlotsOnly.step {s s' : St X} (hst : Step s (some s')) (h : SlotsOnly s) : SlotsOnly s' := by
  generalize ho : some s' = o at hst
  induction hst generalizing s' with
  | seqOk r => cases ho; trivial
  | seqPanic e => cases ho
  | enter mask body sets k => cases ho; exact ⟨h, fun _ => trivial, fun i x w he => by cases he⟩
  | spawn fr kids v i is ht =>
    cases ho
    refine ⟨h.1, fun j => ?_, h.2.2⟩
    by_cases hj : j = i
    · subst hj; rw [setSlot_self]; exact h.1.1 j
    · rw [setSlot_other _ _ hj]; exact h.2.1 j
  | kid fr kids v i s hk ih =>
    cases ho
    refine ⟨h.1, fun j => ?_, h.2.2⟩
    by_cases hj : j = i
    · subst hj; rw [setSlot_self]; exact ih (h.2.1 j) rfl
    · rw [setSlot_other _ _ hj]; exact h.2.1 j
  | kidPanic => cases ho
  | computed fr kids v i r hp hr =>
    cases ho
    refine slotsOnly_phase h ?_ rfl
    have : fr.sets i = false := h.1.2 i
    rw [this]
    intro x w he
    cases he
    rfl
  | readMask fr kids v i hp => cases ho; have := h.2.2 i .mask false (by rw [hp]; rfl); cases this
  | writeMask fr kids v i m0 hp => cases ho; have := h.2.2 i .mask true (by rw [hp]; rfl); cases this
  | store fr kids v i r hp hr => cases ho; exact slotsOnly_phase h (fun x w he => by cases he) rfl
  | send fr kids v i r hp hr hc => cases ho; exact slotsOnly_phase h (fun x w he => by cases he) rfl
  | recv fr kids v m rest n ht hr hw hc => cases ho; exact h
  | fail fr kids v m rest n r ht hr hw hc hk => cases ho; exact h
  | failPanic => cases ho
  | finish fr kids v r ht hr hw hk => cases ho; exact h
  | finishPanic => cases ho

theorem Reaches.slotsOnly {c : Comp X} (hc : NoSets c) {s : St X} (h : Reaches c s) : SlotsOnly s := by
  induction h with
  | start => exact hc
  | step h hs ih => exact ih.step hs

theorem SlotsOnly.races : ∀ {s : St X} {c : Comp X}, Inv s c → SlotsOnly s → ¬ s.races
  | .idle, _, _, _ => id
  | .start _, _, _, _ => id
  | .done _, _, _, _ => id
  | .par fr kids v, c, hi, ha => by
    rintro (⟨i, j, x, w, hij, h1, h2⟩ | ⟨h1, h2, h3, i, h4⟩ | ⟨i, h⟩)
    · have e1 := ha.2.2 i x true h1
      have e2 := ha.2.2 j x w h2
      rw [e1] at e2; cases e2; exact hij rfl
    · by_cases hm : i ∈ fr.mask.indices
      · rw [((hi.2.2.2.1.all h2 h3).1 i hm).1] at h4; cases h4
      · rw [hi.2.2.2.1.unspawned i (fun h => hm h.1)] at h4; cases h4
    · by_cases hm : i ∈ fr.mask.indices ∧ i ∉ v.todo
      · exact (ha.2.1 i).races (hi.2.1 i hm) h
      · rw [hi.2.2.1 i hm] at h; exact h

theorem raceFree_run {α : Type} {c : Comp X} {k : X × Bool × Int → Go α} (hc : NoSets c) : (Call.run c k).RaceFree :=
  fun _ h => (h.slotsOnly hc).races h.inv

theorem Call.map_raceFree {α β : Type} {c : Call α} (h : c.RaceFree) (f : α → β) : (c.map f).RaceFree := by
  cases c <;> exact h

theorem Call.map_endedIf {α β : Type} {c : Call α} {P : α → Prop} {Q : β → Prop} {f : α → β} (h : c.EndedIf P) (hq : ∀ a, Q (f a) → P a) :
    (c.map f).EndedIf Q := by
  cases c with
  | seq r => trivial
  | run c k =>
    intro s r b hs hr hb hQ
    obtain ⟨a, ha, rfl⟩ := map_ok hb
    exact h s r a hs hr ha (hq a hQ)

/-! ### The operations -/

variable {T : Type} [GoKey T]

/-- All goroutines succeed. -/
def AllTrue : Comp X → Prop
  | .seq r => ∀ o, r = .ok o → o.2.1 = true
  | .par _ body _ k => (∀ i, AllTrue (body i)) ∧ ∀ pm sl b ms o, k pm sl b ms = .ok o → o.2.1 = true

theorem AllTrue.out : ∀ {c : Comp X}, AllTrue c → ∀ {o}, Out c o → o.2.1 = true
  | .seq r, h, o, ho => h o ho
  | .par _ _ _ _, h, o, ho => by
    rcases ho with ⟨_, _, pm, hk⟩ | ⟨_, _, _, _, _, pm, sl, ms, hk⟩
    · exact h.2 _ _ _ _ _ hk
    · exact h.2 _ _ _ _ _ hk

theorem AllTrue.honest : ∀ {c : Comp X}, AllTrue c → Honest c
  | .seq _, _ => trivial
  | .par _ _ _ _, h => ⟨fun i => (h.1 i).honest, .inl (fun i _ _ hq => (h.1 i).out hq)⟩

theorem ended_run {α : Type} {c : Comp X} {k : X × Bool × Int → Go α} (hc : AllTrue c) (P : α → Prop) : (Call.run c k).EndedIf P :=
  fun _ _ _ hs hr _ _ => finished_of_result hs.inv hs.why hc.honest hr (hc.out (hs.inv.out hr))

theorem allTrue_seqOf (r : Go (X × Int)) : AllTrue (seqOf r) := by
  intro o ho
  obtain ⟨a, _, rfl⟩ := map_ok ho
  rfl

theorem allTrue_combineC (g : Int) : ∀ (n1 : Node T) (args : CombineArgs T) (n2 : Node T) (d : Nat), AllTrue (combineC g n1 args n2 d)
  | .nil, args, n2, d => allTrue_seqOf _
  | .leaf1 _, args, n2, d => allTrue_seqOf _
  | .leaf2 _ _, args, n2, d => allTrue_seqOf _
  | .twig _, args, n2, d => allTrue_seqOf _
  | .branch m k, args, .nil, d => allTrue_seqOf _
  | .branch m k, args, .leaf1 _, d => allTrue_seqOf _
  | .branch m k, args, .leaf2 _ _, d => allTrue_seqOf _
  | .branch m k, args, .twig _, d => allTrue_seqOf _
  | .branch m k, args, .branch m2 k2, d => by
    unfold combineC
    by_cases hg : (d : Int) < g
    · simp only [if_pos hg]
      refine ⟨fun i => ?_, fun _ _ _ _ _ h => by cases h; rfl⟩
      dsimp only
      by_cases c1 : (k i).isNil = true
      · rw [if_pos c1]; intro o ho; cases ho; rfl
      · rw [if_neg c1]
        by_cases c2 : (k2 i).isNil = true
        · rw [if_pos c2]; intro o ho; cases ho; rfl
        · rw [if_neg c2]; exact allTrue_combineC g (k i) args (k2 i) (d + 1)
    · simp only [if_neg hg]; exact allTrue_seqOf _

theorem allTrue_differenceC (g : Int) : ∀ (n1 n2 : Node T) (d : Nat), AllTrue (differenceC g n1 n2 d) ∧ NoSets (differenceC g n1 n2 d)
  | .nil, n2, d => ⟨allTrue_seqOf _, trivial⟩
  | .leaf1 _, n2, d => ⟨allTrue_seqOf _, trivial⟩
  | .leaf2 _ _, n2, d => ⟨allTrue_seqOf _, trivial⟩
  | .twig _, n2, d => ⟨allTrue_seqOf _, trivial⟩
  | .branch m k, .nil, d => ⟨allTrue_seqOf _, trivial⟩
  | .branch m k, .leaf1 _, d => ⟨allTrue_seqOf _, trivial⟩
  | .branch m k, .leaf2 _ _, d => ⟨allTrue_seqOf _, trivial⟩
  | .branch m k, .twig _, d => ⟨allTrue_seqOf _, trivial⟩
  | .branch m k, .branch m2 k2, d => by
    unfold differenceC
    by_cases hg : (d : Int) < g
    · simp only [if_pos hg]
      have hb : ∀ i, AllTrue (if (k2 i).isNil then .seq (.ok (k i, true, 0)) else differenceC g (k i) (k2 i) (d + 1)) ∧
          NoSets (if (k2 i).isNil then .seq (.ok (k i, true, 0)) else differenceC g (k i) (k2 i) (d + 1)) := by
        intro i
        by_cases c2 : (k2 i).isNil = true
        · rw [if_pos c2]; exact ⟨fun o ho => by cases ho; rfl, trivial⟩
        · rw [if_neg c2]; exact allTrue_differenceC g (k i) (k2 i) (d + 1)
      refine ⟨⟨fun i => (hb i).1, fun _ _ _ _ _ h => ?_⟩, fun i => (hb i).2, fun _ => rfl⟩
      obtain ⟨_, _, rfl⟩ := map_ok h; rfl
    · simp only [if_neg hg]; exact ⟨allTrue_seqOf _, trivial⟩

theorem allTrue_intersectionC (g : Int) : ∀ (n1 n2 : Node T) (d : Nat), AllTrue (intersectionC g n1 n2 d) ∧ NoSets (intersectionC g n1 n2 d)
  | .nil, n2, d => ⟨allTrue_seqOf _, trivial⟩
  | .leaf1 _, n2, d => ⟨allTrue_seqOf _, trivial⟩
  | .leaf2 _ _, n2, d => ⟨allTrue_seqOf _, trivial⟩
  | .twig _, n2, d => ⟨allTrue_seqOf _, trivial⟩
  | .branch m k, .nil, d => ⟨allTrue_seqOf _, trivial⟩
  | .branch m k, .leaf1 _, d => ⟨allTrue_seqOf _, trivial⟩
  | .branch m k, .leaf2 _ _, d => ⟨allTrue_seqOf _, trivial⟩
  | .branch m k, .twig _, d => ⟨allTrue_seqOf _, trivial⟩
  | .branch m k, .branch m2 k2, d => by
    unfold intersectionC
    by_cases hg : (d : Int) < g
    · simp only [if_pos hg]
      have hb : ∀ i, AllTrue (intersectionC g (k i) (k2 i) (d + 1)) ∧ NoSets (intersectionC g (k i) (k2 i) (d + 1)) :=
        fun i => allTrue_intersectionC g (k i) (k2 i) (d + 1)
      refine ⟨⟨fun i => (hb i).1, fun _ _ _ _ _ h => ?_⟩, fun i => (hb i).2, fun _ => rfl⟩
      obtain ⟨_, _, rfl⟩ := map_ok h; rfl
    · simp only [if_neg hg]; exact ⟨allTrue_seqOf _, trivial⟩

theorem allTrue_map {α β : Type} {r : Go α} {f : α → β × Bool × Int} (hf : ∀ a, (f a).2.1 = true) : AllTrue (.seq (r.map f)) := by
  intro o ho
  obtain ⟨a, _, rfl⟩ := map_ok ho
  exact hf a

theorem allTrue_whereC (g : Int) (P : T → Bool) : ∀ (n : Node T) (d : Nat), AllTrue (whereC g P n d) ∧ NoSets (whereC g P n d)
  | .nil, d => ⟨allTrue_map (fun _ => rfl), trivial⟩
  | .leaf1 _, d => ⟨allTrue_map (fun _ => rfl), trivial⟩
  | .leaf2 _ _, d => ⟨allTrue_map (fun _ => rfl), trivial⟩
  | .twig _, d => ⟨allTrue_map (fun _ => rfl), trivial⟩
  | .branch m k, d => by
    unfold whereC
    by_cases hg : (d : Int) < g
    · simp only [if_pos hg]
      have hb : ∀ i, AllTrue (whereC g P (k i) (d + 1)) ∧ NoSets (whereC g P (k i) (d + 1)) := fun i => allTrue_whereC g P (k i) (d + 1)
      refine ⟨⟨fun i => (hb i).1, fun pm sl b ms o h => ?_⟩, fun i => (hb i).2, fun _ => rfl⟩
      dsimp only at h
      split at h
      · cases h; rfl
      · obtain ⟨_, _, rfl⟩ := map_ok h; rfl
    · simp only [if_neg hg]; exact ⟨allTrue_map (fun _ => rfl), trivial⟩

theorem allTrue_reduceC [Inhabited T] (g : Int) (f : List T → T) : ∀ (n : Node T) (d : Nat), AllTrue (reduceC g f n d) ∧ NoSets (reduceC g f n d)
  | .nil, d => ⟨allTrue_map (fun _ => rfl), trivial⟩
  | .leaf1 _, d => ⟨allTrue_map (fun _ => rfl), trivial⟩
  | .leaf2 _ _, d => ⟨allTrue_map (fun _ => rfl), trivial⟩
  | .twig _, d => ⟨allTrue_map (fun _ => rfl), trivial⟩
  | .branch m k, d => by
    unfold reduceC
    by_cases hg : (d : Int) < g
    · simp only [if_pos hg]
      have hb : ∀ i, AllTrue (reduceC g f (k i) (d + 1)) ∧ NoSets (reduceC g f (k i) (d + 1)) := fun i => allTrue_reduceC g f (k i) (d + 1)
      refine ⟨⟨fun i => (hb i).1, fun pm sl b ms o h => ?_⟩, fun i => (hb i).2, fun _ => rfl⟩
      simp only [bind, Except.bind, pure, Except.pure] at h
      split at h
      · cases h
      · cases h; rfl
    · simp only [if_neg hg]; exact ⟨allTrue_map (fun _ => rfl), trivial⟩

theorem honest_equalC (g : Int) (eqv : T → T → Bool) : ∀ (n1 n2 : Node T) (d : Nat), Honest (equalC g eqv n1 n2 d)
  | .nil, n2, d => trivial
  | .leaf1 _, n2, d => trivial
  | .leaf2 _ _, n2, d => trivial
  | .twig _, n2, d => trivial
  | .branch m k, .nil, d => trivial
  | .branch m k, .leaf1 _, d => trivial
  | .branch m k, .leaf2 _ _, d => trivial
  | .branch m k, .twig _, d => trivial
  | .branch m k, .branch m2 k2, d => by
    unfold equalC
    by_cases hm : m ≠ m2
    · simp only [if_pos hm]; trivial
    · simp only [if_neg hm]
      by_cases hg : (d : Int) < g
      · simp only [if_pos hg]
        exact ⟨fun i => honest_equalC g eqv (k i) (k2 i) (d + 1), .inr (fun _ _ _ _ h => by cases h; rfl)⟩
      · simp only [if_neg hg]; trivial

theorem honest_subsetOfC (g : Int) : ∀ (n1 n2 : Node T) (d : Nat), Honest (subsetOfC g n1 n2 d)
  | .nil, n2, d => trivial
  | .leaf1 _, n2, d => trivial
  | .leaf2 _ _, n2, d => trivial
  | .twig _, n2, d => trivial
  | .branch m k, .nil, d => trivial
  | .branch m k, .leaf1 _, d => trivial
  | .branch m k, .leaf2 _ _, d => trivial
  | .branch m k, .twig _, d => trivial
  | .branch m k, .branch m2 k2, d => by
    unfold subsetOfC
    by_cases hg : (d : Int) < g
    · simp only [if_pos hg]
      refine ⟨fun i => ?_, .inr (fun _ _ _ _ h => by cases h; rfl)⟩
      dsimp only
      by_cases c1 : (k i).isNil = true
      · rw [if_pos c1]; trivial
      · rw [if_neg c1]
        by_cases c2 : (k2 i).isNil = true
        · rw [if_pos c2]; trivial
        · rw [if_neg c2]; exact honest_subsetOfC g (k i) (k2 i) (d + 1)
    · simp only [if_neg hg]; trivial

/-! ### Schedules -/

/-- All goroutines are started before any runs. -/
theorem spawnAll {c : Comp X} (fr : Frame X) (v : Vars X) : ∀ (todo : List (Fin 8)) (kids : Fin 8 → St X), todo.Nodup →
    Reaches c (.par fr kids { v with todo := todo }) →
    Reaches c (.par fr (fun i => if i ∈ todo then .start (fr.body i) else kids i) { v with todo := [] })
  | [], kids, _, h => by simpa using h
  | i :: is, kids, hn, h => by
    have h1 := h.step (.spawn _ _ _ i is rfl)
    have h2 := spawnAll fr v is _ (List.nodup_cons.1 hn).2 h1
    have : (fun j => if j ∈ is then St.start (fr.body j) else setSlot kids i (.start (fr.body i)) j) =
        (fun j => if j ∈ i :: is then .start (fr.body j) else kids j) := by
      funext j
      by_cases hj : j = i
      · subst hj; simp [setSlot_self]
      · by_cases hm : j ∈ is <;> simp [hj, hm, setSlot_other]
    rw [this] at h2
    exact h2

theorem reaches_spawned (mask : Masker) (body : Fin 8 → Comp X) (sets k) : Reaches (.par mask body sets k)
    (.par ⟨mask, body, sets, k⟩ (fun i => if i ∈ mask.indices then .start (body i) else .idle)
      ⟨[], fun _ => .run, 0#16, fun _ => none, [], mask.indices.length, 0, none⟩) := by
  have h0 : Reaches (.par mask body sets k) _ := .step .start (.enter mask body sets k)
  exact spawnAll ⟨mask, body, sets, k⟩ ⟨mask.indices, fun _ => .run, 0#16, fun _ => none, [], mask.indices.length, 0, none⟩
    mask.indices _ (nodup_indices mask) h0

/-- A goroutine that fails at once makes the caller return while another one has not begun. -/
theorem early_return {mask : Masker} {body : Fin 8 → Comp X} {sets k} {i j : Fin 8} {q r : X × Bool × Int} (hi : i ∈ mask.indices)
    (hj : j ∈ mask.indices) (hij : j ≠ i) (hb : body i = .seq (.ok q)) (hq : q.2.1 = false) (hs : sets i = false)
    (hk : ∀ pm sl ms, k pm sl false ms = .ok r) :
    ∃ s, Reaches (.par mask body sets k) s ∧ s.result = some r ∧ s.unrun ∧ ¬ s.finished := by
  have h1 := reaches_spawned mask body sets k
  have e : (fun i => if i ∈ mask.indices then St.start (body i) else .idle) i = .start (.seq (.ok q)) := by simp [hi, hb]
  have h2 := h1.step (.kid _ _ _ i (.done q) (by have := Step.seqOk (X := X) q; rw [← e] at this; exact this))
  have hr : St.result (setSlot (fun i => if i ∈ mask.indices then St.start (body i) else .idle) i (.done q) i) = some q := by
    rw [setSlot_self]; rfl
  have h3 := h2.step (.computed _ _ _ i q rfl hr)
  have h4 := h3.step (.store _ _ _ i q (by simp [setSlot_self, hs]) hr)
  have h5 := h4.step (.send _ _ _ i q (by simp [setSlot_self]) hr (by simp))
  have hl : mask.indices.length = (mask.indices.length - 1) + 1 := by
    have := List.length_pos_of_mem hi; omega
  have h6 := h5.step (.fail _ _ _ q.2.2 [] (mask.indices.length - 1) r rfl rfl hl (by simp [← hq]) (hk _ _ _))
  have hu : setSlot (fun i => if i ∈ mask.indices then St.start (body i) else .idle) i (.done q) j = .start (body j) := by
    rw [setSlot_other _ _ hij, if_pos hj]
  refine ⟨_, h6, rfl, ⟨j, by rw [hu]; trivial⟩, fun hf => ?_⟩
  have := (hf.2.2 j).2
  rw [hu] at this
  exact this

/-- Two goroutines that both put their bit into the mask. -/
theorem mask_race {mask : Masker} {body : Fin 8 → Comp X} {sets k} {i j : Fin 8} {q q' : X × Bool × Int} (hi : i ∈ mask.indices)
    (hj : j ∈ mask.indices) (hij : j ≠ i) (hb : body i = .seq (.ok q)) (hb' : body j = .seq (.ok q')) (hs : sets i = true)
    (hs' : sets j = true) : ∃ s, Reaches (.par mask body sets k) s ∧ s.races := by
  have h1 := reaches_spawned mask body sets k
  have e : (fun i => if i ∈ mask.indices then St.start (body i) else .idle) i = .start (.seq (.ok q)) := by simp [hi, hb]
  have h2 := h1.step (.kid _ _ _ i (.done q) (by have := Step.seqOk (X := X) q; rw [← e] at this; exact this))
  have e' : setSlot (fun i => if i ∈ mask.indices then St.start (body i) else .idle) i (.done q) j = .start (.seq (.ok q')) := by
    rw [setSlot_other _ _ hij]; simp [hj, hb']
  have h3 := h2.step (.kid _ _ _ j (.done q') (by rw [e']; exact .seqOk q'))
  have h4 := h3.step (.computed _ _ _ i q rfl (by rw [setSlot_other _ _ (Ne.symm hij), setSlot_self]; rfl))
  have h5 := h4.step (.computed _ _ _ j q' (by simp [setSlot_other _ _ hij]) (by rw [setSlot_self]; rfl))
  have h6 := h5.step (.readMask _ _ _ i (by simp [setSlot_other _ _ (Ne.symm hij), hs]))
  have h7 := h6.step (.readMask _ _ _ j (by simp [setSlot_other _ _ hij, hs']))
  refine ⟨_, h7, .inl ⟨i, j, .mask, true, Ne.symm hij, ?_, ?_⟩⟩
  · simp only [setSlot_other _ _ (Ne.symm hij), setSlot_self]; rfl
  · simp only [setSlot_self]; rfl

variable [LawfulGoKey T]

theorem Tree.Valid.branch_root {t : Tree T} (h : t.Valid) (hc : 3 ≤ t.count) : ∃ m k, t.root = .branch m k ∧ WF 0 (.branch m k) := by
  have hw := h.wf
  have hl := h.count
  rcases hr : t.root with _ | a | ⟨a, b⟩ | l | ⟨m, k⟩
  · rw [hr] at hl; simp [elems] at hl; omega
  · rw [hr] at hl; simp [elems] at hl; omega
  · rw [hr] at hl; simp [elems] at hl; omega
  · rw [hr] at hw
    have := hw.1
    simp [maxTreeDepth] at this
  · exact ⟨m, k, rfl, hr ▸ hw⟩

theorem chunk_zero (a : T) : (chunk a 0).val = (hash0 a >>> 61).toNat := by
  unfold chunk Hasher.idx newHasher hash0
  simp [hashBits, fanoutBits]

/-- A slot of the root is taken if the set has an element whose hash begins with its number. -/
theorem slot_iff {s : FSet T} (h : s.Valid) {m : Masker} {k : Fin 8 → Node T} (hr : s.tree.root = .branch m k) (i : Fin 8) :
    (k i).isNil = false ↔ ∃ a, s.has a = .ok true ∧ hash0 a >>> 61 = BitVec.ofNat 64 i := by
  have hw : WF 0 (.branch m k) := hr ▸ h.wf
  have hc : ∀ a : T, hash0 a >>> 61 = BitVec.ofNat 64 i ↔ chunk a 0 = i := by
    intro a
    rw [Fin.ext_iff, chunk_zero, ← BitVec.toNat_inj, BitVec.toNat_ofNat, Nat.mod_eq_of_lt (by omega)]
  simp only [hc, FSet.has_spec h, Except.ok.injEq, Tree.look, look, hr, List.find?_isSome]
  constructor
  · intro hn
    have := len_pos (hw.1.2.2.1 i) hn
    obtain ⟨e, he⟩ := List.exists_mem_of_length_pos this
    refine ⟨e, ⟨e, ?_, eq_refl e⟩, hw.1.2.2.2 i e he⟩
    simp only [elems, List.mem_flatMap]
    exact ⟨i, by simp, he⟩
  · rintro ⟨a, ⟨e, he, hea⟩, rfl⟩
    simp only [elems, List.mem_flatMap] at he
    obtain ⟨j, _, hj⟩ := he
    have : j = chunk a 0 := by rw [← hw.1.2.2.2 j e hj]; exact chunk_congr hea 0
    subst this
    cases hk : k (chunk a 0) <;> first | rfl | (rw [hk] at hj; simp [elems] at hj)

theorem combineC_races {g : Int} (hg : 1 ≤ g) {args : CombineArgs T} {s t : FSet T} (hs : s.Valid) (ht : t.Valid) (h3 : 3 ≤ s.count)
    (h3' : 3 ≤ t.count) {h h' : BitVec 64} (hh : h ≠ h') (ha : s.Alone t h) (ha' : s.Alone t h') :
    ¬ (s.tree.combineC g args t.tree).RaceFree := by
  obtain ⟨m, k, hr, hw⟩ := hs.branch_root h3
  obtain ⟨m2, k2, hr2, hw2⟩ := ht.branch_root h3'
  have key : ∀ h, s.Alone t h → ∃ i : Fin 8, BitVec.ofNat 64 i = h ∧ i ∈ (m ||| m2).indices ∧
      (∃ q, (if (k i).isNil then .seq (.ok (k2 i, true, 0)) else if (k2 i).isNil then .seq (.ok (k i, true, 0))
            else Frozen.combineC g (k i) args (k2 i) (0 + 1)) = .seq (.ok q)) ∧ ((k i).isNil || (k2 i).isNil) = true := by
    intro h ha
    have hsm : ∃ a : T, hash0 a >>> 61 = h := by rcases ha with ⟨⟨a, _, h⟩, _⟩ | ⟨⟨a, _, h⟩, _⟩ <;> exact ⟨a, h⟩
    obtain ⟨a, hsm⟩ := hsm
    have hi : BitVec.ofNat 64 (chunk a 0).val = h := by rw [chunk_zero, hsm]; simp
    refine ⟨chunk a 0, hi, ?_⟩
    have hm := getLsbD_maskOf k (chunk a 0)
    have hm2 := getLsbD_maskOf k2 (chunk a 0)
    rw [← hw.1.2.1] at hm
    rw [← hw2.1.2.1] at hm2
    rw [mem_indices, BitVec.getLsbD_or, hm, hm2]
    rcases ha with ⟨h1, h2⟩ | ⟨h1, h2⟩
    · rw [← hi] at h1 h2
      have e1 := (slot_iff hs hr _).2 h1
      have e2 : (k2 (chunk a 0)).isNil = true := by
        have := mt (slot_iff ht hr2 _).1 h2; simpa using this
      simp [e1, e2]
    · rw [← hi] at h1 h2
      have e1 := (slot_iff ht hr2 _).2 h1
      have e2 : (k (chunk a 0)).isNil = true := by
        have := mt (slot_iff hs hr _).1 h2; simpa using this
      simp [e1, e2]
  obtain ⟨i, i1, i2, ⟨q, i3⟩, i4⟩ := key h ha
  obtain ⟨j, j1, j2, ⟨q', j3⟩, j4⟩ := key h' ha'
  have hij : j ≠ i := by rintro rfl; exact hh (i1.symm.trans j1)
  intro hf
  simp only [Tree.combineC, hr, hr2, Node.isNil, Bool.false_eq_true, if_false] at hf
  unfold Frozen.combineC at hf
  have hg' : ((0 : Nat) : Int) < g := by omega
  simp only [if_pos hg'] at hf
  obtain ⟨st, h1, h2⟩ := mask_race (body := fun i => if (k i).isNil then .seq (.ok (k2 i, true, 0)) else if (k2 i).isNil then .seq (.ok (k i, true, 0))
            else Frozen.combineC g (k i) args (k2 i) (0 + 1)) (sets := fun i => (k i).isNil || (k2 i).isNil)
    (k := fun mask slots _ ms => .ok ((packed mask slots).updateMask.toNode, true, ms)) i2 j2 hij i3 j3 i4 j4
  exact hf st h1 h2

end Frozen
