import Verif.Spec.Races
import Verif.Proof.Goroutines
import Verif.Proof.Clash

/-! When merging contains a data race on a mask. -/

set_option linter.unusedSectionVars false

namespace Frozen

variable {X : Type}

/-! ### Computations -/

/-- Two goroutines of one `Parallel` put their bit into the mask. -/
def Doubles : Comp X → Prop
  | .seq _ => False
  | .par mask body sets _ => (∃ i ∈ mask.indices, ∃ j ∈ mask.indices, j ≠ i ∧ sets i = true ∧ sets j = true) ∨
      ∃ i ∈ mask.indices, Doubles (body i)

/-- Goroutines that put their bit into the mask have nothing else to do. -/
def AtOnce : Comp X → Prop
  | .seq _ => True
  | .par _ body sets _ => (∀ i, sets i = true → ∃ q, body i = .seq (.ok q)) ∧ ∀ i, AtOnce (body i)

theorem Reaches.lift {c : Comp X} {fr : Frame X} {kids : Fin 8 → St X} {v : Vars X} {i : Fin 8} (h : Reaches c (.par fr kids v))
    (hi : kids i = .start (fr.body i)) {s : St X} (hs : Reaches (fr.body i) s) : Reaches c (.par fr (setSlot kids i s) v) := by
  induction hs with
  | start =>
    have : setSlot kids i (.start (fr.body i)) = kids := by
      funext j
      by_cases hj : j = i
      · subst hj; rw [setSlot_self, hi]
      · rw [setSlot_other _ _ hj]
    rw [this]; exact h
  | step _ hst ih =>
    rename_i s s' hr
    have h1 := ih.step (.kid fr (setSlot kids i s) v i s' (by rw [setSlot_self]; exact hst))
    have : setSlot (setSlot kids i s) i s' = setSlot kids i s' := by
      funext j
      by_cases hj : j = i
      · subst hj; rw [setSlot_self, setSlot_self]
      · rw [setSlot_other _ _ hj, setSlot_other _ _ hj, setSlot_other _ _ hj]
    rw [this] at h1; exact h1

theorem races_of_doubles : ∀ {c : Comp X}, Doubles c → AtOnce c → ∃ s, Reaches c s ∧ s.races
  | .seq _, h, _ => h.elim
  | .par mask body sets k, h, ha => by
    rcases h with ⟨i, hi, j, hj, hij, h1, h2⟩ | ⟨i, hi, h⟩
    · obtain ⟨q, hq⟩ := ha.1 i h1
      obtain ⟨q', hq'⟩ := ha.1 j h2
      exact mask_race hi hj hij hq hq' h1 h2
    · obtain ⟨s, hs, hr⟩ := races_of_doubles h (ha.2 i)
      have h1 := (reaches_spawned mask body sets k).lift (i := i) (by simp [hi]) hs
      exact ⟨_, h1, .inr (.inr ⟨i, by rw [setSlot_self]; exact hr⟩)⟩

/-- Only goroutines that put their bit into the mask touch it. -/
def MaskBy : St X → Prop
  | .par fr kids v => (∀ i, MaskBy (kids i)) ∧ ∀ i x w, (v.phase i).access i = some (x, w) → x = .slot i ∨ fr.sets i = true
  | _ => True

theorem maskBy_phase {fr : Frame X} {kids : Fin 8 → St X} {v v' : Vars X} {i : Fin 8} {p : Phase} (h : MaskBy (.par fr kids v))
    (hp : ∀ x w, p.access i = some (x, w) → x = .slot i ∨ fr.sets i = true) (hv : v'.phase = setSlot v.phase i p) :
    MaskBy (.par fr kids v') := by
  refine ⟨h.1, fun j x w hj => ?_⟩
  rw [hv] at hj
  by_cases hji : j = i
  · subst hji; rw [setSlot_self] at hj; exact hp x w hj
  · rw [setSlot_other _ _ hji] at hj; exact h.2 j x w hj

theorem MaskBy.step {s s' : St X} (hst : Step s (some s')) (h : MaskBy s) : MaskBy s' := by
  generalize ho : some s' = o at hst
  induction hst generalizing s' with
  | seqOk r => cases ho; trivial
  | seqPanic e => cases ho
  | enter mask body sets k => cases ho; exact ⟨fun _ => trivial, fun i x w he => by cases he⟩
  | spawn fr kids v i is ht =>
    cases ho
    refine ⟨fun j => ?_, h.2⟩
    by_cases hj : j = i
    · subst hj; rw [setSlot_self]; trivial
    · rw [setSlot_other _ _ hj]; exact h.1 j
  | kid fr kids v i s hk ih =>
    cases ho
    refine ⟨fun j => ?_, h.2⟩
    by_cases hj : j = i
    · subst hj; rw [setSlot_self]; exact ih (h.1 j) rfl
    · rw [setSlot_other _ _ hj]; exact h.1 j
  | kidPanic => cases ho
  | computed fr kids v i r hp hr =>
    cases ho
    refine maskBy_phase h ?_ rfl
    cases hs : fr.sets i
    · intro x w he; cases he; exact .inl rfl
    · intro _ _ _; exact .inr rfl
  | readMask fr kids v i hp =>
    cases ho
    rcases h.2 i .mask false (by rw [hp]; rfl) with h' | h'
    · cases h'
    · exact maskBy_phase h (fun _ _ _ => .inr h') rfl
  | writeMask fr kids v i m0 hp => cases ho; exact maskBy_phase h (fun x w he => by cases he; exact .inl rfl) rfl
  | store fr kids v i r hp hr => cases ho; exact maskBy_phase h (fun x w he => by cases he) rfl
  | send fr kids v i r hp hr hc => cases ho; exact maskBy_phase h (fun x w he => by cases he) rfl
  | recv fr kids v m rest n ht hr hw hc => cases ho; exact h
  | fail fr kids v m rest n r ht hr hw hc hk => cases ho; exact h
  | failPanic => cases ho
  | finish fr kids v r ht hr hw hk => cases ho; exact h
  | finishPanic => cases ho

theorem Reaches.maskBy {c : Comp X} {s : St X} (h : Reaches c s) : MaskBy s := by
  induction h with
  | start => trivial
  | step h hs ih => exact ih.step hs

theorem access_slot {i j : Fin 8} {w : Bool} (p : Phase) (h : p.access j = some (.slot i, w)) : i = j := by
  have h' : (match p.access j with | some (.slot k, _) => k | _ => i) = i := by rw [h]
  match p with
  | .store => exact h'.symm
  | .run => exact absurd h (by intro h; exact nomatch h)
  | .readMask => exact absurd h (by intro h; exact nomatch h)
  | .writeMask _ => exact absurd h (by intro h; exact nomatch h)
  | .send => exact absurd h (by intro h; exact nomatch h)
  | .sent => exact absurd h (by intro h; exact nomatch h)

/-- Two goroutines that are about to access the same variable, access the mask. -/
theorem both_sets {fr : Frame X} {v : Vars X} (ha : ∀ i x w, (v.phase i).access i = some (x, w) → x = .slot i ∨ fr.sets i = true)
    {i j : Fin 8} (hij : i ≠ j) {x : Shared} {w w' : Bool} (h1 : (v.phase i).access i = some (x, w))
    (h2 : (v.phase j).access j = some (x, w')) : fr.sets i = true := by
  rcases ha i x w h1 with e1 | e1
  · exact absurd (access_slot _ (e1 ▸ h2)) hij
  · exact e1

theorem doubles_here {fr : Frame X} {kids : Fin 8 → St X} {v : Vars X} {c : Comp X} (hi : Inv (.par fr kids v) c)
    (ha : MaskBy (.par fr kids v)) (hk : ∀ i, i ∈ fr.mask.indices ∧ i ∉ v.todo → (kids i).races → Doubles (fr.body i))
    (h : (St.par fr kids v).races) : Doubles c := by
  obtain ⟨h1, h2, h3, h4, h5⟩ := hi
  rw [h1]
  have hin : ∀ i, ((v.phase i).access i).isSome → i ∈ fr.mask.indices := by
    intro i h6
    by_contra hm
    rw [h4.unspawned i (fun h => hm h.1)] at h6; cases h6
  rcases h with ⟨i, j, x, w, hij, g1, g2⟩ | ⟨g1, g2, g3, i, g4⟩ | ⟨i, h⟩
  · exact .inl ⟨i, hin i (by rw [g1]; rfl), j, hin j (by rw [g2]; rfl), Ne.symm hij, both_sets ha.2 hij g1 g2,
      both_sets ha.2 (Ne.symm hij) g2 g1⟩
  · exfalso
    have hm := hin i g4
    rw [((h4.all g2 g3).1 i hm).1] at g4; cases g4
  · by_cases hm : i ∈ fr.mask.indices ∧ i ∉ v.todo
    · exact .inr ⟨i, hm.1, hk i hm h⟩
    · rw [h3 i hm] at h; exact h.elim

theorem doubles_of_races (s : St X) : ∀ c : Comp X, Inv s c → MaskBy s → s.races → Doubles c := by
  induction s with
  | idle => intro c _ _ h; exact h.elim
  | start _ => intro c _ _ h; exact h.elim
  | done _ => intro c _ _ h; exact h.elim
  | par fr kids v ih =>
    intro c hi ha h
    exact doubles_here hi ha (fun i hm hr => ih i _ (hi.2.1 i hm) (ha.1 i) hr) h

theorem raceFree_iff {α : Type} {c : Comp X} (hc : AtOnce c) (k : X × Bool × Int → Go α) : (Call.run c k).RaceFree ↔ ¬ Doubles c := by
  constructor
  · intro h hd
    obtain ⟨s, h1, h2⟩ := races_of_doubles hd hc
    exact h s h1 h2
  · intro h s hs hr
    exact h (doubles_of_races _ _ hs.inv hs.maskBy hr)

/-! ### Merging -/

variable {T : Type} [GoKey T]

theorem atOnce_combineC (g : Int) : ∀ (n1 : Node T) (args : CombineArgs T) (n2 : Node T) (d : Nat), AtOnce (combineC g n1 args n2 d)
  | .nil, args, n2, d => trivial
  | .leaf1 _, args, n2, d => trivial
  | .leaf2 _ _, args, n2, d => trivial
  | .twig _, args, n2, d => trivial
  | .branch m k, args, .nil, d => trivial
  | .branch m k, args, .leaf1 _, d => trivial
  | .branch m k, args, .leaf2 _ _, d => trivial
  | .branch m k, args, .twig _, d => trivial
  | .branch m k, args, .branch m2 k2, d => by
    unfold combineC
    by_cases hg : (d : Int) < g
    · simp only [if_pos hg]
      refine ⟨fun i h => ?_, fun i => ?_⟩
      · dsimp only at h ⊢
        by_cases c1 : (k i).isNil = true
        · rw [if_pos c1]; exact ⟨_, rfl⟩
        · rw [if_neg c1]
          by_cases c2 : (k2 i).isNil = true
          · rw [if_pos c2]; exact ⟨_, rfl⟩
          · simp [c1, c2] at h
      · dsimp only
        by_cases c1 : (k i).isNil = true
        · rw [if_pos c1]; trivial
        · rw [if_neg c1]
          by_cases c2 : (k2 i).isNil = true
          · rw [if_pos c2]; trivial
          · rw [if_neg c2]; exact atOnce_combineC g (k i) args (k2 i) (d + 1)
    · simp only [if_neg hg]; trivial

variable [LawfulGoKey T]

/-- One of the lists has `x`, and the other one nothing that agrees with it in the digits from `d` up to `e`. -/
def LoneL (d e : Nat) (a b : List T) (x : T) : Prop :=
  (x ∈ a ∧ ∀ y ∈ b, agree d e x y = false) ∨ (x ∈ b ∧ ∀ y ∈ a, agree d e x y = false)

/-- `MaskClash` below a node, on lists of elements. -/
def MaskClashL (g : Int) (d : Nat) (a b : List T) : Prop :=
  ∃ (e : Nat) (x y : T), d ≤ e ∧ (e : Int) < g ∧ agree d e x y = true ∧ chunk x e ≠ chunk y e ∧
    LoneL d (e + 1) a b x ∧ LoneL d (e + 1) a b y ∧ 3 ≤ (a.filter (agree d e x)).length ∧ 3 ≤ (b.filter (agree d e x)).length

theorem chunk_deep {d : Nat} (h : 22 ≤ d) (x y : T) : chunk x d = chunk y d := by
  rw [chunk_eq_iff]
  intro j hj i hi
  omega

/-- Both lists must be long for a clash, and the depth below the last one. -/
theorem MaskClashL.long {g : Int} {d : Nat} {a b : List T} (h : MaskClashL g d a b) :
    3 ≤ a.length ∧ 3 ≤ b.length ∧ d < 22 ∧ (d : Int) < g := by
  obtain ⟨e, x, y, h1, h2, _, h4, _, _, h7, h8⟩ := h
  have := List.length_filter_le (agree d e x) a
  have := List.length_filter_le (agree d e x) b
  have : e < 22 := by
    by_contra hc
    exact h4 (chunk_deep (by omega) x y)
  omega

theorem mem_slot {d : Nat} {m : Masker} {k : Fin 8 → Node T} (hs : WFSlots WF d m k) {x : T} :
    x ∈ elems (.branch m k) ↔ x ∈ elems (k (chunk x d)) := by
  simp only [elems, List.mem_flatMap]
  constructor
  · rintro ⟨i, _, hx⟩; rw [hs.2.2.2 i x hx]; exact hx
  · intro h; exact ⟨_, List.mem_finRange _, h⟩

theorem filter_slot {d n : Nat} {m : Masker} {k : Fin 8 → Node T} (hs : WFSlots WF d m k) (hn : d < n) (x : T) :
    (elems (.branch m k)).filter (agree d n x) = (elems (k (chunk x d))).filter (agree (d + 1) n x) := by
  rw [← filter_branch hs x]
  apply List.filter_congr; intro e _; rw [agree_step hn]

theorem none_slot {d n : Nat} {m : Masker} {k : Fin 8 → Node T} (hs : WFSlots WF d m k) (hn : d < n) (x : T) :
    (∀ y ∈ elems (.branch m k), agree d n x y = false) ↔ ∀ y ∈ elems (k (chunk x d)), agree (d + 1) n x y = false := by
  have := filter_slot hs hn x
  have h1 : ∀ (l : List T) (q : T → Bool), (∀ y ∈ l, q y = false) ↔ l.filter q = [] := by
    intro l q; rw [List.filter_eq_nil_iff]; simp
  rw [h1, h1, this]

theorem loneL_slot {d n : Nat} {m m2 : Masker} {k k2 : Fin 8 → Node T} (hs : WFSlots WF d m k) (hs2 : WFSlots WF d m2 k2) (hn : d < n)
    (x : T) : LoneL d n (elems (.branch m k)) (elems (.branch m2 k2)) x ↔
      LoneL (d + 1) n (elems (k (chunk x d))) (elems (k2 (chunk x d))) x := by
  unfold LoneL
  rw [mem_slot hs, mem_slot hs2, none_slot hs hn, none_slot hs2 hn]

theorem nil_elems {d : Nat} {n : Node T} (h : WF d n) : n.isNil = true ↔ elems n = [] := by
  constructor
  · intro hn; rw [isNil_iff.1 hn]; rfl
  · intro he
    by_contra hc
    have := len_pos h (by simpa using hc)
    rw [he] at this; simp at this

theorem doubles_combineC (g : Int) (args : CombineArgs T) : ∀ (n1 n2 : Node T) (d : Nat), WF d n1 → WF d n2 →
    (Doubles (combineC g n1 args n2 d) ↔ MaskClashL g d (elems n1) (elems n2))
  | .nil, n2, d, _, _ => iff_of_false id (fun h => by have := h.long; simp [elems] at this)
  | .leaf1 _, n2, d, _, _ => iff_of_false id (fun h => by have := h.long; simp [elems] at this)
  | .leaf2 _ _, n2, d, _, _ => iff_of_false id (fun h => by have := h.long; simp [elems] at this)
  | .twig _, n2, d, h, _ => iff_of_false id (fun hc => by have := hc.long; have h1 : 22 ≤ d := h.1; omega)
  | .branch m k, .nil, d, _, _ => iff_of_false id (fun h => by have := h.long; simp [elems] at this)
  | .branch m k, .leaf1 _, d, _, _ => iff_of_false id (fun h => by have := h.long; simp [elems] at this)
  | .branch m k, .leaf2 _ _, d, _, _ => iff_of_false id (fun h => by have := h.long; simp [elems] at this)
  | .branch m k, .twig _, d, _, h => iff_of_false id (fun hc => by have := hc.long; have h1 : 22 ≤ d := h.1; omega)
  | .branch m k, .branch m2 k2, d, hw, hw2 => by
    obtain ⟨hs, h3⟩ := WF_branch.1 hw
    obtain ⟨hs2, h32⟩ := WF_branch.1 hw2
    by_cases hg : (d : Int) < g
    · have ih := fun i => doubles_combineC g args (k i) (k2 i) (d + 1) (hs.2.2.1 i) (hs2.2.2.1 i)
      unfold combineC
      simp only [if_pos hg]
      have hin : ∀ i : Fin 8, i ∈ (m ||| m2).indices ↔ ((k i).isNil = false ∨ (k2 i).isNil = false) := by
        intro i
        have hm := getLsbD_maskOf k i
        have hm2 := getLsbD_maskOf k2 i
        rw [← hs.2.1] at hm
        rw [← hs2.2.1] at hm2
        rw [mem_indices, BitVec.getLsbD_or, hm, hm2]
        simp
      have lone : ∀ i, i ∈ (m ||| m2).indices → ((k i).isNil || (k2 i).isNil) = true →
          ∃ x, chunk x d = i ∧ LoneL d (d + 1) (elems (.branch m k)) (elems (.branch m2 k2)) x := by
        intro i hi hn
        have aux : ∀ {m m2 : Masker} {k k2 : Fin 8 → Node T}, WFSlots WF d m k → WFSlots WF d m2 k2 → (k i).isNil = false → (k2 i).isNil = true →
            ∃ x, chunk x d = i ∧ x ∈ elems (.branch m k) ∧ ∀ y ∈ elems (.branch m2 k2), agree d (d + 1) x y = false := by
          intro m m2 k k2 hs hs2 e1 e2
          obtain ⟨x, hx⟩ := List.exists_mem_of_length_pos (len_pos (hs.2.2.1 i) e1)
          have hc := hs.2.2.2 i x hx
          refine ⟨x, hc, (mem_slot hs).2 (by rw [hc]; exact hx), (none_slot hs2 (by omega) x).2 ?_⟩
          rw [hc, (nil_elems (hs2.2.2.1 i)).1 e2]; simp
        rcases (hin i).1 hi with h | h
        · have e2 : (k2 i).isNil = true := by rw [h] at hn; simpa using hn
          obtain ⟨x, h1, h2⟩ := aux hs hs2 h e2
          exact ⟨x, h1, .inl h2⟩
        · have e2 : (k i).isNil = true := by rw [h] at hn; simpa using hn
          obtain ⟨x, h1, h2⟩ := aux hs2 hs h e2
          exact ⟨x, h1, .inr h2⟩
      have alone : ∀ x, LoneL d (d + 1) (elems (.branch m k)) (elems (.branch m2 k2)) x → chunk x d ∈ (m ||| m2).indices ∧
          ((k (chunk x d)).isNil || (k2 (chunk x d)).isNil) = true := by
        intro x hx
        rw [loneL_slot hs hs2 (by omega)] at hx
        have aux : ∀ {a b : Node T}, WF (d + 1) a → WF (d + 1) b → x ∈ elems a → (∀ y ∈ elems b, agree (d + 1) (d + 1) x y = false) →
            a.isNil = false ∧ b.isNil = true := by
          intro a b wa wb h1 h2
          constructor
          · cases hn : a.isNil with
            | false => rfl
            | true => rw [(nil_elems wa).1 hn] at h1; simp at h1
          · rw [nil_elems wb]
            apply List.eq_nil_iff_forall_not_mem.2
            intro y hy
            have := h2 y hy
            rw [agree_ge (Nat.le_refl _)] at this; cases this
        rw [hin]
        rcases hx with ⟨h1, h2⟩ | ⟨h1, h2⟩
        · obtain ⟨e1, e2⟩ := aux (hs.2.2.1 _) (hs2.2.2.1 _) h1 h2
          exact ⟨.inl e1, by rw [e2]; simp⟩
        · obtain ⟨e1, e2⟩ := aux (hs2.2.2.1 _) (hs.2.2.1 _) h1 h2
          exact ⟨.inr e1, by rw [e2]; simp⟩
      constructor
      · rintro (⟨i, hi, j, hj, hij, h1, h2⟩ | ⟨i, hi, h⟩)
        · obtain ⟨x, x1, x2⟩ := lone i hi h1
          obtain ⟨y, y1, y2⟩ := lone j hj h2
          have hall : ∀ (l : List T), l.filter (agree d d x) = l := by
            intro l; apply List.filter_eq_self.2; intro e _; exact agree_ge (Nat.le_refl _) x e
          refine ⟨d, x, y, Nat.le_refl _, hg, agree_ge (Nat.le_refl _) x y, by rw [x1, y1]; exact Ne.symm hij, x2, y2, ?_, ?_⟩
          · rw [hall]; exact h3
          · rw [hall]; exact h32
        · dsimp only at h
          by_cases c1 : (k i).isNil = true
          · rw [if_pos c1] at h; exact h.elim
          · rw [if_neg c1] at h
            by_cases c2 : (k2 i).isNil = true
            · rw [if_pos c2] at h; exact h.elim
            · rw [if_neg c2] at h
              obtain ⟨e, x, y, g1, g2, g3, g4, g5, g6, g7, g8⟩ := (ih i).1 h
              have ci : ∀ {x}, LoneL (d + 1) (e + 1) (elems (k i)) (elems (k2 i)) x → chunk x d = i := by
                rintro x (h | h)
                · exact hs.2.2.2 i x h.1
                · exact hs2.2.2.2 i x h.1
              have cx := ci g5
              have cy := ci g6
              refine ⟨e, x, y, by omega, g2, ?_, g4, ?_, ?_, ?_, ?_⟩
              · rw [agree_step (by omega), g3, cx, cy]; simp
              · rw [loneL_slot hs hs2 (by omega), cx]; exact g5
              · rw [loneL_slot hs hs2 (by omega), cy]; exact g6
              · rw [filter_slot hs (by omega), cx]; exact g7
              · rw [filter_slot hs2 (by omega), cx]; exact g8
      · rintro ⟨e, x, y, g1, g2, g3, g4, g5, g6, g7, g8⟩
        rcases Nat.eq_or_lt_of_le g1 with rfl | hlt
        · obtain ⟨x1, x2⟩ := alone x g5
          obtain ⟨y1, y2⟩ := alone y g6
          exact .inl ⟨_, x1, _, y1, Ne.symm g4, x2, y2⟩
        · rw [filter_slot hs hlt] at g7
          rw [filter_slot hs2 hlt] at g8
          rw [agree_step hlt, Bool.and_eq_true, decide_eq_true_eq] at g3
          rw [loneL_slot hs hs2 (by omega)] at g5 g6
          have nn : ∀ {a : Node T}, 3 ≤ ((elems a).filter (agree (d + 1) e x)).length → a.isNil = false := by
            intro a h
            cases hn : a.isNil with
            | false => rfl
            | true => rw [isNil_iff.1 hn] at h; simp [elems] at h
          refine .inr ⟨chunk x d, (hin _).2 (.inl (nn g7)), ?_⟩
          dsimp only
          rw [if_neg (by rw [nn g7]; simp), if_neg (by rw [nn g8]; simp)]
          exact (ih _).2 ⟨e, x, y, hlt, g2, g3.2, g4, g5, by rw [g3.1]; exact g6, g7, g8⟩
    · refine iff_of_false ?_ (fun h => hg h.long.2.2.2)
      unfold combineC
      simp only [if_neg hg]
      exact id

/-! ### In terms of hashes -/

theorem agree_start (d : Nat) (x y : T) : agree 0 d x y = true ↔ SameStart d x y := by
  rw [agree_iff]
  unfold SameStart
  constructor
  · intro h
    apply BitVec.eq_of_getLsbD_eq
    intro i hi
    simp only [BitVec.getLsbD_ushiftRight]
    by_cases hc : 64 - 3 * d + i < 64
    · exact (chunk_eq_iff x y ((63 - (64 - 3 * d + i)) / 3)).1 (h _ (by omega) (by omega)) (2 - (63 - (64 - 3 * d + i)) % 3) (by omega) _
        (by omega)
    · rw [BitVec.getLsbD_of_ge _ _ (by omega), BitVec.getLsbD_of_ge _ _ (by omega)]
  · intro h j _ hj
    rw [chunk_eq_iff]
    intro t ht i hi
    have := congrArg (fun b => b.getLsbD (i - (64 - 3 * d))) h
    simp only [BitVec.getLsbD_ushiftRight] at this
    rwa [show 64 - 3 * d + (i - (64 - 3 * d)) = i by omega] at this

theorem SameStart.congr {d : Nat} {x x' y y' : T} (hx : GoKey.eq x x' = true) (hy : GoKey.eq y y' = true) :
    SameStart d x y ↔ SameStart d x' y' := by
  unfold SameStart; rw [hash0_congr hx, hash0_congr hy]

theorem SameStart.symm {d : Nat} {x y : T} (h : SameStart d x y) : SameStart d y x := Eq.symm h

instance (d : Nat) (x y : T) : Decidable (SameStart d x y) := inferInstanceAs (Decidable (_ = _))

theorem maskClash_iff {g : Int} {a b : Node T} (ha : WF 0 a) (hb : WF 0 b) :
    MaskClashL g 0 (elems a) (elems b) ↔ MaskClash g (memL (elems a)) (memL (elems b)) := by
  have hf : ∀ (d : Nat) (x : T) (l : List T), l.filter (agree 0 d x) = l.filter (fun e => decide (SameStart d e x)) := by
    intro d x l; apply List.filter_congr; intro e _
    rw [Bool.eq_iff_iff, agree_start, decide_eq_true_eq]
    exact ⟨SameStart.symm, SameStart.symm⟩
  have hc : ∀ (d : Nat) (x : T) {u v : T}, GoKey.eq u v = true → (SameStart d u x ↔ SameStart d v x) :=
    fun d x u v h => SameStart.congr h (eq_refl x)
  have hn : ∀ (d : Nat) (x x' : T) (l : List T), GoKey.eq x x' = true → ((∀ y ∈ l, agree 0 d x y = false) ↔ ∀ a, memL l a → ¬ SameStart d a x') := by
    intro d x x' l hx
    constructor
    · rintro h a ⟨y, hy, hya⟩ hst
      have := h y hy
      rw [(agree_start d x y).2 (((SameStart.congr hya (eq_refl x')).2 hst |> (SameStart.congr (eq_refl y) hx).2).symm)] at this
      cases this
    · intro h y hy
      cases hag : agree 0 d x y with
      | false => rfl
      | true => exact absurd ((SameStart.congr (eq_refl y) hx).1 ((agree_start d x y).1 hag).symm) (h y ⟨y, hy, eq_refl y⟩)
  have l1 : ∀ (d : Nat) (x : T), LoneL 0 d (elems a) (elems b) x → Lone d (memL (elems a)) (memL (elems b)) x := by
    rintro d x (⟨h1, h2⟩ | ⟨h1, h2⟩)
    · exact .inl ⟨⟨x, h1, eq_refl x⟩, (hn d x x _ (eq_refl x)).1 h2⟩
    · exact .inr ⟨⟨x, h1, eq_refl x⟩, (hn d x x _ (eq_refl x)).1 h2⟩
  have l2 : ∀ (d : Nat) (x : T), Lone d (memL (elems a)) (memL (elems b)) x → ∃ x', GoKey.eq x' x = true ∧ LoneL 0 d (elems a) (elems b) x' := by
    rintro d x (⟨⟨x', h1, he⟩, h2⟩ | ⟨⟨x', h1, he⟩, h2⟩)
    · exact ⟨x', he, .inl ⟨h1, (hn d x' x _ he).2 h2⟩⟩
    · exact ⟨x', he, .inr ⟨h1, (hn d x' x _ he).2 h2⟩⟩
  have hcs : ∀ (d : Nat) (x y : T), agree 0 d x y = true → (chunk x d ≠ chunk y d ↔ ¬ SameStart (d + 1) x y) := by
    intro d x y h
    rw [← agree_start, not_iff_not, agree_iff]
    rw [agree_iff] at h
    constructor
    · intro he j h1 h2
      by_cases hj : j = d
      · rw [hj]; exact he
      · exact h j h1 (by omega)
    · intro he; exact he d (by omega) (by omega)
  constructor
  · rintro ⟨d, x, y, _, h2, h3, h4, h5, h6, h7, h8⟩
    refine ⟨d, x, y, h2, (agree_start d x y).1 h3, (hcs d x y h3).1 h4, l1 _ _ h5, l1 _ _ h6, ?_, ?_⟩
    · rw [atLeast_iff ha.distinct 3 _ (hc d x), ← hf]; exact h7
    · rw [atLeast_iff hb.distinct 3 _ (hc d x), ← hf]; exact h8
  · rintro ⟨d, x, y, h2, h3, h4, h5, h6, h7, h8⟩
    obtain ⟨x', ex, h5'⟩ := l2 _ _ h5
    obtain ⟨y', ey, h6'⟩ := l2 _ _ h6
    have hag := (agree_start d x' y').2 ((SameStart.congr ex ey).2 h3)
    have e2 : ∀ l : List T, l.filter (fun e => decide (SameStart d e x)) = l.filter (fun e => decide (SameStart d e x')) := by
      intro l; apply List.filter_congr; intro e _
      rw [Bool.eq_iff_iff, decide_eq_true_eq, decide_eq_true_eq]
      exact (SameStart.congr (eq_refl e) ex).symm
    refine ⟨d, x', y', by omega, h2, hag, (hcs d x' y' hag).2 (fun h => h4 ((SameStart.congr ex ey).1 h)), h5', h6', ?_, ?_⟩
    · rw [hf, ← e2]; exact (atLeast_iff ha.distinct 3 _ (hc d x)).1 h7
    · rw [hf, ← e2]; exact (atLeast_iff hb.distinct 3 _ (hc d x)).1 h8

end Frozen
