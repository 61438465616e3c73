import Verif.Proof.LazyConcNext

/-! Lazy sets used by several goroutines: the fast observers and the constructors. -/

set_option linter.unusedSectionVars false

namespace Frozen

variable {T : Type} [GoKey T] [LawfulGoKey T] {E : LEnv T} {L : Nat} {W : CellWorld T}

open CellWorld

theorem fastIsEmptyC_aux : ∀ (r : Nat) (s : LSet T) (W : CellWorld T), Fits E L W → s.rk ≤ r → s.rk ≤ L → s.IOk E →
    Safe (fun _ o => ∀ b, o = some b → (b = true ↔ ∀ w, ¬ s.den E w)) W (fun n => LSet.fastIsEmptyC n s) := by
  intro r
  induction r using Nat.strong_induction_on with
  | _ r ihr =>
  intro s
  induction s with
  | empty =>
    intro W _ _ _ _
    exact Safe.step (g := fun _ => .done (some true)) (fun n => by simp only [LSet.fastIsEmptyC]) (.pure fun _ _ b hb => by cases hb; simp [LSet.den])
  | frozen f =>
    intro W _ _ _ hf
    exact Safe.step (g := fun _ => .done (some f.isEmpty)) (fun n => by simp only [LSet.fastIsEmptyC]) (.pure fun _ _ b hb => by cases hb; exact FSet.isEmpty_iff_mem hf)
  | memo k =>
    intro W hF hr hl _
    have hk : k < L := hl
    have hr : k + 1 ≤ r := hr
    refine Safe.stepBind (p := fun _ => LSet.derefC (.memo k)) (q := fun c n => LSet.fastIsEmptyC n c) (fun n => by simp only [LSet.fastIsEmptyC]; rfl) (derefC_memo hF hk)
      fun W1 c hW1 hc => ?_
    have hc := (hc W1 (Le.refl _)).1
    refine (ihr k (by omega) c W1 (hF.mono hW1) hc.rk (by have := hc.rk; omega) hc.iok).imp fun W' o _ g2 b hb => ?_
    rw [g2 b hb]
    exact forall_congr' (fun w => not_congr (hc.den w))
  | «where» s p ih =>
    intro W hF hr hl h
    refine Safe.stepBind (q := fun o _ => match o with
      | some true => .done (some true)
      | _ => .done none) (fun n => by simp only [LSet.fastIsEmptyC]; rfl) (ih W hF hr hl h.1) fun W1 o hW1 ho => ?_
    have g2 := ho W1 (Le.refl _)
    rcases o with _ | (_ | _)
    · exact .pure fun _ _ b hb => by cases hb
    · exact .pure fun _ _ b hb => by cases hb
    · refine .pure fun _ _ b hb => ?_
      cases hb
      have := (g2 true rfl).1 rfl
      simp only [true_iff, LSet.den]
      exact fun w hw => this w hw.1
  | map s m =>
    intro W _ _ _ _
    exact Safe.step (g := fun _ => .done none) (fun n => by simp only [LSet.fastIsEmptyC]) (.pure fun _ _ b hb => by cases hb)
  | union s m =>
    intro W _ _ _ _
    exact Safe.step (g := fun _ => .done none) (fun n => by simp only [LSet.fastIsEmptyC]) (.pure fun _ _ b hb => by cases hb)
  | inter s m =>
    intro W _ _ _ _
    exact Safe.step (g := fun _ => .done none) (fun n => by simp only [LSet.fastIsEmptyC]) (.pure fun _ _ b hb => by cases hb)
  | diff s m =>
    intro W _ _ _ _
    exact Safe.step (g := fun _ => .done none) (fun n => by simp only [LSet.fastIsEmptyC]) (.pure fun _ _ b hb => by cases hb)

theorem fastIsEmptyC_spec (hF : Fits E L W) {s : LSet T} (hs : s.IOk E) (hl : s.rk ≤ L) :
    Safe (fun _ o => ∀ b, o = some b → (b = true ↔ ∀ w, ¬ s.den E w)) W (fun n => LSet.fastIsEmptyC n s) :=
  fastIsEmptyC_aux s.rk s W hF (Nat.le_refl _) hl hs

/-- Not the empty set by the look of it. -/
def CellWorld.Full (W : CellWorld T) : LSet T → Prop
  | .empty => False
  | .memo k => ∃ c, W.σ[k]? = some c ∧ c ≠ .empty
  | _ => True

theorem CellWorld.Full.mono {W W' : CellWorld T} (h : W.Le W') {s : LSet T} (hs : W.Full s) : W'.Full s := by
  cases s with
  | memo k =>
    obtain ⟨c, h1, h2⟩ := hs
    rcases h.cells k c h1 with h3 | ⟨f, h3⟩
    · exact ⟨c, h3, h2⟩
    · exact ⟨_, h3, by simp⟩
  | empty => exact hs
  | _ => trivial

theorem DerefOk.later {σ : LStore T} {E' : LEnv T} {σ' : LStore T} (h : Ext E σ E' σ') {s : LSet T} {sp : LSpec T} (hs : DerefOk E σ s sp) : DerefOk E' σ' s sp := by
  refine ⟨hs.notMemo, LSet.IOk_agree h.agree hs.rk ▸ hs.iok, Nat.le_trans hs.rk h.len, ?_, hs.eager, ?_, ?_, ?_⟩
  · rw [← LSet.den_agree h.agree hs.rk]; exact hs.den
  · rw [← LSet.HOk_agree h.agree hs.rk]; exact hs.safe
  · rw [← LSet.FOk_agree h.agree hs.rk]; exact hs.fast
  · rw [← LSet.Plain_agree h.agree hs.rk]; exact hs.plain

theorem derefC_spec {s : LSet T} {a : LSpec T} (hs : SetOk W.E W.σ s a) :
    Safe (fun W' c => DerefOk W'.E W'.σ c a ∧ (W.Full s → c ≠ .empty)) W (fun _ => LSet.derefC s) := by
  cases s with
  | memo k =>
    have hk : k < W.σ.length := hs.rk
    refine (derefC_memo (Fits.self W) hk).imp fun W' c hW' hc => ?_
    obtain ⟨hc, _, hem⟩ := hc
    have : DerefOk W.E W.σ c a := ⟨hc.notMemo, hc.iok, by have := hc.rk; omega, fun w => (hc.den w).trans (hs.den w), fun he => (hs.eager he).elim,
      fun he => hc.has (hs.safe he), fun he => hc.fast (hs.fast he), fun he => hc.once (hs.plain he)⟩
    refine ⟨this.later hW'.ext, fun ⟨d, h1, h2⟩ he => ?_⟩
    rw [hem he] at h1
    cases h1
    exact h2 rfl
  | empty => exact .pure fun W' hW' => ⟨DerefOk.later hW'.ext ⟨trivial, hs.iok, hs.rk, hs.den, hs.eager, hs.safe, hs.fast, hs.plain⟩, fun h => h.elim⟩
  | _ => exact .pure fun W' hW' => ⟨DerefOk.later hW'.ext ⟨trivial, hs.iok, hs.rk, hs.den, hs.eager, hs.safe, hs.fast, hs.plain⟩, fun _ => by simp⟩

/-- The set made. -/
abbrev MadeC (sp : LSpec T) (W : CellWorld T) (r : LSet T) : Prop := SetOk W.E W.σ r sp

/-- A new cell. -/
theorem memoizeC_spec {c : LSet T} {sp : LSpec T} (hc : DerefOk W.E W.σ c sp) (hn : ¬ c.Eager) :
    Safe (fun W' r => MadeC sp W' r ∧ ∃ k, r = .memo k ∧ W'.Full r) W (fun _ => memoizeC c) := by
  have he : memoizeC c = .alloc c fun k => .done (.memo k) := by
    have := hc.notMemo
    cases c with
    | memo k => exact this.elim
    | empty => rfl
    | frozen f => exact (hn trivial).elim
    | _ => rfl
  have hnext : ∀ W', W.Le W' → ∃ W'' : CellWorld T, W'.Le W'' ∧ W''.σ = W'.σ ++ [c] ∧ MadeC sp W'' (.memo W'.σ.length) := by
    intro W' hW'
    have hc' := hc.later hW'.ext
    obtain ⟨E', h1, h2⟩ := alloc_spec W'.ok hc'.notMemo hc'.iok hc'.rk hc'.den (fun h => hn (hc'.eager h)) hc'.safe hc'.fast hc'.plain
    refine ⟨⟨E', W'.σ ++ [c], h1.store⟩, ⟨h1.agree, h1.len, fun k d hd => .inl ?_⟩, rfl, h2⟩
    show (W'.σ ++ [c])[k]? = some d
    rw [List.getElem?_append_left (List.getElem?_eq_some_iff.1 hd).1]
    exact hd
  refine .alloc (g := fun k _ => .done (.memo k)) 0 (fun _ _ => he) (fun W' h => (hnext W' h).choose) (fun W' h => (hnext W' h).choose_spec.1)
    (fun W' h => (hnext W' h).choose_spec.2.1) (fun W' h => .pure fun W2 hW2 => ⟨(hnext W' h).choose_spec.2.2.ext hW2.ext, _, rfl, ?_⟩)
  have hfull : (hnext W' h).choose.Full (.memo W'.σ.length) := by
    refine ⟨c, ?_, fun h => hn (h ▸ trivial)⟩
    rw [(hnext W' h).choose_spec.2.1]
    simp
  exact hfull.mono hW2

theorem memoizeC_made {c : LSet T} {sp : LSpec T} (hc : DerefOk W.E W.σ c sp) (hn : ¬ c.Eager) : Safe (MadeC sp) W (fun _ => memoizeC c) :=
  (memoizeC_spec hc hn).imp fun _ _ _ h => h.1

theorem madeC_done {s : LSet T} {sp : LSpec T} (h : SetOk W.E W.σ s sp) : Safe (MadeC sp) W (fun _ => .done s) := .pure fun _ hW' => h.ext hW'.ext

theorem whereC_spec {s : LSet T} {a : LSpec T} (hs : SetOk W.E W.σ s a) {p : T → Bool} (hp : Cong p) :
    Safe (MadeC (a.where p)) W (fun _ => LSet.whereC s p) := by
  refine Safe.congrBind (p := fun _ => LSet.derefC s) (q := fun c _ => match c with
    | .empty => .done .empty
    | c => memoizeC (.where c p)) (fun _ => rfl) (derefC_spec hs) fun W1 c hW1 hc => ?_
  have hc := (hc W1 (Le.refl _)).1
  have hnode : Safe (MadeC (a.where p)) W1 (fun _ => memoizeC (.where c p)) := memoizeC_made ⟨trivial, ⟨hc.iok, hp⟩, hc.rk,
    fun w => by simp only [LSet.den, LSpec.where, hc.den w], fun h => h, hc.safe, fun _ => trivial, fun h => (hc.plain h).cok⟩ (fun h => h)
  cases c with
  | empty => exact madeC_done (setOk_empty fun w hw => (hc.den w).2 hw.1)
  | _ => exact hnode

theorem mapC_spec {s : LSet T} {a : LSpec T} (hs : SetOk W.E W.σ s a) {m : T → T} (hm : CongM m) :
    Safe (MadeC (a.map m)) W (fun _ => LSet.mapC s m) := by
  refine Safe.congrBind (p := fun _ => LSet.derefC s) (q := fun c _ => match c with
    | .empty => .done .empty
    | .frozen s => (LProg.lift (setMap s m)).bind fun r => .done (.frozen r)
    | c => memoizeC (.map c m)) (fun _ => rfl) (derefC_spec hs) fun W1 c hW1 hc => ?_
  have hc := (hc W1 (Le.refl _)).1
  have hnode : ¬ c.Eager → Safe (MadeC (a.map m)) W1 (fun _ => memoizeC (.map c m)) := fun hn => memoizeC_made ⟨trivial, ⟨hc.iok, hm⟩, hc.rk,
    fun w => by simp only [LSet.den, LSpec.map, hc.den], fun h => (hn (hc.eager h)).elim, fun _ => trivial, fun _ => trivial,
    fun h => h.elim (fun h => (hn (hc.eager h)).elim) fun h => ⟨(hc.plain h.1).cok, fun x y hx hy => h.2 x y ((hc.den x).1 hx) ((hc.den y).1 hy)⟩⟩ (fun h => h)
  cases c with
  | empty =>
    refine madeC_done (setOk_empty fun w hw => ?_)
    obtain ⟨v, hv, _⟩ := hw
    exact (hc.den v).2 hv
  | frozen f =>
    obtain ⟨g, g1, g2⟩ := setMap_spec (U := T) hc.iok m
    obtain ⟨g', k1, k2, _, k4⟩ := buildSet_spec (f.tree.list.map m)
    rw [k1] at g2
    cases g2
    refine Safe.congr' (g := fun _ => .done (.frozen g)) (fun _ => by simp only [g1]; rfl) (madeC_done (setOk_frozen k2 fun w => ?_))
    rw [k4 w]
    simp only [LSpec.map]
    constructor
    · rintro ⟨v, hv, hvw⟩
      obtain ⟨u, hu, rfl⟩ := List.mem_map.1 hv
      exact ⟨u, (hc.den u).1 ((FSet.mem_iff_list (s := f) hc.iok u).2 ⟨u, hu, LawfulGoKey.refl u⟩), hvw⟩
    · rintro ⟨v, hv, hvw⟩
      obtain ⟨u, hu, huv⟩ := (FSet.mem_iff_list (s := f) hc.iok v).1 ((hc.den v).2 hv)
      exact ⟨m u, List.mem_map.2 ⟨u, hu, rfl⟩, eq_trans' (hm u v huv) hvw⟩
  | _ => exact hnode (fun h => h)

theorem unionC_spec {s t : LSet T} {a b : LSpec T} (hs : SetOk W.E W.σ s a) (ht : SetOk W.E W.σ t b) :
    Safe (fun W' r => MadeC (a.union b) W' r ∧ (W.Full s → ∃ k, r = .memo k)) W (fun _ => LSet.unionC s t) := by
  refine Safe.congrBind (p := fun _ => LSet.derefC s) (q := fun c _ => match c with
    | .empty => .done t
    | c => memoizeC (.union c t)) (fun _ => rfl) (derefC_spec hs) fun W1 c hW1 hc => ?_
  obtain ⟨hc, hfull⟩ := hc W1 (Le.refl _)
  have ht := ht.ext hW1.ext
  have hnode : Safe (fun W' r => MadeC (a.union b) W' r ∧ (W.Full s → ∃ k, r = .memo k)) W1 (fun _ => memoizeC (.union c t)) :=
    (memoizeC_spec (W := W1) (c := .union c t) (sp := a.union b) ⟨trivial, ⟨hc.iok, ht.iok⟩, Nat.max_le.2 ⟨hc.rk, ht.rk⟩,
    fun w => by simp only [LSet.den, LSpec.union, hc.den w, ht.den w], fun h => h.elim, fun h => ⟨hc.safe h.1, ht.safe h.2⟩, fun h => h.elim,
    fun h => ⟨hc.plain h.1, ht.plain h.2.1, fun w hw => h.2.2 w ⟨(hc.den w).1 hw.1, (ht.den w).1 hw.2⟩⟩⟩ (fun h => h)).imp fun W' r _ h =>
      ⟨h.1, fun _ => ⟨_, h.2.choose_spec.1⟩⟩
  cases c with
  | empty =>
    have he : ∀ w, ¬ a.den w := fun w hw => (hc.den w).2 hw
    have hd : ∀ w, (a.union b).den w ↔ b.den w := fun w => by simp [LSpec.union, he w]
    have : SetOk W1.E W1.σ t (a.union b) := by
      refine ⟨ht.iok, ht.rk, fun w => (ht.den w).trans (hd w).symm, fun h => h.elim, fun h => ht.safe h.2,
        fun h => h.elim, fun h => ht.plain h.2.1, fun h => ?_⟩
      rcases h with ⟨w, hw⟩ | h
      · exact (he w hw).elim
      · rcases ht.once h with h | h
        · exact .inl h
        · exact .inr (fun w hw => h w ((hd w).1 hw))
    exact .pure fun W' hW' => ⟨this.ext hW'.ext, fun h => (hfull h rfl).elim⟩
  | _ => exact hnode

theorem lazyInterC_spec {c t : LSet T} {a b : LSpec T} (hc : DerefOk W.E W.σ c a) (ht : SetOk W.E W.σ t b) (hb : b.safe) :
    Safe (MadeC (a.inter b)) W (fun n => lazyInterC n c t) := by
  refine Safe.congrBind (p := fun n => LSet.fastIsEmptyC n c) (q := fun x n => if x = some true then .done .empty else
      (LSet.fastIsEmptyC n t).bind fun y => if y = some true then .done .empty else memoizeC (.inter c t)) (fun _ => rfl)
    (fastIsEmptyC_spec (Fits.self W) hc.iok hc.rk) fun W1 x hW1 hx => ?_
  have hx := hx W1 (Le.refl _)
  by_cases hxt : x = some true
  · simp only [hxt, if_true]
    exact madeC_done (setOk_empty fun w hw => (hx true hxt).1 rfl w ((hc.den w).2 hw.1))
  · simp only [hxt, if_false]
    have hc := hc.later hW1.ext
    have ht := ht.ext hW1.ext
    refine Safe.bind (q := fun y _ => if y = some true then .done .empty else memoizeC (.inter c t)) (fastIsEmptyC_spec (Fits.self W1) ht.iok ht.rk) fun W2 y hW2 hy => ?_
    have hy := hy W2 (Le.refl _)
    by_cases hyt : y = some true
    · simp only [hyt, if_true]
      exact madeC_done (setOk_empty fun w hw => (hy true hyt).1 rfl w ((ht.den w).2 hw.2))
    · simp only [hyt, if_false]
      have hc := hc.later hW2.ext
      have ht := ht.ext hW2.ext
      exact memoizeC_made ⟨trivial, ⟨hc.iok, ht.iok, ht.safe hb⟩, Nat.max_le.2 ⟨hc.rk, ht.rk⟩,
        fun w => by simp only [LSet.den, LSpec.inter, hc.den w, ht.den w], fun h => h.elim, fun h => ⟨hc.safe h.1, ht.safe h.2⟩,
        fun h => ⟨hc.fast h.1, ht.fast h.2⟩, fun h => (hc.plain h).cok⟩ (fun h => h)

theorem interC_spec {s t : LSet T} {a b : LSpec T} (hs : SetOk W.E W.σ s a) (ht : SetOk W.E W.σ t b) (hb : b.safe) :
    Safe (MadeC (a.inter b)) W (fun n => LSet.interC n s t) := by
  refine Safe.congrBind (p := fun _ => LSet.derefC s) (q := fun c n => match c with
    | .empty => .done .empty
    | c => lazyInterC n c t) (fun _ => rfl) (derefC_spec hs) fun W1 c hW1 hc => ?_
  obtain ⟨hc, _⟩ := hc W1 (Le.refl _)
  have hnode := lazyInterC_spec hc (ht.ext hW1.ext) hb
  cases c with
  | empty => exact madeC_done (setOk_empty fun w hw => (hc.den w).2 hw.1)
  | _ => exact hnode

theorem full_notMemo {c : LSet T} (h : c.NotMemo) (he : c ≠ .empty) : W.Full c := by
  cases c with
  | memo k => exact h.elim
  | empty => exact he rfl
  | _ => trivial

theorem lazyDiffC_spec {c t : LSet T} {a b : LSpec T} (hc : DerefOk W.E W.σ c a) (ht : SetOk W.E W.σ t b) (hb : b.safe) :
    Safe (fun W' r => MadeC (a.diff b) W' r ∧ (c ≠ .empty → W'.Full r)) W (fun n => lazyDiffC n c t) := by
  refine Safe.congrBind (p := fun n => LSet.fastIsEmptyC n c) (q := fun x n => if x = some true then .done c else
      (LSet.fastIsEmptyC n t).bind fun y => if y = some true then .done c else memoizeC (.diff c t)) (fun _ => rfl)
    (fastIsEmptyC_spec (Fits.self W) hc.iok hc.rk) fun W1 x hW1 hx => ?_
  have hx := hx W1 (Le.refl _)
  have hc1 := hc.later hW1.ext
  have ht1 := ht.ext hW1.ext
  by_cases hxt : x = some true
  · simp only [hxt, if_true]
    have he : ∀ w, ¬ a.den w := fun w hw => (hx true hxt).1 rfl w ((hc.den w).2 hw)
    have : SetOk W1.E W1.σ c (a.diff b) := ⟨hc1.iok, hc1.rk, fun w => by simp [hc1.den w, LSpec.diff, he w], fun h => h.elim, fun h => h.elim, fun h => h.elim, hc1.plain,
      fun _ => .inr fun w hw => he w hw.1⟩
    exact .pure fun W' hW' => ⟨this.ext hW'.ext, full_notMemo hc.notMemo⟩
  · simp only [hxt, if_false]
    refine Safe.bind (q := fun y _ => if y = some true then .done c else memoizeC (.diff c t)) (fastIsEmptyC_spec (Fits.self W1) ht1.iok ht1.rk) fun W2 y hW2 hy => ?_
    have hy := hy W2 (Le.refl _)
    have hc2 := hc1.later hW2.ext
    have ht2 := ht1.ext hW2.ext
    by_cases hyt : y = some true
    · simp only [hyt, if_true]
      have he : ∀ w, ¬ b.den w := fun w hw => (hy true hyt).1 rfl w ((ht1.den w).2 hw)
      have : SetOk W2.E W2.σ c (a.diff b) := by
        refine ⟨hc2.iok, hc2.rk, fun w => by simp [hc2.den w, LSpec.diff, he w], fun h => h.elim, fun h => h.elim, fun h => h.elim, hc2.plain, fun h => ?_⟩
        rcases h with h | ⟨w, hw⟩
        · exact .inl (hc2.plain h).cok
        · exact (he w hw).elim
      exact .pure fun W' hW' => ⟨this.ext hW'.ext, full_notMemo hc.notMemo⟩
    · simp only [hyt, if_false]
      exact (memoizeC_spec (W := W2) (c := .diff c t) (sp := a.diff b) ⟨trivial, ⟨hc2.iok, ht2.iok, ht2.safe hb⟩, Nat.max_le.2 ⟨hc2.rk, ht2.rk⟩,
        fun w => by simp only [LSet.den, LSpec.diff, hc2.den w, ht2.den w], fun h => h.elim, fun h => h.elim,
        fun h => h.elim, fun h => (hc2.plain h).cok⟩ (fun h => h)).imp fun W' r _ h => ⟨h.1, fun _ => h.2.choose_spec.2⟩

theorem diffC_spec {s t : LSet T} {a b : LSpec T} (hs : SetOk W.E W.σ s a) (ht : SetOk W.E W.σ t b) (hb : b.safe) :
    Safe (fun W' r => MadeC (a.diff b) W' r ∧ (W.Full s → W'.Full r)) W (fun n => LSet.diffC n s t) := by
  refine Safe.congrBind (p := fun _ => LSet.derefC s) (q := fun c n => match c with
    | .empty => .done .empty
    | c => lazyDiffC n c t) (fun _ => rfl) (derefC_spec hs) fun W1 c hW1 hc => ?_
  obtain ⟨hc, hfull⟩ := hc W1 (Le.refl _)
  have hnode := (lazyDiffC_spec hc (ht.ext hW1.ext) hb).imp (R := fun W' r => MadeC (a.diff b) W' r ∧ (W.Full s → W'.Full r)) fun W' r _ h => ⟨h.1, fun hf => h.2 (hfull hf)⟩
  cases c with
  | empty =>
    have : SetOk W1.E W1.σ .empty (a.diff b) := setOk_empty fun w hw => (hc.den w).2 hw.1
    exact .pure fun W' hW' => ⟨this.ext hW'.ext, fun h => (hfull h rfl).elim⟩
  | _ => exact hnode

theorem symmC_spec {s t : LSet T} {a b : LSpec T} (hs : SetOk W.E W.σ s a) (ht : SetOk W.E W.σ t b) (ha : a.safe) (hb : b.safe) :
    Safe (MadeC (a.symm b)) W (fun n => LSet.symmC n s t) := by
  refine Safe.congrBind (p := fun _ => LSet.derefC s) (q := fun c n => match c with
    | .empty => .done t
    | c => lazySymmC n c t) (fun _ => rfl) (derefC_spec hs) fun W1 c hW1 hc => ?_
  obtain ⟨hc, _⟩ := hc W1 (Le.refl _)
  have ht1 := ht.ext hW1.ext
  by_cases hce : c = .empty
  · subst hce
    have he : ∀ w, ¬ a.den w := fun w hw => (hc.den w).2 hw
    refine madeC_done (ht1.congr_spec (fun w => by simp [LSpec.symm, he w]) (fun h => h.elim) (fun h => h.elim) (fun h => h.elim) (fun h => h.2) ?_)
    rintro (⟨w, hw⟩ | h)
    · exact (he w hw).elim
    · exact .inl h
  · have hnode : Safe (MadeC (a.symm b)) W1 (fun n => lazySymmC n c t) := by
      have hcs := hc.setOk
      refine Safe.congrBind (p := fun n => LSet.diffC n c t) (q := fun x n => (LSet.diffC n t c).bind fun y => LSet.unionC x y) (fun _ => rfl)
        (diffC_spec hcs ht1 hb) fun W2 x hW2 hx => ?_
      obtain ⟨hx1, hx2⟩ := hx W2 (Le.refl _)
      refine Safe.bind (q := fun y _ => LSet.unionC x y) (diffC_spec (ht1.ext hW2.ext) (hcs.ext hW2.ext) (by exact ha)) fun W3 y hW3 hy => ?_
      obtain ⟨hy1, _⟩ := hy W3 (Le.refl _)
      have hfx : W3.Full x := (hx2 (full_notMemo hc.notMemo hce)).mono hW3
      refine (unionC_spec (hx1.ext hW3.ext) hy1).imp fun W' r _ hr => ?_
      obtain ⟨k, rfl⟩ := hr.2 hfx
      exact hr.1.congr_spec (fun w => Iff.rfl) (fun h => h) (fun h => h.elim) (fun h => h.elim)
        (fun h => ⟨h.1, h.2, fun w hw => hw.1.2 hw.2.1⟩) (fun _ => .inr trivial)
    cases c with
    | empty => exact (hce rfl).elim
    | _ => exact hnode

theorem withC_spec {s : LSet T} {a : LSpec T} (hs : SetOk W.E W.σ s a) (v : T) : Safe (MadeC (a.with v)) W (fun _ => LSet.withC s v) := by
  refine Safe.congrBind (p := fun _ => LSet.derefC s) (q := fun c _ => match c with
    | .empty => (LProg.lift (buildSet [v])).bind fun r => .done (.frozen r)
    | .frozen s => (LProg.lift (s.with v)).bind fun r => .done (.frozen r)
    | c => (LProg.lift (buildSet [v])).bind fun r => memoizeC (.union c (.frozen r))) (fun _ => rfl) (derefC_spec hs) fun W1 c hW1 hc => ?_
  obtain ⟨hc, _⟩ := hc W1 (Le.refl _)
  obtain ⟨f, f1, f2, f3⟩ := singleton_spec v
  have hcong := (hs.ext hW1.ext).cong W1.ok
  have hnode : ¬ c.Eager → Safe (MadeC (a.with v)) W1 (fun _ => (LProg.lift (buildSet [v])).bind fun r => memoizeC (.union c (.frozen r))) := fun hne => by
    simp only [f1, LProg.lift, LProg.bind]
    exact memoizeC_made ⟨trivial, ⟨hc.iok, f2⟩, Nat.max_le.2 ⟨hc.rk, Nat.zero_le _⟩,
      fun w => by simp only [LSet.den, LSpec.with, hc.den w, f3 w], fun h => (hne (hc.eager h)).elim, fun h => ⟨hc.safe h, trivial⟩,
      fun h => (hne (hc.eager h)).elim,
      fun h => h.elim (fun h => (hne (hc.eager h)).elim) fun h => ⟨hc.plain h.1, trivial, fun w hw => h.2 ((hcong v w ((f3 w).1 hw.2)).2 ((hc.den w).1 hw.1))⟩⟩ (fun h => h)
  cases c with
  | empty =>
    simp only [f1, LProg.lift, LProg.bind]
    refine madeC_done (setOk_frozen f2 fun w => ?_)
    rw [f3 w]
    have : ¬ a.den w := fun hw => (hc.den w).2 hw
    simp [LSpec.with, this]
  | frozen g =>
    obtain ⟨r, g1, g2, g3⟩ := FSet.with_spec (s := g) hc.iok v
    simp only [g1, LProg.lift, LProg.bind]
    refine madeC_done (setOk_frozen g2 fun w => ?_)
    rw [g3.2 w]
    have := hc.den w
    simp only [LSet.den] at this
    simp only [LSpec.with, ← this]
  | _ => exact hnode (fun h => h)

theorem withoutC_spec {s : LSet T} {a : LSpec T} (hs : SetOk W.E W.σ s a) (v : T) : Safe (MadeC (a.without v)) W (fun n => LSet.withoutC n s v) := by
  refine Safe.congrBind (p := fun _ => LSet.derefC s) (q := fun c n => match c with
    | .empty => .done .empty
    | .frozen s => (LProg.lift (s.without v)).bind fun r => .done (.frozen r)
    | c => (LProg.lift (buildSet [v])).bind fun r => lazyDiffC n c (.frozen r)) (fun _ => rfl) (derefC_spec hs) fun W1 c hW1 hc => ?_
  obtain ⟨hc, _⟩ := hc W1 (Le.refl _)
  obtain ⟨f, f1, f2, f3⟩ := singleton_spec v
  have hft : SetOk W1.E W1.σ (.frozen f) (LSpec.frozen (fun w => GoKey.eq v w = true)) := setOk_frozen f2 f3
  have hnode : ¬ c.Eager → Safe (MadeC (a.without v)) W1 (fun n => (LProg.lift (buildSet [v])).bind fun r => lazyDiffC n c (.frozen r)) := fun hne => by
    simp only [f1, LProg.lift, LProg.bind]
    exact (lazyDiffC_spec hc hft trivial).imp fun W' r _ r3 => r3.1.congr_spec (fun w => Iff.rfl) (fun h => (hne (hc.eager h)).elim) (fun h => (hne (hc.eager h)).elim)
      (fun h => (hne (hc.eager h)).elim) (fun h => h) (fun _ => .inl (.inr ⟨v, LawfulGoKey.refl v⟩))
  cases c with
  | empty => exact madeC_done (setOk_empty fun w hw => (hc.den w).2 hw.1)
  | frozen g =>
    obtain ⟨r, g1, g2, g3⟩ := FSet.without_spec (s := g) hc.iok v
    simp only [g1, LProg.lift, LProg.bind]
    refine madeC_done (setOk_frozen g2 fun w => ?_)
    rw [g3.2 w]
    have := hc.den w
    simp only [LSet.den] at this
    simp only [LSpec.without, ← this]
  | _ => exact hnode (fun h => h)

end Frozen
