import Verif.Proof.Lazy
import Verif.Spec.Lazy

/-! Lazy sets: the fast observers and the constructors. -/

set_option linter.unusedSectionVars false

namespace Frozen

variable {T : Type} [GoKey T] [LawfulGoKey T] {E : LEnv T} {σ : LStore T}

theorem fastIsEmpty_aux (hσ : StoreOk E σ) : ∀ (r : Nat) (s : LSet T), s.rk ≤ r → s.rk ≤ σ.length → s.IOk E →
    ∃ o, Runs (fun n => LSet.fastIsEmpty σ n s) o ∧ ∀ b, o = some b → (b = true ↔ ∀ w, ¬ s.den E w) := by
  intro r
  induction r using Nat.strong_induction_on with
  | _ r ihr =>
  intro s
  induction s with
  | empty =>
    intro _ _ _
    exact ⟨some true, Runs.step (g := fun _ => .ok (some true)) (fun n => by simp only [LSet.fastIsEmpty]) (Runs.const _),
      fun b hb => by cases hb; simp [LSet.den]⟩
  | frozen f =>
    intro _ _ hf
    exact ⟨some f.isEmpty, Runs.step (g := fun _ => .ok (some f.isEmpty)) (fun n => by simp only [LSet.fastIsEmpty]) (Runs.const _),
      fun b hb => by cases hb; exact FSet.isEmpty_iff_mem hf⟩
  | memo k =>
    intro hr hl _
    have hk : k < σ.length := hl
    have hr : k + 1 ≤ r := hr
    obtain ⟨c, h1, h2, hc⟩ := deref_memo hσ hk
    obtain ⟨o, g1, g2⟩ := ihr k (by omega) c hc.rk (by have := hc.rk; omega) hc.iok
    refine ⟨o, Runs.step (g := fun n => LSet.fastIsEmpty σ n c) (fun n => by simp only [LSet.fastIsEmpty, h1]; rfl) g1, fun b hb => ?_⟩
    rw [g2 b hb]
    exact forall_congr' (fun w => not_congr (hc.den w))
  | «where» s p ih =>
    intro hr hl h
    obtain ⟨o, g1, g2⟩ := ih hr hl h.1
    refine ⟨if o = some true then some true else none, Runs.step (g := fun n => LSet.fastIsEmpty σ n s >>= fun o =>
      .ok (if o = some true then some true else none)) (fun n => ?_) (Runs.bind (g := fun o _ => .ok (if o = some true then some true else none)) g1 (Runs.const _)), fun b hb => ?_⟩
    · simp only [LSet.fastIsEmpty]
      congr 1
      funext o
      rcases o with _ | (_ | _) <;> rfl
    · by_cases ho : o = some true
      · rw [if_pos ho] at hb
        cases hb
        have := (g2 true ho).1 rfl
        simp only [true_iff, LSet.den]
        exact fun w hw => this w hw.1
      · rw [if_neg ho] at hb; cases hb
  | map s m =>
    intro _ _ _
    exact ⟨none, Runs.step (g := fun _ => .ok none) (fun n => by simp only [LSet.fastIsEmpty]) (Runs.const _), fun b hb => by cases hb⟩
  | union s m =>
    intro _ _ _
    exact ⟨none, Runs.step (g := fun _ => .ok none) (fun n => by simp only [LSet.fastIsEmpty]) (Runs.const _), fun b hb => by cases hb⟩
  | inter s m =>
    intro _ _ _
    exact ⟨none, Runs.step (g := fun _ => .ok none) (fun n => by simp only [LSet.fastIsEmpty]) (Runs.const _), fun b hb => by cases hb⟩
  | diff s m =>
    intro _ _ _
    exact ⟨none, Runs.step (g := fun _ => .ok none) (fun n => by simp only [LSet.fastIsEmpty]) (Runs.const _), fun b hb => by cases hb⟩

theorem fastIsEmpty_spec (hσ : StoreOk E σ) {s : LSet T} (hs : s.IOk E) (hl : s.rk ≤ σ.length) :
    ∃ o, Runs (fun n => LSet.fastIsEmpty σ n s) o ∧ ∀ b, o = some b → (b = true ↔ ∀ w, ¬ s.den E w) :=
  fastIsEmpty_aux hσ s.rk s (Nat.le_refl _) hl hs

theorem fastHas_aux (hσ : StoreOk E σ) (el : T) : ∀ (r : Nat) (s : LSet T), s.rk ≤ r → s.rk ≤ σ.length → s.IOk E →
    ∃ o, Runs (fun n => LSet.fastHas σ n s el) o ∧ (s.FOk E → ∀ b, o = some b → (b = true ↔ s.den E el)) := by
  intro r
  induction r using Nat.strong_induction_on with
  | _ r ihr =>
  intro s
  induction s with
  | empty =>
    intro _ _ _
    exact ⟨some false, Runs.step (g := fun _ => .ok (some false)) (fun n => by simp only [LSet.fastHas]) (Runs.const _),
      fun _ b hb => by cases hb; simp [LSet.den]⟩
  | frozen f =>
    intro _ _ hf
    exact ⟨some (f.tree.look el).isSome, Runs.step (g := fun _ => .ok (some (f.tree.look el).isSome)) (fun n => by
      simp only [LSet.fastHas, FSet.has_spec hf]; rfl) (Runs.const _),
      fun _ b hb => by cases hb; exact (FSet.mem_iff hf el).symm⟩
  | memo k =>
    intro hr hl _
    have hk : k < σ.length := hl
    have hr : k + 1 ≤ r := hr
    obtain ⟨c, h1, h2, hc⟩ := deref_memo hσ hk
    obtain ⟨o, g1, g2⟩ := ihr k (by omega) c hc.rk (by have := hc.rk; omega) hc.iok
    refine ⟨o, Runs.step (g := fun n => LSet.fastHas σ n c el) (fun n => by simp only [LSet.fastHas, h1]; rfl) g1, fun hh b hb => ?_⟩
    rw [g2 (hc.fast hh) b hb]
    exact hc.den el
  | «where» s p ih =>
    intro _ _ _
    exact ⟨none, Runs.step (g := fun _ => .ok none) (fun n => by simp only [LSet.fastHas]) (Runs.const _), fun _ b hb => by cases hb⟩
  | map s m ih =>
    intro _ _ _
    exact ⟨none, Runs.step (g := fun _ => .ok none) (fun n => by simp only [LSet.fastHas]) (Runs.const _), fun _ b hb => by cases hb⟩
  | union a b iha ihb =>
    intro hr hl h
    have hr := Nat.max_le.1 hr
    have hl := Nat.max_le.1 hl
    obtain ⟨o, g1, g2⟩ := iha hr.1 hl.1 h.1
    refine ⟨o, Runs.step (g := fun n => LSet.fastHas σ n a el >>= fun o => match o with
      | some b => .ok (some b)
      | none => LSet.fastHas σ n a el) (fun n => ?_) (Runs.bind (g := fun o n => _) g1 ?_), fun hh => hh.elim⟩
    · simp only [LSet.fastHas]; congr 1
    · cases o with
      | some b => exact Runs.const _
      | none => exact g1
  | inter a b iha ihb =>
    intro hr hl h
    have hr := Nat.max_le.1 hr
    have hl := Nat.max_le.1 hl
    obtain ⟨x, g1, g2⟩ := iha hr.1 hl.1 h.1
    obtain ⟨y, k1, k2⟩ := ihb hr.2 hl.2 h.2.1
    refine ⟨if x = some false then some false else if y = some false then some false else if (x.isSome && y.isSome) = true then some true else none,
      Runs.step (g := fun n => LSet.fastHas σ n a el >>= fun x => if x = some false then .ok (some false) else
        LSet.fastHas σ n b el >>= fun y => if y = some false then .ok (some false)
          else if (x.isSome && y.isSome) = true then .ok (some true) else .ok none) (fun n => ?_) (Runs.bind (g := fun o n => _) g1 ?_), fun hh c hc => ?_⟩
    · simp only [LSet.fastHas]; congr 1
    · by_cases hx : x = some false
      · simp only [hx, if_true]; exact Runs.const _
      · simp only [hx, if_false]
        refine Runs.bind (g := fun o n => _) k1 ?_
        by_cases hy : y = some false
        · simp only [hy, if_true]; exact Runs.const _
        · simp only [hy, if_false]
          by_cases hxy : (x.isSome && y.isSome) = true
          · simp only [hxy, if_true]; exact Runs.const _
          · simp only [hxy]; exact Runs.const _
    · simp only [LSet.den]
      by_cases hx : x = some false
      · rw [if_pos hx] at hc
        cases hc
        have := (g2 hh.1 false hx)
        simp only [Bool.false_eq_true, false_iff] at this
        simp [this]
      · rw [if_neg hx] at hc
        by_cases hy : y = some false
        · rw [if_pos hy] at hc
          cases hc
          have := (k2 hh.2 false hy)
          simp only [Bool.false_eq_true, false_iff] at this
          simp [this]
        · rw [if_neg hy] at hc
          rcases x with _ | (_ | _)
          · simp at hc
          · exact (hx rfl).elim
          · rcases y with _ | (_ | _)
            · simp at hc
            · exact (hy rfl).elim
            · simp at hc
              subst hc
              simp [(g2 hh.1 true rfl).1 rfl, (k2 hh.2 true rfl).1 rfl]
  | diff a b iha ihb =>
    intro hr hl h
    have hr := Nat.max_le.1 hr
    have hl := Nat.max_le.1 hl
    obtain ⟨o, g1, g2⟩ := iha hr.1 hl.1 h.1
    refine ⟨o, Runs.step (g := fun n => LSet.fastHas σ n a el >>= fun o => match o with
      | some b => .ok (some b)
      | none => LSet.fastHas σ n a el) (fun n => ?_) (Runs.bind (g := fun o n => _) g1 ?_), fun hh => hh.elim⟩
    · simp only [LSet.fastHas]; congr 1
    · cases o with
      | some b => exact Runs.const _
      | none => exact g1

theorem fastHas_spec (hσ : StoreOk E σ) {s : LSet T} (hs : s.IOk E) (hl : s.rk ≤ σ.length) (el : T) :
    ∃ o, Runs (fun n => LSet.fastHas σ n s el) o ∧ (s.FOk E → ∀ b, o = some b → (b = true ↔ s.den E el)) :=
  fastHas_aux hσ el s.rk s (Nat.le_refl _) hl hs

/-! ### Sets a client holds -/

/-- Held outright. -/
def LSet.Eager : LSet T → Prop
  | .empty => True
  | .frozen _ => True
  | _ => False

/-- A set a client holds, and what is known of it. -/
structure SetOk (E : LEnv T) (σ : LStore T) (s : LSet T) (sp : LSpec T) : Prop where
  iok : s.IOk E
  rk : s.rk ≤ σ.length
  den : ∀ w, s.den E w ↔ sp.den w
  eager : sp.eager → s.Eager
  safe : sp.safe → s.HOk E
  fast : sp.fast → s.FOk E
  plain : sp.plain → s.Plain E
  once : sp.once → s.Cok E ∨ ∀ w, ¬ sp.den w

/-- What a set a client holds stands for at the moment. -/
structure DerefOk (E : LEnv T) (σ : LStore T) (c : LSet T) (sp : LSpec T) : Prop where
  notMemo : c.NotMemo
  iok : c.IOk E
  rk : c.rk ≤ σ.length
  den : ∀ w, c.den E w ↔ sp.den w
  eager : sp.eager → c.Eager
  safe : sp.safe → c.HOk E
  fast : sp.fast → c.FOk E
  plain : sp.plain → c.Plain E

theorem SetOk.deref (hσ : StoreOk E σ) {s : LSet T} {sp : LSpec T} (h : SetOk E σ s sp) :
    ∃ c, LSet.deref σ s = .ok c ∧ DerefOk E σ c sp := by
  cases s with
  | memo k =>
    have hk : k < σ.length := h.rk
    obtain ⟨c, h1, h2, hc⟩ := deref_memo hσ hk
    refine ⟨c, h1, hc.notMemo, hc.iok, ?_, fun w => (hc.den w).trans (h.den w), fun he => (h.eager he).elim,
      fun he => hc.has (h.safe he), fun he => hc.fast (h.fast he), fun he => hc.once (h.plain he)⟩
    have := hc.rk; omega
  | _ => exact ⟨_, rfl, trivial, h.iok, h.rk, h.den, h.eager, h.safe, h.fast, h.plain⟩

/-- The store grew, and what was there is still there. -/
structure Ext (E : LEnv T) (σ : LStore T) (E' : LEnv T) (σ' : LStore T) : Prop where
  store : StoreOk E' σ'
  agree : EnvAgree σ.length E E'
  len : σ.length ≤ σ'.length

theorem Ext.refl (hσ : StoreOk E σ) : Ext E σ E σ := ⟨hσ, fun _ _ => rfl, Nat.le_refl _⟩

theorem Ext.same {σ' : LStore T} (hσ : StoreOk E σ') (h : σ'.length = σ.length) : Ext E σ E σ' := ⟨hσ, fun _ _ => rfl, by omega⟩

theorem Ext.trans {E' E'' : LEnv T} {σ' σ'' : LStore T} (h : Ext E σ E' σ') (g : Ext E' σ' E'' σ'') : Ext E σ E'' σ'' :=
  ⟨g.store, fun k hk => (h.agree k hk).trans (g.agree k (Nat.lt_of_lt_of_le hk h.len)), Nat.le_trans h.len g.len⟩

theorem SetOk.ext {E' : LEnv T} {σ' : LStore T} (h : Ext E σ E' σ') {s : LSet T} {sp : LSpec T} (hs : SetOk E σ s sp) : SetOk E' σ' s sp := by
  refine ⟨LSet.IOk_agree h.agree hs.rk ▸ hs.iok, Nat.le_trans hs.rk h.len, ?_, hs.eager, ?_, ?_, ?_, ?_⟩
  · rw [← LSet.den_agree h.agree hs.rk]; exact hs.den
  · rw [← LSet.HOk_agree h.agree hs.rk]; exact hs.safe
  · rw [← LSet.FOk_agree h.agree hs.rk]; exact hs.fast
  · rw [← LSet.Plain_agree h.agree hs.rk]; exact hs.plain
  · rw [← LSet.Cok_agree h.agree hs.rk]; exact hs.once

/-- The environment with one more cell. -/
def LEnv.push (E : LEnv T) (N : Nat) (c : LCell T) : LEnv T := fun k => if k = N then c else E k

theorem LEnv.push_agree (E : LEnv T) (N : Nat) (c : LCell T) : EnvAgree N E (E.push N c) := by
  intro k hk
  simp only [LEnv.push, if_neg (Nat.ne_of_lt hk)]

/-- A new cell. -/
theorem alloc_spec (hσ : StoreOk E σ) {c : LSet T} {sp : LSpec T} (hn : c.NotMemo) (hi : c.IOk E) (hr : c.rk ≤ σ.length)
    (hd : ∀ w, c.den E w ↔ sp.den w) (he : ¬ sp.eager) (hs : sp.safe → c.HOk E) (hf : sp.fast → c.FOk E) (hp : sp.plain → c.Plain E) :
    ∃ E', Ext E σ E' (σ ++ [c]) ∧ SetOk E' (σ ++ [c]) (.memo σ.length) sp := by
  let cell : LCell T := ⟨sp.den, sp.safe, sp.fast, sp.plain, c.ssize E⟩
  have hag := LEnv.push_agree E σ.length cell
  have hat : E.push σ.length cell σ.length = cell := by simp [LEnv.push]
  have hcong : CongP sp.den := fun a b hab => by rw [← hd, ← hd]; exact LSet.den_congr hσ.env hi a b hab
  refine ⟨E.push σ.length cell, ⟨⟨fun k => ?_, fun k d hk => ?_⟩, hag, by simp⟩, trivial, ?_, fun w => ?_, fun h => (he h).elim,
    fun h => ?_, fun h => ?_, fun h => ?_, fun _ => .inl trivial⟩
  · simp only [LEnv.push]
    split
    · exact hcong
    · exact hσ.env k
  · by_cases hkl : k < σ.length
    · rw [List.getElem?_append_left hkl] at hk
      exact (hσ.cells k d hk).agree hag hkl
    · have hke : k = σ.length := by
        have : k < (σ ++ [c]).length := (List.getElem?_eq_some_iff.1 hk).1
        simp at this; omega
      subst hke
      simp at hk
      subst hk
      refine ⟨LSet.IOk_agree hag hr ▸ hi, hr, ?_, ?_, ?_, ?_, ?_, hn⟩
      · rw [hat, ← LSet.den_agree hag hr]; exact hd
      · rw [hat, ← LSet.ssize_agree hag hr]
      · rw [hat, ← LSet.HOk_agree hag hr]; exact hs
      · rw [hat, ← LSet.FOk_agree hag hr]; exact hf
      · rw [hat, ← LSet.Plain_agree hag hr]; exact hp
  · simp [LSet.rk]
  · simp only [LSet.den, hat]; exact Iff.rfl
  · simp only [LSet.HOk, hat]; exact h
  · simp only [LSet.FOk, hat]; exact h
  · simp only [LSet.Plain, hat]; exact h

theorem setOk_frozen {f : FSet T} {sp : LSpec T} (h : f.Valid) (hd : ∀ w, f.Mem w ↔ sp.den w) : SetOk E σ (.frozen f) sp :=
  ⟨h, Nat.zero_le _, hd, fun _ => trivial, fun _ => trivial, fun _ => trivial, fun _ => trivial, fun _ => .inl trivial⟩

theorem setOk_empty {sp : LSpec T} (hd : ∀ w, ¬ sp.den w) : SetOk E σ .empty sp :=
  ⟨trivial, Nat.zero_le _, fun w => ⟨fun h => h.elim, fun h => (hd w h).elim⟩, fun _ => trivial, fun _ => trivial, fun _ => trivial,
    fun _ => trivial, fun _ => .inl trivial⟩

/-- A constructor made a set. -/
def Made (E : LEnv T) (σ : LStore T) (r : LSet T × LStore T) (sp : LSpec T) : Prop := ∃ E', Ext E σ E' r.2 ∧ SetOk E' r.2 r.1 sp

theorem Made.here (hσ : StoreOk E σ) {s : LSet T} {sp : LSpec T} (h : SetOk E σ s sp) : Made E σ (s, σ) sp := ⟨E, Ext.refl hσ, h⟩

theorem memoize_node {c : LSet T} (hn : c.NotMemo) (hf : ∀ f, c ≠ .frozen f) : memoize σ c = (.memo σ.length, σ ++ [c]) := by
  cases c with
  | memo k => exact hn.elim
  | frozen f => exact (hf f rfl).elim
  | _ => rfl

theorem Made.alloc (hσ : StoreOk E σ) {c : LSet T} {sp : LSpec T} (hn : c.NotMemo) (hf' : ∀ f, c ≠ .frozen f) (hi : c.IOk E) (hr : c.rk ≤ σ.length)
    (hd : ∀ w, c.den E w ↔ sp.den w) (he : ¬ sp.eager) (hs : sp.safe → c.HOk E) (hf : sp.fast → c.FOk E) (hp : sp.plain → c.Plain E) :
    Made E σ (memoize σ c) sp := by
  rw [memoize_node hn hf']
  exact alloc_spec hσ hn hi hr hd he hs hf hp

theorem whereM_spec (hσ : StoreOk E σ) {s : LSet T} {a : LSpec T} (hs : SetOk E σ s a) {p : T → Bool} (hp : Cong p) :
    ∃ r, LSet.whereM σ s p = .ok r ∧ Made E σ r (a.where p) := by
  obtain ⟨c, h1, hc⟩ := hs.deref hσ
  have hnode : Made E σ (lazyWhere σ c p) (a.where p) := Made.alloc hσ trivial (by simp) ⟨hc.iok, hp⟩ hc.rk
    (fun w => by simp only [LSet.den, LSpec.where, hc.den w]) (fun h => h) hc.safe (fun _ => trivial) (fun h => (hc.plain h).cok)
  simp only [LSet.whereM, h1, bind, Except.bind]
  cases c with
  | empty =>
    refine ⟨(.empty, σ), rfl, Made.here hσ (setOk_empty fun w hw => ?_)⟩
    exact (hc.den w).2 hw.1
  | _ => exact ⟨_, rfl, hnode⟩

theorem mapM_spec (hσ : StoreOk E σ) {s : LSet T} {a : LSpec T} (hs : SetOk E σ s a) {m : T → T} (hm : CongM m) :
    ∃ r, LSet.mapM σ s m = .ok r ∧ Made E σ r (a.map m) := by
  obtain ⟨c, h1, hc⟩ := hs.deref hσ
  have hnode : ¬ c.Eager → Made E σ (lazyMapper σ c m) (a.map m) := fun hn => Made.alloc hσ trivial (by simp) ⟨hc.iok, hm⟩ hc.rk
    (fun w => by simp only [LSet.den, LSpec.map, hc.den]) (fun h => hn (hc.eager h)) (fun _ => trivial) (fun _ => trivial)
    (fun h => h.elim (fun h => (hn (hc.eager h)).elim) fun h => ⟨(hc.plain h.1).cok, fun x y hx hy => h.2 x y ((hc.den x).1 hx) ((hc.den y).1 hy)⟩)
  simp only [LSet.mapM, h1, bind, Except.bind]
  cases c with
  | empty =>
    refine ⟨(.empty, σ), rfl, Made.here hσ (setOk_empty fun w hw => ?_)⟩
    obtain ⟨v, hv, _⟩ := hw
    exact (hc.den v).2 hv
  | frozen f =>
    obtain ⟨g, g1, g2⟩ := setMap_spec (U := T) hc.iok m
    obtain ⟨g', k1, k2, _, k4⟩ := buildSet_spec (f.tree.list.map m)
    rw [k1] at g2
    cases g2
    refine ⟨(.frozen g, σ), by simp [g1, pure, Except.pure], Made.here hσ (setOk_frozen k2 fun w => ?_)⟩
    rw [k4 w]
    simp only [LSpec.map]
    constructor
    · rintro ⟨v, hv, hvw⟩
      obtain ⟨u, hu, rfl⟩ := List.mem_map.1 hv
      exact ⟨u, (hc.den u).1 ((FSet.mem_iff_list (s := f) hc.iok u).2 ⟨u, hu, LawfulGoKey.refl u⟩), hvw⟩
    · rintro ⟨v, hv, hvw⟩
      obtain ⟨u, hu, huv⟩ := (FSet.mem_iff_list (s := f) hc.iok v).1 ((hc.den v).2 hv)
      exact ⟨m u, List.mem_map.2 ⟨u, hu, rfl⟩, eq_trans' (hm u v huv) hvw⟩
  | _ => exact ⟨_, rfl, hnode (fun h => h)⟩

theorem unionM_spec (hσ : StoreOk E σ) {s t : LSet T} {a b : LSpec T} (hs : SetOk E σ s a) (ht : SetOk E σ t b) :
    ∃ r, LSet.unionM σ s t = .ok r ∧ Made E σ r (a.union b) := by
  obtain ⟨c, h1, hc⟩ := hs.deref hσ
  have hnode : Made E σ (lazyUnion σ c t) (a.union b) := Made.alloc hσ trivial (by simp) ⟨hc.iok, ht.iok⟩
    (Nat.max_le.2 ⟨hc.rk, ht.rk⟩)
    (fun w => by simp only [LSet.den, LSpec.union, hc.den w, ht.den w]) (fun h => h) (fun h => ⟨hc.safe h.1, ht.safe h.2⟩) (fun h => h.elim)
    (fun h => ⟨hc.plain h.1, ht.plain h.2.1, fun w hw => h.2.2 w ⟨(hc.den w).1 hw.1, (ht.den w).1 hw.2⟩⟩)
  simp only [LSet.unionM, h1, bind, Except.bind]
  cases c with
  | empty =>
    have he : ∀ w, ¬ a.den w := fun w hw => (hc.den w).2 hw
    have hd : ∀ w, (a.union b).den w ↔ b.den w := fun w => by simp [LSpec.union, he w]
    refine ⟨(t, σ), rfl, Made.here hσ ⟨ht.iok, ht.rk, fun w => (ht.den w).trans (hd w).symm, fun h => h.elim, fun h => ht.safe h.2,
      fun h => h.elim, fun h => ht.plain h.2.1, fun h => ?_⟩⟩
    rcases h with ⟨w, hw⟩ | h
    · exact (he w hw).elim
    · rcases ht.once h with h | h
      · exact .inl h
      · exact .inr (fun w hw => h w ((hd w).1 hw))
  | _ => exact ⟨_, rfl, hnode⟩

theorem lazyInter_spec (hσ : StoreOk E σ) {c t : LSet T} {a b : LSpec T} (hc : DerefOk E σ c a) (ht : SetOk E σ t b) (hb : b.safe) :
    ∃ r, Runs (fun n => lazyInter n σ c t) r ∧ Made E σ r (a.inter b) := by
  obtain ⟨x, x1, x2⟩ := fastIsEmpty_spec hσ hc.iok hc.rk
  obtain ⟨y, y1, y2⟩ := fastIsEmpty_spec hσ ht.iok ht.rk
  have hnode : Made E σ (memoize σ (.inter c t)) (a.inter b) := Made.alloc hσ trivial (by simp) ⟨hc.iok, ht.iok, ht.safe hb⟩
    (Nat.max_le.2 ⟨hc.rk, ht.rk⟩)
    (fun w => by simp only [LSet.den, LSpec.inter, hc.den w, ht.den w]) (fun h => h) (fun h => ⟨hc.safe h.1, ht.safe h.2⟩)
    (fun h => ⟨hc.fast h.1, ht.fast h.2⟩) (fun h => (hc.plain h).cok)
  have heq : ∀ n, lazyInter n σ c t = (LSet.fastIsEmpty σ n c >>= fun x => if x = some true then .ok (.empty, σ) else
      LSet.fastIsEmpty σ n t >>= fun y => if y = some true then .ok (.empty, σ) else .ok (memoize σ (.inter c t))) := fun n => rfl
  by_cases hx : x = some true
  · refine ⟨(.empty, σ), Runs.congr heq (Runs.bind (g := fun x n => _) x1 (by simp only [hx, if_true]; exact Runs.const _)),
      Made.here hσ (setOk_empty fun w hw => ?_)⟩
    exact (x2 true hx).1 rfl w ((hc.den w).2 hw.1)
  · by_cases hy : y = some true
    · refine ⟨(.empty, σ), Runs.congr heq (Runs.bind (g := fun x n => _) x1 ?_), Made.here hσ (setOk_empty fun w hw => ?_)⟩
      · simp only [hx, if_false]
        exact Runs.bind (g := fun x n => _) y1 (by simp only [hy, if_true]; exact Runs.const _)
      · exact (y2 true hy).1 rfl w ((ht.den w).2 hw.2)
    · refine ⟨_, Runs.congr heq (Runs.bind (g := fun x n => _) x1 ?_), hnode⟩
      simp only [hx, if_false]
      exact Runs.bind (g := fun x n => _) y1 (by simp only [hy, if_false]; exact Runs.const _)

theorem interM_spec (hσ : StoreOk E σ) {s t : LSet T} {a b : LSpec T} (hs : SetOk E σ s a) (ht : SetOk E σ t b) (hb : b.safe) :
    ∃ r, Runs (fun n => LSet.interM n σ s t) r ∧ Made E σ r (a.inter b) := by
  obtain ⟨c, h1, hc⟩ := hs.deref hσ
  have hnode := lazyInter_spec hσ hc ht hb
  simp only [LSet.interM, h1, bind, Except.bind]
  cases c with
  | empty =>
    refine ⟨(.empty, σ), Runs.const _, Made.here hσ (setOk_empty fun w hw => ?_)⟩
    exact (hc.den w).2 hw.1
  | _ => exact hnode

/-- What `difference` makes, for a spec that says no more than `LSpec.diff`. -/
theorem lazyDiff_spec (hσ : StoreOk E σ) {c t : LSet T} {a b : LSpec T} (hc : DerefOk E σ c a) (ht : SetOk E σ t b) (hb : b.safe) :
    ∃ r, Runs (fun n => lazyDiff n σ c t) r ∧ Made E σ r (a.diff b) ∧ (∃ l, r.2 = σ ++ l) ∧ (c ≠ .empty → ∀ l, LSet.deref (r.2 ++ l) r.1 ≠ .ok .empty) := by
  obtain ⟨x, x1, x2⟩ := fastIsEmpty_spec hσ hc.iok hc.rk
  obtain ⟨y, y1, y2⟩ := fastIsEmpty_spec hσ ht.iok ht.rk
  have hnode : Made E σ (memoize σ (.diff c t)) (a.diff b) := Made.alloc hσ trivial (by simp) ⟨hc.iok, ht.iok, ht.safe hb⟩
    (Nat.max_le.2 ⟨hc.rk, ht.rk⟩)
    (fun w => by simp only [LSet.den, LSpec.diff, hc.den w, ht.den w]) (fun h => h) (fun h => h.elim)
    (fun h => h.elim) (fun h => (hc.plain h).cok)
  have heq : ∀ n, lazyDiff n σ c t = (LSet.fastIsEmpty σ n c >>= fun x => if x = some true then .ok (c, σ) else
      LSet.fastIsEmpty σ n t >>= fun y => if y = some true then .ok (c, σ) else .ok (memoize σ (.diff c t))) := fun n => rfl
  have hkeep : c ≠ .empty → ∀ l, LSet.deref (σ ++ l) c ≠ .ok .empty := fun h l => by
    have hn := hc.notMemo
    cases c with
    | memo k => exact hn.elim
    | empty => exact (h rfl).elim
    | _ => simp [LSet.deref]
  have hplain : a.plain → c.Plain E := hc.plain
  by_cases hx : x = some true
  · have he : ∀ w, ¬ a.den w := fun w hw => (x2 true hx).1 rfl w ((hc.den w).2 hw)
    refine ⟨(c, σ), Runs.congr heq (Runs.bind (g := fun x n => _) x1 (by simp only [hx, if_true]; exact Runs.const _)),
      Made.here hσ ⟨hc.iok, hc.rk, fun w => ?_, fun h => h.elim, fun h => h.elim, fun h => h.elim, hplain, fun _ => .inr fun w hw => he w hw.1⟩, ⟨[], by simp⟩, hkeep⟩
    simp [hc.den w, LSpec.diff, he w]
  · by_cases hy : y = some true
    · have he : ∀ w, ¬ b.den w := fun w hw => (y2 true hy).1 rfl w ((ht.den w).2 hw)
      refine ⟨(c, σ), Runs.congr heq (Runs.bind (g := fun x n => _) x1 ?_),
        Made.here hσ ⟨hc.iok, hc.rk, fun w => ?_, fun h => h.elim, fun h => h.elim, fun h => h.elim, hplain, fun h => ?_⟩, ⟨[], by simp⟩, hkeep⟩
      · simp only [hx, if_false]
        exact Runs.bind (g := fun x n => _) y1 (by simp only [hy, if_true]; exact Runs.const _)
      · simp [hc.den w, LSpec.diff, he w]
      · rcases h with h | ⟨w, hw⟩
        · exact .inl (hc.plain h).cok
        · exact (he w hw).elim
    · refine ⟨_, Runs.congr heq (Runs.bind (g := fun x n => _) x1 ?_), hnode, ⟨[.diff c t], by rw [memoize_node (c := .diff c t) trivial (by simp)]⟩, fun _ l => by
        rw [memoize_node (c := .diff c t) trivial (by simp)]
        simp [LSet.deref]⟩
      simp only [hx, if_false]
      exact Runs.bind (g := fun x n => _) y1 (by simp only [hy, if_false]; exact Runs.const _)

theorem diffM_spec (hσ : StoreOk E σ) {s t : LSet T} {a b : LSpec T} (hs : SetOk E σ s a) (ht : SetOk E σ t b) (hb : b.safe) :
    ∃ r, Runs (fun n => LSet.diffM n σ s t) r ∧ Made E σ r (a.diff b) ∧ (∃ l, r.2 = σ ++ l) ∧
      (∀ c, LSet.deref σ s = .ok c → c ≠ .empty → ∀ l, LSet.deref (r.2 ++ l) r.1 ≠ .ok .empty) := by
  obtain ⟨c, h1, hc⟩ := hs.deref hσ
  obtain ⟨r, r1, r2, r3, r4⟩ := lazyDiff_spec hσ hc ht hb
  simp only [LSet.diffM, h1, bind, Except.bind]
  cases c with
  | empty =>
    refine ⟨(.empty, σ), Runs.const _, Made.here hσ (setOk_empty fun w hw => (hc.den w).2 hw.1), ⟨[], by simp⟩, fun c hc hne => ?_⟩
    cases hc
    exact (hne rfl).elim
  | _ => exact ⟨r, r1, r2, r3, fun c hc => by cases hc; exact r4⟩

theorem DerefOk.setOk {c : LSet T} {a : LSpec T} (hc : DerefOk E σ c a) : SetOk E σ c ⟨a.den, a.eager, a.safe, a.fast, a.plain, a.plain⟩ := by
  exact ⟨hc.iok, hc.rk, hc.den, hc.eager, hc.safe, hc.fast, hc.plain, fun h => .inl (hc.plain h).cok⟩

theorem SetOk.congr_spec {s : LSet T} {a b : LSpec T} (h : SetOk E σ s a) (hd : ∀ w, a.den w ↔ b.den w) (he : b.eager → a.eager)
    (hs : b.safe → a.safe) (hf : b.fast → a.fast) (hp : b.plain → a.plain) (ho : b.once → a.once ∨ s.Cok E) : SetOk E σ s b :=
  ⟨h.iok, h.rk, fun w => (h.den w).trans (hd w), fun x => h.eager (he x), fun x => h.safe (hs x), fun x => h.fast (hf x), fun x => h.plain (hp x),
    fun x => (ho x).elim (fun y => (h.once y).imp id (fun z w hw => z w ((hd w).2 hw))) .inl⟩

theorem symmM_spec (hσ : StoreOk E σ) {s t : LSet T} {a b : LSpec T} (hs : SetOk E σ s a) (ht : SetOk E σ t b) (ha : a.safe) (hb : b.safe) :
    ∃ r, Runs (fun n => LSet.symmM n σ s t) r ∧ Made E σ r (a.symm b) := by
  obtain ⟨c, h1, hc⟩ := hs.deref hσ
  have hcs := hc.setOk
  by_cases hce : c = .empty
  · subst hce
    have he : ∀ w, ¬ a.den w := fun w hw => (hc.den w).2 hw
    refine ⟨(t, σ), Runs.congr (g := fun _ => .ok (t, σ)) (fun n => by simp only [LSet.symmM, h1, bind, Except.bind]; rfl) (Runs.const _), Made.here hσ ?_⟩
    refine ht.congr_spec (fun w => by simp [LSpec.symm, he w]) (fun h => h.elim) (fun h => h.elim) (fun h => h.elim) (fun h => h.2) ?_
    rintro (⟨w, hw⟩ | h)
    · exact (he w hw).elim
    · exact .inl h
  · obtain ⟨x, x1, ⟨E1, x2, x3⟩, x4, x5⟩ := diffM_spec hσ hcs ht hb
    have hdc : LSet.deref σ c = .ok c := by
      have hn := hc.notMemo
      cases c with
      | memo k => exact hn.elim
      | _ => rfl
    obtain ⟨y, y1, ⟨E2, y2, y3⟩, ⟨l, y4⟩, y5⟩ := diffM_spec x2.store (ht.ext x2) (hcs.ext x2) (by exact ha)
    obtain ⟨z, z1, E3, z2, z3⟩ := unionM_spec y2.store (x3.ext y2) y3
    have heq : ∀ n, LSet.symmM n σ s t = (LSet.diffM n σ c t >>= fun x => LSet.diffM n x.2 t c >>= fun y => LSet.unionM y.2 x.1 y.1) := by
      intro n
      simp only [LSet.symmM, h1, bind, Except.bind]
      cases c with
      | empty => exact (hce rfl).elim
      | _ => rfl
    refine ⟨z, Runs.congr heq (Runs.bind (g := fun x n => _) x1 (Runs.bind (g := fun y n => _) y1 ?_)), E3, (x2.trans y2).trans z2, ?_⟩
    · rw [z1]; exact Runs.const _
    · refine z3.congr_spec (fun w => Iff.rfl) (fun h => h) (fun h => h.elim) (fun h => h.elim)
        (fun h => ⟨h.1, h.2, fun w hw => hw.1.2 hw.2.1⟩) (fun _ => .inr ?_)
      have hne := x5 c hdc hce l
      rw [← y4] at hne
      simp only [LSet.unionM] at z1
      cases hd : LSet.deref y.2 x.1 with
      | error e => rw [hd] at z1; simp [bind, Except.bind] at z1
      | ok d =>
        rw [hd] at z1
        simp only [bind, Except.bind] at z1
        cases d with
        | empty => exact (hne hd).elim
        | _ => simp only [pure, Except.pure, lazyUnion, memoize, Except.ok.injEq] at z1; rw [← z1]; trivial

theorem SetOk.cong (hσ : StoreOk E σ) {s : LSet T} {a : LSpec T} (hs : SetOk E σ s a) : CongP a.den := fun x y h => by
  rw [← hs.den, ← hs.den]; exact LSet.den_congr hσ.env hs.iok x y h

theorem singleton_spec (v : T) : ∃ f, buildSet [v] = .ok f ∧ f.Valid ∧ ∀ w, f.Mem w ↔ GoKey.eq v w = true := by
  obtain ⟨f, h1, h2, _, h4⟩ := buildSet_spec [v]
  exact ⟨f, h1, h2, fun w => by rw [h4 w]; simp⟩

theorem withM_spec (hσ : StoreOk E σ) {s : LSet T} {a : LSpec T} (hs : SetOk E σ s a) (v : T) :
    ∃ r, LSet.withM σ s v = .ok r ∧ Made E σ r (a.with v) := by
  obtain ⟨c, h1, hc⟩ := hs.deref hσ
  obtain ⟨f, f1, f2, f3⟩ := singleton_spec v
  have hnode : ¬ c.Eager → Made E σ (lazyUnion σ c (.frozen f)) (a.with v) := fun hne => Made.alloc hσ trivial (by simp) ⟨hc.iok, f2⟩
    (Nat.max_le.2 ⟨hc.rk, Nat.zero_le _⟩)
    (fun w => by simp only [LSet.den, LSpec.with, hc.den w, f3 w]) (fun h => hne (hc.eager h)) (fun h => ⟨hc.safe h, trivial⟩)
    (fun h => (hne (hc.eager h)).elim)
    (fun h => h.elim (fun h => (hne (hc.eager h)).elim) fun h => ⟨hc.plain h.1, trivial, fun w hw => h.2 ((hs.cong hσ v w ((f3 w).1 hw.2)).2 ((hc.den w).1 hw.1))⟩)
  simp only [LSet.withM, h1, bind, Except.bind]
  cases c with
  | empty =>
    simp only [f1]
    refine ⟨(.frozen f, σ), rfl, Made.here hσ (setOk_frozen f2 fun w => ?_)⟩
    rw [f3 w]
    have : ¬ a.den w := fun hw => (hc.den w).2 hw
    simp [LSpec.with, this]
  | frozen g =>
    obtain ⟨r, g1, g2, g3⟩ := FSet.with_spec (s := g) hc.iok v
    simp only [g1]
    refine ⟨(.frozen r, σ), rfl, Made.here hσ (setOk_frozen g2 fun w => ?_)⟩
    rw [g3.2 w]
    have := hc.den w
    simp only [LSet.den] at this
    simp only [LSpec.with, ← this]
  | _ => simp only [f1]; exact ⟨_, rfl, hnode (fun h => h)⟩

theorem withoutM_spec (hσ : StoreOk E σ) {s : LSet T} {a : LSpec T} (hs : SetOk E σ s a) (v : T) :
    ∃ r, Runs (fun n => LSet.withoutM n σ s v) r ∧ Made E σ r (a.without v) := by
  obtain ⟨c, h1, hc⟩ := hs.deref hσ
  obtain ⟨f, f1, f2, f3⟩ := singleton_spec v
  have hft : SetOk E σ (.frozen f) (LSpec.frozen (fun w => GoKey.eq v w = true)) := setOk_frozen f2 f3
  have hnode : ¬ c.Eager → ∃ r, Runs (fun n => lazyDiff n σ c (.frozen f)) r ∧ Made E σ r (a.without v) := fun hne => by
    obtain ⟨r, r1, ⟨E', r2, r3⟩, _⟩ := lazyDiff_spec hσ hc hft trivial
    refine ⟨r, r1, E', r2, r3.congr_spec (fun w => Iff.rfl) (fun h => (hne (hc.eager h)).elim) (fun h => (hne (hc.eager h)).elim)
      (fun h => (hne (hc.eager h)).elim) (fun h => h) (fun _ => .inl (.inr ⟨v, LawfulGoKey.refl v⟩))⟩
  simp only [LSet.withoutM, h1, bind, Except.bind]
  cases c with
  | empty => exact ⟨(.empty, σ), Runs.const _, Made.here hσ (setOk_empty fun w hw => (hc.den w).2 hw.1)⟩
  | frozen g =>
    obtain ⟨r, g1, g2, g3⟩ := FSet.without_spec (s := g) hc.iok v
    simp only [g1]
    refine ⟨(.frozen r, σ), Runs.const _, Made.here hσ (setOk_frozen g2 fun w => ?_)⟩
    rw [g3.2 w]
    have := hc.den w
    simp only [LSet.den] at this
    simp only [LSpec.without, ← this]
  | _ => simp only [f1]; exact hnode (fun h => h)

end Frozen
