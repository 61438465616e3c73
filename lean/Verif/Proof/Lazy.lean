import Verif.Proof.LazyEnv

/-! Lazy sets: `Range`, `Next` and `Has`. -/

set_option linter.unusedSectionVars false

namespace Frozen

variable {T : Type} [GoKey T] [LawfulGoKey T] {E : LEnv T} {σ : LStore T}

theorem deref_memo (hσ : StoreOk E σ) {k : Nat} (hk : k < σ.length) :
    ∃ c, LSet.deref σ (.memo k) = .ok c ∧ σ[k]? = some c ∧ CellOk E k c := by
  have e : σ[k]? = some σ[k] := List.getElem?_eq_getElem hk
  have hc := hσ.cells k _ e
  refine ⟨σ[k], ?_, e, hc⟩
  have hn := hc.notMemo
  simp only [LSet.deref, e]
  cases h : σ[k] with
  | memo j => rw [h] at hn; exact hn.elim
  | _ => rfl

theorem deref_other {s : LSet T} (h : s.NotMemo) : LSet.deref σ s = .ok s := by
  cases s with
  | memo k => exact h.elim
  | _ => rfl

/-- The iterator `Range` returns. -/
structure RangeOk (E : LEnv T) (s : LSet T) (it : LIter T) : Prop where
  ok : it.IterOk E
  rk : it.rk ≤ s.rk
  sz : it.sz ≤ s.sz
  mu : it.mu E ≤ s.ssize E
  rest : ∀ w, it.rest E w ↔ s.den E w
  dst : s.Cok E → it.Dst E

theorem FSet.range_ok {s : FSet T} (h : s.Valid) : ∃ it, s.range = .ok it ∧ it.rem = s.tree.list ∧ it.Ok := by
  exact iterator_spec (Tree.Valid.nodeOk h)

theorem rangeOk_frozen {s : FSet T} (h : s.Valid) {it : Iter T} (h1 : it.rem = s.tree.list) (h2 : it.Ok) :
    RangeOk E (.frozen s) (.frozen it) := by
  refine ⟨h2, Nat.le_refl _, Nat.le_refl _, ?_, fun w => ?_, fun _ => ?_⟩
  · simp only [LIter.mu, LSet.ssize, h1, Nat.le_refl]
  · simp only [LIter.rest, LSet.den, FSet.mem_iff_list h, h1]
  · show Distinct it.rem
    rw [h1]; exact Tree.Valid.distinct h

theorem seen_zero_mem (w : T) : ¬ FSet.Mem (⟨Tree.zero⟩ : FSet T) w := by
  rw [FSet.mem_iff (s := ⟨Tree.zero⟩) Tree.valid_zero, Tree.look_zero]; simp

theorem range_aux (hσ : StoreOk E σ) : ∀ (r : Nat) (s : LSet T), s.rk ≤ r → s.rk ≤ σ.length → s.IOk E →
    ∃ it, Runs (fun n => LSet.range σ n s) it ∧ RangeOk E s it := by
  intro r
  induction r using Nat.strong_induction_on with
  | _ r ihr =>
  intro s
  induction s with
  | empty =>
    intro _ _ _
    refine ⟨.empty, Runs.step (g := fun _ => .ok .empty) (fun _ => rfl) (Runs.const _), trivial, Nat.le_refl _, Nat.le_refl _, Nat.le_refl _, fun _ => Iff.rfl,
      fun _ => trivial⟩
  | frozen s =>
    intro _ _ h
    obtain ⟨it, h1, h2, h3⟩ := FSet.range_ok h
    refine ⟨.frozen it, Runs.step (g := fun _ => .ok (.frozen it)) (fun _ => ?_) (Runs.const _), rangeOk_frozen h h2 h3⟩
    simp only [LSet.range, h1]; rfl
  | memo k =>
    intro hr hl _
    have hk : k < σ.length := hl
    obtain ⟨c, h1, h2, hc⟩ := deref_memo hσ hk
    by_cases hf : ∃ f, c = .frozen f
    · obtain ⟨f, rfl⟩ := hf
      obtain ⟨it, g1, g2, g3⟩ := FSet.range_ok (s := f) hc.iok
      have hro := rangeOk_frozen (E := E) (s := f) hc.iok g2 g3
      refine ⟨.frozen it, Runs.step (g := fun _ => .ok (.frozen it)) (fun _ => ?_) (Runs.const _), hro.ok, ?_, ?_, ?_, ?_, ?_⟩
      · simp only [LSet.range, h1, bind, Except.bind, g1]; rfl
      · simp [LIter.rk]
      · simp [LIter.sz, LSet.sz]
      · exact Nat.le_trans hro.mu hc.size
      · intro w; rw [hro.rest w]; exact hc.den w
      · intro _; exact hro.dst trivial
    · have hrk : c.rk ≤ k := hc.rk
      have hr : k + 1 ≤ r := hr
      obtain ⟨i, g1, g2⟩ := ihr k (by omega) c hrk (by omega) hc.iok
      refine ⟨.caching i k Tree.zero, Runs.step (g := fun n => LSet.range σ n c >>= fun i => .ok (.caching i k Tree.zero)) (fun n => ?_)
        (Runs.bind (g := fun i _ => .ok (LIter.caching i k Tree.zero)) g1 (Runs.const _)), ?_, ?_, ?_, ?_, ?_, ?_⟩
      · simp only [LSet.range, h1, bind, Except.bind]
        cases c with
        | frozen f => exact (hf ⟨f, rfl⟩).elim
        | _ => rfl
      · refine ⟨g2.ok, Nat.le_trans g2.rk hrk, Tree.valid_zero, fun w => ?_, ?_⟩
        · rw [g2.rest w, hc.den w]
          constructor
          · exact fun h => .inr h
          · rintro (h | h)
            · exact (seen_zero_mem w h).elim
            · exact h
        · have := g2.mu
          have := hc.size
          simp only [Tree.list, Tree.zero, elems, List.length_nil]
          omega
      · exact Nat.le_refl _
      · exact Nat.le_refl _
      · exact Nat.le_trans g2.mu hc.size
      · intro w
        simp only [LIter.rest, LSet.den, g2.rest w, hc.den w]
        exact and_iff_left (seen_zero_mem w)
      · intro _; trivial
  | «where» s p ih =>
    intro hr hl h
    obtain ⟨i, g1, g2⟩ := ih hr hl h.1
    refine ⟨.where i p, Runs.step (g := fun n => LSet.range σ n s >>= fun i => .ok (.where i p)) (fun n => rfl)
        (Runs.bind (g := fun i _ => .ok (LIter.where i p)) g1 (Runs.const _)), ⟨g2.ok, h.2⟩, g2.rk, ?_, g2.mu, ?_, g2.dst⟩
    · have := g2.sz; simp only [LIter.sz, LSet.sz]; omega
    · intro w; simp only [LIter.rest, LSet.den, g2.rest w]
  | map s m ih =>
    intro hr hl h
    obtain ⟨i, g1, g2⟩ := ih hr hl h.1
    refine ⟨.map i m, Runs.step (g := fun n => LSet.range σ n s >>= fun i => .ok (.map i m)) (fun n => rfl)
        (Runs.bind (g := fun i _ => .ok (LIter.map i m)) g1 (Runs.const _)), ⟨g2.ok, h.2⟩, g2.rk, ?_, g2.mu, ?_,
      fun h => ⟨g2.dst h.1, fun x y hx hy => h.2 x y ((g2.rest x).1 hx) ((g2.rest y).1 hy)⟩⟩
    · have := g2.sz; simp only [LIter.sz, LSet.sz]; omega
    · intro w; simp only [LIter.rest, LSet.den, g2.rest]
  | union a b iha ihb =>
    intro hr hl h
    have hr := Nat.max_le.1 hr
    have hl := Nat.max_le.1 hl
    obtain ⟨i, g1, g2⟩ := iha hr.1 hl.1 h.1
    refine ⟨.union i (some b), Runs.step (g := fun n => LSet.range σ n a >>= fun i => .ok (.union i (some b))) (fun n => rfl)
        (Runs.bind (g := fun i _ => .ok (LIter.union i (some b))) g1 (Runs.const _)), ⟨g2.ok, h.2⟩, ?_, ?_, ?_, ?_, fun h => ⟨g2.dst h.1, h.2.1, fun w hw => h.2.2 w ⟨(g2.rest w).1 hw.1, hw.2⟩⟩⟩
    · have := g2.rk; simp only [LIter.rk, LSet.rk]; omega
    · have := g2.sz; simp only [LIter.sz, LSet.sz]; omega
    · have := g2.mu; simp only [LIter.mu, LSet.ssize]; omega
    · intro w; simp only [LIter.rest, LSet.den, g2.rest]
  | inter a b iha ihb =>
    intro hr hl h
    have hr := Nat.max_le.1 hr
    have hl := Nat.max_le.1 hl
    obtain ⟨i, g1, g2⟩ := iha hr.1 hl.1 h.1
    refine ⟨.inter i b, Runs.step (g := fun n => LSet.range σ n a >>= fun i => .ok (.inter i b)) (fun n => rfl)
        (Runs.bind (g := fun i _ => .ok (LIter.inter i b)) g1 (Runs.const _)), ⟨g2.ok, h.2⟩, ?_, ?_, ?_, ?_, g2.dst⟩
    · have := g2.rk; simp only [LIter.rk, LSet.rk]; omega
    · have := g2.sz; simp only [LIter.sz, LSet.sz]; omega
    · have := g2.mu; simp only [LIter.mu, LSet.ssize]; omega
    · intro w; simp only [LIter.rest, LSet.den, g2.rest]
  | diff a b iha ihb =>
    intro hr hl h
    have hr := Nat.max_le.1 hr
    have hl := Nat.max_le.1 hl
    obtain ⟨i, g1, g2⟩ := iha hr.1 hl.1 h.1
    refine ⟨.diff i b, Runs.step (g := fun n => LSet.range σ n a >>= fun i => .ok (.diff i b)) (fun n => rfl)
        (Runs.bind (g := fun i _ => .ok (LIter.diff i b)) g1 (Runs.const _)), ⟨g2.ok, h.2⟩, ?_, ?_, ?_, ?_, g2.dst⟩
    · have := g2.rk; simp only [LIter.rk, LSet.rk]; omega
    · have := g2.sz; simp only [LIter.sz, LSet.sz]; omega
    · have := g2.mu; simp only [LIter.mu, LSet.ssize]; omega
    · intro w; simp only [LIter.rest, LSet.den, g2.rest]

theorem range_spec (hσ : StoreOk E σ) {s : LSet T} (hs : s.IOk E) (hl : s.rk ≤ σ.length) :
    ∃ it, Runs (fun n => LSet.range σ n s) it ∧ RangeOk E s it := range_aux hσ s.rk s (Nat.le_refl _) hl hs

/-- What a call of `Next` achieves. -/
structure NextOk (E : LEnv T) (σ : LStore T) (it : LIter T) (r : LIter T × Bool × LStore T) : Prop where
  store : StoreOk E r.2.2
  len : r.2.2.length = σ.length
  rk : r.1.rk ≤ it.rk
  sz : r.1.sz ≤ it.sz
  cell : r.1.cell = it.cell
  more : r.2.1 = true → ∃ v, r.1.value = .ok v ∧ r.1.IterOk E ∧ r.1.mu E < it.mu E ∧
    (∀ w, it.rest E w ↔ GoKey.eq v w = true ∨ r.1.rest E w) ∧ (it.Dst E → ¬ r.1.rest E v ∧ r.1.Dst E)
  done : r.2.1 = false → (∀ w, ¬ it.rest E w) ∧ ∀ k, it.cell = some k → ∃ s, r.2.2[k]? = some (.frozen s)

/-- A value was skipped. -/
theorem NextOk.skip {it it1 : LIter T} {σ1 : LStore T} {r : LIter T × Bool × LStore T} (h : NextOk E σ1 it1 r)
    (hlen : σ1.length = σ.length) (hrk : it1.rk ≤ it.rk) (hsz : it1.sz ≤ it.sz) (hcell : it1.cell = it.cell) (hmu : it1.mu E ≤ it.mu E)
    (hrest : ∀ w, it.rest E w ↔ it1.rest E w) (hd : it.Dst E → it1.Dst E) : NextOk E σ it r := by
  refine ⟨h.store, h.len.trans hlen, Nat.le_trans h.rk hrk, Nat.le_trans h.sz hsz, h.cell.trans hcell, fun ho => ?_, fun ho => ?_⟩
  · obtain ⟨v, h1, h2, h3, h4, h5⟩ := h.more ho
    exact ⟨v, h1, h2, Nat.lt_of_lt_of_le h3 hmu, fun w => (hrest w).trans (h4 w), fun g => h5 (hd g)⟩
  · obtain ⟨h1, h2⟩ := h.done ho
    exact ⟨fun w hw => h1 w ((hrest w).1 hw), fun k hk => h2 k (hcell.trans hk)⟩

def NextAll (T : Type) [GoKey T] (r z : Nat) : Prop := ∀ (E : LEnv T) (σ : LStore T) (it : LIter T), StoreOk E σ → it.IterOk E →
  it.rk ≤ σ.length → it.rk ≤ r → it.sz ≤ z → ∃ res, Runs (fun n => LIter.next n σ it) res ∧ NextOk E σ it res

def HasAll (T : Type) [GoKey T] (r z : Nat) : Prop := ∀ (E : LEnv T) (σ : LStore T) (s : LSet T) (el : T), StoreOk E σ → s.IOk E →
  s.rk ≤ σ.length → s.rk ≤ r → s.sz ≤ z → ∃ b σ', Runs (fun n => LSet.has n σ s el) (b, σ') ∧ StoreOk E σ' ∧
    σ'.length = σ.length ∧ (s.HOk E → (b = true ↔ s.den E el))

theorem NextAll.mono {r z r' z' : Nat} (h : NextAll T r z) (hr : r' ≤ r) (hz : z' ≤ z) : NextAll T r' z' :=
  fun E σ it h1 h2 h3 h4 h5 => h E σ it h1 h2 h3 (Nat.le_trans h4 hr) (Nat.le_trans h5 hz)

/-- A loop that filters the values of `i` (set_where.go:35-42, set_intersection.go:45-54, set_diff.go:40-49). -/
theorem filter_next {r z : Nat} (ih : NextAll T r z) (mk : LIter T → LIter T) (Q : T → Prop)
    (test : Nat → LStore T → T → Go (Bool × LStore T))
    (heq : ∀ (n : Nat) (σ : LStore T) (i : LIter T), LIter.next (n + 1) σ (mk i) = (LIter.next n σ i >>= fun x =>
      if x.2.1 = true then x.1.value >>= fun v => test n x.2.2 v >>= fun y =>
        if y.1 = true then .ok (mk x.1, true, y.2) else LIter.next n y.2 (mk x.1)
      else .ok (mk x.1, false, x.2.2)))
    (hval : ∀ i, (mk i).value = i.value) (hmu : ∀ i, (mk i).mu E = i.mu E) (hcell : ∀ i, (mk i).cell = none)
    (hrk : ∀ i i', i'.rk ≤ i.rk → (mk i').rk ≤ (mk i).rk) (hrk' : ∀ i, i.rk ≤ (mk i).rk)
    (hsz : ∀ i i', i'.sz ≤ i.sz → (mk i').sz ≤ (mk i).sz)
    (hrest : ∀ i w, (mk i).rest E w ↔ i.rest E w ∧ Q w) (hQ : CongP Q) (hdst : ∀ i, (mk i).Dst E ↔ i.Dst E)
    (hok : ∀ i i', (mk i).IterOk E → i'.IterOk E → (mk i').IterOk E) (hok' : ∀ i, (mk i).IterOk E → i.IterOk E)
    (L : Nat) (htest : ∀ (σ : LStore T) (v : T), StoreOk E σ → σ.length = L → ∃ b σ', Runs (fun n => test n σ v) (b, σ') ∧ StoreOk E σ' ∧
      σ'.length = L ∧ (b = true ↔ Q v)) :
    ∀ (m : Nat) (σ : LStore T) (i : LIter T), i.mu E ≤ m → StoreOk E σ → σ.length = L → (mk i).IterOk E → (mk i).rk ≤ L → i.rk ≤ r → i.sz ≤ z →
      ∃ res, Runs (fun n => LIter.next n σ (mk i)) res ∧ NextOk E σ (mk i) res := by
  intro m
  induction m with
  | zero =>
    intro σ i hm hσ hL hi hl hr hz
    obtain ⟨⟨i', ok, σ'⟩, h1, h2⟩ := ih E σ i hσ (hok' i hi) (by have := hrk' i; omega) hr hz
    cases ok with
    | true =>
      obtain ⟨v, _, _, h, _⟩ := h2.more rfl
      simp only at h
      omega
    | false =>
      refine ⟨(mk i', false, σ'), Runs.step (fun n => heq n σ i) (Runs.bind (g := fun x n => _) h1 ?_), h2.store, h2.len, hrk _ _ h2.rk,
        hsz _ _ h2.sz, by rw [hcell, hcell], by simp, fun _ => ⟨fun w hw => (h2.done rfl).1 w ((hrest i w).1 hw).1, fun k hk => ?_⟩⟩
      · simp only [Bool.false_eq_true, if_false]; exact Runs.const _
      · rw [hcell] at hk; cases hk
  | succ m ihm =>
    intro σ i hm hσ hL hi hl hr hz
    obtain ⟨⟨i', ok, σ'⟩, h1, h2⟩ := ih E σ i hσ (hok' i hi) (by have := hrk' i; omega) hr hz
    cases ok with
    | false =>
      refine ⟨(mk i', false, σ'), Runs.step (fun n => heq n σ i) (Runs.bind (g := fun x n => _) h1 ?_), h2.store, h2.len, hrk _ _ h2.rk,
        hsz _ _ h2.sz, by rw [hcell, hcell], by simp, fun _ => ⟨fun w hw => (h2.done rfl).1 w ((hrest i w).1 hw).1, fun k hk => ?_⟩⟩
      · simp only [Bool.false_eq_true, if_false]; exact Runs.const _
      · rw [hcell] at hk; cases hk
    | true =>
      obtain ⟨v, hv, hio, hmu', hre, hd⟩ := h2.more rfl
      obtain ⟨b, σ'', t1, t2, t3, t4⟩ := htest σ' v h2.store (h2.len.trans hL)
      have hmk := hok i i' hi hio
      have hrk1 := hrk _ _ h2.rk
      have hsz1 := hsz _ _ h2.sz
      have hr2 := h2.rk
      have hz2 := h2.sz
      simp only at hv hio hmu' hre hd hrk1 hsz1 hr2 hz2
      cases b with
      | true =>
        have hQv : Q v := t4.1 rfl
        refine ⟨(mk i', true, σ''), Runs.step (fun n => heq n σ i) (Runs.bind (g := fun x n => _) h1 ?_), t2, by simp only; omega, hrk1, hsz1,
          by rw [hcell, hcell], fun _ => ⟨v, by rw [hval]; exact hv, hmk, by rw [hmu, hmu]; exact hmu', fun w => ?_, fun hdi => ?_⟩, by simp⟩
        · simp only [if_true, hv]
          exact Runs.bind (g := fun y n => _) (Runs.const v) (Runs.bind (g := fun y n => _) t1 (by simp only [if_true]; exact Runs.const _))
        · simp only [hrest, hre]
          constructor
          · rintro ⟨h | h, q⟩
            · exact .inl h
            · exact .inr ⟨h, q⟩
          · rintro (h | ⟨h, q⟩)
            · exact ⟨.inl h, (hQ v w h).1 hQv⟩
            · exact ⟨.inr h, q⟩
        · obtain ⟨d1, d2⟩ := hd ((hdst i).1 hdi)
          exact ⟨fun h => d1 ((hrest _ _).1 h).1, (hdst _).2 d2⟩
      | false =>
        have hQv : ¬ Q v := fun h => by simpa using t4.2 h
        obtain ⟨res, r1, r2⟩ := ihm σ'' i' (by omega) t2 (by omega) hmk (by omega) (by omega) (by omega)
        refine ⟨res, Runs.step (fun n => heq n σ i) (Runs.bind (g := fun x n => _) h1 ?_), r2.skip (by omega) hrk1 hsz1
          (by rw [hcell, hcell]) (by rw [hmu, hmu]; omega) (fun w => ?_) (fun hdi => (hdst _).2 (hd ((hdst i).1 hdi)).2)⟩
        · simp only [if_true, hv]
          exact Runs.bind (g := fun y n => _) (Runs.const v) (Runs.bind (g := fun y n => _) t1
            (by simp only [Bool.false_eq_true, if_false]; exact r1))
        · simp only [hrest, hre]
          constructor
          · rintro ⟨h | h, q⟩
            · exact (hQv ((hQ v w h).2 q)).elim
            · exact ⟨h, q⟩
          · rintro ⟨h, q⟩; exact ⟨.inr h, q⟩

theorem next_empty : NextOk E σ .empty (.empty, false, σ) → ∃ res, Runs (fun n => LIter.next n σ .empty) res ∧ NextOk E σ .empty res :=
  fun h => ⟨_, Runs.step (g := fun _ => .ok (.empty, false, σ)) (fun n => by simp only [LIter.next]) (Runs.const _), h⟩

theorem next_frozen (hσ : StoreOk E σ) {it : Iter T} (h : it.Ok) :
    ∃ res, Runs (fun n => LIter.next n σ (.frozen it)) res ∧ NextOk E σ (.frozen it) res := by
  have hs := next_spec it h
  cases hr : it.rem with
  | nil =>
    obtain ⟨it', h1, h2, h3⟩ := hs.1 hr
    refine ⟨(.frozen it', false, σ), Runs.step (g := fun _ => .ok (.frozen it', false, σ)) (fun n => ?_) (Runs.const _), hσ, rfl, Nat.le_refl _,
      Nat.le_refl _, rfl, by simp, fun _ => ⟨fun w => ?_, fun k hk => by cases hk⟩⟩
    · simp only [LIter.next, h1]; rfl
    · simp [LIter.rest, hr]
  | cons x xs =>
    obtain ⟨it', h1, h2, h3, h4⟩ := hs.2 x xs hr
    refine ⟨(.frozen it', true, σ), Runs.step (g := fun _ => .ok (.frozen it', true, σ)) (fun n => ?_) (Runs.const _), hσ, rfl, Nat.le_refl _,
      Nat.le_refl _, rfl, fun _ => ⟨x, h3, h4, ?_, fun w => ?_, fun hd => ?_⟩, by simp⟩
    · simp only [LIter.next, h1]; rfl
    · simp [LIter.mu, hr, h2]
    · simp [LIter.rest, hr, h2]
    · have hd : Distinct it.rem := hd
      rw [hr] at hd
      have hd := List.pairwise_cons.1 hd
      refine ⟨?_, ?_⟩
      · simp only [LIter.rest, h2]
        rintro ⟨e, he, hex⟩
        have := hd.1 e he
        rw [PerGoKey.symm hex] at this
        cases this
      · show Distinct it'.rem
        rw [h2]; exact hd.2

/-- The loop of set_memo.go:46-52. -/
theorem next_caching {r z : Nat} (ih : NextAll T r z) (k : Nat) (hk : k < σ.length) : ∀ (m : Nat) (τ : LStore T) (i : LIter T) (seen : SetBuilder T), i.mu E ≤ m →
    StoreOk E τ → τ.length = σ.length → LIter.IterOk E (.caching i k seen) → i.rk ≤ r → i.sz ≤ z →
    ∃ res, Runs (fun n => LIter.next n τ (.caching i k seen)) res ∧ NextOk E τ (.caching i k seen) res := by
  intro m
  induction m using Nat.strong_induction_on with
  | _ m ihm =>
  intro τ i seen hm hτ hL hi hr hz
  obtain ⟨ho, hrk, hsv, hden, hbd⟩ := hi
  obtain ⟨⟨i', ok, τ'⟩, h1, h2⟩ := ih E τ i hτ ho (by omega) hr hz
  have heq : ∀ n, LIter.next (n + 1) τ (.caching i k seen) = (LIter.next n τ i >>= fun x =>
      if x.2.1 = true then x.1.value >>= fun v => SetBuilder.has seen v >>= fun y =>
        if y = true then LIter.next n x.2.2 (.caching x.1 k seen)
        else SetBuilder.add seen v >>= fun s => .ok (.caching x.1 k s, true, x.2.2)
      else .ok (.caching x.1 k Tree.zero, false, x.2.2.set k (.frozen ⟨seen⟩))) := by
    intro n
    simp only [LIter.next]
    congr 1
  have hhas : ∀ v, SetBuilder.has seen v = .ok (Tree.look seen v).isSome := fun v => by
    have := FSet.has_spec (s := ⟨seen⟩) hsv v
    exact this
  have hmem : ∀ v, FSet.Mem ⟨seen⟩ v ↔ (Tree.look seen v).isSome = true := fun v => FSet.mem_iff (s := ⟨seen⟩) hsv v
  cases ok with
  | false =>
    have hd := (h2.done rfl).1
    have hk' : k < τ'.length := by have := h2.len; simp only at this; omega
    have hden' : ∀ w, FSet.Mem ⟨seen⟩ w ↔ (E k).den w := fun w => by
      rw [hden w]; exact ⟨fun h => .inl h, fun h => h.resolve_right (hd w)⟩
    refine ⟨(.caching i' k Tree.zero, false, τ'.set k (.frozen ⟨seen⟩)), Runs.step heq (Runs.bind (g := fun x n => _) h1 ?_), ⟨h2.store.env, ?_⟩,
      by rw [List.length_set]; exact h2.len, Nat.le_refl _, Nat.le_refl _, rfl, by simp, fun _ => ⟨fun w hw => hd w hw.1, fun j hj => ?_⟩⟩
    · simp only [Bool.false_eq_true, if_false]; exact Runs.const _
    · intro j c hj
      by_cases hjk : j = k
      · subst hjk
        have e : (τ'.set j (.frozen ⟨seen⟩))[j]? = some (.frozen ⟨seen⟩) := by simp [hk']
        simp only at hj
        rw [e] at hj
        cases hj
        refine ⟨hsv, Nat.zero_le _, hden', ?_, fun _ => trivial, fun _ => trivial, fun _ => trivial, trivial⟩
        simp only [LSet.ssize]; omega
      · simp only [List.getElem?_set, Ne.symm hjk, if_false] at hj
        exact h2.store.cells j c hj
    · cases hj
      exact ⟨⟨seen⟩, by simp [hk']⟩
  | true =>
    obtain ⟨v, hv, hio, hmu', hre, _⟩ := h2.more rfl
    have hr2 := h2.rk
    have hz2 := h2.sz
    have hl2 := h2.len
    simp only at hv hio hmu' hre hr2 hz2 hl2
    by_cases hs : FSet.Mem ⟨seen⟩ v
    · have hcongr : ∀ w, GoKey.eq v w = true → FSet.Mem ⟨seen⟩ w := fun w hw => (FSet.mem_congr (s := ⟨seen⟩) hsv hw).1 hs
      have hok' : LIter.IterOk E (.caching i' k seen) := by
        refine ⟨hio, by omega, hsv, fun w => ?_, by omega⟩
        rw [hden w, hre w]
        constructor
        · rintro (h | h | h)
          · exact .inl h
          · exact .inl (hcongr w h)
          · exact .inr h
        · rintro (h | h)
          · exact .inl h
          · exact .inr (.inr h)
      obtain ⟨res, r1, r2⟩ := ihm (i'.mu E) (by omega) τ' i' seen (Nat.le_refl _) h2.store (by omega) hok' (by omega) (by omega)
      refine ⟨res, Runs.step heq (Runs.bind (g := fun x n => _) h1 ?_), r2.skip hl2 (Nat.le_refl _) (Nat.le_refl _) rfl ?_ (fun w => ?_) (fun h => h)⟩
      · simp only [if_true, hv]
        refine Runs.bind (g := fun y n => _) (Runs.const v) ?_
        rw [hhas v, (hmem v).1 hs]
        exact Runs.bind (g := fun y n => _) (Runs.const true) (by simp only [if_true]; exact r1)
      · simp only [LIter.mu]; omega
      · simp only [LIter.rest, hre]
        constructor
        · rintro ⟨h | h, q⟩
          · exact (q (hcongr w h)).elim
          · exact ⟨h, q⟩
        · rintro ⟨h, q⟩; exact ⟨.inr h, q⟩
    · obtain ⟨seen', a1, a2, a3, a4⟩ := Builder.add_spec (t := seen) hsv v
      have hs' : (Tree.look seen v).isSome = false := by
        cases hx : (Tree.look seen v).isSome with
        | false => rfl
        | true => exact (hs ((hmem v).2 hx)).elim
      have hmem' : ∀ w, FSet.Mem ⟨seen'⟩ w ↔ GoKey.eq v w = true ∨ FSet.Mem ⟨seen⟩ w := fun w => by
        rw [hmem w, FSet.mem_iff (s := ⟨seen'⟩) a2, a3 w]
        by_cases hvw : GoKey.eq v w = true <;> simp [hvw]
      have hcnt : (Tree.list seen').length = (Tree.list seen).length + 1 := by
        have e1 := Tree.Valid.count_eq a2
        have e2 := Tree.Valid.count_eq hsv
        rw [hs'] at a4
        simp only [Bool.false_eq_true, if_false] at a4
        omega
      refine ⟨(.caching i' k seen', true, τ'), Runs.step heq (Runs.bind (g := fun x n => _) h1 ?_), h2.store, hl2, Nat.le_refl _, Nat.le_refl _,
        rfl, fun _ => ⟨v, hv, ⟨hio, by omega, a2, fun w => ?_, ?_⟩, ?_, fun w => ?_, fun _ => ⟨?_, trivial⟩⟩, by simp⟩
      · simp only [if_true, hv]
        refine Runs.bind (g := fun y n => _) (Runs.const v) ?_
        rw [hhas v, hs']
        refine Runs.bind (g := fun y n => _) (Runs.const false) ?_
        simp only [Bool.false_eq_true, if_false]
        have a1' : SetBuilder.add seen v = .ok seen' := a1
        rw [a1']
        exact Runs.bind (g := fun y n => _) (Runs.const seen') (Runs.const _)
      · rw [hden w, hre w, hmem' w]
        constructor
        · rintro (h | h | h)
          · exact .inl (.inr h)
          · exact .inl (.inl h)
          · exact .inr h
        · rintro ((h | h) | h)
          · exact .inr (.inl h)
          · exact .inl h
          · exact .inr (.inr h)
      · rw [hcnt]; omega
      · simp only [LIter.mu]; omega
      · simp only [LIter.rest, hre, hmem' w]
        constructor
        · rintro ⟨h | h, q⟩
          · exact .inl h
          · by_cases hvw : GoKey.eq v w = true
            · exact .inl hvw
            · exact .inr ⟨h, fun g => g.elim hvw q⟩
        · rintro (h | ⟨h, q⟩)
          · exact ⟨.inl h, fun g => hs ((FSet.mem_congr (s := ⟨seen⟩) hsv h).2 g)⟩
          · exact ⟨.inr h, fun g => q (.inr g)⟩
      · simp only [LIter.rest]
        rintro ⟨_, q⟩
        exact q ((hmem' v).2 (.inl (LawfulGoKey.refl v)))

theorem next_map {r z : Nat} (ih : NextAll T r z) (hσ : StoreOk E σ) {i : LIter T} {m : T → T} (hi : i.IterOk E) (hm : CongM m)
    (hl : i.rk ≤ σ.length) (hr : i.rk ≤ r) (hz : i.sz ≤ z) :
    ∃ res, Runs (fun n => LIter.next n σ (.map i m)) res ∧ NextOk E σ (.map i m) res := by
  obtain ⟨⟨i', ok, σ'⟩, h1, h2⟩ := ih E σ i hσ hi hl hr hz
  have heq : ∀ n, LIter.next (n + 1) σ (.map i m) = (LIter.next n σ i >>= fun x => .ok (.map x.1 m, x.2.1, x.2.2)) := by
    intro n
    simp only [LIter.next]
    congr 1
  refine ⟨(.map i' m, ok, σ'), Runs.step heq (Runs.bind (g := fun x n => .ok (LIter.map x.1 m, x.2.1, x.2.2)) h1 (Runs.const _)), h2.store, h2.len,
    h2.rk, ?_, rfl, fun ho => ?_, fun ho => ⟨fun w => ?_, fun k hk => by cases hk⟩⟩
  · have := h2.sz; simp only [LIter.sz] at *; omega
  · obtain ⟨v, g1, g2, g3, g4, g5⟩ := h2.more ho
    refine ⟨m v, ?_, ⟨g2, hm⟩, g3, fun w => ?_, fun h => ⟨fun hv => ?_, (g5 h.1).2, fun x y hx hy => h.2 x y ((g4 x).2 (.inr hx)) ((g4 y).2 (.inr hy))⟩⟩
    · simp only [LIter.value, g1]; rfl
    · simp only at g4
      simp only [LIter.rest, g4]
      constructor
      · rintro ⟨u, h | h, q⟩
        · exact .inl (eq_trans' (hm _ _ h) q)
        · exact .inr ⟨u, h, q⟩
      · rintro (h | ⟨u, h, q⟩)
        · exact ⟨v, .inl (LawfulGoKey.refl v), h⟩
        · exact ⟨u, .inr h, q⟩
    · obtain ⟨u, hu, q⟩ := hv
      exact (g5 h.1).1 ((LIter.rest_congr hσ.env g2 u v (h.2 u v ((g4 u).2 (.inr hu)) ((g4 v).2 (.inl (LawfulGoKey.refl v))) q)).1 hu)
  · rintro ⟨v, h, _⟩
    exact (h2.done ho).1 v h

theorem next_union_none {r z : Nat} (ih : NextAll T r z) (hσ : StoreOk E σ) {i : LIter T} (hi : i.IterOk E)
    (hl : i.rk ≤ σ.length) (hr : i.rk ≤ r) (hz : i.sz ≤ z) :
    ∃ res, Runs (fun n => LIter.next n σ (.union i none)) res ∧ NextOk E σ (.union i none) res := by
  obtain ⟨⟨i', ok, σ'⟩, h1, h2⟩ := ih E σ i hσ hi hl hr hz
  have heq : ∀ n, LIter.next (n + 1) σ (.union i none) = (LIter.next n σ i >>= fun x =>
      if x.2.1 = true then .ok (.union x.1 none, true, x.2.2) else .ok (.union x.1 none, false, x.2.2)) := by
    intro n
    simp only [LIter.next]
    congr 1
  refine ⟨(.union i' none, ok, σ'), Runs.step heq (Runs.bind (g := fun x n => _) h1 ?_), h2.store, h2.len,
    h2.rk, ?_, rfl, fun ho => ?_, fun ho => ⟨fun w => (h2.done ho).1 w, fun k hk => by cases hk⟩⟩
  · cases ok
    · simp only [Bool.false_eq_true, if_false]; exact Runs.const _
    · simp only [if_true]; exact Runs.const _
  · have := h2.sz; simp only [LIter.sz] at *; omega
  · obtain ⟨v, g1, g2, g3, g4, g5⟩ := h2.more ho
    exact ⟨v, g1, g2, g3, g4, g5⟩

theorem next_union_some {r z : Nat} (ih : NextAll T r z) (hσ : StoreOk E σ) {i : LIter T} {b : LSet T} (hi : i.IterOk E) (hb : b.IOk E)
    (hl : i.rk ≤ σ.length) (hr : i.rk ≤ r) (hz : i.sz ≤ z) (hlb : b.rk ≤ σ.length) (hrb : b.rk ≤ r) (hzb : b.sz ≤ z) :
    ∃ res, Runs (fun n => LIter.next n σ (.union i (some b))) res ∧ NextOk E σ (.union i (some b)) res := by
  obtain ⟨⟨i', ok, σ'⟩, h1, h2⟩ := ih E σ i hσ hi hl hr hz
  have hl2 := h2.len
  have hr2 := h2.rk
  have hz2 := h2.sz
  simp only at hl2 hr2 hz2
  have heq : ∀ n, LIter.next (n + 1) σ (.union i (some b)) = (LIter.next n σ i >>= fun x =>
      if x.2.1 = true then .ok (.union x.1 (some b), true, x.2.2) else LSet.range x.2.2 n b >>= fun j => LIter.next n x.2.2 (.union j none)) := by
    intro n
    simp only [LIter.next]
    congr 1
  cases ok with
  | true =>
    obtain ⟨v, g1, g2, g3, g4, g5⟩ := h2.more rfl
    refine ⟨(.union i' (some b), true, σ'), Runs.step heq (Runs.bind (g := fun x n => _) h1 ?_), h2.store, hl2,
      ?_, ?_, rfl, fun ho => ⟨v, g1, ⟨g2, hb⟩, ?_, fun w => ?_, fun h => ⟨fun hv => ?_, (g5 h.1).2, h.2.1, fun w hw => h.2.2 w ⟨(g4 w).2 (.inr hw.1), hw.2⟩⟩⟩, by simp⟩
    · simp only [if_true]; exact Runs.const _
    · simp only [LIter.rk]; omega
    · simp only [LIter.sz]; omega
    · simp only [LIter.mu] at *; omega
    · simp only at g4
      simp only [LIter.rest, g4, or_assoc]
    · rcases hv with hv | hv
      · exact (g5 h.1).1 hv
      · exact h.2.2 v ⟨(g4 v).2 (.inl (LawfulGoKey.refl v)), hv⟩
  | false =>
    have hd := (h2.done rfl).1
    obtain ⟨j, j1, j2⟩ := range_spec h2.store hb (by simp only; omega)
    have jr := j2.rk
    have jz := j2.sz
    have jm := j2.mu
    obtain ⟨res, r1, r2⟩ := next_union_none ih h2.store j2.ok (by simp only; omega) (by omega) (by omega)
    refine ⟨res, Runs.step heq (Runs.bind (g := fun x n => _) h1 ?_), r2.skip hl2 ?_ ?_ rfl ?_ (fun w => ?_) (fun h => j2.dst h.2.1)⟩
    · simp only [Bool.false_eq_true, if_false]
      exact Runs.bind (g := fun y n => _) j1 r1
    · simp only [LIter.rk]; omega
    · simp only [LIter.sz]; have := i.sz_pos; omega
    · simp only [LIter.mu]; omega
    · simp only [LIter.rest, j2.rest w]
      exact ⟨fun h => h.resolve_left (hd w), fun h => .inr h⟩

theorem next_where {r z : Nat} (ih : NextAll T r z) (hσ : StoreOk E σ) {i : LIter T} {p : T → Bool} (hi : i.IterOk E) (hp : Cong p)
    (hl : i.rk ≤ σ.length) (hr : i.rk ≤ r) (hz : i.sz ≤ z) :
    ∃ res, Runs (fun n => LIter.next n σ (.where i p)) res ∧ NextOk E σ (.where i p) res := by
  refine filter_next ih (fun i => .where i p) (fun w => p w = true) (fun _ σ v => .ok (p v, σ)) ?_ (fun _ => rfl) (fun _ => rfl) (fun _ => rfl)
    (fun _ _ h => h) (fun _ => Nat.le_refl _) (fun _ _ h => by simp only [LIter.sz]; omega) (fun _ _ => Iff.rfl)
    (fun a b hab => by simp only [hp a b hab]) (fun _ => Iff.rfl) (fun _ _ h h' => ⟨h', h.2⟩) (fun _ h => h.1) σ.length
    (fun τ v hτ hL => ⟨p v, τ, Runs.const _, hτ, hL, Iff.rfl⟩) (i.mu E) σ i (Nat.le_refl _) hσ rfl ⟨hi, hp⟩ hl hr hz
  intro n σ i
  simp only [LIter.next]
  congr 1

theorem next_inter {r z : Nat} (ih : NextAll T r z) (ihh : HasAll T r z) (hσ : StoreOk E σ) {i : LIter T} {b : LSet T} (hi : i.IterOk E)
    (hb : b.IOk E) (hbh : b.HOk E) (hl : i.rk ≤ σ.length) (hr : i.rk ≤ r) (hz : i.sz ≤ z) (hlb : b.rk ≤ σ.length) (hrb : b.rk ≤ r)
    (hzb : b.sz ≤ z) : ∃ res, Runs (fun n => LIter.next n σ (.inter i b)) res ∧ NextOk E σ (.inter i b) res := by
  refine filter_next ih (fun i => .inter i b) (fun w => b.den E w) (fun n σ v => LSet.has n σ b v) ?_ (fun _ => rfl) (fun _ => rfl) (fun _ => rfl)
    (fun _ _ h => by simp only [LIter.rk]; omega) (fun _ => by simp only [LIter.rk]; omega) (fun _ _ h => by simp only [LIter.sz]; omega)
    (fun _ _ => Iff.rfl) (LSet.den_congr hσ.env hb) (fun _ => Iff.rfl) (fun _ _ h h' => ⟨h', h.2⟩) (fun _ h => h.1) σ.length ?_
    (i.mu E) σ i (Nat.le_refl _) hσ rfl ⟨hi, hb, hbh⟩ (by simp only [LIter.rk]; omega) hr hz
  · intro n σ i
    simp only [LIter.next]
    congr 1
  · intro τ v hτ hL
    obtain ⟨x, τ', h1, h2, h3, h4⟩ := ihh E τ b v hτ hb (by omega) hrb hzb
    exact ⟨x, τ', h1, h2, by omega, h4 hbh⟩

theorem next_diff {r z : Nat} (ih : NextAll T r z) (ihh : HasAll T r z) (hσ : StoreOk E σ) {i : LIter T} {b : LSet T} (hi : i.IterOk E)
    (hb : b.IOk E) (hbh : b.HOk E) (hl : i.rk ≤ σ.length) (hr : i.rk ≤ r) (hz : i.sz ≤ z) (hlb : b.rk ≤ σ.length) (hrb : b.rk ≤ r)
    (hzb : b.sz ≤ z) : ∃ res, Runs (fun n => LIter.next n σ (.diff i b)) res ∧ NextOk E σ (.diff i b) res := by
  refine filter_next ih (fun i => .diff i b) (fun w => ¬ b.den E w) (fun n σ v => LSet.has n σ b v >>= fun y => .ok (!y.1, y.2)) ?_
    (fun _ => rfl) (fun _ => rfl) (fun _ => rfl)
    (fun _ _ h => by simp only [LIter.rk]; omega) (fun _ => by simp only [LIter.rk]; omega) (fun _ _ h => by simp only [LIter.sz]; omega)
    (fun _ _ => Iff.rfl) (fun x y hxy => not_congr (LSet.den_congr hσ.env hb x y hxy)) (fun _ => Iff.rfl) (fun _ _ h h' => ⟨h', h.2⟩)
    (fun _ h => h.1) σ.length ?_ (i.mu E) σ i (Nat.le_refl _) hσ rfl ⟨hi, hb, hbh⟩ (by simp only [LIter.rk]; omega) hr hz
  · intro n σ i
    simp only [LIter.next, bind, Except.bind]
    cases LIter.next n σ i with
    | error e => rfl
    | ok x =>
      obtain ⟨i', ok, σ'⟩ := x
      cases ok with
      | false => rfl
      | true =>
        simp only [if_true]
        cases i'.value with
        | error e => rfl
        | ok v =>
          simp only
          cases LSet.has n σ' b v with
          | error e => rfl
          | ok y =>
            obtain ⟨x, τ⟩ := y
            cases x <;> rfl
  · intro τ v hτ hL
    obtain ⟨x, τ', h1, h2, h3, h4⟩ := ihh E τ b v hτ hb (by omega) hrb hzb
    refine ⟨!x, τ', Runs.bind (g := fun y _ => .ok (!y.1, y.2)) h1 (Runs.const _), h2, by omega, ?_⟩
    have := h4 hbh
    cases x <;> simp_all

/-- The loop of set_base.go:88-93. -/
theorem find_spec {r z : Nat} (ih : NextAll T r z) (el : T) : ∀ (m : Nat) (σ : LStore T) (i : LIter T), i.mu E ≤ m → StoreOk E σ → i.IterOk E →
    i.rk ≤ σ.length → i.rk ≤ r → i.sz ≤ z → ∃ b σ', Runs (fun n => LIter.find n σ i el) (b, σ') ∧ StoreOk E σ' ∧ σ'.length = σ.length ∧
      (b = true ↔ i.rest E el) := by
  intro m
  induction m using Nat.strong_induction_on with
  | _ m ihm =>
  intro σ i hm hσ hi hl hr hz
  obtain ⟨⟨i', ok, σ'⟩, h1, h2⟩ := ih E σ i hσ hi hl hr hz
  have heq : ∀ n, LIter.find (n + 1) σ i el = (LIter.next n σ i >>= fun x =>
      if x.2.1 = true then x.1.value >>= fun v => if GoKey.eq el v = true then .ok (true, x.2.2) else LIter.find n x.2.2 x.1 el
      else .ok (false, x.2.2)) := by
    intro n
    simp only [LIter.find]
    congr 1
  have hl2 := h2.len
  have hr2 := h2.rk
  have hz2 := h2.sz
  simp only at hl2 hr2 hz2
  cases ok with
  | false =>
    refine ⟨false, σ', Runs.step heq (Runs.bind (g := fun x n => _) h1 ?_), h2.store, hl2, ?_⟩
    · simp only [Bool.false_eq_true, if_false]; exact Runs.const _
    · simp [(h2.done rfl).1 el]
  | true =>
    obtain ⟨v, g1, g2, g3, g4, _⟩ := h2.more rfl
    simp only at g1 g2 g3 g4
    by_cases he : GoKey.eq el v = true
    · refine ⟨true, σ', Runs.step heq (Runs.bind (g := fun x n => _) h1 ?_), h2.store, hl2, ?_⟩
      · simp only [if_true, g1]
        exact Runs.bind (g := fun y n => _) (Runs.const v) (by simp only [he, if_true]; exact Runs.const _)
      · simp [g4, PerGoKey.symm he]
    · obtain ⟨b, τ, k1, k2, k3, k4⟩ := ihm (i'.mu E) (by omega) σ' i' (Nat.le_refl _) h2.store g2 (by omega) (by omega) (by omega)
      refine ⟨b, τ, Runs.step heq (Runs.bind (g := fun x n => _) h1 ?_), k2, by omega, ?_⟩
      · simp only [if_true, g1]
        exact Runs.bind (g := fun y n => _) (Runs.const v) (by simp only [he, if_false]; exact k1)
      · rw [k4, g4]
        exact ⟨fun h => .inr h, fun h => h.resolve_left (fun h => he (PerGoKey.symm h))⟩

theorem has_step {r z : Nat} (hr1 : ∀ r' < r, ∀ z, HasAll T r' z) (hz1 : ∀ z' < z, HasAll T r z') (hn : NextAll T r z) : HasAll T r z := by
  intro E σ s el hσ hs hl hr hz
  cases s with
  | empty =>
    exact ⟨false, σ, Runs.step (g := fun _ => .ok (false, σ)) (fun n => by simp only [LSet.has]) (Runs.const _), hσ, rfl, by simp [LSet.den]⟩
  | frozen s =>
    refine ⟨(s.tree.look el).isSome, σ, Runs.step (g := fun n => LSet.fastHas σ n (.frozen s) el >>= fun o => match o with
      | some b => .ok (b, σ)
      | none => LSet.range σ n (.frozen s) >>= fun i => LIter.find n σ i el) (fun n => ?_) (Runs.bind
        (a := some (s.tree.look el).isSome) (g := fun o n => _) (Runs.step (g := fun _ => .ok (some (s.tree.look el).isSome)) (fun n => ?_) (Runs.const _)) ?_), hσ, rfl, ?_⟩
    · simp only [LSet.has]; congr 1
    · simp only [LSet.fastHas, FSet.has_spec hs]; rfl
    · exact Runs.const _
    · intro _; exact (FSet.mem_iff hs el).symm
  | memo k =>
    have hk : k < σ.length := hl
    obtain ⟨c, h1, h2, hc⟩ := deref_memo hσ hk
    have hr : k + 1 ≤ r := hr
    obtain ⟨b, σ', g1, g2, g3, g4⟩ := hr1 k (by omega) c.sz E σ c el hσ hc.iok (by have := hc.rk; omega) hc.rk (Nat.le_refl _)
    refine ⟨b, σ', Runs.step (g := fun n => LSet.has n σ c el) (fun n => by simp only [LSet.has, h1]; rfl) g1, g2, g3, fun hh => ?_⟩
    rw [g4 (hc.has hh)]; exact hc.den el
  | «where» s p =>
    simp only [LSet.sz] at hz
    by_cases hp : p el = true
    · obtain ⟨b, σ', g1, g2, g3, g4⟩ := hz1 s.sz (by omega) E σ s el hσ hs.1 hl hr (Nat.le_refl _)
      refine ⟨b, σ', Runs.step (g := fun n => LSet.has n σ s el) (fun n => by simp only [LSet.has, hp, if_true]) g1, g2, g3, fun hh => ?_⟩
      rw [g4 hh]; simp [LSet.den, hp]
    · exact ⟨false, σ, Runs.step (g := fun _ => .ok (false, σ)) (fun n => by simp [LSet.has, hp]) (Runs.const _), hσ, rfl,
        fun _ => by simp [LSet.den, hp]⟩
  | map s m =>
    obtain ⟨i, j1, j2⟩ := range_spec hσ (s := .map s m) hs hl
    have jr := j2.rk
    have jz := j2.sz
    obtain ⟨b, τ, k1, k2, k3, k4⟩ := find_spec hn el (i.mu E) σ i (Nat.le_refl _) hσ j2.ok (by omega) (by omega) (by omega)
    refine ⟨b, τ, Runs.step (g := fun n => LSet.fastHas σ n (.map s m) el >>= fun o => match o with
      | some b => .ok (b, σ)
      | none => LSet.range σ n (.map s m) >>= fun i => LIter.find n σ i el) (fun n => ?_) (Runs.bind
        (a := none) (g := fun o n => _) (Runs.step (g := fun _ => .ok none) (fun n => ?_) (Runs.const _)) ?_), k2, k3, ?_⟩
    · simp only [LSet.has]; congr 1
    · simp only [LSet.fastHas]
    · exact Runs.bind (g := fun i n => _) j1 k1
    · intro _; rw [k4]; exact j2.rest el
  | union a b =>
    have hr := Nat.max_le.1 hr
    have hl := Nat.max_le.1 hl
    simp only [LSet.sz] at hz
    obtain ⟨x, σ1, g1, g2, g3, g4⟩ := hz1 a.sz (by omega) E σ a el hσ hs.1 hl.1 hr.1 (Nat.le_refl _)
    obtain ⟨y, σ2, k1, k2, k3, k4⟩ := hz1 b.sz (by omega) E σ1 b el g2 hs.2 (by omega) hr.2 (Nat.le_refl _)
    have heq : ∀ n, LSet.has (n + 1) σ (.union a b) el = (LSet.has n σ a el >>= fun x => if x.1 = true then .ok (true, x.2) else LSet.has n x.2 b el) := by
      intro n; simp only [LSet.has]; congr 1
    cases x with
    | true =>
      refine ⟨true, σ1, Runs.step heq (Runs.bind (g := fun x n => _) g1 (by simp only [if_true]; exact Runs.const _)), g2, g3, fun hh => ?_⟩
      simp [LSet.den, (g4 hh.1).1 rfl]
    | false =>
      refine ⟨y, σ2, Runs.step heq (Runs.bind (g := fun x n => _) g1 (by simp only [Bool.false_eq_true, if_false]; exact k1)), k2, by omega, fun hh => ?_⟩
      have := g4 hh.1
      simp only [Bool.false_eq_true, false_iff] at this
      simp [LSet.den, this, k4 hh.2]
  | inter a b =>
    have hr := Nat.max_le.1 hr
    have hl := Nat.max_le.1 hl
    simp only [LSet.sz] at hz
    obtain ⟨x, σ1, g1, g2, g3, g4⟩ := hz1 a.sz (by omega) E σ a el hσ hs.1 hl.1 hr.1 (Nat.le_refl _)
    obtain ⟨y, σ2, k1, k2, k3, k4⟩ := hz1 b.sz (by omega) E σ1 b el g2 hs.2.1 (by omega) hr.2 (Nat.le_refl _)
    have heq : ∀ n, LSet.has (n + 1) σ (.inter a b) el = (LSet.has n σ a el >>= fun x => if x.1 = true then LSet.has n x.2 b el else .ok (false, x.2)) := by
      intro n; simp only [LSet.has]; congr 1
    cases x with
    | false =>
      refine ⟨false, σ1, Runs.step heq (Runs.bind (g := fun x n => _) g1 (by simp only [Bool.false_eq_true, if_false]; exact Runs.const _)), g2, g3, fun hh => ?_⟩
      have := g4 hh.1
      simp only [Bool.false_eq_true, false_iff] at this
      simp [LSet.den, this]
    | true =>
      refine ⟨y, σ2, Runs.step heq (Runs.bind (g := fun x n => _) g1 (by simp only [if_true]; exact k1)), k2, by omega, fun hh => ?_⟩
      simp [LSet.den, (g4 hh.1).1 rfl, k4 hh.2]
  | diff a b =>
    have hr := Nat.max_le.1 hr
    have hl := Nat.max_le.1 hl
    simp only [LSet.sz] at hz
    obtain ⟨x, σ1, g1, g2, g3, g4⟩ := hz1 a.sz (by omega) E σ a el hσ hs.1 hl.1 hr.1 (Nat.le_refl _)
    obtain ⟨y, σ2, k1, k2, k3, k4⟩ := hz1 b.sz (by omega) E σ1 b el g2 hs.2.1 (by omega) hr.2 (Nat.le_refl _)
    have heq : ∀ n, LSet.has (n + 1) σ (.diff a b) el = (LSet.has n σ a el >>= fun x => if x.1 = true then .ok (true, x.2) else LSet.has n x.2 b el) := by
      intro n; simp only [LSet.has]; congr 1
    cases x with
    | true =>
      exact ⟨true, σ1, Runs.step heq (Runs.bind (g := fun x n => _) g1 (by simp only [if_true]; exact Runs.const _)), g2, g3, fun hh => hh.elim⟩
    | false =>
      exact ⟨y, σ2, Runs.step heq (Runs.bind (g := fun x n => _) g1 (by simp only [Bool.false_eq_true, if_false]; exact k1)), k2, by omega, fun hh => hh.elim⟩

theorem next_step {r z : Nat} (hr1 : ∀ r' < r, ∀ z, NextAll T r' z) (hz1 : ∀ z' < z, NextAll T r z') (hh1 : ∀ z' < z, HasAll T r z') :
    NextAll T r z := by
  intro E σ it hσ hi hl hr hz
  cases it with
  | empty => exact next_empty ⟨hσ, rfl, Nat.le_refl _, Nat.le_refl _, rfl, by simp, fun _ => ⟨fun w h => h, fun k hk => by cases hk⟩⟩
  | frozen it => exact next_frozen hσ hi
  | «where» i p =>
    simp only [LIter.sz] at hz
    exact next_where (hz1 i.sz (by omega)) hσ hi.1 hi.2 hl hr (Nat.le_refl _)
  | map i m =>
    simp only [LIter.sz] at hz
    exact next_map (hz1 i.sz (by omega)) hσ hi.1 hi.2 hl hr (Nat.le_refl _)
  | union i o =>
    cases o with
    | none =>
      simp only [LIter.sz] at hz
      exact next_union_none (hz1 i.sz (by omega)) hσ hi hl hr (Nat.le_refl _)
    | some b =>
      simp only [LIter.sz] at hz
      have hr := Nat.max_le.1 hr
      have hl := Nat.max_le.1 hl
      exact next_union_some (hz1 (i.sz + b.sz) (by omega)) hσ hi.1 hi.2 hl.1 hr.1 (by omega) hl.2 hr.2 (by omega)
  | inter i b =>
    simp only [LIter.sz] at hz
    have hr := Nat.max_le.1 hr
    have hl := Nat.max_le.1 hl
    exact next_inter (hz1 (i.sz + b.sz) (by omega)) (hh1 (i.sz + b.sz) (by omega)) hσ hi.1 hi.2.1 hi.2.2 hl.1 hr.1 (by omega) hl.2 hr.2 (by omega)
  | diff i b =>
    simp only [LIter.sz] at hz
    have hr := Nat.max_le.1 hr
    have hl := Nat.max_le.1 hl
    exact next_diff (hz1 (i.sz + b.sz) (by omega)) (hh1 (i.sz + b.sz) (by omega)) hσ hi.1 hi.2.1 hi.2.2 hl.1 hr.1 (by omega) hl.2 hr.2 (by omega)
  | caching i k seen =>
    have hr : k + 1 ≤ r := hr
    have hl : k < σ.length := hl
    exact next_caching (hr1 k (by omega) i.sz) k hl (i.mu E) σ i seen (Nat.le_refl _) hσ rfl hi hi.2.1 (Nat.le_refl _)

theorem next_has_all : ∀ (r z : Nat), NextAll T r z ∧ HasAll T r z := by
  intro r
  induction r using Nat.strong_induction_on with
  | _ r ihr =>
  intro z
  induction z using Nat.strong_induction_on with
  | _ z ihz =>
  have hn := next_step (fun r' h z => (ihr r' h z).1) (fun z' h => (ihz z' h).1) (fun z' h => (ihz z' h).2)
  exact ⟨hn, has_step (fun r' h z => (ihr r' h z).2) (fun z' h => (ihz z' h).2) hn⟩

theorem lnext_spec (hσ : StoreOk E σ) {it : LIter T} (hi : it.IterOk E) (hl : it.rk ≤ σ.length) :
    ∃ res, Runs (fun n => LIter.next n σ it) res ∧ NextOk E σ it res :=
  (next_has_all it.rk it.sz).1 E σ it hσ hi hl (Nat.le_refl _) (Nat.le_refl _)

theorem lhas_spec (hσ : StoreOk E σ) {s : LSet T} (hs : s.IOk E) (hl : s.rk ≤ σ.length) (el : T) :
    ∃ b σ', Runs (fun n => LSet.has n σ s el) (b, σ') ∧ StoreOk E σ' ∧ σ'.length = σ.length ∧ (s.HOk E → (b = true ↔ s.den E el)) :=
  (next_has_all s.rk s.sz).2 E σ s el hσ hs hl (Nat.le_refl _) (Nat.le_refl _)

end Frozen
