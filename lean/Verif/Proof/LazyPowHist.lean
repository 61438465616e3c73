import Verif.Proof.LazyPowMemo
import Verif.Proof.LazyHist
import Verif.Proof.LazyClient

/-! Lazy sets: histories of calls with powersets. -/

set_option linter.unusedSectionVars false

namespace Frozen

variable {T : Type} [GoKey T] [LawfulGoKey T] [GoHash] {E : LEnv T} {σ : LStore T}

/-- A list of all subsets held in a frozen set. -/
def FrozenPow (a : LSpec T) (f : FSet (PVal T)) : Prop := NodeOk f.tree.root ∧ PowDone a f.tree.list ∧ f.count = f.tree.list.length

/-- What a memo cell holds. -/
def PCellOk (E : LEnv T) (σ : LStore T) (a : LSpec T) : PCell T → Prop
  | .pow src => DerefOk E σ src a
  | .frozen f => FrozenPow a f

theorem DerefOk.ext {E' : LEnv T} {σ' : LStore T} (h : Ext E σ E' σ') {s : LSet T} {sp : LSpec T} (hs : DerefOk E σ s sp) : DerefOk E' σ' s sp := by
  refine ⟨hs.notMemo, LSet.IOk_agree h.agree hs.rk ▸ hs.iok, Nat.le_trans hs.rk h.len, ?_, hs.eager, ?_, ?_, ?_⟩
  · rw [← LSet.den_agree h.agree hs.rk]; exact hs.den
  · rw [← LSet.HOk_agree h.agree hs.rk]; exact hs.safe
  · rw [← LSet.FOk_agree h.agree hs.rk]; exact hs.fast
  · rw [← LSet.Plain_agree h.agree hs.rk]; exact hs.plain

/-- The set itself, without its memo cell. -/
theorem DerefOk.set {s : LSet T} {a : LSpec T} (h : DerefOk E σ s a) : SetOk E σ s { a with once := a.plain } := by
  exact ⟨h.iok, h.rk, h.den, h.eager, h.safe, h.fast, h.plain, fun hp => .inl (h.plain hp).cok⟩

theorem PCellOk.ext {E' : LEnv T} {σ' : LStore T} (h : Ext E σ E' σ') {a : LSpec T} : ∀ {c : PCell T}, PCellOk E σ a c → PCellOk E' σ' a c
  | .pow _, g => DerefOk.ext h g
  | .frozen _, g => g

/-- A powerset a client holds. -/
def PSetOk (C : List (LSpec T)) (a : LSpec T) : PSet T → Prop
  | .frozen f => FrozenPow a f
  | .memo k => C[k]? = some a

/-- An iterator over a powerset. -/
def PIterOk (E : LEnv T) (σ : LStore T) (C : List (LSpec T)) (a : LSpec T) (got : List (PVal T)) : PIter T → Prop
  | .frozen it => it.Ok ∧ PowDone a (got ++ it.rem)
  | .caching p cell seen => C[cell]? = some a ∧ ∃ k, CacheOk E σ a p seen got k

/-- An iterator over a powerset that a client holds. -/
structure PCurOk (E : LEnv T) (σ : LStore T) (C srcs : List (LSpec T)) (c : PCursor T) : Prop where
  src : c.src < srcs.length
  live : c.ended = false → PIterOk E σ C (specAt srcs c.src) c.got c.iter
  dead : c.ended = true → PowDone (specAt srcs c.src) c.got

theorem PIterOk.ext {E' : LEnv T} {σ' : LStore T} (h : Ext E σ E' σ') {C : List (LSpec T)} {a : LSpec T} {got : List (PVal T)} :
    ∀ {it : PIter T}, PIterOk E σ C a got it → PIterOk E' σ' C a got it
  | .frozen _, g => g
  | .caching _ _ _, ⟨h1, k, h2⟩ => ⟨h1, k, h2.ext h⟩

theorem PIterOk.push {C : List (LSpec T)} {x a : LSpec T} {got : List (PVal T)} : ∀ {it : PIter T}, PIterOk E σ C a got it → PIterOk E σ (C ++ [x]) a got it
  | .frozen _, g => g
  | .caching _ k _, ⟨h1, h2⟩ => ⟨by rw [List.getElem?_append_left (List.getElem?_eq_some_iff.1 h1).1]; exact h1, h2⟩

/-- What a client holds is right. -/
structure PHistOk (E : LEnv T) (C : List (LSpec T)) (S : PSpec T) (st : PState T) : Prop where
  base : HistOk E S.sets st.base
  clen : st.cells.length = C.length
  cells : ∀ (k : Nat) (c : PCell T) (a : LSpec T), st.cells[k]? = some c → C[k]? = some a → PCellOk E st.base.store a c
  plen : st.pows.length = S.srcs.length
  pows : ∀ (p : Nat) (s : PSet T), st.pows[p]? = some s → PSetOk C (specAt S.srcs p) s
  iters : ∀ (k : Nat) (c : PCursor T), st.iters[k]? = some c → PCurOk E st.base.store C S.srcs c

/-- The base has changed. -/
theorem PHistOk.rebase {E' : LEnv T} {C : List (LSpec T)} {S : PSpec T} {st : PState T} (hs : PHistOk E C S st) {b : LState T} {S' : List (LSpec T)}
    (h : Ext E st.base.store E' b.store) (hb : HistOk E' S' b) : PHistOk E' C ⟨S', S.srcs⟩ ⟨b, st.cells, st.pows, st.iters⟩ :=
  ⟨hb, hs.clen, fun k c a hk ha => (hs.cells k c a hk ha).ext h, hs.plen, hs.pows, fun k c hk =>
    ⟨(hs.iters k c hk).src, fun he => ((hs.iters k c hk).live he).ext h, (hs.iters k c hk).dead⟩⟩

/-- More than 63 elements have come out of the iterator over the source `a`. -/
def Over (a : LSpec T) : Prop := ∃ L : List T, L.length = 64 ∧ (∀ x ∈ L, a.den x) ∧ (a.plain → Distinct L)

theorem Over.not_small {a : LSpec T} (h : Over a) (hp : a.plain) {m : Nat} (hm : m < 64) (hc : HasCard a.den m) : False := by
  obtain ⟨L, h1, h2, h3⟩ := h
  obtain ⟨l, hl, hlm⟩ := hc
  have := (h3 hp).length_le (l' := l) fun e he => by
    obtain ⟨x, hx, hxe⟩ := (hl.covers e).1 (h2 e he)
    exact ⟨x, hx, PerGoKey.symm hxe⟩
  omega

/-- An iterator advanced. -/
inductive PAdv (E : LEnv T) (st : PState T) (C : List (LSpec T)) (S : PSpec T) (c : PCursor T) : Prop where
  | ok (c' : PCursor T) (σ' : LStore T) (κ' : PStore T) (run : Runs (fun n => c.advance n st.base.store st.cells) (c', σ', κ')) (store : StoreOk E σ')
      (len : σ'.length = st.base.store.length) (clen : κ'.length = st.cells.length)
      (cells : ∀ (k : Nat) (x : PCell T) (a : LSpec T), κ'[k]? = some x → C[k]? = some a → PCellOk E σ' a x) (cur : PCurOk E σ' C S.srcs c')
      (src : c'.src = c.src) (prog : c'.ended = true ∨ (c'.ended = false ∧ c'.got.length = c.got.length + 1))
  | over (o : Over (specAt S.srcs c.src)) (run : ∀ n r, c.advance n st.base.store st.cells ≠ .ok r)

theorem padvance_spec {C : List (LSpec T)} {S : PSpec T} {st : PState T} (hs : PHistOk E C S st) {c : PCursor T} (hc : PCurOk E st.base.store C S.srcs c) :
    PAdv E st C S c := by
  cases he : c.ended with
  | true =>
    exact .ok c st.base.store st.cells (Runs.congr (g := fun _ => .ok (c, st.base.store, st.cells)) (fun n => by simp [PCursor.advance, he]) (Runs.const _))
      hs.base.store rfl rfl hs.cells hc rfl (.inl he)
  | false =>
    have heq : ∀ n, c.advance n st.base.store st.cells = (PIter.next n st.base.store st.cells c.iter >>= fun r => if r.2.1 = true then
        r.1.value >>= fun v => .ok (⟨r.1, c.src, c.got ++ [v], false⟩, r.2.2.1, r.2.2.2) else .ok (⟨r.1, c.src, c.got, true⟩, r.2.2.1, r.2.2.2)) := fun n => by
      simp only [PCursor.advance, he]; rfl
    have hl := hc.live he
    cases hi : c.iter with
    | frozen it =>
      rw [hi] at hl
      obtain ⟨h1, h2⟩ := hl
      have hn := next_spec it h1
      cases hr : it.rem with
      | nil =>
        obtain ⟨it', g1, g2, g3⟩ := hn.1 hr
        refine .ok ⟨.frozen it', c.src, c.got, true⟩ st.base.store st.cells (Runs.congr (g := fun _ => _) (fun n => ?_) (Runs.const _)) hs.base.store rfl rfl hs.cells
          ⟨hc.src, fun h => (by simp at h), fun _ => ?_⟩ rfl (.inl rfl)
        · rw [heq, hi]; simp only [PIter.next, g1, bind, Except.bind]; rfl
        · rw [hr, List.append_nil] at h2; exact h2
      | cons x xs =>
        obtain ⟨it', g1, g2, g3, g4⟩ := hn.2 x xs hr
        refine .ok ⟨.frozen it', c.src, c.got ++ [x], false⟩ st.base.store st.cells (Runs.congr (g := fun _ => _) (fun n => ?_) (Runs.const _)) hs.base.store rfl rfl hs.cells
          ⟨hc.src, fun _ => ⟨g4, ?_⟩, fun h => (by simp at h)⟩ rfl (.inr ⟨rfl, by simp⟩)
        · rw [heq, hi]; simp only [PIter.next, g1, bind, Except.bind, pure, Except.pure, PIter.value, g3, if_true]
        · dsimp only
          rw [hr] at h2; rw [g2, List.append_assoc]; exact h2
    | caching p cell seen =>
      rw [hi] at hl
      obtain ⟨h1, k, h2⟩ := hl
      have hun : ∀ n, PIter.next n st.base.store st.cells (.caching p cell seen) = (cacheNext n st.base.store p seen >>= fun r => if r.2.1 = true then
          .ok (.caching r.1 cell r.2.2.1, true, r.2.2.2, st.cells) else
          .ok (.caching r.1 cell r.2.2.1.finish.2, false, r.2.2.2, st.cells.set cell (.frozen r.2.2.1.finish.1))) := fun n => rfl
      cases CacheOk.next (2 ^ 63 + 2) k (by omega) hs.base.store h2 with
      | over L o1 o2 o3 o4 =>
        refine .over ⟨L, o1, o2, o3⟩ fun n r => ?_
        rw [heq, hi, hun]
        cases h : cacheNext n st.base.store p seen with
        | error e => exact fun h => by cases h
        | ok r => exact absurd h (o4 n r)
      | more p' seen' σ' k' r1 r2 r3 r4 =>
        have hx : Ext E st.base.store E σ' := Ext.same r2 r3
        refine .ok ⟨.caching p' cell seen', c.src, c.got ++ [.lazy p'.value], false⟩ σ' st.cells (Runs.congr heq ?_) r2 r3 rfl
          (fun k c a hk ha => (hs.cells k c a hk ha).ext hx) ⟨hc.src, fun _ => ⟨h1, k', r4⟩, fun h => (by simp at h)⟩ rfl (.inr ⟨rfl, by simp⟩)
        rw [hi]
        refine Runs.bind (g := fun r n => _) (Runs.congr hun (Runs.bind (g := fun r n => _) r1 (Runs.const _))) ?_
        exact Runs.const _
      | done p' seen' σ' r1 r2 r3 r4 r5 r6 =>
        have hx : Ext E st.base.store E σ' := Ext.same r2 r3
        refine .ok ⟨.caching p' cell seen'.finish.2, c.src, c.got, true⟩ σ' (st.cells.set cell (.frozen seen'.finish.1)) (Runs.congr heq ?_) r2 r3 (by simp)
          (fun k x a hk ha => ?_) ⟨hc.src, fun h => (by simp at h), fun _ => r6⟩ rfl (.inl rfl)
        · rw [hi]
          refine Runs.bind (g := fun r n => _) (Runs.congr hun (Runs.bind (g := fun r n => _) r1 (Runs.const _))) ?_
          exact Runs.const _
        · by_cases hkc : cell = k
          · subst hkc
            rw [h1] at ha; cases ha
            have hlt : cell < st.cells.length := by rw [hs.clen]; exact (List.getElem?_eq_some_iff.1 h1).1
            rw [List.getElem?_set_self hlt] at hk
            cases hk
            exact ⟨@Tree.Valid.nodeOk _ (fine _) (fine_per _) _ r4.valid, r6.perm r5.symm, @Tree.Valid.count _ (fine _) _ r4.valid⟩
          · rw [List.getElem?_set_ne hkc] at hk
            exact (hs.cells k x a hk ha).ext hx

/-- What a call achieves. -/
inductive PStep (st : PState T) (S : PSpec T) (c : PCmd T) : Prop where
  | ok (st' : PState T) (E' : LEnv T) (C' : List (LSpec T)) (run : Runs (fun n => st.step n c) st') (hist : PHistOk E' C' (S.step c) st')
      (il : st'.base.iters.length = st.base.iters.length + c.iters.1) (pil : st'.iters.length = st.iters.length + c.iters.2)
  | over (p : Nat) (lt : p < S.srcs.length) (o : Over (specAt S.srcs p)) (run : ∀ n r, st.step n c ≠ .ok r)

theorem buildSet_empty : ∃ f, buildSet [(PVal.empty : PVal T)] = .ok f ∧ NodeOk f.tree.root ∧ f.tree.list = [.empty] ∧ f.count = f.tree.list.length := by
  obtain ⟨b, h1, h2, h3⟩ := (Gathers.zero (T := PVal T) (A := inferInstanceAs (GoKey (PVal T)))).add (v := PVal.empty) rfl rfl
  refine ⟨⟨b⟩, ?_, @Tree.Valid.nodeOk _ (fine _) (fine_per _) _ h2.valid, List.perm_singleton.1 h3, @Tree.Valid.count _ (fine _) _ h2.valid⟩
  have h1 : SetBuilder.add (Tree.zero : SetBuilder (PVal T)) PVal.empty = .ok b := h1
  simp only [buildSet, List.foldlM_cons, List.foldlM_nil, h1, bind, Except.bind, pure, Except.pure]
  rfl

theorem powDone_empty {a : LSpec T} (h : ∀ w, ¬ a.den w) : PowDone a [PVal.empty] := by
  refine ⟨⟨fun g hg e => ?_, fun g hg e he => ?_, fun _ => List.pairwise_singleton _ _⟩, fun Q _ hQ => ⟨.empty, List.mem_singleton.2 rfl, fun e => ?_⟩, fun _ => ⟨[], ⟨List.Pairwise.nil, fun w => ?_⟩, rfl⟩⟩
  · rw [List.mem_singleton.1 hg]; exact ⟨false, rfl⟩
  · rw [List.mem_singleton.1 hg] at he; cases he
  · exact ⟨fun g => (by cases g), fun hq => (h e (hQ e hq)).elim⟩
  · simp [h w]

theorem padvance_step {C : List (LSpec T)} {S : PSpec T} {st : PState T} (hs : PHistOk E C S st) {k : Nat} (hk : k < st.iters.length) :
    (∃ st' c', Runs (fun n => st.step n (.advance k)) st' ∧ PHistOk E C S st' ∧ st'.base.iters.length = st.base.iters.length ∧ st'.iters.length = st.iters.length ∧
      st'.iters[k]? = some c' ∧ c'.src = (st.iters[k]).src ∧ (c'.ended = true ∨ (c'.ended = false ∧ c'.got.length = (st.iters[k]).got.length + 1))) ∨
    ((st.iters[k]).src < S.srcs.length ∧ Over (specAt S.srcs (st.iters[k]).src) ∧ ∀ n r, st.step n (.advance k) ≠ .ok r) := by
  have hkc := hs.iters k _ (List.getElem?_eq_getElem hk)
  have heq : ∀ n, st.step n (.advance k) = ((st.iters[k]).advance n st.base.store st.cells >>= fun r =>
      .ok (PState.mk (st.base.withStore r.2.1) r.2.2 st.pows (st.iters.set k r.1))) := fun n => by simp only [PState.step, List.getElem?_eq_getElem hk]; rfl
  cases padvance_spec hs hkc with
  | over o r =>
    refine .inr ⟨hkc.src, o, fun n x => ?_⟩
    rw [heq]
    cases h : (st.iters[k]).advance n st.base.store st.cells with
    | error e => exact fun h => by cases h
    | ok y => exact absurd h (r n y)
  | ok c' σ' κ' r1 r2 r3 r4 r5 r6 r7 r8 =>
    have hx : Ext E st.base.store E σ' := Ext.same r2 r3
    refine .inl ⟨⟨st.base.withStore σ', κ', st.pows, st.iters.set k c'⟩, c', Runs.congr heq (Runs.bind (g := fun r _ => .ok (PState.mk (st.base.withStore r.2.1) r.2.2 st.pows (st.iters.set k r.1))) r1 (Runs.const _)),
      ⟨hs.base.ext hx, r4.trans hs.clen, r5, hs.plen, hs.pows, fun k' c hk' => ?_⟩, rfl, by simp, List.getElem?_set_self hk, r7, r8⟩
    dsimp only at hk'
    by_cases hkk : k = k'
    · subst hkk
      rw [List.getElem?_set_self hk] at hk'
      cases hk'
      exact r6
    · rw [List.getElem?_set_ne hkk] at hk'
      have := hs.iters k' c hk'
      exact ⟨this.src, fun he => (this.live he).ext hx, this.dead⟩

/-! ### Fuel -/

theorem mono_cacheNext : ∀ n m, n ≤ m → ∀ (σ : LStore T) (p : LPow T) (seen : SetBuilder (PVal T)), Le (cacheNext n σ p seen) (cacheNext m σ p seen)
  | 0, _, _, _, _, _ => by simp only [cacheNext]; exact Le.noFuel _
  | n + 1, m + 1, h, σ, p, seen => by
    simp only [cacheNext]
    refine Le.bind (mono_powNext _ _ n m (by omega)) fun r => ?_
    split
    · refine Le.bind (Le.refl _) fun b => ?_
      split
      · exact mono_cacheNext n m (by omega) _ _ _
      · exact Le.refl _
    · exact Le.refl _

theorem mono_pnext (σ : LStore T) (κ : PStore T) : ∀ it : PIter T, Mono (fun n => PIter.next n σ κ it)
  | .frozen _ => Mono.const _
  | .caching _ _ _ => fun n m h => Le.bind (mono_cacheNext n m h _ _ _) fun _ => Le.refl _

theorem mono_padvance (σ : LStore T) (κ : PStore T) (c : PCursor T) : Mono (fun n => c.advance n σ κ) := fun n m h => by
  simp only [PCursor.advance]
  split
  · exact Le.refl _
  · exact Le.bind (mono_pnext _ _ _ n m h) fun _ => Le.refl _

theorem mono_prange (σ : LStore T) (κ : PStore T) : ∀ s : PSet T, Mono (fun n => PSet.range n σ κ s)
  | .frozen _ => Mono.const _
  | .memo k => fun n m h => by
    simp only [PSet.range]
    refine Le.bind (Le.refl _) fun c => ?_
    split
    · exact Le.refl _
    · exact Le.bind (Le.bind (mono_range _ n m h _) fun _ => Le.refl _) fun _ => Le.refl _

theorem mono_pstep (st : PState T) : ∀ c : PCmd T, Mono (fun n => st.step n c)
  | .base c => fun n m h => Le.bind (mono_step st.base c n m h) fun _ => Le.refl _
  | .powerset _ => Mono.const _
  | .range p => fun n m h => by
    simp only [PState.step]
    split
    · exact Le.refl _
    · exact Le.bind (mono_prange _ _ _ n m h) fun _ => Le.refl _
  | .advance k => fun n m h => by
    simp only [PState.step]
    split
    · exact Le.refl _
    · exact Le.bind (mono_padvance _ _ _ n m h) fun _ => Le.refl _

/-- An iterator that has ended stays as it is. -/
theorem ended_stays {k : Nat} : ∀ (j : Nat) {st st' : PState T} {c c' : PCursor T}, st.iters[k]? = some c → c.ended = true →
    Runs (fun n => st.run n (List.replicate j (.advance k))) st' → st'.iters[k]? = some c' → c'.ended = true
  | 0, st, st', c, c', hc, he, hr, hc' => by
    cases hr.unique (Runs.const st)
    rw [hc] at hc'; cases hc'; exact he
  | j + 1, st, st', c, c', hc, he, hr, hc' => by
    have hk : k < st.iters.length := (List.getElem?_eq_some_iff.1 hc).1
    refine ended_stays j (st := ⟨st.base.withStore st.base.store, st.cells, st.pows, st.iters.set k c⟩) (st' := st') (c := c) (List.getElem?_set_self hk) he (Runs.congr (fun n => ?_) hr) hc'
    simp only [List.replicate_succ, PState.run, PState.step, hc, PCursor.advance, he, if_true, bind, Except.bind, pure, Except.pure]

theorem pstep_spec {C : List (LSpec T)} {S : PSpec T} {st : PState T} (hs : PHistOk E C S st) (c : PCmd T)
    (hg : c.Good S st.base.iters.length st.iters.length) : PStep st S c := by
  cases c with
  | base c =>
    obtain ⟨b, E', h1, h2, h3, h4⟩ := step_spec hs.base c hg
    exact .ok ⟨b, st.cells, st.pows, st.iters⟩ E' C (Runs.bind (g := fun b _ => .ok (PState.mk b st.cells st.pows st.iters)) h1 (Runs.const _))
      (hs.rebase h2 h3) h4 rfl
  | powerset i =>
    obtain ⟨s, s1, s2⟩ := hs.base.get hg
    obtain ⟨d, d1, d2⟩ := s2.deref hs.base.store
    have other : d ≠ .empty → PStep st S (.powerset i) := fun hd => by
      refine .ok ⟨st.base, st.cells ++ [.pow d], st.pows ++ [.memo st.cells.length], st.iters⟩ E (C ++ [specAt S.sets i])
        (Runs.congr (g := fun _ => _) (fun n => ?_) (Runs.const _)) ⟨hs.base, by simp [hs.clen], fun k x a hk ha => ?_, by simp [PSpec.step, hs.plen], fun p s hp => ?_, fun k c hk => ?_⟩ rfl rfl
      · simp only [PState.step, s1, LSet.powersetM, d1, bind, Except.bind]
        cases d with
        | empty => exact absurd rfl hd
        | _ => rfl
      · by_cases hkl : k < st.cells.length
        · rw [List.getElem?_append_left hkl] at hk
          rw [List.getElem?_append_left (by rw [← hs.clen]; exact hkl)] at ha
          exact hs.cells k x a hk ha
        · have : k = st.cells.length := by
            have := (List.getElem?_eq_some_iff.1 hk).1
            simp at this; omega
          subst this
          simp at hk
          rw [hs.clen] at ha
          simp at ha
          subst hk ha
          exact d2
      · simp only [PSpec.step]
        by_cases hpl : p < st.pows.length
        · rw [List.getElem?_append_left hpl] at hp
          rw [specAt_old (by rw [← hs.plen]; exact hpl)]
          have := hs.pows p s hp
          cases s with
          | frozen f => exact this
          | memo k =>
            have this : C[k]? = some _ := this
            show (C ++ _)[k]? = _
            rw [List.getElem?_append_left (List.getElem?_eq_some_iff.1 this).1]; exact this
        · have : p = st.pows.length := by
            have := (List.getElem?_eq_some_iff.1 hp).1
            simp at this; omega
          subst this
          simp at hp
          subst hp
          rw [hs.plen, specAt_new]
          show (C ++ _)[st.cells.length]? = _
          rw [hs.clen]; simp
      · have hc := hs.iters k c hk
        have e := specAt_old (x := specAt S.sets i) hc.src
        refine ⟨by simp [PSpec.step]; have := hc.src; omega, fun he => ?_, fun he => ?_⟩
        · simp only [PSpec.step, e]; exact (hc.live he).push
        · simp only [PSpec.step, e]; exact hc.dead he
    cases d with
    | empty =>
      obtain ⟨f, f1, f2, f3, f4⟩ := buildSet_empty (T := T)
      have hf : FrozenPow (specAt S.sets i) f := ⟨f2, by rw [f3]; exact powDone_empty fun w hw => (d2.den w).2 hw, f4⟩
      refine .ok ⟨st.base, st.cells, st.pows ++ [.frozen f], st.iters⟩ E C
        (Runs.congr (g := fun _ => _) (fun n => ?_) (Runs.const _)) ⟨hs.base, hs.clen, hs.cells, by simp [PSpec.step, hs.plen], fun p s hp => ?_, fun k c hk => ?_⟩ rfl rfl
      · simp only [PState.step, s1, LSet.powersetM, d1, f1, bind, Except.bind]; rfl
      · simp only [PSpec.step]
        by_cases hpl : p < st.pows.length
        · rw [List.getElem?_append_left hpl] at hp
          rw [specAt_old (by rw [← hs.plen]; exact hpl)]
          exact hs.pows p s hp
        · have : p = st.pows.length := by
            have := (List.getElem?_eq_some_iff.1 hp).1
            simp at this; omega
          subst this
          simp at hp
          subst hp
          rw [hs.plen, specAt_new]
          exact hf
      · have hc := hs.iters k c hk
        have e := specAt_old (x := specAt S.sets i) hc.src
        refine ⟨by simp [PSpec.step]; have := hc.src; omega, fun he => ?_, fun he => ?_⟩
        · simp only [PSpec.step, e]; exact hc.live he
        · simp only [PSpec.step, e]; exact hc.dead he
    | frozen _ => exact other nofun
    | memo _ => exact other nofun
    | «where» _ _ => exact other nofun
    | map _ _ => exact other nofun
    | union _ _ => exact other nofun
    | inter _ _ => exact other nofun
    | diff _ _ => exact other nofun
  | range p =>
    have hp : p < st.pows.length := by rw [hs.plen]; exact hg
    have hps := hs.pows p _ (List.getElem?_eq_getElem hp)
    have fin : ∀ {it : PIter T}, Runs (fun n => PSet.range n st.base.store st.cells st.pows[p]) it → PIterOk E st.base.store C (specAt S.srcs p) [] it → PStep st S (.range p) := by
      intro it h1 h2
      refine .ok ⟨st.base, st.cells, st.pows, st.iters ++ [⟨it, p, [], false⟩]⟩ E C (Runs.congr (g := fun n => PSet.range n st.base.store st.cells st.pows[p] >>= fun it =>
        .ok (PState.mk st.base st.cells st.pows (st.iters ++ [⟨it, p, [], false⟩]))) (fun n => by simp only [PState.step, List.getElem?_eq_getElem hp]; rfl)
        (Runs.bind (g := fun it _ => .ok (PState.mk st.base st.cells st.pows (st.iters ++ [⟨it, p, [], false⟩]))) h1 (Runs.const _)))
        ⟨hs.base, hs.clen, hs.cells, hs.plen, hs.pows, fun k c hk => ?_⟩ rfl (by simp [PCmd.iters])
      dsimp only at hk
      by_cases hkl : k < st.iters.length
      · rw [List.getElem?_append_left hkl] at hk
        exact hs.iters k c hk
      · have : k = st.iters.length := by
          have := (List.getElem?_eq_some_iff.1 hk).1
          simp at this; omega
        subst this
        simp at hk
        subst hk
        exact ⟨hg, fun _ => h2, fun h => (by simp at h)⟩
    have frz : ∀ {f : FSet (PVal T)}, FrozenPow (specAt S.srcs p) f → ∃ it, f.range = .ok it ∧ PIterOk E st.base.store C (specAt S.srcs p) [] (.frozen it) := by
      rintro f ⟨f1, f2, _⟩
      obtain ⟨it, i1, i2, i3⟩ := iterator_spec f1
      exact ⟨it, i1, i3, by rw [i2]; exact f2⟩
    cases hq : st.pows[p] with
    | frozen f =>
      rw [hq] at hps
      obtain ⟨it, i1, i2⟩ := frz hps
      refine fin (Runs.congr (g := fun _ => .ok (.frozen it)) (fun n => ?_) (Runs.const _)) i2
      rw [hq]; simp only [PSet.range, i1, bind, Except.bind]; rfl
    | memo k =>
      rw [hq] at hps
      have hps : C[k]? = some _ := hps
      have hk : k < st.cells.length := by rw [hs.clen]; exact (List.getElem?_eq_some_iff.1 hps).1
      have hc := hs.cells k _ _ (List.getElem?_eq_getElem hk) hps
      have hget : PStore.get st.cells k = .ok st.cells[k] := by simp [PStore.get, List.getElem?_eq_getElem hk]
      cases hcc : st.cells[k] with
      | frozen f =>
        rw [hcc] at hc hget
        obtain ⟨it, i1, i2⟩ := frz hc
        refine fin (Runs.congr (g := fun _ => .ok (.frozen it)) (fun n => ?_) (Runs.const _)) i2
        rw [hq]; simp only [PSet.range, hget, i1, bind, Except.bind]; rfl
      | pow src =>
        rw [hcc] at hc hget
        obtain ⟨_, c1, c2, c3, _, _, _, c4⟩ := hc
        obtain ⟨it, r1, r2⟩ := range_spec hs.base.store c1 c2
        refine fin (it := .caching ⟨it, 1#64, ~~~0#64, [], FSet.zero⟩ k Tree.zero) (Runs.congr (g := fun n => LSet.range st.base.store n src >>= fun i =>
          .ok (PIter.caching ⟨i, 1#64, ~~~0#64, [], FSet.zero⟩ k Tree.zero)) (fun n => ?_) (Runs.bind (g := fun i _ => _) r1 (Runs.const _))) ⟨hps, 0, ⟨?_, rfl, by simp, by simp, by simp, Tree.valid_zero, fun e => ?_, ?_⟩, Gathers.zero, List.Perm.refl _, ?_⟩
        · rw [hq]; simp only [PSet.range, hget, LPow.range, bind, Except.bind, pure, Except.pure]
          cases LSet.range st.base.store n src <;> rfl
        · exact (by decide : (~~~0#64 + 1#64 : BitVec 64) = BitVec.ofNat 64 0)
        · exact ⟨fun h => (seen_zero_mem e h).elim, fun h => h.elim⟩
        · refine ⟨r2.ok, Nat.le_trans r2.rk c2, fun w => ?_, fun hp => ⟨r2.dst (c4 hp).cok, by simp, List.Pairwise.nil⟩⟩
          rw [← c3 w, ← r2.rest w]; simp
        · exact ⟨fun g hg => (by simp at hg), fun j hj => (by omega), fun _ => ⟨rfl, fun j g hj => by simp at hj⟩⟩
  | advance k =>
    rcases padvance_step hs hg with ⟨st', c', h1, h2, h3, h4, _⟩ | ⟨h1, h2, h3⟩
    · exact .ok st' E C h1 h2 h3 h4
    · exact .over _ h1 h2 h3

/-- Nothing made. -/
theorem phist_init : PHistOk (fun _ => ⟨fun _ => False, False, False, False, 0⟩ : LEnv T) [] PSpec.init PState.init := by
  refine ⟨⟨⟨fun k => ?_, fun k c hk => ?_⟩, rfl, ?_, ?_⟩, rfl, ?_, rfl, ?_, ?_⟩
  · exact fun _ _ _ => Iff.rfl
  all_goals intros; simp [PState.init, LState.init] at *

theorem prun_spec : ∀ (cs : List (PCmd T)) {E : LEnv T} {C : List (LSpec T)} {S : PSpec T} {st : PState T}, PHistOk E C S st →
    GoodPRun S st.base.iters.length st.iters.length cs →
    (∃ st' E' C', Runs (fun n => st.run n cs) st' ∧ PHistOk E' C' (S.run cs) st') ∨
      ((∀ n r, st.run n cs ≠ .ok r) ∧ ¬ ((∀ p, p < S.srcs.length → (specAt S.srcs p).plain ∧ ∃ m : Nat, m < 64 ∧ HasCard (specAt S.srcs p).den m) ∧ SmallPRun S cs))
  | [], E, C, S, st, hs, _ => .inl ⟨st, E, C, Runs.const _, hs⟩
  | c :: cs, E, C, S, st, hs, hg => by
    have hun : ∀ n, st.run n (c :: cs) = (st.step n c >>= fun st => st.run n cs) := fun n => rfl
    cases pstep_spec hs c hg.1 with
    | over p hp o r =>
      refine .inr ⟨fun n x => ?_, fun hsm => ?_⟩
      · rw [hun]
        cases h : st.step n c with
        | error e => exact fun h => by cases h
        | ok y => exact absurd h (r n y)
      · obtain ⟨h1, m, h2, h3⟩ := hsm.1 p hp
        exact o.not_small h1 h2 h3
    | ok st1 E1 C1 r1 r2 r3 r4 =>
      rcases prun_spec cs r2 (by rw [r3, r4]; exact hg.2) with ⟨st2, E2, C2, k1, k2⟩ | ⟨k1, k2⟩
      · exact .inl ⟨st2, E2, C2, Runs.congr hun (Runs.bind (g := fun st n => st.run n cs) r1 k1), k2⟩
      · refine .inr ⟨fun n x => ?_, fun hsm => k2 ⟨fun p hp => ?_, hsm.2.2⟩⟩
        · rw [hun]
          cases h : st.step n c with
          | error e => exact fun h => by cases h
          | ok y =>
            obtain ⟨N, hN⟩ := r1
            have : y = st1 := Except.ok.inj ((mono_pstep st c n (max n N) (by omega) _ h).symm.trans (hN (max n N) (by omega)))
            subst this
            exact k1 n x
        · cases c with
          | powerset i =>
            simp only [PSpec.step] at hp ⊢
            by_cases hpl : p < S.srcs.length
            · rw [specAt_old hpl]; exact hsm.1 p hpl
            · have : p = S.srcs.length := by simp at hp; omega
              subst this
              rw [specAt_new]
              exact hsm.2.1 i rfl
          | base _ => exact hsm.1 p hp
          | range _ => exact hsm.1 p hp
          | advance _ => exact hsm.1 p hp

/-- What is known of an iterator over a powerset at any time. -/
theorem PCurOk.subs {C srcs : List (LSpec T)} (hσ : StoreOk E σ) {c : PCursor T} (hc : PCurOk E σ C srcs c) : SubsOk (specAt srcs c.src) c.got := by
  cases he : c.ended with
  | true => exact (hc.dead he).toSubsOk
  | false =>
    have hl := hc.live he
    cases hi : c.iter with
    | frozen it => rw [hi] at hl; exact hl.2.toSubsOk.left
    | caching p cell seen =>
      rw [hi] at hl
      obtain ⟨_, k, h2⟩ := hl
      refine h2.got.subs h2.at_.le h2.at_.len (fun hp => (h2.at_.src.dst hp).2.2) (fun x hx => (h2.at_.src.den x).2 (.inl ⟨x, hx, LawfulGoKey.refl x⟩)) fun x y hxy => ?_
      rw [h2.at_.src.den x, h2.at_.src.den y, LIter.rest_congr hσ.env h2.at_.src.ok x y hxy]
      refine or_congr_left ⟨fun ⟨v, hv, hvx⟩ => ⟨v, hv, PerGoKey.trans hvx hxy⟩, fun ⟨v, hv, hvx⟩ => ⟨v, hv, PerGoKey.trans hvx (PerGoKey.symm hxy)⟩⟩

theorem PCurOk.bound {C srcs : List (LSpec T)} {c : PCursor T} (hc : PCurOk E σ C srcs c) (hp : (specAt srcs c.src).plain) {m : Nat}
    (hm : HasCard (specAt srcs c.src).den m) : c.got.length ≤ 2 ^ m := by
  obtain ⟨l, hl, hlm⟩ := hm
  have fin : ∀ {got : List (PVal T)}, PowDone (specAt srcs c.src) got → got.length = 2 ^ m := fun h => by
    obtain ⟨L, h1, h2⟩ := h.count hp
    rw [h2, h1.length_eq hl, show l.length = m by omega]
  cases he : c.ended with
  | true => exact (fin (hc.dead he)).le
  | false =>
    have hl' := hc.live he
    cases hi : c.iter with
    | frozen it =>
      rw [hi] at hl'
      have := fin hl'.2
      rw [List.length_append] at this
      omega
    | caching p cell seen =>
      rw [hi] at hl'
      obtain ⟨_, k, h2⟩ := hl'
      rw [(h2.got.ord hp).1]
      refine Nat.le_trans h2.at_.le (Nat.pow_le_pow_right (by omega) ?_)
      have := (h2.at_.src.dst hp).2.2.length_le (l' := l) fun e he => by
        obtain ⟨x, hx, hxe⟩ := (hl.covers e).1 ((h2.at_.src.den e).2 (.inl ⟨e, he, LawfulGoKey.refl e⟩))
        exact ⟨x, hx, PerGoKey.symm hxe⟩
      omega

/-- Advancing an iterator `j` times. -/
theorem padvance_many {k : Nat} {C : List (LSpec T)} {S : PSpec T} (hsm : ∀ p, p < S.srcs.length → (specAt S.srcs p).plain ∧ ∃ m : Nat, m < 64 ∧ HasCard (specAt S.srcs p).den m) :
    ∀ (j : Nat) {st : PState T}, PHistOk E C S st → ∀ c, st.iters[k]? = some c →
    ∃ st' c', Runs (fun n => st.run n (List.replicate j (.advance k))) st' ∧ PHistOk E C S st' ∧ st'.iters[k]? = some c' ∧ c'.src = c.src ∧
      (c'.ended = true ∨ c'.got.length = c.got.length + j)
  | 0, st, hs, c, hc => ⟨st, c, Runs.const _, hs, hc, rfl, .inr rfl⟩
  | j + 1, st, hs, c, hc => by
    have hk : k < st.iters.length := (List.getElem?_eq_some_iff.1 hc).1
    have hcc : st.iters[k] = c := (List.getElem?_eq_some_iff.1 hc).2
    rcases padvance_step hs hk with ⟨st1, c1, h1, h2, h3, h4, h5, h6, h7⟩ | ⟨h1, h2, h3⟩
    · obtain ⟨st2, c2, g1, g2, g3, g4, g5⟩ := padvance_many hsm j h2 c1 h5
      rw [hcc] at h6 h7
      refine ⟨st2, c2, Runs.congr (g := fun n => st.step n (.advance k) >>= fun st => st.run n (List.replicate j (.advance k))) (fun n => rfl)
        (Runs.bind (g := fun st n => st.run n (List.replicate j (.advance k))) h1 g1), g2, g3, g4.trans h6, ?_⟩
      rcases h7 with h7 | h7
      · -- it had ended
        have : c2.ended = true := by
          clear g2 g4 g5 h6
          exact ended_stays j h5 h7 g1 g3
        exact .inl this
      · rcases g5 with g5 | g5
        · exact .inl g5
        · exact .inr (by omega)
    · obtain ⟨g1, m, g2, g3⟩ := hsm _ h1
      exact (h2.not_small g1 g2 g3).elim

theorem mono_prun : ∀ (cs : List (PCmd T)) (st : PState T), Mono (fun n => st.run n cs)
  | [], _ => Mono.const _
  | c :: cs, st => fun n m h => Le.bind (mono_pstep st c n m h) fun st => mono_prun cs st n m h

/-- A history that returned. -/
theorem phist_of_run {cs : List (PCmd T)} (hg : GoodPRun PSpec.init 0 0 cs) {n : Nat} {st : PState T} (hr : PState.init.run n cs = .ok st) :
    ∃ E C, PHistOk E C (PSpec.init.run cs) st := by
  rcases prun_spec cs phist_init hg with ⟨st', E, C, h1, h2⟩ | ⟨h1, _⟩
  · obtain ⟨N, hN⟩ := h1
    have : st = st' := Except.ok.inj ((mono_prun cs _ n (max n N) (by omega) _ hr).symm.trans (hN (max n N) (by omega)))
    subst this
    exact ⟨E, C, h2⟩
  · exact absurd hr (h1 n st)

/-- `Count` of a powerset. -/
theorem pcount_spec {C : List (LSpec T)} {S : PSpec T} {st : PState T} (hs : PHistOk E C S st) {p : Nat} {s : PSet T} (hp : st.pows[p]? = some s)
    (hpl : (specAt S.srcs p).plain) {m : Nat} (hm : HasCard (specAt S.srcs p).den m) (h63 : m < 63) :
    ∃ σ', Runs (fun n => PSet.count n st.base.store st.cells s) (2 ^ m, σ') := by
  obtain ⟨l, hl, hlm⟩ := hm
  have hlen : l.length = m := by omega
  have fin : ∀ {f : FSet (PVal T)}, FrozenPow (specAt S.srcs p) f → f.count = 2 ^ m := by
    rintro f ⟨_, f2, f3⟩
    obtain ⟨L, h1, h2⟩ := f2.count hpl
    rw [f3, h2, h1.length_eq hl, hlen]
    simp
  have hps := hs.pows p s hp
  cases s with
  | frozen f => exact ⟨st.base.store, by simp only [PSet.count, fin hps]; exact Runs.const _⟩
  | memo k =>
    have hps : C[k]? = some _ := hps
    have hk : k < st.cells.length := by rw [hs.clen]; exact (List.getElem?_eq_some_iff.1 hps).1
    have hc := hs.cells k _ _ (List.getElem?_eq_getElem hk) hps
    have hget : PStore.get st.cells k = .ok st.cells[k] := by simp [PStore.get, List.getElem?_eq_getElem hk]
    cases hcc : st.cells[k] with
    | frozen f =>
      rw [hcc] at hc hget
      refine ⟨st.base.store, ?_⟩
      simp only [PSet.count, hget, bind, Except.bind, fin hc]; exact Runs.const _
    | pow src =>
      rw [hcc] at hc hget
      obtain ⟨c, σ', g1, _, _, g2⟩ := powCount_spec hs.base.store (DerefOk.set hc) hpl hl (by omega)
      refine ⟨σ', ?_⟩
      simp only [PSet.count, hget, bind, Except.bind]
      rw [g2, hlen] at g1
      exact g1

/-- `Has` of a powerset that has not been iterated to the end, asked of a `frozen.Set`. -/
theorem phas_spec {C : List (LSpec T)} {S : PSpec T} {st : PState T} (hs : PHistOk E C S st) {p k : Nat} {src : LSet T} (hp : st.pows[p]? = some (.memo k))
    (hk : st.cells[k]? = some (.pow src)) (hpl : (specAt S.srcs p).plain) {f : FSet T} (hf : f.Valid) :
    ∃ b σ', Runs (fun n => PSet.has n st.base.store st.cells (.memo k) (.frozen f)) (b, σ') ∧ (b = true ↔ ∀ w, f.Mem w → (specAt S.srcs p).den w) := by
  have hps : C[k]? = some _ := hs.pows p _ hp
  have hc : DerefOk _ _ _ _ := hs.cells k _ _ hk hps
  obtain ⟨b, σ', g1, _, _, g2⟩ := powHas_spec hs.base.store hc.set hf hpl
  refine ⟨b, σ', Runs.congr (fun n => ?_) g1, g2⟩
  simp only [PSet.has, PStore.get, hk, bind, Except.bind]

end Frozen
