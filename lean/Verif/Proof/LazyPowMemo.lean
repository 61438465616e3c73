import Verif.Spec.LazyPow
import Verif.Proof.LazyPow
import Verif.Proof.LazyFuel
import Verif.Proof.PowWalk
import Verif.Proof.Unlawful

/-! Lazy sets: the memo tables of powersets. -/

set_option linter.unusedSectionVars false

namespace Frozen

variable {T : Type} [GoKey T] [LawfulGoKey T] {E : LEnv T} {σ : LStore T}

/-! ### The iterator over the source -/

/-- The source's iterator after it has delivered `got`. -/
structure SrcOk (E : LEnv T) (σ : LStore T) (a : LSpec T) (it : LIter T) (got : List T) : Prop where
  ok : it.IterOk E
  rk : it.rk ≤ σ.length
  den : ∀ w, a.den w ↔ (∃ v ∈ got, GoKey.eq v w = true) ∨ it.rest E w
  dst : a.plain → it.Dst E ∧ (∀ v ∈ got, ¬ it.rest E v) ∧ Distinct got

theorem SrcOk.ext {E' : LEnv T} {σ' : LStore T} (h : Ext E σ E' σ') {a : LSpec T} {it : LIter T} {got : List T} (hc : SrcOk E σ a it got) :
    SrcOk E' σ' a it got := by
  have hr := LIter.rest_agree h.agree hc.rk hc.ok
  refine ⟨LIter.IterOk_agree h.agree hc.rk hc.ok, Nat.le_trans hc.rk h.len, ?_, ?_⟩
  · rw [← hr]; exact hc.den
  · rw [← hr, ← LIter.Dst_agree h.agree hc.rk hc.ok]; exact hc.dst

theorem SrcOk.next (hσ : StoreOk E σ) {a : LSpec T} {it : LIter T} {got : List T} (hc : SrcOk E σ a it got) :
    ∃ it' ok σ', Runs (fun n => LIter.next n σ it) (it', ok, σ') ∧ StoreOk E σ' ∧ σ'.length = σ.length ∧
      (ok = true → ∃ v, it'.value = .ok v ∧ SrcOk E σ' a it' (got ++ [v])) ∧
      (ok = false → ∀ w, a.den w ↔ ∃ v ∈ got, GoKey.eq v w = true) := by
  obtain ⟨⟨i', ok, σ1⟩, g1, g2⟩ := lnext_spec hσ hc.ok hc.rk
  refine ⟨i', ok, σ1, g1, g2.store, g2.len, fun ho => ?_, fun ho w => ?_⟩
  · obtain ⟨v, k1, k2, k3, k4, k5⟩ := g2.more ho
    dsimp only at k1 k2 k3 k4 k5
    have hrv : it.rest E v := (k4 v).2 (.inl (LawfulGoKey.refl v))
    refine ⟨v, k1, k2, ?_, fun w => ?_, fun hp => ?_⟩
    · have := g2.rk; have := g2.len; have := hc.rk; dsimp only at *; omega
    · rw [hc.den w, k4 w]
      simp only [List.mem_append, List.mem_singleton, or_and_right, exists_or, exists_eq_left, or_assoc]
    · obtain ⟨d1, d2, d3⟩ := hc.dst hp
      refine ⟨(k5 d1).2, fun x hx => ?_, List.pairwise_append.2 ⟨d3, List.pairwise_singleton _ _, fun x hx y hy => ?_⟩⟩
      · rcases List.mem_append.1 hx with hx | hx
        · exact fun hr => d2 x hx ((k4 x).2 (.inr hr))
        · rw [List.mem_singleton.1 hx]; exact (k5 d1).1
      · rw [List.mem_singleton.1 hy]
        by_contra hne
        have hxv : GoKey.eq x v = true := by simpa using hne
        exact d2 x hx ((LIter.rest_congr hσ.env hc.ok x v hxv).2 hrv)
  · rw [hc.den w]
    simp [(g2.done ho).1 w]

/-! ### The iterator over the subsets -/

theorem flip_pv {p : LPow T} {k : Nat} (hmask : p.mask = BitVec.ofNat 64 k) (hk : k < 2 ^ 64) (hlen : p.elems.length ≤ 64)
    (hv : p.value.Valid) (hm : ∀ e, p.value.Mem e ↔ pv p.elems (k - 1) e) :
    ∃ f, LPow.flip p = .ok { p with value := f } ∧ f.Valid ∧ ∀ e, f.Mem e ↔ pv p.elems k e := by
  cases k with
  | zero =>
    have hidx : p.mask.index = 64 := by rw [hmask]; decide
    have hx : p.elems[64]? = none := List.getElem?_eq_none hlen
    refine ⟨p.value, ?_, hv, hm⟩
    simp only [LPow.flip, hidx, hx]
  | succ k =>
    rw [Nat.add_sub_cancel] at hm
    have hidx : p.mask.index = tz (BitVec.ofNat 64 (k + 1)) := by rw [hmask]; rfl
    simp only [pv, pvStep, LPow.flip, hidx]
    have ht := (tz_ofNat64 (i := k + 1) (by omega) hk).1
    generalize tz (BitVec.ofNat 64 (k + 1)) = t at ht
    have ht64 : t < 64 := by
      by_contra hc
      have : 2 ^ 64 ≤ 2 ^ t := Nat.pow_le_pow_right (by omega) (by omega)
      rw [Nat.testBit_lt_two_pow (by omega)] at ht; cases ht
    have hhas : BitIter.has p.mask (BitVec.ofNat 64 (t + 1)) = (k + 1).testBit (t + 1) := by
      rw [hmask, BitIter.has_spec, BitVec.toNat_ofNat, Nat.mod_eq_of_lt (by omega), BitVec.getLsbD_ofNat]
      by_cases h : t + 1 < 64
      · simp [h]
      · rw [Nat.testBit_lt_two_pow (i := t + 1) (by have : 2 ^ 64 ≤ 2 ^ (t + 1) := Nat.pow_le_pow_right (by omega) (by omega)
                                                    omega)]
        simp
    cases hx : p.elems[t]? with
    | none => exact ⟨p.value, rfl, hv, hm⟩
    | some v =>
      dsimp only
      rw [hhas]
      by_cases hb : (k + 1).testBit (t + 1) = true
      · obtain ⟨f, h1, h2, _, h4⟩ := FSet.without_spec hv v
        refine ⟨f, by simp only [hb, if_true, h1, bind, Except.bind]; rfl, h2, fun e => ?_⟩
        rw [h4, hm, if_pos hb]
      · obtain ⟨f, h1, h2, _, h4⟩ := FSet.with_spec hv v
        refine ⟨f, by simp only [hb, h1, bind, Except.bind]; rfl, h2, fun e => ?_⟩
        rw [h4, hm, if_neg hb]

/-- The iterator after it has delivered `k` subsets. -/
structure PowAt (E : LEnv T) (σ : LStore T) (a : LSpec T) (p : LPow T) (k : Nat) : Prop where
  mask : p.mask + 1#64 = BitVec.ofNat 64 k
  «end» : p.end = BitVec.ofNat 64 (2 ^ p.elems.length)
  len : p.elems.length ≤ 64
  le : k ≤ 2 ^ p.elems.length
  big : p.elems.length = 64 → k = 2 ^ 63 + 1
  valid : p.value.Valid
  mem : ∀ e, p.value.Mem e ↔ pv p.elems (k - 1) e
  src : SrcOk E σ a p.i p.elems

theorem PowAt.ext {E' : LEnv T} {σ' : LStore T} (h : Ext E σ E' σ') {a : LSpec T} {p : LPow T} {k : Nat} (hp : PowAt E σ a p k) : PowAt E' σ' a p k :=
  ⟨hp.mask, hp.end, hp.len, hp.le, hp.big, hp.valid, hp.mem, hp.src.ext h⟩

theorem PowAt.bound {a : LSpec T} {p : LPow T} {k : Nat} (hp : PowAt E σ a p k) : k ≤ 2 ^ 63 + 1 := by
  by_cases h : p.elems.length = 64
  · exact (hp.big h).le
  · have : 2 ^ p.elems.length ≤ 2 ^ 63 := Nat.pow_le_pow_right (by omega) (by have := hp.len; omega)
    have := hp.le
    omega

/-- What a call of `Next` achieves. -/
inductive PowNext (E : LEnv T) (σ : LStore T) (a : LSpec T) (p : LPow T) (k : Nat) : Prop where
  | more (p' : LPow T) (σ' : LStore T) (L : List T) (run : Runs (fun n => LPow.next n σ p) (p', true, σ')) (store : StoreOk E σ') (len : σ'.length = σ.length)
      (at_ : PowAt E σ' a p' (k + 1)) (elems : p'.elems = p.elems ++ L)
  | done (p' : LPow T) (σ' : LStore T) (run : Runs (fun n => LPow.next n σ p) (p', false, σ')) (store : StoreOk E σ') (len : σ'.length = σ.length)
      (all : k = 2 ^ p.elems.length) (lt : p.elems.length < 64) (den : ∀ w, a.den w ↔ ∃ v ∈ p.elems, GoKey.eq v w = true)
  | over (len : p.elems.length = 64) (run : ∀ n r, LPow.next n σ p ≠ .ok r)

theorem PowAt.next (hσ : StoreOk E σ) {a : LSpec T} {p : LPow T} {k : Nat} (hp : PowAt E σ a p k) : PowNext E σ a p k := by
  have hb := hp.bound
  by_cases h64 : p.elems.length = 64
  · refine .over h64 fun n r => ?_
    rw [pow_next_unfold n σ p rfl]
    have e1 : p.end ≤ p.mask + 1#64 := by rw [hp.mask, hp.end, h64, hp.big h64]; decide
    have e2 : p.end < p.mask + 1#64 := by rw [hp.mask, hp.end, h64, hp.big h64]; decide
    simp only [e1, e2, if_true]
    exact fun h => by cases h
  have hlen : p.elems.length ≤ 63 := by have := hp.len; omega
  have h63 : 2 ^ p.elems.length ≤ 2 ^ 63 := Nat.pow_le_pow_right (by omega) hlen
  have hle := hp.le
  by_cases hk : k = 2 ^ p.elems.length
  · have e1 : p.end ≤ p.mask + 1#64 := by rw [hp.mask, hp.end, hk]; exact BitVec.le_refl _
    have e2 : ¬ p.end < p.mask + 1#64 := by rw [hp.mask, hp.end, hk]; exact BitVec.lt_irrefl _
    obtain ⟨i', ok, σ', g1, g2, g3, g4, g5⟩ := hp.src.next hσ
    cases ok with
    | false =>
      refine .done { p with mask := p.mask + 1#64, i := i' } σ' (Runs.congr (fun n => pow_next_unfold n σ p rfl) ?_) g2 g3 hk (by omega) (g5 rfl)
      simp only [e1, e2, if_true, if_false]
      exact Runs.bind (g := fun r n => _) g1 (Runs.const _)
    | true =>
      obtain ⟨v, v1, v2⟩ := g4 rfl
      have hpow : 2 ^ (p.elems ++ [v]).length = 2 ^ p.elems.length + 2 ^ p.elems.length := by simp [Nat.pow_succ]; omega
      have hlen' : (p.elems ++ [v]).length = p.elems.length + 1 := by simp
      have hsh : p.end <<< 1 = BitVec.ofNat 64 (2 ^ (p.elems ++ [v]).length) := by
        rw [hp.end]
        apply BitVec.eq_of_toNat_eq
        rw [BitVec.toNat_shiftLeft, BitVec.toNat_ofNat, BitVec.toNat_ofNat, Nat.mod_eq_of_lt (a := 2 ^ p.elems.length) (by omega), Nat.shiftLeft_eq, hpow]
        omega
      obtain ⟨f, f1, f2, f3⟩ := flip_pv (p := { p with mask := p.mask + 1#64, i := i', elems := p.elems ++ [v], «end» := p.end <<< 1 }) (k := k) hp.mask (by omega)
        (by dsimp only; omega) hp.valid (fun e => by
          dsimp only
          have h0 := Nat.two_pow_pos p.elems.length
          rw [pv_append (i := k - 1) (by omega) (by omega)]; exact hp.mem e)
      refine .more { p with mask := p.mask + 1#64, i := i', elems := p.elems ++ [v], «end» := p.end <<< 1, value := f } σ' [v]
        (Runs.congr (fun n => pow_next_unfold n σ p rfl) ?_) g2 g3
        ⟨by dsimp only; rw [hp.mask]; simp [BitVec.ofNat_add], hsh, by dsimp only; omega, by dsimp only; have := Nat.two_pow_pos p.elems.length; omega, ?_, f2, f3, v2⟩ rfl
      · simp only [e1, e2, if_true, if_false]
        refine Runs.bind (g := fun r n => _) g1 ?_
        simp only [v1, if_true, bind, Except.bind, f1]
        exact Runs.const _
      · dsimp only
        intro h
        rw [hk, show p.elems.length = 63 by omega]
  · obtain ⟨f, f1, f2, f3⟩ := flip_pv (p := { p with mask := p.mask + 1#64 }) (k := k) hp.mask (by omega) hp.len hp.valid hp.mem
    refine .more { p with mask := p.mask + 1#64, value := f } σ [] (Runs.congr (fun n => pow_next_unfold n σ p rfl) ?_) hσ rfl
      ⟨by dsimp only; rw [hp.mask]; simp [BitVec.ofNat_add], hp.end, hp.len, by dsimp only; omega, fun h => absurd h h64, f2, f3, hp.src⟩ (by simp)
    have e1 : ¬ p.end ≤ p.mask + 1#64 := by
      rw [hp.mask, hp.end, ofNat_le (by omega) (by omega)]; omega
    simp only [e1, if_false, f1, bind, Except.bind]
    exact Runs.const _

/-! ### What has been delivered -/

/-- A list of subsets; without repetition if the source can be iterated without repetition. -/
structure SubsOk (a : LSpec T) (got : List (PVal T)) : Prop where
  answers : ∀ g ∈ got, ∀ e, ∃ b, g.has e = .ok b
  sub : ∀ g ∈ got, ∀ e, g.holds e → a.den e
  dst : a.plain → got.Pairwise (fun x y => ¬ x.Same y)

/-- A list of all subsets. -/
structure PowDone (a : LSpec T) (got : List (PVal T)) : Prop extends SubsOk a got where
  all : ∀ Q : T → Prop, (∀ a b, GoKey.eq a b = true → (Q a ↔ Q b)) → (∀ e, Q e → a.den e) → ∃ g ∈ got, ∀ e, g.holds e ↔ Q e
  count : a.plain → ∃ L : List T, Lists L a.den ∧ got.length = 2 ^ L.length

omit [LawfulGoKey T] in
theorem PVal.same_symm {x y : PVal T} (h : ¬ x.Same y) : ¬ y.Same x := fun g => h fun e => (g e).symm

theorem SubsOk.perm {a : LSpec T} {l l' : List (PVal T)} (h : SubsOk a l) (p : l.Perm l') : SubsOk a l' :=
  ⟨fun g hg => h.answers g (p.mem_iff.2 hg), fun g hg => h.sub g (p.mem_iff.2 hg), fun hp => (p.pairwise_iff fun g => PVal.same_symm g).1 (h.dst hp)⟩

theorem PowDone.perm {a : LSpec T} {l l' : List (PVal T)} (h : PowDone a l) (p : l.Perm l') : PowDone a l' :=
  ⟨h.toSubsOk.perm p, fun Q h1 h2 => by
    obtain ⟨g, hg, he⟩ := h.all Q h1 h2
    exact ⟨g, p.mem_iff.1 hg, he⟩, fun hp => by
    obtain ⟨L, h1, h2⟩ := h.count hp
    exact ⟨L, h1, by rw [← p.length_eq]; exact h2⟩⟩

theorem SubsOk.left {a : LSpec T} {l l' : List (PVal T)} (h : SubsOk a (l ++ l')) : SubsOk a l :=
  ⟨fun g hg => h.answers g (List.mem_append_left _ hg), fun g hg => h.sub g (List.mem_append_left _ hg), fun hp => (List.pairwise_append.1 (h.dst hp)).1⟩

/-- A lazy set delivered as subset number `j`. -/
def IsPv (L : List T) (j : Nat) (g : PVal T) : Prop := ∃ f, g = .lazy f ∧ f.Valid ∧ ∀ e, f.Mem e ↔ pv L j e

/-- What `k` subsets of `L` have given. -/
structure GotOk (a : LSpec T) (L : List T) (k : Nat) (got : List (PVal T)) : Prop where
  each : ∀ g ∈ got, ∃ j, j < k ∧ IsPv L j g
  all : ∀ j, j < k → ∃ g ∈ got, IsPv L j g
  ord : a.plain → got.length = k ∧ ∀ (j : Nat) (g : PVal T), got[j]? = some g → IsPv L j g

omit [LawfulGoKey T] in
theorem IsPv.holds {L : List T} {j : Nat} {g : PVal T} (h : IsPv L j g) (e : T) : g.holds e ↔ pv L j e := by
  obtain ⟨f, rfl, _, h2⟩ := h
  exact h2 e

theorem GotOk.append {a : LSpec T} {L L' : List T} {k : Nat} {got : List (PVal T)} (h : GotOk a L k got) (hk : k ≤ 2 ^ L.length) (hk' : k ≤ 2 ^ 64) :
    GotOk a (L ++ L') k got := by
  have hs : ∀ {j g}, j < k → IsPv L j g → IsPv (L ++ L') j g := fun {j g} hj hg => by
    obtain ⟨f, h1, h2, h3⟩ := hg
    exact ⟨f, h1, h2, fun e => by rw [h3, pv_append (by omega) (by omega)]⟩
  refine ⟨fun g hg => ?_, fun j hj => ?_, fun hp => ⟨(h.ord hp).1, fun j g hj => ?_⟩⟩
  · obtain ⟨j, hj, h1⟩ := h.each g hg
    exact ⟨j, hj, hs hj h1⟩
  · obtain ⟨g, hg, h1⟩ := h.all j hj
    exact ⟨g, hg, hs hj h1⟩
  · refine hs ?_ ((h.ord hp).2 j g hj)
    have := (List.getElem?_eq_some_iff.1 hj).1
    rw [(h.ord hp).1] at this; exact this

theorem GotOk.subs {a : LSpec T} {L : List T} {k : Nat} {got : List (PVal T)} (h : GotOk a L k got) (hk : k ≤ 2 ^ L.length) (hL : L.length ≤ 64)
    (hd : a.plain → Distinct L) (hsub : ∀ x ∈ L, a.den x) (hden : ∀ x y, GoKey.eq x y = true → (a.den x ↔ a.den y)) : SubsOk a got := by
  refine ⟨fun g hg e => ?_, fun g hg e he => ?_, fun hp => ?_⟩
  · obtain ⟨j, _, f, rfl, h1, _⟩ := h.each g hg
    exact ⟨_, FSet.has_spec h1 e⟩
  · obtain ⟨j, _, h1⟩ := h.each g hg
    obtain ⟨x, hx, hxe⟩ := pv_sub L j ((h1.holds e).1 he)
    exact (hden x e hxe).1 (hsub x hx)
  · obtain ⟨h1, h2⟩ := h.ord hp
    rw [List.pairwise_iff_getElem]
    intro i j hi hj hij hs
    have k1 := h2 i _ (List.getElem?_eq_getElem hi)
    have k2 := h2 j _ (List.getElem?_eq_getElem hj)
    have := pv_inj (hd hp) hL (i := i) (j := j) (by omega) (by omega) fun e => (k1.holds e).symm.trans ((hs e).trans (k2.holds e))
    omega

theorem GotOk.done {a : LSpec T} {L : List T} {k : Nat} {got : List (PVal T)} (h : GotOk a L k got) (hk : k = 2 ^ L.length) (hL : L.length ≤ 64)
    (hd : a.plain → Distinct L) (hden : ∀ w, a.den w ↔ ∃ v ∈ L, GoKey.eq v w = true) : PowDone a got := by
  refine ⟨h.subs (by omega) hL hd (fun x hx => (hden x).2 ⟨x, hx, LawfulGoKey.refl x⟩) (fun x y hxy => ?_), fun Q hQ hsub => ?_, fun hp => ⟨L, ⟨hd hp, hden⟩, ?_⟩⟩
  · rw [hden, hden]
    exact ⟨fun ⟨v, hv, hvx⟩ => ⟨v, hv, PerGoKey.trans hvx hxy⟩, fun ⟨v, hv, hvx⟩ => ⟨v, hv, PerGoKey.trans hvx (PerGoKey.symm hxy)⟩⟩
  · obtain ⟨i, h1, h2⟩ := pv_surj hL hQ (fun e he => (hden e).1 (hsub e he))
    obtain ⟨g, hg, h3⟩ := h.all i (by omega)
    exact ⟨g, hg, fun e => (h3.holds e).trans (h2 e)⟩
  · rw [(h.ord hp).1, hk]

/-! ### The cache -/

variable [GoHash]

/-- The cache of an iterator that has delivered `got`. -/
structure CacheOk (E : LEnv T) (σ : LStore T) (a : LSpec T) (p : LPow T) (seen : SetBuilder (PVal T)) (got : List (PVal T)) (k : Nat) : Prop where
  at_ : PowAt E σ a p k
  gath : Gathers (inferInstanceAs (GoKey (PVal T))) seen
  list : (Tree.list seen).Perm got
  got : GotOk a p.elems k got

theorem CacheOk.ext {E' : LEnv T} {σ' : LStore T} (h : Ext E σ E' σ') {a : LSpec T} {p : LPow T} {seen : SetBuilder (PVal T)} {got : List (PVal T)} {k : Nat}
    (hp : CacheOk E σ a p seen got k) : CacheOk E' σ' a p seen got k := ⟨hp.at_.ext h, hp.gath, hp.list, hp.got⟩

/-- What a call of `Next` of a caching iterator achieves. -/
inductive CacheNext (E : LEnv T) (σ : LStore T) (a : LSpec T) (p : LPow T) (seen : SetBuilder (PVal T)) (got : List (PVal T)) : Prop where
  | more (p' : LPow T) (seen' : SetBuilder (PVal T)) (σ' : LStore T) (k : Nat) (run : Runs (fun n => cacheNext n σ p seen) (p', true, seen', σ'))
      (store : StoreOk E σ') (len : σ'.length = σ.length) (cache : CacheOk E σ' a p' seen' (got ++ [.lazy p'.value]) k)
  | done (p' : LPow T) (seen' : SetBuilder (PVal T)) (σ' : LStore T) (run : Runs (fun n => cacheNext n σ p seen) (p', false, seen', σ'))
      (store : StoreOk E σ') (len : σ'.length = σ.length) (gath : Gathers (inferInstanceAs (GoKey (PVal T))) seen') (list : (Tree.list seen').Perm got)
      (all : PowDone a got)
  | over (L : List T) (len : L.length = 64) (sub : ∀ x ∈ L, a.den x) (dst : a.plain → Distinct L) (run : ∀ n r, cacheNext n σ p seen ≠ .ok r)

theorem CacheOk.next : ∀ (m k : Nat) {σ : LStore T} {a : LSpec T} {p : LPow T} {seen : SetBuilder (PVal T)} {got : List (PVal T)},
    2 ^ 63 + 1 < k + m → StoreOk E σ → CacheOk E σ a p seen got k → CacheNext E σ a p seen got := by
  intro m
  induction m with
  | zero => intro k σ a p seen got hm hσ hc; exact absurd hc.at_.bound (by omega)
  | succ m ih =>
    intro k σ a p seen got hm hσ hc
    have hun : ∀ n, cacheNext (n + 1) σ p seen = (LPow.next n σ p >>= fun r => if r.2.1 = true then
        SetBuilder.has seen (.lazy r.1.value) >>= fun b => if b = true then cacheNext n r.2.2 r.1 seen else
          SetBuilder.add seen (.lazy r.1.value) >>= fun s => .ok (r.1, true, s, r.2.2)
        else .ok (r.1, false, seen, r.2.2)) := fun n => rfl
    have hel : ∀ x ∈ p.elems, a.den x := fun x hx => (hc.at_.src.den x).2 (.inl ⟨x, hx, LawfulGoKey.refl x⟩)
    cases hc.at_.next hσ with
    | over hl hr =>
      refine .over p.elems hl hel (fun hp => (hc.at_.src.dst hp).2.2) fun n r => ?_
      cases n with
      | zero => exact fun h => by cases h
      | succ n =>
        rw [hun]
        cases h : LPow.next n σ p with
        | error e => exact fun h => by cases h
        | ok r => exact absurd h (hr n r)
    | done p' σ' hr hs hl hall hlt hden =>
      refine .done p' seen σ' (Runs.stepBind (h := fun n => LPow.next n σ p) hun hr (Runs.const _)) hs hl hc.gath hc.list
        (hc.got.done hall (by omega) (fun hp => (hc.at_.src.dst hp).2.2) hden)
    | more p' σ' L hr hs hl hat hel' =>
      have hb := hc.at_.bound
      have hg : GotOk a p'.elems k got := by rw [hel']; exact hc.got.append hc.at_.le (by omega)
      have hnew : IsPv p'.elems k (.lazy p'.value) := ⟨p'.value, rfl, hat.valid, fun e => by rw [hat.mem e, Nat.add_sub_cancel]⟩
      obtain ⟨b, b1, b2⟩ := builder_has_total (A := inferInstanceAs (GoKey (PVal T))) seen (.lazy p'.value)
      cases b with
      | true =>
        obtain ⟨g, hgm, hge⟩ := b2 rfl
        have hgot : g ∈ got := hc.list.mem_iff.1 hgm
        obtain ⟨j, hj, f, rfl, f1, f2⟩ := hg.each g hgot
        have hfe : f.equal p'.value = .ok true := by
          have hge : orFalse (f.equal p'.value) = true := hge
          obtain ⟨b, k1, _⟩ := FSet.equal_spec f1 hat.valid
          rw [k1] at hge ⊢
          simp only [orFalse] at hge
          rw [hge]
        have hsame := FSet.mem_of_equal f1 hat.valid hfe
        have hjk : ∀ e, pv p'.elems j e ↔ pv p'.elems k e := fun e => by
          rw [← f2 e, hsame e, hat.mem e, Nat.add_sub_cancel]
        have hnp : ¬ a.plain := fun hp => by
          have := pv_inj (hat.src.dst hp).2.2 hat.len (i := j) (j := k) (by have := hat.le; omega) (by have := hat.le; omega) hjk
          omega
        have hrec : CacheOk E σ' a p' seen got (k + 1) := ⟨hat, hc.gath, hc.list, fun g hg' => by
            obtain ⟨j, h1, h2⟩ := hg.each g hg'
            exact ⟨j, by omega, h2⟩, fun i hi => by
            by_cases hik : i = k
            · subst hik
              refine ⟨.lazy f, hgot, f, rfl, f1, fun e => ?_⟩
              rw [f2, hjk]
            · exact hg.all i (by omega), fun hp => absurd hp hnp⟩
        cases ih (k + 1) (by omega) hs hrec with
        | more q s2 σ2 k2 r1 r2 r3 r4 =>
          refine .more q s2 σ2 k2 (Runs.stepBind (h := fun n => LPow.next n σ p) hun hr ?_) r2 (r3.trans hl) r4
          simp only [b1, if_true, bind, Except.bind]; exact r1
        | done q s2 σ2 r1 r2 r3 r4 r5 r6 =>
          refine .done q s2 σ2 (Runs.stepBind (h := fun n => LPow.next n σ p) hun hr ?_) r2 (r3.trans hl) r4 r5 r6
          simp only [b1, if_true, bind, Except.bind]; exact r1
        | over L2 r1 r2 r3 r4 =>
          refine .over L2 r1 r2 r3 fun n r => ?_
          cases n with
          | zero => exact fun h => by cases h
          | succ n =>
            rw [hun]
            cases h : LPow.next n σ p with
            | error e => exact fun h => by cases h
            | ok r =>
              have : r = (p', true, σ') := by
                obtain ⟨N, hN⟩ := hr
                have h1 := mono_powNext σ p n (max n N) (by omega)
                have h2 := hN (max n N) (by omega)
                dsimp only at h2
                dsimp only at h1
                rw [h] at h1
                exact Except.ok.inj ((h1 _ rfl).symm.trans h2)
              subst this
              simp only [b1, if_true, bind, Except.bind]
              exact r4 n _
      | false =>
        have hself : PVal.eq (.lazy p'.value) (.lazy p'.value) = true := by
          show orFalse (p'.value.equal p'.value) = true
          rw [FSet.equal_of_mem hat.valid hat.valid fun w => Iff.rfl]; rfl
        obtain ⟨s', s1, s2, s3⟩ := hc.gath.add hself b1
        refine .more p' s' σ' (k + 1) (Runs.stepBind (h := fun n => LPow.next n σ p) hun hr ?_) hs hl
          ⟨hat, s2, ?_, fun g hg' => ?_, fun i hi => ?_, fun hp => ?_⟩
        · simp only [b1, s1, if_true, bind, Except.bind]
          exact Runs.const _
        · exact s3.trans ((hc.list.cons _).trans (List.perm_append_singleton _ _).symm)
        · rcases List.mem_append.1 hg' with hg' | hg'
          · obtain ⟨j, h1, h2⟩ := hg.each g hg'
            exact ⟨j, by omega, h2⟩
          · rw [List.mem_singleton.1 hg']; exact ⟨k, by omega, hnew⟩
        · by_cases hik : i = k
          · subst hik; exact ⟨_, List.mem_append_right _ (List.mem_singleton.2 rfl), hnew⟩
          · obtain ⟨g, h1, h2⟩ := hg.all i (by omega)
            exact ⟨g, List.mem_append_left _ h1, h2⟩
        · obtain ⟨o1, o2⟩ := hg.ord hp
          refine ⟨by simp [o1], fun j g hj => ?_⟩
          by_cases hjk : j < got.length
          · rw [List.getElem?_append_left hjk] at hj; exact o2 j g hj
          · have : j = got.length := by
              have := (List.getElem?_eq_some_iff.1 hj).1
              simp at this; omega
            subst this
            simp at hj
            subst hj
            rw [o1]; exact hnew

end Frozen
