import Verif.Model.LazyConc
import Verif.Proof.LazyHist

/-! Lazy sets used by several goroutines: worlds, and programs that keep their promises whatever the other goroutines do. -/

set_option linter.unusedSectionVars false

namespace Frozen

variable {T : Type} [GoKey T] [LawfulGoKey T]

/-- The cells at some moment and what they stand for. -/
structure CellWorld (T : Type) [GoKey T] where
  E : LEnv T
  σ : LStore T
  ok : StoreOk E σ

/-- What may have happened between two moments: cells were made, and cells were frozen. -/
structure CellWorld.Le (W W' : CellWorld T) : Prop where
  agree : EnvAgree W.σ.length W.E W'.E
  len : W.σ.length ≤ W'.σ.length
  cells : ∀ (k : Nat) (c : LSet T), W.σ[k]? = some c → W'.σ[k]? = some c ∨ ∃ f, W'.σ[k]? = some (.frozen f)

namespace CellWorld

theorem Le.refl (W : CellWorld T) : W.Le W := ⟨fun _ _ => rfl, Nat.le_refl _, fun _ _ h => .inl h⟩

theorem Le.trans {W W' W'' : CellWorld T} (h : W.Le W') (g : W'.Le W'') : W.Le W'' := by
  refine ⟨fun k hk => (h.agree k hk).trans (g.agree k (Nat.lt_of_lt_of_le hk h.len)), Nat.le_trans h.len g.len, fun k c hc => ?_⟩
  rcases h.cells k c hc with h1 | ⟨f, h1⟩
  · exact g.cells k c h1
  · rcases g.cells k _ h1 with h2 | ⟨f', h2⟩
    · exact .inr ⟨f, h2⟩
    · exact .inr ⟨f', h2⟩

theorem Le.ext {W W' : CellWorld T} (h : W.Le W') : Ext W.E W.σ W'.E W'.σ := ⟨W'.ok, h.agree, h.len⟩

/-- The cell is frozen. -/
def Froze (W : CellWorld T) (k : Nat) : Prop := ∃ f, W.σ[k]? = some (.frozen f)

theorem Froze.mono {W W' : CellWorld T} (h : W.Le W') {k : Nat} (hk : W.Froze k) : W'.Froze k := by
  obtain ⟨f, hf⟩ := hk
  rcases h.cells k _ hf with h1 | h1
  · exact ⟨f, h1⟩
  · exact h1

/-- The cells numbered below `L` stand for what `E` says. -/
structure Fits (E : LEnv T) (L : Nat) (W : CellWorld T) : Prop where
  env : EnvOk E
  len : L ≤ W.σ.length
  agree : EnvAgree L E W.E

theorem Fits.mono {E : LEnv T} {L : Nat} {W W' : CellWorld T} (h : Fits E L W) (g : W.Le W') : Fits E L W' :=
  ⟨h.env, Nat.le_trans h.len g.len, fun k hk => (h.agree k hk).trans (g.agree k (Nat.lt_of_lt_of_le hk h.len))⟩

theorem Fits.self (W : CellWorld T) : Fits W.E W.σ.length W := ⟨W.ok.env, Nat.le_refl _, fun _ _ => rfl⟩

theorem Fits.cell {E : LEnv T} {L : Nat} {W : CellWorld T} (h : Fits E L W) {k : Nat} {c : LSet T} (hk : k < L) (hc : W.σ[k]? = some c) : CellOk E k c :=
  (W.ok.cells k c hc).agree (fun j hj => (h.agree j hj).symm) hk

end CellWorld

/-- The programs `f n`, for all large `n`, never panic, whatever other goroutines do between their steps, keep the store in order,
come to an end, and end with an answer of which `Q` holds. -/
inductive Safe {α : Type} (Q : CellWorld T → α → Prop) : CellWorld T → (Nat → LProg T α) → Prop where
  | done {W : CellWorld T} {f : Nat → LProg T α} {a : α} (N : Nat) (h : ∀ n, N ≤ n → f n = .done a) (hQ : ∀ W', W.Le W' → Q W' a) : Safe Q W f
  | load {W : CellWorld T} {f : Nat → LProg T α} {k : Nat} {g : LSet T → Nat → LProg T α} (N : Nat) (h : ∀ n, N ≤ n → f n = .load k (fun c => g c n))
      (hk : k < W.σ.length) (hg : ∀ W' c, W.Le W' → W'.σ[k]? = some c → Safe Q W' (g c)) : Safe Q W f
  | store {W : CellWorld T} {f : Nat → LProg T α} {k : Nat} {s : FSet T} {g : Nat → LProg T α} (N : Nat) (h : ∀ n, N ≤ n → f n = .store k (.frozen s) (g n))
      (hk : k < W.σ.length) (hc : CellOk W.E k (.frozen s))
      (hg : ∀ W' W'' : CellWorld T, W.Le W' → W''.E = W'.E → W''.σ = W'.σ.set k (.frozen s) → Safe Q W'' g) : Safe Q W f
  | alloc {W : CellWorld T} {f : Nat → LProg T α} {s : LSet T} {g : Nat → Nat → LProg T α} (N : Nat) (h : ∀ n, N ≤ n → f n = .alloc s (fun k => g k n))
      (next : ∀ W' : CellWorld T, W.Le W' → CellWorld T) (hn : ∀ (W' : CellWorld T) h, W'.Le (next W' h)) (hs : ∀ W' h, (next W' h).σ = W'.σ ++ [s])
      (hg : ∀ W' h, Safe Q (next W' h) (g W'.σ.length)) : Safe Q W f

namespace Safe

variable {α β : Type} {Q R : CellWorld T → α → Prop} {W W' : CellWorld T} {f g : Nat → LProg T α}

/-- What the others did does no harm. -/
theorem mono (h : Safe Q W f) (hW : W.Le W') : Safe Q W' f := by
  cases h with
  | done N h hQ => exact .done N h fun W'' h' => hQ W'' (hW.trans h')
  | load N h hk hg => exact .load N h (Nat.lt_of_lt_of_le hk hW.len) fun W'' c h' hc => hg W'' c (hW.trans h') hc
  | store N h hk hc hg =>
    exact .store N h (Nat.lt_of_lt_of_le hk hW.len) (hc.agree hW.agree hk) fun W1 W2 h' e1 e2 => hg W1 W2 (hW.trans h') e1 e2
  | alloc N h next hn hs hg =>
    exact .alloc N h (fun W'' h' => next W'' (hW.trans h')) (fun W'' h' => hn W'' _) (fun W'' h' => hs W'' _) (fun W'' h' => hg W'' _)

theorem congr (hfg : ∃ N, ∀ n, N ≤ n → f n = g n) (h : Safe Q W g) : Safe Q W f := by
  obtain ⟨M, hM⟩ := hfg
  cases h with
  | done N h hQ => exact .done (max M N) (fun n hn => by rw [hM n (by omega), h n (by omega)]) hQ
  | load N h hk hg => exact .load (max M N) (fun n hn => by rw [hM n (by omega), h n (by omega)]) hk hg
  | store N h hk hc hg => exact .store (max M N) (fun n hn => by rw [hM n (by omega), h n (by omega)]) hk hc hg
  | alloc N h next hn hs hg => exact .alloc (max M N) (fun n hn => by rw [hM n (by omega), h n (by omega)]) next hn hs hg

theorem congr' (hfg : ∀ n, f n = g n) (h : Safe Q W g) : Safe Q W f := h.congr ⟨0, fun n _ => hfg n⟩

theorem shift (h : Safe Q W g) : Safe Q W (fun n => g (n - 1)) := by
  induction h with
  | done N h hQ => exact .done (N + 1) (fun n hn => h _ (by omega)) hQ
  | load N h hk hg ih => exact .load (N + 1) (fun n hn => h _ (by omega)) hk ih
  | store N h hk hc hg ih => exact .store (N + 1) (fun n hn => h _ (by omega)) hk hc ih
  | @alloc W f s g N h next hn hs hg ih => exact .alloc (g := fun k n => g k (n - 1)) (N + 1) (fun n hn => h _ (by omega)) next hn hs ih

theorem step (hfg : ∀ n, f (n + 1) = g n) (h : Safe Q W g) : Safe Q W f := by
  refine h.shift.congr ⟨1, fun n hn => ?_⟩
  obtain ⟨m, rfl⟩ : ∃ m, n = m + 1 := ⟨n - 1, by omega⟩
  exact hfg m

theorem imp (h : Safe Q W f) : (∀ W' a, W.Le W' → Q W' a → R W' a) → Safe R W f := by
  induction h with
  | done N h hQ => exact fun hi => .done N h fun W' h' => hi W' _ h' (hQ W' h')
  | load N h hk hg ih => exact fun hi => .load N h hk fun W' c h' hc => ih W' c h' hc fun W'' a h'' => hi W'' a (h'.trans h'')
  | @store W f k s g N h hk hc hg ih =>
    intro hi
    refine .store N h hk hc fun W' W'' h' e1 e2 => ih W' W'' h' e1 e2 fun W3 a h3 => hi W3 a (h'.trans (CellWorld.Le.trans ?_ h3))
    refine ⟨fun k _ => by rw [e1], by rw [e2]; simp, fun j c hj => ?_⟩
    rw [e2]
    by_cases hjk : k = j
    · subst hjk
      exact .inr ⟨s, List.getElem?_set_self (Nat.lt_of_lt_of_le hk h'.len)⟩
    · exact .inl (by rw [List.getElem?_set_ne hjk]; exact hj)
  | alloc N h next hn hs hg ih => exact fun hi => .alloc N h next hn hs fun W' h' => ih W' h' fun W'' a h'' => hi W'' a ((h'.trans (hn W' h')).trans h'')

theorem pure {a : α} (h : ∀ W', W.Le W' → Q W' a) : Safe Q W (fun _ => .done a) := .done 0 (fun _ _ => rfl) h

/-- One after the other. -/
theorem bind {P : CellWorld T → β → Prop} {p : Nat → LProg T β} {q : β → Nat → LProg T α} (h : Safe P W p) :
    (∀ W' b, W.Le W' → (∀ W'', W'.Le W'' → P W'' b) → Safe Q W' (q b)) → Safe Q W (fun n => (p n).bind (fun b => q b n)) := by
  induction h with
  | done N h hQ =>
    intro hi
    refine (hi _ _ (CellWorld.Le.refl _) hQ).congr ⟨N, fun n hn => ?_⟩
    rw [h n hn]; rfl
  | @load W f k g N h hk hg ih =>
    intro hi
    refine .load (g := fun c n => (g c n).bind (fun b => q b n)) N (fun n hn => by rw [h n hn]; rfl) hk fun W' c h' hc => ?_
    exact ih W' c h' hc fun W'' b h'' => hi W'' b (h'.trans h'')
  | @store W f k s g N h hk hc hg ih =>
    intro hi
    refine .store (g := fun n => (g n).bind (fun b => q b n)) N (fun n hn => by rw [h n hn]; rfl) hk hc fun W' W'' h' e1 e2 => ?_
    refine ih W' W'' h' e1 e2 fun W3 b h3 => hi W3 b (h'.trans (CellWorld.Le.trans ?_ h3))
    refine ⟨fun k _ => by rw [e1], by rw [e2]; simp, fun j c hj => ?_⟩
    rw [e2]
    by_cases hjk : k = j
    · subst hjk
      exact .inr ⟨s, List.getElem?_set_self (Nat.lt_of_lt_of_le hk h'.len)⟩
    · exact .inl (by rw [List.getElem?_set_ne hjk]; exact hj)
  | @alloc W f s g N h next hn hs hg ih =>
    intro hi
    refine .alloc (g := fun k n => (g k n).bind (fun b => q b n)) N (fun n hn => by rw [h n hn]; rfl) next hn hs fun W' h' => ?_
    exact ih W' h' fun W'' b h'' => hi W'' b ((h'.trans (hn W' h')).trans h'')

/-- A step, and then one after the other. -/
theorem stepBind {P : CellWorld T → β → Prop} {p : Nat → LProg T β} {q : β → Nat → LProg T α} (hf : ∀ n, f (n + 1) = (p n).bind (fun b => q b n)) (h : Safe P W p)
    (hi : ∀ W' b, W.Le W' → (∀ W'', W'.Le W'' → P W'' b) → Safe Q W' (q b)) : Safe Q W f := (h.bind hi).step hf

theorem congrBind {P : CellWorld T → β → Prop} {p : Nat → LProg T β} {q : β → Nat → LProg T α} (hf : ∀ n, f n = (p n).bind (fun b => q b n)) (h : Safe P W p)
    (hi : ∀ W' b, W.Le W' → (∀ W'', W'.Le W'' → P W'' b) → Safe Q W' (q b)) : Safe Q W f := (h.bind hi).congr' hf

end Safe

/-- Reading a cell. -/
theorem derefC_memo {E : LEnv T} {L : Nat} {W : CellWorld T} (hF : CellWorld.Fits E L W) {k : Nat} (hk : k < L) :
    Safe (fun W' c => CellOk E k c ∧ ((∃ f, c = .frozen f) → W'.Froze k) ∧ (c = .empty → W.σ[k]? = some .empty)) W (fun _ => LSet.derefC (.memo k)) := by
  refine .load (g := fun c _ => match c with | .memo _ => .panic (.msg "memo of memo") | c => .done c) 0 (fun n _ => rfl)
    (Nat.lt_of_lt_of_le hk hF.len) fun W' c h' hc => ?_
  have hco := (hF.mono h').cell hk hc
  have hn := hco.notMemo
  have hem : c = .empty → W.σ[k]? = some .empty := fun he => by
    subst he
    have hkW : k < W.σ.length := Nat.lt_of_lt_of_le hk hF.len
    rcases h'.cells k _ (List.getElem?_eq_getElem hkW) with h1 | ⟨f, h1⟩
    · rw [List.getElem?_eq_getElem hkW, ← h1, hc]
    · rw [h1] at hc; cases hc
  have : Safe (fun W' c => CellOk E k c ∧ ((∃ f, c = .frozen f) → W'.Froze k) ∧ (c = .empty → W.σ[k]? = some .empty)) W' (fun _ => .done c) := .pure fun W'' h'' =>
    ⟨hco, fun ⟨f, hf⟩ => CellWorld.Froze.mono h'' ⟨f, hf ▸ hc⟩, hem⟩
  cases c with
  | memo j => exact hn.elim
  | _ => exact this

theorem derefC_other {s : LSet T} (h : s.NotMemo) : LSet.derefC s = .done s := by
  cases s with
  | memo k => exact h.elim
  | _ => rfl

end Frozen
