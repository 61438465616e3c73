import Verif.Spec.Lazy
import Verif.Proof.SetElems
import Verif.Proof.Rel

/-! Lazy sets: what a set denotes and what an iterator has still to deliver, relative to what each cell stands for. -/

set_option linter.unusedSectionVars false

namespace Frozen

variable {T : Type}

/-- What a memo cell stands for: the set it denotes, which of its methods can be trusted, and how many values an iteration over it
can deliver at most. -/
structure LCell (T : Type) where
  den : T → Prop
  hasOk : Prop
  fastOk : Prop
  once : Prop
  bound : Nat

abbrev LEnv (T : Type) := Nat → LCell T

/-- The structural size. -/
def LSet.sz : LSet T → Nat
  | .empty => 1
  | .frozen _ => 1
  | .memo _ => 1
  | .where s _ => 1 + s.sz
  | .map s _ => 1 + s.sz
  | .union a b => 1 + a.sz + b.sz
  | .inter a b => 1 + a.sz + b.sz
  | .diff a b => 1 + a.sz + b.sz

theorem LSet.sz_pos (s : LSet T) : 0 < s.sz := by cases s <;> simp [LSet.sz] <;> omega

/-- One more than the highest cell referred to. -/
def LSet.rk : LSet T → Nat
  | .empty => 0
  | .frozen _ => 0
  | .memo k => k + 1
  | .where s _ => s.rk
  | .map s _ => s.rk
  | .union a b => max a.rk b.rk
  | .inter a b => max a.rk b.rk
  | .diff a b => max a.rk b.rk

def LSet.NotMemo : LSet T → Prop
  | .memo _ => False
  | _ => True

def LIter.sz : LIter T → Nat
  | .empty => 1
  | .frozen _ => 1
  | .where i _ => 1 + i.sz
  | .map i _ => 1 + i.sz
  | .union i none => 1 + i.sz
  | .union i (some b) => 1 + i.sz + b.sz
  | .inter i b => 1 + i.sz + b.sz
  | .diff i b => 1 + i.sz + b.sz
  | .caching _ _ _ => 1

theorem LIter.sz_pos (s : LIter T) : 0 < s.sz := by
  cases s with
  | union i b => cases b <;> simp [LIter.sz] <;> omega
  | _ => simp [LIter.sz] <;> omega

def LIter.rk : LIter T → Nat
  | .empty => 0
  | .frozen _ => 0
  | .where i _ => i.rk
  | .map i _ => i.rk
  | .union i none => i.rk
  | .union i (some b) => max i.rk b.rk
  | .inter i b => max i.rk b.rk
  | .diff i b => max i.rk b.rk
  | .caching _ k _ => k + 1

/-- The cell a caching iterator will fill. -/
def LIter.cell : LIter T → Option Nat
  | .caching _ k _ => some k
  | _ => none

variable [GoKey T]

/-- A predicate that respects `Equal` (lazy/set.go:3-5). -/
def Cong (p : T → Bool) : Prop := ∀ a b, GoKey.eq a b = true → p a = p b

/-- A mapper that respects `Equal` (lazy/set.go:7-9). -/
def CongM (m : T → T) : Prop := ∀ a b, GoKey.eq a b = true → GoKey.eq (m a) (m b) = true

/-- A set of values closed under `Equal`. -/
def CongP (P : T → Prop) : Prop := ∀ a b, GoKey.eq a b = true → (P a ↔ P b)

/-- The set denoted. -/
def LSet.den (E : LEnv T) : LSet T → T → Prop
  | .empty, _ => False
  | .frozen s, w => s.Mem w
  | .memo k, w => (E k).den w
  | .where s p, w => s.den E w ∧ p w = true
  | .map s m, w => ∃ v, s.den E v ∧ GoKey.eq (m v) w = true
  | .union a b, w => a.den E w ∨ b.den E w
  | .inter a b, w => a.den E w ∧ b.den E w
  | .diff a b, w => a.den E w ∧ ¬ b.den E w

omit [GoKey T] in
/-- `Has` can be trusted. -/
def LSet.HOk (E : LEnv T) : LSet T → Prop
  | .empty => True
  | .frozen _ => True
  | .memo k => (E k).hasOk
  | .where s _ => s.HOk E
  | .map _ _ => True
  | .union a b => a.HOk E ∧ b.HOk E
  | .inter a b => a.HOk E ∧ b.HOk E
  | .diff _ _ => False

omit [GoKey T] in
/-- `FastHas` can be trusted. -/
def LSet.FOk (E : LEnv T) : LSet T → Prop
  | .empty => True
  | .frozen _ => True
  | .memo k => (E k).fastOk
  | .where _ _ => True
  | .map _ _ => True
  | .union _ _ => False
  | .inter a b => a.FOk E ∧ b.FOk E
  | .diff _ _ => False

/-- `Range` delivers no value twice. -/
def LSet.Cok (E : LEnv T) : LSet T → Prop
  | .empty => True
  | .frozen _ => True
  | .memo _ => True
  | .where s _ => s.Cok E
  | .map s m => s.Cok E ∧ OneToOne m (s.den E)
  | .union a b => a.Cok E ∧ b.Cok E ∧ ∀ w, ¬ (a.den E w ∧ b.den E w)
  | .inter a _ => a.Cok E
  | .diff a _ => a.Cok E

/-- `Count` can be trusted. -/
def LSet.Plain (E : LEnv T) : LSet T → Prop
  | .empty => True
  | .frozen _ => True
  | .memo k => (E k).once
  | .where s _ => s.Cok E
  | .map s m => s.Cok E ∧ OneToOne m (s.den E)
  | .union a b => a.Plain E ∧ b.Plain E ∧ ∀ w, ¬ (a.den E w ∧ b.den E w)
  | .inter a _ => a.Cok E
  | .diff a _ => a.Cok E

theorem LSet.Plain.cok {E : LEnv T} : ∀ {s : LSet T}, s.Plain E → s.Cok E
  | .empty, h => h
  | .frozen _, h => h
  | .memo _, _ => trivial
  | .where _ _, h => h
  | .map _ _, h => h
  | .union _ _, h => ⟨h.1.cok, h.2.1.cok, h.2.2⟩
  | .inter _ _, h => h
  | .diff _ _, h => h

/-- At most this many values are delivered. -/
def LSet.ssize (E : LEnv T) : LSet T → Nat
  | .empty => 0
  | .frozen s => s.tree.list.length
  | .memo k => (E k).bound
  | .where s _ => s.ssize E
  | .map s _ => s.ssize E
  | .union a b => a.ssize E + b.ssize E
  | .inter a _ => a.ssize E
  | .diff a _ => a.ssize E

/-- Well-formed sets whose iterations deliver what they denote. -/
def LSet.IOk (E : LEnv T) : LSet T → Prop
  | .empty => True
  | .frozen s => s.Valid
  | .memo _ => True
  | .where s p => s.IOk E ∧ Cong p
  | .map s m => s.IOk E ∧ CongM m
  | .union a b => a.IOk E ∧ b.IOk E
  | .inter a b => a.IOk E ∧ b.IOk E ∧ b.HOk E
  | .diff a b => a.IOk E ∧ b.IOk E ∧ b.HOk E

/-- The values still to come. -/
def LIter.rest (E : LEnv T) : LIter T → T → Prop
  | .empty, _ => False
  | .frozen it, w => ∃ e ∈ it.rem, GoKey.eq e w = true
  | .where i p, w => i.rest E w ∧ p w = true
  | .map i m, w => ∃ v, i.rest E v ∧ GoKey.eq (m v) w = true
  | .union i none, w => i.rest E w
  | .union i (some b), w => i.rest E w ∨ b.den E w
  | .inter i b, w => i.rest E w ∧ b.den E w
  | .diff i b, w => i.rest E w ∧ ¬ b.den E w
  | .caching i _ seen, w => i.rest E w ∧ ¬ FSet.Mem ⟨seen⟩ w

/-- At most this many values are still to come. -/
def LIter.mu (E : LEnv T) : LIter T → Nat
  | .empty => 0
  | .frozen it => it.rem.length
  | .where i _ => i.mu E
  | .map i _ => i.mu E
  | .union i none => i.mu E
  | .union i (some b) => i.mu E + b.ssize E
  | .inter i _ => i.mu E
  | .diff i _ => i.mu E
  | .caching i _ _ => i.mu E

/-- No value is still to come twice. -/
def LIter.Dst (E : LEnv T) : LIter T → Prop
  | .empty => True
  | .frozen it => Distinct it.rem
  | .where i _ => i.Dst E
  | .map i m => i.Dst E ∧ OneToOne m (i.rest E)
  | .union i none => i.Dst E
  | .union i (some b) => i.Dst E ∧ b.Cok E ∧ ∀ w, ¬ (i.rest E w ∧ b.den E w)
  | .inter i _ => i.Dst E
  | .diff i _ => i.Dst E
  | .caching _ _ _ => True

/-- Well-formed iterators that have not reported their end. -/
def LIter.IterOk (E : LEnv T) : LIter T → Prop
  | .empty => True
  | .frozen it => it.Ok
  | .where i p => i.IterOk E ∧ Cong p
  | .map i m => i.IterOk E ∧ CongM m
  | .union i none => i.IterOk E
  | .union i (some b) => i.IterOk E ∧ b.IOk E
  | .inter i b => i.IterOk E ∧ b.IOk E ∧ b.HOk E
  | .diff i b => i.IterOk E ∧ b.IOk E ∧ b.HOk E
  | .caching i k seen => i.IterOk E ∧ i.rk ≤ k ∧ Tree.Valid seen ∧ (∀ w, (E k).den w ↔ FSet.Mem ⟨seen⟩ w ∨ i.rest E w) ∧
      (Tree.list seen).length + i.mu E ≤ (E k).bound

/-- Cells denote sets of values up to `Equal`. -/
def EnvOk (E : LEnv T) : Prop := ∀ k, CongP (E k).den

/-- The store holds what the environment says. -/
structure CellOk (E : LEnv T) (k : Nat) (c : LSet T) : Prop where
  iok : c.IOk E
  rk : c.rk ≤ k
  den : ∀ w, c.den E w ↔ (E k).den w
  size : c.ssize E ≤ (E k).bound
  has : (E k).hasOk → c.HOk E
  fast : (E k).fastOk → c.FOk E
  once : (E k).once → c.Plain E
  notMemo : c.NotMemo

structure StoreOk (E : LEnv T) (σ : LStore T) : Prop where
  env : EnvOk E
  cells : ∀ k c, σ[k]? = some c → CellOk E k c

variable [LawfulGoKey T]

theorem eq_trans' {a b c : T} (h : GoKey.eq a b = true) (g : GoKey.eq b c = true) : GoKey.eq a c = true := PerGoKey.trans h g

theorem LSet.den_congr {E : LEnv T} (hE : EnvOk E) : ∀ {s : LSet T}, s.IOk E → CongP (s.den E)
  | .empty, _ => fun _ _ _ => Iff.rfl
  | .frozen s, h => fun _ _ hab => FSet.mem_congr h hab
  | .memo k, _ => hE k
  | .where s p, h => fun a b hab => by
    have := LSet.den_congr hE h.1 a b hab
    simp only [LSet.den, this, h.2 a b hab]
  | .map s m, h => fun a b hab => by
    simp only [LSet.den]
    constructor
    · rintro ⟨v, h1, h2⟩; exact ⟨v, h1, eq_trans' h2 hab⟩
    · rintro ⟨v, h1, h2⟩; exact ⟨v, h1, eq_trans' h2 (PerGoKey.symm hab)⟩
  | .union s t, h => fun a b hab => by
    simp only [LSet.den, LSet.den_congr hE h.1 a b hab, LSet.den_congr hE h.2 a b hab]
  | .inter s t, h => fun a b hab => by
    simp only [LSet.den, LSet.den_congr hE h.1 a b hab, LSet.den_congr hE h.2.1 a b hab]
  | .diff s t, h => fun a b hab => by
    simp only [LSet.den, LSet.den_congr hE h.1 a b hab, LSet.den_congr hE h.2.1 a b hab]

theorem LIter.rest_congr {E : LEnv T} (hE : EnvOk E) : ∀ {i : LIter T}, i.IterOk E → CongP (i.rest E)
  | .empty, _ => fun _ _ _ => Iff.rfl
  | .frozen it, h => fun a b hab => by
    simp only [LIter.rest]
    constructor
    · rintro ⟨v, h1, h2⟩; exact ⟨v, h1, eq_trans' h2 hab⟩
    · rintro ⟨v, h1, h2⟩; exact ⟨v, h1, eq_trans' h2 (PerGoKey.symm hab)⟩
  | .where s p, h => fun a b hab => by
    simp only [LIter.rest, LIter.rest_congr hE h.1 a b hab, h.2 a b hab]
  | .map s m, h => fun a b hab => by
    simp only [LIter.rest]
    constructor
    · rintro ⟨v, h1, h2⟩; exact ⟨v, h1, eq_trans' h2 hab⟩
    · rintro ⟨v, h1, h2⟩; exact ⟨v, h1, eq_trans' h2 (PerGoKey.symm hab)⟩
  | .union s none, h => fun a b hab => by
    have h : s.IterOk E := h
    simp only [LIter.rest, LIter.rest_congr hE h a b hab]
  | .union s (some t), h => fun a b hab => by
    simp only [LIter.rest, LIter.rest_congr hE h.1 a b hab, LSet.den_congr hE h.2 a b hab]
  | .inter s t, h => fun a b hab => by
    simp only [LIter.rest, LIter.rest_congr hE h.1 a b hab, LSet.den_congr hE h.2.1 a b hab]
  | .diff s t, h => fun a b hab => by
    simp only [LIter.rest, LIter.rest_congr hE h.1 a b hab, LSet.den_congr hE h.2.1 a b hab]
  | .caching i k seen, h => fun a b hab => by
    simp only [LIter.rest, LIter.rest_congr hE h.1 a b hab, FSet.mem_congr (s := ⟨seen⟩) h.2.2.1 hab]

/-! ### Environments that agree -/

def EnvAgree (N : Nat) (E E' : LEnv T) : Prop := ∀ k < N, E k = E' k

theorem LSet.den_agree {N : Nat} {E E' : LEnv T} (h : EnvAgree N E E') : ∀ {s : LSet T}, s.rk ≤ N → s.den E = s.den E'
  | .empty, _ => rfl
  | .frozen _, _ => rfl
  | .memo k, hk => by funext w; simp only [LSet.den, h k hk]
  | .where s p, hk => by funext w; simp only [LSet.den, LSet.den_agree h (s := s) hk]
  | .map s m, hk => by funext w; simp only [LSet.den, LSet.den_agree h (s := s) hk]
  | .union a b, hk => by
    have hk := Nat.max_le.1 hk
    funext w; simp only [LSet.den, LSet.den_agree h hk.1, LSet.den_agree h hk.2]
  | .inter a b, hk => by
    have hk := Nat.max_le.1 hk
    funext w; simp only [LSet.den, LSet.den_agree h hk.1, LSet.den_agree h hk.2]
  | .diff a b, hk => by
    have hk := Nat.max_le.1 hk
    funext w; simp only [LSet.den, LSet.den_agree h hk.1, LSet.den_agree h hk.2]

theorem LSet.HOk_agree {N : Nat} {E E' : LEnv T} (h : EnvAgree N E E') : ∀ {s : LSet T}, s.rk ≤ N → s.HOk E = s.HOk E'
  | .empty, _ => rfl
  | .frozen _, _ => rfl
  | .memo k, hk => by simp only [LSet.HOk, h k hk]
  | .where s p, hk => by simp only [LSet.HOk, LSet.HOk_agree h (s := s) hk]
  | .map s m, hk => rfl
  | .union a b, hk => by
    have hk := Nat.max_le.1 hk
    simp only [LSet.HOk, LSet.HOk_agree h hk.1, LSet.HOk_agree h hk.2]
  | .inter a b, hk => by
    have hk := Nat.max_le.1 hk
    simp only [LSet.HOk, LSet.HOk_agree h hk.1, LSet.HOk_agree h hk.2]
  | .diff a b, hk => rfl

theorem LSet.FOk_agree {N : Nat} {E E' : LEnv T} (h : EnvAgree N E E') : ∀ {s : LSet T}, s.rk ≤ N → s.FOk E = s.FOk E'
  | .empty, _ => rfl
  | .frozen _, _ => rfl
  | .memo k, hk => by simp only [LSet.FOk, h k hk]
  | .where s p, hk => rfl
  | .map s m, hk => rfl
  | .union a b, hk => rfl
  | .inter a b, hk => by
    have hk := Nat.max_le.1 hk
    simp only [LSet.FOk, LSet.FOk_agree h hk.1, LSet.FOk_agree h hk.2]
  | .diff a b, hk => rfl

theorem LSet.ssize_agree {N : Nat} {E E' : LEnv T} (h : EnvAgree N E E') : ∀ {s : LSet T}, s.rk ≤ N → s.ssize E = s.ssize E'
  | .empty, _ => rfl
  | .frozen _, _ => rfl
  | .memo k, hk => by simp only [LSet.ssize, h k hk]
  | .where s p, hk => by simp only [LSet.ssize, LSet.ssize_agree h (s := s) hk]
  | .map s m, hk => by simp only [LSet.ssize, LSet.ssize_agree h (s := s) hk]
  | .union a b, hk => by
    have hk := Nat.max_le.1 hk
    simp only [LSet.ssize, LSet.ssize_agree h hk.1, LSet.ssize_agree h hk.2]
  | .inter a b, hk => by
    have hk := Nat.max_le.1 hk
    simp only [LSet.ssize, LSet.ssize_agree h hk.1]
  | .diff a b, hk => by
    have hk := Nat.max_le.1 hk
    simp only [LSet.ssize, LSet.ssize_agree h hk.1]

theorem LSet.Cok_agree {N : Nat} {E E' : LEnv T} (h : EnvAgree N E E') : ∀ {s : LSet T}, s.rk ≤ N → s.Cok E = s.Cok E'
  | .empty, _ => rfl
  | .frozen _, _ => rfl
  | .memo k, hk => rfl
  | .where s p, hk => by simp only [LSet.Cok, LSet.Cok_agree h (s := s) hk]
  | .map s m, hk => by simp only [LSet.Cok, LSet.Cok_agree h (s := s) hk, LSet.den_agree h (s := s) hk]
  | .union a b, hk => by
    have hk := Nat.max_le.1 hk
    simp only [LSet.Cok, LSet.Cok_agree h hk.1, LSet.Cok_agree h hk.2, LSet.den_agree h hk.1, LSet.den_agree h hk.2]
  | .inter a b, hk => by
    have hk := Nat.max_le.1 hk
    simp only [LSet.Cok, LSet.Cok_agree h hk.1]
  | .diff a b, hk => by
    have hk := Nat.max_le.1 hk
    simp only [LSet.Cok, LSet.Cok_agree h hk.1]

theorem LSet.Plain_agree {N : Nat} {E E' : LEnv T} (h : EnvAgree N E E') : ∀ {s : LSet T}, s.rk ≤ N → s.Plain E = s.Plain E'
  | .empty, _ => rfl
  | .frozen _, _ => rfl
  | .memo k, hk => by simp only [LSet.Plain, h k hk]
  | .where s p, hk => by simp only [LSet.Plain, LSet.Cok_agree h (s := s) hk]
  | .map s m, hk => by simp only [LSet.Plain, LSet.Cok_agree h (s := s) hk, LSet.den_agree h (s := s) hk]
  | .union a b, hk => by
    have hk := Nat.max_le.1 hk
    simp only [LSet.Plain, LSet.Plain_agree h hk.1, LSet.Plain_agree h hk.2, LSet.den_agree h hk.1, LSet.den_agree h hk.2]
  | .inter a b, hk => by
    have hk := Nat.max_le.1 hk
    simp only [LSet.Plain, LSet.Cok_agree h hk.1]
  | .diff a b, hk => by
    have hk := Nat.max_le.1 hk
    simp only [LSet.Plain, LSet.Cok_agree h hk.1]

theorem LSet.IOk_agree {N : Nat} {E E' : LEnv T} (h : EnvAgree N E E') : ∀ {s : LSet T}, s.rk ≤ N → s.IOk E = s.IOk E'
  | .empty, _ => rfl
  | .frozen _, _ => rfl
  | .memo k, hk => rfl
  | .where s p, hk => by simp only [LSet.IOk, LSet.IOk_agree h (s := s) hk]
  | .map s m, hk => by simp only [LSet.IOk, LSet.IOk_agree h (s := s) hk]
  | .union a b, hk => by
    have hk := Nat.max_le.1 hk
    simp only [LSet.IOk, LSet.IOk_agree h hk.1, LSet.IOk_agree h hk.2]
  | .inter a b, hk => by
    have hk := Nat.max_le.1 hk
    simp only [LSet.IOk, LSet.IOk_agree h hk.1, LSet.IOk_agree h hk.2, LSet.HOk_agree h hk.2]
  | .diff a b, hk => by
    have hk := Nat.max_le.1 hk
    simp only [LSet.IOk, LSet.IOk_agree h hk.1, LSet.IOk_agree h hk.2, LSet.HOk_agree h hk.2]

theorem LIter.rest_agree {N : Nat} {E E' : LEnv T} (h : EnvAgree N E E') : ∀ {i : LIter T}, i.rk ≤ N → i.IterOk E →
    i.rest E = i.rest E'
  | .empty, _, _ => rfl
  | .frozen _, _, _ => rfl
  | .where s p, hk, ho => by funext w; simp only [LIter.rest, LIter.rest_agree h (i := s) hk ho.1]
  | .map s m, hk, ho => by funext w; simp only [LIter.rest, LIter.rest_agree h (i := s) hk ho.1]
  | .union i none, hk, ho => by
    have ho : i.IterOk E := ho
    funext w; simp only [LIter.rest, LIter.rest_agree h (i := i) hk ho]
  | .union i (some b), hk, ho => by
    have hk := Nat.max_le.1 hk
    funext w; simp only [LIter.rest, LIter.rest_agree h hk.1 ho.1, LSet.den_agree h hk.2]
  | .inter a b, hk, ho => by
    have hk := Nat.max_le.1 hk
    funext w; simp only [LIter.rest, LIter.rest_agree h hk.1 ho.1, LSet.den_agree h hk.2]
  | .diff a b, hk, ho => by
    have hk := Nat.max_le.1 hk
    funext w; simp only [LIter.rest, LIter.rest_agree h hk.1 ho.1, LSet.den_agree h hk.2]
  | .caching i k seen, hk, ho => by
    have hk : k + 1 ≤ N := hk
    have : i.rk ≤ N := by have := ho.2.1; omega
    funext w; simp only [LIter.rest, LIter.rest_agree h this ho.1]

theorem LIter.Dst_agree {N : Nat} {E E' : LEnv T} (h : EnvAgree N E E') : ∀ {i : LIter T}, i.rk ≤ N → i.IterOk E → i.Dst E = i.Dst E'
  | .empty, _, _ => rfl
  | .frozen _, _, _ => rfl
  | .where s p, hk, ho => by simp only [LIter.Dst, LIter.Dst_agree h (i := s) hk ho.1]
  | .map s m, hk, ho => by simp only [LIter.Dst, LIter.Dst_agree h (i := s) hk ho.1, LIter.rest_agree h (i := s) hk ho.1]
  | .union i none, hk, ho => by
    have ho : i.IterOk E := ho
    simp only [LIter.Dst, LIter.Dst_agree h (i := i) hk ho]
  | .union i (some b), hk, ho => by
    have hk := Nat.max_le.1 hk
    simp only [LIter.Dst, LIter.Dst_agree h hk.1 ho.1, LIter.rest_agree h hk.1 ho.1, LSet.den_agree h hk.2, LSet.Cok_agree h hk.2]
  | .inter a b, hk, ho => by
    have hk := Nat.max_le.1 hk
    simp only [LIter.Dst, LIter.Dst_agree h hk.1 ho.1]
  | .diff a b, hk, ho => by
    have hk := Nat.max_le.1 hk
    simp only [LIter.Dst, LIter.Dst_agree h hk.1 ho.1]
  | .caching i k seen, hk, ho => rfl

theorem LIter.mu_agree {N : Nat} {E E' : LEnv T} (h : EnvAgree N E E') : ∀ {i : LIter T}, i.rk ≤ N → i.IterOk E → i.mu E = i.mu E'
  | .empty, _, _ => rfl
  | .frozen _, _, _ => rfl
  | .where s p, hk, ho => by simp only [LIter.mu, LIter.mu_agree h (i := s) hk ho.1]
  | .map s m, hk, ho => by simp only [LIter.mu, LIter.mu_agree h (i := s) hk ho.1]
  | .union i none, hk, ho => by
    have ho : i.IterOk E := ho
    simp only [LIter.mu, LIter.mu_agree h (i := i) hk ho]
  | .union i (some b), hk, ho => by
    have hk := Nat.max_le.1 hk
    simp only [LIter.mu, LIter.mu_agree h hk.1 ho.1, LSet.ssize_agree h hk.2]
  | .inter a b, hk, ho => by
    have hk := Nat.max_le.1 hk
    simp only [LIter.mu, LIter.mu_agree h hk.1 ho.1]
  | .diff a b, hk, ho => by
    have hk := Nat.max_le.1 hk
    simp only [LIter.mu, LIter.mu_agree h hk.1 ho.1]
  | .caching i k seen, hk, ho => by
    have hk : k + 1 ≤ N := hk
    have : i.rk ≤ N := by have := ho.2.1; omega
    simp only [LIter.mu, LIter.mu_agree h this ho.1]

theorem LIter.IterOk_agree {N : Nat} {E E' : LEnv T} (h : EnvAgree N E E') : ∀ {i : LIter T}, i.rk ≤ N → i.IterOk E → i.IterOk E'
  | .empty, _, _ => trivial
  | .frozen _, _, ho => ho
  | .where s p, hk, ho => ⟨LIter.IterOk_agree h (i := s) hk ho.1, ho.2⟩
  | .map s m, hk, ho => ⟨LIter.IterOk_agree h (i := s) hk ho.1, ho.2⟩
  | .union i none, hk, ho => LIter.IterOk_agree h (i := i) hk ho
  | .union i (some b), hk, ho => by
    have hk := Nat.max_le.1 hk
    exact ⟨LIter.IterOk_agree h hk.1 ho.1, LSet.IOk_agree h hk.2 ▸ ho.2⟩
  | .inter a b, hk, ho => by
    have hk := Nat.max_le.1 hk
    exact ⟨LIter.IterOk_agree h hk.1 ho.1, LSet.IOk_agree h hk.2 ▸ ho.2.1, LSet.HOk_agree h hk.2 ▸ ho.2.2⟩
  | .diff a b, hk, ho => by
    have hk := Nat.max_le.1 hk
    exact ⟨LIter.IterOk_agree h hk.1 ho.1, LSet.IOk_agree h hk.2 ▸ ho.2.1, LSet.HOk_agree h hk.2 ▸ ho.2.2⟩
  | .caching i k seen, hk, ho => by
    have hk : k + 1 ≤ N := hk
    have hi : i.rk ≤ N := by have := ho.2.1; omega
    have e := h k hk
    refine ⟨LIter.IterOk_agree h hi ho.1, ho.2.1, ho.2.2.1, ?_, ?_⟩
    · rw [← e, ← LIter.rest_agree h hi ho.1]; exact ho.2.2.2.1
    · rw [← e, ← LIter.mu_agree h hi ho.1]; exact ho.2.2.2.2

theorem CellOk.agree {N : Nat} {E E' : LEnv T} (h : EnvAgree N E E') {k : Nat} {c : LSet T} (hk : k < N) (hc : CellOk E k c) :
    CellOk E' k c := by
  have hr : c.rk ≤ N := Nat.le_trans hc.rk (Nat.le_of_lt hk)
  have e := h k hk
  refine ⟨LSet.IOk_agree h hr ▸ hc.iok, hc.rk, ?_, ?_, ?_, ?_, ?_, hc.notMemo⟩
  · rw [← LSet.den_agree h hr, ← e]; exact hc.den
  · rw [← LSet.ssize_agree h hr, ← e]; exact hc.size
  · rw [← LSet.HOk_agree h hr, ← e]; exact hc.has
  · rw [← LSet.FOk_agree h hr, ← e]; exact hc.fast
  · rw [← LSet.Plain_agree h hr, ← e]; exact hc.once

/-! ### Fuel -/

theorem Runs.const {α : Type} (a : α) : Runs (fun _ => .ok a) a := ⟨0, fun _ _ => rfl⟩

theorem Runs.ok {α : Type} {r : Go α} {a : α} (h : r = .ok a) : Runs (fun _ => r) a := ⟨0, fun _ _ => h⟩

theorem Runs.step {α : Type} {f g : Nat → Go α} {a : α} (h : ∀ n, f (n + 1) = g n) (hg : Runs g a) : Runs f a := by
  obtain ⟨N, hN⟩ := hg
  refine ⟨N + 1, fun n hn => ?_⟩
  obtain ⟨m, rfl⟩ : ∃ m, n = m + 1 := ⟨n - 1, by omega⟩
  rw [h]; exact hN m (by omega)

theorem Runs.bind {α β : Type} {f : Nat → Go α} {g : α → Nat → Go β} {a : α} {b : β} (hf : Runs f a) (hg : Runs (g a) b) :
    Runs (fun n => f n >>= fun x => g x n) b := by
  obtain ⟨N, hN⟩ := hf
  obtain ⟨M, hM⟩ := hg
  refine ⟨max N M, fun n hn => ?_⟩
  simp only [hN n (by omega), hM n (by omega), Bind.bind, Except.bind]

theorem Runs.congr {α : Type} {f g : Nat → Go α} {a : α} (h : ∀ n, f n = g n) (hg : Runs g a) : Runs f a := by
  obtain ⟨N, hN⟩ := hg
  exact ⟨N, fun n hn => by rw [h]; exact hN n hn⟩

theorem Runs.unique {α : Type} {f : Nat → Go α} {a b : α} (h : Runs f a) (g : Runs f b) : a = b := by
  obtain ⟨N, hN⟩ := h
  obtain ⟨M, hM⟩ := g
  have h1 := hN (max N M) (by omega)
  have h2 := hM (max N M) (by omega)
  rw [h1] at h2
  exact Except.ok.inj h2

end Frozen
