/-!
# Go runtime basics, element equality and hashing, bit words

Models: `pkg/errors/errors.go`, `internal/pkg/masker/masker.go`, `internal/pkg/iterator/bititer.go`, `bititer.go`,
`internal/pkg/tree/hasher.go`, `internal/pkg/depth/gauge.go` (sequential path).
-/

namespace Frozen

/-- A Go panic. `wtf` is `panic(errors.ErrWTF)` (pkg/errors/errors.go:9-11), `nilDeref` is the runtime panic of a method call
through a nil `node[T]` interface, `msg` is any other panic, by its text. -/
inductive Panic where
  | wtf
  | nilDeref
  | msg (s : String)
deriving DecidableEq, Repr

/-- The outcome of a Go call: a panic or a value. -/
abbrev Go (α : Type) := Except Panic α

/-- `value.Equal` (internal/pkg/value/value.go:28-37) and `hash.Any(v, seed)` (github.com/arr-ai/hash, not in the repo) at the
element type `T`. Both are parameters of the model; `uintptr` is 64 bits wide. -/
class GoKey (T : Type) where
  eq : T → T → Bool
  hash : (seed : BitVec 64) → T → BitVec 64

/-- What the library needs of element types to work as sets: `Equal` is symmetric and transitive and equal values hash alike for every
seed (set.go:21-24 `Key`; github.com/arr-ai/hash). A value need not be equal to itself: floating-point NaNs are not (value.go:28-37).
Nothing is assumed about collisions. -/
class PerGoKey (T : Type) [GoKey T] : Prop where
  symm : ∀ {a b : T}, GoKey.eq a b = true → GoKey.eq b a = true
  trans : ∀ {a b c : T}, GoKey.eq a b = true → GoKey.eq b c = true → GoKey.eq a c = true
  hash_congr : ∀ (s : BitVec 64) {a b : T}, GoKey.eq a b = true → GoKey.hash s a = GoKey.hash s b

/-- The contract the library puts on element types: `Equal` is an equivalence and equal values hash alike for every seed
(set.go:21-24 `Key`; github.com/arr-ai/hash). Nothing is assumed about collisions. -/
class LawfulGoKey (T : Type) [GoKey T] : Prop extends PerGoKey T where
  refl : ∀ a : T, GoKey.eq a a = true

/-! ## Words -/

/-- `bits.TrailingZeros16/64`: the index of the lowest one-bit, or the width for zero. Used by masker.go:26-28 (`FirstIndex`),
iterator/bititer.go:16-18, bititer.go:16-18 (`Index`), intset.go:251-253 (`index`). -/
def tz {w : Nat} (x : BitVec w) : Nat := ((List.range w).find? (fun i => x.getLsbD i)).getD w

/-- `m & (m - 1)`: masker.go:31-33, iterator/bititer.go:12-14, bititer.go:12-14, intset.go:255-257 (`Next`/`next`). -/
def clearLow {w : Nat} (x : BitVec w) : BitVec w := x &&& (x - 1#w)

/-- `bits.OnesCount64`: iterator/bititer.go:20-22, intset.go:247-249. -/
def ones {w : Nat} (x : BitVec w) : Nat := ((List.range w).filter (fun i => x.getLsbD i)).length

/-- The loop `for m := mask; m != 0; m = m.Next() { … m.FirstIndex() … }`, as the list of the indices it visits
(gauge.go:58,65,73; branch.go:216). The fuel `w` is enough, see `bitLoop_eq`. -/
def bitLoopAux {w : Nat} : Nat → BitVec w → List Nat
  | 0, _ => []
  | n + 1, x => if x = 0#w then [] else tz x :: bitLoopAux n (clearLow x)

/-- See `bitLoopAux`. -/
def bitLoop {w : Nat} (x : BitVec w) : List Nat := bitLoopAux w x

/-- `masker.Masker` (masker.go:10). -/
abbrev Masker := BitVec 16

/-- masker.go:12-14 `NewMasker`. -/
def newMasker (i : Nat) : Masker := 1#16 <<< i

/-! ## Hasher -/

/-- `fanoutBits` for the default build (depth/fanout8.go:5). -/
def fanoutBits : Nat := 3

/-- `hashBits` on a 64-bit platform (hasher.go:14). -/
def hashBits : Nat := 64

/-- hasher.go:16 `maxTreeDepth = 1 + (hashBits-1)/fanoutBits` = 22. -/
def maxTreeDepth : Nat := 1 + (hashBits - 1) / fanoutBits

/-- packer.go:7 -/
def maxLeafLen : Nat := 2

/-- hasher.go:19 -/
abbrev Hasher := BitVec 64

/-- hasher.go:21-23 `newHasher`: Go shifts of 64 or more give 0, as `BitVec` shifts do. -/
def newHasher {T : Type} [GoKey T] (key : T) (depth : Nat) : Hasher :=
  GoKey.hash 0#64 key <<< (depth * fanoutBits)

/-- hasher.go:25-27 -/
def Hasher.next (h : Hasher) : Hasher := h <<< fanoutBits

/-- hasher.go:29-31 `hash() = int(h >> (hashBits - fanoutBits))`, a slot index below 8. -/
def Hasher.idx (h : Hasher) : Fin 8 :=
  ⟨(h >>> (hashBits - fanoutBits)).toNat, by
    simp only [hashBits, fanoutBits, BitVec.toNat_ushiftRight, Nat.shiftRight_eq_div_pow]
    omega⟩

/-! ## `Gauge.Parallel`, sequential path -/

/-- The `else` branch of `Gauge.Parallel` (gauge.go:72-81): visit the one-bits of the mask in increasing order, stop at the first
`ok = false`, add up the matches. The closure's side effects are the state `σ`. An index of 8 or more would be out of range for
the slot array the closures access. The goroutine path (gauge.go:52-71) is modelled in `Model/Parallel.lean` and proved equivalent. -/
def parallelLoop {σ : Type} (f : Fin 8 → σ → Go (σ × Bool × Int)) : List Nat → σ → Int → Go (σ × Bool × Int)
  | [], s, ms => .ok (s, true, ms)
  | i :: is, s, ms =>
    if h : i < 8 then do
      let (s', ok, m) ← f ⟨i, h⟩ s
      if !ok then pure (s', false, ms) else parallelLoop f is s' (ms + m)
    else .error (.msg "index out of range")

/-- gauge.go:51-84 `Parallel`. -/
def parallel {σ : Type} (mask : Masker) (s : σ) (f : Fin 8 → σ → Go (σ × Bool × Int)) : Go (σ × Bool × Int) :=
  parallelLoop f (bitLoop mask) s 0

end Frozen
