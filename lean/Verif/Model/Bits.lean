import Verif.Model.Set

/-! # `BitIterator`, `Masker`, `Iota` and `NewSetFromMask64`

Models `bititer.go` (and its copy `internal/pkg/iterator/bititer.go`), the rest of `internal/pkg/masker/masker.go` and the
constructors of `set_extra.go`. Go's `int` and `uintptr` are 64 bits wide. -/

namespace Frozen

/-- The conversion `uint(i)` of a Go `int`, as a shift count. -/
def uintOf (i : BitVec 64) : Nat := i.toNat

/-- bititer.go:10 `BitIterator` -/
abbrev BitIter := BitVec 64

/-- bititer.go:12-14 `Next` -/
def BitIter.next (b : BitIter) : BitIter := clearLow b

/-- bititer.go:16-18 `Index` -/
def BitIter.index (b : BitIter) : Nat := tz b

/-- bititer.go:20-22 `Count` -/
def BitIter.count (b : BitIter) : Nat := ones b

/-- bititer.go:24-26 `Has` -/
def BitIter.has (b : BitIter) (i : BitVec 64) : Bool := (b &&& (1#64 <<< uintOf i)) != 0#64

/-- bititer.go:28-30 `With`: `<<` binds tighter than `|`. -/
def BitIter.with (b : BitIter) (i : BitVec 64) : BitIter := b ||| (1#64 <<< uintOf i)

/-- bititer.go:32-34 `Without`: `&^` and `<<` have the same precedence and associate to the left. -/
def BitIter.without (b : BitIter) (i : BitVec 64) : BitIter := (b &&& ~~~1#64) <<< uintOf i

/-- masker.go:17-19 `First` -/
def Masker.first (m : Masker) : Masker := m &&& ~~~(m - 1#16)

/-- masker.go:40-42 `SubsetOf` -/
def Masker.subsetOf (m mask : Masker) : Bool := (m &&& ~~~mask) == 0#16

/-- masker.go:22-24 `FirstIsIn` -/
def Masker.firstIsIn (m n : Masker) : Bool := Masker.subsetOf (Masker.first m) n

/-- masker.go:26-28 `FirstIndex` -/
def Masker.firstIndex (m : Masker) : Nat := tz m

/-- masker.go:31-33 `Next` -/
def Masker.next (m : Masker) : Masker := clearLow m

/-- Element types whose `value.Equal` is Go's `==` (value.go:36), such as the integer types. -/
class PrimKey (T : Type) [GoKey T] : Prop where
  eq_iff : ∀ a b : T, GoKey.eq a b = true ↔ a = b

/-- The loop `for i := start; i < stop; i += step { b.Add(i) }` (set_extra.go:30-32), or with `>` if `down` (set_extra.go:34-36), run
for at most `fuel` iterations; `none` if it has not ended by then. `+=` wraps around. -/
def iotaLoop [GoKey (BitVec 64)] (down : Bool) (stop step : BitVec 64) : Nat → BitVec 64 → SetBuilder (BitVec 64) →
    Option (Go (SetBuilder (BitVec 64)))
  | 0, _, _ => none
  | fuel + 1, i, b =>
    if (if down then BitVec.slt stop i else BitVec.slt i stop) then
      match SetBuilder.add b i with
      | .ok b' => iotaLoop down stop step fuel (i + step) b'
      | .error e => some (.error e)
    else some (.ok b)

/-- set_extra.go:21-39 `Iota3`, run for at most `fuel` iterations. -/
def iota3 [GoKey (BitVec 64)] (fuel : Nat) (start stop step : BitVec 64) : Option (Go (FSet (BitVec 64))) :=
  if step = 0#64 then
    if start = stop then some (.ok FSet.zero) else some (.error (.msg "zero step size"))
  else
    (iotaLoop (!BitVec.slt 0#64 step) stop step fuel start (Tree.zero : SetBuilder (BitVec 64))).map
      (fun r => r.map (fun b => (SetBuilder.finish b).1))

/-- set_extra.go:15-17 `Iota2` -/
def iota2 [GoKey (BitVec 64)] (fuel : Nat) (start stop : BitVec 64) : Option (Go (FSet (BitVec 64))) := iota3 fuel start stop 1#64

/-- set_extra.go:10-12 `Iota` -/
def iota [GoKey (BitVec 64)] (fuel : Nat) (stop : BitVec 64) : Option (Go (FSet (BitVec 64))) := iota3 fuel 0#64 stop 1#64

/-- set_extra.go:43-50 `NewSetFromMask64` -/
def newSetFromMask64 [GoKey (BitVec 64)] (mask : BitVec 64) : Go (FSet (BitVec 64)) :=
  buildSet ((bitLoop mask).map (BitVec.ofNat 64))

end Frozen
