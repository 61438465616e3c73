import Verif.Model.Parallel
import Verif.Model.Format
import Mathlib.Data.List.Sort

/-!
# Self-checks, JSON, Braille text and the choice of a gauge

Models `Vet` of `internal/pkg/tree/{leaf1,leaf2,twig,branch,tree}.go`, `MarshalJSON` of `set_extra.go` and `map_extra.go`,
`internal/pkg/fu/braille.go` with `BitIterator.String`, and `NewGauge` of `internal/pkg/depth/gauge.go`.

`encoding/json` is not in the repo. It is modelled by its documentation: a slice is written as `[…]`, a `map[string]any` as `{…}` with
its keys in increasing order, and the first element that cannot be encoded makes the whole call fail. How a single element, key or value
is encoded is a parameter.
-/

namespace Frozen

variable {T K V : Type}

/-! ### Vet -/

section
variable [GoKey T]

/-- leaf1.go:145-147, leaf2.go:197-199, twig.go:258-269, branch.go:303-328 `Vet`. The text of the panics that `branch.Vet` wraps is left
out: it depends on the path, and for a string (`"stale mask"`) the assertion `r.(error)` in branch.go:314 panics in turn. -/
def Node.vet : Node T → Go Int
  | .nil => .error .nilDeref
  | .leaf1 _ => .ok 1
  | .leaf2 _ _ => .ok 2
  | .twig l =>
    if l.length ≤ 2 then .error (.msg "twig[T] too small")
    else match l with
      | [] => .error .nilDeref
      | e0 :: es =>
        if es.all (fun e => newHasher e 0 == newHasher e0 0) then .ok l.length
        else .error (.msg "twig[T] with multiple hashes")
  | .branch m k =>
    if (Packer.updateMask ⟨m, k⟩).mask ≠ m then .error (.msg "stale mask")
    else m.indices.foldlM (fun count i =>
      if (k i).isNil then .error (.msg "nil node[T] for mask")
      else do
        let c ← (k i).vet
        pure (count + c)) 0

/-- tree.go:164-175 `Vet` -/
def Tree.vet (t : Tree T) : Go Unit :=
  if t.root.isNil then
    if t.count ≠ 0 then .error (.msg "empty root count > 0") else .ok ()
  else do
    let count ← t.root.vet
    if count ≠ t.count then .error (.msg "count mismatch") else pure ()

end

/-! ### JSON -/

/-- The commas and brackets that `encoding/json` puts around encoded elements. -/
def jsonList (l r : String) (xs : List String) : String := l ++ ",".intercalate xs ++ r

/-- `json.Marshal` of a slice: the first element that fails decides the error. -/
def jsonSlice (xs : List (Except String String)) : Except String String := do
  let ys ← xs.mapM id
  pure (jsonList "[" "]" ys)

/-- set_extra.go:53-60 `MarshalJSON`; `enc` encodes one element. -/
def FSet.marshalJSON (enc : T → Except String String) (s : FSet T) : Go (Except String String) := do
  let vs ← s.rangeList
  pure (jsonSlice (vs.map enc))

/-- `json.Marshal` of a Go map with string keys, given with each value's encoding: in increasing order of the keys. (A pure encoder may be
run before the sort; the keys differ, so every sorting algorithm gives the same list.) `quote` encodes a string. -/
def jsonObject (quote : String → String) (kvs : List (String × Except String String)) : Except String String := do
  let ys ← (kvs.insertionSort (fun a b => a.1 ≤ b.1)).mapM (fun kv => do
    let v ← kv.2
    pure (quote kv.1 ++ ":" ++ v))
  pure (jsonList "{" "}" ys)

section
variable [GoKey K]

/-- map_extra.go:6-16 `MarshalJSON` at `Map[string, V]` -/
def marshalJSONObject [GoKey String] (quote : String → String) (enc : V → Except String String) (m : FMap String V) :
    Go (Except String String) := do
  let proxy ← mapToGoMap m
  pure (jsonObject quote (proxy.map (fun kv => (kv.1, enc kv.2))))

/-- map_extra.go:21-28 `marshalJSONArray`: `MarshalJSON` at other key types. -/
def FMap.marshalJSONArray (encK : K → Except String String) (encV : V → Except String String) (m : FMap K V) :
    Go (Except String String) := do
  let es ← m.rangeList
  pure (jsonSlice (es.map (fun e => jsonSlice [encK e.key, encV e.value])))

end

/-! ### Braille -/

/-- braille.go:7-32 `brailleBytes[i]` -/
def brailleByte (i : Nat) : Char :=
  if i = 0 then '~'
  else Char.ofNat ([(7, 0), (3, 3), (6, 1), (2, 4), (5, 2), (1, 5), (4, 6), (0, 7)].foldl
    (fun r (m : Nat × Nat) => r ||| (((i >>> m.1) &&& 1) <<< m.2)) 0x2800)

/-- braille.go:36-38: the loop of `BrailleEncoded`, at most `n` times round; after 8 rounds `i` is 0. -/
def brailleLoop : Nat → BitVec 64 → List Char
  | 0, _ => []
  | n + 1, i => if i = 0#64 then [] else brailleByte (i >>> 56).toNat :: brailleLoop n (i <<< 8)

/-- braille.go:34-40 `BrailleEncoded` -/
def brailleEncoded (i : BitVec 64) : String := String.ofList (brailleLoop 8 i)

/-- bititer.go:36-38 `String`; `bits.Reverse64` is `BitVec.reverse`. -/
def bitIterString (b : BitVec 64) : String := brailleEncoded b.reverse

/-! ### Gauges -/

/-- The value of `FROZEN_CONCURRENCY`: `off` in any case, a number, or anything else (also unset). -/
inductive Concurrency where
  | off
  | num (n : Int)
  | other

/-- gauge.go:19-32 `maxConcurrency`; `bits.UintSize` is 64. -/
def maxConcurrency : Concurrency → Int
  | .off => 2 ^ 63 - 1
  | .num n => n
  | .other => 15

/-- `bits.Len64` -/
def len64 (n : Nat) : Int := if n = 0 then 0 else Nat.log2 n + 1

/-- gauge.go:35 `maxDepth`, from `runtime.GOMAXPROCS(0)`, which is positive. Go's `/` truncates (`Int.tdiv`); `FanoutBits` is 3. -/
def maxGaugeDepth (procs : Nat) : Int := (len64 (procs - 1) - 1).tdiv 3 + 1

/-- gauge.go:43-49 `NewGauge`. `count` is not negative. The subtraction does not overflow unless `FROZEN_CONCURRENCY` is below
-(2⁶³ - 64); that is left out. -/
def newGauge (c : Concurrency) (procs : Nat) (count : Nat) : Int :=
  let g := (len64 count - maxConcurrency c).tdiv 3
  if g > maxGaugeDepth procs then maxGaugeDepth procs else g

end Frozen
