import Verif.Model.IntSet

/-! # Formatting: `Format` and `String`

Models `set.go` (128-155), `map.go` (240-263), `intset.go` (86-104), `kv.go` (28-38), `set_builder.go` (47-53) and the `Format` methods of
`internal/pkg/tree/{tree,leaf1,leaf2,twig,branch}.go`. A `Format` call is modelled by the text it writes to `f`. How a single element,
key or value is written (`fmt.Fprintf(f, "%v", e)`, `fu.Format(e, f, verb)`) is a parameter `show`. Writing never fails. -/

namespace Frozen

variable {T K V : Type}

/-- leaf1.go:33-37, leaf2.go:22-28, twig.go:22-31, branch.go:379-427 `Format`, without a width, so that `fu.PadFormat` writes nothing.
In `branch.Format` the variable `shallow` is always false: `buf[:]` has no spare capacity, so `AppendTo` returns nil. -/
def Node.format («show» : T → String) : Node T → Go String
  | .nil => .error .nilDeref
  | .leaf1 a => .ok ("‹" ++ «show» a ++ "›")
  | .leaf2 a b => .ok ("«" ++ «show» a ++ "," ++ «show» b ++ "»")
  | .twig l => .ok ("(" ++ (l.foldl (fun (st : Nat × String) e => (st.1 + 1, st.2 ++ (if st.1 > 0 then "," else "") ++ «show» e)) (0, "")).2 ++ ")")
  | .branch _ k => do
    let st ← (List.finRange 8).foldlM (fun (st : Bool × String) i =>
      if (k i).isNil then pure st
      else do
        let x ← (k i).format «show»
        pure (false, st.2 ++ (if st.1 then "" else " ") ++ ["⁰", "¹", "²", "³", "⁴", "⁵", "⁶", "⁷"].getD i.1 "" ++ x)) (true, "⁅")
    pure (st.2 ++ "⁆")

/-- tree.go:41-46 `Format`: on an empty tree it writes ∅ and then calls `Format` on the nil node. -/
def Tree.format («show» : T → String) (t : Tree T) : Go String := do
  let pre := if t.root.isNil then "∅" else ""
  let x ← t.root.format «show»
  pure (pre ++ x)

/-- set.go:144-153: the loop of `Format` from the `n`th value on; `width` is `none` if no width is set. -/
def setFormatLoop («show» : T → String) (width : Option Nat) (count : Int) : Nat → List T → String → String
  | _, [], out => out
  | n, v :: vs, out =>
    if width = some n then out ++ ", ...(+" ++ toString (count - n) ++ ")..."
    else setFormatLoop «show» width count (n + 1) vs ((if n > 0 then out ++ ", " else out) ++ «show» v)

/-- set.go:134-155 `Format`; `plus` is `verb == 'v' && f.Flag('+')`. -/
def FSet.format («show» : T → String) (plus : Bool) (width : Option Nat) (s : FSet T) : Go String :=
  if plus then do
    let x ← s.tree.format «show»
    pure ("S" ++ x)
  else do
    let vs ← s.rangeList
    pure (setFormatLoop «show» width s.count 0 vs "{" ++ "}")

/-- set.go:129-131 `String`, which is `Format` with verb `s` and no width (fu.go:52-54 `String`). -/
def FSet.string («show» : T → String) (s : FSet T) : Go String := s.format «show» false none

/-- set_builder.go:47-49 `String` (and 51-53 `Format`): of the set under construction. -/
def SetBuilder.string («show» : T → String) (b : SetBuilder T) : Go String := (⟨b⟩ : FSet T).string «show»

/-- map.go:254-261: the loop of `Format`. -/
def mapFormatLoop (showK : K → String) (showV : V → String) : Nat → List (Entry K V) → String → String
  | _, [], out => out
  | n, e :: es, out =>
    mapFormatLoop showK showV (n + 1) es ((if n > 0 then out ++ ", " else out) ++ showK e.key ++ ": " ++ showV e.value)

/-- map.go:246-263 `Format`; `plus` as for sets. -/
def FMap.format (showK : K → String) (showV : V → String) (plus : Bool) (m : FMap K V) : Go String :=
  if plus then do
    let x ← m.tree.format (fun e => showK e.key ++ ":" ++ showV e.value)
    pure ("M" ++ x)
  else do
    let es ← m.rangeList
    pure (mapFormatLoop showK showV 0 es "(" ++ ")")

/-- map.go:241-243 `String` -/
def FMap.string (showK : K → String) (showV : V → String) (m : FMap K V) : Go String := m.format showK showV false

/-- kv.go:34-38 `Format` (and 29-31 `String`) -/
def KeyValue.string (showK : K → String) (showV : V → String) (kv : KeyValue K V) : String := showK kv.key ++ ":" ++ showV kv.value

/-- intset.go:99-102: the loop of `Format`; `fu.Comma` (fu.go:17-27) writes a separator except before the first value. -/
def intFormatLoop {w : Nat} («show» : BitVec w → String) : Nat → List (BitVec w) → String → String
  | _, [], out => out
  | n, v :: vs, out => intFormatLoop «show» (n + 1) vs ((if n > 0 then out ++ ", " else out) ++ «show» v)

/-- intset.go:92-104 `Format` without the `+` flag (and 87-89 `String`) -/
def IntSet.string {w : Nat} («show» : BitVec w → String) (s : IntSet w) : Go String := do
  let vs ← s.elements
  pure (intFormatLoop «show» 0 vs "[" ++ "]")

/-- intset.go:92-104 `Format`. With the `+` flag it writes the map of cells (intset.go:93-96) with `fu.Fprint` (fu.go:42-46), which drops
the flag; `showC` is how a cell is written. -/
def IntSet.format {w : Nat} («show» : BitVec w → String) (showC : CellMask → String) (plus : Bool) (s : IntSet w) : Go String :=
  if plus then s.data.format «show» showC false else s.string «show»

end Frozen
