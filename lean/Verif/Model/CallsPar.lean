import Verif.Model.Calls
import Verif.Model.Parallel

/-!
# Calls of the user's function from goroutines

`Where`, `Reduce` and `Merge` of large sets run the closures of `Gauge.Parallel` in goroutines (gauge.go:51-84). `Model/Parallel.lean`
models what the goroutines do to shared memory and channels, for pure functions. Here the goroutines call the user's function, and the
scheduler interleaves the calls. A call is one step: calls that overlap are taken in the order in which they return. The bookkeeping of the
goroutines is left out: a call of `Parallel` ends when all closures have ended, with an arbitrary value in the packer's mask (which the
goroutines race for), and its slots written. The closures of these three operations always return `true`.
-/

namespace Frozen

variable {Q A X T : Type}

/-- Code that calls the user's function and may call `Parallel` in its concurrent mode. As `Comp`, with calls at the leaves (`seq`) and in
the code `k` after `Parallel`. -/
inductive CComp (Q A X : Type) where
  | seq (x : CB Q A (X × Int))
  | par (mask : Masker) (body : Fin 8 → CComp Q A X) (sets : Fin 8 → Bool) (k : Masker → (Fin 8 → Option X) → Int → CB Q A (X × Int))

/-- One step of one goroutine. The label is the call it makes and the answer, if it makes one. -/
inductive CStep : CComp Q A X → Option (Q × A) → CComp Q A X → Prop
  | call (q next a) : CStep (.seq (.call q next)) (some (q, a)) (.seq (next a))
  /-- a step of the goroutine for slot `i` (gauge.go:60-63) -/
  | kid (mask body sets k i c l) (hi : i ∈ mask.indices) (h : CStep (body i) l c) :
      CStep (.par mask body sets k) l (.par mask (setSlot body i c) sets k)
  /-- all goroutines have ended (gauge.go:65-71) -/
  | join (mask body sets k) (pm : Masker) (R : Fin 8 → X × Int) (h : ∀ i ∈ mask.indices, body i = .seq (.done (R i))) :
      CStep (.par mask body sets k) none
        (.seq (k pm (fun i => if i ∈ mask.indices then some (R i).1 else none) ((mask.indices.map (fun i => (R i).2)).sum)))

/-- Some schedule leads to `c`, with the calls and answers `tr`. -/
inductive CRuns (c0 : CComp Q A X) : List (Q × A) → CComp Q A X → Prop
  | start : CRuns c0 [] c0
  | call {tr c c' qa} (h : CRuns c0 tr c) (hs : CStep c (some qa) c') : CRuns c0 (tr ++ [qa]) c'
  | quiet {tr c c'} (h : CRuns c0 tr c) (hs : CStep c none c') : CRuns c0 tr c'

/-- The user's function is a closure that makes calls itself (as in `Merge`). -/
def CComp.wrap {Q' A' : Type} (h : Q → CB Q' A' A) : CComp Q A X → CComp Q' A' X
  | .seq x => .seq (x.wrap h)
  | .par mask body sets k => .par mask (fun i => (body i).wrap h) sets (fun pm sl ms => (k pm sl ms).wrap h)

/-- An API call: it returns at once, or after a computation. -/
inductive CCall (Q A α : Type) : Type 1 where
  | ret (a : α)
  | run {X : Type} (c : CComp Q A X) (k : X × Int → α)

variable [GoKey T]

/-- branch.go:287-301 `Where` under gauge `g`, as `whereC`. -/
def whereCC (g : Int) : Node T → Nat → CComp T Bool (Node T × Bool)
  | .branch m k, d =>
    if (d : Int) < g then
      .par m (fun i => whereCC g (k i) (d + 1)) (fun _ => false)
        (fun mask slots ms =>
          let nodes := (packed mask (fun i => (slots i).map (·.1))).updateMask
          if nodes.mask = m ∧ (List.finRange 8).all (fun i => (slots i).elim (k i).isNil (·.2)) then
            .done ((.branch m k, true), ms)
          else CB.lib ((branchCanonical nodes).map (fun r => ((r, false), ms))))
    else .seq ((whereE (.branch m k) d).bind (fun r => .done ((r.1, r.2.2), r.2.1)))
  | n, d => .seq ((whereE n d).bind (fun r => .done ((r.1, r.2.2), r.2.1)))

/-- set.go:207-214 and tree.go:177-185 `Where` under gauge `g`. -/
def FSet.whereCC (g : Int) (s : FSet T) : CCall T Bool (FSet T) :=
  if s.tree.root.isNil then .ret s
  else .run (Frozen.whereCC g s.tree.root 0) (fun r => ⟨⟨r.1.1, r.2⟩⟩)

omit [GoKey T] in
/-- branch.go:207-220 `Reduce` under gauge `g`, as `reduceC`. -/
def reduceCC [Inhabited T] (g : Int) : Node T → Nat → CComp (List T) T T
  | .branch m k, d =>
    if (d : Int) < g then
      .par m (fun i => reduceCC g (k i) (d + 1)) (fun _ => false)
        (fun _ slots _ => do
          let results2 ← CB.lib ((bitLoop m).mapM (fun i =>
            if h : i < 8 then (.ok ((slots ⟨i, h⟩).getD default) : Go T) else .error (.msg "index out of range")))
          let x ← CB.ask results2
          pure (x, 0))
    else .seq ((reduceE (.branch m k)).bind (fun x => .done (x, 0)))
  | n, _ => .seq ((reduceE n).bind (fun x => .done (x, 0)))

omit [GoKey T] in
/-- set.go:233-235 and tree.go:157-162 `Reduce` under gauge `g`. -/
def FSet.reduceCC [Inhabited T] (g : Int) (s : FSet T) : CCall (List T) T (Option T) :=
  if s.tree.root.isNil then .ret none
  else .run (Frozen.reduceCC g s.tree.root 0) (fun r => some r.1)

/-- branch.go:94-123 `Combine` under gauge `g`, as `combineC`; the other cases do not call `Parallel`. -/
def combineCC (g : Int) (eq : T → T → Bool) : Node T → Node T → Nat → CComp (T × T) T (Node T)
  | .branch m k, n, d =>
    match n with
    | .branch m2 k2 =>
      if (d : Int) < g then
        .par (m ||| m2)
          (fun i =>
            if (k i).isNil then .seq (.done (k2 i, 0))
            else if (k2 i).isNil then .seq (.done (k i, 0))
            else combineCC g eq (k i) (k2 i) (d + 1))
          (fun i => (k i).isNil || (k2 i).isNil)
          (fun mask slots ms => .done ((packed mask slots).updateMask.toNode, ms))
      else .seq (combineE eq (.branch m k) false (.branch m2 k2) d)
    | n => .seq (combineE eq (.branch m k) false n d)
  | n1, n, d => .seq (combineE eq n1 false n d)

/-- map.go:194-200 `Merge` and tree.go:48-60 `Combine` under gauge `g`. -/
def FMap.mergeCC {K V : Type} [GoKey K] (g : Int) (m n : FMap K V) : CCall (K × V × V) V (FMap K V) :=
  if m.tree.root.isNil then .ret n
  else if n.tree.root.isNil then .ret m
  else .run ((combineCC g mapEntryKeyEqual m.tree.root n.tree.root 0).wrap (fun p =>
      (CB.ask (p.1.key, p.1.value, p.2.value)).bind (fun v => .done (⟨p.1.key, v⟩ : Entry K V))))
    (fun r => ⟨⟨r.1, m.tree.count + n.tree.count - r.2⟩⟩)

end Frozen
