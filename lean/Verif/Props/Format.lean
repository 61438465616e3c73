import Verif.Proof.Format
import Verif.Props.SetMore
import Verif.Proof.Map

/-! # C39: formatting -/

set_option linter.unusedSectionVars false

namespace Frozen

variable {T : Type} [GoKey T] [LawfulGoKey T]

/-- C39. Without width and `+` flag a set is written as its elements `es` (each once: `C07_range`), separated by commas, in braces. The
set under construction in a builder is written the same way. -/
theorem C39_set (f : T → String) (s : FSet T) (hs : s.Reachable) (es : List T) (hes : s.elements = .ok es) :
    s.string f = .ok ("{" ++ joinWith ", " (es.map f) ++ "}") ∧
    SetBuilder.string f s.tree = .ok ("{" ++ joinWith ", " (es.map f) ++ "}") := by
  have h : s.string f = .ok ("{" ++ joinWith ", " (es.map f) ++ "}") := by
    unfold FSet.string FSet.format
    unfold FSet.elements at hes
    simp only [Bool.false_eq_true, if_false, hes, bind, Except.bind, pure, Except.pure]
    rw [setFormatLoop_none, tailText_zero]
  exact ⟨h, h⟩

/-- C39. With width `w`, the first `min(w, Count)` elements are written and, if any are left, how many. (If `w = 0`, the text begins with
the separator.) -/
theorem C39_set_width (f : T → String) (s : FSet T) (hs : s.Reachable) (es : List T) (hes : s.elements = .ok es) (w : Nat) :
    s.format f false (some w) = .ok ("{" ++ joinWith ", " ((es.take w).map f) ++
      (if w < es.length then ", ...(+" ++ toString (es.length - w) ++ ")..." else "") ++ "}") := by
  have hc : s.count = es.length := by
    rw [FSet.elements_spec hs.valid] at hes
    cases hes
    exact hs.valid.count_eq
  unfold FSet.format
  unfold FSet.elements at hes
  simp only [Bool.false_eq_true, if_false, hes, bind, Except.bind, pure, Except.pure]
  rw [setFormatLoop_some _ _ _ _ _ _ (Nat.zero_le _), tailText_zero, Nat.sub_zero]
  by_cases hw : w < es.length
  · rw [if_pos hw, if_pos hw, hc]
    have : ((es.length : Int) - w) = ((es.length - w : Nat) : Int) := by omega
    rw [this]
    rfl
  · rw [if_neg hw, if_neg hw]

/-- C39. A map is written as its entries, each once, separated by commas, in parentheses. -/
theorem C39_map {K V : Type} [GoKey K] [LawfulGoKey K] [Inhabited V] (f : K → String) (g : V → String) (m : FMap K V) (hm : m.Reachable) :
    ∃ es : List (Entry K V), m.rangeList = .ok es ∧ (es.length : Int) = m.count ∧ PairwiseDifferent (es.map (·.key)) ∧
      (∀ e ∈ es, m.Gets e.key (some e.value)) ∧ (∀ k, m.HasKey k → ∃ e ∈ es, GoKey.eq e.key k = true) ∧
      m.string f g = .ok ("(" ++ joinWith ", " (es.map (fun e => f e.key ++ ": " ++ g e.value)) ++ ")") := by
  have h := hm.valid
  have hl := Tree.keys_lists h
  refine ⟨m.tree.list, FMap.rangeList_spec h, (Tree.Valid.count_eq h).symm, hl.different, fun e he => ?_, fun k hk => ?_, ?_⟩
  · rw [FMap.gets_iff h]
    rw [Tree.lk_eq, show m.tree.look e = some e from (Tree.Valid.distinct h).find?_mem he]; rfl
  · rw [FMap.hasKey_iff h, hl.covers] at hk
    obtain ⟨x, hx, hxk⟩ := hk
    obtain ⟨e, he, rfl⟩ := List.mem_map.1 hx
    exact ⟨e, he, hxk⟩
  · unfold FMap.string FMap.format
    simp only [Bool.false_eq_true, if_false, FMap.rangeList_spec h, bind, Except.bind, pure, Except.pure]
    rw [mapFormatLoop_eq, tailText_zero]

/-- C39. An integer set is written as its elements, in brackets. -/
theorem C39_intset {w : Nat} (f : BitVec w → String) (s : IntSet w) (es : List (BitVec w)) (hes : s.elements = .ok es) :
    s.string f = .ok ("[" ++ joinWith ", " (es.map f) ++ "]") := by
  unfold IntSet.string
  simp only [hes, bind, Except.bind, pure, Except.pure]
  rw [intFormatLoop_eq, tailText_zero]

/-- With the `+` flag, formatting an empty set or map dereferences a nil node. (`fmt` turns the panic into text.) -/
theorem C39_plus_empty_panics (f : T → String) : (FSet.zero : FSet T).format f true none = .error .nilDeref := rfl

/-- With the `+` flag (and no width) a non-empty set is drawn as a tree that shows each element once, in the order of `Elements`. -/
theorem C39_plus (f : T → String) (s : FSet T) (hs : s.Reachable) (es : List T) (hes : s.elements = .ok es) (hne : es ≠ []) :
    ∃ x, s.format f true none = .ok ("S" ++ x) ∧ Draws x (es.map f) := by
  have hv := hs.valid
  rw [FSet.elements_spec hv] at hes
  cases hes
  have hn : s.tree.root.isNil = false := by
    cases hr : s.tree.root <;> first | rfl | exact absurd (by unfold Tree.list; rw [hr]; rfl) hne
  obtain ⟨x, h1, h2⟩ := treeFormat_draws f s.tree hn
  exact ⟨x, by unfold FSet.format; simp only [if_true, h1, bind, Except.bind, pure, Except.pure], h2⟩

/-- With the `+` flag a non-empty map is drawn as a tree that shows each entry once, like a `KeyValue` with its key and value. -/
theorem C39_plus_map {K V : Type} [GoKey K] [LawfulGoKey K] [Inhabited V] (f : K → String) (g : V → String) (m : FMap K V)
    (hm : m.Reachable) (es : List (Entry K V)) (hes : m.rangeList = .ok es) (hne : es ≠ []) :
    ∃ x, m.format f g true = .ok ("M" ++ x) ∧ Draws x (es.map (fun e => KeyValue.string f g ⟨e.key, e.value⟩)) := by
  have hv := hm.valid
  rw [FMap.rangeList_spec hv] at hes
  cases hes
  have hn : m.tree.root.isNil = false := by
    cases hr : m.tree.root <;> first | rfl | exact absurd (by unfold Tree.list; rw [hr]; rfl) hne
  obtain ⟨x, h1, h2⟩ := treeFormat_draws (fun e : Entry K V => f e.key ++ ":" ++ g e.value) m.tree hn
  exact ⟨x, by unfold FMap.format; simp only [if_true, h1, bind, Except.bind, pure, Except.pure], h2⟩

/-- A `KeyValue` is written as its key, a colon and its value. -/
theorem C39_keyValue {K V : Type} (f : K → String) (g : V → String) (k : K) (v : V) :
    KeyValue.string f g ⟨k, v⟩ = f k ++ ":" ++ g v := rfl

/-- Four different elements (1 and 101 are equal) drawn as a tree. -/
example : okAnd (newSet [(⟨1⟩ : Mod100), ⟨2⟩, ⟨3⟩, ⟨4⟩, ⟨101⟩]) (fun s =>
    okAnd (s.format (fun e => toString e.n) true none) (fun x => decide (x = "S⁅⁰⁅⁰⁅⁰⁅⁰⁅⁰⁅¹‹101› ³‹2› ⁴‹3› ⁶‹4›⁆⁆⁆⁆⁆⁆"))) = true := by
  decide +kernel

/-- Four elements; width 2; width 0. -/
example : okAnd (newSet [(⟨1⟩ : Mod100), ⟨2⟩, ⟨3⟩, ⟨4⟩]) (fun s =>
    okAnd (s.string (fun e => toString e.n)) (fun x => decide (x.length = 12)) &&
    okAnd (s.format (fun _ => "x") false (some 2)) (fun x => decide (x = "{x, x, ...(+2)...}")) &&
    okAnd (s.format (fun _ => "x") false (some 0)) (fun x => decide (x = "{, ...(+4)...}"))) = true := by
  decide +kernel

end Frozen
