import Verif.Model.Format
import Verif.Spec.Format
import Verif.Proof.IntOps
import Verif.Proof.SetElems

/-! # The text written by `Format` -/

set_option linter.unusedSectionVars false

namespace Frozen

variable {T K V : Type}

/-- What is written after `n` values. -/
def tailText (sep : String) (n : Nat) (l : List String) : String :=
  match l with
  | [] => ""
  | l => (if n > 0 then sep else "") ++ joinWith sep l

theorem tailText_cons (sep : String) (n : Nat) (a : String) (l : List String) :
    tailText sep n (a :: l) = (if n > 0 then sep else "") ++ a ++ tailText sep (n + 1) l := by
  cases l with
  | nil => simp [tailText, joinWith]
  | cons b l => simp [tailText, joinWith, String.append_assoc]

theorem sep_text (sep out : String) (n : Nat) : (if n > 0 then out ++ sep else out) = out ++ (if n > 0 then sep else "") := by
  by_cases h : n > 0
  · rw [if_pos h, if_pos h]
  · rw [if_neg h, if_neg h]; simp

theorem setFormatLoop_none (f : T → String) (count : Int) : ∀ (vs : List T) (n : Nat) (out : String),
    setFormatLoop f none count n vs out = out ++ tailText ", " n (vs.map f)
  | [], n, out => by simp [setFormatLoop, tailText]
  | v :: vs, n, out => by
    unfold setFormatLoop
    rw [if_neg (by simp), setFormatLoop_none f count vs, List.map_cons, tailText_cons, sep_text]
    simp only [String.append_assoc]

theorem setFormatLoop_some (f : T → String) (count : Int) (w : Nat) : ∀ (vs : List T) (n : Nat) (out : String), n ≤ w →
    setFormatLoop f (some w) count n vs out = out ++ tailText ", " n ((vs.take (w - n)).map f) ++
      (if w - n < vs.length then ", ...(+" ++ toString (count - w) ++ ")..." else "")
  | [], n, out, _ => by simp [setFormatLoop, tailText]
  | v :: vs, n, out, h => by
    unfold setFormatLoop
    by_cases hn : w = n
    · subst hn
      rw [if_pos rfl]
      simp [tailText, String.append_assoc]
    · rw [if_neg (by simpa using hn), setFormatLoop_some f count w vs (n + 1) _ (by omega)]
      obtain ⟨d, hd⟩ : ∃ d, w - n = d + 1 := ⟨w - n - 1, by omega⟩
      rw [show w - (n + 1) = d by omega, hd, List.take_succ_cons, List.map_cons, tailText_cons, sep_text]
      simp only [String.append_assoc, List.length_cons, Nat.succ_lt_succ_iff, Nat.add_lt_add_iff_right]

theorem tailText_zero (sep : String) (l : List String) : tailText sep 0 l = joinWith sep l := by
  cases l <;> simp [tailText, joinWith]

theorem mapFormatLoop_eq (f : K → String) (g : V → String) : ∀ (es : List (Entry K V)) (n : Nat) (out : String),
    mapFormatLoop f g n es out = out ++ tailText ", " n (es.map (fun e => f e.key ++ ": " ++ g e.value))
  | [], n, out => by simp [mapFormatLoop, tailText]
  | v :: vs, n, out => by
    unfold mapFormatLoop
    rw [mapFormatLoop_eq f g vs, List.map_cons, tailText_cons, sep_text]
    simp only [String.append_assoc]

theorem intFormatLoop_eq {w : Nat} (f : BitVec w → String) : ∀ (vs : List (BitVec w)) (n : Nat) (out : String),
    intFormatLoop f n vs out = out ++ tailText ", " n (vs.map f)
  | [], n, out => by simp [intFormatLoop, tailText]
  | v :: vs, n, out => by
    unfold intFormatLoop
    rw [intFormatLoop_eq f vs, List.map_cons, tailText_cons, sep_text]
    simp only [String.append_assoc]

/-! ## `%+v` -/

theorem isMark_append {g h : String} (hg : isMark g = true) (hh : isMark h = true) : isMark (g ++ h) = true := by
  unfold isMark at *
  rw [String.toList_append, List.all_append, hg, hh]; rfl

theorem Draws.pre {g x : String} {l : List String} (hg : isMark g = true) (h : Draws x l) : Draws (g ++ x) l := by
  cases h with
  | nil _ hx => exact .nil _ (isMark_append hg hx)
  | cons g' a t is hg' ht =>
    have := Draws.cons (g ++ g') a t is (isMark_append hg hg') ht
    simpa only [String.append_assoc] using this

theorem Draws.append {x y : String} {l m : List String} (hx : Draws x l) (hy : Draws y m) : Draws (x ++ y) (l ++ m) := by
  induction hx with
  | nil g hg => exact hy.pre hg
  | cons g a t is hg _ ih =>
    have := Draws.cons g a (t ++ y) _ hg ih
    simpa only [String.append_assoc, List.cons_append] using this

theorem Draws.post {g x : String} {l : List String} (h : Draws x l) (hg : isMark g = true) : Draws (x ++ g) l := by
  have := h.append (Draws.nil g hg)
  rwa [List.append_nil] at this

theorem Draws.item (a : String) : Draws a [a] := by
  have := Draws.cons "" a "" [] (by decide +kernel) (.nil "" (by decide +kernel))
  simpa using this

theorem twigFormat_draws (f : T → String) : ∀ (l : List T) (n : Nat) (out : String) (done : List String), Draws out done →
    Draws (l.foldl (fun (st : Nat × String) e => (st.1 + 1, st.2 ++ (if st.1 > 0 then "," else "") ++ f e)) (n, out)).2 (done ++ l.map f)
  | [], n, out, done, h => by simpa using h
  | e :: l, n, out, done, h => by
    rw [List.foldl_cons]
    have := twigFormat_draws f l (n + 1) (out ++ (if n > 0 then "," else "") ++ f e) (done ++ [f e])
      ((h.post (by split <;> decide +kernel)).append (Draws.item _))
    simpa using this

theorem slotMark : ∀ i : Fin 8, isMark (["⁰", "¹", "²", "³", "⁴", "⁵", "⁶", "⁷"].getD i.1 "") = true := by decide +kernel

theorem branchFormat_draws (f : T → String) (k : Fin 8 → Node T)
    (ih : ∀ i, (k i).isNil = false → ∃ x, (k i).format f = .ok x ∧ Draws x ((elems (k i)).map f)) :
    ∀ (is : List (Fin 8)) (st : Bool × String) (done : List String), Draws st.2 done →
    ∃ st' : Bool × String, is.foldlM (fun (st : Bool × String) i =>
      if (k i).isNil then pure st
      else do
        let x ← (k i).format f
        pure (false, st.2 ++ (if st.1 then "" else " ") ++ ["⁰", "¹", "²", "³", "⁴", "⁵", "⁶", "⁷"].getD i.1 "" ++ x)) st = (.ok st' : Go _) ∧
      Draws st'.2 (done ++ (is.flatMap (fun i => elems (k i))).map f)
  | [], st, done, h => ⟨st, rfl, by simpa using h⟩
  | i :: is, st, done, h => by
    rw [List.foldlM_cons]
    by_cases hn : (k i).isNil = true
    · rw [if_pos hn]
      obtain ⟨st', h1, h2⟩ := branchFormat_draws f k ih is st done h
      refine ⟨st', h1, ?_⟩
      have he : elems (k i) = [] := by
        cases hk : k i <;> rw [hk] at hn <;> first | rfl | cases hn
      rw [List.flatMap_cons, he]; exact h2
    · rw [if_neg hn]
      obtain ⟨x, hx, hd⟩ := ih i (by simpa using hn)
      obtain ⟨st', h1, h2⟩ := branchFormat_draws f k ih is
        (false, st.2 ++ (if st.1 then "" else " ") ++ ["⁰", "¹", "²", "³", "⁴", "⁵", "⁶", "⁷"].getD i.1 "" ++ x) (done ++ (elems (k i)).map f)
        (((h.post (by split <;> decide +kernel)).post (slotMark i)).append hd)
      refine ⟨st', ?_, by simpa [List.flatMap_cons] using h2⟩
      simp only [hx, bind, Except.bind, pure, Except.pure] at h1 ⊢
      exact h1

theorem nodeFormat_draws (f : T → String) : ∀ n : Node T, n.isNil = false →
    ∃ x, n.format f = .ok x ∧ Draws x ((elems n).map f)
  | .nil, h => by cases h
  | .leaf1 a, _ => by
    refine ⟨_, rfl, ?_⟩
    exact ((Draws.item (f a)).pre (by decide +kernel)).post (by decide +kernel)
  | .leaf2 a b, _ => by
    refine ⟨_, rfl, ?_⟩
    have h := ((((Draws.item (f a)).pre (g := "«") (by decide +kernel)).post (g := ",") (by decide +kernel)).append
      (Draws.item (f b))).post (g := "»") (by decide +kernel)
    exact h
  | .twig l, _ => by
    refine ⟨_, rfl, ?_⟩
    have h := twigFormat_draws f l 0 "" [] (.nil "" (by decide +kernel))
    exact (h.pre (g := "(") (by decide +kernel)).post (g := ")") (by decide +kernel)
  | .branch m k, _ => by
    obtain ⟨st', h1, h2⟩ := branchFormat_draws f k (fun i => nodeFormat_draws f (k i)) (List.finRange 8) (true, "⁅") []
      (.nil "⁅" (by decide +kernel))
    refine ⟨st'.2 ++ "⁆", ?_, ?_⟩
    · unfold Node.format
      rw [h1]; rfl
    · have := h2.post (g := "⁆") (by decide +kernel)
      simpa only [elems, List.nil_append] using this

theorem treeFormat_draws (f : T → String) (t : Tree T) (h : t.root.isNil = false) :
    ∃ x, t.format f = .ok x ∧ Draws x (t.list.map f) := by
  obtain ⟨x, h1, h2⟩ := nodeFormat_draws f t.root h
  refine ⟨x, ?_, h2⟩
  unfold Tree.format
  simp only [h, h1, Bool.false_eq_true, if_false, bind, Except.bind, pure, Except.pure, String.empty_append]

end Frozen
