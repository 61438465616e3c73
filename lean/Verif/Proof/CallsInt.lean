import Verif.Model.CallsInt
import Verif.Proof.CallsMap
import Verif.Proof.IntOps

/-! # Calls of the user's function by integer sets -/

set_option linter.unusedSectionVars false

namespace Frozen

variable {w : Nat}

theorem CB.MakesV.foldlM_flat {Q A B X : Type} {V : Q → A → Prop} {g : B → X → CB Q A B} {q : X → List Q} (h : ∀ b x, CB.MakesV V (q x) (g b x)) :
    ∀ (l : List X) (b : B), CB.MakesV V (l.flatMap q) (l.foldlM g b)
  | [], _ => trivial
  | x :: l, b => by
    rw [List.foldlM_cons, List.flatMap_cons]
    exact (h b x).bind (fun b' => CB.MakesV.foldlM_flat h l b')

theorem eval_whereCellE (f : BitVec w → Bool) (c : BitVec w) (x : BitVec 64) : (whereCellE c x).eval f = .ok (whereCell f c x) := by
  unfold whereCellE whereCell
  rw [CB.eval_foldlM f _ (fun n i => .ok (if f (cellVal c i) then n ||| (1#64 <<< (BitVec.ofNat w i).toNat) else n))
    (fun b i => by simp [CB.bind_def, CB.pure_def, Except.bind])]
  generalize 0#64 = n
  induction bitLoop x generalizing n with
  | nil => rfl
  | cons i l ih => rw [List.foldlM_cons, List.foldl_cons]; exact ih _

theorem makes_whereCellE (c : BitVec w) (x : BitVec 64) : CB.Makes ((bitsOf x).map (cellVal c)) (whereCellE c x) := by
  unfold whereCellE
  rw [bitLoop_eq]
  refine CB.MakesV.foldlM (q := cellVal c) (fun b i => ?_) _ _
  exact (CB.makes_ask (cellVal c i)).bind' (fun _ => trivial)

variable [GoKey (BitVec w)] [PrimKey (BitVec w)]

theorem whereFold (g : Entry (BitVec w) CellMask → BitVec 64) : ∀ (es : List (Entry (BitVec w) CellMask)) (b : MapBuilder (BitVec w) CellMask) (n : Int),
    es.foldlM (fun (st : MapBuilder (BitVec w) CellMask × Int) e => if g e ≠ 0#64 then
        (MapBuilder.put st.1 e.key (⟨g e⟩ : CellMask)).bind (fun b => .ok (b, st.2 + (ones (g e) : Int))) else .ok st) (b, n) =
      ((((es.map (fun e => (⟨e.key, ⟨g e⟩⟩ : KeyValue (BitVec w) CellMask))).filter (fun kv => kv.value.bits ≠ 0#64)).foldlM
        (fun b kv => MapBuilder.put b kv.key kv.value) b).bind fun b => .ok (b, n +
          (((es.map (fun e => (⟨e.key, ⟨g e⟩⟩ : KeyValue (BitVec w) CellMask))).filter (fun kv => kv.value.bits ≠ 0#64)).map
            (fun kv => (ones kv.value.bits : Int))).sum))
  | [], b, n => by simp [Except.bind, pure, Except.pure]
  | e :: es, b, n => by
    rw [List.foldlM_cons, List.map_cons]
    by_cases h : g e = 0#64
    · rw [List.filter_cons_of_neg (by simp [h]), if_neg (by simp [h])]
      exact whereFold g es b n
    · rw [List.filter_cons_of_pos (by simp [h]), if_pos h, List.foldlM_cons, List.map_cons, List.sum_cons]
      simp only [bind]
      cases MapBuilder.put b e.key (⟨g e⟩ : CellMask) with
      | error p => rfl
      | ok b' =>
        simp only [Except.bind]
        have := whereFold g es b' (n + (ones (g e) : Int))
        simp only [Except.bind] at this
        rw [this, Int.add_assoc]

theorem IntSet.eval_whereE (s : IntSet w) (f : BitVec w → Bool) : s.whereE.eval f = s.where f := by
  unfold IntSet.whereE IntSet.where buildMap
  simp only [CB.bind_def, CB.eval_bind, CB.eval_lib, CB.pure_def, CB.eval_done]
  cases s.data.rangeList with
  | error p => rfl
  | ok es =>
    simp only [Except.bind, bind]
    rw [CB.eval_foldlM f _ (fun (st : MapBuilder (BitVec w) CellMask × Int) e => if whereCell f e.key e.value.bits ≠ 0#64 then
        (MapBuilder.put st.1 e.key (⟨whereCell f e.key e.value.bits⟩ : CellMask)).bind
          (fun b => .ok (b, st.2 + (ones (whereCell f e.key e.value.bits) : Int))) else .ok st)
      (fun st e => by simp only [CB.eval_bind, eval_whereCellE, Except.bind, CB.eval_ite, CB.eval_lib, CB.eval_done]),
      whereFold (fun e => whereCell f e.key e.value.bits)]
    simp only [Except.bind]
    split
    · rename_i h; split at h
      · cases h; rfl
      · cases h
    · rename_i h; split at h
      · cases h
      · cases h; simp [pure, Except.pure]

theorem IntSet.makes_whereE {sg : Bool} {s : IntSet w} {F : BitVec w → BitVec 64} (h : Cells sg s.data F) :
    CB.Makes (cellElems s.data.tree.list) s.whereE := by
  unfold IntSet.whereE
  rw [FMap.rangeList_spec h.valid]
  simp only [CB.lib_ok, CB.bind_def, CB.done_bind]
  refine CB.MakesV.bind' ?_ (fun _ => trivial)
  refine CB.MakesV.foldlM_flat (q := fun e : Entry (BitVec w) CellMask => (bitsOf e.value.bits).map (cellVal e.key))
    (fun st e => (makes_whereCellE e.key e.value.bits).bind' (fun p => ?_)) _ _
  split
  · exact (CB.makes_lib _).bind' (fun _ => trivial)
  · trivial

theorem IntSet.eval_mapE (sg : Bool) (order : List (BitVec w × CellMask) → List (BitVec w × CellMask)) (s : IntSet w)
    (f : BitVec w → BitVec w) : (s.mapE sg order).eval f = s.map sg order f := by
  unfold IntSet.mapE IntSet.map
  simp only [CB.bind_def, CB.eval_bind, CB.eval_lib, CB.pure_def]
  cases s.elements with
  | error p => rfl
  | ok vs =>
    simp only [Except.bind, bind]
    rw [CB.eval_foldlM f _ (fun arr v => .ok (arr ++ [f v])) (fun b i => by simp [Except.bind])]
    have : ∀ (l acc : List (BitVec w)), l.foldlM (fun arr v => (.ok (arr ++ [f v]) : Go _)) acc = .ok (acc ++ l.map f) := by
      intro l
      induction l with
      | nil => intro acc; simp [pure, Except.pure]
      | cons v l ih => intro acc; rw [List.foldlM_cons]; exact (ih _).trans (by simp)
    rw [this]; rfl

theorem IntSet.makes_mapE {sg : Bool} {s : IntSet w} {F : BitVec w → BitVec 64} (h : Cells sg s.data F)
    (order : List (BitVec w × CellMask) → List (BitVec w × CellMask)) : CB.Makes (cellElems s.data.tree.list) (s.mapE sg order) := by
  unfold IntSet.mapE
  rw [h.elements]
  simp only [CB.lib_ok, CB.bind_def, CB.done_bind]
  refine CB.MakesV.bind' ?_ (fun _ => CB.makes_lib _)
  have hid : cellElems s.data.tree.list = (cellElems s.data.tree.list).map id := by simp
  conv => arg 2; rw [hid]
  refine CB.MakesV.foldlM (q := id) (fun (b : List (BitVec w)) x => ?_) _ _
  exact (CB.makes_ask x).bind' (fun _ => trivial)

end Frozen
