import Verif.Props.Work
import Verif.Props.BulkWork
import Verif.Props.IntMemActual

/-! # How much memory calls on integer sets take -/

set_option linter.unusedSectionVars false

namespace Frozen

variable {w : Nat} [GoKey (BitVec w)] [PrimKey (BitVec w)] (G : Growth)

/-- The maps of some history of map calls. -/
def OfCalls (W : IntMaps w) : Prop := ∃ ops, W = World.init.runMap G ops

/-- From `W` the code leads to the maps of a history again, and takes at most `C` nodes and arrays. -/
def TakesAtMost {α : Type} (x : IM w α) (W : IntMaps w) (C : Nat) : Prop :=
  ∀ a W', x W = .ok (a, W') → OfCalls G W' ∧ W'.size ≤ W.size + C

theorem runMap_append {K V : Type} [GoKey K] [Inhabited V] : ∀ (ops ops' : List (MOp K V)) (W : World (Entry K V)),
    W.runMap G (ops ++ ops') = (W.runMap G ops).runMap G ops'
  | [], _, _ => rfl
  | op :: ops, ops', W => runMap_append ops ops' (W.step G (op.call W))

variable {G} {W : IntMaps w}

theorem OfCalls.more (h : OfCalls G W) (op : MOp (BitVec w) CellMask) : OfCalls G (W.runMap G [op]) := by
  obtain ⟨ops, rfl⟩ := h
  exact ⟨ops ++ [op], (runMap_append G ops [op] _).symm⟩

theorem size_update {T : Type} [GoKey T] [LawfulGoKey T] (W : World T) (k : Nat) (x : MM T MTree) {C : Nat} (hx : x.accesses W.mem ≤ C) :
    (W.update k (x W.mem)).size ≤ W.size + C := by
  have h5 := alloc_le x W.mem
  have h6 : (W.update k (x W.mem)).mem = (x W.mem).2 := by unfold World.update; cases (x W.mem).1 <;> rfl
  unfold World.size
  rw [h6]
  omega

theorem size_with (hK : FewCollisions (BitVec w)) (h : OfCalls G W) (i : Nat) (k : BitVec w) (v : CellMask) :
    (W.runMap G [.with i k v]).size ≤ W.size + 345 := by
  obtain ⟨ops, rfl⟩ := h
  show ((World.init.runMap G ops).on i (fun s => s.with G ⟨k, v⟩)).size ≤ _
  unfold World.on
  split
  · rename_i s hs
    exact size_push _ _ ((C52_map_constant_work hK G ops).1 i s hs k v).2.1
  · omega

theorem size_without (hK : FewCollisions (BitVec w)) (h : OfCalls G W) (i : Nat) (k : BitVec w) :
    (W.runMap G [.without i k]).size ≤ W.size + 717 := by
  obtain ⟨ops, rfl⟩ := h
  show ((World.init.runMap G ops).on i (fun s => s.without G (newMapKey k))).size ≤ _
  unfold World.on
  split
  · rename_i s hs
    exact size_push _ _ ((C52_map_constant_work hK G ops).1 i s hs k default).2.2
  · omega

theorem size_put (hK : FewCollisions (BitVec w)) (h : OfCalls G W) (b : Nat) (k : BitVec w) (v : CellMask) :
    (W.runMap G [.put b k v]).size ≤ W.size + 341 := by
  obtain ⟨ops, rfl⟩ := h
  show ((World.init.runMap G ops).onBuilder b (fun s => s.add G ⟨k, v⟩)).size ≤ _
  unfold World.onBuilder
  split
  · rename_i s hs
    exact size_update _ _ _ ((C52_map_constant_work hK G ops).2 b s hs k v).2.1
  · omega

theorem size_finish (b : Nat) : (W.runMap G [.finish b]).size = W.size := by
  show (W.step G (.finish b)).size = _
  simp only [World.step]
  split <;> rfl

theorem TakesAtMost.pure {α : Type} (h : OfCalls G W) (a : α) : TakesAtMost G (Pure.pure a : IM w α) W 0 := by
  intro b W' he
  cases he
  exact ⟨h, Nat.le_refl _⟩

theorem TakesAtMost.bind {α β : Type} {x : IM w α} {f : α → IM w β} {C D : Nat} (hx : TakesAtMost G x W C)
    (hf : ∀ a W', x W = .ok (a, W') → OfCalls G W' → TakesAtMost G (f a) W' D) : TakesAtMost G (x >>= f) W (C + D) := by
  intro b W'' he
  have he' : (match x W with | .ok (a, W') => f a W' | .error e => .error e) = .ok (b, W'') := he
  split at he'
  · rename_i a W' hxa
    obtain ⟨h1, h2⟩ := hx a W' hxa
    obtain ⟨h3, h4⟩ := hf a W' hxa h1 b W'' he'
    exact ⟨h3, by omega⟩
  · cases he'

theorem TakesAtMost.mono {α : Type} {x : IM w α} {C D : Nat} (hx : TakesAtMost G x W C) (h : C ≤ D) : TakesAtMost G x W D :=
  fun a W' he => ⟨(hx a W' he).1, Nat.le_trans (hx a W' he).2 (by omega)⟩

theorem takes_get (h : OfCalls G W) (i : Nat) (k : BitVec w) : TakesAtMost G (IM.get i k) W 0 := by
  intro a W' he
  unfold IM.get at he
  split at he
  · split at he
    · cases he; exact ⟨h, Nat.le_refl _⟩
    · cases he
  · cases he

theorem takes_range (h : OfCalls G W) (i : Nat) : TakesAtMost G (IM.range i) W 0 := by
  intro a W' he
  unfold IM.range at he
  split at he
  · split at he
    · cases he; exact ⟨h, Nat.le_refl _⟩
    · cases he
  · cases he

theorem takes_call (h : OfCalls G W) {op : MOp (BitVec w) CellMask} {C : Nat} (hs : (W.runMap G [op]).size ≤ W.size + C) :
    TakesAtMost G (IM.call G op) W C := by
  intro a W' he
  unfold IM.call at he
  split at he
  · cases he; exact ⟨h.more op, hs⟩
  · cases he

theorem takes_newBuilder (h : OfCalls G W) : TakesAtMost G (IM.newBuilder G) W 0 := by
  intro a W' he
  cases he
  exact ⟨h.more .newBuilder, Nat.le_refl _⟩

theorem takes_put (hK : FewCollisions (BitVec w)) (h : OfCalls G W) (b : Nat) (k : BitVec w) (v : CellMask) :
    TakesAtMost G (IM.put G b k v) W 341 := by
  intro a W' he
  cases he
  exact ⟨h.more _, size_put hK h b k v⟩

theorem takes_fold {α β : Type} {f : β → α → IM w β} {C : Nat} (hf : ∀ b a (W : IntMaps w), OfCalls G W → TakesAtMost G (f b a) W C) :
    ∀ (l : List α) (b : β) {W : IntMaps w}, OfCalls G W → TakesAtMost G (l.foldlM f b) W (C * l.length)
  | [], b, _, h => TakesAtMost.pure h b
  | a :: l, b, W, h => by
    rw [List.foldlM_cons]
    refine ((hf b a W h).bind (fun b' W' _ h' => takes_fold hf l b' h')).mono ?_
    rw [List.length_cons, Nat.mul_succ, Nat.add_comm]

theorem takes_forM {α : Type} {f : α → IM w Unit} {C : Nat} (hf : ∀ a (W : IntMaps w), OfCalls G W → TakesAtMost G (f a) W C) :
    ∀ (l : List α) {W : IntMaps w}, OfCalls G W → TakesAtMost G (l.forM f) W (C * l.length)
  | [], _, h => TakesAtMost.pure h ()
  | a :: l, W, h => by
    show TakesAtMost G (f a >>= fun _ => l.forM f) W _
    refine ((hf a W h).bind (fun _ W' _ h' => takes_forM hf l h')).mono ?_
    rw [List.length_cons, Nat.mul_succ, Nat.add_comm]

theorem takes_build (hK : FewCollisions (BitVec w)) (h : OfCalls G W) (kvs : List (KeyValue (BitVec w) CellMask)) :
    TakesAtMost G (IM.build G kvs) W (341 * kvs.length) := by
  unfold IM.build
  refine ((takes_newBuilder h).bind (fun b W1 _ h1 => (takes_forM (fun kv W2 h2 => takes_put hK h2 b kv.key kv.value) kvs h1).bind
    (fun _ W3 _ h3 => takes_call (C := 0) h3 (Nat.le_of_eq (size_finish b))))).mono ?_
  omega

omit [GoKey (BitVec w)] [PrimKey (BitVec w)] in
theorem length_goMapSet (m : List (BitVec w × CellMask)) (k : BitVec w) (v : CellMask) : (goMapSet m k v).length ≤ m.length + 1 := by
  unfold goMapSet
  split <;> simp

omit [GoKey (BitVec w)] [PrimKey (BitVec w)] in
theorem length_intSetCell (sg : Bool) (is : List (BitVec w)) : ∀ m : List (BitVec w × CellMask), (is.foldl (intSetCell sg) m).length ≤ m.length + is.length := by
  induction is with
  | nil => intro m; simp
  | cons i is ih =>
    intro m
    rw [List.foldl_cons]
    refine Nat.le_trans (ih _) ?_
    have h2 : (intSetCell sg m i).length ≤ m.length + 1 := length_goMapSet m _ _
    rw [List.length_cons]
    omega

theorem takes_new (hK : FewCollisions (BitVec w)) (h : OfCalls G W) (sg : Bool)
    (order : List (BitVec w × CellMask) → List (BitVec w × CellMask)) (ho : ∀ m, (order m).Perm m) (is : List (BitVec w)) :
    TakesAtMost G (mNewIntSet G sg order is) W (341 * is.length) := by
  unfold mNewIntSet
  refine ((takes_build hK h _).bind (fun d W' _ h' => TakesAtMost.pure h' _)).mono ?_
  rw [List.length_map, (ho _).length_eq]
  have := length_intSetCell sg is []
  simp only [List.length_nil, Nat.zero_add] at this
  omega

theorem takes_locate (h : OfCalls G W) (sg : Bool) (s : MInt) (i : BitVec w) : TakesAtMost G (s.locate sg i) W 0 :=
  (takes_get h _ _).bind (fun _ _ _ h' => TakesAtMost.pure h' _)

theorem takes_with (hK : FewCollisions (BitVec w)) (h : OfCalls G W) (sg : Bool) (s : MInt) (i : BitVec w) :
    TakesAtMost G (s.with G sg i) W 345 := by
  unfold MInt.with
  refine ((takes_locate h sg s i).bind (D := 345) (fun l W' _ h' => ?_)).mono (by omega)
  split
  · exact (takes_call h' (size_with hK h' _ _ _)).bind (fun _ _ _ h2 => TakesAtMost.pure h2 _)
  · exact (TakesAtMost.pure h' _).mono (by omega)

theorem takes_without (hK : FewCollisions (BitVec w)) (h : OfCalls G W) (sg : Bool) (s : MInt) (i : BitVec w) :
    TakesAtMost G (s.without G sg i) W 717 := by
  unfold MInt.without
  refine ((takes_locate h sg s i).bind (D := 717) (fun l W' _ h' => ?_)).mono (by omega)
  split
  · dsimp only
    split
    · exact ((takes_call h' (size_with hK h' _ _ _)).bind (fun _ _ _ h2 => TakesAtMost.pure h2 _)).mono (by omega)
    · exact (takes_call h' (size_without hK h' _ _)).bind (fun _ _ _ h2 => TakesAtMost.pure h2 _)
  · exact (TakesAtMost.pure h' _).mono (by omega)

theorem takes_unionStep (hK : FewCollisions (BitVec w)) (s st : MInt) (e : Entry (BitVec w) CellMask) (W : IntMaps w) (h : OfCalls G W) :
    TakesAtMost G (mUnionStep G s st e) W 345 := by
  unfold mUnionStep
  refine ((takes_get h _ _).bind (D := 345) (fun l W' _ h' => ?_)).mono (by omega)
  split <;> exact (takes_call h' (size_with hK h' _ _ _)).bind (fun _ _ _ h2 => TakesAtMost.pure h2 _)

theorem takes_interStep (hK : FewCollisions (BitVec w)) (s : MInt) (b : Nat) (n : Int) (e : Entry (BitVec w) CellMask) (W : IntMaps w)
    (h : OfCalls G W) : TakesAtMost G (mInterStep G s b n e) W 341 := by
  unfold mInterStep
  refine ((takes_get h _ _).bind (D := 341) (fun l W' _ h' => ?_)).mono (by omega)
  split
  · exact (TakesAtMost.pure h' _).mono (by omega)
  · split
    · exact (takes_put hK h' _ _ _).bind (fun _ _ _ h2 => TakesAtMost.pure h2 _)
    · exact (TakesAtMost.pure h' _).mono (by omega)

/-- The entries that `IM.range` delivers. -/
def RangeLen (W : IntMaps w) (i : Nat) (n : Nat) : Prop := ∀ es W', IM.range i W = .ok (es, W') → es.length = n

theorem takes_union (hK : FewCollisions (BitVec w)) (h : OfCalls G W) (s t : MInt) {n : Nat} (hn : RangeLen W t.data n) :
    TakesAtMost G (s.union G t) W (345 * n) := by
  unfold MInt.union
  refine ((takes_range h _).bind (D := 345 * n) (fun es W' he h' => ?_)).mono (by omega)
  rw [← hn es W' he]
  exact takes_fold (fun b a W h => takes_unionStep hK s b a W h) es s h'

theorem takes_intersection (hK : FewCollisions (BitVec w)) (h : OfCalls G W) (s t : MInt) {n : Nat}
    (hn : RangeLen (W.runMap G [.newBuilder]) t.data n) : TakesAtMost G (s.intersection G t) W (341 * n) := by
  unfold MInt.intersection
  refine ((takes_newBuilder h).bind (D := 341 * n) (fun b W1 he1 h1 => ?_)).mono (by omega)
  refine ((takes_range h1 _).bind (D := 341 * n) (fun es W2 he2 h2 => ?_)).mono (by omega)
  have hW1 : W1 = W.runMap G [.newBuilder] := by cases he1; rfl
  rw [hW1] at he2
  rw [← hn es W2 he2]
  refine ((takes_fold (fun n a W h => takes_interStep hK s b n a W h) es 0 h2).bind (D := 0) (fun c W3 _ h3 => ?_)).mono (by omega)
  exact (takes_call (C := 0) h3 (Nat.le_of_eq (size_finish b))).bind (fun _ _ _ h4 => TakesAtMost.pure h4 _)

theorem takes_where (hK : FewCollisions (BitVec w)) (h : OfCalls G W) (s : MInt) (p : BitVec w → Bool) {n : Nat} (hn : RangeLen W s.data n) :
    TakesAtMost G (s.where G p) W (341 * n) := by
  unfold MInt.where
  refine ((takes_range h _).bind (D := 341 * n) (fun es W' he h' => ?_)).mono (by omega)
  refine ((takes_build hK h' _).bind (fun d W2 _ h2 => TakesAtMost.pure h2 _)).mono ?_
  rw [← hn es W' he]
  have := List.length_filter_le (fun kv : KeyValue (BitVec w) CellMask => decide (kv.value.bits ≠ 0#64))
    (es.map (fun e => (⟨e.key, ⟨whereCell p e.key e.value.bits⟩⟩ : KeyValue (BitVec w) CellMask)))
  rw [List.length_map] at this
  omega

theorem takes_map (hK : FewCollisions (BitVec w)) (h : OfCalls G W) (sg : Bool)
    (order : List (BitVec w × CellMask) → List (BitVec w × CellMask)) (ho : ∀ m, (order m).Perm m) (s : MInt) (f : BitVec w → BitVec w) {n : Nat}
    (hn : ∀ vs W', s.elements W = .ok (vs, W') → vs.length = n) : TakesAtMost G (s.map G sg order f) W (341 * n) := by
  unfold MInt.map
  have h1 : TakesAtMost G (s.elements : IM w _) W 0 := (takes_range h _).bind (fun _ _ _ h' => TakesAtMost.pure h' _)
  refine (h1.bind (D := 341 * n) (fun vs W' he h' => ?_)).mono (by omega)
  have := takes_new hK h' sg order ho (vs.map f)
  rwa [List.length_map, hn vs W' he] at this

end Frozen
