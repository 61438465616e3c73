import Verif.Proof.Calls
import Verif.Proof.Nested
import Verif.Proof.Combine

/-! # Callbacks of loops, `Reduce2` and `Merge` -/

set_option linter.unusedSectionVars false

namespace Frozen

section Wrap

variable {Q A R S Q' A' : Type}

theorem CB.lib_ok (r : R) : (CB.lib (.ok r) : CB Q A R) = .done r := rfl

theorem CB.eval_wrap (h : Q → CB Q' A' A) (f' : Q' → A') (f : Q → A) (hf : ∀ q, (h q).eval f' = .ok (f q)) (x : CB Q A R) :
    (x.wrap h).eval f' = x.eval f := by
  induction x with
  | done r => rfl
  | panic p => rfl
  | call q k ih =>
    simp only [CB.wrap, CB.eval_bind, hf, Except.bind, ih, CB.eval_call]

/-- A closure that makes one call. -/
theorem CB.MakesV.wrap {V : Q → A → Prop} {q' : Q → Q'} {g : Q → A' → A} (hV : ∀ q a, V q (g q a)) {x : CB Q A R} :
    ∀ {qs : List Q}, CB.MakesV V qs x → CB.Makes (qs.map q') (x.wrap (fun q => (CB.ask (q' q)).bind (fun a => .done (g q a)))) := by
  induction x with
  | done r => intro qs h; cases qs <;> exact h
  | panic p => intro qs _; cases qs <;> trivial
  | call q k ih =>
    intro qs h
    cases qs with
    | nil => exact h.elim
    | cons q2 qs =>
      obtain ⟨rfl, h⟩ := h
      exact ⟨rfl, fun a _ => ih _ (h _ (hV _ _))⟩

end Wrap

section Loops

variable {T U K V : Type} [GoKey T] [LawfulGoKey T] [GoKey U] [LawfulGoKey U] [GoKey K] [LawfulGoKey K]

theorem eval_setMapE (s : FSet T) (f : T → U) : (setMapE s).eval f = setMap s f := by
  unfold setMapE setMap Tree.mapE Tree.map
  split
  · rfl
  · simp only [CB.bind_def, CB.eval_bind, CB.eval_lib, CB.pure_def, CB.eval_done]
    cases s.tree.rangeList with
    | error p => rfl
    | ok vs =>
      simp only [Except.bind, bind]
      rw [CB.eval_foldlM f _ (fun b v => Builder.add b (f v)) (fun b v => by simp [Except.bind])]
      rfl

theorem makes_setMapE {s : FSet T} (h : s.Valid) : CB.Makes s.tree.list (setMapE s : CB T U (FSet U)) := by
  unfold setMapE Tree.mapE
  split
  · rename_i hn
    rw [(Tree.isNil_iff_list h).1 hn]; trivial
  · rw [Tree.Valid.rangeList h]
    simp only [CB.lib_ok, CB.bind_def, CB.done_bind, CB.bind_assoc]
    refine CB.MakesV.bind' ?_ (fun _ => trivial)
    simpa using CB.MakesV.foldlM (q := id) (fun (b : Builder U) x => (CB.makes_ask x).bind' (fun _ => CB.makes_lib _)) s.tree.list Tree.zero

theorem eval_newMapFromKeysE (s : FSet K) (f : K → V) : (newMapFromKeysE s).eval f = newMapFromKeys s f := by
  unfold newMapFromKeysE newMapFromKeys buildMap
  simp only [CB.bind_def, CB.eval_bind, CB.eval_lib, CB.pure_def, CB.eval_done]
  cases s.rangeList with
  | error p => rfl
  | ok vs =>
    simp only [Except.bind, bind, List.foldlM_map]
    rw [CB.eval_foldlM f _ (fun b k => MapBuilder.put b k (f k)) (fun b v => by simp [Except.bind])]
    rfl

theorem makes_newMapFromKeysE {s : FSet K} (h : s.Valid) : CB.Makes s.tree.list (newMapFromKeysE s : CB K V (FMap K V)) := by
  have hr : s.rangeList = .ok s.tree.list := Tree.Valid.rangeList h
  unfold newMapFromKeysE
  rw [hr]
  simp only [CB.lib_ok, CB.bind_def, CB.done_bind]
  refine CB.MakesV.bind' ?_ (fun _ => trivial)
  simpa using CB.MakesV.foldlM (q := id) (fun (b : MapBuilder K V) x => (CB.makes_ask x).bind' (fun _ => CB.makes_lib _)) s.tree.list Tree.zero

theorem eval_mapMapE (m : FMap K V) (f : K → V → U) : (mapMapE m).eval (fun p => f p.1 p.2) = mapMap m f := by
  unfold mapMapE mapMap buildMap
  simp only [CB.bind_def, CB.eval_bind, CB.eval_lib, CB.pure_def, CB.eval_done]
  cases m.rangeList with
  | error p => rfl
  | ok vs =>
    simp only [Except.bind, bind, List.foldlM_map]
    rw [CB.eval_foldlM _ _ (fun b (e : Entry K V) => MapBuilder.put b e.key (f e.key e.value)) (fun b v => by simp [Except.bind])]
    rfl

theorem makes_mapMapE [Inhabited V] {m : FMap K V} (h : m.Valid) : CB.Makes (m.tree.list.map fun e => (e.key, e.value)) (mapMapE m : CB (K × V) U (FMap K U)) := by
  unfold mapMapE
  rw [FMap.rangeList_spec h]
  simp only [CB.lib_ok, CB.bind_def, CB.done_bind]
  refine CB.MakesV.bind' ?_ (fun _ => trivial)
  exact CB.MakesV.foldlM (fun (b : MapBuilder K U) (e : Entry K V) => (CB.makes_ask (e.key, e.value)).bind' (fun _ => CB.makes_lib _)) m.tree.list Tree.zero

theorem foldlM_filter_map {B X Y : Type} (p : X → Bool) (y : X → Y) (g : B → Y → Go B) : ∀ (l : List X) (b : B),
    ((l.filter p).map y).foldlM g b = l.foldlM (fun b x => if p x then g b (y x) else .ok b) b
  | [], _ => rfl
  | x :: l, b => by
    rw [List.filter_cons]
    cases hp : p x with
    | false =>
      simp only [Bool.false_eq_true, if_false, List.foldlM_cons, hp]
      exact foldlM_filter_map p y g l b
    | true =>
      simp only [if_true, List.map_cons, List.foldlM_cons, hp]
      congr 1; funext b'
      exact foldlM_filter_map p y g l b'

theorem FMap.eval_whereE (m : FMap K V) (f : K → V → Bool) : m.whereE.eval (fun p => f p.1 p.2) = m.where f := by
  unfold FMap.whereE FMap.where buildMap
  simp only [CB.bind_def, CB.eval_bind, CB.eval_lib, CB.pure_def, CB.eval_done]
  cases m.rangeList with
  | error p => rfl
  | ok vs =>
    simp only [Except.bind, bind]
    rw [foldlM_filter_map, CB.eval_foldlM _ _ (fun b (e : Entry K V) => if f e.key e.value then MapBuilder.put b e.key e.value else .ok b)
      (fun b v => by simp only [CB.eval_bind, CB.eval_ask, Except.bind, CB.eval_ite, CB.eval_lib, CB.eval_done])]
    rfl

theorem FMap.makes_whereE [Inhabited V] {m : FMap K V} (h : m.Valid) : CB.Makes (m.tree.list.map fun e => (e.key, e.value)) m.whereE := by
  unfold FMap.whereE
  rw [FMap.rangeList_spec h]
  simp only [CB.lib_ok, CB.bind_def, CB.done_bind]
  refine CB.MakesV.bind' ?_ (fun _ => trivial)
  refine CB.MakesV.foldlM (fun (b : MapBuilder K V) (e : Entry K V) => (CB.makes_ask (e.key, e.value)).bind' (fun p => ?_)) m.tree.list Tree.zero
  split
  · exact CB.makes_lib _
  · trivial

theorem eval_setGroupByE (s : FSet T) (key : T → K) : (setGroupByE s).eval key = setGroupBy s key := by
  unfold setGroupByE setGroupBy
  simp only [CB.bind_def, CB.eval_bind, CB.eval_lib, CB.pure_def, CB.eval_done]
  cases s.rangeList with
  | error p => rfl
  | ok vs =>
    simp only [Except.bind, bind]
    rw [CB.eval_foldlM key _ (groupStep key) (fun b v => by simp [Except.bind]; rfl)]
    rfl

theorem makes_setGroupByE {s : FSet T} (h : s.Valid) : CB.Makes s.tree.list (setGroupByE s : CB T K (FMap K (FSet T))) := by
  have hr : s.rangeList = .ok s.tree.list := Tree.Valid.rangeList h
  unfold setGroupByE
  rw [hr]
  simp only [CB.lib_ok, CB.bind_def, CB.done_bind]
  refine CB.MakesV.bind' ?_ (fun g => (CB.makes_lib _).bind' (fun _ => (CB.makes_lib _).bind' (fun _ => trivial)))
  simpa using CB.MakesV.foldlM (q := id) (fun (b : Groups K T) x => (CB.makes_ask x).bind' (fun _ => CB.makes_lib _)) s.tree.list
    (⟨(Tree.zero : MapBuilder K Nat), []⟩ : Groups K T)

end Loops

section Reduce2

variable {T : Type} [Inhabited T]

/-- A call of `Reduce`'s function with at least one argument becomes calls of `Reduce2`'s. -/
theorem spends_reduce2 : ∀ (x : CB (List T) T (Option T)) (pool : List T), CB.Spends id pool x →
    CB.Spends (fun p : T × T => [p.1, p.2]) pool (x.wrap (fun elems => match elems with
      | [] => .panic (.msg "index out of range")
      | a :: as => as.foldlM (fun acc e => CB.ask (acc, e)) a)) := by
  intro x
  induction x with
  | done r => exact fun _ h => h
  | panic p => exact fun _ h => h
  | call q k ih =>
    rintro pool ⟨h1, rest, h2, h3⟩
    cases q with
    | nil => exact absurd rfl h1
    | cons a as =>
      simp only [CB.wrap]
      refine CB.Spends.perm ?_ h2.symm
      simp only [id]
      clear h2 h1
      induction as generalizing a with
      | nil => exact ih a _ (h3 a)
      | cons b as ih2 =>
        simp only [List.foldlM_cons, CB.bind_def, CB.ask, CB.call_bind, CB.done_bind]
        exact ⟨by simp, as ++ rest, by simp, fun c => ih2 c⟩

end Reduce2

end Frozen
