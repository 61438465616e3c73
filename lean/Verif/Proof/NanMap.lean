import Verif.Proof.Nan
import Verif.Proof.Map
import Verif.Spec.NanMap

/-! Maps whose keys need not be equal to themselves, in terms of entry lists. -/

set_option linter.unusedSectionVars false

namespace Frozen

section
variable {T : Type} [GoKey T] [PerGoKey T]

/-- The list a merge produces. -/
def combineL (f : T → T → T) (a b : List T) : List T :=
  (a.map fun e => match b.find? (fun x => GoKey.eq x e) with
    | some y => f e y
    | none => e) ++ minusL b a

theorem combineL_step {f : T → T → T} (hf : ClassPres f) (b : List T) (e w : T) :
    GoKey.eq (match b.find? (fun x => GoKey.eq x e) with
      | some y => f e y
      | none => e) w = GoKey.eq e w := by
  cases h : b.find? (fun x => GoKey.eq x e) with
  | none => rfl
  | some y =>
    have hy : GoKey.eq y e = true := by simpa using List.find?_some h
    exact eq_congr_left (hf e y (PerGoKey.symm hy)) w

theorem combineL_step' {f : T → T → T} (hf : ClassPres f) (b : List T) (e w : T) :
    GoKey.eq w (match b.find? (fun x => GoKey.eq x e) with
      | some y => f e y
      | none => e) = GoKey.eq w e := by
  rw [eq_comm w, combineL_step hf, eq_comm]

theorem distinct_map_of {g : T → T} (h1 : ∀ e w, GoKey.eq (g e) w = GoKey.eq e w) (h2 : ∀ e w, GoKey.eq w (g e) = GoKey.eq w e)
    {l : List T} (h : Distinct l) : Distinct (l.map g) := by
  unfold Distinct
  rw [List.pairwise_map]
  exact List.Pairwise.imp (fun {a b} hab => by rw [h1, h2]; exact hab) h

theorem hasL_map_of {g : T → T} (h1 : ∀ e w, GoKey.eq (g e) w = GoKey.eq e w) (l : List T) (w : T) : hasL (l.map g) w = hasL l w := by
  unfold hasL
  rw [List.any_map]
  congr 1
  funext e
  exact h1 e w

theorem nans_map_step {f : T → T → T} (hf : ClassPres f) (b : List T) : ∀ l : List T, nans (l.map fun e => match b.find? (fun x => GoKey.eq x e) with
    | some y => f e y
    | none => e) = nans l
  | [] => rfl
  | e :: l => by
    have ih := nans_map_step hf b l
    unfold nans at ih ⊢
    rw [List.map_cons, List.filter_cons, List.filter_cons, ih, combineL_step hf, combineL_step' hf]
    cases hs : GoKey.eq e e with
    | true => rfl
    | false =>
      have : b.find? (fun x => GoKey.eq x e) = none := by
        rw [List.find?_eq_none]
        intro x _ hx
        rw [eq_self_right hx] at hs; cases hs
      simp [this]

theorem Tree.combine_list {t u : Tree T} (h : t.Valid) (hu : u.Valid) {args : CombineArgs T} (heq : args.eq = GoKey.eq)
    (hf : ClassPres args.f) :
    (ClashLists t.list u.list → t.combine args u = .error .wtf) ∧
    (¬ ClashLists t.list u.list → ∃ t', t.combine args u = .ok t' ∧ t'.Valid ∧ t'.list.Perm (combineL args.f t.list u.list)) := by
  obtain ⟨h1, h2⟩ := Tree.combine_spec h hu heq hf
  rw [← clash_lists h hu]
  refine ⟨h1, fun hc => ?_⟩
  obtain ⟨t', g1, g2, g3⟩ := h2 hc
  refine ⟨t', g1, g2, perm_of_find g2.distinct ?_ (fun w => ?_) ?_⟩
  · refine distinct_append (distinct_map_of (combineL_step hf _) (combineL_step' hf _) h.distinct) (hu.distinct.filter _) ?_
    intro x hx y hy
    obtain ⟨e, he, rfl⟩ := List.mem_map.1 hx
    rw [combineL_step hf]
    rw [minusL, List.mem_filter] at hy
    cases hey : GoKey.eq e y with
    | false => rfl
    | true =>
      have : hasL t.list y = true := hasL_iff.2 ⟨e, he, hey⟩
      rw [this] at hy; simp at hy
  · refine (g3 w).trans ?_
    unfold combineL
    rw [List.find?_append, find?_minusL hu.distinct, List.find?_map, Tree.look_eq_find, Tree.look_eq_find]
    have hcomp : ((fun e => GoKey.eq e w) ∘ fun e => match u.list.find? (fun x => GoKey.eq x e) with
        | some y => args.f e y
        | none => e) = fun e => GoKey.eq e w := by
      funext e; exact combineL_step hf _ e w
    rw [hcomp]
    cases hl : t.list.find? (fun e => GoKey.eq e w) with
    | none => cases u.list.find? (fun e => GoKey.eq e w) <;> rfl
    | some e =>
      have he : GoKey.eq e w = true := by simpa using List.find?_some hl
      simp only [Option.map_some, Option.some_or]
      rw [find?_congr_key he]
      cases u.list.find? (fun e => GoKey.eq e w) <;> rfl
  · unfold combineL
    rw [nans_append, nans_minusL, nans_map_step hf]
    unfold Tree.combine at g1
    cases hn : t.root.isNil with
    | true =>
      simp only [hn, if_true] at g1
      cases g1
      rw [(Tree.isNil_iff_list h).1 hn]; exact .refl _
    | false =>
      cases hn2 : u.root.isNil with
      | true =>
        simp only [hn, hn2, if_true, if_false, Bool.false_eq_true] at g1
        cases g1
        rw [(Tree.isNil_iff_list hu).1 hn2]; simp [nans]
      | false =>
        obtain ⟨r, ms, k1, k2⟩ := (Frozen.combine_spec heq hf t.root 0 u.root h.wf hn hu.wf hn2).2 hc
        simp [hn, hn2, k1, bind, Except.bind, pure, Except.pure] at g1
        cases g1
        exact k2.eff.nans

end

variable {K V : Type} [GoKey K] [PerGoKey K] [Inhabited V]

instance Entry.per : PerGoKey (Entry K V) where
  symm h := PerGoKey.symm (a := Entry.key _) h
  trans h g := PerGoKey.trans (a := Entry.key _) h g
  hash_congr s _ _ h := PerGoKey.hash_congr (a := Entry.key _) s h

theorem eraseK_eq (l : List (Entry K V)) (k : K) (v : V) : eraseK l k = eraseL l ⟨k, v⟩ := rfl

theorem insertK_eq (l : List (Entry K V)) (k : K) (v : V) : insertK l k v = insertL l ⟨k, v⟩ := rfl

theorem getK_isNone (l : List (Entry K V)) (e : Entry K V) : (getK l e.key).isNone = !hasL l e := by
  rw [hasL_eq]
  show (Option.map _ (l.find? fun x => GoKey.eq x.key e.key)).isNone = !(l.find? fun x => GoKey.eq x.key e.key).isSome
  cases l.find? (fun x => GoKey.eq x.key e.key) <;> rfl

theorem minusK_eq (a b : List (Entry K V)) : minusK a b = minusL a b := by
  unfold minusK minusL
  congr 1
  funext e
  exact getK_isNone b e

theorem mergeK_eq (resolve : K → V → V → V) (a b : List (Entry K V)) :
    mergeK resolve a b = combineL (fun x y => ⟨x.key, resolve x.key x.value y.value⟩) a b := by
  unfold mergeK combineL
  rw [minusK_eq]
  congr 2
  funext e
  unfold getK
  cases b.find? (fun x => GoKey.eq x e) <;> rfl

theorem getK_perm {a b : List (Entry K V)} (hd : Distinct a) (h : a.Perm b) (k : K) : getK a k = getK b k := by
  have := hd.find?_perm h (newMapKey k)
  unfold getK
  exact congrArg (Option.map (·.value)) this

theorem FMap.get_list {m : FMap K V} (h : m.tree.Valid) (k : K) : m.get k = .ok (getK m.tree.list k) := by
  unfold FMap.get
  rw [Tree.get_spec h]; rfl

theorem FMap.with_list {m : FMap K V} (h : m.tree.Valid) (k : K) (v : V) :
    ∃ m', m.with k v = .ok m' ∧ m'.tree.Valid ∧ m'.tree.list.Perm (insertK m.tree.list k v) := by
  obtain ⟨t', h1, h2, h3⟩ := Tree.with_list h ⟨k, v⟩
  exact ⟨⟨t'⟩, by simp [FMap.with, h1, bind, Except.bind, pure, Except.pure], h2, h3⟩

theorem FMap.without_list {m : FMap K V} (h : m.tree.Valid) (k : K) :
    ∃ m', m.without k = .ok m' ∧ m'.tree.Valid ∧ m'.tree.list.Perm (eraseK m.tree.list k) := by
  obtain ⟨t', h1, h2, h3⟩ := Tree.without_list h (newMapKey k)
  exact ⟨⟨t'⟩, by simp [FMap.without, h1, bind, Except.bind, pure, Except.pure], h2, h3⟩

theorem foldl_insertK (kvs : List (KeyValue K V)) : ∀ (l : List (Entry K V)),
    kvs.foldl (fun l kv => insertK l kv.key kv.value) l = (kvs.map fun kv => (⟨kv.key, kv.value⟩ : Entry K V)).foldl insertL l := by
  induction kvs with
  | nil => intro l; rfl
  | cons kv kvs ih => intro l; exact ih _

theorem buildMap_list (kvs : List (KeyValue K V)) : ∃ m, buildMap kvs = .ok m ∧ m.tree.Valid ∧
    m.tree.list.Perm (kvs.foldl (fun l kv => insertK l kv.key kv.value) []) := by
  obtain ⟨t', h1, h2, h3⟩ := Builder.addAll_list (kvs.map fun kv => (⟨kv.key, kv.value⟩ : Entry K V)) (t := (Tree.zero : Tree _)) Tree.valid_zero
  refine ⟨⟨t'⟩, ?_, h2, by rw [foldl_insertK]; exact h3⟩
  rw [List.foldlM_map] at h1
  have h1' : kvs.foldlM (fun b kv => MapBuilder.put b kv.key kv.value) (Tree.zero : MapBuilder K V) = .ok t' := h1
  simp only [buildMap, h1', bind, Except.bind, pure, Except.pure, MapBuilder.finish, Builder.finish]

theorem MapBuildOp.runAll_list : ∀ (ops : List (MapBuildOp K V)) {b : MapBuilder K V}, Tree.Valid b →
    ∃ b', ops.foldlM (fun b op => op.run b) b = .ok b' ∧ Tree.Valid b' ∧ (Tree.list b').Perm (ops.foldl MapBuildOp.onList (Tree.list b))
  | [], b, h => ⟨b, rfl, h, .refl _⟩
  | op :: ops, b, h => by
    have : ∃ b1, op.run b = .ok b1 ∧ Tree.Valid b1 ∧ (Tree.list b1).Perm (MapBuildOp.onList (Tree.list b) op) := by
      cases op with
      | put k v => exact Builder.add_list h ⟨k, v⟩
      | remove k => exact Builder.remove_list h (newMapKey k)
    obtain ⟨b1, h1, h2, h3⟩ := this
    obtain ⟨b', g1, g2, g3⟩ := MapBuildOp.runAll_list ops h2
    refine ⟨b', by rw [List.foldlM_cons, h1]; exact g1, g2, g3.trans ?_⟩
    rw [List.foldl_cons]
    have fp : ∀ (ops : List (MapBuildOp K V)) {x y : List (Entry K V)}, x.Perm y → (ops.foldl MapBuildOp.onList x).Perm (ops.foldl MapBuildOp.onList y) := by
      intro ops
      induction ops with
      | nil => intro x y h; exact h
      | cons op ops ih =>
        intro x y h
        refine ih ?_
        cases op with
        | put k v => exact insertL_perm h ⟨k, v⟩
        | remove k => exact h.filter _
    exact fp ops h3

theorem foldl_projectK_perm (a : List (Entry K V)) : ∀ (ks : List K) {x y : List (Entry K V)}, x.Perm y →
    (ks.foldl (projectK a) x).Perm (ks.foldl (projectK a) y)
  | [], _, _, h => h
  | k :: ks, _, _, h => by
    refine foldl_projectK_perm a ks ?_
    unfold projectK
    cases getK a k with
    | none => exact h
    | some v => exact insertL_perm h ⟨k, v⟩

theorem FMap.projectAll_list {m : FMap K V} (h : m.tree.Valid) : ∀ (ks : List K) {b : MapBuilder K V}, Tree.Valid b →
    ∃ b', ks.foldlM m.projectStep b = .ok b' ∧ Tree.Valid b' ∧ (Tree.list b').Perm (ks.foldl (projectK m.tree.list) (Tree.list b))
  | [], b, hb => ⟨b, rfl, hb, .refl _⟩
  | k :: ks, b, hb => by
    have : ∃ b1, m.projectStep b k = .ok b1 ∧ Tree.Valid b1 ∧ (Tree.list b1).Perm (projectK m.tree.list (Tree.list b) k) := by
      unfold FMap.projectStep projectK
      rw [FMap.get_list h]
      cases hg : getK m.tree.list k with
      | none => exact ⟨b, rfl, hb, .refl _⟩
      | some v => exact Builder.add_list hb ⟨k, v⟩
    obtain ⟨b1, h1, h2, h3⟩ := this
    obtain ⟨b', g1, g2, g3⟩ := FMap.projectAll_list h ks h2
    exact ⟨b', by rw [List.foldlM_cons, h1]; exact g1, g2, g3.trans (foldl_projectK_perm _ ks h3)⟩

theorem FMap.project_list {m : FMap K V} (h : m.tree.Valid) (ks : List K) :
    ∃ m', m.project ks = .ok m' ∧ m'.tree.Valid ∧ m'.tree.list.Perm (ks.foldl (projectK m.tree.list) []) := by
  obtain ⟨b', h1, h2, h3⟩ := FMap.projectAll_list h ks (b := (Tree.zero : Tree _)) Tree.valid_zero
  exact ⟨⟨b'⟩, by simp [FMap.project, h1, bind, Except.bind, pure, Except.pure, MapBuilder.finish, Builder.finish], h2, h3⟩

theorem FMap.where_list {m : FMap K V} (h : m.tree.Valid) (pred : K → V → Bool) :
    ∃ m', m.where pred = .ok m' ∧ m'.tree.Valid ∧ m'.tree.list.Perm (m.tree.list.filter fun e => pred e.key e.value) := by
  have hr : m.rangeList = .ok m.tree.list := h.rangeList
  obtain ⟨m', h1, h2, h3⟩ := buildMap_list ((m.tree.list.filter (fun e => pred e.key e.value)).map (fun e => (⟨e.key, e.value⟩ : KeyValue K V)))
  refine ⟨m', by simp only [FMap.where, hr, bind, Except.bind, h1], h2, h3.trans ?_⟩
  rw [foldl_insertK, List.map_map]
  have : ((fun kv : KeyValue K V => (⟨kv.key, kv.value⟩ : Entry K V)) ∘ fun e : Entry K V => ⟨e.key, e.value⟩) = id := rfl
  rw [this, List.map_id, foldl_insertL_distinct _ [] (by simpa using h.distinct.filter _), List.nil_append]

theorem combineL_lhs (a b : List (Entry K V)) : combineL useLHS a b = a ++ minusL b a := by
  unfold combineL
  congr 1
  conv => rhs; rw [← List.map_id a]
  apply List.map_congr_left
  intro e _
  cases b.find? (fun x => GoKey.eq x e) <;> rfl

theorem ClashLists.symm {T : Type} [GoKey T] {a b : List T} (h : ClashLists a b) : ClashLists b a := by
  obtain ⟨x, hx, y, hy, h1, h2, h3, h4⟩ := h
  refine ⟨y, hy, x, hx, h1.symm, ?_, ?_, ?_⟩
  · unfold nearL at *; rw [← h1]; exact h3
  · unfold nearL at *; rw [← h1]; exact h2
  · unfold sameL at *; rw [← h1]; exact h4.symm

theorem FMap.update_list {m n : FMap K V} (h : m.tree.Valid) (hn : n.tree.Valid) :
    (ClashLists m.tree.list n.tree.list → m.update n = .error .wtf) ∧
    (¬ ClashLists m.tree.list n.tree.list → ∃ u, m.update n = .ok u ∧ u.tree.Valid ∧
      u.tree.list.Perm (minusK m.tree.list n.tree.list ++ n.tree.list)) := by
  rw [minusK_eq]
  unfold FMap.update
  by_cases hc : m.count > n.count
  · rw [if_pos hc]
    obtain ⟨h1, h2⟩ := Tree.combine_list hn h (args := ⟨mapEntryKeyEqual, useLHS⟩) rfl (fun a b hab => eq_self_left (a := a) hab)
    refine ⟨fun hx => ?_, fun hx => ?_⟩
    · rw [h1 hx.symm]; rfl
    · obtain ⟨t', g1, g2, g3⟩ := h2 (fun hy => hx hy.symm)
      refine ⟨⟨t'⟩, by simp [g1, bind, Except.bind, pure, Except.pure], g2, g3.trans ?_⟩
      rw [combineL_lhs]
      exact List.perm_append_comm
  · rw [if_neg hc]
    obtain ⟨h1, h2⟩ := Tree.union_list h hn
    refine ⟨fun hx => ?_, fun hx => ?_⟩
    · have : m.tree.combine ⟨mapEntryKeyEqual, useRHS⟩ n.tree = .error .wtf := h1 hx
      rw [this]; rfl
    · obtain ⟨t', g1, g2, g3⟩ := h2 hx
      have : m.tree.combine ⟨mapEntryKeyEqual, useRHS⟩ n.tree = .ok t' := g1
      exact ⟨⟨t'⟩, by simp [this, bind, Except.bind, pure, Except.pure], g2, g3⟩

theorem FMap.merge_list {m n : FMap K V} (h : m.tree.Valid) (hn : n.tree.Valid) (resolve : K → V → V → V) :
    (ClashLists m.tree.list n.tree.list → m.merge n resolve = .error .wtf) ∧
    (¬ ClashLists m.tree.list n.tree.list → ∃ u, m.merge n resolve = .ok u ∧ u.tree.Valid ∧
      u.tree.list.Perm (mergeK resolve m.tree.list n.tree.list)) := by
  obtain ⟨h1, h2⟩ := Tree.combine_list h hn
    (args := ⟨mapEntryKeyEqual, fun a b => ⟨a.key, resolve a.key a.value b.value⟩⟩) rfl (fun a b hab => eq_self_left (a := a) hab)
  rw [mergeK_eq]
  unfold FMap.merge
  refine ⟨fun hx => ?_, fun hx => ?_⟩
  · rw [h1 hx]; rfl
  · obtain ⟨t', g1, g2, g3⟩ := h2 hx
    exact ⟨⟨t'⟩, by simp [g1, bind, Except.bind, pure, Except.pure], g2, g3⟩

theorem ok_of_or {α : Type} {P : Prop} {r : Go α} {Q : α → Prop} (h1 : P → r = .error .wtf) (h2 : ¬ P → ∃ u, r = .ok u ∧ Q u) {x : α}
    (hx : r = .ok x) : Q x := by
  by_cases hp : P
  · rw [h1 hp] at hx; cases hx
  · obtain ⟨u, g1, g2⟩ := h2 hp
    rw [g1] at hx; cases hx; exact g2

theorem MapProg.run_list : ∀ (p : MapProg K V) {m : FMap K V}, p.run = .ok m → m.tree.Valid ∧ p.Entries m.tree.list
  | .newMap kvs, s, h => by
    obtain ⟨s', h1, h2, h3⟩ := buildMap_list kvs
    have : (MapProg.newMap kvs).run = .ok s' := h1
    rw [this] at h; cases h
    exact ⟨h2, h3⟩
  | .build ops, s, h => by
    obtain ⟨b', h1, h2, h3⟩ := MapBuildOp.runAll_list ops (b := (Tree.zero : Tree _)) Tree.valid_zero
    simp only [MapProg.run, h1, bind, Except.bind, pure, Except.pure, MapBuilder.finish, Builder.finish] at h
    cases h
    exact ⟨h2, h3⟩
  | .with p k v, s, h => by
    cases hp : p.run with
    | error e => simp [MapProg.run, hp, bind, Except.bind] at h
    | ok a =>
      obtain ⟨ha, hd⟩ := MapProg.run_list p hp
      obtain ⟨s', h1, h2, h3⟩ := FMap.with_list ha k v
      simp only [MapProg.run, hp, bind, Except.bind, h1] at h; cases h
      exact ⟨h2, _, hd, h3⟩
  | .without p k, s, h => by
    cases hp : p.run with
    | error e => simp [MapProg.run, hp, bind, Except.bind] at h
    | ok a =>
      obtain ⟨ha, hd⟩ := MapProg.run_list p hp
      obtain ⟨s', h1, h2, h3⟩ := FMap.without_list ha k
      simp only [MapProg.run, hp, bind, Except.bind, h1] at h; cases h
      exact ⟨h2, _, hd, h3⟩
  | .project p ks, s, h => by
    cases hp : p.run with
    | error e => simp [MapProg.run, hp, bind, Except.bind] at h
    | ok a =>
      obtain ⟨ha, hd⟩ := MapProg.run_list p hp
      obtain ⟨s', h1, h2, h3⟩ := FMap.project_list ha ks
      simp only [MapProg.run, hp, bind, Except.bind, h1] at h; cases h
      exact ⟨h2, _, hd, h3⟩
  | .where p pred _, s, h => by
    cases hp : p.run with
    | error e => simp [MapProg.run, hp, bind, Except.bind] at h
    | ok a =>
      obtain ⟨ha, hd⟩ := MapProg.run_list p hp
      obtain ⟨s', h1, h2, h3⟩ := FMap.where_list ha pred
      simp only [MapProg.run, hp, bind, Except.bind, h1] at h; cases h
      exact ⟨h2, _, hd, h3⟩
  | .update p q, s, h => by
    cases hp : p.run with
    | error e => simp [MapProg.run, hp, bind, Except.bind] at h
    | ok a =>
      cases hq : q.run with
      | error e => simp [MapProg.run, hp, hq, bind, Except.bind] at h
      | ok b =>
        obtain ⟨ha, hd⟩ := MapProg.run_list p hp
        obtain ⟨hb, hd2⟩ := MapProg.run_list q hq
        simp only [MapProg.run, hp, hq, bind, Except.bind] at h
        obtain ⟨k1, k2⟩ := FMap.update_list ha hb
        obtain ⟨g1, g2⟩ := ok_of_or k1 k2 h
        exact ⟨g1, _, _, hd, hd2, g2⟩
  | .merge p q resolve _, s, h => by
    cases hp : p.run with
    | error e => simp [MapProg.run, hp, bind, Except.bind] at h
    | ok a =>
      cases hq : q.run with
      | error e => simp [MapProg.run, hp, hq, bind, Except.bind] at h
      | ok b =>
        obtain ⟨ha, hd⟩ := MapProg.run_list p hp
        obtain ⟨hb, hd2⟩ := MapProg.run_list q hq
        simp only [MapProg.run, hp, hq, bind, Except.bind] at h
        obtain ⟨k1, k2⟩ := FMap.merge_list ha hb resolve
        obtain ⟨g1, g2⟩ := ok_of_or k1 k2 h
        exact ⟨g1, _, _, hd, hd2, g2⟩

theorem MapProg.run_total : ∀ (p : MapProg K V), p.NoMerge → ∃ m, p.run = .ok m
  | .newMap kvs, _ => ⟨_, (buildMap_list kvs).choose_spec.1⟩
  | .build ops, _ => by
    obtain ⟨b', h1, _⟩ := MapBuildOp.runAll_list ops (b := (Tree.zero : Tree _)) Tree.valid_zero
    exact ⟨_, by simp only [MapProg.run, h1, bind, Except.bind, pure, Except.pure]; rfl⟩
  | .with p k v, h => by
    obtain ⟨a, ha⟩ := MapProg.run_total p h
    obtain ⟨s', h1, _⟩ := FMap.with_list (MapProg.run_list p ha).1 k v
    exact ⟨s', by simp only [MapProg.run, ha, bind, Except.bind, h1]⟩
  | .without p k, h => by
    obtain ⟨a, ha⟩ := MapProg.run_total p h
    obtain ⟨s', h1, _⟩ := FMap.without_list (MapProg.run_list p ha).1 k
    exact ⟨s', by simp only [MapProg.run, ha, bind, Except.bind, h1]⟩
  | .where p f _, h => by
    obtain ⟨a, ha⟩ := MapProg.run_total p h
    obtain ⟨s', h1, _⟩ := FMap.where_list (MapProg.run_list p ha).1 f
    exact ⟨s', by simp only [MapProg.run, ha, bind, Except.bind, h1]⟩
  | .project p ks, h => by
    obtain ⟨a, ha⟩ := MapProg.run_total p h
    obtain ⟨s', h1, _⟩ := FMap.project_list (MapProg.run_list p ha).1 ks
    exact ⟨s', by simp only [MapProg.run, ha, bind, Except.bind, h1]⟩
  | .update _ _, h => h.elim
  | .merge _ _ _ _, h => h.elim

theorem FMap.equal_list [GoKey V] {m n : FMap K V} (h : m.tree.Valid) (hn : n.tree.Valid) :
    ∃ b, m.equal n = .ok b ∧ (b = true ↔ m.tree.list.length = n.tree.list.length ∧
      ∀ e ∈ m.tree.list, ∃ x ∈ n.tree.list, GoKey.eq e.key x.key = true ∧ GoKey.eq e.value x.value = true) := by
  obtain ⟨b, h1, h2⟩ := Tree.equal_spec h hn (eqv := mapEntryEqual) (fun a b hab => by
    simp only [mapEntryEqual, Bool.and_eq_true] at hab; exact hab.1)
  refine ⟨b, h1, h2.trans ?_⟩
  simp only [mapEntryEqual, Bool.and_eq_true]

end Frozen
