import Verif.Model.SetExtra
import Verif.Proof.Map
import Verif.Proof.SetElems
import Verif.Proof.SetMore

/-! # Sets and maps as elements; SetGroupBy -/

set_option linter.unusedSectionVars false

namespace Frozen

section
variable {T : Type} [GoKey T] [LawfulGoKey T] [GoHash]

theorem SetVal.eq_iff (s t : SetVal T) : GoKey.eq s t = true ↔ ∀ w, s.Mem w ↔ t.Mem w := by
  obtain ⟨b, h1, h2⟩ := FSet.equal_spec s.2.valid t.2.valid
  have : GoKey.eq s t = b := by simp only [GoKey.eq, h1]
  rw [this]; exact h2

theorem SetVal.hash_eq (s : SetVal T) (seed : BitVec 64) : s.1.hash seed = .ok (GoKey.hash seed s) := by
  simp only [GoKey.hash, FSet.hash_spec s.2.valid]

instance : LawfulGoKey (SetVal T) where
  refl a := (SetVal.eq_iff a a).2 (fun _ => Iff.rfl)
  symm h := (SetVal.eq_iff _ _).2 (fun w => ((SetVal.eq_iff _ _).1 h w).symm)
  trans h g := (SetVal.eq_iff _ _).2 (fun w => ((SetVal.eq_iff _ _).1 h w).trans ((SetVal.eq_iff _ _).1 g w))
  hash_congr seed a b h := by
    have := FSet.hash_ext a.2.valid b.2.valid ((SetVal.eq_iff a b).1 h) seed
    rw [SetVal.hash_eq, SetVal.hash_eq] at this
    exact Except.ok.inj this

end

theorem SameVal.refl {V : Type} [GoKey V] [LawfulGoKey V] : ∀ a : Option V, SameVal a a
  | none => trivial
  | some a => LawfulGoKey.refl a

theorem SameVal.symm {V : Type} [GoKey V] [LawfulGoKey V] : ∀ {a b : Option V}, SameVal a b → SameVal b a
  | none, none, _ => trivial
  | some _, some _, h => PerGoKey.symm h

theorem SameVal.trans {V : Type} [GoKey V] [LawfulGoKey V] : ∀ {a b c : Option V}, SameVal a b → SameVal b c → SameVal a c
  | none, none, none, _, _ => trivial
  | some _, some _, some _, h, g => PerGoKey.trans h g

section
variable {K V : Type} [GoKey K] [LawfulGoKey K] [GoKey V] [LawfulGoKey V] [Inhabited V] [GoHash]

theorem MapVal.eq_iff (m n : MapVal K V) : GoKey.eq m n = true ↔ ∀ k, SameVal (m.1.tree.lk k) (n.1.tree.lk k) := by
  obtain ⟨b, h1, h2⟩ := FMap.equal_spec m.2.valid n.2.valid
  have : GoKey.eq m n = b := by simp only [GoKey.eq, h1]
  rw [this]; exact h2

theorem MapVal.hash_eq (m : MapVal K V) (seed : BitVec 64) : m.1.hash seed = .ok (GoKey.hash seed m) := by
  simp only [GoKey.hash, FMap.hash_spec m.2.valid]

instance : LawfulGoKey (MapVal K V) where
  refl a := (MapVal.eq_iff a a).2 (fun _ => SameVal.refl _)
  symm h := (MapVal.eq_iff _ _).2 (fun w => ((MapVal.eq_iff _ _).1 h w).symm)
  trans h g := (MapVal.eq_iff _ _).2 (fun w => ((MapVal.eq_iff _ _).1 h w).trans ((MapVal.eq_iff _ _).1 g w))
  hash_congr seed a b h := by
    have := FMap.hash_ext a.2.valid b.2.valid ((MapVal.eq_iff a b).1 h) seed
    rw [MapVal.hash_eq, MapVal.hash_eq] at this
    exact Except.ok.inj this

end

/-! ### SetGroupBy -/

section
variable {T K : Type} [GoKey T] [LawfulGoKey T] [GoKey K] [LawfulGoKey K]

/-- The elements with key `k`. -/
def withKey (key : T → K) (k : K) (es : List T) : List T := es.filter (fun e => GoKey.eq (key e) k)

theorem withKey_congr (key : T → K) {k k' : K} (h : GoKey.eq k k' = true) (es : List T) : withKey key k es = withKey key k' es := by
  unfold withKey
  apply List.filter_congr
  intro e _
  rw [Bool.eq_iff_iff]
  exact ⟨fun g => PerGoKey.trans g h, fun g => PerGoKey.trans g (PerGoKey.symm h)⟩

theorem withKey_snoc (key : T → K) (k : K) (es : List T) (v : T) :
    withKey key k (es ++ [v]) = if GoKey.eq (key v) k = true then withKey key k es ++ [v] else withKey key k es := by
  unfold withKey
  rw [List.filter_append]
  by_cases h : GoKey.eq (key v) k = true
  · rw [if_pos h, List.filter_cons_of_pos (by exact h)]; rfl
  · rw [if_neg h, List.filter_cons_of_neg (by exact h)]; simp

/-- Invariant of the first loop. -/
structure GroupsOk (key : T → K) (done : List T) (g : Groups K T) : Prop where
  valid : Tree.Valid g.builders
  none_iff : ∀ k, Tree.lk g.builders k = none → withKey key k done = []
  some_iff : ∀ k p, Tree.lk g.builders k = some p → withKey key k done ≠ [] ∧
    ∃ b, g.heap[p]? = some b ∧ (withKey key k done).foldlM (fun b v => SetBuilder.add b v) (Tree.zero : SetBuilder T) = .ok b ∧ Tree.Valid b
  inj : ∀ k k' p, Tree.lk g.builders k = some p → Tree.lk g.builders k' = some p → GoKey.eq k k' = true

theorem groupStep_spec (key : T → K) {done : List T} {g : Groups K T} (h : GroupsOk key done g) (v : T) :
    ∃ g', groupStep key g v = .ok g' ∧ GroupsOk key (done ++ [v]) g' := by
  unfold groupStep
  simp only [MapBuilder.get_spec h.valid]
  cases hk : Tree.lk g.builders (key v) with
  | some p =>
    obtain ⟨hne, b, hb1, hb2, hb3⟩ := h.some_iff _ _ hk
    obtain ⟨b', ha1, ha2, _, _⟩ := Builder.add_spec hb3 v
    have ha1 : SetBuilder.add b v = .ok b' := ha1
    refine ⟨⟨g.builders, g.heap.set p b'⟩, ?_, h.valid, ?_, ?_, h.inj⟩
    · simp only [bind, Except.bind, pure, Except.pure, hb1, ha1]
    · intro k hkn
      rw [withKey_snoc]
      by_cases he : GoKey.eq (key v) k = true
      · rw [Tree.lk_congr _ he, hkn] at hk; cases hk
      · rw [if_neg he]; exact h.none_iff k hkn
    · intro k q hkq
      obtain ⟨k1, c, k2, k3, k4⟩ := h.some_iff k q hkq
      rw [withKey_snoc]
      by_cases he : GoKey.eq (key v) k = true
      · have hq : q = p := by rw [Tree.lk_congr _ he, hkq] at hk; exact Option.some.inj hk
        subst hq
        rw [if_pos he]
        refine ⟨by simp, b', ?_, ?_, ha2⟩
        · rw [List.getElem?_set]
          have : q < g.heap.length := by
            by_contra hc
            rw [List.getElem?_eq_none (by omega)] at hb1; cases hb1
          simp [this]
        · rw [← withKey_congr key he, List.foldlM_append, hb2]
          simp only [bind, Except.bind, List.foldlM_cons, ha1, List.foldlM_nil, pure, Except.pure]
      · rw [if_neg he]
        have hq : p ≠ q := by
          rintro rfl
          exact he (h.inj _ _ _ hk hkq)
        refine ⟨k1, c, ?_, k3, k4⟩
        show (g.heap.set p b')[q]? = some c
        rw [List.getElem?_set_ne hq]; exact k2
  | none =>
    obtain ⟨bs, hp1, hp2, hp3⟩ := MapBuilder.put_spec h.valid (key v) g.heap.length
    obtain ⟨b', ha1, ha2, _, _⟩ := Builder.add_spec (t := (Tree.zero : Builder T)) Tree.valid_zero v
    have ha1 : SetBuilder.add (Tree.zero : SetBuilder T) v = .ok b' := ha1
    have hlt : ∀ k p, Tree.lk g.builders k = some p → p < g.heap.length := by
      intro k p hkp
      obtain ⟨_, c, k2, _, _⟩ := h.some_iff k p hkp
      by_contra hc
      rw [List.getElem?_eq_none (by omega)] at k2; cases k2
    have hget : (g.heap ++ [(Tree.zero : SetBuilder T)])[g.heap.length]? = some Tree.zero := by simp
    refine ⟨⟨bs, (g.heap ++ [(Tree.zero : SetBuilder T)]).set g.heap.length b'⟩, ?_, hp2, ?_, ?_, ?_⟩
    · simp only [bind, Except.bind, pure, Except.pure, hp1, hget, ha1]
    · intro k hkn
      rw [hp3] at hkn
      unfold setKey at hkn
      rw [withKey_snoc]
      by_cases he : GoKey.eq (key v) k = true
      · rw [if_pos he] at hkn; cases hkn
      · rw [if_neg he] at hkn ⊢; exact h.none_iff k hkn
    · intro k q hkq
      rw [hp3] at hkq
      unfold setKey at hkq
      rw [withKey_snoc]
      by_cases he : GoKey.eq (key v) k = true
      · rw [if_pos he] at hkq ⊢
        cases hkq
        refine ⟨by simp, b', ?_, ?_, ha2⟩
        · show ((g.heap ++ [(Tree.zero : SetBuilder T)]).set g.heap.length b')[g.heap.length]? = some b'
          rw [List.getElem?_set]; simp
        · rw [← withKey_congr key he, h.none_iff _ hk]
          simp only [List.nil_append, List.foldlM_cons, ha1, List.foldlM_nil, pure, Except.pure, bind, Except.bind]
      · rw [if_neg he] at hkq ⊢
        obtain ⟨k1, c, k2, k3, k4⟩ := h.some_iff k q hkq
        refine ⟨k1, c, ?_, k3, k4⟩
        show ((g.heap ++ [(Tree.zero : SetBuilder T)]).set g.heap.length b')[q]? = some c
        have := hlt k q hkq
        rw [List.getElem?_set_ne (by omega), List.getElem?_append_left this]; exact k2
    · intro k k' p h1 h2
      rw [hp3] at h1 h2
      unfold setKey at h1 h2
      by_cases he : GoKey.eq (key v) k = true <;> by_cases he' : GoKey.eq (key v) k' = true
      · exact PerGoKey.trans (PerGoKey.symm he) he'
      · rw [if_pos he] at h1; rw [if_neg he'] at h2; cases h1
        have := hlt k' _ h2; omega
      · rw [if_neg he] at h1; rw [if_pos he'] at h2; cases h2
        have := hlt k _ h1; omega
      · rw [if_neg he] at h1; rw [if_neg he'] at h2
        exact h.inj k k' p h1 h2

theorem groupSteps_spec (key : T → K) : ∀ (vs done : List T) (g : Groups K T), GroupsOk key done g →
    ∃ g', vs.foldlM (groupStep key) g = .ok g' ∧ GroupsOk key (done ++ vs) g'
  | [], done, g, h => ⟨g, rfl, by simpa using h⟩
  | v :: vs, done, g, h => by
    obtain ⟨g1, h1, h2⟩ := groupStep_spec key h v
    obtain ⟨g', h3, h4⟩ := groupSteps_spec key vs _ g1 h2
    exact ⟨g', by rw [List.foldlM_cons, h1]; exact h3, by simpa using h4⟩

theorem groupFinish_fold (B : Nat → SetBuilder T) : ∀ (es : List (Entry K Nat)) (r : MapBuilder K (FSet T)) (heap : List (SetBuilder T)),
    (es.map (·.value)).Nodup → (∀ e ∈ es, heap[e.value]? = some (B e.value)) →
    (do let st ← es.foldlM groupFinish (r, heap); pure st.1) =
      (es.map (fun e => (⟨e.key, ⟨B e.value⟩⟩ : KeyValue K (FSet T)))).foldlM (fun b kv => MapBuilder.put b kv.key kv.value) r
  | [], r, heap, _, _ => rfl
  | e :: es, r, heap, hn, hb => by
    rw [List.map_cons, List.nodup_cons] at hn
    rw [List.foldlM_cons, List.map_cons, List.foldlM_cons]
    have he := hb e (by simp)
    have hf : ∀ b : SetBuilder T, SetBuilder.finish b = (⟨b⟩, Tree.zero) := fun b => rfl
    cases hp : MapBuilder.put r e.key (⟨B e.value⟩ : FSet T) with
    | error err => simp only [groupFinish, he, hf, hp, bind, Except.bind]
    | ok r' =>
      have ih := groupFinish_fold B es r' (heap.set e.value Tree.zero) hn.2 (by
        intro x hx
        rw [List.getElem?_set_ne]
        · exact hb x (by simp [hx])
        · intro hc; exact hn.1 (hc ▸ List.mem_map_of_mem hx))
      simp only [groupFinish, he, hf, hp, bind, Except.bind, pure, Except.pure] at ih ⊢
      exact ih

/-- What `SetGroupBy` returns: under each key, the set built from the elements with that key. -/
theorem setGroupBy_spec {s : FSet T} (hs : s.Valid) (key : T → K) :
    ∃ m, setGroupBy s key = .ok m ∧ m.Valid ∧ ∃ kvs, newMap kvs = .ok m ∧
      ∀ k, (withKey key k s.tree.list = [] → m.tree.lk k = none) ∧
        (withKey key k s.tree.list ≠ [] → ∃ g, m.tree.lk k = some g ∧ newSet (withKey key k s.tree.list) = .ok g) := by
  obtain ⟨g, h1, h2⟩ := groupSteps_spec key s.tree.list [] ⟨(Tree.zero : MapBuilder K Nat), []⟩
    ⟨Tree.valid_zero, fun _ _ => rfl, fun k p hk => (nomatch hk), fun k k' p hk => (nomatch hk)⟩
  rw [List.nil_append] at h2
  let B : Nat → SetBuilder T := fun p => (g.heap[p]?).getD Tree.zero
  have hfb : (⟨g.builders⟩ : FMap K Nat).Valid := h2.valid
  have hlk : ∀ e ∈ (Tree.list g.builders), Tree.lk g.builders e.key = some e.value := fun e he =>
    (Tree.lk_some h2.valid).2 ⟨e, he, LawfulGoKey.refl _, rfl⟩
  have hd : Distinct (Tree.list g.builders) := h2.valid.distinct
  have hnod : ((Tree.list g.builders).map (·.value)).Nodup := by
    unfold List.Nodup
    rw [List.pairwise_map]
    refine List.Pairwise.imp_of_mem (fun {a b} ha hb hab => ?_) hd
    intro hv
    have hab : GoKey.eq a.key b.key = false := hab
    have := h2.inj a.key b.key a.value (hlk a ha) (by rw [hlk b hb, hv])
    rw [this] at hab; cases hab
  have hB : ∀ e ∈ (Tree.list g.builders), g.heap[e.value]? = some (B e.value) := by
    intro e he
    obtain ⟨_, b, hb, _⟩ := h2.some_iff _ _ (hlk e he)
    show _ = some ((g.heap[e.value]?).getD Tree.zero)
    rw [hb]; rfl
  have hfold := groupFinish_fold B (Tree.list g.builders) (Tree.zero : MapBuilder K (FSet T)) g.heap hnod hB
  have hdE : Distinct ((Tree.list g.builders).map (fun e => (⟨e.key, ⟨B e.value⟩⟩ : Entry K (FSet T)))) := by
    unfold Distinct
    rw [List.pairwise_map]
    exact hd
  obtain ⟨m, m1, m2, m3⟩ := buildMap_distinct hdE
  rw [List.map_map] at m1
  have hcomp : (fun e : Entry K (FSet T) => (⟨e.key, e.value⟩ : KeyValue K (FSet T))) ∘
      (fun e : Entry K Nat => (⟨e.key, ⟨B e.value⟩⟩ : Entry K (FSet T))) = (fun e => ⟨e.key, ⟨B e.value⟩⟩) := rfl
  rw [hcomp] at m1
  refine ⟨m, ?_, m2, _, m1, fun k => ?_⟩
  · unfold setGroupBy
    rw [FSet.rangeList_spec hs]
    simp only [bind, Except.bind]
    rw [h1]
    have hr : (MapBuilder.finish g.builders).1.rangeList = .ok (Tree.list g.builders) := FMap.rangeList_spec hfb
    simp only [hr]
    unfold buildMap at m1
    rw [← hfold] at m1
    simp only [bind, Except.bind, pure, Except.pure] at m1 ⊢
    cases hf : (Tree.list g.builders).foldlM groupFinish ((Tree.zero : MapBuilder K (FSet T)), g.heap) with
    | error e => rw [hf] at m1; cases m1
    | ok st => rw [hf] at m1; exact m1
  · have hk : m.tree.lk k = (Tree.lk g.builders k).map (fun p => (⟨B p⟩ : FSet T)) := by
      rw [m3, List.find?_map, Tree.lk_find]
      have : (fun e : Entry K (FSet T) => GoKey.eq e.key k) ∘ (fun e : Entry K Nat => (⟨e.key, ⟨B e.value⟩⟩ : Entry K (FSet T))) =
        (fun e => GoKey.eq e.key k) := rfl
      rw [this]
      cases (Tree.list g.builders).find? (fun e => GoKey.eq e.key k) <;> rfl
    rw [hk]
    cases hl : Tree.lk g.builders k with
    | none =>
      have := h2.none_iff k hl
      exact ⟨fun _ => rfl, fun hc => absurd this hc⟩
    | some p =>
      obtain ⟨g1, b, g2, g3, g4⟩ := h2.some_iff k p hl
      refine ⟨fun hc => absurd hc g1, fun _ => ⟨⟨B p⟩, rfl, ?_⟩⟩
      have hBp : B p = b := by show (g.heap[p]?).getD Tree.zero = b; rw [g2]; rfl
      rw [hBp]
      show buildSet _ = _
      unfold buildSet
      rw [g3]; rfl

end

end Frozen
