import Verif.Model.SetExtra

/-!
# Relations: `pkg/rel/relation.go`

Go's attribute names (`string`) are an arbitrary key type `A`, attribute values (`any`) an arbitrary element type `V`. A `Tuple` is a
`Map[string, any]` the API can produce. Callbacks passed to `SetMap`, `SetGroupBy` and `MapMap` may panic here, so these functions
appear again with callbacks into `Go`. The calls of `log.Print` in `Nest` are not modelled.
-/

namespace Frozen

section
variable {T U K : Type} [GoKey T] [GoKey U] [GoKey K]

/-- set.go:217-219 `SetMap` with tree.go:143-155 `Map`, for a callback that may panic. -/
def setMapM (s : FSet T) (f : T → Go U) : Go (FSet U) :=
  if s.tree.root.isNil then .ok FSet.zero
  else do
    let vs ← s.rangeList
    let b ← vs.foldlM (fun b v => do let u ← f v; SetBuilder.add b u) (Tree.zero : SetBuilder U)
    pure (SetBuilder.finish b).1

/-- set.go:340-349, the body of the first loop of `SetGroupBy`, for a callback that may panic. -/
def groupStepM (key : T → Go K) (g : Groups K T) (v : T) : Go (Groups K T) := do
  let k ← key v
  groupStep (fun _ => k) g v

/-- set.go:337-357 `SetGroupBy`, for a callback that may panic. -/
def setGroupByM (s : FSet T) (key : T → Go K) : Go (FMap K (FSet T)) := do
  let vs ← s.rangeList
  let g ← vs.foldlM (groupStepM key) ⟨(Tree.zero : MapBuilder K Nat), []⟩
  let fb := (MapBuilder.finish g.builders).1
  let es ← fb.rangeList
  let st ← es.foldlM groupFinish ((Tree.zero : MapBuilder K (FSet T)), g.heap)
  pure (MapBuilder.finish st.1).1

/-- map.go:166-173 `MapMap`, for a callback that may panic. -/
def mapMapM {V W : Type} (m : FMap K V) (f : K → V → Go W) : Go (FMap K W) := do
  let es ← m.rangeList
  let b ← es.foldlM (fun b e => do let w ← f e.key e.value; MapBuilder.put b e.key w) (Tree.zero : MapBuilder K W)
  pure (MapBuilder.finish b).1

omit [GoKey T] in
/-- A builder filled by a loop of `Add` calls. -/
theorem foldlM_add_list (f : T → Go U) : ∀ (vs : List T) (us : List U) (b0 b : SetBuilder U),
    us.foldlM (fun b v => SetBuilder.add b v) (Tree.zero : SetBuilder U) = .ok b0 →
    vs.foldlM (fun b v => do let u ← f v; SetBuilder.add b u) b0 = .ok b →
    ∃ us' : List U, us'.foldlM (fun b v => SetBuilder.add b v) (Tree.zero : SetBuilder U) = .ok b
  | [], us, b0, b, h0, h => ⟨us, by rw [h0]; exact h⟩
  | v :: vs, us, b0, b, h0, h => by
    rw [List.foldlM_cons] at h
    cases hf : f v with
    | error e => simp only [hf, bind, Except.bind] at h; cases h
    | ok u =>
      simp only [hf, bind, Except.bind] at h
      cases ha : SetBuilder.add b0 u with
      | error e => simp only [ha] at h; cases h
      | ok b1 =>
        simp only [ha] at h
        exact foldlM_add_list f vs (us ++ [u]) b1 b
          (by rw [List.foldlM_append, h0]; simp only [bind, Except.bind, List.foldlM_cons, ha, List.foldlM_nil, pure, Except.pure]) h

/-- `SetMap` returns a set the API can produce. -/
theorem setMapM_reachable {s : FSet T} {f : T → Go U} {r : FSet U} (h : setMapM s f = .ok r) : r.Reachable := by
  unfold setMapM at h
  split at h
  · cases h; exact ⟨.newSet [], rfl⟩
  · cases hv : s.rangeList with
    | error e => simp only [hv, bind, Except.bind] at h; cases h
    | ok vs =>
      simp only [hv, bind, Except.bind] at h
      cases hb : vs.foldlM (fun b v => do let u ← f v; SetBuilder.add b u) (Tree.zero : SetBuilder U) with
      | error e => simp only [bind, Except.bind] at hb; simp only [hb] at h; cases h
      | ok b =>
        obtain ⟨us, hus⟩ := foldlM_add_list f vs [] Tree.zero b rfl hb
        simp only [bind, Except.bind] at hb
        simp only [hb] at h
        refine ⟨.newSet us, ?_⟩
        show (do let b ← us.foldlM (fun b v => SetBuilder.add b v) (Tree.zero : SetBuilder U); pure (SetBuilder.finish b).1) = .ok r
        rw [hus]
        exact h

/-- A call returning a set, seen as a value of the element type `Set[T]`. -/
def SetVal.lift (r : Go (FSet T)) (h : ∀ s, r = .ok s → s.Reachable) : Go (SetVal T) :=
  match r, h with
  | .ok s, h => .ok ⟨s, h s rfl⟩
  | .error e, _ => .error e

/-- A call returning a map, seen as a value of the element type `Map[K, V]`. -/
def MapVal.lift {V : Type} [Inhabited V] (r : Go (FMap K V)) (h : ∀ m, r = .ok m → m.Reachable) : Go (MapVal K V) :=
  match r, h with
  | .ok m, h => .ok ⟨m, h m rfl⟩
  | .error e, _ => .error e

end

/-- The zero value of `Set[T]` as an element type. -/
instance instInhabitedSetVal {T : Type} [GoKey T] : Inhabited (SetVal T) := ⟨SetVal.empty⟩

/-- relation.go:10 `Tuple` -/
abbrev Tuple (A V : Type) [GoKey A] [Inhabited V] := MapVal A V

/-- relation.go:11 `Relation` -/
abbrev Rel (A V : Type) [GoKey A] [Inhabited V] := FSet (Tuple A V)

variable {A V : Type} [GoKey A] [Inhabited V]

/-- The zero `Tuple{}`; relation.go:15-17 `NewTuple()` without arguments. -/
def Tuple.empty : Tuple A V := ⟨FMap.zero, .newMap [], rfl⟩

/-- map.go:71-74 `With` on tuples. -/
def Tuple.with (t : Tuple A V) (a : A) (v : V) : Go (Tuple A V) :=
  MapVal.lift (t.1.with a v) (fun m h => by
    obtain ⟨p, hp⟩ := t.2
    exact ⟨.with p a v, by simp only [MapProg.run, hp, bind, Except.bind]; exact h⟩)

/-- map.go:78-81 `Without` on tuples. -/
def Tuple.without (t : Tuple A V) (a : A) : Go (Tuple A V) :=
  MapVal.lift (t.1.without a) (fun m h => by
    obtain ⟨p, hp⟩ := t.2
    exact ⟨.without p a, by simp only [MapProg.run, hp, bind, Except.bind]; exact h⟩)

/-- map.go:143-151 `Project` on tuples. -/
def Tuple.project (t : Tuple A V) (attrs : List A) : Go (Tuple A V) :=
  MapVal.lift (t.1.project attrs) (fun m h => by
    obtain ⟨p, hp⟩ := t.2
    exact ⟨.project p attrs, by simp only [MapProg.run, hp, bind, Except.bind]; exact h⟩)

/-- map.go:204-212 `Update` on tuples. -/
def Tuple.update (t u : Tuple A V) : Go (Tuple A V) :=
  MapVal.lift (t.1.update u.1) (fun m h => by
    obtain ⟨p, hp⟩ := t.2
    obtain ⟨q, hq⟩ := u.2
    exact ⟨.update p q, by simp only [MapProg.run, hp, hq, bind, Except.bind]; exact h⟩)

variable [GoKey V] [GoHash]

/-- relation.go:19 `trueSet` -/
def trueSet : Go (Rel A V) := newSet [(Tuple.empty : Tuple A V)]

/-- relation.go:28-31: a row as a tuple. Header and row have the same length here. -/
def rowTuple (header : List A) (row : List V) : Go (Tuple A V) :=
  (header.zip row).foldlM (fun t hv => t.with hv.1 hv.2) (Tuple.empty : Tuple A V)

/-- relation.go:24-33: the loop body of `New`. -/
def relNewStep (header : List A) (r : Rel A V) (row : List V) : Go (Rel A V) :=
  if row.length ≠ header.length then .error (.msg "header/row size mismatch")
  else do
    let t ← rowTuple header row
    r.with t

/-- relation.go:22-35 `New` -/
def relNew (header : List A) (rows : List (List V)) : Go (Rel A V) := rows.foldlM (relNewStep header) FSet.zero

/-- relation.go:38-42 `Project` -/
def relProject (s : Rel A V) (attrs : List A) : Go (Rel A V) := setMapM s (fun t => t.project attrs)

/-- relation.go:105-113 `buildCartesianProduct` -/
def buildCartesianProduct (b : SetBuilder (Tuple A V)) (t : Tuple A V) : List (Rel A V) → Go (SetBuilder (Tuple A V))
  | [] => SetBuilder.add b t
  | r :: rs => do
    let vs ← r.rangeList
    vs.foldlM (fun b v => do let t' ← t.update v; buildCartesianProduct b t' rs) b

/-- relation.go:99-103 `CartesianProduct` -/
def cartesianProduct (rs : List (Rel A V)) : Go (Rel A V) := do
  let b ← buildCartesianProduct (Tree.zero : SetBuilder (Tuple A V)) Tuple.empty rs
  pure (SetBuilder.finish b).1

/-- relation.go:84-95: the loop body of `join`. -/
def joinStep (sGroup tGroup : FMap (Tuple A V) (Rel A V)) (rb : SetBuilder (Tuple A V)) (key : Tuple A V) :
    Go (SetBuilder (Tuple A V)) := do
  match ← sGroup.get key with
  | none => .error (.msg "wat?")
  | some a =>
    match ← tGroup.get key with
    | none => .error (.msg "wat?")
    | some b => buildCartesianProduct rb Tuple.empty [a, b]

/-- relation.go:76-96: the part of `join` for relations with common attributes. -/
def joinCommon (s t : Rel A V) (commonAttrs : List A) : Go (Rel A V) := do
  let sGroup ← setGroupByM s (fun t => t.project commonAttrs)
  let tGroup ← setGroupByM t (fun t => t.project commonAttrs)
  let sKeys ← sGroup.keys
  let tKeys ← tGroup.keys
  let commonKeys ← sKeys.intersection tKeys
  let ks ← commonKeys.rangeList
  let rb ← ks.foldlM (joinStep sGroup tGroup) (Tree.zero : SetBuilder (Tuple A V))
  pure (SetBuilder.finish rb).1

/-- relation.go:70-96: the part of `join` after the special cases. -/
def joinGeneral (s t : Rel A V) : Go (Rel A V) := do
  let sAny ← s.any
  let sAttrs ← sAny.1.keys
  let tAny ← t.any
  let tAttrs ← tAny.1.keys
  let common ← sAttrs.intersection tAttrs
  let commonAttrs ← common.elements
  if commonAttrs.length = 0 then cartesianProduct [s, t] else joinCommon s t commonAttrs

/-- relation.go:60-97 `join` -/
def join (s t : Rel A V) : Go (Rel A V) :=
  if s.isEmpty || t.isEmpty then .ok s
  else do
    let tr ← trueSet
    let sTrue ← s.equal tr
    if sTrue then .ok t
    else do
      let tTrue ← t.equal tr
      if tTrue then .ok s else joinGeneral s t

/-- relation.go:52-58 `Join` -/
def joinAll : List (Rel A V) → Go (Rel A V)
  | [] => .error (.msg "index out of range")
  | s :: ts => ts.foldlM join s

/-! ## Nest and Unnest -/

/-- Relations as attribute values: the conversion of a `Relation` to `any`, and the type assertion `val.(Relation)`, which fails on
other values. -/
class NestVal (A V : Type) [GoKey A] [Inhabited V] [GoKey V] [GoHash] where
  relV : SetVal (Tuple A V) → V
  asRel : V → Option (SetVal (Tuple A V))

variable [NestVal A V]

omit [NestVal A V] in
/-- relation.go:156-161: the key function of `Nest`. -/
def nestKey (keyAttrs : List A) (el : Tuple A V) : Go (Tuple A V) := keyAttrs.foldlM (fun el attr => el.without attr) el

/-- relation.go:172-174: the nested relation made for one new attribute. -/
def nestAttr (group : Rel A V) (attrs : SetVal A) : Go V := do
  let as ← attrs.1.elements
  let r ← SetVal.lift (relProject group as) (fun _ h => setMapM_reachable h)
  pure (NestVal.relV r)

omit [GoKey V] [NestVal A V] [GoHash] in
/-- A map filled by a loop of `Put` calls. -/
theorem mapMapM_reachable {W : Type} {m : FMap A W} {f : A → W → Go V} {r : FMap A V}
    (h : mapMapM m f = .ok r) : r.Reachable := by
  have key : ∀ (es : List (Entry A W)) (ops : List (MapBuildOp A V)) (b0 b : MapBuilder A V),
      ops.foldlM (fun b op => op.run b) (Tree.zero : MapBuilder A V) = .ok b0 →
      es.foldlM (fun b e => do let w ← f e.key e.value; MapBuilder.put b e.key w) b0 = .ok b →
      ∃ ops' : List (MapBuildOp A V), ops'.foldlM (fun b op => MapBuildOp.run b op) (Tree.zero : MapBuilder A V) = .ok b := by
    intro es
    induction es with
    | nil => intro ops b0 b h0 h; exact ⟨ops, by rw [h0]; exact h⟩
    | cons e es ih =>
      intro ops b0 b h0 h
      rw [List.foldlM_cons] at h
      cases hf : f e.key e.value with
      | error e => simp only [hf, bind, Except.bind] at h; cases h
      | ok u =>
        simp only [hf, bind, Except.bind] at h
        cases ha : MapBuilder.put b0 e.key u with
        | error e => simp only [ha] at h; cases h
        | ok b1 =>
          simp only [ha] at h
          exact ih (ops ++ [.put e.key u]) b1 b (by
            rw [List.foldlM_append, h0]
            simp only [bind, Except.bind, List.foldlM_cons, MapBuildOp.run, ha, List.foldlM_nil, pure, Except.pure]) h
  unfold mapMapM at h
  cases hv : m.rangeList with
  | error e => simp only [hv, bind, Except.bind] at h; cases h
  | ok es =>
    simp only [hv, bind, Except.bind] at h
    cases hb : es.foldlM (fun b e => do let w ← f e.key e.value; MapBuilder.put b e.key w) (Tree.zero : MapBuilder A V) with
    | error e => simp only [bind, Except.bind] at hb; simp only [hb] at h; cases h
    | ok b =>
      obtain ⟨ops, hops⟩ := key es [] Tree.zero b rfl hb
      simp only [bind, Except.bind] at hb
      simp only [hb] at h
      refine ⟨.build ops, ?_⟩
      simp only [MapProg.run, hops, bind, Except.bind]
      exact h

/-- relation.go:170-177: the callback that makes the tuple of one group. -/
def nestTuple (attrAttrs : FMap A (SetVal A)) (key : Tuple A V) (group : Rel A V) : Go (Tuple A V) := do
  let a ← MapVal.lift (mapMapM attrAttrs (fun _ attrs => nestAttr group attrs)) (fun _ h => mapMapM_reachable h)
  Tuple.update a key

/-- relation.go:142-189 `Nest` -/
def nest (s : Rel A V) (attrAttrs : FMap A (SetVal A)) : Go (Rel A V) := do
  let vals ← attrAttrs.values
  let sets ← vals.elements
  let inter ← nIntersection (sets.map (·.1))
  let keyAttrs ← inter.elements
  let grouped ← setGroupByM s (nestKey keyAttrs)
  let mapped ← mapMapM grouped (nestTuple attrAttrs)
  mapped.values

/-- relation.go:199 `val.(Relation)`: a failed type assertion panics. -/
def assertRel (val : V) : Go (SetVal (Tuple A V)) :=
  match NestVal.asRel val with
  | some r => .ok r
  | none => .error (.msg "interface conversion")

/-- relation.go:196-201: the relations that `Unnest` joins for one tuple. -/
def unnestParts (attr : A) (t : Tuple A V) : Go (List (SetVal (Tuple A V))) := do
  let key ← t.without attr
  let proj ← t.project [attr]
  let nested ← mapMapM proj.1 (fun _ val => assertRel val)
  let nestedValues ← nested.values
  let keySet ← SetVal.lift (newSet [key]) (fun _ h => ⟨.newSet [key], h⟩)
  let all ← nestedValues.with keySet
  all.elements

/-- relation.go:195-206: the loop body of `Unnest`. -/
def unnestStep (attr : A) (b : SetBuilder (Tuple A V)) (t : Tuple A V) : Go (SetBuilder (Tuple A V)) := do
  let parts ← unnestParts attr t
  let joined ← joinAll (parts.map (·.1))
  let js ← joined.rangeList
  js.foldlM (fun b j => SetBuilder.add b j) b

/-- relation.go:193-208 `Unnest` -/
def unnest (s : Rel A V) (attr : A) : Go (Rel A V) := do
  let ts ← s.rangeList
  let b ← ts.foldlM (unnestStep attr) (Tree.zero : SetBuilder (Tuple A V))
  pure (SetBuilder.finish b).1

end Frozen
