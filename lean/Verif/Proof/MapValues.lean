import Verif.Spec.Adaptive

/-! The map API on values and the calls on trees of entries that it makes. -/

set_option linter.unusedSectionVars false

namespace Frozen

variable {K V : Type} [GoKey K] [Inhabited V]

/-- The map calls in order, as calls on trees of entries, when every tree is a value of its own. -/
def VWorld.runMap (w : VWorld (Entry K V)) : List (MOp K V) → VWorld (Entry K V)
  | [] => w
  | op :: ops => (w.step (op.callAt (w.sets.map (·.count)))).runMap ops

/-- The maps are those trees. -/
structure MapsAre (m : VMaps K V) (w : VWorld (Entry K V)) : Prop where
  sets : w.sets = m.maps.map (·.tree)
  builders : w.builders = m.builders

theorem MapsAre.at {m : VMaps K V} {w : VWorld (Entry K V)} (h : MapsAre m w) (i : Nat) : w.sets[i]? = (m.maps[i]?).map (·.tree) := by
  rw [h.sets, List.getElem?_map]

theorem MapsAre.counts {m : VMaps K V} {w : VWorld (Entry K V)} (h : MapsAre m w) :
    w.sets.map (·.count) = m.maps.map (·.count) := by
  rw [h.sets, List.map_map]; rfl

theorem MapsAre.push {m : VMaps K V} {w : VWorld (Entry K V)} (h : MapsAre m w) {r : Go (FMap K V)} {t : Go (Tree (Entry K V))}
    (hr : r = (do let x ← t; pure ⟨x⟩)) : MapsAre (m.push r) (w.push t) := by
  subst hr
  cases t with
  | error e => exact h
  | ok t => exact ⟨by simp only [VWorld.push, VMaps.push, bind, Except.bind, pure, Except.pure, h.sets, List.map_append, List.map_cons,
      List.map_nil], h.builders⟩

theorem MapsAre.on {m : VMaps K V} {w : VWorld (Entry K V)} (h : MapsAre m w) (i : Nat) {f : FMap K V → Go (FMap K V)}
    {g : Tree (Entry K V) → Go (Tree (Entry K V))} (hr : ∀ x, f x = (do let t ← g x.tree; pure ⟨t⟩)) :
    MapsAre (m.on i f) (w.on i g) := by
  unfold VMaps.on VWorld.on
  rw [h.at]
  cases m.maps[i]? with
  | none => exact h
  | some x => exact h.push (hr x)

theorem MapsAre.on2 {m : VMaps K V} {w : VWorld (Entry K V)} (h : MapsAre m w) (i j : Nat) {f : FMap K V → FMap K V → Go (FMap K V)}
    {g : Tree (Entry K V) → Tree (Entry K V) → Go (Tree (Entry K V))}
    (hr : ∀ x y, m.maps[i]? = some x → m.maps[j]? = some y → f x y = (do let t ← g x.tree y.tree; pure ⟨t⟩)) :
    MapsAre (m.on2 i j f) (w.on2 i j g) := by
  unfold VMaps.on2 VWorld.on2
  rw [h.at, h.at]
  cases hx : m.maps[i]? with
  | none => exact h
  | some x =>
    cases hy : m.maps[j]? with
    | none => exact h
    | some y => exact h.push (hr x y hx hy)

theorem MapsAre.onBuilder {m : VMaps K V} {w : VWorld (Entry K V)} (h : MapsAre m w) (i : Nat)
    (f : MapBuilder K V → Go (MapBuilder K V)) : MapsAre (m.onBuilder i f) (w.onBuilder i f) := by
  unfold VMaps.onBuilder VWorld.onBuilder VWorld.update
  rw [h.builders]
  cases m.builders[i]? with
  | none => exact h
  | some x =>
    dsimp only
    cases f x with
    | error e => exact h
    | ok y => exact ⟨h.sets, rfl⟩

theorem MapsAre.step {m : VMaps K V} {w : VWorld (Entry K V)} (h : MapsAre m w) (op : MOp K V) :
    MapsAre (m.step op) (w.step (op.callAt (m.maps.map (·.count)))) := by
  cases op with
  | empty => exact ⟨by
      show w.sets ++ [Tree.zero] = List.map _ (m.maps ++ [FMap.zero])
      rw [h.sets, List.map_append]; rfl, h.builders⟩
  | «with» i k v => exact h.on i (fun x => rfl)
  | without i k => exact h.on i (fun x => rfl)
  | merge i j r => exact h.on2 i j (fun x y _ _ => rfl)
  | update i j =>
    simp only [MOp.callAt, List.getElem?_map, VMaps.step]
    cases hx : m.maps[i]? with
    | none =>
      have : m.on2 i j (fun m n => m.update n) = m := by simp only [VMaps.on2, hx]
      rw [this]
      have : ∀ f, w.step (.merge i j f) = w := fun f => by simp only [VWorld.step, VWorld.on2, h.at, hx]; rfl
      simp only [Option.map_none, this]; exact h
    | some x =>
      cases hy : m.maps[j]? with
      | none =>
        have : m.on2 i j (fun m n => m.update n) = m := by simp only [VMaps.on2, hx, hy]
        rw [this]
        have : ∀ f, w.step (.merge i j f) = w := fun f => by simp only [VWorld.step, VWorld.on2, h.at, hx, hy]; rfl
        simp only [Option.map_some, Option.map_none, this]; exact h
      | some y =>
        simp only [Option.map_some, VMaps.on2, hx, hy, FMap.update]
        split
        · have : w.step (.merge j i (fun a _ => a)) = w.push (y.tree.combine ⟨GoKey.eq, fun a _ => a⟩ x.tree) := by
            simp only [VWorld.step, VWorld.on2, h.at, hx, hy]; rfl
          rw [this]
          exact h.push rfl
        · have : w.step (.merge i j (fun _ b => b)) = w.push (x.tree.combine ⟨GoKey.eq, fun _ b => b⟩ y.tree) := by
            simp only [VWorld.step, VWorld.on2, h.at, hx, hy]; rfl
          rw [this]
          exact h.push rfl
  | newBuilder => exact ⟨h.sets, by
      show w.builders ++ [Tree.zero] = m.builders ++ [Tree.zero]
      rw [h.builders]⟩
  | put b k v => exact h.onBuilder b _
  | remove b k => exact h.onBuilder b _
  | finish b =>
    rw [show MOp.callAt (m.maps.map (·.count)) (MOp.finish b) = HOp.finish b from rfl]
    simp only [VMaps.step, VWorld.step, h.builders]
    cases m.builders[b]? with
    | none => exact h
    | some x => exact ⟨by
        show w.sets ++ [x] = List.map _ (m.maps ++ [(MapBuilder.finish x).1])
        rw [h.sets, List.map_append]; rfl, rfl⟩

theorem MapsAre.run : ∀ (ops : List (MOp K V)) {m : VMaps K V} {w : VWorld (Entry K V)}, MapsAre m w → MapsAre (m.run ops) (w.runMap ops)
  | [], _, _, h => h
  | op :: ops, m, w, h => by
    show MapsAre ((m.step op).run ops) ((w.step (op.callAt (w.sets.map (·.count)))).runMap ops)
    rw [h.counts]
    exact MapsAre.run ops (h.step op)

/-- The two goroutines on values hold the same and know the same. -/
structure ClientsAre [GoKey V] (c : VMapClient K V) (d : VClient (Entry K V)) : Prop where
  world : MapsAre c.world d.world
  seen : d.seen.map Answer.ofMap = c.seen

variable [GoKey V]

theorem ClientsAre.view {c : VMapClient K V} {d : VClient (Entry K V)} (h : ClientsAre c d) : d.view.ofMaps = c.view := by
  unfold VClient.view View.ofMaps VMapClient.view
  rw [h.seen, h.world.counts]

theorem found_ofMap (m : FMap K V) (k : K) : Answer.ofMap (.found (m.tree.get (newMapKey k))) = .found (m.get k) := by
  unfold FMap.get
  cases m.tree.get (newMapKey k) <;> rfl

theorem ClientsAre.perform {c : VMapClient K V} {d : VClient (Entry K V)} (h : ClientsAre c d) (op : MGOp K V) :
    ClientsAre (c.perform op) (d.perform (op.tree d.view.counts)) := by
  have hc : d.view.counts = c.world.maps.map (·.count) := h.world.counts
  cases op with
  | call op => rw [hc]; exact ⟨h.world.step op, h.seen⟩
  | get i k =>
    simp only [VMapClient.perform, MGOp.tree, VClient.perform, VMapClient.ask, h.world.at]
    cases c.world.maps[i]? with
    | none => exact h
    | some m => exact ⟨h.world, by simp only [Option.map_some, List.map_append, List.map_cons, List.map_nil, h.seen, found_ofMap]⟩
  | range i =>
    simp only [VMapClient.perform, MGOp.tree, VClient.perform, VMapClient.ask, h.world.at]
    cases c.world.maps[i]? with
    | none => exact h
    | some m => exact ⟨h.world, by simp only [Option.map_some, List.map_append, List.map_cons, List.map_nil, h.seen]; rfl⟩
  | equal i j =>
    simp only [VMapClient.perform, MGOp.tree, VClient.perform, VClient.compare, h.world.at]
    cases c.world.maps[i]? with
    | none => exact h
    | some m =>
      cases c.world.maps[j]? with
      | none => exact h
      | some n => exact ⟨h.world, by simp only [Option.map_some, List.map_append, List.map_cons, List.map_nil, h.seen]; rfl⟩

theorem ClientsAre.follow (p : MGProg K V) : ∀ {c : VMapClient K V} {d : VClient (Entry K V)}, ClientsAre c d →
    ClientsAre (c.follow p) (d.follow p.trees) := by
  induction p with
  | stop => exact fun h => h
  | look k ih =>
    intro c d h
    show ClientsAre (c.follow (k c.view)) (d.follow (k d.view.ofMaps).trees)
    rw [h.view]
    exact ih _ h
  | act op p ih => exact fun h => ih (h.perform op)

end Frozen
