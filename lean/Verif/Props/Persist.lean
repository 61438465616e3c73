import Verif.Proof.MemHistory
import Verif.Props.Witness

/-!
# Sets and builders over a shared memory

Properties C10 and C40. A client performs any calls (Spec/History.lean) on the sets and builders it holds; trees share nodes and
arrays, builders change theirs in place, and `append` may write into spare capacity (Model/Memory.lean). `G` is any way of growing
arrays.
-/

set_option linter.unusedSectionVars false

namespace Frozen

variable {T : Type} [GoKey T] [LawfulGoKey T]

/-- C10, the part that holds: in a history that never adds an element to a set having three others with the same 64-bit hash, every
set keeps its elements and its place, whatever calls follow. Missing: the histories with such an addition; they can break the
property (`C10_persistence_fails`). -/
theorem C10_persistence_partial (G : Growth) (ops ops' : List (HOp T)) (hu : UncrowdedRun G World.init (ops ++ ops'))
    (i : Nat) (s : MTree) (hs : (World.init.run G ops).sets[i]? = some s) :
    (World.init.run G (ops ++ ops')).sets[i]? = some s ∧
      SameView (World.init.run G ops).mem (World.init.run G (ops ++ ops')).mem s := by
  obtain ⟨h1, h2⟩ := uncrowdedRun_append G ops ops' _ hu
  obtain ⟨S, B, h⟩ := run_inv G ops (HistInv.init true) (fun _ => h1)
  rw [run_append]
  exact run_view G ops' h (fun _ => h2) (.inl rfl) hs

/-- No four pairwise different values share a 64-bit hash. -/
def FewCollisions (T : Type) [GoKey T] : Prop :=
  ∀ v : T, ¬ AtLeast 3 (fun w => GoKey.eq w v = false ∧ hash0 w = hash0 v)

/-- The functions given to merges return an element equal to their arguments. -/
def HOp.MergesOk : HOp T → Prop
  | .merge _ _ f => ∀ a b, GoKey.eq a b = true → GoKey.eq (f a b) a = true
  | _ => True

theorem uncrowded_of_few (hT : FewCollisions T) (G : Growth) : ∀ (ops : List (HOp T)) (w : World T), (∀ op ∈ ops, op.MergesOk) →
    UncrowdedRun G w ops
  | [], _, _ => trivial
  | op :: ops, w, h => by
    refine ⟨?_, uncrowded_of_few hT G ops _ (fun o ho => h o (by simp [ho]))⟩
    have hop := h op (by simp)
    cases op with
    | «with» i v => exact fun s _ => .inr (fun hc => hT v (AtLeast.imp hc (fun _ hw => hw.2)))
    | merge i j f => exact ⟨hop, fun s t _ _ v => .inr (fun hc => hT v (AtLeast.imp hc (fun _ hw => hw.2)))⟩
    | _ => trivial

/-- C10 for element types whose hash has few collisions: then every history keeps every set. -/
theorem C10_persistence_few_collisions_partial (hT : FewCollisions T) (G : Growth) (ops ops' : List (HOp T))
    (hm : ∀ op ∈ ops ++ ops', op.MergesOk) (i : Nat) (s : MTree) (hs : (World.init.run G ops).sets[i]? = some s) :
    (World.init.run G (ops ++ ops')).sets[i]? = some s ∧
      SameView (World.init.run G ops).mem (World.init.run G (ops ++ ops')).mem s :=
  C10_persistence_partial G ops ops' (uncrowded_of_few hT G _ _ hm) i s hs

/-- C10, the part that holds of every history whatsoever: only `With` and the merges (Union, Merge, Update) can damage a set. Any
other calls, whatever happened before, leave every existing set with the same answers and the same iteration. -/
theorem C10_other_calls_keep_sets_partial (G : Growth) (ops ops' : List (HOp T)) (ho : ∀ op ∈ ops', op.mayAppend = false)
    (i : Nat) (s : MTree) (hs : (World.init.run G ops).sets[i]? = some s) :
    (World.init.run G (ops ++ ops')).sets[i]? = some s ∧
      SameView (World.init.run G ops).mem (World.init.run G (ops ++ ops')).mem s := by
  obtain ⟨S, B, h⟩ := run_inv G ops (HistInv.init false) (nomatch ·)
  rw [run_append]
  exact run_view G ops' h (nomatch ·) (.inr ho) hs

/-- Sharing is unobservable: in a history as in `C10_persistence_partial` every set in memory answers as in the world where every
set is a value of its own, and the same calls panic. With the theorems about values (C01-C09), this says what each set contains. -/
theorem C10_sharing_unobservable_partial (G : Growth) (ops : List (HOp T)) (hu : UncrowdedRun G World.init ops) :
    (World.init.run G ops).sets.length = (VWorld.run ⟨[], []⟩ ops).sets.length ∧
    ∀ (i : Nat) (s : MTree), (World.init.run G ops).sets[i]? = some s →
      ∃ t : Tree T, (VWorld.run ⟨[], []⟩ ops).sets[i]? = some t ∧ s.count = t.count ∧
        (∀ v, s.get (World.init.run G ops).mem v = t.get v) ∧
        ∃ l, s.elems (World.init.run G ops).mem = .ok l ∧ t.rangeList = .ok l := by
  obtain ⟨S, B, h⟩ := run_inv G ops (HistInv.init true) (fun _ => hu)
  refine ⟨h.setsLen rfl, fun i s hs => ?_⟩
  obtain ⟨n, hn, hv⟩ := h.sets i s hs
  refine ⟨s.val n, (hv rfl).1, rfl, fun v => MTree.get_eq hn v, _, elemsM_eq hn memFuel (fuelOk_mem 0), ?_⟩
  exact rangeList_spec (hv rfl).2.nodeOk

/-- C40: after `Finish`, no call on any builder changes the returned set, nor any other set the client holds, in any history. -/
theorem C40_builder_calls_keep_sets (G : Growth) (ops ops' : List (HOp T)) (ho : ∀ op ∈ ops', op.isBuilderCall = true)
    (i : Nat) (s : MTree) (hs : (World.init.run G ops).sets[i]? = some s) :
    (World.init.run G (ops ++ ops')).sets[i]? = some s ∧
      SameView (World.init.run G ops).mem (World.init.run G (ops ++ ops')).mem s := by
  refine C10_other_calls_keep_sets_partial G ops ops' (fun op hop => ?_) i s hs
  have := ho op hop
  cases op <;> first | rfl | cases this

/-- C40: the set returned by `Finish` has exactly what the builder had, now and after any further builder calls. -/
theorem C40_finish_isolates (G : Growth) (ops ops' : List (HOp T)) (ho : ∀ op ∈ ops', op.isBuilderCall = true)
    (k : Nat) (b : MTree) (hb : (World.init.run G ops).builders[k]? = some b) :
    (World.init.run G (ops ++ .finish k :: ops')).sets[(World.init.run G ops).sets.length]? = some b ∧
      SameView (World.init.run G ops).mem (World.init.run G (ops ++ .finish k :: ops')).mem b := by
  have h1 : World.init.run G (ops ++ [HOp.finish k]) =
      ⟨(World.init.run G ops).mem, (World.init.run G ops).sets ++ [b], (World.init.run G ops).builders.set k MTree.zero⟩ := by
    rw [run_append]
    show (World.init.run G ops).step G (.finish k) = _
    simp only [World.step, hb]
  have h2 := C40_builder_calls_keep_sets G (ops ++ [HOp.finish k]) ops' ho (World.init.run G ops).sets.length b (by rw [h1]; simp)
  rw [List.append_assoc, List.singleton_append] at h2
  refine ⟨h2.1, ?_⟩
  have h3 := h2.2
  rw [h1] at h3
  exact h3

/-- C40: builders do not disturb one another: calls that are not on the builder at `k` leave it as it is, in any history. -/
theorem C40_builders_independent (G : Growth) (ops ops' : List (HOp T)) (k : Nat) (ho : ∀ op ∈ ops', op.builder ≠ some k)
    (b : MTree) (hb : (World.init.run G ops).builders[k]? = some b) :
    (World.init.run G (ops ++ ops')).builders[k]? = some b ∧
      SameView (World.init.run G ops).mem (World.init.run G (ops ++ ops')).mem b := by
  obtain ⟨S, B, h⟩ := run_inv G ops (HistInv.init false) (nomatch ·)
  rw [run_append]
  exact run_bview G ops' h ho hb

/-- C40: in any history, what a builder contains is decided by the last call about each value since its last `Finish`: elements of
sets, damaged or not, and other builders have no influence. -/
theorem C40_builder_contents (G : Growth) (ops ops' : List (HOp T)) (k : Nat) (b : MTree)
    (hb : (World.init.run G ops).builders[k]? = some b) :
    ∃ b', (World.init.run G (ops ++ ops')).builders[k]? = some b' ∧
      ∀ v, ∃ r, b.get (World.init.run G ops).mem v = .ok r ∧
        b'.get (World.init.run G (ops ++ ops')).mem v = .ok (lastCall k v ops' r) := by
  obtain ⟨S, B, h⟩ := run_inv G ops (HistInv.init false) (nomatch ·)
  obtain ⟨S', B', h'⟩ := run_inv G ops' h (nomatch ·)
  rw [run_append]
  obtain ⟨n, ho, h1, h2⟩ := h.blds k b hb
  obtain ⟨t', h3, h4⟩ := vrun_builder ops' h.bvalid h1
  have hlt : k < ((World.init.run G ops).run G ops').builders.length := by rw [h'.blen]; exact getElem?_lt h3
  obtain ⟨n', ho', h1', h2'⟩ := h'.blds k _ (List.getElem?_eq_getElem hlt)
  refine ⟨_, List.getElem?_eq_getElem hlt, fun v => ⟨_, (MTree.get_eq ho.rep v).trans (Tree.get_spec h2 v), ?_⟩⟩
  rw [h1'] at h3
  cases h3
  rw [MTree.get_eq ho'.rep, Tree.get_spec h2', h4]

/-- A new builder is empty. -/
theorem C40_new_builder_empty (G : Growth) (w : World T) :
    ∃ b, (w.step G .newBuilder).builders[w.builders.length]? = some b ∧ ∀ v, b.get (w.step G .newBuilder).mem v = .ok none :=
  ⟨MTree.zero, by simp [World.step], fun _ => rfl⟩

/-! ## The property fails: `With` can overwrite an element of another set -/

/-- Four elements with one hash, then two different extensions of that set. -/
def crowdedHistory : List (HOp Coll) :=
  [.empty, .with 0 ⟨1⟩, .with 1 ⟨2⟩, .with 2 ⟨3⟩, .with 3 ⟨4⟩, .with 4 ⟨5⟩]

/-- C10 is false of the code (twig.go:291 and twig.go:303 append to an array that another set may share): the set `s.With(5)` loses
5 and gains 6 when `s.With(6)` is computed. -/
theorem C10_persistence_fails : ∃ (ops : List (HOp Coll)) (op : HOp Coll) (i : Nat) (s : MTree),
    (World.init.run goGrowth ops).sets[i]? = some s ∧ (World.init.run goGrowth (ops ++ [op])).sets[i]? = some s ∧
    s.get (World.init.run goGrowth ops).mem ⟨5⟩ = .ok (some ⟨5⟩) ∧
    s.get (World.init.run goGrowth (ops ++ [op])).mem ⟨5⟩ = .ok none ∧
    s.get (World.init.run goGrowth (ops ++ [op])).mem ⟨6⟩ = .ok (some ⟨6⟩) := by
  refine ⟨crowdedHistory, .with 4 ⟨6⟩, 5, ?_⟩
  have h : ((World.init.run goGrowth crowdedHistory).sets[5]?).any (fun s =>
      decide ((World.init.run goGrowth (crowdedHistory ++ [.with 4 ⟨6⟩])).sets[5]? = some s) &&
      isOk (s.get (World.init.run goGrowth crowdedHistory).mem ⟨5⟩) (some ⟨5⟩) &&
      isOk (s.get (World.init.run goGrowth (crowdedHistory ++ [.with 4 ⟨6⟩])).mem ⟨5⟩) none &&
      isOk (s.get (World.init.run goGrowth (crowdedHistory ++ [.with 4 ⟨6⟩])).mem ⟨6⟩) (some ⟨6⟩)) = true := by decide +kernel
  cases hs : (World.init.run goGrowth crowdedHistory).sets[5]? with
  | none => rw [hs] at h; cases h
  | some s =>
    rw [hs] at h
    simp only [Option.any_some, Bool.and_eq_true] at h
    obtain ⟨⟨⟨h1, h2⟩, h3⟩, h4⟩ := h
    exact ⟨s, rfl, of_decide_eq_true h1, of_isOk h2, of_isOk h3, of_isOk h4⟩

/-- The set that is damaged without any call to `With`: a union does it too. -/
theorem C10_persistence_fails_union : ∃ (ops : List (HOp Coll)) (i j k : Nat) (s : MTree),
    (World.init.run goGrowth ops).sets[k]? = some s ∧
    s.get (World.init.run goGrowth ops).mem ⟨5⟩ = .ok (some ⟨5⟩) ∧
    s.get (World.init.run goGrowth (ops ++ [HOp.union i j])).mem ⟨5⟩ = .ok none := by
  refine ⟨crowdedHistory ++ [.with 0 ⟨6⟩], 4, 6, 5, ?_⟩
  have h : ((World.init.run goGrowth (crowdedHistory ++ [.with 0 ⟨6⟩])).sets[5]?).any (fun s =>
      isOk (s.get (World.init.run goGrowth (crowdedHistory ++ [.with 0 ⟨6⟩])).mem ⟨5⟩) (some ⟨5⟩) &&
      isOk (s.get (World.init.run goGrowth (crowdedHistory ++ [.with 0 ⟨6⟩] ++ [HOp.union 4 6])).mem ⟨5⟩) none) = true := by
    decide +kernel
  cases hs : (World.init.run goGrowth (crowdedHistory ++ [.with 0 ⟨6⟩])).sets[5]? with
  | none => rw [hs] at h; cases h
  | some s =>
    rw [hs] at h
    simp only [Option.any_some, Bool.and_eq_true] at h
    exact ⟨s, rfl, of_isOk h.1, of_isOk h.2⟩

/-! ## The hypotheses can be met -/

theorem mul_mod_inj {x y c : Nat} (hx : x < 100) (hy : y < 100) (hc : 0 < c) (hb : 100 * c ≤ 2 ^ 64) (h : x * c % 2 ^ 64 = y * c % 2 ^ 64) :
    x = y := by
  have h1 : x * c < 2 ^ 64 := Nat.lt_of_lt_of_le (Nat.mul_lt_mul_of_pos_right hx hc) hb
  have h2 : y * c < 2 ^ 64 := Nat.lt_of_lt_of_le (Nat.mul_lt_mul_of_pos_right hy hc) hb
  rw [Nat.mod_eq_of_lt h1, Nat.mod_eq_of_lt h2] at h
  exact Nat.eq_of_mul_eq_mul_right hc h

theorem mod100_hash {a v : Mod100} (h : hash0 a = hash0 v) : a.n % 100 = v.n % 100 := by
  simp only [hash0, GoKey.hash, BitVec.xor_zero] at h
  have h3 := congrArg BitVec.toNat h
  rw [BitVec.toNat_ofNat, BitVec.toNat_ofNat, Nat.mul_assoc, Nat.mul_assoc] at h3
  exact mul_mod_inj (Nat.mod_lt _ (by decide)) (Nat.mod_lt _ (by decide)) (by decide) (by decide) h3

theorem mod100_few : FewCollisions Mod100 := by
  rintro v ⟨l, h1, h2, h3⟩
  cases l with
  | nil => cases h1
  | cons a l =>
    obtain ⟨ha, hh⟩ := h3 a (by simp)
    simp only [GoKey.eq, decide_eq_false_iff_not] at ha
    exact ha (mod100_hash hh)

/-- A history with shared trees, all kinds of calls and two builders. -/
def mixedHistory : List (HOp Mod100) :=
  [.newBuilder, .newBuilder, .add 0 ⟨1⟩, .add 0 ⟨2⟩, .add 1 ⟨2⟩, .add 0 ⟨3⟩, .finish 0, .with 0 ⟨50⟩, .add 0 ⟨7⟩, .without 1 ⟨2⟩,
    .remove 1 ⟨2⟩, .finish 0, HOp.union 0 3, .intersection 1 2, .difference 4 2, .where 4 (fun e => decide (e.n > 2))]

theorem mixed_mergesOk : ∀ op ∈ mixedHistory, op.MergesOk := by
  intro op h
  simp only [mixedHistory, List.mem_cons, List.not_mem_nil, or_false] at h
  rcases h with rfl | rfl | rfl | rfl | rfl | rfl | rfl | rfl | rfl | rfl | rfl | rfl | rfl | rfl | rfl | rfl <;>
    first
    | exact trivial
    | exact fun a b h => PerGoKey.symm h

/-- The history is one that `C10_persistence_partial` speaks about, and it makes eight sets and two builders. -/
example : UncrowdedRun goGrowth World.init mixedHistory := uncrowded_of_few mod100_few _ _ _ mixed_mergesOk

example : (World.init.run goGrowth mixedHistory).sets.length = 8 ∧ (World.init.run goGrowth mixedHistory).builders.length = 2 := by
  decide +kernel

/-- The first set finished keeps its three elements to the end although five sets were derived from it. -/
example : ∃ s, (World.init.run goGrowth (mixedHistory.take 7)).sets[0]? = some s ∧
    okAnd (s.elems (World.init.run goGrowth mixedHistory).mem) (fun l => decide (l.length = 3)) = true := by
  have h : ((World.init.run goGrowth (mixedHistory.take 7)).sets[0]?).any (fun s =>
      okAnd (s.elems (World.init.run goGrowth (mixedHistory.take 7)).mem) (fun l => decide (l.length = 3))) = true := by decide +kernel
  cases hs : (World.init.run goGrowth (mixedHistory.take 7)).sets[0]? with
  | none => rw [hs] at h; cases h
  | some s =>
    rw [hs] at h
    have hv := C10_persistence_few_collisions_partial mod100_few goGrowth (mixedHistory.take 7) (mixedHistory.drop 7)
      (by rw [List.take_append_drop]; exact mixed_mergesOk) 0 s hs
    rw [List.take_append_drop] at hv
    exact ⟨s, rfl, by rw [hv.2.elems]; exact h⟩

/-- A history that has damaged a set (as in `C10_persistence_fails`) and goes on with a builder. -/
def damagedHistory : List (HOp Coll) := crowdedHistory ++ [.with 4 ⟨6⟩, .newBuilder, .add 0 ⟨1⟩]

/-- Even then the hypotheses of the C40 theorems are met: there are sets and a builder. -/
example : ((World.init.run goGrowth damagedHistory).sets[5]?).isSome = true ∧
    ((World.init.run goGrowth damagedHistory).builders[0]?).isSome = true := by decide +kernel

/-- And the builder goes on working. -/
example (b : MTree) (hb : (World.init.run goGrowth damagedHistory).builders[0]? = some b) :
    ∃ b', (World.init.run goGrowth (damagedHistory ++ [.add 0 ⟨2⟩, .remove 0 ⟨1⟩])).builders[0]? = some b' ∧
      b'.get (World.init.run goGrowth (damagedHistory ++ [.add 0 ⟨2⟩, .remove 0 ⟨1⟩])).mem ⟨2⟩ = .ok (some ⟨2⟩) ∧
      b'.get (World.init.run goGrowth (damagedHistory ++ [.add 0 ⟨2⟩, .remove 0 ⟨1⟩])).mem ⟨1⟩ = .ok none := by
  obtain ⟨b', h1, h2⟩ := C40_builder_contents goGrowth damagedHistory [.add 0 ⟨2⟩, .remove 0 ⟨1⟩] 0 b hb
  obtain ⟨r, _, h3⟩ := h2 ⟨2⟩
  obtain ⟨r', _, h4⟩ := h2 ⟨1⟩
  refine ⟨b', h1, h3.trans ?_, h4.trans ?_⟩
  · simp [lastCall, GoKey.eq]
  · simp [lastCall, GoKey.eq]

end Frozen
