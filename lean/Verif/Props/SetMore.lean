import Verif.Proof.SetElems
import Verif.Proof.Reduce
import Verif.Props.Witness

/-! # C07–C09, C18, C24–C26, C28, C41: iteration, hashing, builders, reduction, picking, cost, panics, maps, algebra -/

set_option linter.unusedSectionVars false

namespace Frozen

variable {T : Type} [GoKey T] [LawfulGoKey T]

/-- A concrete set with four elements under a good hash, one under another representative. -/
theorem exampleSet : ∃ s : FSet Mod100, s.Reachable ∧ s.count = 4 := by
  obtain ⟨s, h1, h2⟩ := of_okAnd (r := newSet [(⟨1⟩ : Mod100), ⟨2⟩, ⟨101⟩, ⟨3⟩, ⟨44⟩]) (test := fun s => decide (s.count = 4))
    (by decide +kernel)
  exact ⟨s, ⟨.newSet _, h1⟩, of_decide_eq_true h2⟩

/-- A concrete set whose four elements all collide. -/
theorem exampleColl : ∃ s : FSet Coll, s.Reachable ∧ s.count = 4 := by
  obtain ⟨s, h1, h2⟩ := of_okAnd (r := newSet [(⟨1⟩ : Coll), ⟨2⟩, ⟨3⟩, ⟨4⟩]) (test := fun s => decide (s.count = 4)) (by decide +kernel)
  exact ⟨s, ⟨.newSet _, h1⟩, of_decide_eq_true h2⟩

/-! ### C07 -/

/-- C07. There is a listing `l` of the set, of length `Count`, such that any number `n` of calls of `Next` gives `l`'s values in
order and then false for ever; `Elements` returns `l`. -/
theorem C07_range (s : FSet T) (hs : s.Reachable) : ∃ l, Lists l s.Mem ∧ (l.length : Int) = s.count ∧ s.elements = .ok l ∧
    ∃ it, s.range = .ok it ∧ ∀ n, it.calls n = .ok ((List.range n).map (fun i => l[i]?)) := by
  have h := hs.valid
  obtain ⟨it, h1, h2, h3⟩ := iterator_spec h.nodeOk
  refine ⟨s.tree.list, FSet.lists h, h.count_eq.symm, FSet.elements_spec h, it, h1, fun n => ?_⟩
  rw [Iter.calls_spec n it h3, h2]
  rfl

example : ∃ s : FSet Coll, s.Reachable ∧ s.count = 4 := exampleColl

/-! ### C08 -/

/-- C08. Sets that are `Equal` have the same `Hash`, for every seed. -/
theorem C08_hash [GoHash] (s t : FSet T) (hs : s.Reachable) (ht : t.Reachable) (he : s.equal t = .ok true) (seed : BitVec 64) :
    ∃ h, s.hash seed = .ok h ∧ t.hash seed = .ok h := by
  have := FSet.hash_ext hs.valid ht.valid (FSet.mem_of_equal hs.valid ht.valid he) seed
  exact ⟨_, by rw [this]; exact FSet.hash_spec ht.valid seed, FSet.hash_spec ht.valid seed⟩

/-- Equal sets with different representatives and insertion orders. -/
example : ∃ s t : FSet Mod100, s.Reachable ∧ t.Reachable ∧ s.equal t = .ok true ∧ s.count = 3 := by
  obtain ⟨s, h1, h2⟩ := of_okAnd (r := newSet [(⟨1⟩ : Mod100), ⟨2⟩, ⟨3⟩]) (test := fun s =>
    okAnd (newSet [(⟨303⟩ : Mod100), ⟨2⟩, ⟨101⟩]) (fun t => isOk (s.equal t) true && decide (s.count = 3))) (by decide +kernel)
  obtain ⟨t, h3, h4⟩ := of_okAnd h2
  rw [Bool.and_eq_true] at h4
  exact ⟨s, t, ⟨.newSet _, h1⟩, ⟨.newSet _, h3⟩, of_isOk h4.1, of_decide_eq_true h4.2⟩

/-! ### C09 -/

/-- C09. Every sequence of calls on a fresh builder returns, with exactly the replies of a builder that holds the mathematical set of
elements added and not since removed. -/
theorem C09_builder (cs : List (BuilderCall T)) :
    ∃ rs, runBuilderCalls (Tree.zero : SetBuilder T) cs = .ok rs ∧ TraceOk (fun _ => False) cs rs :=
  builderCalls_spec cs _ [] _ rfl (fun w => by simp [Tree.look_zero])

/-- A trace has one reply per call. -/
theorem C09_trace_length : ∀ (cs : List (BuilderCall T)) (rs : List (BuilderReply T)) (P : T → Prop), TraceOk P cs rs →
    rs.length = cs.length
  | [], [], _, _ => rfl
  | _ :: cs, _ :: rs, _, h => by simp [C09_trace_length cs rs _ h.2]

/-- The specification of a trace is satisfiable and discriminates: after adding 1, 2, 2 and removing 1, `Count` must be 1. -/
example (r : BuilderReply Coll)
    (h : TraceOk (fun _ => False) [.add (⟨1⟩ : Coll), .add ⟨2⟩, .add ⟨2⟩, .remove ⟨1⟩, .count] [.unit, .unit, .unit, .unit, r]) :
    r = .int 1 := by
  obtain ⟨_, _, _, _, ⟨n, rfl, hn⟩, _⟩ := h
  have : HasCard (fun w : Coll => w = ⟨2⟩) 1 :=
    ⟨[⟨2⟩], ⟨by simp [PairwiseDifferent], fun w => by simp [GoKey.eq, Eq.comm]⟩, rfl⟩
  rw [hn.unique (this.congr (fun w => ?_))]
  simp only [BuilderCall.after, GoKey.eq, decide_eq_true_eq, false_or]
  constructor
  · rintro rfl; exact ⟨.inl (.inr rfl), by simp⟩
  · rintro ⟨(h | h) | h, h'⟩
    · exact absurd h h'
    · exact h.symm
    · exact h.symm

/-! ### C18 -/

/-- C18. If `reduce` folds an associative operation over its (non-empty) argument list, `Reduce` returns `ok = false` for the empty
set and otherwise the fold of the operation over `Elements`, each element once; for a commutative operation the fold over any other
enumeration of the stored elements is the same. -/
theorem C18_reduce [Inhabited T] (s : FSet T) (hs : s.Reachable) (op : T → T → T) (reduce : List T → T)
    (assoc : ∀ a b c, op (op a b) c = op a (op b c)) (comm : ∀ a b, op a b = op b a)
    (hr : ∀ a as, reduce (a :: as) = as.foldl op a) :
    (s.isEmpty = true → s.reduce reduce = .ok none) ∧
    (s.isEmpty = false → ∃ l, s.elements = .ok l ∧ ∀ a as, l.Perm (a :: as) → s.reduce reduce = .ok (some (as.foldl op a))) := by
  have hv := hs.valid
  have hnil : s.isEmpty = s.tree.root.isNil := by
    rw [Bool.eq_iff_iff, Tree.isNil_iff_list hv]
    unfold FSet.isEmpty
    rw [beq_iff_eq, hv.count_eq]
    simp
  rw [FSet.reduce_spec hv, hnil]
  refine ⟨fun h => by rw [h]; rfl, fun h => ⟨_, FSet.elements_spec hv, fun a as hp => ?_⟩⟩
  rw [h]
  simp only [Bool.false_eq_true, if_false]
  rw [redv_elems (flatten_law assoc hr) _ 0 hv.wf h]
  congr 2
  have : s.tree.list = elems s.tree.root := rfl
  rw [← this]
  cases hl : s.tree.list with
  | nil => rw [hl] at hp; simp at hp
  | cons b bs =>
    rw [hl] at hp
    rw [hr]
    have rc : RightCommutative op := ⟨fun x y z => by rw [assoc, comm y z, ← assoc]⟩
    have key : ∀ {l l' : List T}, l.Perm l' → ∀ x xs y ys, l = x :: xs → l' = y :: ys → xs.foldl op x = ys.foldl op y := by
      intro l l' h
      induction h with
      | nil => intro x xs y ys h1; cases h1
      | cons z h ih =>
        intro x xs y ys h1 h2
        cases h1; cases h2
        exact h.foldl_eq z
      | swap p q l =>
        intro x xs y ys h1 h2
        cases h1; cases h2
        rw [List.foldl_cons, List.foldl_cons, comm]
      | @trans l1 l2 l3 h h' ih ih' =>
        intro x xs y ys h1 h2
        cases l2 with
        | nil => rw [h1] at h; simp at h
        | cons z zs => rw [ih x xs z zs h1 rfl, ih' z zs y ys rfl h2]
    exact key hp b bs a as rfl rfl

/-- C18. `Reduce2(op)`, for an associative and commutative `op`. -/
theorem C18_reduce2 [Inhabited T] (s : FSet T) (hs : s.Reachable) (op : T → T → T)
    (assoc : ∀ a b c, op (op a b) c = op a (op b c)) (comm : ∀ a b, op a b = op b a) :
    (s.isEmpty = true → s.reduce2 op = .ok none) ∧
    (s.isEmpty = false → ∃ l, s.elements = .ok l ∧ ∀ a as, l.Perm (a :: as) → s.reduce2 op = .ok (some (as.foldl op a))) :=
  C18_reduce s hs op (reduce2Fn op) assoc comm (fun _ _ => rfl)

/-- C18. `reduce` is never called without arguments: what it would do then does not matter. -/
theorem C18_nonempty [Inhabited T] (s : FSet T) (hs : s.Reachable) (r r' : List T → T) (h : ∀ l, l ≠ [] → r l = r' l) :
    s.reduce r = s.reduce r' := by
  rw [FSet.reduce_spec hs.valid, FSet.reduce_spec hs.valid]
  cases hn : s.tree.root.isNil with
  | true => rfl
  | false =>
    simp only [Bool.false_eq_true, if_false]
    rw [redv_congr h _ 0 hs.valid.wf hn]


/-- Addition is an associative and commutative operation on a concrete element type. -/
example : ∃ (op : Mod100 → Mod100 → Mod100), (∀ a b c, op (op a b) c = op a (op b c)) ∧ (∀ a b, op a b = op b a) ∧
    isOk ((newSet [(⟨1⟩ : Mod100), ⟨2⟩, ⟨101⟩, ⟨3⟩, ⟨44⟩]).bind (fun s => s.reduce2 op)) (some ⟨150⟩) = true :=
  ⟨fun a b => ⟨a.n + b.n⟩, fun a b c => by simp [Nat.add_assoc], fun a b => by simp [Nat.add_comm], by decide +kernel⟩

/-! ### C24 -/

/-- C24. `Any` returns a member of a non-empty set and panics on an empty one. -/
theorem C24_any (s : FSet T) (hs : s.Reachable) :
    ((∃ w, s.Mem w) → ∃ x, s.any = .ok x ∧ s.Mem x) ∧
    ((∀ w, ¬ s.Mem w) → s.any = .error (.msg "Set[T].Any(): empty set")) := by
  have h := hs.valid
  have h1 := FSet.any_spec h
  cases hl : s.tree.list with
  | nil =>
    rw [hl] at h1
    refine ⟨?_, fun _ => h1⟩
    rintro ⟨w, hw⟩
    rw [FSet.mem_iff_list h, hl] at hw
    simp at hw
  | cons x xs =>
    rw [hl] at h1
    have hx : s.Mem x := (FSet.mem_iff_list h x).2 ⟨x, by simp [hl], eq_refl x⟩
    exact ⟨fun _ => ⟨x, h1, hx⟩, fun hn => absurd hx (hn x)⟩

/-- C24. `AnyN(n)` returns a subset with exactly `max(0, min(n, Count))` elements. -/
theorem C24_anyN (s : FSet T) (hs : s.Reachable) (n : Int) :
    ∃ u, s.anyN n = .ok u ∧ u.Reachable ∧ (∀ w, u.Mem w → s.Mem w) ∧ u.count = max 0 (min n s.count) := by
  obtain ⟨u, h1, h2, h3, h4⟩ := FSet.anyN_spec hs.valid n
  obtain ⟨p, hp⟩ := hs
  exact ⟨u, h1, ⟨.anyN p n, by simp only [SetProg.run, hp, bind, Except.bind]; exact h1⟩, h3, h4⟩

example : ∃ s : FSet Mod100, s.Reachable ∧ (∃ w, s.Mem w) := by
  obtain ⟨s, h, hc⟩ := exampleSet
  obtain ⟨l, hl, hlen⟩ := FSet.hasCard h.valid
  cases l with
  | nil => simp at hlen; omega
  | cons x l => exact ⟨s, h, x, (hl.covers x).2 ⟨x, by simp, eq_refl x⟩⟩

/-! ### C25 -/

/-- C25. In every reachable set a lookup (`getCost` is `Get` with counters) returns what `Has` uses, passes at most 22 branches, and
compares at most two stored elements unless at least three elements of the set have exactly the hash of `v` (and then at most those). -/
theorem C25_lookup_cost (s : FSet T) (hs : s.Reachable) (v : T) :
    ∃ r levels compared, s.tree.getCost v = .ok (r, levels, compared) ∧ s.find v = .ok r ∧ s.has v = .ok r.isSome ∧
      levels ≤ 22 ∧
      (compared ≤ 2 ∨ ∃ l, PairwiseDifferent l ∧ 3 ≤ l.length ∧ (∀ e ∈ l, s.Mem e ∧ hash0 e = hash0 v) ∧ compared ≤ l.length) := by
  have h := hs.valid
  obtain ⟨lv, cm, h1, h2, h3⟩ := Tree.getCost_spec h v
  refine ⟨_, lv, cm, h1, Tree.get_spec h v, FSet.has_spec h v, h2, h3.imp id ?_⟩
  rintro ⟨l, g1, g2, g3, g4⟩
  exact ⟨l, List.Pairwise.sublist g2 h.distinct, g1,
    fun e he => ⟨(FSet.mem_iff_list h e).2 ⟨e, g2.subset he, eq_refl e⟩, g3 e he⟩, g4⟩

/-- The bound on levels is reached: three colliding elements are found below 22 branches. -/
example : okAnd (newSet [(⟨1⟩ : Coll), ⟨2⟩, ⟨3⟩]) (fun s => isOk (s.tree.getCost ⟨3⟩) (some ⟨3⟩, 22, 3)) = true := by decide +kernel

/-! ### C26 -/

/-- C26. On reachable sets none of these calls panics. -/
theorem C26_no_panic [Inhabited T] [GoHash] (s t : FSet T) (hs : s.Reachable) (ht : t.Reachable) (v : T) (pred : T → Bool)
    (r : List T → T) (n : Int) (seed : BitVec 64) :
    (∃ x, s.with v = .ok x) ∧ (∃ x, s.without v = .ok x) ∧ (∃ x, s.has v = .ok x) ∧ (∃ x, s.where pred = .ok x) ∧
    (∃ x, s.intersection t = .ok x) ∧ (∃ x, s.difference t = .ok x) ∧ (∃ x, s.equal t = .ok x) ∧ (∃ x, s.isSubsetOf t = .ok x) ∧
    (∃ x, s.range = .ok x) ∧ (∃ x, s.reduce r = .ok x) ∧ (∃ x, s.elements = .ok x) ∧ (∃ x, s.anyN n = .ok x) ∧
    (∃ x, s.hash seed = .ok x) := by
  have h := hs.valid
  have h' := ht.valid
  obtain ⟨_, h1, _⟩ := FSet.with_spec h v
  obtain ⟨_, h2, _⟩ := FSet.without_spec h v
  obtain ⟨_, h3, _⟩ := FSet.where_spec h pred
  obtain ⟨_, h4, _⟩ := FSet.intersection_spec h h'
  obtain ⟨_, h5, _⟩ := FSet.difference_spec h h'
  obtain ⟨_, h6, _⟩ := FSet.equal_spec h h'
  obtain ⟨_, h7, _⟩ := FSet.isSubsetOf_spec h h'
  obtain ⟨_, h8, _⟩ := iterator_spec h.nodeOk
  obtain ⟨_, h9, _⟩ := FSet.anyN_spec h n
  exact ⟨⟨_, h1⟩, ⟨_, h2⟩, ⟨_, FSet.has_spec h v⟩, ⟨_, h3⟩, ⟨_, h4⟩, ⟨_, h5⟩, ⟨_, h6⟩, ⟨_, h7⟩, ⟨_, h8⟩, ⟨_, FSet.reduce_spec h r⟩,
    ⟨_, FSet.elements_spec h⟩, ⟨_, h9⟩, ⟨_, FSet.hash_spec h seed⟩⟩

/-- C26. `Union` fails only if one operand has three different elements that all have the hash of an element of the other operand. -/
theorem C26_union_panics_only (s t : FSet T) (hs : s.Reachable) (ht : t.Reachable) (e : Panic) (he : s.union t = .error e) :
    e = .wtf ∧ ((∃ y, t.Mem y ∧ AtLeast 3 (fun x => s.Mem x ∧ hash0 x = hash0 y)) ∨
      (∃ x, s.Mem x ∧ AtLeast 3 (fun y => t.Mem y ∧ hash0 y = hash0 x))) := by
  obtain ⟨h1, h2⟩ := FSet.union_spec hs.valid ht.valid
  by_cases hc : TripleClash s.Mem t.Mem
  · rw [h1 hc] at he
    refine ⟨by cases he; rfl, ?_⟩
    obtain ⟨x, y, hx, hy, hxy, _, _, h5⟩ := hc
    rcases h5 with h5 | h5
    · exact .inl ⟨y, hy, by rw [← hxy]; exact h5⟩
    · exact .inr ⟨x, hx, h5⟩
  · obtain ⟨u, h3, _⟩ := h2 hc
    rw [h3] at he; cases he

/-- C26. A program fails only in a `Union` (of `Union` or `SymmetricDifference`), with the panic of the collision pattern. -/
theorem C26_programs (p : SetProg T) (e : Panic) (he : p.run = .error e) : e = .wtf := by
  induction p generalizing e with
  | newSet vs =>
    obtain ⟨s, h1, _⟩ := buildSet_spec vs
    have : (SetProg.newSet vs).run = .ok s := h1
    rw [this] at he; cases he
  | build ops =>
    obtain ⟨b', h1, _⟩ := BuildOp.runAll_spec ops (b := (Tree.zero : Tree T)) Tree.valid_zero
    simp [SetProg.run, h1, bind, Except.bind, pure, Except.pure] at he
  | «with» p v ih =>
    cases hp : p.run with
    | error e' => simp only [SetProg.run, hp, bind, Except.bind] at he; cases he; exact ih _ hp
    | ok s =>
      obtain ⟨_, h1, _⟩ := FSet.with_spec (SetProg.run_spec p hp).1 v
      simp [SetProg.run, hp, h1, bind, Except.bind] at he
  | without p v ih =>
    cases hp : p.run with
    | error e' => simp only [SetProg.run, hp, bind, Except.bind] at he; cases he; exact ih _ hp
    | ok s =>
      obtain ⟨_, h1, _⟩ := FSet.without_spec (SetProg.run_spec p hp).1 v
      simp [SetProg.run, hp, h1, bind, Except.bind] at he
  | «where» p f _ ih =>
    cases hp : p.run with
    | error e' => simp only [SetProg.run, hp, bind, Except.bind] at he; cases he; exact ih _ hp
    | ok s =>
      obtain ⟨_, h1, _⟩ := FSet.where_spec (SetProg.run_spec p hp).1 f
      simp [SetProg.run, hp, h1, bind, Except.bind] at he
  | anyN p n ih =>
    cases hp : p.run with
    | error e' => simp only [SetProg.run, hp, bind, Except.bind] at he; cases he; exact ih _ hp
    | ok s =>
      obtain ⟨_, h1, _⟩ := FSet.anyN_spec (SetProg.run_spec p hp).1 n
      simp [SetProg.run, hp, h1, bind, Except.bind] at he
  | union p q ih1 ih2 =>
    cases hp : p.run with
    | error e' => simp only [SetProg.run, hp, bind, Except.bind] at he; cases he; exact ih1 _ hp
    | ok s =>
      cases hq : q.run with
      | error e' => simp only [SetProg.run, hp, hq, bind, Except.bind] at he; cases he; exact ih2 _ hq
      | ok t =>
        simp only [SetProg.run, hp, hq, bind, Except.bind] at he
        exact (C26_union_panics_only s t ⟨p, hp⟩ ⟨q, hq⟩ e he).1
  | intersection p q ih1 ih2 =>
    cases hp : p.run with
    | error e' => simp only [SetProg.run, hp, bind, Except.bind] at he; cases he; exact ih1 _ hp
    | ok s =>
      cases hq : q.run with
      | error e' => simp only [SetProg.run, hp, hq, bind, Except.bind] at he; cases he; exact ih2 _ hq
      | ok t =>
        obtain ⟨_, h1, _⟩ := FSet.intersection_spec (SetProg.run_spec p hp).1 (SetProg.run_spec q hq).1
        simp [SetProg.run, hp, hq, h1, bind, Except.bind] at he
  | difference p q ih1 ih2 =>
    cases hp : p.run with
    | error e' => simp only [SetProg.run, hp, bind, Except.bind] at he; cases he; exact ih1 _ hp
    | ok s =>
      cases hq : q.run with
      | error e' => simp only [SetProg.run, hp, hq, bind, Except.bind] at he; cases he; exact ih2 _ hq
      | ok t =>
        obtain ⟨_, h1, _⟩ := FSet.difference_spec (SetProg.run_spec p hp).1 (SetProg.run_spec q hq).1
        simp [SetProg.run, hp, hq, h1, bind, Except.bind] at he
  | symmetricDifference p q ih1 ih2 =>
    cases hp : p.run with
    | error e' => simp only [SetProg.run, hp, bind, Except.bind] at he; cases he; exact ih1 _ hp
    | ok s =>
      cases hq : q.run with
      | error e' => simp only [SetProg.run, hp, hq, bind, Except.bind] at he; cases he; exact ih2 _ hq
      | ok t =>
        simp only [SetProg.run, hp, hq, bind, Except.bind] at he
        obtain ⟨h1, h2⟩ := FSet.symmetricDifference_spec (SetProg.run_spec p hp).1 (SetProg.run_spec q hq).1
        by_cases hc : TripleClash (fun w => s.Mem w ∧ ¬ t.Mem w) (fun w => t.Mem w ∧ ¬ s.Mem w)
        · rw [h1 hc] at he; cases he; rfl
        · obtain ⟨u, h3, _⟩ := h2 hc
          rw [h3] at he; cases he

/-- A program that does fail. -/
example : (match (SetProg.union (.newSet [(⟨1⟩ : Coll), ⟨2⟩, ⟨3⟩]) (.newSet [⟨1⟩, ⟨5⟩, ⟨3⟩])).run with
    | .error .wtf => true
    | _ => false) = true := by decide +kernel

/-! ### C28 -/

/-- C28. `SetMap(s, f)` has exactly the images of the (stored) elements of `s`. -/
theorem C28_setMap {U : Type} [GoKey U] [LawfulGoKey U] (s : FSet T) (hs : s.Reachable) (f : T → U) :
    ∃ u l, setMap s f = .ok u ∧ u.Reachable ∧ s.elements = .ok l ∧ ∀ w, u.Mem w ↔ ∃ e ∈ l, GoKey.eq (f e) w = true := by
  obtain ⟨u, h1, h2⟩ := setMap_spec hs.valid f
  obtain ⟨u', g1, g2, _, g4⟩ := buildSet_spec (s.tree.list.map f)
  rw [h2] at g1; cases g1
  exact ⟨u, _, h1, ⟨.newSet _, h2⟩, FSet.elements_spec hs.valid, fun w => by rw [g4]; simp⟩

/-- C28. When `f` respects `Equal`, that is the image of the mathematical set. -/
theorem C28_setMap_image {U : Type} [GoKey U] [LawfulGoKey U] (s : FSet T) (hs : s.Reachable) (f : T → U)
    (hf : ∀ a b, GoKey.eq a b = true → GoKey.eq (f a) (f b) = true) :
    ∃ u, setMap s f = .ok u ∧ ∀ w, u.Mem w ↔ ∃ e, s.Mem e ∧ GoKey.eq (f e) w = true := by
  obtain ⟨u, l, h1, _, h2, h3⟩ := C28_setMap s hs f
  refine ⟨u, h1, fun w => (h3 w).trans ?_⟩
  rw [FSet.elements_spec hs.valid] at h2
  cases h2
  constructor
  · rintro ⟨e, he, hw⟩
    exact ⟨e, (FSet.mem_iff_list hs.valid e).2 ⟨e, he, eq_refl e⟩, hw⟩
  · rintro ⟨e, he, hw⟩
    obtain ⟨x, hx, hxe⟩ := (FSet.mem_iff_list hs.valid e).1 he
    exact ⟨x, hx, PerGoKey.trans (hf x e hxe) hw⟩

/-- C28. `SetAs` gives exactly the set of the converted elements if every element converts, and panics if one does not. -/
theorem C28_setAs {U : Type} [GoKey U] [LawfulGoKey U] (s : FSet T) (hs : s.Reachable) (cast : T → Option U) :
    ∃ l, s.elements = .ok l ∧
      ((∀ e ∈ l, (cast e).isSome = true) → ∃ u, setAs cast s = .ok u ∧ u.Reachable ∧
        ∀ w, u.Mem w ↔ ∃ e ∈ l, ∃ x, cast e = some x ∧ GoKey.eq x w = true) ∧
      ((∃ e ∈ l, cast e = none) → setAs cast s = .error (.msg "interface conversion")) := by
  obtain ⟨h1, h2⟩ := setAs_spec hs.valid cast
  refine ⟨_, FSet.elements_spec hs.valid, fun hall => ?_, h2⟩
  have hus : ∀ l : List T, (∀ e ∈ l, (cast e).isSome = true) → l.map cast = (l.filterMap cast).map some := by
    intro l
    induction l with
    | nil => intro _; rfl
    | cons a l ih =>
      intro h
      obtain ⟨u, hu⟩ := Option.isSome_iff_exists.1 (h a (by simp))
      simp [hu, ih (fun e he => h e (by simp [he]))]
  obtain ⟨u, g1, g2, _, g4⟩ := buildSet_spec (s.tree.list.filterMap cast)
  refine ⟨u, by rw [h1 _ (hus _ hall), g1], ⟨.newSet _, g1⟩, fun w => ?_⟩
  rw [g4]
  simp only [List.mem_filterMap]
  constructor
  · rintro ⟨x, ⟨e, he, hx⟩, hw⟩; exact ⟨e, he, x, hx, hw⟩
  · rintro ⟨e, he, x, hx, hw⟩; exact ⟨x, ⟨e, he, hx⟩, hw⟩

/-- C28. `AsSetAny` has exactly the same elements, as values of the wider type. -/
theorem C28_asSetAny {U : Type} [GoKey U] [LawfulGoKey U] (s : FSet T) (hs : s.Reachable) (inj : T → U)
    (hinj : ∀ a b, GoKey.eq (inj a) (inj b) = GoKey.eq a b) :
    ∃ u, asSetAny inj s = .ok u ∧ u.Reachable ∧ (∀ v, u.Mem (inj v) ↔ s.Mem v) ∧ u.count = s.count := by
  obtain ⟨u, g1, g2, _, g4⟩ := buildSet_spec (s.tree.list.map inj)
  have hd : Distinct (s.tree.list.map inj) := by
    unfold Distinct
    rw [List.pairwise_map]
    exact List.Pairwise.imp (fun {a b} h => by rw [hinj]; exact h) hs.valid.distinct
  refine ⟨u, ?_, ⟨.newSet _, g1⟩, fun v => ?_, ?_⟩
  · simp only [asSetAny, FSet.rangeList_spec hs.valid, bind, Except.bind, g1]
  · rw [g4, FSet.mem_iff_list hs.valid]
    simp [hinj]
  · rw [buildSet_length hd g2 g4, List.length_map]
    exact hs.valid.count_eq.symm

/-- C28. n-ary `Union`: whenever it returns, exactly the elements of some operand. -/
theorem C28_union (sets : List (FSet T)) (hs : ∀ s ∈ sets, s.Reachable) (u : FSet T) (hu : nUnion sets = .ok u) (w : T) :
    u.Mem w ↔ ∃ s ∈ sets, s.Mem w := by
  rw [(foldl_union_spec sets FSet.valid_zero (fun s h => (hs s h).valid) hu).2 w]
  simp [FSet.mem_zero]

/-- C28. Exactly when n-ary `Union` panics: some operand has the collision pattern with the union of those before it. -/
theorem C28_union_panics (sets : List (FSet T)) (hs : ∀ s ∈ sets, s.Reachable) :
    (nUnion sets = .error .wtf ↔ ∃ before s after, sets = before ++ s :: after ∧ TripleClash (fun w => ∃ r ∈ before, r.Mem w) s.Mem) ∧
    (nUnion sets ≠ .error .wtf → ∃ u, nUnion sets = .ok u ∧ ∀ w, u.Mem w ↔ ∃ s ∈ sets, s.Mem w) := by
  have key : ∀ (l : List (FSet T)) (r : FSet T) (pre : List (FSet T)), (∀ s ∈ l, s.Valid) → r.Valid → (∀ w, r.Mem w ↔ ∃ x ∈ pre, x.Mem w) →
      (l.foldlM (fun r s => r.union s) r = .error .wtf ↔
        ∃ before s after, l = before ++ s :: after ∧ TripleClash (fun w => ∃ x ∈ pre ++ before, x.Mem w) s.Mem) ∧
      (l.foldlM (fun r s => r.union s) r ≠ .error .wtf → ∃ u, l.foldlM (fun r s => r.union s) r = .ok u) := by
    intro l
    induction l with
    | nil =>
      intro r pre _ _ _
      refine ⟨⟨fun h => (nomatch h), ?_⟩, fun _ => ⟨r, rfl⟩⟩
      rintro ⟨before, s, after, h, _⟩
      simp at h
    | cons t l ih =>
      intro r pre hv hr hm
      obtain ⟨h1, h2⟩ := FSet.union_spec hr (hv t (by simp))
      have hc : TripleClash r.Mem t.Mem ↔ TripleClash (fun w => ∃ x ∈ pre, x.Mem w) t.Mem := TripleClash.congr hm (fun _ => Iff.rfl)
      rw [List.foldlM_cons]
      by_cases hcl : TripleClash r.Mem t.Mem
      · rw [h1 hcl]
        exact ⟨⟨fun _ => ⟨[], t, l, rfl, by simpa using hc.1 hcl⟩, fun _ => rfl⟩, fun h => absurd rfl h⟩
      · obtain ⟨a, ha, ha2, _, ha3⟩ := h2 hcl
        rw [ha]
        obtain ⟨i1, i2⟩ := ih a (pre ++ [t]) (fun s h => hv s (by simp [h])) ha2 (fun w => by
          rw [ha3, hm]
          simp [or_and_right, exists_or])
        refine ⟨i1.trans ⟨?_, ?_⟩, i2⟩
        · rintro ⟨before, s, after, h, hx⟩
          exact ⟨t :: before, s, after, by rw [h]; rfl, by rw [List.append_assoc] at hx; exact hx⟩
        · rintro ⟨before, s, after, h, hx⟩
          cases before with
          | nil =>
            cases h
            exact absurd (hc.2 (by simpa using hx)) hcl
          | cons b before =>
            cases h
            exact ⟨before, s, after, rfl, by rw [List.append_assoc]; exact hx⟩
  obtain ⟨k1, k2⟩ := key sets FSet.zero [] (fun s h => (hs s h).valid) FSet.valid_zero (fun w => by simp [FSet.mem_zero])
  refine ⟨k1, fun h => ?_⟩
  obtain ⟨u, hu⟩ := k2 h
  exact ⟨u, hu, C28_union sets hs u hu⟩

/-- C28. n-ary `Intersection` of at least one set returns exactly the common elements; of none it panics. -/
theorem C28_intersection (sets : List (FSet T)) (hs : ∀ s ∈ sets, s.Reachable) :
    (sets ≠ [] → ∃ u, nIntersection sets = .ok u ∧ ∀ w, u.Mem w ↔ ∀ s ∈ sets, s.Mem w) ∧
    nIntersection ([] : List (FSet T)) = .error (.msg "must have at least one set to intersect") := by
  refine ⟨fun hne => ?_, rfl⟩
  cases sets with
  | nil => exact absurd rfl hne
  | cons s sets =>
    obtain ⟨u, h1, _, h3⟩ := foldl_inter_spec (s :: sets) (hs s (by simp)).valid (fun s h => (hs s h).valid)
    refine ⟨u, h1, fun w => ?_⟩
    rw [h3]
    constructor
    · exact fun h => h.2
    · exact fun h => ⟨h s (by simp), h⟩

/-- A function that identifies elements, a partial conversion, an injection, and three operands. -/
example : ∃ s : FSet Mod100, s.Reachable ∧ s.count = 4 := exampleSet
example : okAnd (newSet [(⟨1⟩ : Mod100), ⟨2⟩, ⟨3⟩, ⟨44⟩]) (fun s =>
    okAnd (setMap s (fun e => (⟨e.n % 2⟩ : Coll))) (fun u => decide (u.count = 2)) &&
    okAnd (setAs (fun e => if e.n < 50 then some (⟨e.n⟩ : Coll) else none) s) (fun u => decide (u.count = 4)) &&
    okAnd (asSetAny (fun e => (⟨e.n % 100⟩ : Coll)) s) (fun u => decide (u.count = 4)) &&
    okAnd (nUnion [s, s, FSet.zero]) (fun u => decide (u.count = 4)) &&
    okAnd (nIntersection [s, FSet.zero, s]) (fun u => decide (u.count = 0))) = true := by decide +kernel

/-- Three elements with one hash in an operand and in the union of those before it: `Union` panics; with two, it returns. -/
example : okAnd (newSet [(⟨1⟩ : Coll), ⟨2⟩]) (fun a => okAnd (newSet [(⟨3⟩ : Coll)]) (fun b => okAnd (newSet [(⟨4⟩ : Coll), ⟨5⟩, ⟨6⟩]) (fun c =>
    (match nUnion [a, FSet.zero, b, c, a] with
    | .error .wtf => true
    | _ => false) && okAnd (nUnion [a, FSet.zero, c, b, a]) (fun u => decide (u.count = 6))))) = true := by decide +kernel

/-! ### C41 -/

/-- C41. `Union`: commutative, associative, idempotent, up to `Equal`, whenever the calls return; and it panics symmetrically. -/
theorem C41_union (s t u : FSet T) (hs : s.Reachable) (ht : t.Reachable) (hu : u.Reachable) :
    (∀ a b, s.union t = .ok a → t.union s = .ok b → a.equal b = .ok true) ∧
    (s.union t = .error .wtf ↔ t.union s = .error .wtf) ∧
    (∀ a, s.union s = .ok a → a.equal s = .ok true) ∧
    (∀ st a tu b, s.union t = .ok st → st.union u = .ok a → t.union u = .ok tu → s.union tu = .ok b → a.equal b = .ok true) := by
  have vs := hs.valid
  have vt := ht.valid
  have vu := hu.valid
  refine ⟨fun a b ha hb => ?_, ?_, fun a ha => ?_, fun st a tu b h1 h2 h3 h4 => ?_⟩
  · obtain ⟨a1, a2⟩ := FSet.union_ok vs vt ha
    obtain ⟨b1, b2⟩ := FSet.union_ok vt vs hb
    exact FSet.equal_of_mem a1 b1 (fun w => by rw [a2, b2, or_comm])
  · obtain ⟨h1, h2⟩ := FSet.union_spec vs vt
    obtain ⟨g1, g2⟩ := FSet.union_spec vt vs
    by_cases hc : TripleClash s.Mem t.Mem
    · rw [h1 hc, g1 hc.symm]
    · obtain ⟨x, hx, _⟩ := h2 hc
      obtain ⟨y, hy, _⟩ := g2 (fun h => hc h.symm)
      rw [hx, hy]
      constructor <;> intro h <;> cases h
  · obtain ⟨a1, a2⟩ := FSet.union_ok vs vs ha
    exact FSet.equal_of_mem a1 vs (fun w => by rw [a2, or_self])
  · obtain ⟨a1, a2⟩ := FSet.union_ok vs vt h1
    obtain ⟨b1, b2⟩ := FSet.union_ok a1 vu h2
    obtain ⟨c1, c2⟩ := FSet.union_ok vt vu h3
    obtain ⟨d1, d2⟩ := FSet.union_ok vs c1 h4
    exact FSet.equal_of_mem b1 d1 (fun w => by rw [b2, a2, d2, c2, or_assoc])

/-- C41. `Intersection`: commutative, associative, idempotent, up to `Equal`. -/
theorem C41_intersection (s t u : FSet T) (hs : s.Reachable) (ht : t.Reachable) (hu : u.Reachable) :
    (∃ a b, s.intersection t = .ok a ∧ t.intersection s = .ok b ∧ a.equal b = .ok true) ∧
    (∃ a, s.intersection s = .ok a ∧ a.equal s = .ok true) ∧
    (∃ st a tu b, s.intersection t = .ok st ∧ st.intersection u = .ok a ∧ t.intersection u = .ok tu ∧ s.intersection tu = .ok b ∧
      a.equal b = .ok true) := by
  have vs := hs.valid
  have vt := ht.valid
  have vu := hu.valid
  obtain ⟨st, a1, a2, a3, _⟩ := FSet.intersection_spec vs vt
  obtain ⟨ts, b1, b2, b3, _⟩ := FSet.intersection_spec vt vs
  obtain ⟨ss, c1, c2, c3, _⟩ := FSet.intersection_spec vs vs
  obtain ⟨tu, d1, d2, d3, _⟩ := FSet.intersection_spec vt vu
  obtain ⟨x, e1, e2, e3, _⟩ := FSet.intersection_spec a2 vu
  obtain ⟨y, f1, f2, f3, _⟩ := FSet.intersection_spec vs d2
  exact ⟨⟨_, _, a1, b1, FSet.equal_of_mem a2 b2 (fun w => by rw [a3, b3, and_comm])⟩,
    ⟨_, c1, FSet.equal_of_mem c2 vs (fun w => by rw [c3, and_self])⟩,
    ⟨_, _, _, _, a1, e1, d1, f1, FSet.equal_of_mem e2 f2 (fun w => by rw [e3, a3, f3, d3, and_assoc])⟩⟩

/-- C41. The distributive laws, whenever the unions return. -/
theorem C41_distributive (s t u : FSet T) (hs : s.Reachable) (ht : t.Reachable) (hu : u.Reachable) :
    (∀ tu a st su b, t.union u = .ok tu → s.intersection tu = .ok a → s.intersection t = .ok st → s.intersection u = .ok su →
      st.union su = .ok b → a.equal b = .ok true) ∧
    (∀ tu a st su b, t.intersection u = .ok tu → s.union tu = .ok a → s.union t = .ok st → s.union u = .ok su →
      st.intersection su = .ok b → a.equal b = .ok true) := by
  have vs := hs.valid
  have vt := ht.valid
  have vu := hu.valid
  have inter : ∀ {x y z : FSet T}, x.Valid → y.Valid → x.intersection y = .ok z → z.Valid ∧ ∀ w, z.Mem w ↔ x.Mem w ∧ y.Mem w := by
    intro x y z hx hy h
    obtain ⟨z', h1, h2, h3, _⟩ := FSet.intersection_spec hx hy
    rw [h1] at h; cases h
    exact ⟨h2, h3⟩
  constructor
  · intro tu a st su b h1 h2 h3 h4 h5
    obtain ⟨a1, a2⟩ := FSet.union_ok vt vu h1
    obtain ⟨b1, b2⟩ := inter vs a1 h2
    obtain ⟨c1, c2⟩ := inter vs vt h3
    obtain ⟨d1, d2⟩ := inter vs vu h4
    obtain ⟨e1, e2⟩ := FSet.union_ok c1 d1 h5
    exact FSet.equal_of_mem b1 e1 (fun w => by rw [b2, a2, e2, c2, d2, and_or_left])
  · intro tu a st su b h1 h2 h3 h4 h5
    obtain ⟨a1, a2⟩ := inter vt vu h1
    obtain ⟨b1, b2⟩ := FSet.union_ok vs a1 h2
    obtain ⟨c1, c2⟩ := FSet.union_ok vs vt h3
    obtain ⟨d1, d2⟩ := FSet.union_ok vs vu h4
    obtain ⟨e1, e2⟩ := inter c1 d1 h5
    exact FSet.equal_of_mem b1 e1 (fun w => by rw [b2, a2, e2, c2, d2, or_and_left])

/-- C41. De Morgan's laws for `Difference`, whenever the unions return. -/
theorem C41_deMorgan (s t u : FSet T) (hs : s.Reachable) (ht : t.Reachable) (hu : u.Reachable) :
    (∀ tu a x y b, t.union u = .ok tu → s.difference tu = .ok a → s.difference t = .ok x → s.difference u = .ok y →
      x.intersection y = .ok b → a.equal b = .ok true) ∧
    (∀ tu a x y b, t.intersection u = .ok tu → s.difference tu = .ok a → s.difference t = .ok x → s.difference u = .ok y →
      x.union y = .ok b → a.equal b = .ok true) := by
  have vs := hs.valid
  have vt := ht.valid
  have vu := hu.valid
  have inter : ∀ {x y z : FSet T}, x.Valid → y.Valid → x.intersection y = .ok z → z.Valid ∧ ∀ w, z.Mem w ↔ x.Mem w ∧ y.Mem w := by
    intro x y z hx hy h
    obtain ⟨z', h1, h2, h3, _⟩ := FSet.intersection_spec hx hy
    rw [h1] at h; cases h
    exact ⟨h2, h3⟩
  have diff : ∀ {x y z : FSet T}, x.Valid → y.Valid → x.difference y = .ok z → z.Valid ∧ ∀ w, z.Mem w ↔ x.Mem w ∧ ¬ y.Mem w := by
    intro x y z hx hy h
    obtain ⟨z', h1, h2, _, h3⟩ := FSet.difference_spec hx hy
    rw [h1] at h; cases h
    exact ⟨h2, h3⟩
  constructor
  · intro tu a x y b h1 h2 h3 h4 h5
    obtain ⟨a1, a2⟩ := FSet.union_ok vt vu h1
    obtain ⟨b1, b2⟩ := diff vs a1 h2
    obtain ⟨c1, c2⟩ := diff vs vt h3
    obtain ⟨d1, d2⟩ := diff vs vu h4
    obtain ⟨e1, e2⟩ := inter c1 d1 h5
    exact FSet.equal_of_mem b1 e1 (fun w => by rw [b2, a2, e2, c2, d2]; tauto)
  · intro tu a x y b h1 h2 h3 h4 h5
    obtain ⟨a1, a2⟩ := inter vt vu h1
    obtain ⟨b1, b2⟩ := diff vs a1 h2
    obtain ⟨c1, c2⟩ := diff vs vt h3
    obtain ⟨d1, d2⟩ := diff vs vu h4
    obtain ⟨e1, e2⟩ := FSet.union_ok c1 d1 h5
    exact FSet.equal_of_mem b1 e1 (fun w => by rw [b2, a2, e2, c2, d2]; tauto)

/-- C41. `With` is idempotent; adding and removing an absent element gives the same set back. -/
theorem C41_with (s : FSet T) (hs : s.Reachable) (v : T) :
    (∃ a b, s.with v = .ok a ∧ a.with v = .ok b ∧ a.equal b = .ok true) ∧
    (s.has v = .ok false → ∃ a b, s.with v = .ok a ∧ a.without v = .ok b ∧ b.equal s = .ok true) ∧
    (s.has v = .ok true → ∃ a, s.with v = .ok a ∧ a.equal s = .ok true) := by
  have vs := hs.valid
  obtain ⟨a, a1, a2, _, a3⟩ := FSet.with_spec vs v
  obtain ⟨b, b1, b2, _, b3⟩ := FSet.with_spec a2 v
  obtain ⟨c, c1, c2, _, c3⟩ := FSet.without_spec a2 v
  refine ⟨⟨a, b, a1, b1, FSet.equal_of_mem a2 b2 (fun w => by rw [b3, a3, or_assoc, or_self])⟩, fun hv => ?_, fun hv => ?_⟩
  · refine ⟨a, c, a1, c1, FSet.equal_of_mem c2 vs (fun w => ?_)⟩
    rw [c3, a3]
    constructor
    · rintro ⟨h | h, h'⟩
      · exact h
      · exact absurd h h'
    · intro h
      refine ⟨.inl h, fun h' => ?_⟩
      have : s.Mem v := (FSet.mem_congr vs h').2 h
      unfold FSet.Mem at this
      rw [hv] at this; cases this
  · refine ⟨a, a1, FSet.equal_of_mem a2 vs (fun w => ?_)⟩
    rw [a3]
    constructor
    · rintro (h | h)
      · exact h
      · exact (FSet.mem_congr vs h).1 hv
    · exact .inl

/-- The unions do return on concrete sets, colliding elements included. -/
example : okAnd (newSet [(⟨1⟩ : Coll), ⟨2⟩]) (fun s => okAnd (newSet [(⟨3⟩ : Coll)]) (fun t => okAnd (newSet [(⟨4⟩ : Coll), ⟨1⟩]) (fun u =>
    okAnd (t.union u) (fun tu => okAnd (s.union tu) (fun a => okAnd (s.union t) (fun st => okAnd (st.union u) (fun b =>
      isOk (a.equal b) true && decide (a.count = 4)))))))) = true := by decide +kernel

end Frozen
