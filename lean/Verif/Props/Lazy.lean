import Verif.Proof.LazyClient
import Verif.Props.Witness

/-!
# C33 to C38: lazy sets

The vocabulary (`LCmd`, `LState.run`, `specRun`, `GoodRun`, `AllowedRun`, `Runs`) is in `Spec/Lazy.lean`. A theorem here speaks of a
client that has performed any list of calls, creating sets and iterators and advancing the iterators in any order, and then asks
one more question of any set it holds. `(specAt (specRun [] cs) i).den` is the mathematical set that the client's set number `i`
denotes.

The full properties, over all histories in `AllowedRun`, are false of the code and are refuted beside the theorems. The `_partial`
theorems cover the histories in `GoodRun`: the right operand of `Intersection` and `Difference` (both operands of
`SymmetricDifference`) must not itself contain a `Difference`, because `differenceSet.Has` (lazy/set_diff.go:20-22) is wrong.
-/

set_option linter.unusedSectionVars false

namespace Frozen

section
variable {T : Type} [GoKey T] [LawfulGoKey T]

/-! ### C33: iteration and `Freeze` -/

/-- C33. After any covered history, a client's sets are those it has made, and iterating any of them ends and delivers exactly the
elements it denotes; each once, unless it is a union, or a `Difference` from a union, that the code hands out without its cache. -/
theorem C33_iteration_partial (cs : List (LCmd T)) (h : GoodRun [] 0 cs) :
    ∃ st, Runs (fun n => LState.init.run n cs) st ∧ st.sets.length = (specRun [] cs).length ∧
      ∀ i s, st.sets[i]? = some s → ∃ vs σ', Runs (fun n => LSet.values n st.store s) (vs, σ') ∧
        (∀ w, (specAt (specRun [] cs) i).den w ↔ ∃ v ∈ vs, GoKey.eq v w = true) ∧
        ((specAt (specRun [] cs) i).once → Lists vs (specAt (specRun [] cs) i).den) := by
  obtain ⟨st, E, h1, h2⟩ := hist_spec cs h
  refine ⟨st, h1, h2.len, fun i s hi => ?_⟩
  obtain ⟨vs, σ', g1, _, _, g2⟩ := values_spec h2.store (h2.sets i s hi)
  exact ⟨vs, σ', g1, g2⟩

/-- C33. After any covered history, `Freeze` of any set returns a frozen set with exactly the elements denoted: its `Has`, its
elements and its `Count` are right. -/
theorem C33_freeze_partial (cs : List (LCmd T)) (h : GoodRun [] 0 cs) :
    ∃ st, Runs (fun n => LState.init.run n cs) st ∧
      ∀ i s, st.sets[i]? = some s → ∃ f σ', Runs (fun n => LSet.freeze n st.store s) (.frozen f, σ') ∧
        (∀ w, f.has w = .ok true ↔ (specAt (specRun [] cs) i).den w) ∧
        ∃ l, f.elements = .ok l ∧ Lists l (specAt (specRun [] cs) i).den ∧ f.count = l.length := by
  obtain ⟨st, E, h1, h2⟩ := hist_spec cs h
  refine ⟨st, h1, fun i s hi => ?_⟩
  obtain ⟨f, σ', E', g1, _, g2, g3⟩ := freeze_spec h2.store (h2.sets i s hi)
  exact ⟨f, σ', g1, g3, _, FSet.elements_spec g2, (FSet.lists g2).congr g3, Tree.Valid.count_eq (t := f.tree) g2⟩

/-! ### C34: `Has` and `FastHas` -/

/-- C34. After any covered history `Has` ends; on sets built without `Difference`, `SymmetricDifference` and lazy `Without` it is
right. -/
theorem C34_has_partial (cs : List (LCmd T)) (h : GoodRun [] 0 cs) :
    ∃ st, Runs (fun n => LState.init.run n cs) st ∧
      ∀ i s, st.sets[i]? = some s → ∀ el, ∃ b σ', Runs (fun n => LSet.has n st.store s el) (b, σ') ∧
        ((specAt (specRun [] cs) i).safe → (b = true ↔ (specAt (specRun [] cs) i).den el)) := by
  obtain ⟨st, E, h1, h2⟩ := hist_spec cs h
  refine ⟨st, h1, fun i s hi el => ?_⟩
  obtain ⟨b, σ', g1, _, _, g2⟩ := has_spec' h2.store (h2.sets i s hi) el
  exact ⟨b, σ', g1, g2⟩

/-- C34. After any covered history `FastHas` ends; on sets built without lazy `Union`, `With`, `Difference`, `Without` and
`SymmetricDifference` (`Where` and `Map` hide these) its answer, if it gives one, is right. -/
theorem C34_fastHas_partial (cs : List (LCmd T)) (h : GoodRun [] 0 cs) :
    ∃ st, Runs (fun n => LState.init.run n cs) st ∧
      ∀ i s, st.sets[i]? = some s → ∀ el, ∃ o, Runs (fun n => LSet.fastHas st.store n s el) o ∧
        ((specAt (specRun [] cs) i).fast → ∀ b, o = some b → (b = true ↔ (specAt (specRun [] cs) i).den el)) := by
  obtain ⟨st, E, h1, h2⟩ := hist_spec cs h
  refine ⟨st, h1, fun i s hi el => ?_⟩
  have hs := h2.sets i s hi
  obtain ⟨o, g1, g2⟩ := fastHas_spec h2.store hs.iok hs.rk el
  exact ⟨o, g1, fun hf b hb => (g2 (hs.fast hf) b hb).trans (hs.den el)⟩

/-! ### C35: `IsEmpty`, `Count` and their fast variants -/

/-- C35. After any covered history `IsEmpty` is right, and so is `FastIsEmpty` if it answers. -/
theorem C35_isEmpty_partial (cs : List (LCmd T)) (h : GoodRun [] 0 cs) :
    ∃ st, Runs (fun n => LState.init.run n cs) st ∧
      ∀ i s, st.sets[i]? = some s →
        (∃ b σ', Runs (fun n => LSet.isEmpty n st.store s) (b, σ') ∧ (b = true ↔ ∀ w, ¬ (specAt (specRun [] cs) i).den w)) ∧
        ∃ o, Runs (fun n => LSet.fastIsEmpty st.store n s) o ∧ ∀ b, o = some b → (b = true ↔ ∀ w, ¬ (specAt (specRun [] cs) i).den w) := by
  obtain ⟨st, E, h1, h2⟩ := hist_spec cs h
  refine ⟨st, h1, fun i s hi => ?_⟩
  have hs := h2.sets i s hi
  obtain ⟨b, σ', g1, _, _, g2⟩ := isEmpty_spec h2.store hs
  obtain ⟨o, k1, k2⟩ := fastIsEmpty_spec h2.store hs.iok hs.rk
  exact ⟨⟨b, σ', g1, g2⟩, o, k1, fun b hb => (k2 b hb).trans (forall_congr' fun w => not_congr (hs.den w))⟩

/-- C35. After any covered history every set is finite, `Count` ends, and it is the number of elements (if that is an `int`) unless
a lazy `Union` of overlapping sets, a lazy `With` of an element already there, or a lazy `Map` that is not one-to-one went into the
set (as the left operand, if the operation is `Intersection` or `Difference`). -/
theorem C35_count_partial (cs : List (LCmd T)) (h : GoodRun [] 0 cs) :
    ∃ st, Runs (fun n => LState.init.run n cs) st ∧
      ∀ i s, st.sets[i]? = some s → ∃ k σ' c, Runs (fun n => LSet.count n st.store s) (k, σ') ∧ HasCard (specAt (specRun [] cs) i).den c ∧
        ((specAt (specRun [] cs) i).plain → c ≤ maxInt → k = c) := by
  obtain ⟨st, E, h1, h2⟩ := hist_spec cs h
  refine ⟨st, h1, fun i s hi => ?_⟩
  obtain ⟨k, σ', g1, _, _, g2⟩ := count_spec h2.store (h2.sets i s hi)
  obtain ⟨f, σ'', E', f1, _, f2, f3⟩ := freeze_spec h2.store (h2.sets i s hi)
  have hl := (FSet.lists f2).congr f3
  exact ⟨k, σ', _, g1, ⟨_, hl, rfl⟩, fun hp hc => g2 hp _ hl hc⟩

/-- C35. `CountUpTo(limit)` is the number of elements cut off at `limit`, and so is the answer of `FastCountUpTo`, on the same sets
as `C35_count_partial`. -/
theorem C35_countUpTo_partial (cs : List (LCmd T)) (h : GoodRun [] 0 cs) :
    ∃ st, Runs (fun n => LState.init.run n cs) st ∧
      ∀ i s, st.sets[i]? = some s → ∀ limit : Int, 0 ≤ limit → ∃ c, HasCard (specAt (specRun [] cs) i).den c ∧
        (∃ k σ', Runs (fun n => LSet.countUpTo n st.store s limit) (k, σ') ∧ ((specAt (specRun [] cs) i).plain → k = min limit c)) ∧
        ∃ o σ', Runs (fun n => LSet.fastCountUpTo n st.store s limit) (o, σ') ∧
          ((specAt (specRun [] cs) i).plain → ∀ k, o = some k → k = min limit c) := by
  obtain ⟨st, E, h1, h2⟩ := hist_spec cs h
  refine ⟨st, h1, fun i s hi limit h0 => ?_⟩
  obtain ⟨f, σ'', E', f1, _, f2, f3⟩ := freeze_spec h2.store (h2.sets i s hi)
  have hl := (FSet.lists f2).congr f3
  obtain ⟨k, σ', g1, _, _, g2⟩ := countUpTo_spec h2.store (h2.sets i s hi) h0
  obtain ⟨o, σ3, k1, _, _, k2⟩ := fastCountUpTo_spec h2.store (h2.sets i s hi) h0
  exact ⟨_, ⟨_, hl, rfl⟩, ⟨k, σ', g1, fun hp => g2 hp _ hl⟩, o, σ3, k1, fun hp k hk => k2 hp k hk _ hl⟩

/-- C35. After any covered history the answer of `FastCount`, if it gives one, is the number of elements. -/
theorem C35_fastCount_partial (cs : List (LCmd T)) (h : GoodRun [] 0 cs) :
    ∃ st, Runs (fun n => LState.init.run n cs) st ∧
      ∀ i s, st.sets[i]? = some s → ∃ o, LSet.fastCount st.store s = .ok o ∧
        ∀ k, o = some k → HasCard (specAt (specRun [] cs) i).den k := by
  obtain ⟨st, E, h1, h2⟩ := hist_spec cs h
  refine ⟨st, h1, fun i s hi => ?_⟩
  obtain ⟨f, σ'', E', f1, _, f2, f3⟩ := freeze_spec h2.store (h2.sets i s hi)
  have hl := (FSet.lists f2).congr f3
  obtain ⟨o, g1, g2⟩ := fastCount_spec h2.store (h2.sets i s hi)
  exact ⟨o, g1, fun k hk => ⟨_, hl, (g2 k hk _ hl).symm⟩⟩

/-! ### C36: memoisation is transparent -/

/-- C36. Iterators over any sets, advanced in any order and interleaved with anything else a client does, abandoned or not: each
has delivered only elements of its set, all of them once `Next` has returned false, and if it is drained from where it is, what it
has delivered and what it will deliver together are the elements of the set (each once, under the condition of C33). Clients that
call `Next` on an iterator whose `Next` has returned false are not covered. That the sets keep denoting the same elements is in the
other theorems here, since their histories contain such iterations. -/
theorem C36_iterators_partial (cs : List (LCmd T)) (h : GoodRun [] 0 cs) :
    ∃ st, Runs (fun n => LState.init.run n cs) st ∧
      ∀ (k : Nat) (c : LCursor T), st.iters[k]? = some c →
        (∀ v ∈ c.got, (specAt (specRun [] cs) c.src).den v) ∧
        ((specAt (specRun [] cs) c.src).once → PairwiseDifferent c.got) ∧
        (c.ended = true → ∀ w, (specAt (specRun [] cs) c.src).den w ↔ ∃ v ∈ c.got, GoKey.eq v w = true) ∧
        (c.ended = false → ∃ vs σ', Runs (fun n => LIter.values n st.store c.iter) (vs, σ') ∧
          (∀ w, (specAt (specRun [] cs) c.src).den w ↔ ∃ v ∈ c.got ++ vs, GoKey.eq v w = true) ∧
          ((specAt (specRun [] cs) c.src).once → PairwiseDifferent (c.got ++ vs))) := by
  obtain ⟨st, E, h1, h2⟩ := hist_spec cs h
  refine ⟨st, h1, fun k c hc => ?_⟩
  have hc := h2.iters k c hc
  refine ⟨fun v hv => ?_, hc.once, hc.dead, fun he => ?_⟩
  · cases he : c.ended with
    | true => exact (hc.dead he v).2 ⟨v, hv, LawfulGoKey.refl v⟩
    | false => exact ((hc.live he).2.2.1 v).2 (.inl ⟨v, hv, LawfulGoKey.refl v⟩)
  · obtain ⟨g1, g2, g3, g4⟩ := hc.live he
    obtain ⟨vs, σ', t1, t2, t3, t4, t5, _⟩ := ltrace_spec h2.store g1 g2
    refine ⟨vs, σ', t1.values, fun w => ?_, fun ho => ?_⟩
    · rw [g3, t4]
      constructor
      · rintro (⟨v, hv, e⟩ | ⟨v, hv, e⟩)
        · exact ⟨v, List.mem_append_left _ hv, e⟩
        · exact ⟨v, List.mem_append_right _ hv, e⟩
      · rintro ⟨v, hv, e⟩
        rcases List.mem_append.1 hv with hv | hv
        · exact .inl ⟨v, hv, e⟩
        · exact .inr ⟨v, hv, e⟩
    · obtain ⟨k1, k2⟩ := g4 ho
      refine List.pairwise_append.2 ⟨hc.once ho, ?_, fun v hv u hu => ?_⟩
      · rcases k1 with k1 | k1
        · exact t5 k1
        · cases vs with
          | nil => exact List.Pairwise.nil
          | cons v vs => exact (k1 v ((t4 v).2 ⟨v, by simp, LawfulGoKey.refl v⟩)).elim
      · cases e : GoKey.eq v u with
        | false => rfl
        | true => exact (k2 v hv ((t4 v).2 ⟨u, hu, PerGoKey.symm e⟩)).elim

/-! ### C37: the lazy powerset -/

/-- C37. After any covered history, iterating `powerset` of a set of fewer than 64 elements ends and delivers exactly its subsets,
each once. `powerset` wraps its result in the cache of set_memo.go, which is not part of this statement. -/
theorem C37_uncached_powerset (cs : List (LCmd T)) (h : GoodRun [] 0 cs) :
    ∃ st, Runs (fun n => LState.init.run n cs) st ∧
      ∀ i s, st.sets[i]? = some s → (specAt (specRun [] cs) i).once → ∀ m : Nat, HasCard (specAt (specRun [] cs) i).den m → m < 64 →
        ∃ fs σ', Runs (fun n => LPow.range n st.store s >>= fun p => LPow.values n st.store p) (fs, σ') ∧
          fs.length = 2 ^ m ∧
          (∀ f ∈ fs, ∀ e, f.has e = .ok true → (specAt (specRun [] cs) i).den e) ∧
          fs.Pairwise (fun f g => ¬ ∀ e, f.has e = .ok true ↔ g.has e = .ok true) ∧
          ∀ Q : T → Prop, (∀ a b, GoKey.eq a b = true → (Q a ↔ Q b)) → (∀ e, Q e → (specAt (specRun [] cs) i).den e) →
            ∃ f ∈ fs, ∀ e, f.has e = .ok true ↔ Q e := by
  obtain ⟨st, E, h1, h2⟩ := hist_spec cs h
  refine ⟨st, h1, fun i s hi ho m hm hm' => ?_⟩
  obtain ⟨l, hl, hl2⟩ := hm
  obtain ⟨L, fs, σ', g1, _, _, g2, g3⟩ := pow_values_spec h2.store (h2.sets i s hi) ho hl (by omega)
  obtain ⟨k1, k2, k3, k4⟩ := powList_all g2 g3
  refine ⟨fs, σ', g1, ?_, fun f hf => (k2 f hf).2, k3, k4⟩
  rw [k1, g2.length_eq hl, show l.length = m by omega]

/-- C37. `Count` of the powerset of a set of fewer than 63 elements on which `Count` is right. -/
theorem C37_uncached_count (cs : List (LCmd T)) (h : GoodRun [] 0 cs) :
    ∃ st, Runs (fun n => LState.init.run n cs) st ∧
      ∀ i s, st.sets[i]? = some s → (specAt (specRun [] cs) i).plain → ∀ m : Nat, HasCard (specAt (specRun [] cs) i).den m → m < 63 →
        ∃ σ', Runs (fun n => powCount n st.store s) (2 ^ m, σ') := by
  obtain ⟨st, E, h1, h2⟩ := hist_spec cs h
  refine ⟨st, h1, fun i s hi hp m hm hm' => ?_⟩
  obtain ⟨l, hl, hl2⟩ := hm
  obtain ⟨k, σ', g1, _, _, g2⟩ := powCount_spec h2.store (h2.sets i s hi) hp hl (by omega)
  rw [g2, show l.length = m by omega] at g1
  exact ⟨σ', g1⟩

/-- C37. `FastCount` and `FastCountUpTo` of the powerset of a set of m < 63 elements: if they answer, with 2^m, cut off at the limit. -/
theorem C37_uncached_fastCount (cs : List (LCmd T)) (h : GoodRun [] 0 cs) :
    ∃ st, Runs (fun n => LState.init.run n cs) st ∧
      ∀ i s, st.sets[i]? = some s → ∀ m : Nat, HasCard (specAt (specRun [] cs) i).den m → m < 63 →
        (∃ o, powFastCount st.store s = .ok o ∧ ∀ k, o = some k → k = 2 ^ m) ∧
        ∀ limit : Int, ∃ o, powFastCountUpTo st.store s limit = .ok o ∧ ∀ k, o = some k → k = min (2 ^ m) limit := by
  obtain ⟨st, E, h1, h2⟩ := hist_spec cs h
  refine ⟨st, h1, fun i s hi m hm hm' => ?_⟩
  obtain ⟨l, hl, hl2⟩ := hm
  obtain ⟨o, g1, g2⟩ := fastCount_spec h2.store (h2.sets i s hi)
  unfold powFastCount powFastCountUpTo
  rw [g1]
  cases o with
  | none => exact ⟨⟨none, rfl, fun k hk => by cases hk⟩, fun limit => ⟨none, rfl, fun k hk => by cases hk⟩⟩
  | some c =>
    have hc := g2 c rfl l hl
    subst hc
    have e : ((l.length : Int) < 64) := by omega
    simp only [bind, Except.bind, e, if_true, Int.toNat_natCast, pure, Except.pure]
    rw [shiftOne_toInt (by omega), show l.length = m by omega]
    refine ⟨⟨_, rfl, fun k hk => (Option.some.inj hk).symm⟩, fun limit => ⟨_, rfl, fun k hk => ?_⟩⟩
    rw [← Option.some.inj hk]
    split <;> omega

/-- C37. `Has` of the powerset, asked of a `frozen.Set`, is inclusion. -/
theorem C37_uncached_has (cs : List (LCmd T)) (h : GoodRun [] 0 cs) :
    ∃ st, Runs (fun n => LState.init.run n cs) st ∧
      ∀ i s, st.sets[i]? = some s → (specAt (specRun [] cs) i).once → ∀ f : FSet T, f.Reachable →
        ∃ b σ', Runs (fun n => powHas n st.store s f) (b, σ') ∧
          (b = true ↔ ∀ w, f.has w = .ok true → (specAt (specRun [] cs) i).den w) := by
  obtain ⟨st, E, h1, h2⟩ := hist_spec cs h
  refine ⟨st, h1, fun i s hi ho f hf => ?_⟩
  obtain ⟨b, σ', g1, _, _, g2⟩ := powHas_spec h2.store (h2.sets i s hi) hf.valid ho
  exact ⟨b, σ', g1, g2⟩

/-! ### C38: `Equal`, `EqualSet`, `IsSubsetOf` and `Hash` -/

/-- C38. After any covered history, `EqualSet` of any two sets is extensional equality, provided iteration of the argument sees no
element twice. -/
theorem C38_equalSet_partial (cs : List (LCmd T)) (h : GoodRun [] 0 cs) :
    ∃ st, Runs (fun n => LState.init.run n cs) st ∧
      ∀ i j s t, st.sets[i]? = some s → st.sets[j]? = some t → ∃ b σ', Runs (fun n => LSet.equalSet n st.store s t) (b, σ') ∧
        ((specAt (specRun [] cs) j).once →
          (b = true ↔ ∀ w, (specAt (specRun [] cs) i).den w ↔ (specAt (specRun [] cs) j).den w)) := by
  obtain ⟨st, E, h1, h2⟩ := hist_spec cs h
  refine ⟨st, h1, fun i j s t hi hj => ?_⟩
  obtain ⟨b, σ', E', g1, _, g2⟩ := equalSet_spec h2.store (h2.sets i s hi) (h2.sets j t hj)
  exact ⟨b, σ', g1, g2⟩

/-- C38. After any covered history, `Equal` of any two sets is extensional equality, under the same condition and unless the
receiver is empty and the argument is not. -/
theorem C38_equal_partial (cs : List (LCmd T)) (h : GoodRun [] 0 cs) :
    ∃ st, Runs (fun n => LState.init.run n cs) st ∧
      ∀ i j s t, st.sets[i]? = some s → st.sets[j]? = some t → ∃ b σ', Runs (fun n => LSet.equal n st.store s t) (b, σ') ∧
        ((specAt (specRun [] cs) j).once → ((∃ w, (specAt (specRun [] cs) i).den w) ∨ ∀ w, ¬ (specAt (specRun [] cs) j).den w) →
          (b = true ↔ ∀ w, (specAt (specRun [] cs) i).den w ↔ (specAt (specRun [] cs) j).den w)) := by
  obtain ⟨st, E, h1, h2⟩ := hist_spec cs h
  refine ⟨st, h1, fun i j s t hi hj => ?_⟩
  obtain ⟨b, σ', E', g1, _, g2⟩ := equal_spec' h2.store (h2.sets i s hi) (h2.sets j t hj)
  exact ⟨b, σ', g1, g2⟩

/-- C38. After any covered history, `IsSubsetOf` of any two sets is inclusion, provided iteration of the argument sees no element
twice. -/
theorem C38_isSubsetOf_partial (cs : List (LCmd T)) (h : GoodRun [] 0 cs) :
    ∃ st, Runs (fun n => LState.init.run n cs) st ∧
      ∀ i j s t, st.sets[i]? = some s → st.sets[j]? = some t → ∃ b σ', Runs (fun n => LSet.isSubsetOf n st.store s t) (b, σ') ∧
        ((specAt (specRun [] cs) j).once →
          (b = true ↔ ∀ w, (specAt (specRun [] cs) i).den w → (specAt (specRun [] cs) j).den w)) := by
  obtain ⟨st, E, h1, h2⟩ := hist_spec cs h
  refine ⟨st, h1, fun i j s t hi hj => ?_⟩
  obtain ⟨b, σ', E', g1, _, g2⟩ := isSubsetOf_spec h2.store (h2.sets i s hi) (h2.sets j t hj)
  exact ⟨b, σ', g1, g2⟩

/-- C38. After any covered history `Hash` ends and hashes the elements one after the other, in some order, starting from a constant
and the seed (possibly some twice, unless `Count` is right). -/
theorem C38_hash_fold_partial [GoHash] (cs : List (LCmd T)) (h : GoodRun [] 0 cs) :
    ∃ st, Runs (fun n => LState.init.run n cs) st ∧
      ∀ i s seed, st.sets[i]? = some s → ∃ vs σ', (∀ w, (specAt (specRun [] cs) i).den w ↔ ∃ v ∈ vs, GoKey.eq v w = true) ∧
        ((specAt (specRun [] cs) i).plain → Lists vs (specAt (specRun [] cs) i).den) ∧
        Runs (fun n => LSet.hash n st.store s seed) (vs.foldl (fun h v => GoKey.hash h v) (GoHash.uintptr 624409645898692063#64 seed), σ') := by
  obtain ⟨st, E, h1, h2⟩ := hist_spec cs h
  refine ⟨st, h1, fun i s seed hi => ?_⟩
  obtain ⟨a, σ', g1, _, _, vs, g2, g3, g4⟩ := hash_spec h2.store (h2.sets i s hi) seed
  exact ⟨vs, σ', g2, g3, g4 ▸ g1⟩

/-- C38. So sets with at most one element on which `Count` is right have the same `Hash` if they are equal. -/
theorem C38_hash_partial [GoHash] (cs : List (LCmd T)) (h : GoodRun [] 0 cs) :
    ∃ st, Runs (fun n => LState.init.run n cs) st ∧
      ∀ i j s t seed, st.sets[i]? = some s → st.sets[j]? = some t →
        (specAt (specRun [] cs) i).plain → (specAt (specRun [] cs) j).plain →
        (∀ v w, (specAt (specRun [] cs) i).den v → (specAt (specRun [] cs) i).den w → GoKey.eq v w = true) →
        (∀ w, (specAt (specRun [] cs) i).den w ↔ (specAt (specRun [] cs) j).den w) →
        ∃ a σ' σ'', Runs (fun n => LSet.hash n st.store s seed) (a, σ') ∧ Runs (fun n => LSet.hash n st.store t seed) (a, σ'') := by
  obtain ⟨st, E, h1, h2⟩ := hist_spec cs h
  refine ⟨st, h1, fun i j s t seed hi hj hp hq h1 he => ?_⟩
  obtain ⟨a, σ', g1, _, _, vs, g2, g3, g4⟩ := hash_spec h2.store (h2.sets i s hi) seed
  obtain ⟨b, σ'', k1, _, _, ws, k2, k3, k4⟩ := hash_spec h2.store (h2.sets j t hj) seed
  have hv := g3 hp
  have hw := (k3 hq).congr fun w => (he w).symm
  have hlen := hv.length_eq hw
  refine ⟨a, σ', σ'', g1, ?_⟩
  have : a = b := by
    rw [g4, k4]
    match vs, ws, hv, hw, hlen with
    | [], [], _, _, _ => rfl
    | [v], [w], hv, hw, _ =>
      have := h1 v w ((hv.covers v).2 ⟨v, by simp, LawfulGoKey.refl v⟩) ((hw.covers w).2 ⟨w, by simp, LawfulGoKey.refl w⟩)
      exact PerGoKey.hash_congr _ this
    | v :: v' :: vs, _, hv, _, _ =>
      have e := h1 v v' ((hv.covers v).2 ⟨v, by simp, LawfulGoKey.refl v⟩) ((hv.covers v').2 ⟨v', by simp, LawfulGoKey.refl v'⟩)
      have := List.pairwise_cons.1 hv.different
      rw [this.1 v' (by simp)] at e; cases e
  rw [this]; exact k1

end

/-! ### What fails, and concrete histories

Sets number 0 to 6 are ∅, {1}, {1, 2}, {1, 2, 3}, {4}, {1, 4} and {2}. -/

/-- Seven frozen sets. -/
def lazyBase (T : Type) [GoKey T] (mk : Nat → T) : List (LCmd T) :=
  [.empty, .with 0 (mk 1), .with 1 (mk 2), .with 2 (mk 3), .with 0 (mk 4), .with 4 (mk 1), .with 0 (mk 2)]

/-- A covered history: a union (7), a filter (8), a difference (9), an image (10) and a frozen set (11) of these, while two
iterators over the union are advanced by turns. -/
def lazyHist : List (LCmd Coll) := lazyBase Coll Coll.mk ++
  [.union 3 5, .where 7 (fun c => c.n != 2), .range 7, .advance 0, .advance 0, .range 7, .advance 1, .diff 7 6, .map 9 (fun c => ⟨c.n / 2⟩),
   .advance 0, .freeze 9, .advance 1, .count 8]

theorem lazyHist_good : GoodRun [] 0 lazyHist := by
  simp [lazyHist, lazyBase, GoodRun, LCmd.Good, specStep, specAt, LCmd.iters, LSpec.frozen, LSpec.with, LSpec.union, LSpec.where, LSpec.diff, LSpec.map]
  refine ⟨fun a b h => ?_, fun a b h => ?_⟩ <;> rw [of_decide_eq_true h]
  exact LawfulGoKey.refl _

/-- The hypothesis of the theorems above is met by a history whose sets are, at the end, {1, 2, 3, 4}, {1, 3, 4}, {1, 3, 4},
{0, 1, 2} and {1, 3, 4}; both iterators are still live. -/
example : GoodRun [] 0 lazyHist ∧ okAnd (LState.init.run 60 lazyHist) (fun st =>
    (st.sets[7]?).any (fun s => okAnd (LSet.values 60 st.store s) (fun r => decide (r.1.length = 4))) &&
    (st.sets[8]?).any (fun s => okAnd (LSet.values 60 st.store s) (fun r => decide (r.1 = [⟨1⟩, ⟨3⟩, ⟨4⟩]))) &&
    (st.sets[9]?).any (fun s => okAnd (LSet.values 60 st.store s) (fun r => decide (r.1 = [⟨1⟩, ⟨3⟩, ⟨4⟩]))) &&
    (st.sets[10]?).any (fun s => okAnd (LSet.values 60 st.store s) (fun r => decide (r.1 = [⟨0⟩, ⟨1⟩, ⟨2⟩]))) &&
    (st.sets[11]?).any (fun s => okAnd (LSet.values 60 st.store s) (fun r => decide (r.1 = [⟨1⟩, ⟨3⟩, ⟨4⟩]))) &&
    decide (st.iters.map (fun c => (c.got.length, c.ended)) = [(3, false), (2, false)])) = true :=
  ⟨lazyHist_good, by decide +kernel⟩

/-- C33 fails for a difference whose right operand is a difference: {1, 4} less ({1, 4} less {4}). -/
theorem C33_iteration_refuted : ¬ ∀ cs : List (LCmd Coll), AllowedRun [] 0 cs → ∀ st, Runs (fun n => LState.init.run n cs) st →
    ∀ (i : Nat) (s : LSet Coll) vs σ', st.sets[i]? = some s → Runs (fun n => LSet.values n st.store s) (vs, σ') →
      ∀ w, (specAt (specRun [] cs) i).den w ↔ ∃ v ∈ vs, GoKey.eq v w = true := by
  intro h
  obtain ⟨st, s, r, h1, h2, h3, h4⟩ := ask_set (T := Coll) (fun σ s n => LSet.values n σ s) mono_setValues
    (cs := lazyBase Coll Coll.mk ++ [.diff 5 4, .diff 5 7]) (n := 60) (i := 8) (test := fun r => r.1.isEmpty) (by decide +kernel)
  have := (h _ (by simp [lazyBase, AllowedRun, LCmd.Allowed, LCmd.Good, specStep, LCmd.iters]) st h1 8 s r.1 r.2 h2 h3 ⟨4⟩).1
    (by simp [lazyBase, specRun, specStep, specAt, LSpec.frozen, LSpec.with, LSpec.diff, GoKey.eq])
  obtain ⟨v, hv, e⟩ := this
  rw [List.isEmpty_iff.1 h4] at hv
  cases hv

/-- C33 fails for `Difference` of a union with the empty set, which is the union without its cache: ({1, 2} with {2}) less ∅
delivers 2 twice. -/
theorem C33_once_refuted : ¬ ∀ cs : List (LCmd Coll), GoodRun [] 0 cs → ∀ st, Runs (fun n => LState.init.run n cs) st →
    ∀ (i : Nat) (s : LSet Coll) vs σ', st.sets[i]? = some s → Runs (fun n => LSet.values n st.store s) (vs, σ') → PairwiseDifferent vs := by
  intro h
  obtain ⟨st, s, r, h1, h2, h3, h4⟩ := ask_set (T := Coll) (fun σ s n => LSet.values n σ s) mono_setValues
    (cs := lazyBase Coll Coll.mk ++ [.union 2 6, .diff 7 0]) (n := 60) (i := 8) (test := fun r => decide (r.1 = [⟨1⟩, ⟨2⟩, ⟨2⟩])) (by decide +kernel)
  have := h _ (by simp [lazyBase, GoodRun, LCmd.Good, specStep, specAt, LSpec.frozen, LSpec.with, LSpec.union]) st h1 8 s r.1 r.2 h2 h3
  rw [of_decide_eq_true h4] at this
  simp [PairwiseDifferent, GoKey.eq] at this

/-- C34 fails for `Has` of a difference: {1, 4} less {4} is said to have 4. -/
theorem C34_has_refuted : ¬ ∀ cs : List (LCmd Coll), GoodRun [] 0 cs → ∀ st, Runs (fun n => LState.init.run n cs) st →
    ∀ i s el b σ', st.sets[i]? = some s → Runs (fun n => LSet.has n st.store s el) (b, σ') → (b = true ↔ (specAt (specRun [] cs) i).den el) := by
  intro h
  obtain ⟨st, s, r, h1, h2, h3, h4⟩ := ask_set (T := Coll) (fun σ s n => LSet.has n σ s ⟨4⟩) (fun σ s => mono_has σ s _)
    (cs := lazyBase Coll Coll.mk ++ [.diff 5 4]) (n := 60) (i := 7) (test := fun r => r.1) (by decide +kernel)
  have := (h _ (by simp [lazyBase, GoodRun, LCmd.Good, specStep, specAt, LSpec.frozen, LSpec.with, LSpec.union]) st h1 7 s ⟨4⟩ r.1 r.2 h2 h3).1 h4
  revert this
  simp [lazyBase, specRun, specStep, specAt, LSpec.frozen, LSpec.with, LSpec.diff, LSpec.union, GoKey.eq]

/-- C34 fails for `FastHas` of a union, which asks its left operand twice: {1, 4} with {2} is said not to have 2. -/
theorem C34_fastHas_refuted : ¬ ∀ cs : List (LCmd Coll), GoodRun [] 0 cs → ∀ st, Runs (fun n => LState.init.run n cs) st →
    ∀ i s el b, st.sets[i]? = some s → Runs (fun n => LSet.fastHas st.store n s el) (some b) → (b = true ↔ (specAt (specRun [] cs) i).den el) := by
  intro h
  obtain ⟨st, s, r, h1, h2, h3, h4⟩ := ask_set (T := Coll) (fun σ s n => LSet.fastHas σ n s ⟨2⟩) (fun σ s n m h => mono_fastHas σ n m h s _)
    (cs := lazyBase Coll Coll.mk ++ [.union 5 6]) (n := 60) (i := 7) (test := fun r => decide (r = some false)) (by decide +kernel)
  rw [of_decide_eq_true h4] at h3
  have := (h _ (by simp [lazyBase, GoodRun, LCmd.Good, specStep, specAt, LSpec.frozen, LSpec.with, LSpec.union]) st h1 7 s ⟨2⟩ false h2 h3).2 (by simp [lazyBase, specRun, specStep, specAt, LSpec.frozen, LSpec.with, LSpec.diff, LSpec.union, GoKey.eq])
  cases this

/-- C35 fails for `Count` of a union of overlapping sets: {1, 2} with {1, 2, 3} is said to have 5 elements. -/
theorem C35_count_refuted : ¬ ∀ cs : List (LCmd Coll), GoodRun [] 0 cs → ∀ st, Runs (fun n => LState.init.run n cs) st →
    ∀ i s k σ', st.sets[i]? = some s → Runs (fun n => LSet.count n st.store s) (k, σ') → HasCard (specAt (specRun [] cs) i).den k := by
  intro h
  obtain ⟨st, s, r, h1, h2, h3, h4⟩ := ask_set (T := Coll) (fun σ s n => LSet.count n σ s) mono_count
    (cs := lazyBase Coll Coll.mk ++ [.union 2 3]) (n := 60) (i := 7) (test := fun r => decide (r.1 = 5)) (by decide +kernel)
  obtain ⟨l, hl, hl2⟩ := h _ (by simp [lazyBase, GoodRun, LCmd.Good, specStep, specAt, LSpec.frozen, LSpec.with, LSpec.union]) st h1 7 s r.1 r.2 h2 h3
  rw [of_decide_eq_true h4] at hl2
  have : Lists [(⟨1⟩ : Coll), ⟨2⟩, ⟨3⟩] (specAt (specRun [] (lazyBase Coll Coll.mk ++ [.union 2 3])) 7).den :=
    ⟨by simp [PairwiseDifferent, GoKey.eq], fun w => by
      simp [lazyBase, specRun, specStep, specAt, LSpec.frozen, LSpec.with, LSpec.union, GoKey.eq]
      tauto⟩
  have := hl.length_eq this
  simp at this
  omega

/-- C35 fails for `IsEmpty` of a powerset: the powerset of the empty set has one element, but is said to be empty. -/
theorem C35_powerset_isEmpty_refuted : ¬ ∀ cs : List (LCmd Coll), GoodRun [] 0 cs → ∀ st, Runs (fun n => LState.init.run n cs) st →
    ∀ (i : Nat) (s : LSet Coll) b σ' fs σ'', st.sets[i]? = some s → Runs (fun n => powIsEmpty n st.store s) (b, σ') →
      Runs (fun n => LPow.range n st.store s >>= fun p => LPow.values n st.store p) (fs, σ'') → (b = true ↔ fs = []) := by
  intro h
  obtain ⟨st, s, r, h1, h2, h3, h4⟩ := ask_set (T := Coll) (fun σ s n => powIsEmpty n σ s) mono_isEmpty
    (cs := lazyBase Coll Coll.mk) (n := 60) (i := 0) (test := fun r => r.1) (by decide +kernel)
  obtain ⟨st', g1, g2⟩ := C37_uncached_powerset (lazyBase Coll Coll.mk) (by simp [lazyBase, GoodRun, LCmd.Good, specStep, specAt, LSpec.frozen, LSpec.with, LSpec.union])
  cases h1.unique g1
  obtain ⟨fs, σ', k1, k2, _⟩ := g2 0 s h2 (by simp [lazyBase, specRun, specStep, specAt, LSpec.frozen, LSpec.with, LSpec.diff, LSpec.union, GoKey.eq]) 0 ⟨[], ⟨List.Pairwise.nil, by simp [lazyBase, specRun, specStep, specAt, LSpec.frozen, LSpec.with, LSpec.diff, LSpec.union, GoKey.eq]⟩, rfl⟩ (by decide)
  have := (h _ (by simp [lazyBase, GoodRun, LCmd.Good, specStep, specAt, LSpec.frozen, LSpec.with, LSpec.union]) st h1 0 s r.1 r.2 fs σ' h2 h3 k1).1 h4
  simp [this] at k2

/-- C35 fails for `FastIsEmpty` of a powerset in the same way. -/
theorem C35_powerset_fastIsEmpty_refuted : ¬ ∀ cs : List (LCmd Coll), GoodRun [] 0 cs → ∀ st, Runs (fun n => LState.init.run n cs) st →
    ∀ (i : Nat) (s : LSet Coll) b fs σ'', st.sets[i]? = some s → Runs (fun n => powFastIsEmpty n st.store s) (some b) →
      Runs (fun n => LPow.range n st.store s >>= fun p => LPow.values n st.store p) (fs, σ'') → (b = true ↔ fs = []) := by
  intro h
  obtain ⟨st, s, r, h1, h2, h3, h4⟩ := ask_set (T := Coll) (fun σ s n => powFastIsEmpty n σ s) (fun σ s n m h => mono_fastIsEmpty σ n m h s)
    (cs := lazyBase Coll Coll.mk) (n := 60) (i := 0) (test := fun r => r == some true) (by decide +kernel)
  rw [beq_iff_eq] at h4
  subst h4
  obtain ⟨st', g1, g2⟩ := C37_uncached_powerset (lazyBase Coll Coll.mk) (by simp [lazyBase, GoodRun, LCmd.Good, specStep, specAt, LSpec.frozen, LSpec.with, LSpec.union])
  cases h1.unique g1
  obtain ⟨fs, σ', k1, k2, _⟩ := g2 0 s h2 (by simp [lazyBase, specRun, specStep, specAt, LSpec.frozen, LSpec.with, LSpec.diff, LSpec.union, GoKey.eq]) 0 ⟨[], ⟨List.Pairwise.nil, by simp [lazyBase, specRun, specStep, specAt, LSpec.frozen, LSpec.with, LSpec.diff, LSpec.union, GoKey.eq]⟩, rfl⟩ (by decide)
  have := (h _ (by simp [lazyBase, GoodRun, LCmd.Good, specStep, specAt, LSpec.frozen, LSpec.with, LSpec.union]) st h1 0 s true fs σ' h2 h3 k1).1 rfl
  simp [this] at k2

/-- `k` calls of `Next`, whatever they return. -/
def nextTimes {T : Type} [GoKey T] (n : Nat) : Nat → LStore T → LIter T → Go (LStore T)
  | 0, σ, _ => .ok σ
  | k + 1, σ, i => do
    let (i, _, σ) ← LIter.next n σ i
    nextTimes n k σ i

theorem mono_nextTimes {T : Type} [GoKey T] : ∀ (k : Nat) (σ : LStore T) (i : LIter T), Mono (fun n => nextTimes n k σ i)
  | 0, _, _ => Mono.const _
  | k + 1, _, _ => fun n m h => Le.bind (mono_next _ _ n m h) fun _ => mono_nextTimes k _ _ n m h

/-- C36 fails if `Next` is called once more after it has returned false: the set is empty from then on. Here {1, 2, 3} filtered to
{1, 3}: two calls deliver, one returns false, and after the fourth an iteration finds nothing. -/
theorem C36_next_after_end_refuted : ¬ ∀ cs : List (LCmd Coll), GoodRun [] 0 cs → ∀ st, Runs (fun n => LState.init.run n cs) st →
    ∀ i s k vs σ', st.sets[i]? = some s →
      Runs (fun n => LSet.range st.store n s >>= fun it => nextTimes n k st.store it >>= fun σ => LSet.values n σ s) (vs, σ') →
      ∀ w, (specAt (specRun [] cs) i).den w ↔ ∃ v ∈ vs, GoKey.eq v w = true := by
  intro h
  obtain ⟨st, s, r, h1, h2, h3, h4⟩ := ask_set (T := Coll)
    (fun σ s n => LSet.range σ n s >>= fun it => nextTimes n 4 σ it >>= fun σ => LSet.values n σ s)
    (fun σ s => Mono.bind (g := fun it n => nextTimes n 4 σ it >>= fun σ => LSet.values n σ s) (fun n m h => mono_range σ n m h s)
      fun it => Mono.bind (g := fun σ n => LSet.values n σ s) (mono_nextTimes 4 σ it) fun σ => mono_setValues σ s)
    (cs := lazyBase Coll Coll.mk ++ [.where 3 (fun c => c.n != 2)]) (n := 60) (i := 7) (test := fun r => r.1.isEmpty) (by decide +kernel)
  have := (h _ (by
    simp [lazyBase, GoodRun, LCmd.Good, specStep, specAt, LSpec.frozen, LSpec.with]
    intro a b h; rw [of_decide_eq_true h]) st h1 7 s 4 r.1 r.2 h2 h3 ⟨1⟩).1
    (by simp [lazyBase, specRun, specStep, specAt, LSpec.frozen, LSpec.with, LSpec.where, GoKey.eq])
  obtain ⟨v, hv, e⟩ := this
  rw [List.isEmpty_iff.1 h4] at hv
  cases hv

/-- C38 fails for `Equal` of the empty set, which compares the argument with itself. -/
theorem C38_equal_refuted : ¬ ∀ cs : List (LCmd Coll), GoodRun [] 0 cs → ∀ st, Runs (fun n => LState.init.run n cs) st →
    ∀ i j s t b σ', st.sets[i]? = some s → st.sets[j]? = some t → Runs (fun n => LSet.equal n st.store s t) (b, σ') →
      (b = true ↔ ∀ w, (specAt (specRun [] cs) i).den w ↔ (specAt (specRun [] cs) j).den w) := by
  intro h
  obtain ⟨st, s, t, r, h1, h2, h3, h4, h5⟩ := ask_set2 (T := Coll) (fun σ s t n => LSet.equal n σ s t) (fun σ s t n m h => (mono_equalSet n m h).2 σ s t)
    (cs := lazyBase Coll Coll.mk) (n := 60) (i := 0) (j := 1) (test := fun r => r.1) (by decide +kernel)
  have := ((h _ (by simp [lazyBase, GoodRun, LCmd.Good, specStep, specAt, LSpec.frozen, LSpec.with, LSpec.union]) st h1 0 1 s t r.1 r.2 h2 h3 h4).1 h5 ⟨1⟩).2 (by simp [lazyBase, specRun, specStep, specAt, LSpec.frozen, LSpec.with, LSpec.diff, LSpec.union, GoKey.eq])
  revert this
  simp [lazyBase, specRun, specStep, specAt, LSpec.frozen, LSpec.with, LSpec.diff, LSpec.union, GoKey.eq]

/-- C38 fails for `EqualSet` if the argument's iteration sees an element twice, as in `C33_once_refuted`: {1, 2} and
({1, 2} with {2}) less ∅. -/
theorem C38_equalSet_refuted : ¬ ∀ cs : List (LCmd Coll), GoodRun [] 0 cs → ∀ st, Runs (fun n => LState.init.run n cs) st →
    ∀ i j s t b σ', st.sets[i]? = some s → st.sets[j]? = some t → Runs (fun n => LSet.equalSet n st.store s t) (b, σ') →
      (b = true ↔ ∀ w, (specAt (specRun [] cs) i).den w ↔ (specAt (specRun [] cs) j).den w) := by
  intro h
  obtain ⟨st, s, t, r, h1, h2, h3, h4, h5⟩ := ask_set2 (T := Coll) (fun σ s t n => LSet.equalSet n σ s t) (fun σ s t n m h => (mono_equalSet n m h).1 σ s t)
    (cs := lazyBase Coll Coll.mk ++ [.union 2 6, .diff 7 0]) (n := 60) (i := 2) (j := 8) (test := fun r => !r.1) (by decide +kernel)
  have := (h _ (by simp [lazyBase, GoodRun, LCmd.Good, specStep, specAt, LSpec.frozen, LSpec.with, LSpec.union]) st h1 2 8 s t r.1 r.2 h2 h3 h4).2 (by simp [lazyBase, specRun, specStep, specAt, LSpec.frozen, LSpec.with, LSpec.diff, LSpec.union, GoKey.eq]; try tauto)
  rw [this] at h5
  cases h5

/-- The same for `IsSubsetOf`: {1, 2, 3} is said to be included in ({1, 2} with {2}) less ∅. -/
theorem C38_isSubsetOf_refuted : ¬ ∀ cs : List (LCmd Coll), GoodRun [] 0 cs → ∀ st, Runs (fun n => LState.init.run n cs) st →
    ∀ i j s t b σ', st.sets[i]? = some s → st.sets[j]? = some t → Runs (fun n => LSet.isSubsetOf n st.store s t) (b, σ') →
      (b = true ↔ ∀ w, (specAt (specRun [] cs) i).den w → (specAt (specRun [] cs) j).den w) := by
  intro h
  obtain ⟨st, s, t, r, h1, h2, h3, h4, h5⟩ := ask_set2 (T := Coll) (fun σ s t n => LSet.isSubsetOf n σ s t) (fun σ s t => mono_isSubsetOf σ s t)
    (cs := lazyBase Coll Coll.mk ++ [.union 2 6, .diff 7 0]) (n := 60) (i := 3) (j := 8) (test := fun r => r.1) (by decide +kernel)
  have := (h _ (by simp [lazyBase, GoodRun, LCmd.Good, specStep, specAt, LSpec.frozen, LSpec.with, LSpec.union]) st h1 3 8 s t r.1 r.2 h2 h3 h4).1 h5 ⟨3⟩ (by simp [lazyBase, specRun, specStep, specAt, LSpec.frozen, LSpec.with, LSpec.diff, LSpec.union, GoKey.eq])
  revert this
  simp [lazyBase, specRun, specStep, specAt, LSpec.frozen, LSpec.with, LSpec.diff, LSpec.union, GoKey.eq]

/-- Elements with a hash that depends on the seed as the library's hashes do, so that the order of hashing matters. -/
structure Poly where
  n : Nat
deriving DecidableEq

instance : GoKey Poly where
  eq a b := decide (a = b)
  hash seed a := seed * 31#64 + BitVec.ofNat 64 a.n

instance : LawfulGoKey Poly where
  refl a := by simp [GoKey.eq]
  symm h := by simpa [GoKey.eq, Eq.comm] using h
  trans h g := by simp only [GoKey.eq, decide_eq_true_eq] at *; exact h.trans g
  hash_congr seed _ _ h := by simp only [GoKey.eq, decide_eq_true_eq] at h; rw [h]

local instance lazyGoHash : GoHash := ⟨fun x y => x ^^^ y⟩

/-- C38 fails for `Hash`: {1} with {2} and {2} with {1} are equal (and are said to be) but hash their elements in different orders. -/
theorem C38_hash_refuted : ¬ ∀ cs : List (LCmd Poly), GoodRun [] 0 cs → ∀ st, Runs (fun n => LState.init.run n cs) st →
    ∀ i j s t seed a b σ' σ'', st.sets[i]? = some s → st.sets[j]? = some t →
      (∀ w, (specAt (specRun [] cs) i).den w ↔ (specAt (specRun [] cs) j).den w) →
      Runs (fun n => LSet.hash n st.store s seed) (a, σ') → Runs (fun n => LSet.hash n st.store t seed) (b, σ'') → a = b := by
  intro h
  obtain ⟨st, h1, h2⟩ := of_okAnd (r := LState.init.run 60 (lazyBase Poly Poly.mk ++ [.union 1 6, .union 6 1])) (test := fun st =>
    (st.sets[7]?).any (fun s => (st.sets[8]?).any (fun t => okAnd (LSet.hash 60 st.store s 0#64) (fun a =>
      okAnd (LSet.hash 60 st.store t 0#64) (fun b => decide (a.1 ≠ b.1)))))) (by decide +kernel)
  obtain ⟨s, h3, h4⟩ := Option.any_exists h2
  obtain ⟨t, h5, h6⟩ := Option.any_exists h4
  obtain ⟨a, h7, h8⟩ := of_okAnd h6
  obtain ⟨b, h9, h10⟩ := of_okAnd h8
  refine of_decide_eq_true h10 (h _ (by simp [lazyBase, GoodRun, LCmd.Good, specStep]) st ((mono_run _ _).runs h1) 7 8 s t 0#64 a.1 b.1 a.2 b.2 h3 h5
    (fun w => ?_) ((mono_setHash _ _ _).runs h7) ((mono_setHash _ _ _).runs h9))
  simp [lazyBase, specRun, specStep, specAt, LSpec.frozen, LSpec.with, LSpec.union, -BitVec.ofNat_eq_ofNat, GoKey.eq]
  exact or_comm

/-- `C38_hash_partial` is met with a set of one element: {1, 4} less {4} and {1}. -/
example : ∃ cs : List (LCmd Coll), GoodRun [] 0 cs ∧ (specAt (specRun [] cs) 7).plain ∧ (specAt (specRun [] cs) 1).plain ∧
    (∀ v w, (specAt (specRun [] cs) 7).den v → (specAt (specRun [] cs) 7).den w → GoKey.eq v w = true) ∧
    (∀ w, (specAt (specRun [] cs) 7).den w ↔ (specAt (specRun [] cs) 1).den w) := by
  refine ⟨lazyBase Coll Coll.mk ++ [.diff 5 4], by simp [lazyBase, GoodRun, LCmd.Good, specStep, specAt, LSpec.frozen, LSpec.with], ?_, ?_, ?_, ?_⟩ <;>
    simp [lazyBase, specRun, specStep, specAt, LSpec.frozen, LSpec.with, LSpec.diff, GoKey.eq]
  · rintro v w (h | h) hv (h' | h') hw <;> simp_all
  · intro w
    constructor
    · rintro ⟨h | h, h'⟩
      · exact (h' h).elim
      · exact h
    · rintro rfl; simp

/-- Some sets with lazy unions and images in them on which `Count` is right: the symmetric difference of {1, 4} and {2}, made of two
differences (7), the image of that under a one-to-one function (8), and the union of the two, which have nothing in common (9). -/
example : ∃ cs : List (LCmd Coll), GoodRun [] 0 cs ∧ (specAt (specRun [] cs) 7).plain ∧ HasCard (specAt (specRun [] cs) 7).den 3 ∧
    (specAt (specRun [] cs) 8).plain ∧ (specAt (specRun [] cs) 9).plain ∧ (specAt (specRun [] cs) 9).den ⟨14⟩ := by
  refine ⟨lazyBase Coll Coll.mk ++ [.symm 5 6, .map 7 (fun v => ⟨v.n + 10⟩), .union 7 8], ?_, ?_, ⟨[⟨1⟩, ⟨2⟩, ⟨4⟩], ⟨by simp [PairwiseDifferent, GoKey.eq], fun w => ?_⟩, rfl⟩, ?_, ?_, ?_⟩ <;>
    simp [lazyBase, GoodRun, LCmd.Good, CongM, OneToOne, specRun, specStep, specAt, LSpec.frozen, LSpec.with, LSpec.symm, LSpec.map, LSpec.union, GoKey.eq]
  · grind
  · rintro ⟨x⟩ ⟨y⟩ _ _ h; simpa using h
  · refine ⟨fun ⟨x⟩ ⟨y⟩ _ _ h => by simpa using h, ?_⟩
    rintro ⟨w⟩ hw ⟨x⟩ hx h
    simp at hw hx h
    omega
  · exact ⟨⟨4⟩, by simp⟩

/-- The conditions on the sets in C33 to C38 are met, in the covered history above, by the union (`safe`, `once`), the filtered
union (`fast`), the image (`safe`, `fast`, `once`) and the set frozen at the end (all of them, with three elements). -/
example : GoodRun [] 0 lazyHist ∧ (specAt (specRun [] lazyHist) 7).safe ∧ (specAt (specRun [] lazyHist) 7).once ∧
    (specAt (specRun [] lazyHist) 8).fast ∧ (specAt (specRun [] lazyHist) 8).once ∧ (specAt (specRun [] lazyHist) 9).once ∧
    (specAt (specRun [] lazyHist) 10).safe ∧ (specAt (specRun [] lazyHist) 10).fast ∧ (specAt (specRun [] lazyHist) 10).once ∧
    (specAt (specRun [] lazyHist) 11).plain ∧ HasCard (specAt (specRun [] lazyHist) 11).den 3 := by
  refine ⟨lazyHist_good, ?_, ?_, ?_, ?_, ?_, ?_, ?_, ?_, ?_, [⟨1⟩, ⟨3⟩, ⟨4⟩], ⟨by simp [PairwiseDifferent, GoKey.eq], fun w => ?_⟩, rfl⟩ <;>
    simp [lazyHist, lazyBase, specRun, specStep, specAt, LSpec.frozen, LSpec.with, LSpec.union, LSpec.where, LSpec.diff, LSpec.map, GoKey.eq]
  constructor
  · rintro ⟨h, h'⟩
    rcases h with ((h | h) | h) | h | h <;> simp_all
  · rintro (rfl | rfl | rfl) <;> simp

/-- `FastCount` of the powerset of a set of three elements answers 8, and `FastCountUpTo(5)` 5. -/
example : okAnd (LState.init.run 60 (lazyBase Coll Coll.mk)) (fun st => st.sets.any (fun s =>
    okAnd (powFastCount st.store s) (fun o => o == some 8) && okAnd (powFastCountUpTo st.store s 5) (fun o => o == some 5))) = true := by
  decide +kernel

end Frozen
