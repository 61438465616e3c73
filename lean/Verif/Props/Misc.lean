import Verif.Proof.Misc
import Verif.Props.Map
import Verif.Props.SetMore

/-! # C44: self-checks; C45: JSON; C46: Braille texts; C47: switching concurrency off -/

set_option linter.unusedSectionVars false

namespace Frozen

/-! ## C44 -/

section
variable {T K V : Type} [GoKey T] [LawfulGoKey T] [GoKey K] [LawfulGoKey K]

/-- C44. The library's own structural self-check accepts every set that API calls can build: no stale mask, no undersized or
mixed-hash bucket, no nil child, and a count that matches. -/
theorem C44_set (s : FSet T) (hs : s.Reachable) : s.tree.vet = .ok () := Tree.vet_spec hs.valid

/-- C44 for maps. -/
theorem C44_map [Inhabited V] (m : FMap K V) (hm : m.Reachable) : m.tree.vet = .ok () := Tree.vet_spec hm.valid

/-- C44, the converse: whatever tree the self-check accepts, built by API calls or not, can be iterated over, and the iteration delivers
as many elements as the tracked count says. The check does not look for branches without children. -/
theorem C44_accepted_count (t : Tree T) (h : t.vet = .ok ()) (hb : t.root.BranchesHaveChildren) :
    ∃ es, t.rangeList = .ok es ∧ t.count = es.length := Tree.vet_sound h hb

end

/-- A set with a bucket below 22 branches, and one that fans out. -/
example : okAnd (newSet [(⟨1⟩ : Coll), ⟨2⟩, ⟨3⟩, ⟨4⟩]) (fun s => decide (s.tree.vet = .ok ())) = true := by decide +kernel
example : okAnd (newSet [(⟨1⟩ : Mod100), ⟨2⟩, ⟨3⟩, ⟨45⟩, ⟨77⟩]) (fun s => decide (s.tree.vet = .ok ())) = true := by decide +kernel
/-- The self-check is not vacuous: it rejects a wrong count, a stale mask, a small bucket and a bucket with two hashes. -/
example : (⟨.leaf1 ⟨1⟩, 2⟩ : Tree Mod100).vet ≠ .ok () ∧ (⟨.nil, 1⟩ : Tree Mod100).vet ≠ .ok () ∧
    (⟨.branch 3#16 (fun i => if i = 0 then .leaf1 ⟨1⟩ else .nil), 1⟩ : Tree Mod100).vet ≠ .ok () ∧
    (⟨.branch 0#16 (fun i => if i = 0 then .leaf1 ⟨1⟩ else .nil), 0⟩ : Tree Mod100).vet ≠ .ok () ∧
    (⟨.twig [⟨1⟩, ⟨2⟩], 2⟩ : Tree Coll).vet ≠ .ok () ∧ (⟨.twig [⟨1⟩, ⟨2⟩, ⟨3⟩], 3⟩ : Tree Mod100).vet ≠ .ok () := by decide +kernel

/-- A tree no API call builds (2 is in the wrong slot), but with the right count. -/
example : (⟨.branch 3#16 (fun i => if i = 0 then .leaf1 ⟨1⟩ else if i = 1 then .leaf1 ⟨2⟩ else .nil), 2⟩ : Tree Coll).vet = .ok () ∧
    (⟨.branch 3#16 (fun i => if i = 0 then .leaf1 ⟨1⟩ else if i = 1 then .leaf1 ⟨2⟩ else .nil), 2⟩ : Tree Coll).root.BranchesHaveChildren :=
  ⟨by decide +kernel, ⟨0, rfl⟩, fun i => by dsimp only; split; trivial; split <;> trivial⟩

/-! ## C45 -/

section
variable {T : Type} [GoKey T] [LawfulGoKey T]

/-- C45. A set whose elements `es` (each once: `C07_range`) are encoded as `ts` is encoded as the JSON array of the `ts`. If some element
cannot be encoded, the call fails with the error of such an element. -/
theorem C45_set (enc : T → Except String String) (s : FSet T) (hs : s.Reachable) (es : List T) (hes : s.elements = .ok es) :
    (∀ ts, es.map enc = ts.map .ok → s.marshalJSON enc = .ok (.ok ("[" ++ joinWith "," ts ++ "]"))) ∧
    ((∃ e ∈ es, ∃ err, enc e = .error err) → ∃ e ∈ es, ∃ err, enc e = .error err ∧ s.marshalJSON enc = .ok (.error err)) := by
  have hm : s.marshalJSON enc = .ok (jsonSlice (es.map enc)) := by
    unfold FSet.elements at hes
    simp only [FSet.marshalJSON, hes, bind, Except.bind, pure, Except.pure]
  rw [hm]
  refine ⟨fun ts h => by rw [jsonSlice_ok h], ?_⟩
  rintro ⟨e, he, err, h⟩
  obtain ⟨m, h1, h2⟩ := jsonSlice_error (xs := es.map enc) ⟨_, List.mem_map_of_mem he, err, h⟩
  obtain ⟨e', he', h3⟩ := List.mem_map.1 h1
  exact ⟨e', he', m, h3, by rw [h2]⟩

/-- C45, what does not hold: equal sets may have different JSON texts, because elements with the same hash are kept in insertion
order. -/
theorem C45_set_not_canonical : ¬ ∀ (enc : Coll → Except String String) (s t : FSet Coll), s.Reachable → t.Reachable →
    s.equal t = .ok true → s.marshalJSON enc = t.marshalJSON enc := by
  intro h
  obtain ⟨s, h1, h1'⟩ := of_okAnd (show okAnd (newSet [(⟨1⟩ : Coll), ⟨2⟩]) (fun s =>
    okAnd (newSet [(⟨2⟩ : Coll), ⟨1⟩]) (fun t => isOk (s.equal t) true &&
      !decide (s.marshalJSON (fun c => .ok (toString c.n)) = t.marshalJSON (fun c => .ok (toString c.n))))) = true by decide +kernel)
  obtain ⟨t, h2, h2'⟩ := of_okAnd h1'
  rw [Bool.and_eq_true] at h2'
  have := h (fun c => .ok (toString c.n)) s t ⟨.newSet _, h1⟩ ⟨.newSet _, h2⟩ (of_isOk h2'.1)
  rw [this] at h2'
  simp at h2'

end

section
variable {K V : Type} [GoKey K] [LawfulGoKey K] [Inhabited V]

/-- C45. A map with keys other than strings is encoded as the array of its `[key,value]` pairs, each entry once (`C12_range`). -/
theorem C45_map (encK : K → Except String String) (encV : V → Except String String) (m : FMap K V) (hm : m.Reachable) :
    ∃ es : List (Entry K V), m.rangeList = .ok es ∧
    (∀ ks vs : List String, es.map (fun e => encK e.key) = ks.map .ok → es.map (fun e => encV e.value) = vs.map .ok →
      m.marshalJSONArray encK encV =
        .ok (.ok ("[" ++ joinWith "," ((ks.zip vs).map (fun kv => "[" ++ kv.1 ++ "," ++ kv.2 ++ "]")) ++ "]"))) ∧
    ((∃ e ∈ es, ∃ err, encK e.key = .error err ∨ encV e.value = .error err) → ∃ e ∈ es, ∃ err,
      (encK e.key = .error err ∨ encV e.value = .error err) ∧ m.marshalJSONArray encK encV = .ok (.error err)) := by
  refine ⟨m.tree.list, FMap.rangeList_spec hm.valid, ?_, ?_⟩
  · intro ks vs hk hv
    simp only [FMap.marshalJSONArray, FMap.rangeList_spec hm.valid, bind, Except.bind, pure, Except.pure]
    rw [jsonSlice_ok]
    generalize m.tree.list = es at hk hv
    induction es generalizing ks vs with
    | nil =>
      cases ks with
      | nil => simp
      | cons _ _ => simp at hk
    | cons e es ih =>
      cases ks with
      | nil => simp at hk
      | cons k ks =>
        cases vs with
        | nil => simp at hv
        | cons v vs =>
          simp only [List.map_cons, List.cons.injEq] at hk hv
          simp only [List.map_cons, List.zip_cons_cons, List.cons.injEq]
          refine ⟨?_, ih ks vs hk.2 hv.2⟩
          rw [hk.1, hv.1]
          rw [show [Except.ok k, Except.ok v] = ([k, v].map .ok : List (Except String String)) from rfl, jsonSlice_ok rfl]
          simp [joinWith, String.append_assoc]
  · rintro ⟨e, he, err, h⟩
    simp only [FMap.marshalJSONArray, FMap.rangeList_spec hm.valid, bind, Except.bind, pure, Except.pure]
    have pair : ∀ e : Entry K V, ∀ err, jsonSlice [encK e.key, encV e.value] = .error err →
        encK e.key = .error err ∨ encV e.value = .error err := by
      intro e err h
      cases hk : encK e.key with
      | error x =>
        rw [hk] at h
        simp [jsonSlice, bind, Except.bind] at h
        exact .inl (by rw [h])
      | ok x =>
        cases hv : encV e.value with
        | error y =>
          rw [hk, hv] at h
          simp [jsonSlice, bind, Except.bind] at h
          exact .inr (by rw [h])
        | ok y =>
          rw [hk, hv, show [Except.ok x, Except.ok y] = ([x, y].map .ok : List (Except String String)) from rfl, jsonSlice_ok rfl] at h
          cases h
    have hp : ∃ x ∈ m.tree.list.map (fun e => jsonSlice [encK e.key, encV e.value]), ∃ err, x = Except.error err := by
      refine ⟨_, List.mem_map_of_mem he, ?_⟩
      obtain ⟨err', _, h2⟩ := jsonSlice_error (xs := [encK e.key, encV e.value])
        (by rcases h with h | h
            · exact ⟨_, by simp, err, h⟩
            · exact ⟨encV e.value, by simp, err, h⟩)
      exact ⟨err', h2⟩
    obtain ⟨err', h1, h2⟩ := jsonSlice_error hp
    obtain ⟨e', he', h3⟩ := List.mem_map.1 h1
    exact ⟨e', he', err', pair e' err' h3, by rw [h2]⟩

end

section
variable {V : Type} [GoKey String] [LawfulGoKey String] [Inhabited V]

/-- C45. A map with string keys (which are `Equal` only to themselves) is encoded as the JSON object with its entries, each once, in
increasing order of the keys. -/
theorem C45_object (hK : ∀ a b : String, GoKey.eq a b = true ↔ a = b) (quote : String → String) (enc : V → Except String String)
    (txt : V → String) (m : FMap String V) (hm : m.Reachable) (henc : ∀ k v, m.Gets k (some v) → enc v = .ok (txt v)) :
    ∃ kvs : List (String × V), kvs.Pairwise (fun a b => a.1 < b.1) ∧ (∀ k v, m.Gets k (some v) ↔ (k, v) ∈ kvs) ∧
      marshalJSONObject quote enc m =
        .ok (.ok ("{" ++ joinWith "," (kvs.map (fun kv => quote kv.1 ++ ":" ++ txt kv.2)) ++ "}")) := by
  have hv := hm.valid
  obtain ⟨hg, hn⟩ := mapToGoMap_spec hK hv
  have hl : ∀ k v, m.Gets k (some v) ↔ (k, v) ∈ m.tree.list.map (fun e => (e.key, e.value)) := by
    intro k v
    rw [FMap.gets_iff hv, Tree.lk_some hv, List.mem_map]
    constructor
    · rintro ⟨e, he, h1, h2⟩; exact ⟨e, he, by rw [(hK _ _).1 h1, h2]⟩
    · rintro ⟨e, he, h1⟩
      cases h1
      exact ⟨e, he, LawfulGoKey.refl _, rfl⟩
  let kvs := (m.tree.list.map (fun e => (e.key, e.value))).insertionSort (fun a b => a.1 ≤ b.1)
  have hp : kvs.Perm (m.tree.list.map (fun e => (e.key, e.value))) := sortKeys_perm _
  have hnk : (kvs.map (·.1)).Nodup := by
    refine (hp.map _).nodup_iff.2 ?_
    rw [List.map_map]; exact hn
  refine ⟨kvs, ?_, fun k v => by rw [hl, hp.mem_iff], ?_⟩
  · have h1 := sortKeys_sorted (m.tree.list.map (fun e => (e.key, e.value)))
    have h2 : kvs.Pairwise (fun a b => a.1 ≠ b.1) := by rw [List.Nodup, List.pairwise_map] at hnk; exact hnk
    exact (h1.and h2).imp (fun {a b} h => Classical.byContradiction fun hlt => h.2 (String.le_antisymm h.1 (String.not_lt.1 hlt)))
  · simp only [marshalJSONObject, hg, bind, Except.bind, pure, Except.pure, jsonObject]
    have hsort : ((m.tree.list.map (fun e => (e.key, e.value))).map (fun kv => (kv.1, enc kv.2))).insertionSort
        (fun a b => a.1 ≤ b.1) = kvs.map (fun kv => (kv.1, enc kv.2)) := by
      symm
      apply List.map_insertionSort
      intro a _ b _
      exact Iff.rfl
    rw [hsort, mapM_ok _ _ (kvs.map (fun kv => quote kv.1 ++ ":" ++ txt kv.2))]
    · simp [jsonList, intercalate_joinWith]
    · rw [List.map_map, List.map_map]
      apply List.map_congr_left
      rintro ⟨k, v⟩ hkv
      have := henc k v ((hl k v).2 (hp.mem_iff.1 hkv))
      simp [this]

/-- C45. Equal maps with string keys have the same JSON text (or the same error), if the encoder gives `Equal` values the same text. -/
theorem C45_object_equal [GoKey V] [LawfulGoKey V] (hK : ∀ a b : String, GoKey.eq a b = true ↔ a = b) (quote : String → String)
    (enc : V → Except String String) (henc : ∀ a b, GoKey.eq a b = true → enc a = enc b) (m n : FMap String V) (hm : m.Reachable)
    (hn : n.Reachable) (he : m.equal n = .ok true) : marshalJSONObject quote enc m = marshalJSONObject quote enc n := by
  obtain ⟨b, h1, h2⟩ := FMap.equal_spec hm.valid hn.valid
  rw [he] at h1
  cases h1
  have hsame := h2.1 rfl
  obtain ⟨hg1, hn1⟩ := mapToGoMap_spec hK hm.valid
  obtain ⟨hg2, hn2⟩ := mapToGoMap_spec hK hn.valid
  simp only [marshalJSONObject, hg1, hg2, bind, Except.bind, pure, Except.pure, jsonObject]
  rw [sortKeys_congr (l' := (n.tree.list.map (fun e => (e.key, e.value))).map (fun kv => (kv.1, enc kv.2)))]
  · have hnd : ∀ x : FMap String V, (x.tree.list.map (·.key)).Nodup →
        ((x.tree.list.map (fun e => (e.key, e.value))).map (fun kv => (kv.1, enc kv.2))).Nodup := by
      intro x hx
      apply List.Nodup.of_map (fun p : String × Except String String => p.1)
      rw [List.map_map, List.map_map]; exact hx
    have hsub : ∀ x y : FMap String V, x.Reachable → y.Reachable → (∀ k, SameVal (x.tree.lk k) (y.tree.lk k)) → ∀ p,
        p ∈ (x.tree.list.map (fun e => (e.key, e.value))).map (fun kv => (kv.1, enc kv.2)) →
        p ∈ (y.tree.list.map (fun e => (e.key, e.value))).map (fun kv => (kv.1, enc kv.2)) := by
      intro x y hx hy hs p hp
      rw [List.map_map, List.mem_map] at hp
      obtain ⟨e, he, rfl⟩ := hp
      have h1 : x.tree.lk e.key = some e.value := (Tree.lk_some hx.valid).2 ⟨e, he, LawfulGoKey.refl _, rfl⟩
      have h2 := hs e.key
      rw [h1] at h2
      cases hy' : y.tree.lk e.key with
      | none => rw [hy'] at h2; exact h2.elim
      | some v =>
        rw [hy'] at h2
        obtain ⟨e', he', hk, hv⟩ := (Tree.lk_some hy.valid).1 hy'
        rw [List.map_map, List.mem_map]
        refine ⟨e', he', ?_⟩
        simp only [Function.comp]
        rw [(hK _ _).1 hk, hv, henc _ _ h2]
    have hsymm : ∀ k, SameVal (n.tree.lk k) (m.tree.lk k) := by
      intro k
      have := hsame k
      cases h1 : m.tree.lk k <;> cases h2 : n.tree.lk k <;> rw [h1, h2] at this
      · trivial
      · exact this.elim
      · exact this.elim
      · exact PerGoKey.symm this
    exact (List.perm_ext_iff_of_nodup (hnd m hn1) (hnd n hn2)).2
      (fun p => ⟨hsub m n hm hn hsame p, hsub n m hn hm hsymm p⟩)
  · rw [List.map_map, List.map_map]; exact hn1

end

section
local instance : GoKey String := ⟨fun a b => decide (a = b), fun _ _ => 7#64⟩
local instance : LawfulGoKey String where
  refl a := by simp [GoKey.eq]
  symm h := by simp only [GoKey.eq, decide_eq_true_eq] at *; exact h.symm
  trans h1 h2 := by simp only [GoKey.eq, decide_eq_true_eq] at *; exact h1.trans h2
  hash_congr _ _ _ _ := rfl

/-- Colliding keys put in two orders: the same text. -/
example : okAnd (newMap [(⟨"b", 1⟩ : KeyValue String Nat), ⟨"a", 2⟩, ⟨"c", 3⟩]) (fun m =>
    okAnd (newMap [(⟨"c", 3⟩ : KeyValue String Nat), ⟨"b", 1⟩, ⟨"a", 2⟩]) (fun n =>
      decide (marshalJSONObject (fun k => "\"" ++ k ++ "\"") (fun v => .ok (toString v)) m = .ok (.ok "{\"a\":2,\"b\":1,\"c\":3}")) &&
      decide (marshalJSONObject (fun k => "\"" ++ k ++ "\"") (fun v => .ok (toString v)) n = .ok (.ok "{\"a\":2,\"b\":1,\"c\":3}")))) = true := by
  decide +kernel
end

example : okAnd (newSet [(⟨1⟩ : Coll), ⟨2⟩, ⟨3⟩]) (fun s =>
    decide (s.marshalJSON (fun c => .ok (toString c.n)) = .ok (.ok "[1,2,3]")) &&
    decide (s.marshalJSON (fun c => if c.n = 2 then .error "no" else .ok (toString c.n)) = .ok (.error "no"))) = true := by decide +kernel
example : okAnd (newMap [(⟨⟨1⟩, 10⟩ : KeyValue Coll Nat), ⟨⟨2⟩, 20⟩]) (fun m =>
    decide (m.marshalJSONArray (fun c => .ok (toString c.n)) (fun v => .ok (toString v)) = .ok (.ok "[[1,10],[2,20]]"))) = true := by
  decide +kernel

/-! ## C46 -/

/-- C46. Different bit sets have different texts. -/
theorem C46_bitIter (a b : BitVec 64) : bitIterString a = bitIterString b ↔ a = b := by
  constructor
  · intro h
    have := brailleEncoded_inj h
    have := congrArg BitVec.reverse this
    simpa using this
  · rintro rfl; rfl

/-- C46. The text has at most 8 characters, and the empty set has the empty text. -/
theorem C46_length (a : BitVec 64) : (bitIterString a).length ≤ 8 ∧ (bitIterString a = "" ↔ a = 0#64) := by
  refine ⟨?_, ?_⟩
  · have : ∀ n x, (brailleLoop n x).length ≤ n := by
      intro n
      induction n with
      | zero => intro x; simp [brailleLoop]
      | succ n ih =>
        intro x
        unfold brailleLoop
        split
        · simp
        · simp only [List.length_cons]; have := ih (x <<< 8); omega
    simpa [bitIterString, brailleEncoded] using this 8 a.reverse
  · have h0 : bitIterString 0#64 = "" := by decide +kernel
    rw [← h0, C46_bitIter]

example : bitIterString 5#64 = "⠅" ∧ bitIterString 0x100#64 = "~⠁" := by decide +kernel

/-! ## C47 -/

section
variable {T : Type} [GoKey T]

/-- C47. If `FROZEN_CONCURRENCY` forbids goroutines for the receiver's size, then no set operation starts one. -/
theorem C47_set [Inhabited T] (c : Concurrency) (procs : Nat) (s : FSet T) (h : ForbidsGoroutines c s.count.toNat) (t : FSet T)
    (pred : T → Bool) (r : List T → T) :
    let g := newGauge c procs s.count.toNat
    (s.unionC g t).NoGoroutines ∧ (s.intersectionC g t).NoGoroutines ∧ (s.whereC g pred).NoGoroutines ∧ (s.equalC g t).NoGoroutines ∧
    (s.isSubsetOfC g t).NoGoroutines ∧ (s.reduceC g r).NoGoroutines := by
  have hg := gauge_of_forbids h procs
  exact ⟨Call.noGoroutines_map _ (Tree.combineC_noGoroutines hg _ _ _), Call.noGoroutines_map _ (Tree.intersectionC_noGoroutines hg _ _),
    Call.noGoroutines_map _ (Tree.whereC_noGoroutines hg _ _), Tree.equalC_noGoroutines hg _ _ _, Tree.subsetOfC_noGoroutines hg _ _,
    Tree.reduceC_noGoroutines hg _ _⟩

/-- C47 for maps. `Update` takes its gauge from the smaller map. -/
theorem C47_map {K V : Type} [GoKey K] [GoKey V] (c : Concurrency) (procs : Nat) (m n : FMap K V) (resolve : K → V → V → V) :
    (ForbidsGoroutines c m.count.toNat → (m.mergeC (newGauge c procs m.count.toNat) n resolve).NoGoroutines ∧
      (m.equalC (newGauge c procs m.count.toNat) n).NoGoroutines) ∧
    (ForbidsGoroutines c (min m.count.toNat n.count.toNat) →
      (m.updateC (newGauge c procs (min m.count.toNat n.count.toNat)) n).NoGoroutines) := by
  refine ⟨fun h => ?_, fun h => ?_⟩
  · have hg := gauge_of_forbids h procs
    exact ⟨Call.noGoroutines_map _ (Tree.combineC_noGoroutines hg _ _ _), Tree.equalC_noGoroutines hg _ _ _⟩
  · have hg := gauge_of_forbids h procs
    unfold FMap.updateC
    split
    · exact Call.noGoroutines_map _ (Tree.combineC_noGoroutines hg _ _ _)
    · exact Call.noGoroutines_map _ (Tree.combineC_noGoroutines hg _ _ _)

/-- C47. By default goroutines are used exactly from 2¹⁷ elements on. -/
theorem C47_default (procs count : Nat) : 0 < newGauge .other procs count ↔ 2 ^ 17 ≤ count := by
  rw [newGauge_pos]
  have := @len64_le count 17
  simp only [maxConcurrency]
  omega

end

example : ForbidsGoroutines .off 1000000000 ∧ ForbidsGoroutines .other 100000 ∧ ¬ ForbidsGoroutines .other 200000 ∧
    ForbidsGoroutines (.num 30) 200000 := by simp only [ForbidsGoroutines]; decide
/-- With goroutines allowed, a union of two branches does start some. -/
example : okAnd (newSet [(⟨1⟩ : Mod100), ⟨2⟩, ⟨3⟩]) (fun s => match s.unionC (newGauge (.num (-1)) 4 3) s with
    | .run (.par _ _ _ _) _ => true
    | _ => false) = true := by decide +kernel

end Frozen
