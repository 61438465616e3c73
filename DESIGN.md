# A Lean 4 model of arr-ai/frozen

## 1. Approach

The code under study is the pinned commit of `arr-ai/frozen` in `/repo` (Go, generics). The model follows the Go source
function by function; each Lean definition carries a comment with the Go file and lines it models.

Layers (all under `lean/Verif/`):

| module group | content |
|---|---|
| `Spec/` | small, model-independent specifications: sets as predicates, maps as partial functions, cardinality modulo an equivalence |
| `Model/` | executable model of the Go code: hasher, masks, nodes (`leaf1`, `leaf2`, `twig`, `branch`, explicit `nil`), trees, builders, iterators, `Set`, `Map`, `IntSet`, ordered iteration (heap), `Powerset`, `rel`, `lazy`, heap-level (aliasing) model, `Gauge.Parallel` as a small-step machine |
| `Proof/` | invariants and helper lemmas |
| `Props/` | the property theorems `C01_…` etc., each with an example showing that its hypotheses are met by a concrete non-trivial case |

Go panics are values: every method returns `Except Panic α`, and a call on a nil node is `Panic.nilDeref`, so panic-freedom is
a theorem, not an assumption. Counts and match counts are `Int` (no truncated subtraction); `int` overflow of counts is not
modelled. Hashes are `BitVec 64` with Go's shift semantics. Masks are `BitVec 16`.

Element equality and hashing (`value.Equal`, `hash.Any` from github.com/arr-ai/hash, not present here) are parameters: a class
`GoKey T` with `eq` and `hash`; the theorems assume `LawfulGoKey T`: `eq` is an equivalence and equal values have equal hashes
for every seed. Nothing is assumed about collisions: all theorems hold for every hash function, including constant ones.

## 2. Plan per property

* C01–C06, C25, C26, C41: invariant `WF depth node` (masks exact; children of a branch at depth d have hash digit d equal to
  their index; leaves and twigs pairwise non-equal; canonical form: a branch holds at least three elements and sits above depth
  22, a twig holds at least three elements at depth 22). Every node operation is shown to return normally, preserve `WF` and act on
  the element list as stated; a program language over the Set API then gives the refinement to predicates by induction.
* C07: the iterator as a state machine; `next` run to exhaustion yields the element list; exhausted states stay exhausted.
* C08, C14 (hash): XOR folds are permutation invariant and respect element equivalence.
* C09, C16: refinement by induction over the list of builder calls.
* C10, C40: heap-level model with addresses, slices with capacity and in-place mutation. Persistence is FALSE of the code (append
  to a twig's spare capacity): proved negation by witness plus a `_partial` theorem for heaps without spare twig capacity use.
* C11: small-step machine of `Gauge.Parallel` with one process per bit, non-atomic mask updates, buffered channel; every
  complete run ends in the sequential result.
* C12–C16, C29: the Map API as the tree over entries compared by key, refinement to `K → Option V`.
* C17: model of `container/heap`, proof of the heap invariant, sortedness and permutation.
* C18: reduction over the tree shape equals a fold over the elements for associative-commutative operations.
* C19, C37: Gray code argument over bit vectors. The values in the memo table of C37 are themselves sets whose hash is not compatible with
  their equality; `Proof/Unlawful` shows what a builder still guarantees then.
* C20: invariant over the grouping loop.
* C21: cells as 64-bit words over width-parametric integers; FALSE for negative integers: witness plus `_partial` for
  non-negative values. `C21_actual`, `C21_actual_compare`: no hypothesis on the integers; they say exactly what every program gets, in terms
  of `Spec/IntActual.lean` (a set of integers, a set of blocks that have a cell, an error in the count).
* C22, C23: bit-vector arithmetic. `BitIterator.Without` violates C22 (operator precedence): witness.
* C24, C27, C28, C39, C42: corollaries of the above.
* C30–C32: `rel` over an abstract lawful value type. `Join(s, ∅)` violates C30: witness plus `_partial`.
* C33–C38: lazy sets as expression graphs with memo cells. Several are FALSE of the code (`differenceSet.Has`,
  `unionSet.FastHas`, union/map `Count`, `powerSet.IsEmpty`, `EmptySet.Equal`, order-dependent `Hash`): witnesses plus `_partial`.
* C43: the memory model of C10 for maps; also for key types with many collisions, as long as no key is added to a map that has three
  others with its hash (`Spec/MapUncrowded`). C44: `Vet` on the invariant `WF`. C45: JSON texts from the iteration order, sorted for string
  keys. C46: byte-wise injectivity, by induction. C47: arithmetic of `NewGauge`, and calls whose gauge is not positive.
* C48, C49: the code of the memory model is a sequence of single accesses, so that any number of goroutines can be interleaved access by
  access over a shared prefix of memory. Sets with no bucket of spare capacity: no goroutine writes to shared memory, and each gets the answers
  it gets alone (C48). With buckets and `With` on shared sets this is FALSE: witness of a lost element and of a race, plus `_partial`.
* C50: histories in which any call may stop after any number of accesses (`MM.steps`). The log of a prefix is part of the log of the whole
  call, so a prefix changes no more than the whole; the invariant of C10 and C40 survives. A map call is one call on a tree, so this carries over to maps.
  `Where` of an IntSet whose predicate panics has put some cells into a builder of its own; the simulation of C71 survives that.
* C51: a program is run with two hash functions for the same `Equal`. Both runs meet the description of C01 and C12, which does not mention the
  hash. The stored representatives are followed exactly (`kept`). FALSE for panics (finding 2) and for which of two equal elements
  `Intersection` keeps: witnesses plus `_partial`. For integer sets the description of C21 does not mention the hash, and no call panics.
* C52: `MM.accesses` counts the single accesses of a run. Bounds for each tree call by induction on the depth left (`Proof/Work.lean`); the twig
  that ends a path holds only elements with the hash looked for. `AppendTo` gives up after two elements, so collapsing a branch looks
  at one path only. Iterators (`Proof/IterWork`): a potential,
  the slots not yet visited, pays for every access of `Next`.
* C53: the trie theory is proved for equalities that are symmetric and transitive only (`PerGoKey`). The invariant of `With` and `Combine`
  also tracks the elements unlike themselves as a multiset. A list of pairwise different values is determined up to order by its lookups and
  these (`perm_of_find`), which gives the element list after every call.
* C54: iterators over the memory of C10, with the shared buffer of the nested iterators (`Model/MemIter`). An invariant ties each iterator to an
  iterator over values (`RepIt`); the locations it may still read are among the published ones, which calls do not overwrite. FALSE
  when elements are added to a crowded set: witness plus `_partial`. A map iterator is a tree iterator over the map's entries, so the
  invariant carries over to histories of map calls (`Model/MapIter`). A call on an integer set is a series of map calls, so it
  carries over to those too (`Model/IntIter`), to the loops inside `Where`, `Union` and `Intersection` (`Model/IntLive`), and to
  histories in which calls are abandoned as in C50 (`Spec/IterCrash`, `Spec/MapIterCrash`, `Spec/IntIterCrash`,
  `Model/IntLiveCut`). `Next` answers in every history, crowded or not: a tree iterator whose `Next` said true has a value
  (`Proof/NextTotal`).
* C55: the functions that take a function are written once more as computations that call it (`CB`, `Model/Calls`): a tree with a branch for
  every answer. The list of calls is found by induction on the trie (`CB.MakesV`); since the arguments differ, any answers are those of some
  pure function, and the results follow from C02, C13, C15, C20 and C21. `Reduce` by a pool of values (`CB.Spends`).
  With goroutines (`Model/CallsPar`): steps of goroutines labelled with the call they make; the calls still to come are a multiset that each
  call shrinks (`CMakesV`), and the results of a trace are those of a pure function (`CRuns.comp`), so C11's lemmas apply.
* C56: interface values carry a dynamic type with optional methods (`Dyn`, `Model/Value`). The contract on the types is shown to be equivalent to
  `value.Equal` being a total equivalence that separates types; `Set`, `Map`, `KeyValue` (by C05, C16, C42) and `IntSet` (C21) satisfy it, hence all
  levels of nesting by induction.
* C57: programs as sequences of stages, each a call or a group of goroutines with a schedule. When the goroutines have ended, their memories are
  laid one behind the other and pointers adjusted (`World.join`). The invariant of C10 holds again: trees move along (`Rep.move`,
  `Own.move`), and a goroutine's sets lie in its own memory and in what it was given (`run_grown`).
* C58: `Reduce` over the memory model with a function that may assign to the slice it gets. False in general; proved for functions that
  do not write, for functions that reorder if no twig can arise (a relation between nodes that differ in the order in leaves), and, for any
  function, that builders are unaffected.
* C59: bounds on `MM.accesses` for the calls on whole trees, by induction on the depth. A branch costs a constant, which is charged to the
  elements of the smaller operand below it; slots that only one operand has are shared (`acc_fill`, `Proof/BulkOps`).
  Comparisons likewise (`Proof/CompareWork`).
* C60: the code of a call is a tree of accesses with a node for starting goroutines (`PC`, `Model/MemParallel`). A state is a tree of
  goroutines; each has an arena above what existed when it was started, and the arenas are laid one behind the other at the join, as in C57. An invariant
  says that no write goes below the arena and what the code will come to (`PSt.Good`); the result agrees with the value
  model by induction on the depth (`PSim.fill`, `Proof/MemParOps`), and the histories follow as for C10.
* C61: over the goroutine machine of C11. An invariant records why a call has its result: all goroutines have sent `true`, or one has
  sent `false` (`Why`, `Proof/Goroutines`). FALSE for `Equal` and `IsSubsetOf`: witness schedules, plus `_partial`.
* C62: over the same machine, whose steps read and write the mask and the slots one at a time. FALSE for `Union`, `Merge`
  and `Update`: the races on the mask and on the field that `CombineArgs.Flip` fills (`Model/Flip`) are characterised exactly by two
  patterns of hashes (`Spec/Races`): a race on the mask needs two slots of one branch that set it (`Proof/Races`), a race in `Flip` needs
  two goroutines that call it (`Proof/Flip`), and a schedule then exists. The others never touch either (`NoSets`).
* C63: each call of package `lazy` is cut into steps at its accesses to memo cells (`LProg`, `Model/LazyConc`); a schedule interleaves the
  steps of any number of goroutines. What a cell denotes never changes, so a ghost world says it once and for all (`CellWorld`); worlds grow. A program is
  safe in a world if it ends rightly whatever bigger world it finds at each of its steps (`Safe`, `Proof/LazyConc`), an inductive predicate, so
  that safety includes ending. FALSE over all allowed calls, for the reason C33 is; plus `_partial`.
* C64: maps over the memory of C43, used by goroutines as in C48 and C49, but with programs that decide as they go (`GProg`, `MGProg` in
  `Spec/Adaptive`): what a goroutine does next is any function of the counts of its maps and of the answers it has got. Induction over programs
  with the invariant of C10. What a goroutine should see is said by the map API on values (`VMapClient`), not by the calls on trees that the maps make. C48
  and C49 are proved of such programs too (`C48_adaptive`, `C49_adaptive_partial`). FALSE for additions to crowded maps; plus `_partial`.
* C65: what a root keeps alive is an inductive relation on memory locations (`Mem.Keeps`). By the invariant of C10 a branch has at least three
  elements below it and there are 22 levels of branches, so each level has at most a third as many branches as there are elements.
* C66: over the goroutines of C55 and C11, asking in which goroutine the user's function is called and in which the library panics. Code that comes
  to no call of `Parallel` stays in the caller's goroutine. With goroutines every call of a predicate or resolver is made by one of them, and so is one
  of a reducer. FALSE from 2¹⁷ elements on: the exact condition plus `_partial`.
* C67: from the membership characterisations of C30 and C31, by reasoning about tuples as partial functions; both sides are compared with the
  library's own `Equal`. FALSE for `Join` with empty relations: witnesses plus `_partial`.
* C68: from the finite maps that C12, C13 and C15 say the calls return, key by key.
* C69: programs as trees that decide as they go (`JProg`, `MJProg` in `Spec/JoinProg`), with goroutines as in C64 and taking over as in C57. A step
  relation quantifies over schedules; the invariant of C10 and what the program has seen are kept by every step (`JInv`). C57 is proved
  of such programs too (`C57_adaptive_values`). FALSE for additions to crowded maps; plus `_partial`.
* C70: from the sets, lists and counts that C01, C04, C17, C18, C19, C20 and C28 say the calls return, element by element. A predicate that does not respect `Equal` filters like one that does (`C01_where_any`), since `Where` asks it about stored elements only (C55).
* C71: `Model/IntMem.lean` runs the IntSet functions over the memory of `Model/Memory.lean`, their maps named by position. A simulation with the values of `Model/IntSet.lean`, call by call on maps (C43, C64's `MapsAre`), then C21 for the comparison with mathematical sets. `C71_actual_partial` compares with `Spec/IntActual.lean` instead, for all integers. `C71_fails` is the counterexample without the hypothesis on hashes.
* C72: from `C21_actual`, by induction on programs without `Map`.
* C73: from the sets that C21 says programs return, integer by integer. FALSE for negative integers that are not multiples of 64: witness plus
  `_partial`.

## 3. Trusted base

**Checker.** Lean 4.33.0's kernel. No `sorry`, no `native_decide`, no `bv_decide`, no axioms of our own. Concrete witnesses use
`decide +kernel`, which is evaluation by the kernel itself.

**Axioms.** Every theorem in `MANIFEST.json` depends on a subset of `propext`, `Classical.choice`, `Quot.sound`. Most depend on all three.
Fewer are used by:

| axioms | theorems |
|---|---|
| none | `C42_entry`, `C56_dispatch`, `C56_uncomparable_refuted` |
| `Classical.choice` | `C56_equal_iff` |
| `propext` | `C01_description_unique`, `C17_orderedFirstN_negative`, `C39_plus_empty_panics`, `C39_keyValue`, `C42_keyValue`, `C56_equalFuncFor` |
| `propext`, `Quot.sound` | `C09_trace_length`, `C10_persistence_fails`, `C10_persistence_fails_union`, `C13_total_refuted`, `C19_powerset_too_large`, `C21_actual_ideal`, `C22_without_refuted`, `C23_iota`, `C29_needs_identity`, `C40_new_builder_empty`, `C42_keyValue_union_panics`, `C43_map_persistence_fails`, `C45_set`, `C45_set_not_canonical`, `C49_shared_with_refuted`, `C49_data_race`, `C51_panic_refuted`, `C51_intersection_refuted`, `C54_iterators_refuted`, `C54_map_iterators_refuted`, `C54_intset_iterators_refuted`, `C55_int_pure`, `C58_read_only_keeps_partial`, `C58_accumulate_refuted`, `C58_sort_refuted`, `C58_append_refuted`, `C63_alone`, `C64_refuted`, `C69_refuted`, `C70_setMap_needs_respect`, `C71_fails` |

**Model against code.** The model was transcribed by hand from the Go text; the Go code was not run. Whoever reads a theorem trusts that
the definitions in `Model/` say what the cited lines say. The modelling decisions to check are:

* *Values.* Elements, keys and values are a Lean type with `GoKey.eq` (`value.Equal`) and `GoKey.hash` (`hash.Any`). Hash functions are
  arbitrary; `LawfulGoKey` asks for an equivalence that hashes respect. NaN-like values, with a deterministic hash, are covered by C53 only.
* *Panics* are results (`Except Panic α`). A nil node is an explicit constructor on which methods panic.
* *Numbers.* Counts are `Int`; overflow of a count past 2⁶³ is left out. Hashes, masks, integer-set cells and `Iota` use `BitVec`.
* *Functions passed by the user* (predicates, reducers, resolvers, key functions, orders, encoders) are pure total functions, except in
  C55 (`Model/Calls`), where they may keep state, have effects and panic. That they may write to the slices `Reduce` passes is C58's subject.
* *Memory.* `Model/Node.lean` and what builds on it treat nodes as immutable values. That this is right is itself a property (C10, C40,
  C43), and is studied in `Model/Memory.lean`, which has cells, arrays with length and capacity, in-place writes, and `append` with an
  arbitrary growth policy. It also covers `Finish` handing over nodes and builders mutating them in place. Reading past the end of a slice and
  unallocated addresses are errors there, not defaults; writing to an unallocated address does nothing (no theorem needs it, as every write
  follows a read or an allocation of the same node or array). A piece of code is a sequence of single accesses (`MM`); a ghost field of the memory
  logs every location that was overwritten.
* *Goroutines that share sets* (`Spec/Concurrent.lean`). A main program builds sets, then starts any number of goroutines. Each turn of
  the schedule performs one access of one goroutine. Each goroutine allocates in an arena of its own above the shared prefix (Go's allocator
  hands out disjoint memory). Sets are passed between goroutines only at the start and at the end (`Spec/ForkJoin.lean`). Memory is sequentially consistent; the absence of races
  (`C48_no_race`) is what makes Go's memory model agree with that.
* *Goroutines.* `Model/Parallel.lean` is a small-step machine with arbitrary interleavings of single memory accesses of the packer's
  mask and slots, and a bounded channel. It is sequentially consistent; Go's weaker guarantees for racy programs are out of scope. A panic
  in a goroutine ends the process.
  `Model/MemParallel.lean` has the goroutines of a call over the memory with single accesses; there the writes to the slots and the mask of the branch
  under construction are done at the join.
* *Standard library.* `container/heap` is modelled function by function. `math/bits`, `sort`, `encoding/json`, `fmt` and Go maps are modelled
  by their documentation; Go maps are iterated in any order.

## 4. What is modelled

| Go | Lean | notes |
|---|---|---|
| `internal/pkg/tree/{leaf1,leaf2,twig,branch,packer,hasher,tree,builder}.go` | `Model/Node`, `Model/Tree` | `Add`, `Canonical`, `Combine`, `Difference`, `Empty`, `Equal`, `Get`, `Intersection`, `Iterator`, `Reduce`, `Remove`, `SubsetOf`, `Where`, `With`, `Without`; cost counters for lookups in `Model/Cost` |
| `internal/pkg/masker`, `bititer.go`, `internal/pkg/iterator/bititer.go` | `Model/Bits` | |
| `set.go`, `set_ops.go`, `set_builder.go`, `set_extra.go`, the ordered iterator of `internal/pkg/tree/iterator.go` with `container/heap` | `Model/Set`, `Model/SetExtra`, `Model/Ordered` | |
| `map.go`, `map_builder.go`, `map_extra.go`, `mapEntry.go`, `kv.go` | `Model/Map` | |
| `intset.go`, `intset_iter.go` | `Model/IntSet` | parametric in the width and signedness |
| `IntSet`s that share memory | `Model/IntMem`, `Model/IntCrash` | the entries a loop ranges over are read when it starts |
| `Format`/`String` methods | `Model/Format` | element rendering is a parameter |
| `internal/pkg/depth/gauge.go` and the calls of `Parallel` | `Model/Parallel`, `Model/Flip`, `Model/Misc` | |
| aliasing, in-place mutation, spare capacity | `Model/Memory`, access counts in `Spec/Work`, memory kept alive in `Spec/Footprint` | sets, maps, builders |
| `Equal` and `SubsetOf` reading the memory | `Model/MemCompare` | a search through a twig reads all of it |
| iterators between other calls: `packer_iter.go`, `iterator/slice.go`, `MapIterator` of `map.go`, `intset_iter.go` | `Model/MemIter`, `Model/MapIter`, `Model/IntIter`, `Model/IntLive` (loops inside `intset.go`) | |
| `Reduce` with functions that write to their slice | `Model/MemReduce` | |
| calls of the user's function | `Model/Calls`, `Model/CallsInt`, `Model/CallsPar` | `Where`, `Map`, `Reduce`, `GroupBy`, `NewMapFromKeys`, `Merge`; the first, third and last also from goroutines; `IntSet`'s `Where` and `Map` |
| `internal/pkg/value/value.go` and the `Same` methods | `Model/Value` | dynamic types with optional methods |
| `pkg/rel` | `Model/Rel` | over a lawful value type |
| `lazy/*.go` | `Model/Lazy`, `Model/LazyPow` (powersets with their memo tables) | mutable memo tables, iterators as state, fuel for the mutual recursion; `Proof/LazyFuel` shows that fuel never changes an answer |
| goroutines sharing lazy sets | `Model/LazyConc`, `Spec/LazyConc` | one step per atomic access to the `set` field of a `memoSet`; `C63_alone` shows that the steps of a goroutine that runs alone are `Model/Lazy` |
| goroutines sharing sets and maps | `Spec/Concurrent`, `Spec/ForkJoin`, `Spec/Adaptive` over `Model/Memory`, `Model/MemCompare`; `Spec/MapValues` | |
| goroutines started by a call, over the memory | `Model/MemParallel` | `Combine`, `Difference`, `Intersection`, `Where` |
| `Vet`, `MarshalJSON`, `BrailleEncoded`, `NewGauge` | `Model/Misc` | |

Fanout is 8 (`fanout8.go`, the default); the 4- and 16-way builds (build tags) are not modelled. Also not modelled: `node.Map` and `node.Add(args)` (no caller), `Builder.add` (no caller), `EqualPacker` (no caller), `vet.go` (compiled out;
the checks themselves are C44), `String` of hashers and of `Masker` (the latter always panics), padding and indentation helpers in `fu`,
`Map.EqArgs`/`EqKeyArgs` as separate API,
`lazy` `String`, logging and test support (`internal/pkg/{debug,test,vetctl}`).

## 5. Findings

Statements that are false of the code, each refuted in Lean by a concrete execution of the model:

1. **A set can change after it was built** (`C10_persistence_fails`, `C43_map_persistence_fails`, `C71_fails`). `twig.With` appends to the receiver's slice
   (twig.go:291, 303). With spare capacity, two derivations of one bucket overwrite each other's element. It needs four or
   more elements with one 64-bit hash. `Union` of a branch with a leaf reaches the same code (`C10_persistence_fails_union`).
   Two goroutines that both derive from one shared set race on that storage (`C49_data_race`), and one of them can lose the element it added
   (`C49_shared_with_refuted`, `C64_refuted`, `C69_refuted`). An iterator that is under way delivers the other set's element (`C54_iterators_refuted`, `C54_map_iterators_refuted`, `C54_intset_iterators_refuted`).
2. **`Union`, `Merge` and `Update` can panic** (`C03_union_total_refuted`, `C13_total_refuted`). `twig.Combine` panics on buckets. The exact
   condition is `TripleClash`: it is proved to be necessary and sufficient. A set of three colliding values cannot be united with itself.
3. **`BitIterator.Without` clears too much** (`C22_without_refuted`): `b &^ 1 << i` parses as `(b &^ 1) << i`.
4. **`IntSet` loses negative integers** that are not multiples of 64 (`C21_negative_lost`), because `%` truncates towards zero (intset.go:26).
   `Elements` delivers the next multiple of 64 instead, which `Has` does not find (`C21_negative_replaced`): `NewIntSet(-1).Elements()` is `[0]`.
   `C21_actual` describes every program: each such integer leaves a cell for its block of 64; an empty cell is read as the first integer
   after the block, `Map` makes that an element, `Equal` and `IsSubsetOf` compare cells, and each `With` of such an integer adds one to the
   count. No other member is lost (C72).
5. **`Join(s, ∅)` returns `s`** (`C30_join_refuted`), so that `Join` is neither commutative nor associative (`C67_join_comm_refuted`,
   `C67_join_assoc_refuted`).
6. **Lazy sets**: `differenceSet.Has` answers with `||` (`C34_has_refuted`); `FastHas` of unions and differences asks the left operand twice
   (`C34_fastHas_refuted`); `Count` of a union counts common elements twice (`C35_count_refuted`); `powerSet.IsEmpty` is wrong for ∅
   (`C35_powerset_isEmpty_refuted`, `C35_powerset_fastIsEmpty_refuted`); `Next` after the end empties the memo table (`C36_next_after_end_refuted`); nested `Difference` and
   duplicates (`C33_iteration_refuted`, `C33_once_refuted`); `Equal`, `EqualSet`, `IsSubsetOf`, `Hash` (`C38_*_refuted`). Powersets: iterating to the
   end changes what `Has` answers, and before that `Has` denies every lazy set (`C37_has_refuted`, `C37_has_lazy_refuted`); subsets of an
   overlapping union are delivered twice (`C37_distinct_refuted`); `Count` is negative for 63 elements (`C37_count_refuted`).
7. **`%+v` of an empty set** dereferences nil (`C39_plus_empty_panics`). `OrderedFirstN` panics for negative n
   (`C17_orderedFirstN_negative`). `Iota3` does not terminate if the counter overflows.
8. **`Intersection` may return the receiver's or the argument's elements**, depending on sizes and on the hash
   (`C51_intersection_refuted`); all other operations have a fixed rule (`C51_elements`).
9. **Lazy sets break the contract on elements** (`C56_lazy_refuted`): `EmptySet.Equal` compares its argument with
   itself (set_empty.go:41).
10. **A function passed to `Reduce` can change sets** by writing to the slice it gets, even by sorting or appending to it
   (`C58_accumulate_refuted`, `C58_sort_refuted`, `C58_append_refuted`): leaves pass their own storage.
11. **Equal sets may have different JSON** (`C45_set_not_canonical`), unlike equal maps with string keys (`C45_object_equal`).

12. **`Equal` and `IsSubsetOf` leave goroutines running** that still call the user's `Equal` when they return false
   (`C61_equal_refuted`, `C61_isSubsetOf_refuted`).
13. **`Union` of large sets contains a data race** on the mask of the branch it builds (`C62_union_races`) and in `CombineArgs.Flip`
   (`C62_flip_refuted`), exactly for the sets with the patterns `MaskClash` and `FlipClash` (`C62_union_partial`); so do `Merge` and
   `Update`. The race detector reports it; under sequential consistency the result is right (C11).
14. **`Has` of a lazy difference depends on the schedule** (`C63_schedule_refuted`): it is wrong until some goroutine has iterated the set.
15. **A panic in a large set ends the program** (`C66_where_refuted`, `C66_union_partial`, `C66_update_partial`): from 2¹⁷ elements on, predicates, reducers, resolvers and
   `Union` run in goroutines that do not recover, so the caller's `recover` sees nothing.

Observed while reading, outside the theorems: `rel.Nest` logs; the comment of
`NewSetFromMask64` promises 2^i instead of i; `branch.Vet` asserts `r.(error)` on string panics; `EqualFuncFor` defers `recover()` directly,
which recovers nothing.

## 6. Testing the theorems

`seeded/LOG.jsonl` records edits of the model that a realistic bug would make, which theorems then failed, and which theorems were tightened
because they did not.
