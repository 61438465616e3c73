{"id": "C01", "title": "Set operation histories behave like mathematical sets", "statement": "For every program built from NewSet, With, Without, Where, Union, Intersection, Difference, SymmetricDifference and AnyN that returns a Set without panicking, Has(v) on the result is true exactly when v belongs to the mathematical set described by the same program (membership taken modulo the element type's Equal).", "quantifier": "all element types with a lawful Equal/Hash pair, all finite programs over the Set API, all elements v", "why_tests_cant": "Histories and hash assignments are unbounded; tests only sample a few orders, sizes and hash shapes, and cannot cover hash collisions at every trie depth.", "anchors": ["set.go: NewSet, Set.With, Set.Without, Set.Where, Set.Union, Set.Intersection, Set.Difference, Set.SymmetricDifference, Set.Has", "internal/pkg/tree/tree.go", "internal/pkg/tree/branch.go", "internal/pkg/tree/leaf1.go", "internal/pkg/tree/leaf2.go", "internal/pkg/tree/twig.go"]}
{"id": "C02", "title": "Count is the exact cardinality", "statement": "For every Set produced by any such program, Count() equals the number of distinct (non-Equal) elements in it, and IsEmpty() is true exactly when no element is in it.", "quantifier": "all lawful element types, all programs over the Set API", "why_tests_cant": "Count is maintained incrementally from match counts in every operation and every recursive case; a drift shows only for particular shapes/overlaps.", "anchors": ["set.go: Set.Count, Set.IsEmpty", "internal/pkg/tree/tree.go: Combine, Difference, Intersection, With, Without, Where"]}
{"id": "C03", "title": "Union is total and is set union", "statement": "For all sets s and t, s.Union(t) returns normally and contains exactly the elements of s or t; for an element present in both, the representative of t is kept.", "quantifier": "all pairs of reachable sets, all hash functions consistent with Equal", "why_tests_cant": "Whether it holds depends on how many elements share a full 64-bit hash in both operands; random tests never produce that.", "anchors": ["set.go: Set.Union", "internal/pkg/tree/tree.go: Tree.Combine", "internal/pkg/tree/branch.go: branch.Combine", "internal/pkg/tree/leaf1.go: Combine", "internal/pkg/tree/leaf2.go: Combine", "internal/pkg/tree/twig.go: Combine"]}
{"id": "C04", "title": "Intersection, Difference and SymmetricDifference are exact and total", "statement": "For all sets s, t: Intersection and Difference return normally and contain exactly the elements in both / in s but not t; SymmetricDifference, whenever its internal union returns, contains exactly the elements in one but not both.", "quantifier": "all pairs of reachable sets, all consistent hash functions", "why_tests_cant": "All size ratios, overlaps and collision patterns must be covered; the operand swap in Intersection and the mixed leaf/branch cases multiply the shapes.", "anchors": ["set.go: Set.Intersection, Set.Difference, Set.SymmetricDifference", "internal/pkg/tree/tree.go", "internal/pkg/tree/branch.go: Intersection, Difference"]}
{"id": "C05", "title": "Equal is extensional, whatever the construction history", "statement": "For any two reachable sets, s.Equal(t) is true exactly when every element of each is in the other, no matter by which operations, in which order, each was built.", "quantifier": "all pairs of programs over the Set API, including builder histories with removals", "why_tests_cant": "Equal compares trie shapes, so it needs a canonical form to be preserved by every operation on every input.", "anchors": ["set.go: Set.Equal, Set.Same", "internal/pkg/tree/tree.go: Equal", "internal/pkg/tree/branch.go: Equal, Canonical, Remove", "internal/pkg/tree/twig.go: Equal, Canonical"]}
{"id": "C06", "title": "IsSubsetOf is exactly set inclusion", "statement": "For any two reachable sets, s.IsSubsetOf(t) is true exactly when every element of s is in t; it is reflexive, transitive, and mutual inclusion coincides with Equal.", "quantifier": "all pairs of reachable sets", "why_tests_cant": "Depends on all relative shapes of two tries.", "anchors": ["set.go: Set.IsSubsetOf", "internal/pkg/tree/tree.go: SubsetOf", "internal/pkg/tree/branch.go: SubsetOf"]}
{"id": "C07", "title": "Range yields each element exactly once and then stays exhausted", "statement": "Calling Next/Value on s.Range() yields Count() values, pairwise non-Equal, covering exactly the elements of s; once Next has returned false every later Next returns false. Elements() lists the same values.", "quantifier": "all reachable sets, all numbers of further Next calls", "why_tests_cant": "The iterator is a nested state machine over arbitrary trie shapes; exhaustion behaviour is an all-future-calls claim.", "anchors": ["set.go: Set.Range, Set.Elements", "internal/pkg/tree/packer_iter.go: packerIterator.Next", "internal/pkg/iterator/slice.go"]}
{"id": "C08", "title": "Hash depends only on the elements", "statement": "If s.Equal(t) then s.Hash(seed) == t.Hash(seed) for every seed, for any two reachable sets.", "quantifier": "all pairs of equal reachable sets, all seeds", "why_tests_cant": "Iteration order differs with insertion history inside leaves; tests sample few orders.", "anchors": ["set.go: Set.Hash"]}
{"id": "C09", "title": "SetBuilder histories build the expected set", "statement": "After any sequence of Add, Remove and Finish calls on a SetBuilder, Has and Count agree at every point with the mathematical set of elements added and not since removed (since the last Finish), no call panics, and Finish returns that set and leaves the builder empty.", "quantifier": "all finite sequences of builder calls, all lawful element types", "why_tests_cant": "Histories are unbounded; Remove has its own collapsing code path.", "anchors": ["set_builder.go: SetBuilder", "internal/pkg/tree/builder.go: Builder.Add, Remove, Finish", "internal/pkg/tree/branch.go: AddFast, Remove", "internal/pkg/tree/leaf2.go: AddFast", "internal/pkg/tree/twig.go: AddFast, Remove"]}
{"id": "C10", "title": "Persistence: no operation changes an existing Set", "statement": "Once a Set value exists, no later call on it or on any Set derived from it (With, Without, Where, Union, Intersection, Difference) changes which elements it contains.", "quantifier": "all histories of operations over a shared heap, all observation points", "why_tests_cant": "Sharing bugs need two derivations from the same version and a later observation of the first; the aliasing only exists in particular shapes.", "anchors": ["internal/pkg/tree/twig.go: With, WithFast (append to a shared backing array)", "internal/pkg/tree/branch.go: WithFast, Without", "set.go"]}
{"id": "C11", "title": "Parallel execution is unobservable", "statement": "For every gauge and every goroutine schedule, the set operations that fan out over goroutines return the same result and match count as the sequential execution, never deadlock, and never leave a goroutine blocked.", "quantifier": "all masks, all interleavings of the goroutines' steps including the unsynchronised mask updates", "why_tests_cant": "Schedules are unbounded and races are rarely hit; the parallel path only starts above 2^17 elements.", "anchors": ["internal/pkg/depth/gauge.go: Gauge.Parallel", "internal/pkg/tree/branch.go: Combine, Difference, Intersection, Where, Equal, SubsetOf, Reduce", "internal/pkg/tree/packer.go: SetNonNilChild, updateMask"]}
{"id": "C12", "title": "Map histories behave like finite maps", "statement": "For every program over NewMap, With, Without, Project, Where, Update and Merge that does not panic, Get(k) on the result returns exactly the value that the same program gives on mathematical finite maps, and Count() is the number of keys.", "quantifier": "all lawful key types, all value types, all programs over the Map API, all keys", "why_tests_cant": "Unbounded histories and hash shapes.", "anchors": ["map.go: Map.With, Without, Get, Has, Count, NewMap", "mapEntry.go"]}
{"id": "C13", "title": "Merge and Update resolve overlapping keys correctly", "statement": "m.Merge(n, resolve) maps a key in both to resolve(key, m's value, n's value) with arguments in that order, and keys in only one side to that side's value; m.Update(n) gives n's value for keys in both. Both return normally for all maps.", "quantifier": "all pairs of reachable maps, all resolve functions", "why_tests_cant": "The combiner is flipped or not depending on trie shapes and relative sizes, so argument order is shape dependent.", "anchors": ["map.go: Map.Merge, Map.Update", "internal/pkg/tree/nodeArgs.go: CombineArgs.Flip", "internal/pkg/tree/branch.go: Combine"]}
{"id": "C14", "title": "Map Equal and Hash are extensional", "statement": "For reachable maps, m.Equal(n) is true exactly when they have the same keys with Equal values, whatever their histories; Equal maps have equal Hash for every seed.", "quantifier": "all pairs of reachable maps, all seeds", "why_tests_cant": "Relies on canonical trie shape across all histories.", "anchors": ["map.go: Map.Equal, Map.Hash", "mapEntry.go: mapEntryEqual"]}
{"id": "C15", "title": "Keys, Values, Project, Where, MapMap and NewMapFromKeys are exact", "statement": "Keys() is exactly the key set; Values() exactly the set of values; Project(ks) keeps exactly the entries whose key is Equal to one of ks; Where keeps exactly the entries satisfying the predicate; MapMap keeps keys and maps values; NewMapFromKeys(ks,f) maps exactly the keys ks, k to f(k).", "quantifier": "all reachable maps, all arguments", "why_tests_cant": "All maps and functions.", "anchors": ["map.go: Keys, Values, Project, Where, MapMap, NewMapFromKeys"]}
{"id": "C16", "title": "MapBuilder histories build the expected map", "statement": "After any sequence of Put, Remove and Finish, Get, Has and Count agree with the finite map of the last Put per key not since removed, and Finish returns it and empties the builder.", "quantifier": "all finite sequences of builder calls", "why_tests_cant": "Unbounded histories.", "anchors": ["map_builder.go: MapBuilder", "internal/pkg/tree/builder.go"]}
{"id": "C17", "title": "Ordered traversal is sorted and complete", "statement": "For a strict weak order less, OrderedElements(less)/OrderedRange(less) yield exactly the set's elements, each once, in non-decreasing order; OrderedFirstN(n, less) yields the min(n, Count) least elements in order; First(less) returns a least element of a non-empty set.", "quantifier": "all reachable sets, all strict weak orders, all n >= 0", "why_tests_cant": "Heap behaviour depends on insertion order and size; ties and all sizes must be covered.", "anchors": ["set.go: OrderedElements, OrderedFirstN, First, FirstN, OrderedRange", "internal/pkg/tree/tree.go: OrderedIterator", "internal/pkg/tree/packer_iter.go: ordered, reverseOrdered"]}
{"id": "C18", "title": "Reduce combines every element exactly once", "statement": "If reduce is associative and commutative, Reduce (and Reduce2) return the combination of all elements, each used exactly once, and ok=false exactly for the empty set; reduce is never called with no arguments.", "quantifier": "all reachable sets, all associative-commutative reducers", "why_tests_cant": "The grouping follows the trie shape, different for every hash assignment.", "anchors": ["set.go: Reduce, Reduce2", "internal/pkg/tree/branch.go: Reduce", "internal/pkg/tree/tree.go: Reduce"]}
{"id": "C19", "title": "Powerset returns exactly all subsets", "statement": "For a set with n <= 63 elements, Powerset(s) contains exactly the subsets of s, and its Count() is 2^n; for n > 63 it panics.", "quantifier": "all reachable sets, every n", "why_tests_cant": "The bit-flipping enumeration must be right for every n up to 63: 2^63 steps cannot be tested.", "anchors": ["set.go: Powerset", "internal/pkg/iterator/bititer.go: Index, Has"]}
{"id": "C20", "title": "SetGroupBy partitions the set", "statement": "SetGroupBy(s, key) maps k to a set exactly when some element has key k, and that set contains exactly the elements of s whose key is Equal to k.", "quantifier": "all reachable sets, all key functions into lawful key types", "why_tests_cant": "All sets and key functions.", "anchors": ["set.go: SetGroupBy", "map_builder.go"]}
{"id": "C21", "title": "IntSet behaves like a set of integers", "statement": "For every integer type and every history of NewIntSet/With/Without/Union/Intersection/Where/Map, Has(i) is exact, Count() is the cardinality, Range enumerates exactly the members once, and Equal/IsSubsetOf are extensional.", "quantifier": "all signed and unsigned integer types of 8..64 bits, all values including negative ones, all histories", "why_tests_cant": "Cell/bit decomposition must be right at every value of every width; tests use small non-negative ints.", "anchors": ["intset.go", "intset_iter.go"]}
{"id": "C22", "title": "Bit enumeration visits exactly the set bits", "statement": "Iterating a BitIterator/Masker with Index and Next visits exactly the indices of its one-bits in increasing order; Has/With/Without(i) query, set and clear exactly bit i; Count is their number.", "quantifier": "all 16-bit and 64-bit words, all indices", "why_tests_cant": "2^64 words.", "anchors": ["bititer.go", "internal/pkg/iterator/bititer.go", "internal/pkg/masker/masker.go"]}
{"id": "C23", "title": "Iota3 and NewSetFromMask64 contain exactly the described integers", "statement": "Iota3(start, stop, step) with step != 0 and no int overflow returns exactly {start + k*step | k >= 0, before stop}; with step = 0 it returns the empty set if start = stop and panics otherwise; NewSetFromMask64(m) is exactly the set of indices of one-bits of m.", "quantifier": "all ints start, stop, step; all 64-bit masks", "why_tests_cant": "All ranges, both signs of step.", "anchors": ["set_extra.go: Iota, Iota2, Iota3, NewSetFromMask64"]}
{"id": "C24", "title": "Any and AnyN pick members", "statement": "Any() on a non-empty set returns a member and panics on an empty one; AnyN(n) returns a subset of s with exactly max(0, min(n, Count)) elements.", "quantifier": "all reachable sets, all ints n", "why_tests_cant": "All sets and n.", "anchors": ["set.go: Any, AnyN", "map.go: Any"]}
{"id": "C25", "title": "Lookup cost is bounded by a constant depth", "statement": "In every reachable Set or Map any lookup descends through at most 22 branch levels, and unless three elements share all 64 hash bits it then compares at most two stored elements.", "quantifier": "all reachable sets", "why_tests_cant": "A worst case over all hash assignments.", "anchors": ["internal/pkg/tree/hasher.go: maxTreeDepth", "internal/pkg/tree/branch.go: newBranchFrom, Get", "internal/pkg/tree/twig.go: Get"]}
{"id": "C26", "title": "Only documented misuse panics", "statement": "No call of With, Without, Has, Where, Intersection, Difference, Equal, IsSubsetOf, Range, Reduce, Elements on reachable sets and maps, nor any builder call, panics; Union, Merge and Update panic only if three elements of one operand share all 64 hash bits with an element of the other.", "quantifier": "all reachable sets and maps, all arguments", "why_tests_cant": "Requires showing the internal 'should never be called' and nil cases unreachable from every history.", "anchors": ["internal/pkg/tree/branch.go (panic(errors.ErrWTF))", "internal/pkg/tree/twig.go: Combine", "internal/pkg/tree/leaf1.go: newLeaf, Combine"]}
{"id": "C27", "title": "Sets and Maps are lawful keys and elements", "statement": "On reachable sets, Equal is an equivalence relation compatible with Hash, so Set[Set[T]] and Map[Set[T],V] satisfy every other property; likewise for maps as elements.", "quantifier": "all reachable sets and maps used as elements", "why_tests_cant": "Quantifies over all nested values.", "anchors": ["set.go: Key, Set.Equal, Set.Hash", "map.go: Map.Equal, Map.Hash"]}
{"id": "C28", "title": "SetMap, SetAs, AsSetAny and n-ary Union/Intersection are exact", "statement": "SetMap(s, f) contains exactly the images of elements of s; SetAs/AsSetAny contain the same elements; Union(s1..sn) contains exactly the elements of some si; Intersection(s1..sn), n >= 1, exactly those in every si; Intersection() panics.", "quantifier": "all reachable sets, all functions f, all n", "why_tests_cant": "All sets, functions and arities.", "anchors": ["set.go: SetMap, SetAs, AsSetAny", "set_ops.go: Union, Intersection", "internal/pkg/tree/tree.go: Map"]}
{"id": "C29", "title": "Go map conversion round-trips", "statement": "For key types whose equality is Go's ==, MapToGoMap(NewMapFromGoMap(m)) has the same entries as m for every iteration order of the Go runtime, and NewMapFromGoMap(MapToGoMap(x)) Equals x. (For key types with a coarser Equal method the first round trip necessarily loses entries.)", "quantifier": "all key types with Equal the same as ==, all finite Go maps, all iteration orders, all reachable maps", "why_tests_cant": "Go's map iteration order is unspecified.", "anchors": ["map.go: NewMapFromGoMap, MapToGoMap"]}
{"id": "C30", "title": "rel.Join is the natural join", "statement": "For relations whose tuples have uniform attributes, Join(s, t) contains exactly the tuples over the union of attributes whose restrictions are in s and in t.", "quantifier": "all pairs of uniform relations (including empty ones and those with no common attributes)", "why_tests_cant": "All relations; the exhaustive test covers 2-bit values and non-empty operands only.", "anchors": ["pkg/rel/relation.go: Join, join, CartesianProduct, buildCartesianProduct"]}
{"id": "C31", "title": "rel.Project and CartesianProduct are exact", "statement": "Project(s, attrs) contains exactly the restrictions of tuples of s to attrs; CartesianProduct(r1..rn) over disjoint attributes contains exactly the merges of one tuple of each.", "quantifier": "all relations", "why_tests_cant": "All relations and arities.", "anchors": ["pkg/rel/relation.go: Project, CartesianProduct, New"]}
{"id": "C32", "title": "Nest groups and Unnest reverses it", "statement": "Nest(s, {a: attrs}) has one tuple per distinct remainder, carrying under a the relation of the projections on attrs of all tuples with that remainder; Unnest(Nest(s, {a: attrs}), a) Equals s for uniform s with attrs a subset of its attributes and a fresh name a.", "quantifier": "all uniform relations, all attribute sets", "why_tests_cant": "All relations.", "anchors": ["pkg/rel/relation.go: Nest, Unnest"]}
{"id": "C33", "title": "Lazy set iteration and Freeze denote the right set", "statement": "For every lazy set expression over Where, Map, Union, Intersection, Difference, SymmetricDifference, With, Without, iterating it or freezing it yields exactly the elements of the corresponding mathematical set, each once.", "quantifier": "all lazy expressions, all lawful element types", "why_tests_cant": "Unbounded expression trees.", "anchors": ["lazy/set_base.go: Freeze", "lazy/set_memo.go: cachingIterator", "lazy/set_union.go", "lazy/set_diff.go", "lazy/set_intersection.go", "lazy/set_where.go", "lazy/set_transform.go", "lazy/set_symmdiff.go"]}
{"id": "C34", "title": "Lazy Has agrees with the denoted set", "statement": "For every lazy set expression, Has(el) is true exactly when el is in the denoted set, and FastHas, when it answers ok, agrees.", "quantifier": "all lazy expressions and elements", "why_tests_cant": "Unbounded expression trees.", "anchors": ["lazy/set_diff.go: Has, FastHas", "lazy/set_union.go: Has, FastHas", "lazy/set_intersection.go", "lazy/set_where.go", "lazy/set_base.go: Has"]}
{"id": "C35", "title": "Lazy Count/IsEmpty agree with the denoted set", "statement": "For every lazy set expression, Count() is the cardinality of the denoted set and IsEmpty() is true exactly when it is empty; the Fast* variants, when ok, agree.", "quantifier": "all lazy expressions", "why_tests_cant": "Unbounded expression trees.", "anchors": ["lazy/set_base.go: Count, CountUpTo, IsEmpty", "lazy/set_union.go: FastCountUpTo", "lazy/set_powerset.go: IsEmpty, Count"]}
{"id": "C36", "title": "Memoisation is transparent", "statement": "However iterations over a shared lazy set are interleaved, abandoned or repeated (any sequence of Range/Next calls on any number of iterators), the set keeps denoting the same elements.", "quantifier": "all interleavings of Next calls on all iterators of a lazy set", "why_tests_cant": "All schedules of several iterators over one memo cell.", "anchors": ["lazy/set_memo.go: memoSet.Range, cachingIterator.Next"]}
{"id": "C37", "title": "Lazy powerset iteration enumerates all subsets", "statement": "Iterating Powerset() of a lazy set whose source yields n < 64 distinct elements yields exactly its 2^n subsets, each once.", "quantifier": "all sources, all n", "why_tests_cant": "Exponential in n.", "anchors": ["lazy/set_powerset.go: powerSetSetIterator.Next"]}
{"id": "C38", "title": "Lazy Equal, IsSubsetOf and Hash are extensional", "statement": "For lazy sets, EqualSet/Equal is true exactly for the same denoted elements, IsSubsetOf is inclusion, and equal lazy sets have equal Hash.", "quantifier": "all pairs of lazy expressions, all seeds", "why_tests_cant": "Unbounded expression trees.", "anchors": ["lazy/set_base.go: Equal, EqualSet, Hash, IsSubsetOf", "lazy/set_frozen.go: EqualSet, IsSubsetOf", "lazy/set_empty.go: Equal"]}
{"id": "C39", "title": "Formatting shows the elements", "statement": "Formatting a Set without width prints every element exactly once separated by commas in braces; with width w >= 0 it prints the first min(w, Count) elements and, if any are left, how many. Maps and IntSets print every entry or element exactly once. With the + flag a non-empty Set or Map is drawn as a tree that shows every element or entry exactly once in iteration order, and an IntSet is written as the blocks of 64 integers it stores, each once, with a bit mask that tells which of its integers the set has.", "quantifier": "all reachable sets, all widths", "why_tests_cant": "All sizes and widths.", "anchors": ["set.go: Format", "map.go: Format", "intset.go: Format"]}
{"id": "C40", "title": "Finish isolates the built value from the builder", "statement": "No call on a SetBuilder or MapBuilder after Finish changes the Set or Map that Finish returned, although the builder mutates its nodes in place.", "quantifier": "all histories of builder calls over a heap with in-place mutation", "why_tests_cant": "Aliasing through the heap; needs every continuation after Finish.", "anchors": ["internal/pkg/tree/builder.go: Finish, Borrow", "internal/pkg/tree/leaf1.go: AddFast", "internal/pkg/tree/leaf2.go: AddFast", "internal/pkg/tree/branch.go: AddFast, Remove", "internal/pkg/tree/twig.go: AddFast, Remove"]}
{"id": "C41", "title": "Set algebra laws", "statement": "Whenever the operations return: Union and Intersection are commutative, associative and idempotent up to Equal, distribute over each other, Difference satisfies De Morgan's laws, With is idempotent and With(v).Without(v) Equals s when v is not in s.", "quantifier": "all reachable sets and elements", "why_tests_cant": "Universally quantified algebraic laws up to the trie-based Equal.", "anchors": ["set.go: Union, Intersection, Difference, With, Without, Equal"]}
{"id": "C42", "title": "KeyValue equality and hash are consistent", "statement": "KeyValue.Equal is an equivalence when key and value equality are, and Equal KeyValues have the same Hash for every seed, so a Set[KeyValue] is lawful; the internal map entry compares and hashes by key only.", "quantifier": "all keys, values and seeds", "why_tests_cant": "Universally quantified law.", "anchors": ["kv.go: KeyValue.Equal, KeyValue.Hash", "mapEntry.go"]}
{"id": "C43", "title": "Persistence: no operation changes an existing Map", "statement": "Once a Map value exists, no later call on it, on any Map derived from it, or on any MapBuilder (With, Without, Merge, Update, Put, Remove, Finish) changes which keys it has or the value Get returns for a key, or what Equal says about it.", "quantifier": "all histories of map and map builder calls over a shared heap, all observation points, every way append may grow arrays", "why_tests_cant": "Sharing bugs need two derivations from the same version and a later observation of the first; the aliasing only exists in particular shapes.", "anchors": ["map.go: With, Without, Merge, Update", "map_builder.go: Put, Remove, Finish", "internal/pkg/tree/twig.go: With, WithFast"]}
{"id": "C44", "title": "Every reachable collection passes the self-check", "statement": "The library's structural self-check (Vet), run on any Set or Map built by API calls, never panics: masks are fresh, no child is nil, collision buckets have at least three elements of one hash, and the measured count is the tracked one. Conversely, any tree it accepts (with no childless branch) is iterated without a panic and delivers exactly as many elements as the tracked count.", "quantifier": "all sets and maps reachable by API calls, all lawful element types", "why_tests_cant": "The self-check runs only on the inputs a test builds, and only in builds with vetting switched on; deep collision shapes are rarely built.", "anchors": ["internal/pkg/tree/branch.go: Vet", "internal/pkg/tree/twig.go: Vet", "internal/pkg/tree/leaf1.go: Vet", "internal/pkg/tree/leaf2.go: Vet", "internal/pkg/tree/tree.go: Vet"]}
{"id": "C45", "title": "JSON encoding lists every element once", "statement": "Set.MarshalJSON writes the JSON array of the elements' encodings, each once. Map.MarshalJSON writes, for string keys, the object with every entry once in increasing key order, so that Equal maps have the same text; for other keys, the array of [key,value] pairs. If an element cannot be encoded, the call returns the error of such an element.", "quantifier": "all reachable sets and maps, all element encoders", "why_tests_cant": "Must hold for every content, hash collision pattern and insertion order.", "anchors": ["set_extra.go: MarshalJSON", "map_extra.go: MarshalJSON, marshalJSONArray"]}
{"id": "C46", "title": "Bit set texts are unambiguous", "statement": "BitIterator.String gives different bit sets different texts, of at most 8 characters, and the empty text only for the empty set.", "quantifier": "all 64-bit masks", "why_tests_cant": "2^64 masks.", "anchors": ["internal/pkg/iterator/bititer.go: String", "internal/pkg/fu/braille.go: BrailleEncoded"]}
{"id": "C47", "title": "Concurrency can be switched off", "statement": "With FROZEN_CONCURRENCY=off, or by default on a receiver of fewer than 2^17 elements, or with FROZEN_CONCURRENCY=j on one of fewer than 2^(j+2), no Set or Map operation starts a goroutine, for every GOMAXPROCS. By default goroutines are allowed exactly from 2^17 elements on.", "quantifier": "all sets and maps, all environment settings, all GOMAXPROCS, all schedules", "why_tests_cant": "The thresholds depend on environment variables read at start-up and on sizes tests do not reach.", "anchors": ["internal/pkg/depth/gauge.go: NewGauge, maxConcurrency, maxDepth", "set.go: gauge, nodeArgs, eqArgs", "map.go: EqArgs, EqKeyArgs"]}
{"id": "C48", "title": "Shared sets need no locks", "statement": "Any number of goroutines may, without synchronisation, look at the same sets, compare them (Equal, IsSubsetOf), iterate over them, filter, intersect, subtract and remove from them, and build and finish sets of their own. Under every interleaving of their single memory accesses, no goroutine ever writes to memory another one knows (there is no data race), every goroutine ends if it gets enough turns, and it ends having seen and made exactly what it would have alone.", "quantifier": "all sets however made, all numbers of goroutines, all their programs over these operations, all schedules of single memory accesses", "why_tests_cant": "The interleavings of single memory accesses cannot be enumerated, and a race may stay invisible.", "anchors": ["set.go: Set (doc comment)", "internal/pkg/tree/tree.go: Get, Equal, SubsetOf, Where, Difference, Intersection, Without, Iterator", "internal/pkg/tree/builder.go: Add, Remove, Finish"]}
{"id": "C49", "title": "Shared sets need no locks, also when adding", "statement": "The same when goroutines also call With, Union, Merge and Update on the sets they share.", "quantifier": "all sets, all numbers of goroutines, all their programs, all schedules of single memory accesses", "why_tests_cant": "The interleavings of single memory accesses cannot be enumerated, and the race needs colliding hashes.", "anchors": ["internal/pkg/tree/twig.go: With, Combine", "internal/pkg/tree/tree.go: With, Combine"]}
{"id": "C50", "title": "Calls abandoned by a panic do no harm", "statement": "If the user's Equal, Hash, predicate or resolve function panics in the middle of a call and the program recovers, every set or map it holds still has the same elements, answers and iteration, the call is as if it had not been made, and every later call returns what it would have returned otherwise. Builders other than the one the call was on are unharmed as well, and that one is unharmed unless the call had already written to an existing node. The same holds of calls on maps and map builders, and of IntSet calls whose predicate or function panics. (As long as no element is added to a set that has three others with the same 64-bit hash, C10; for calls other than With, Union, Merge and Update without that proviso.)", "quantifier": "all histories of calls on any number of sets and builders, with any number of calls abandoned after any number of memory accesses", "why_tests_cant": "A call can be abandoned at each of its accesses to memory, in every history, and the damage would be to some other set.", "anchors": ["internal/pkg/tree/tree.go: With, Without, Where, Combine, Difference, Intersection", "internal/pkg/tree/builder.go: Add, Remove, Finish", "internal/pkg/tree/branch.go", "internal/pkg/tree/twig.go", "map.go: With, Without, Merge, Update", "map_builder.go: Put, Remove, Finish", "intset.go: Where, Map"]}
{"id": "C51", "title": "The hash function is unobservable", "statement": "Giving the element or key type another hash function, under which equal values still hash equally, changes nothing but iteration order: the same calls return, and the results have the same elements and representatives, counts, lookups, comparisons and ordered listings.", "quantifier": "all element and key types, all pairs of hash functions compatible with Equal, all programs over sets, maps and integer sets", "why_tests_cant": "Hash values are seeded per process and users supply their own hash functions; the tree shapes they lead to cannot be enumerated.", "anchors": ["internal/pkg/tree/hasher.go: newHasher", "set.go: Set", "map.go: Map", "internal/pkg/tree/branch.go: Combine, Intersection"]}
{"id": "C52", "title": "A call's work does not grow with the collection", "statement": "Looking an element up, With and Without on a set, and lookup, Add and Remove on a builder take a bounded number of memory accesses however many elements there are: a constant (23, 336, 708, 23, 335 and 708) plus at most three for each element having the same 64-bit hash as the argument. With and Without hence make a bounded number of new nodes and arrays and share the rest with the old version. Range takes at most one access, a single Next at most 2277 and Value at most one, in all histories; all the calls of Next on one iterator together take at most 198 accesses for each element of the set. The same holds of Get, With and Without on maps and of map builders. If no four values of an integer type share a hash, Has on an IntSet takes at most 26 accesses, With makes at most 345 new nodes and arrays and Without 717, Union at most 345 and Intersection 341 for each block of 64 integers of its argument, Where 341 for each block, and NewIntSet and Map 341 for each integer. (For sets: in histories that never add an element to a set that has three others with the same hash, C10; for builders in all histories.)", "quantifier": "all element and key types and hash functions, all histories of calls on sets, maps and builders, all sizes", "why_tests_cant": "A benchmark samples sizes and hash functions; the worst case needs values whose hashes agree in a long prefix.", "anchors": ["internal/pkg/tree/tree.go: Get, With, Without, Iterator", "internal/pkg/tree/builder.go: Add, Remove, Get", "internal/pkg/tree/branch.go: With, Without, Remove, AddFast", "internal/pkg/tree/leaf2.go: With, AddFast", "internal/pkg/tree/hasher.go: maxTreeDepth", "internal/pkg/tree/packer_iter.go: Next"]}
{"id": "C53", "title": "Values that are not equal to themselves do no harm", "statement": "With an equality that is symmetric and transitive but not reflexive (a NaN, or a user type whose Equal says so), a set made by any sequence of calls iterates over exactly the elements that the same calls on a plain list of elements give: With and Add put a value in place of its equal, or add it if it has none, so that a value unlike itself is added every time; Without, Where, Difference and AnyN remove exactly the right ones; Union keeps all of them from both operands; Intersection none of them. Count is the number of elements iterated over and Has says whether one of them is equal to its argument, so a value unlike itself is never found. A set with such an element is Equal to no set and a subset of none. No call panics, except Union, SymmetricDifference, Update and Merge on the collision pattern of C13. The same holds of maps with such keys.", "quantifier": "all element and key types with a symmetric and transitive equality that a deterministic hash respects, all sequences of calls, all sets and maps", "why_tests_cant": "The tests use types with a reflexive equality only. How a value that no lookup finds travels through splits, merges and removals depends on hashes and history.", "anchors": ["internal/pkg/value/value.go: Equal", "internal/pkg/tree/branch.go: With, Combine, Difference, Intersection", "internal/pkg/tree/twig.go: With, Without, Equal", "set.go: With, Without, Union, Equal", "map.go: With, Without, Get, Update, Merge, Equal"]}
{"id": "C54", "title": "An iterator is not disturbed by what happens while it is used", "statement": "Between Range, Next and Value the client may make any calls on sets, builders and other iterators, on the set that is iterated over too. The iterator still delivers exactly the elements the set had at the time of Range, each once, in the order in which a Range loop without other calls would: Next returns true once for each and false from then on, Value returns the current element as often as it is asked for, and panics before the first Next and after the last. Next never panics. Iterating changes no set and no builder. The same holds of iterators over maps, whose Key, Value and Entry do not panic: they return the entry delivered last, and the zero key and value before the first. The same holds of iterators over integer sets: they deliver what Elements returned at the time of Range. The iterators inside Where, Union and Intersection of integer sets, between whose steps the method itself makes calls, are no exception. All this holds also when some of the calls in between are abandoned because the client's code panics.", "quantifier": "all element and key types and hash functions, all integer types, all histories in which calls on sets, maps, integer sets, builders and any number of iterators are interleaved, all ways of growing arrays", "why_tests_cant": "The iterator reads nodes only as it gets to them, and nested iterators share one buffer for the nodes still to visit. Which calls come in between, and at which point of the walk, cannot be enumerated.", "anchors": ["internal/pkg/tree/packer_iter.go: newPackerIterator, Next, Value", "internal/pkg/tree/tree.go: Iterator, packedIteratorBuf", "internal/pkg/tree/leaf1.go: Iterator", "internal/pkg/tree/leaf2.go: Iterator", "internal/pkg/tree/twig.go: Iterator, With", "internal/pkg/iterator/slice.go: SliceIterator", "map.go: Range, MapIterator", "intset.go: Range, Where, Union, Intersection", "intset_iter.go: Next, Value"]}
{"id": "C55", "title": "Functions passed by the user are called exactly once per element", "statement": "Where, SetMap, SetGroupBy and NewMapFromKeys call the user's function exactly once for each element, with that element; Map.Where and MapMap exactly once for each entry, with its key and value; Merge exactly once for each key of both maps, with the first map's key and value and the second map's value. IntSet's Where and Map, on sets into which no negative integers were put, call it exactly once for each integer. The result depends on the answers only, in the stated way, even if the function is stateful and answers differently on equal arguments. Where, Reduce and Merge of large collections call the function from several goroutines, in any order; the statement holds in every schedule, and every schedule ends. Otherwise the calls of all but Merge are in iteration order. Reduce and Reduce2 pass each element, and each earlier answer, to exactly one call; the last answer is the result. With a function that has effects or panics, the effects are those of these calls and nothing else.", "quantifier": "all reachable sets and maps, all element types, all schedules of the goroutines, all functions including stateful and panicking ones (for Merge, all pairs of maps for which it returns at all)", "why_tests_cant": "The function may answer anything at each call, and tests use pure functions, for which a second call on the same element cannot be noticed.", "anchors": ["set.go: Where, SetMap, Reduce, Reduce2, SetGroupBy", "map.go: NewMapFromKeys, Where, MapMap, Merge", "internal/pkg/tree/tree.go: Where, Map, Reduce, Combine", "internal/pkg/tree/{leaf1,leaf2,twig,branch}.go: Where, Reduce, Combine, With", "internal/pkg/depth/gauge.go: Parallel", "intset.go: Where, Map"]}
{"id": "C56", "title": "Collections of interface type may mix dynamic types", "statement": "In a Set[any] or Map[any, any] the values are compared by their own type's notion of equality: Equal(any) if the type has it, else Same(any), else ==. If each dynamic type keeps the contract (its method does not panic, is an equivalence on its own values and answers false for values of other types; or it has no method and is comparable), then comparing never panics, is an equivalence, and never identifies values of different types; exactly then. The library's own Set, Map, KeyValue and IntSet keep it, so that they can be mixed with such values and nested in each other to any depth, and all other properties hold of such collections. Sets nested in them are equal if they have the same members, maps if they have the same keys with equal values.", "quantifier": "all interface types, all families of dynamic types that keep the contract, all values, all depths of nesting", "why_tests_cant": "Every pair of dynamic types, in either order, takes its own path through the dispatch; user types add to them without limit, and nesting has no bound.", "anchors": ["internal/pkg/value/value.go: Equal, EqualFuncFor, Equaler, Samer", "set.go: Same, Hash", "map.go: Same, Hash", "kv.go: Same, Equal, Hash", "intset.go: Same, Equal, Hash", "lazy/set_empty.go: Equal", "lazy/set_base.go: Equal"]}
{"id": "C57", "title": "Sets can be handed between goroutines by starting and waiting for them", "statement": "A program makes calls, starts goroutines that work on the sets it holds, waits for them, goes on with the sets and builders they have made, starts further goroutines that work on all of these, and so on. At every point it has the sets and builders it would have if every set were a value of its own and the goroutines had run one after the other: the same counts, the same answers and the same iterations. The scheduler has no influence. No set the program holds, made by itself or taken over from a goroutine, is changed by what it or its goroutines do later; goroutines never write to memory they share, and every wait ends. (As long as no element is added to a set that has three others with the same 64-bit hash, C10 and C49; if the goroutines do not call With, Union, Merge or Update, without that proviso for what they do.)", "quantifier": "all programs with any number of phases of calls and of goroutines, all schedules of the goroutines' single memory accesses, all element types and hash functions, all ways of growing arrays", "why_tests_cant": "The sets taken over from different goroutines share nodes with each other and with older sets. Which schedules and which later calls would expose a write to a shared node cannot be enumerated.", "anchors": ["internal/pkg/tree/tree.go: With, Without, Where, Combine, Difference, Intersection, Get", "internal/pkg/tree/builder.go: Add, Remove, Finish", "internal/pkg/tree/branch.go", "internal/pkg/tree/twig.go"]}
{"id": "C58", "title": "Reduce changes nothing, whatever the function does to its slice", "statement": "Reduce passes slices of elements to the caller's function. Whatever the function does with its slice - read it, sort it, accumulate in it, append to it - Reduce returns the combination of the set's elements, and every set and every builder the program holds keeps its elements, its answers and its iteration.", "quantifier": "all histories of calls on sets and builders, all functions with all their assignments to their argument slices, all element types and hash functions, all ways of growing arrays", "why_tests_cant": "Which storage a slice aliases, and which other sets share it, depends on the whole history of calls and on the hashes; functions are unboundedly many.", "anchors": ["set.go: Reduce", "internal/pkg/tree/tree.go: Reduce", "internal/pkg/tree/leaf2.go: Reduce", "internal/pkg/tree/twig.go: Reduce", "internal/pkg/tree/branch.go: Reduce"]}
{"id": "C59", "title": "Calls on two sets cost in proportion to the smaller one", "statement": "The work and the memory that Union, Merge, Update, Difference and Intersection take are in proportion to the smaller of the two sets or maps, however large the other is: a merge takes at most 493 + 3c memory accesses for each element of the smaller operand, a difference 1084 + 4c + 2c^2 and an intersection 423 + 4c + 2c^2, where c is the largest number of elements of an operand that share a 64-bit hash. What is returned shares the rest of its memory with the operands. IsSubsetOf takes at most 91 + 2c + c^2 accesses for each element of the smaller set; Equal, also of maps, takes none if the sizes differ and otherwise at most 46 + c + c^2 for each element. Where takes at most 400 + c accesses for each element of its set.", "quantifier": "all histories of calls on sets and builders that do not add to a set with three others of the same hash, all pairs of sets in them, all element types and hash functions, all resolve functions and predicates, all ways of growing arrays", "why_tests_cant": "Benchmarks measure a few sizes and key distributions; the bound is about all pairs of sets, including those whose hashes agree in long prefixes.", "anchors": ["set.go: Union, Difference, Intersection, Where, Equal, IsSubsetOf", "map.go: Merge, Update, Equal", "internal/pkg/tree/tree.go: Combine, Difference, Intersection, Where", "internal/pkg/tree/branch.go: Combine, Difference, Intersection, Where", "internal/pkg/tree/twig.go", "internal/pkg/tree/leaf1.go", "internal/pkg/tree/leaf2.go"]}
{"id": "C60", "title": "The goroutines a call starts never touch existing sets and always come to an end", "statement": "Union, Merge, Update, Difference, Intersection and Where split their work among goroutines when sets are large. However many there are and however they are scheduled, the sets a client has after a history of such calls are those it has when nothing runs in parallel, in count, answers and iteration order; with the same degree of parallelism even the memory is the same. At every moment of a call, every set that existed before is unchanged, and no goroutine is about to write to memory that existed when it was started. No call deadlocks: until it returns some goroutine can go on, and it returns after a bounded number of steps.", "quantifier": "all histories of calls on sets and builders in which With and the merges do not add an element to a set that has three others with the same 64-bit hash, all depths of parallelism and all schedules of the goroutines, all further calls and all moments in them, all element types and hash functions, all ways of growing arrays", "why_tests_cant": "Interleavings of nested goroutines are far too many to run, and the race detector sees only those that happen; sets in tests are mostly too small for goroutines to be started at all.", "anchors": ["internal/pkg/depth/gauge.go: Parallel", "internal/pkg/tree/branch.go: Combine, Difference, Intersection, Where", "internal/pkg/tree/tree.go: Combine, Difference, Intersection, Where", "set.go: Union, Difference, Intersection, Where", "map.go: Merge, Update"]}
{"id": "C61", "title": "A call's goroutines have ended when it returns", "statement": "When a call returns, every goroutine it started has run to its end. So no function or method of the user (a predicate, resolve, Equal, Hash) is still running or called later on behalf of the call, and its work is really over.", "quantifier": "all sets and maps, all degrees of parallelism, all schedules of the goroutines, all moments at which the call returns", "why_tests_cant": "A goroutine that outlives its call is noticed only under rare schedules, and only on sets large enough for goroutines to be started.", "anchors": ["internal/pkg/depth/gauge.go: Parallel", "internal/pkg/tree/branch.go: Combine, Difference, Equal, Intersection, Reduce, SubsetOf, Where", "set.go: Union, Intersection, Difference, Where, Reduce, Equal, IsSubsetOf", "map.go: Merge, Update, Equal"]}
{"id": "C62", "title": "A call contains no data race", "statement": "No two goroutines of a call ever access the same variable at the same time, one of them writing it, and the caller does not read what a goroutine may still write.", "quantifier": "all sets, all degrees of parallelism, all schedules of the goroutines, all moments", "why_tests_cant": "The race detector finds only races that happen in the schedules it sees, and only on sets large enough for goroutines to be started.", "anchors": ["internal/pkg/depth/gauge.go: Parallel", "internal/pkg/tree/packer.go: SetNonNilChild", "internal/pkg/tree/branch.go: Combine, Difference, Intersection, Reduce, Where", "set.go: Union, Intersection, Difference, Where, Reduce", "internal/pkg/tree/nodeArgs.go: CombineArgs.Flip", "map.go: Merge, Update"]}
{"id": "C63", "title": "Lazy sets may be shared by goroutines", "statement": "Lazy sets may be used by any number of goroutines at once, without locks. No call panics, every call returns even if other goroutines stop in the middle of theirs, and Has, IsEmpty, Count, EqualSet, IsSubsetOf and iterators answer each goroutine as if it were alone.", "quantifier": "all lazy sets a history of calls makes, all numbers of goroutines, all lists of calls of each, all schedules of their accesses to shared memory", "why_tests_cant": "Iterating a lazy set replaces, behind the scenes, the set other goroutines are iterating; there are unboundedly many sets, call lists and interleavings, and the race detector is satisfied because the accesses are atomic.", "anchors": ["lazy/set_memo.go: memo, getSet, Range, memoSetIterator.Next", "lazy/set_base.go: Freeze, Count, CountUpTo, IsEmpty", "lazy/set_frozen.go: EqualSet, IsSubsetOf", "lazy/set_where.go, set_transform.go, set_union.go, set_intersection.go, set_diff.go, set_symmdiff.go"]}
{"id": "C64", "title": "Shared maps need no locks", "statement": "Once maps have been made, any number of goroutines may look up keys in them, iterate over them, compare them and derive new maps from them at the same time, without locks, each deciding what to do next by what it has seen. The maps they share never change, no goroutine panics or waits for another, and each sees what it would see if every map were a value of its own.", "quantifier": "all maps however made, all key types and hash functions, all numbers of goroutines, all their programs including ones that branch on counts, lookups, comparisons and iterations, all schedules of single memory accesses", "why_tests_cant": "The effect of one goroutine on another needs a particular interleaving of memory accesses and keys whose 64-bit hashes collide; programs, maps and schedules are unbounded in number.", "anchors": ["map.go: With, Without, Merge, Update, Get, Range, Count, Equal", "map_builder.go: Put, Remove, Finish", "internal/pkg/tree/tree.go: With, Without, Combine, Get", "internal/pkg/tree/twig.go: With, Combine"]}
{"id": "C65", "title": "A collection keeps memory alive in proportion to its Count only", "statement": "A set, map or builder keeps at most 25/3 nodes and arrays alive for each element it has now, whatever larger collections it was made from: memory of removed elements can be reclaimed, and an empty set keeps none. An integer set has at most 25/3 nodes and arrays for each of its integers, also when sets share memory. (For sets and maps in memory: in histories that never add an element to a set that has three others with the same hash, C10; for builders in all histories. The capacity of the arrays is not counted.)", "quantifier": "all element and key types and hash functions, all histories and programs of calls on sets, maps, builders and integer sets, all sizes", "why_tests_cant": "A leak shows only after particular removals, with hashes that agree in a long prefix; a test measures some of them.", "anchors": ["internal/pkg/tree/branch.go: Without, Remove, Where, Intersection, Difference", "internal/pkg/tree/tree.go: Without", "internal/pkg/tree/builder.go: Remove", "intset.go: Without, Where, Intersection"]}
{"id": "C66", "title": "A panic during a call can be recovered by the caller", "statement": "When a function passed to Where, Reduce or Merge panics, or Union, Merge or Update itself panics, the panic happens in the goroutine that made the call, whatever the size of the collections, so that a deferred recover there sees it and the program goes on.", "quantifier": "all reachable sets and maps of every size, all functions, all answers they give, all schedules, all settings of FROZEN_CONCURRENCY and GOMAXPROCS", "why_tests_cant": "Where a function is called depends on the size of the collection, the environment and the number of processors; tests use small collections, for which it holds.", "anchors": ["internal/pkg/depth/gauge.go: NewGauge, Parallel", "internal/pkg/tree/branch.go: Where, Reduce, Combine", "set.go: Where, Reduce, Union", "map.go: Merge, Update"]}
{"id": "C67", "title": "Relational algebra laws hold", "statement": "Join is commutative, associative and idempotent, distributes over Union, and is CartesianProduct if there are no common attributes; a relation is contained in the join of projections that cover its attributes; projecting a join on the attributes of its first relation gives the tuples of that relation that match; projecting twice is projecting on the common attributes, and projecting on all attributes changes nothing. So a query may be rewritten without changing its result.", "quantifier": "all relations of every size with uniform attributes, all attribute names and values, all hash functions", "why_tests_cant": "The laws relate different calls on the same unbounded relations; tests compare a few literal ones.", "anchors": ["pkg/rel/relation.go: Join, join, Project, CartesianProduct, buildCartesianProduct"]}
{"id": "C68", "title": "Map algebra laws", "statement": "Whenever the calls return: of two With of a key the last counts, With and Without undo each other and commute for different keys, and change nothing when there is nothing to change; Update is associative and idempotent with the empty map as neutral element; Merge with both the maps and the resolver turned round gives an Equal map, and is associative if the resolver is; Where, Project and MapMap compose; Keys of a merged map are the union of the keys. Update and Merge panic in one order of their arguments exactly if they do in the other.", "quantifier": "all reachable maps, keys, values, predicates, functions and resolvers that treat Equal keys alike, all hash functions", "why_tests_cant": "Universally quantified laws up to the trie-based Equal; the trees built on the two sides of a law differ.", "anchors": ["map.go: With, Without, Update, Merge, Where, Project, Keys, Equal, MapMap"]}
{"id": "C69", "title": "Maps can be handed between goroutines by starting and waiting for them", "statement": "A program makes calls on maps and map builders, looks keys up, starts goroutines that work on the maps it holds, waits for them, goes on with the maps, the builders and the answers they come back with, and so on; it and its goroutines decide what to do next by what they have seen. When the program ends it has the maps and builders, and it and its goroutines have got the answers, that they would have if every map were a value of its own and the goroutines had run one after the other. The scheduler has no influence. No map the program holds is changed by what it or its goroutines do later; every wait ends, and every program comes to its end.", "quantifier": "all programs, branching in any way on counts and answers, with any number of phases of calls and of goroutines; all schedules of the goroutines' single memory accesses; all key and value types and hash functions, all ways of growing arrays", "why_tests_cant": "Maps taken over from different goroutines share nodes with each other and with older maps, and what is done with them depends on answers; neither the schedules nor the later calls that would expose a write to a shared node can be enumerated.", "anchors": ["map.go: With, Without, Update, Merge, Get, Equal, Range, Count", "map_builder.go: Put, Remove, Finish, Get", "internal/pkg/tree/tree.go: With, Without, Combine, Get", "internal/pkg/tree/twig.go", "internal/pkg/tree/branch.go"]}
{"id": "C70", "title": "Set transformation laws", "statement": "Where with two predicates, one after the other in either order, is Where with both; a predicate and its negation split a set; Where may be applied before or after Union, Intersection, Difference and SetMap; SetMap twice is SetMap of the composed function, and SetMap may be applied before or after Union; Count obeys inclusion and exclusion; IsSubsetOf can be decided by Intersection, Difference or Union; SymmetricDifference is the union without the intersection and undoes itself; every group of SetGroupBy is what Where finds, and the groups' counts add up; Reduce of a disjoint union combines the two results; the Powerset of an intersection is the intersection of the Powersets; OrderedElements commutes with Where, OrderedFirstN is a beginning of it, and FirstN twice is FirstN of the smaller number. So a computation on sets may be rewritten without changing its result.", "quantifier": "all reachable sets of every size, all predicates, functions, keys, operations and orders (those that the law needs to respect Equal do), all hash functions", "why_tests_cant": "The laws relate different calls on the same unbounded sets with arbitrary functions; tests compare a few literal ones.", "anchors": ["set.go: Where, SetMap, SetGroupBy, Reduce2, OrderedElements, OrderedFirstN, First, FirstN", "set.go: Powerset, Union, Intersection, Difference, SymmetricDifference, IsSubsetOf"]}
{"id": "C71", "title": "IntSets never change", "statement": "After NewIntSet, With, Without, Where, Map, Union and Intersection have been called any number of times, in any order and on any of the IntSets so far, every IntSet a program holds still has the integers it had when it was returned: Has, Count, Elements and their order, Equal and IsSubsetOf answer the same as before, and the same as if nothing were shared between the sets. The results are the mathematical sets that the calls describe.", "quantifier": "all histories of IntSet calls of any length and all integers, predicates and functions in them, all 8 to 64 bit integer types, all orders of iterating over a Go map, all ways of growing arrays", "why_tests_cant": "Which memory two sets share depends on the whole history and on the hashes of the cells; damage shows only in a set that the test does not look at again.", "anchors": ["intset.go: NewIntSet, With, Without, Where, Map, Intersection, Union, Has, Elements, Equal, IsSubsetOf", "intset_iter.go: Next, Value", "internal/pkg/tree/twig.go: With, Combine", "map_builder.go: Put, Finish"]}
{"id": "C72", "title": "Integers that an IntSet loses disturb no others", "statement": "An IntSet of a signed type cannot hold negative integers that are not multiples of 64. Whatever integers a program puts into IntSets with NewIntSet and With and combines with Without, Where, Union and Intersection, Has is true of exactly those members that are non-negative or multiples of 64; Elements delivers each of them, and besides them only multiples of 64; Count is never smaller than their number.", "quantifier": "all programs over NewIntSet, With, Without, Where, Union and Intersection, all integers of all 8 to 64 bit types, signed or not", "why_tests_cant": "A lost integer leaves an empty cell behind, and every later operation may meet it; tests use small non-negative integers.", "anchors": ["intset.go: NewIntSet, With, Without, Where, Union, Intersection, Has, Elements, locateCell", "intset_iter.go: Next, Value"]}
{"id": "C73", "title": "IntSet algebra laws", "statement": "Union and Intersection of IntSets are commutative, associative and idempotent, distribute over each other and absorb each other; With and Without of different integers commute, of the same integer the last counts, and they change nothing where there is nothing to change; Where with two predicates is Where with both, splits a set and may be applied before or after Union and Intersection; Map twice is Map of the composed function and may be applied before or after Union; Count obeys inclusion and exclusion; IsSubsetOf is a partial order and can be decided by Union or Intersection. Both sides of a law are Equal and have the same Count, Hash, Elements and answers of Has.", "quantifier": "all programs over the IntSet API, all integers of all 8 to 64 bit types, all predicates and functions, all orders of iteration over Go maps", "why_tests_cant": "Universally quantified laws; the two sides store different trees of cells and keep separate counts.", "anchors": ["intset.go: NewIntSet, With, Without, Where, Map, Union, Intersection, IsSubsetOf, Equal, Hash, Count, Has, Elements"]}
