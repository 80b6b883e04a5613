{"id": "C01", "title": "Scalar comparators are total orders", "statement": "Any and AnyDesc return only -1, 0 or 1; 0 exactly for equal arguments; swapping the arguments negates the result; the 'less' relation they define is transitive; AnyDesc is the exact reverse of Any.", "quantifier": "all pairs and triples of integer keys of any size", "why_tests_cant": "The law quantifies over every triple of keys; sampled triples cannot rule out an intransitive corner.", "anchors": ["compare/compare.go: Any, AnyDesc"]}
{"id": "C02", "title": "Byte/rune sequence comparators are total orders", "statement": "ArrayAny is the lexicographic order on byte sequences, ArrayLenAny orders by length and then lexicographically, RunesDesc and RunesLenDesc are the reverses of these on runes; each returns only -1/0/1, 0 exactly on equal sequences, is antisymmetric and transitive.", "quantifier": "all pairs and triples of finite sequences of any length", "why_tests_cant": "Sequences are unbounded in length and the law ranges over triples.", "anchors": ["compare/compare.go: ArrayAny, ArrayLenAny, RunesDesc, RunesLenDesc"]}
{"id": "C03", "title": "Search-tree comparators describe a total order", "statement": "AnyEx and ArrayAnyEx (the convention -1 equal, 0 second key to the left, 1 second key to the right) describe a total order, so that a tree using them can find every key put into it.", "quantifier": "all pairs and triples of keys; all insertion histories of a tree that uses the comparator", "why_tests_cant": "Transitivity ranges over all triples; the failure of one triple only shows for particular insertion orders.", "anchors": ["compare/compare.go: AnyEx, ArrayAnyEx", "tree/avl/tree.go: Put, Get"]}
{"id": "C04", "title": "Slice stack and linked stack are LIFO", "statement": "For every history of Push, Pop, Peek, Clear, Size, Empty and Values, the array stack and the linked stack return what an ideal LIFO stack returns; Pop and Peek on empty report false; Values lists bottom to top.", "quantifier": "all operation histories of any length, all element values", "why_tests_cant": "The claim is over all histories; tests run a few.", "anchors": ["stack/array/stack.go", "stack/list/stack.go"]}
{"id": "C05", "title": "Segmented stack is LIFO across growth and segment caching", "statement": "For every initial capacity of at least one and every history of Push, Pop, Peek, Clear, Size and Values, the segmented stack returns what an ideal LIFO stack returns and never panics, whatever sequence of segment growth, segment release and cached-segment reuse the history causes.", "quantifier": "all initial capacities >= 1, all operation histories", "why_tests_cant": "Bugs of segment boundaries depend on push/pop patterns around every boundary of a geometrically growing sequence.", "anchors": ["stack/listarray/stack.go: Push, Pop, Peek, grow, cacheRemove, Values, NewWithCap"]}
{"id": "C06", "title": "Linked queue is a double-ended queue", "statement": "For every history of PushBack, PushFront, PopBack, PopFront, Front, Back and Size the linked queue behaves as an ideal double-ended queue, and both link directions always describe the same sequence.", "quantifier": "all operation histories", "why_tests_cant": "All histories; pointer corruption may show only much later.", "anchors": ["queue/list/queue.go", "queue/list/element.go"]}
{"id": "C07", "title": "Circular array queue is a double-ended queue across growth and shrinking", "statement": "For every history of pushes and pops at both ends the circular queue returns what an ideal double-ended queue returns; growth and shrinking preserve content and order; no operation on valid input panics.", "quantifier": "all operation histories, every wrap-around position at which growth or shrinking happens", "why_tests_cant": "Wrap position, size and capacity interact; tests cover few combinations.", "anchors": ["queue/linkedarray/queue.go: PushBack, PushFront, PopBack, PopFront, grow, slimming"]}
{"id": "C08", "title": "Circular array queue index access", "statement": "Index(i) returns the i-th element from the front for 0 <= i < Size, and panics for every other i, including negative ones; Front and Back return the first and last element and Traverse and Values list all elements in order.", "quantifier": "all reachable queue states and all integer indices", "why_tests_cant": "Whether a wrong index is caught depends on the physical layout reached by the history.", "anchors": ["queue/linkedarray/queue.go: Index, Front, Back, Traverse, Values"]}
{"id": "C09", "title": "Heap Top and Pop return a least element", "statement": "After every history of Put, Pop, Top, Clear and Reset, Top and Pop report false exactly when the heap is empty and otherwise return an element that no stored element is smaller than.", "quantifier": "all total-preorder comparators, all operation histories", "why_tests_cant": "Heap order after deep sift paths and internal shrinking is over all sizes.", "anchors": ["tree/heap/heap.go: Put, Pop, Top, slimming, grow"]}
{"id": "C10", "title": "Heap conserves its multiset and drains sorted", "statement": "Put adds exactly one occurrence, Pop removes exactly the returned occurrence, growth and shrinking lose and duplicate nothing, Size is the number of elements, and popping until empty yields a sorted permutation of the content.", "quantifier": "all comparators, all operation histories and sizes", "why_tests_cant": "Multiset conservation over unbounded histories.", "anchors": ["tree/heap/heap.go: Put, Pop, Size, slimming, grow"]}
{"id": "C11", "title": "Hash map wrapper meets the API contract", "statement": "For every history, InsertIfAbsent/Put returns true and stores exactly when the key was absent, Upsert returns true exactly when it replaced, Delete returns the stored value and true exactly when present, Get returns the last stored value, Len is the number of keys, Keys/Values/Slices are permutations of the content.", "quantifier": "all operation histories, all Go map iteration orders", "why_tests_cant": "Map iteration order is unspecified and histories are unbounded.", "anchors": ["map/hashmap/hashmap.go"]}
{"id": "C12", "title": "Hash set wrapper is a set", "statement": "After every history of Add, Remove, Clear the set contains exactly the items added and not removed since; Contains(item) is true exactly when the item is present; Values is a duplicate-free permutation; Size is the cardinality.", "quantifier": "all operation histories, all iteration orders", "why_tests_cant": "Unbounded histories.", "anchors": ["set/hashset/hashset.go"]}
{"id": "C13", "title": "Linked hash map is a map", "statement": "For every history of PushBack, PushFront, Put, Set, SetBack, SetFront, Upsert, Remove, Delete, Clear the linked hash map answers Get, Len and the boolean results as an ideal finite map with the documented insert/update semantics.", "quantifier": "all operation histories", "why_tests_cant": "Two internal representations (hash and list) must agree after every history.", "anchors": ["map/linkedhashmap/linked_hashmap.go"]}
{"id": "C14", "title": "Linked hash map order", "statement": "Keys, Values and Slices enumerate exactly the live entries, each once, in the order given by the history: new back entries last, new front entries first, Set and Upsert of an existing key keep its position, SetBack/SetFront move it to the end/start.", "quantifier": "all operation histories", "why_tests_cant": "List relinking at both sentinels over unbounded histories.", "anchors": ["map/linkedhashmap/linked_hashmap.go: PushBack, PushFront, SetBack, SetFront, Upsert, Remove, Keys, Values, Slices"]}
{"id": "C15", "title": "Bloom filter has no false negatives", "statement": "For every capacity of at least one and every history of Add and Reset, Contains is true for every key added since the last Reset, Add returns what Contains would have returned before, and no call panics.", "quantifier": "all capacities >= 1, all hash functions, all histories", "why_tests_cant": "All keys, capacities and histories; a hash collision pattern cannot be enumerated.", "anchors": ["filter/bloom/bloom.go: New, AddBytes, ContainsBytes, Reset"]}
{"id": "C16", "title": "Bloom filter serialisation round trip", "statement": "A filter decoded from the encoding of another answers Contains exactly as the original for every key.", "quantifier": "all filters and all keys", "why_tests_cant": "Ranges over all filter contents and all keys.", "anchors": ["filter/bloom/bloom.go: Encode, Decode, NewByDecode"]}
{"id": "C17", "title": "Bloom filter hit count", "statement": "HitSize always equals the number of set bits, never exceeds Cap, and Reset clears every bit.", "quantifier": "all filters made by New, all capacities, all histories", "why_tests_cant": "Unbounded histories and all buffer lengths for the doubling clear loop.", "anchors": ["filter/bloom/bloom.go: AddBytes, Reset, HitSize, Cap"]}
{"id": "C18", "title": "Array list is a double-ended sequence", "statement": "For every history of Push, PushFront, PushBack, PopFront, PopBack, Clear, the array list returns what an ideal sequence returns for Front, Back, Index, Size, Values, Traverse; growth and shrinking preserve content; nothing panics except Index out of range.", "quantifier": "all operation histories", "why_tests_cant": "Head/tail index wrap-around of unsigned ints, growth and shrink thresholds interact over histories.", "anchors": ["list/array_list/array_list.go"]}
{"id": "C19", "title": "Array list Set and Remove by index", "statement": "For 0 <= i < Size, Set(i,v) replaces exactly the i-th element and Remove(i) deletes exactly the i-th element and returns it, keeping the order of the others; out-of-range calls leave the list unchanged and report the failure.", "quantifier": "all reachable lists, all indices", "why_tests_cant": "Which side is shifted depends on the layout reached.", "anchors": ["list/array_list/array_list.go: Set, Remove"]}
{"id": "C20", "title": "List Contains counts equal elements", "statement": "Contains(values...) of the array list and the linked list returns how many list elements equal one of the given values under the list comparator.", "quantifier": "all lists, all comparators, all argument lists", "why_tests_cant": "Ranges over all contents and comparators.", "anchors": ["list/array_list/array_list.go: Contains", "list/linked_list/linked_list.go: Contains"]}
{"id": "C21", "title": "Array list iterators walk the sequence", "statement": "An iterator placed at the head (tail) and advanced with Next (Prev) visits every element exactly once in (reverse) order and then becomes invalid; the circular iterator wraps around; removal through an iterator deletes exactly the current element and moves to the neighbour.", "quantifier": "all lists, all positions", "why_tests_cant": "All lengths and positions including boundaries.", "anchors": ["list/array_list/iterator.go", "list/array_list/circular_iterator.go"]}
{"id": "C22", "title": "Linked list is a double-ended sequence", "statement": "For every history of pushes, pops, Clear, the linked list answers Front, Back, Index, Size, Values and Traverse as an ideal sequence, and the forward and backward links always agree.", "quantifier": "all operation histories", "why_tests_cant": "Unbounded histories over mutable links.", "anchors": ["list/linked_list/linked_list.go"]}
{"id": "C23", "title": "Linked list iterator edits", "statement": "InsertBefore, InsertAfter, RemoveToNext, RemoveToPrev, MoveBefore, MoveAfter, Swap and SetValue change the sequence exactly at the iterator position as documented and keep both link directions consistent.", "quantifier": "all lists, all positions, all inserted values", "why_tests_cant": "Every position including the ends, all lengths; pointer surgery.", "anchors": ["list/linked_list/iterator.go"]}
{"id": "C24", "title": "Circular iterators of the linked list wrap around", "statement": "Circular Next from the last element reaches the first, circular Prev from the first reaches the last, and n steps from any element of an n-element list return to it.", "quantifier": "all non-empty lists, all positions, all step counts", "why_tests_cant": "All lengths and step counts.", "anchors": ["list/linked_list/circular_iterator.go"]}
{"id": "C25", "title": "AVL map meets the API contract", "statement": "For every lawful comparator, every balance threshold at least one and every history of Put, InsertIfAbsent, Set, Upsert, Remove, Delete, Clear, the AVL map answers Get, Size and every boolean result as an ideal finite map.", "quantifier": "all comparators, all thresholds >= 1, all histories", "why_tests_cant": "Rebalancing paths over all tree shapes.", "anchors": ["tree/avl/tree.go", "tree/avl/tree_hide.go: put, get, remove, neighboring, rebalance"]}
{"id": "C26", "title": "AVL enumeration is sorted", "statement": "Traverse and Values enumerate the entries in strictly increasing key order, every entry once, after any history.", "quantifier": "all comparators, all histories", "why_tests_cant": "All tree shapes.", "anchors": ["tree/avl/tree.go: Traverse, Values"]}
{"id": "C27", "title": "AVL height and balance", "statement": "Height() is the exact height of the tree after every history, and with threshold d >= 2 sibling subtree heights never differ by d or more (with d = 2 the classic AVL balance); the default map is an AVL tree in this sense.", "quantifier": "all histories, all thresholds", "why_tests_cant": "Invariants over unbounded histories and all shapes.", "anchors": ["tree/avl/tree_hide.go: rebalance", "tree/avl/node.go", "tree/avl/tree.go: New, NewEx"]}
{"id": "C28", "title": "AVL iterator visits every entry in order", "statement": "SeekToFirst followed by Next visits exactly the sorted entries and then becomes invalid, SeekToLast with Prev the reverse; stepping past an end and back returns to the end entry; the iterator never panics while the tree is unchanged.", "quantifier": "all trees, all numbers of steps", "why_tests_cant": "All shapes; the iterator keeps a fixed-size stack allocated from Height().", "anchors": ["tree/avl/iterator.go", "tree/avl/iterator_hide.go"]}
{"id": "C29", "title": "AVL seek", "statement": "SeekGE/GT/LE/LT position the iterator on the least/greatest entry with the stated relation to the key, or make it invalid when there is none, and return true exactly when the key is present; Next and Prev continue from there in order.", "quantifier": "all trees, all keys", "why_tests_cant": "All shapes and keys, present or absent.", "anchors": ["tree/avl/iterator_hide.go: seekEqual, seekThan"]}
{"id": "C30", "title": "AVL multimap is a stable multimap", "statement": "In the duplicate-key AVL tree Put always inserts after the existing entries with an equal key, Get/Set/Upsert/Remove act on the earliest inserted entry with that key, and Traverse lists entries sorted by key and by insertion time among equals.", "quantifier": "all comparators, all histories with duplicates", "why_tests_cant": "Rotations move equal keys to both sides; stability must hold for all shapes.", "anchors": ["tree/avls/tree.go", "tree/avls/tree_hide.go"]}
{"id": "C31", "title": "AVL multimap height and balance", "statement": "For the default tree Height() is exact and sibling heights differ by at most one after every history; recorded heights stay exact for every threshold accepted by NewEx.", "quantifier": "all histories, all thresholds", "why_tests_cant": "Invariants over unbounded histories; one-sided height updates are only right for some thresholds.", "anchors": ["tree/avls/node.go", "tree/avls/tree_hide.go: rebalance"]}
{"id": "C32", "title": "AVL multimap iterator and seek", "statement": "In a tree made by New: iteration visits every entry once in order; SeekGE/SeekLE position on the first/last entry of a run of equal keys and SeekGT/SeekLT skip the whole run; the result is true exactly when the key is present.", "quantifier": "all trees with the default threshold, with duplicates, all keys", "why_tests_cant": "Runs of equal keys may be spread over many subtrees.", "anchors": ["tree/avls/iterator.go", "tree/avls/iterator_hide.go"]}
{"id": "C33", "title": "Tree set is a sorted set", "statement": "For every history of Add, Set, Upsert, Remove, Delete, Clear a tree set made by New answers Contains, Get, Size and all boolean results as an ideal set and enumerates it in strictly increasing order.", "quantifier": "all comparators, all histories, default threshold (others: C108)", "why_tests_cant": "All tree shapes.", "anchors": ["set/treeset/tree.go", "set/treeset/tree_hide.go"]}
{"id": "C34", "title": "Tree set algebra", "statement": "Union, Intersection and Difference leave the receiver with exactly the union, intersection, difference of the two sets and do not change the other set.", "quantifier": "all pairs of distinct sets", "why_tests_cant": "All pairs of sets of any size.", "anchors": ["set/treeset/tree.go: Union, Intersection, Difference"]}
{"id": "C35", "title": "Tree set balance and logarithmic height", "statement": "For the default set, recorded heights are exact, sibling heights differ by at most one, and the height is logarithmic in the size, so the 8-bit height field cannot overflow for any set that fits in memory.", "quantifier": "all histories", "why_tests_cant": "Invariant over unbounded histories; overflow would need astronomically large tests.", "anchors": ["set/treeset/node.go", "set/treeset/tree_hide.go"]}
{"id": "C36", "title": "Tree set iterator", "statement": "Iteration visits every item once in order in both directions and Seek*/Seek*Exact position as documented without panicking.", "quantifier": "all sets made by New, all keys", "why_tests_cant": "All shapes.", "anchors": ["set/treeset/iterator.go", "set/treeset/iterator_hide.go"]}
{"id": "C37", "title": "Index tree is a sorted map", "statement": "For every lawful comparator and every history of Put, InsertIfAbsent, Set, Upsert, Remove, Delete, RemoveIndex, Clear the index tree answers Get, Size and the boolean results as an ideal sorted map and Traverse enumerates in strictly increasing key order.", "quantifier": "all comparators, all histories", "why_tests_cant": "All shapes and size-driven rotations.", "anchors": ["tree/indextree/tree.go", "tree/indextree/utils.go"]}
{"id": "C38", "title": "Index tree rank queries", "statement": "Index(i) is the i-th entry in key order for 0 <= i < Size and panics otherwise; IndexOf(k) is the number of smaller keys when present and -1 otherwise; they are inverse to each other after any history.", "quantifier": "all trees, all indices and keys", "why_tests_cant": "Subtree size counters must be right after every history.", "anchors": ["tree/indextree/tree.go: Index, IndexOf", "tree/indextree/utils.go: index"]}
{"id": "C39", "title": "Index tree range removal", "statement": "RemoveRange(low,high) removes exactly the entries with low <= key <= high; RemoveRangeByIndex(i,j) removes exactly the entries with rank in [i,j]; sizes stay right.", "quantifier": "all trees, all ranges with low <= high", "why_tests_cant": "Ranges cut the tree along arbitrary paths.", "anchors": ["tree/indextree/tree.go: RemoveRange, RemoveRangeByIndex", "tree/indextree/utils.go: getRangeRoot, mergeGroups, fixRemoveRange"]}
{"id": "C40", "title": "Index tree trimming", "statement": "Trim(low,high) keeps exactly the entries with low <= key <= high; TrimByIndex(i,j) keeps exactly ranks [i,j]; an out-of-range TrimByIndex panics and leaves the tree unchanged.", "quantifier": "all trees, all ranges", "why_tests_cant": "Arbitrary cut paths; partial mutation before a panic.", "anchors": ["tree/indextree/tree.go: Trim, TrimByIndex"]}
{"id": "C41", "title": "Index tree split", "statement": "Split(k) keeps exactly the entries < k and returns a tree of exactly the entries >= k; SplitContain(k) keeps <= k and returns > k; both trees have right sizes.", "quantifier": "all trees, all keys", "why_tests_cant": "Arbitrary cut paths.", "anchors": ["tree/indextree/tree.go: Split, SplitContain"]}
{"id": "C42", "title": "Index tree iterator", "statement": "SeekGE/GT/LE/LT position the iterator on the nearest entry with the stated relation or make it invalid, return true exactly when the key is present, never panic on any tree; Next and Prev walk in order and Index() is the rank.", "quantifier": "all trees, all keys", "why_tests_cant": "All shapes and keys.", "anchors": ["tree/indextree/iterator.go", "tree/indextree/iterator_hide.go"]}
{"id": "C43", "title": "Ordered map Delete/Remove/Upsert contract", "statement": "Delete and Remove report true and return the value exactly when the key was present; Upsert and Set report true exactly when they replaced; for every stored value including nil.", "quantifier": "all histories, all values", "why_tests_cant": "Special values interact with presence flags.", "anchors": ["tree/indextree/tree.go: Delete, Set, Upsert", "map/orderedmap.go/map.go"]}
{"id": "C44", "title": "Tree list is a sorted map", "statement": "For every lawful comparator and every history of Put, Set, PutDuplicate, Remove, RemoveIndex, RemoveHead, RemoveTail, Clear the tree list answers Get, Size, Index, IndexOf and the boolean results as an ideal sorted map.", "quantifier": "all comparators, all histories", "why_tests_cant": "All shapes and histories.", "anchors": ["tree/treelist/tree.go", "tree/treelist/utils.go: putWith, fixPut, removeNode"]}
{"id": "C45", "title": "Tree list threading", "statement": "The doubly linked thread through the entries (Head, Tail, iterator Next/Prev) always lists exactly the entries of the tree in key order after every history of insertions, removals, range removals and trims.", "quantifier": "all histories", "why_tests_cant": "The thread is a second representation maintained by separate pointer surgery in every mutation.", "anchors": ["tree/treelist/utils.go: attachNode, removeNode", "tree/treelist/tree.go: RemoveRange, RemoveRangeByIndex, Trim, TrimByIndex, Head, Tail"]}
{"id": "C46", "title": "Tree list range removal", "statement": "RemoveRange(low,high) removes exactly the entries in [low,high] and returns whether there was one; RemoveRangeByIndex(i,j) removes exactly ranks [i,j] intersected with the valid ranks.", "quantifier": "all trees, all ranges", "why_tests_cant": "Arbitrary cut paths plus threading.", "anchors": ["tree/treelist/tree.go: RemoveRange, RemoveRangeByIndex"]}
{"id": "C47", "title": "Tree list trimming", "statement": "Trim(low,high) keeps exactly the entries in [low,high], also when there is none, for every later observation (Size, Head, Tail, iteration, set operations); TrimByIndex keeps exactly ranks [i,j].", "quantifier": "all trees, all ranges", "why_tests_cant": "The empty-result corner leaves stale state visible only to other operations.", "anchors": ["tree/treelist/tree.go: Trim, TrimByIndex"]}
{"id": "C48", "title": "Tree list set operations", "statement": "Intersection, UnionSets and DifferenceSets return a new well-formed tree with exactly the intersection, union, difference of the key sets, taking values from the receiver on ties, and leave both arguments unchanged.", "quantifier": "all pairs of trees reached by calls for which the threading of C45 holds", "why_tests_cant": "All pairs of sets of any size; two-pass stream must agree.", "anchors": ["tree/treelist/tree.go: Intersection, UnionSets, DifferenceSets", "tree/treelist/utils.go: setOperationStream, buildFromSortedStream"]}
{"id": "C49", "title": "Tree list seek", "statement": "SeekGE/GT/LE/LT position on the nearest entry with the stated relation, or become invalid, with Index() the rank and the result true exactly when the key is present, on every tree including the empty one.", "quantifier": "all trees, all keys", "why_tests_cant": "All shapes and keys.", "anchors": ["tree/treelist/iterator.go", "tree/treelist/utils.go: seekNodeWithIndex"]}
{"id": "C50", "title": "Tree list range iterator", "statement": "GE2LE, GT2LE, GE2LT, GT2LT followed by Range visit exactly the entries in the stated interval in the chosen direction with their ranks, and Size is their number.", "quantifier": "all trees, all interval bounds, both directions", "why_tests_cant": "All shapes, bounds absent or present, empty intervals.", "anchors": ["tree/treelist/iterator_range.go"]}
{"id": "C51", "title": "Priority tree is a stable sorted multimap", "statement": "For every history of Put, InsertIfAbsent, Upsert, Remove, Delete, RemoveIndex, PopHead, PopTail, Clear, Values and Traverse list entries sorted by key and by insertion order among equals; Get/Remove act on the first entry of the run; PopHead/PopTail return and remove the first/last; Size is exact.", "quantifier": "all comparators, all histories with duplicates", "why_tests_cant": "All shapes and histories.", "anchors": ["queue/priority/tree.go", "queue/priority/tree_hide.go"]}
{"id": "C52", "title": "Priority tree Gets", "statement": "Gets(k) returns exactly the values stored under k, each as often as stored.", "quantifier": "all trees with duplicates, all keys", "why_tests_cant": "Runs of equal keys may be spread over many subtrees.", "anchors": ["queue/priority/tree.go: Gets", "queue/priority/tree_hide.go: seekRoot, traverse"]}
{"id": "C53", "title": "Priority tree index access", "statement": "Index(i) and RemoveIndex(i) act on the i-th entry; negative indices count from the end; an out-of-range call panics and leaves the tree unchanged.", "quantifier": "all trees, all indices", "why_tests_cant": "Size counters must be right along every path, also after a failed call.", "anchors": ["queue/priority/tree.go: Index, RemoveIndex", "queue/priority/tree_hide.go: index, removeIndex"]}
{"id": "C54", "title": "Priority tree iterator", "statement": "SeekToFirst/Next visits every entry in order without panicking; SeekGT/SeekLT skip the whole run of equal keys.", "quantifier": "all trees reachable by any history, all keys", "why_tests_cant": "The fixed iterator stack relies on a height bound that must hold for every reachable shape.", "anchors": ["queue/priority/iterator_hide.go: newIterator, down, seekThan", "queue/priority/tree_hide.go: rebalance, sizeRotateType"]}
{"id": "C55", "title": "Skip list is a sorted map for every level choice", "statement": "For every outcome of the random level generator and every history of Put, Set, PutDuplicate, Remove, RemoveHead, RemoveTail, RemoveIndex, Clear the skip list answers Get, Size, Head, Tail, Index, IndexOf as an ideal sorted map.", "quantifier": "all histories, all random level sequences, all maximum levels 1..16", "why_tests_cant": "Random choices make any finite test incomplete.", "anchors": ["tree/skiplist/skiplist.go: Put, Get, Remove, randomLevel"]}
{"id": "C56", "title": "Skip list levels are consistent", "statement": "After every history each level's chain is a subsequence of the level below, all sorted, and no search reads a forward pointer outside a node's tower.", "quantifier": "all histories, all random level sequences", "why_tests_cant": "An out-of-range tower access needs a particular level history.", "anchors": ["tree/skiplist/skiplist.go: Put, Remove, Node.Forward"]}
{"id": "C57", "title": "Skip list seek", "statement": "SeekGE/GT/LE/LT position on the nearest entry with the stated relation or become invalid; the iterator index equals the rank of the entry.", "quantifier": "all lists, all keys", "why_tests_cant": "All shapes and keys.", "anchors": ["tree/skiplist/skiplist.go: Iterator"]}
{"id": "C58", "title": "Skip list range and set operations", "statement": "RemoveRangeByIndex, Trim, TrimByIndex, Intersection, UnionSets and DifferenceSets yield exactly the stated sets of entries.", "quantifier": "all lists, all bounds", "why_tests_cant": "All shapes and bounds.", "anchors": ["tree/skiplist/skiplist.go: RemoveRangeByIndex, Trim, TrimByIndex, Intersection, UnionSets, DifferenceSets"]}
{"id": "C59", "title": "Skip list locked operations are linearizable", "statement": "In every interleaving of concurrent callers of the locking operations, each call takes effect atomically at one instant between its start and its end, and results are those of the sequential skip list in that order.", "quantifier": "all numbers of goroutines, all schedules", "why_tests_cant": "Schedules cannot be enumerated.", "anchors": ["tree/skiplist/skiplist.go: lock"]}
{"id": "C60", "title": "Skip list RemoveHead is safe under concurrency", "statement": "In every interleaving RemoveHead neither panics nor returns nothing while the list stays non-empty.", "quantifier": "all schedules", "why_tests_cant": "The window between the unlocked check and the locked removal needs a particular schedule.", "anchors": ["tree/skiplist/skiplist.go: RemoveHead"]}
{"id": "C61", "title": "Skip list set operations do not deadlock", "statement": "In every interleaving of set operations between lists some caller can always make progress.", "quantifier": "all schedules, all pairs of lists", "why_tests_cant": "Deadlock needs a particular schedule.", "anchors": ["tree/skiplist/skiplist.go: Intersection, UnionSets, DifferenceSets"]}
{"id": "C62", "title": "A* search decides reachability", "statement": "After Clear, Search returns true exactly when the end tile can be reached from the start tile through in-bounds non-block tiles under the chosen neighbourhood, and terminates on every grid.", "quantifier": "all grids of any dimension, all targets, both neighbourhoods, all weight functions", "why_tests_cant": "All grids and expansion orders.", "anchors": ["graph/astar/astar.go: search", "graph/astar/neighbor_interface.go"]}
{"id": "C63", "title": "A* returns a valid path", "statement": "When Search returns true with the default cost, the returned path starts at the end tile, ends at the start tile, consecutive tiles are neighbours, no tile is a block, and no tile repeats; back-tracking terminates.", "quantifier": "all grids, all targets", "why_tests_cant": "All grids.", "anchors": ["graph/astar/astar.go: singlePath"]}
{"id": "C64", "title": "A* path is shortest", "statement": "With the default cost and weight the path returned by Search has the least possible number of steps.", "quantifier": "all grids, all targets", "why_tests_cant": "Optimality over all grids; tiles are never relaxed after first discovery.", "anchors": ["graph/astar/astar.go: search, singlePath", "graph/astar/count_interface.go"]}
{"id": "C65", "title": "A* multi-path results", "statement": "Every path returned by SearchMulti is a valid path from end to start whose step count is GetSteps.", "quantifier": "all grids, all targets", "why_tests_cant": "All grids.", "anchors": ["graph/astar/astar.go: SearchMulti, multiPath, GetSteps"]}
{"id": "C66", "title": "A* Clear restores the map", "statement": "Clear after Search restores every tile attribute to what it was before Search and resets cost and visit marks, so that a repeated search gives the same result.", "quantifier": "all grids, all targets", "why_tests_cant": "All grids and target positions.", "anchors": ["graph/astar/astar.go: Clear, search"]}
{"id": "C67", "title": "TryPanic reports the panic error", "statement": "TryPanic(do) returns nil when do completes and the panic error when do panics with an error.", "quantifier": "all functions do", "why_tests_cant": "Ranges over all callbacks.", "anchors": ["utils.go: TryPanic"]}
{"id": "C68", "title": "Random text length", "statement": "Rangdom(s,e) returns a text of letters and digits with at least s and at most e characters, whatever the random generator returns.", "quantifier": "all bounds with 0 <= s and 0 < s+e, all generators whose Intn(n) lies in [0,n)", "why_tests_cant": "A test sees a few random draws; the bound has to hold for every draw.", "anchors": ["utils.go: Rangdom"]}
{"id": "C69", "title": "Skip list set operations are atomic", "statement": "In every interleaving Intersection, UnionSets and DifferenceSets return the result of the operation on the contents that both lists had at one instant between start and end of the call.", "quantifier": "all numbers of goroutines and lists, all schedules", "why_tests_cant": "A torn result needs a particular schedule.", "anchors": ["tree/skiplist/skiplist.go: Intersection, UnionSets, DifferenceSets, searchInternal"]}
{"id": "C70", "title": "Astar prints the map", "statement": "GetTiles, GetTilesWithTarget and GetPathTiles return a newline followed by the rows of the map, each ended by a newline; the byte of a tile is its attribute, except that the end, the start and the tiles of the path are shown by e, s and o, in this order of precedence.", "quantifier": "all maps, targets on the map, all paths on the map", "why_tests_cant": "Sizes, attributes and paths are unbounded.", "anchors": ["graph/astar/astar.go: GetTiles, GetTilesWithTarget, GetPathTiles"]}
{"id": "C71", "title": "Astar text round trip", "statement": "Reading back with NewWithTiles what GetTiles has printed gives a map of the same dimensions and attributes, without start and end; so does SetStringTiles on a map of that size, which keeps all else.", "quantifier": "all maps whose attributes are neither space nor one of * s e", "why_tests_cant": "The row width matters: lines are cut by the reader's buffer at 4096 bytes.", "anchors": ["graph/astar/astar.go: GetTiles, NewWithTiles, SetStringTiles"]}
{"id": "C72", "title": "Astar text round trip with targets", "statement": "Reading back with NewWithTiles what GetTilesWithTarget has printed gives a map with the same start and end and the same tiles elsewhere, on which Search has the same answer.", "quantifier": "all maps whose attributes are neither space nor one of * s e, all start and end on the map that differ", "why_tests_cant": "All maps and all targets.", "anchors": ["graph/astar/astar.go: GetTilesWithTarget, NewWithTiles, Search"]}
{"id": "C73", "title": "Astar draws the path that it has found", "statement": "After a successful Search, GetSinglePathTiles shows exactly the path of GetPath, and GetSingleSteps is one more than the number of o in the text.", "quantifier": "all maps without o, all different start and end", "why_tests_cant": "All maps.", "anchors": ["graph/astar/astar.go: GetSinglePathTiles, GetSingleSteps, GetPath"]}
{"id": "C74", "title": "Astar path queries are about the last search", "statement": "GetPath and GetSingleSteps describe the result of the last Search: a path after a success, none after a failure.", "quantifier": "all maps, all searches", "why_tests_cant": "Needs a failed search after a successful one, or a failed first search.", "anchors": ["graph/astar/astar.go: GetPath, GetSingleSteps, search"]}
{"id": "C75", "title": "Astar reads a text in one way", "statement": "SetStringTiles on a new map of that size and NewWithTiles make the same map, start and end of a text.", "quantifier": "all texts", "why_tests_cant": "Texts are unbounded, and differ in white space.", "anchors": ["graph/astar/astar.go: NewWithTiles, SetStringTiles"]}
{"id": "C76", "title": "experiment.ShiftToleranceTree keeps one entry per key, in the shape of indextree", "statement": "After any calls Put answers true exactly if no equal key was put before, keeps the first value, and Size is the number of different keys; the nodes are in key order, and with the same shift the tree is node for node the one indextree builds from the same Puts.", "quantifier": "all shifts, all lawful comparators, all histories", "why_tests_cant": "Rotations depend on the whole history; equality of shapes over all histories cannot be sampled.", "anchors": ["tree/indextree/experiment/shift_tolerance_tree.go: Put, fixPut, fixPutSize, rotations"]}
{"id": "C77", "title": "experiment.ShiftToleranceTree.Height is the height", "statement": "Height returns the number of nodes on the longest path from the root.", "quantifier": "all shifts, all histories", "why_tests_cant": "An int8 overflows only for deep trees.", "anchors": ["tree/indextree/experiment/shift_tolerance_tree.go: Height, updateHeight"]}
{"id": "C78", "title": "experiment.ShiftToleranceTree.Get finds what Put stored", "statement": "Get(key) returns the value Put stored for that key, and nothing for a key never put.", "quantifier": "all comparators, all histories", "why_tests_cant": "Put and Get read the comparator in two different conventions; which values come out depends on the shape of the tree.", "anchors": ["tree/indextree/experiment/shift_tolerance_tree.go: Get, get, Put"]}
{"id": "C79", "title": "experiment BenchmarkStats describes the shape", "statement": "BenchmarkStats of both trees reports the length of the longest path, the average depth, and the depths at 50% and 95% of the sorted depths; it never panics.", "quantifier": "all trees", "why_tests_cant": "The breadth first walk with its queue must be right for every shape.", "anchors": ["tree/indextree/experiment/shift_tolerance_tree.go: shapeStats", "tree/indextree/experiment/bench_stats.go: shapeStats"]}
{"id": "C80", "title": "experiment.Tree is a map", "statement": "Put, InsertIfAbsent, Set, Upsert, Get, Remove, Delete, Clear, Size, Len, Values and Traverse of experiment.Tree act as on a sorted map.", "quantifier": "all lawful comparators, all thresholds, all histories", "why_tests_cant": "put reads the comparator in another convention than get and remove; failures depend on the shape.", "anchors": ["tree/indextree/experiment/tree.go", "tree/indextree/experiment/tree_hide.go: put, get, remove"]}
{"id": "C81", "title": "Skip list iterators survive modification", "statement": "While an iterator of a skip list is in use, any calls on the list may be made between calls of Next: nothing panics, the keys that the iterator comes to ascend strictly, every entry shown was in the list at some moment since the iteration began, and an iteration to the end visits every key, not before the position where it began, that was in the list all the time.", "quantifier": "all lawful comparators, all histories before, all positions of the iterator, all interleavings of calls on the list (removing the current entry, its neighbours, Clear, Trim, ... included) with Next", "why_tests_cant": "Removed nodes keep their pointers; whether these lead back into the list depends on the order of all removals and insertions since.", "anchors": ["tree/skiplist/skiplist.go: Iterator.Next, Valid, Key, Value, Remove, Put, Clear, Trim"]}
{"id": "C82", "title": "Tree list iterators survive modification", "statement": "While an iterator of a tree list is in use, calls on the list may be made between the calls on the iterator: Next goes to the smallest key greater than the current one that is in the list at that moment, Prev to the greatest smaller one, and the entry shown is the current one with its present value.", "quantifier": "all lawful comparators, all interleavings of calls on the list with calls on the iterator, starting from a new list", "why_tests_cant": "Where the thread pointers of a node lead depends on the order of all insertions and removals since the iterator came to it; removal moves entries between nodes depending on the shape of the tree.", "anchors": ["tree/treelist/iterator.go: Next, Prev, Slice, Valid, SeekGE", "tree/treelist/tree.go: Put, Set, Remove", "tree/treelist/utils.go: removeNode"]}
{"id": "C83", "title": "Searches call the comparator a logarithmic number of times", "statement": "One call of Put, Set, Upsert, InsertIfAbsent, Get, Contains, Remove or Delete on a tree of n entries (avl with threshold 2, treeset, avls, indextree) calls the comparator at most 2 log2(n+1)+1 times, or twice that when the method searches twice; heap Put at most log2(n+1) and Pop at most 2 log2(n-1) times.", "quantifier": "all lawful comparators, all histories before the call, all keys", "why_tests_cant": "The worst shape that some history reaches decides the bound; benchmarks see average shapes.", "anchors": ["tree/avl/tree_hide.go: put, get, remove", "tree/avls/tree_hide.go: put, get, removeLeft", "set/treeset/tree_hide.go: put, get, remove", "tree/indextree/utils.go: getNode", "tree/heap/heap.go: Put, Pop"]}
{"id": "C84", "title": "NewWithTiles loses no tile of a text", "statement": "From any text NewWithTiles makes a map whose rows, read one after the other, are the bytes of the text other than white space: a tile has the byte at its place as attribute, plain for *, s, e and where a row is shorter than the longest; start and end are the last s and e, and missing exactly when the text has none. The rows are the lines that are not blank when no line reaches 4096 bytes.", "quantifier": "all texts", "why_tests_cant": "Line ends, carriage returns, blank lines and the cut of long lines by the reader combine freely.", "anchors": ["graph/astar/astar.go: NewWithTiles"]}
{"id": "C85", "title": "Removing through a list iterator in a loop", "statement": "A loop over an array list or a linked list from the head (tail) that calls RemoveToNext (RemoveToPrev) at the elements to remove and Next (Prev) at the others ends; it looks at every element once, in order; afterwards the list has exactly the other elements, in their order; other linked list iterators are not moved.", "quantifier": "all lists reached by legal histories, all predicates", "why_tests_cant": "The removed elements form any subset; the last and the first one are special, and the buffer moves under the iterator.", "anchors": ["list/array_list/iterator.go: RemoveToNext, RemoveToPrev", "list/linked_list/iterator.go: RemoveToNext, RemoveToPrev"]}
{"id": "C86", "title": "Callbacks of the skip list may use the list", "statement": "A callback given to Traverse or PutDuplicate of a skip list may call methods of this list; the call that it was given to then returns, and so do later calls on the list.", "quantifier": "all contents, callbacks, schedules", "why_tests_cant": "A call that never returns only shows as a timeout, and no number of schedules shows that all later calls block.", "anchors": ["tree/skiplist/skiplist.go: Traverse, PutDuplicate"]}
{"id": "C87", "title": "The nodes of an AVL map or tree set always form a tree", "statement": "After any calls on an AVL map or a tree set the nodes that can be reached from the root form a tree: no node is reached on two ways, there is no cycle, and their number is what Size answers. With a lawful comparison no call follows a nil pointer, and the assignments to Children, Height, Key and Value in rotations and removals give the answers of the ideal sorted map.", "quantifier": "all histories, comparisons and thresholds for the shape; lawful comparisons for the answers", "why_tests_cant": "A rotation or a removal that leaves a node shared or linked to itself in one of the many cases of pointer moves shows only in histories that reach that case, and then as lost or repeated entries or an endless loop.", "anchors": ["tree/avl/node.go: leftRotate, rightRotate, leftRotateWithRight, rightRotateWithLeft, rebalance", "tree/avl/tree_hide.go: put, remove, neighboring", "set/treeset/node.go", "set/treeset/tree_hide.go"]}
{"id": "C88", "title": "An iterator of an AVL map or tree set stays right while the map is modified", "statement": "While an iterator is in use the map may be modified. The iterator then goes on to the next entry that is in the map at that time, in order; it shows every entry that was in the map all the time exactly once, shows the present values, and never panics.", "quantifier": "all maps, all orders of calls of the map and of the iterator", "why_tests_cant": "Whether an iterator is still right depends on how the tree was turned between two of its steps; tests see a few shapes of the tree.", "anchors": ["tree/avl/iterator.go", "tree/avl/iterator_hide.go", "set/treeset/iterator.go", "set/treeset/iterator_hide.go"]}
{"id": "C89", "title": "The nodes of index trees always form separate trees with right parents and sizes", "statement": "In a program with any number of index trees, after any calls on them (also Split, which moves nodes to a new tree) the nodes that can be reached from a root form a tree: no node is reached on two ways, the Parent of each is the node it is reached from, Size is the number of nodes below, no node belongs to two trees, and the method check does not panic. No call follows a nil pointer, and each tree answers as an ideal sorted map of its own.", "quantifier": "all comparisons for shape of one tree; all programs with several trees and lawful comparisons for sizes, separation and answers", "why_tests_cant": "Range removals, trims and splits relink nodes on two paths to the root and repair parents and sizes on the way up; a missed parent or a node left in both parts shows only in shapes where this path has that form, and only in a later call.", "anchors": ["tree/indextree/tree.go: Put, Set, Remove, RemoveIndex, RemoveRange, RemoveRangeByIndex, Trim, TrimByIndex, Split, SplitContain", "tree/indextree/utils.go: fixPut, fixRemoveSize, fixRemoveRange, lrotate, rrotate, check"]}
{"id": "C90", "title": "The iterator of an index tree stays right while the tree is modified", "statement": "While an iterator is in use the tree may be modified. The iterator then goes on to the next entry that is in the tree at that time, in order; it shows every entry that was in the tree all the time exactly once, shows the present values and ranks, and never panics.", "quantifier": "all trees, all orders of calls of the tree and of the iterator", "why_tests_cant": "Whether an iterator is still right depends on how the tree was turned between two of its steps; tests see a few shapes of the tree.", "anchors": ["tree/indextree/iterator.go", "tree/indextree/iterator_hide.go", "tree/indextree/tree.go"]}
{"id": "C91", "title": "An A* map over its whole life: attributes and answers", "statement": "Through any history of SetAttr, GetAttr, SetTarget, SetNeighbor, Search, SearchMulti and Clear, GetAttr answers the attribute that the tile was given last, except that it is s and e at the two targets from a search to the next Clear; every search answers whether there is a way on the map as it is then; and no call panics for positions on the map, while GetAttr and SetAttr outside of it do.", "quantifier": "all maps, all histories", "why_tests_cant": "Each search leaves marks on tiles that later calls have to take back; tests run one search on a few maps.", "anchors": ["graph/astar/astar.go: GetAttr, SetAttr, SetTarget, search, Clear"]}
{"id": "C92", "title": "The nodes of tree lists always form separate trees with right parents, sizes and links", "statement": "In a program with any number of tree lists, after any calls on them, where the results of Intersection, UnionSets and DifferenceSets are used as further lists, the nodes that can be reached from a root form a tree: no node is reached on two ways, the Parent of each is the node it is reached from, Size is the number of nodes below, and the links Direct run through all of these nodes and no others in the order of the keys, in both directions. No node belongs to two lists, the method check does not panic, no call follows a nil pointer, and each list answers as an ideal sorted map of its own.", "quantifier": "all programs with several lists, all lawful comparisons", "why_tests_cant": "Every call repairs two structures over the same nodes, the tree and the doubly linked list. A link or a parent that was missed shows only in shapes where the path has that form, and only in a later call or in another list that shares the node.", "anchors": ["tree/treelist/tree.go: Put, Set, PutDuplicate, Remove, RemoveHead, RemoveTail, RemoveRange, RemoveRangeByIndex, Trim, TrimByIndex, Intersection, UnionSets, DifferenceSets", "tree/treelist/utils.go: attachNode, putWith, removeNode, setOperationStream, buildFromSortedStream, check"]}
{"id": "C93", "title": "The nodes of a priority queue always form a tree with right sizes", "statement": "After any calls on a priority queue the nodes that can be reached from its root form a tree: no node is reached on two ways, there is no cycle, and the number of nodes is the number of entries. Size of every node is the number of nodes below it. No call follows a nil pointer, each call answers as an ideal stable priority queue, and Gets gives all values of a key.", "quantifier": "all histories of calls, all lawful comparisons (shape: all comparisons)", "why_tests_cant": "Every Put and every removal changes several pointers and counts sizes on the way down before it knows where it ends; a pointer that was missed or a node linked twice shows only in some shapes and only in a later call.", "anchors": ["queue/priority/tree.go: Put, InsertIfAbsent, Upsert, Get, Gets, Index, Remove, Delete, RemoveIndex, PopHead, PopTail, Clear", "queue/priority/tree_hide.go: rotations, rebalance, removal, sizes"]}
{"id": "C94", "title": "The iterator of a priority queue stays right while the queue is modified", "statement": "While an iterator is in use the queue may be modified. The iterator then goes on to the next entry that is in the queue at that time, in order; it shows every entry that was in the queue all the time exactly once, shows the present values, and never panics.", "quantifier": "all queues, all orders of calls of the queue and of the iterator", "why_tests_cant": "Whether an iterator is still right depends on how the tree was turned between two of its steps; tests see a few shapes of the tree.", "anchors": ["queue/priority/iterator.go", "queue/priority/iterator_hide.go", "queue/priority/tree.go"]}
{"id": "C95", "title": "The nodes of a tree with repeated keys (avls) always form a tree", "statement": "After any calls on a tree of tree/avls the nodes that can be reached from the root form a tree: no node is reached on two ways, there is no cycle, and their number is what Size answers. With a lawful comparison no call follows a nil pointer, and the assignments to Children, Height, Key and Value in rotations and removals give the answers of the ideal stable multimap.", "quantifier": "all histories, comparisons and thresholds for the shape and for the answers of calls that return; lawful comparisons, the default threshold and fewer than 2^63 entries for the absence of panics", "why_tests_cant": "With equal keys on both sides of a node the search for the entry to remove goes through cases of pointer moves that depend on how the equal keys were turned; a shared or lost node shows only in histories that reach that case.", "anchors": ["tree/avls/tree_hide.go: put, get, removeLeft, neighboring", "tree/avls/node.go: leftRotate, rightRotate, leftRotateWithRight, rightRotateWithLeft, rebalance", "tree/avls/tree.go: Put, Set, Get, Remove, InsertIfAbsent"]}
{"id": "C96", "title": "An iterator of a tree with repeated keys (avls) stays right while the tree is modified", "statement": "While an iterator of a tree of tree/avls is in use the tree may be modified. The iterator then goes on to the next entry that is in the tree at that time, in order; it shows every entry that was in the tree all the time exactly once, shows the present values, and never panics.", "quantifier": "all trees, all orders of calls of the tree and of the iterator", "why_tests_cant": "Whether an iterator is still right depends on how the tree was turned between two of its steps; tests see a few shapes of the tree.", "anchors": ["tree/avls/iterator.go", "tree/avls/iterator_hide.go: newIterator, down, up, seekBound, move"]}
{"id": "C97", "title": "The texts of the containers show their elements", "statement": "After any legal history `String` of the three stacks, the array list, the linked list, the linked hash map, the hash set and the tree set is a left bracket, the texts of exactly the elements the container holds with one separator between two of them, and a right bracket: the elements of a stack from bottom to top, of a list in order, the entries of a linked hash map as {key:value} in the order of insertion, those of a tree set in order of the comparison, those of a hash set each once in some order. If different elements have different texts that are not empty and do not contain the separator, the text determines the elements.", "quantifier": "all element types, all functions that give the text of an element, all legal histories of calls (with edits through iterators for the linked list), all iteration orders of Go maps", "why_tests_cant": "Tests compare a few texts of small integers; a lost separator or bracket for an empty container, a stack shown from the wrong end after some mixture of calls, or a missing last blank for elements with an empty text only appear for certain contents.", "anchors": ["stack/array/stack.go:62-64", "stack/list/stack.go:41-43", "stack/listarray/stack.go:94-97", "list/array_list/array_list.go:264-266", "list/linked_list/linked_list.go:253-255", "map/linkedhashmap/linked_hashmap.go:37-39", "map/linkedhashmap/linked_hashmap.go:296-298", "set/hashset/hashset.go:72-81", "set/treeset/tree.go:168-193"]}
{"id": "C98", "title": "The picture of an index tree shows all of the tree", "statement": "`String` of an index tree that is not empty is a header and one line for each entry, from the greatest key to the least; a line is a drawing that does not depend on the keys, and the text of the key. The empty tree has the line nil. If different keys have different texts without line breaks, the picture determines the tree: two trees that are not empty and have equal pictures have the same keys at the same places, and no such picture equals that of the empty tree.", "quantifier": "all key types, all functions that give the text of a key, all trees (for the lines: all trees reached by a history of calls)", "why_tests_cant": "Tests print pictures for people to look at; that two different trees never look the same is a statement about all pairs of trees.", "anchors": ["tree/indextree/tree.go:36-38", "tree/indextree/debug_utils.go:98-146"]}
{"id": "C99", "title": "Goroutines that share skip lists have no data races", "statement": "Whatever methods of skip lists and their iterators run at the same time, two of them are never about to access the same list at the same moment, unless neither of them writes. In particular a method that writes a list owns its lock.", "quantifier": "all numbers of goroutines and lists, all calls with all arguments, all schedules, all ways to cut the work under a lock into single accesses", "why_tests_cant": "The race detector reports only races of the schedules that happen to be run; here the absence is a statement about all schedules.", "anchors": ["tree/skiplist/skiplist.go:61-63", "tree/skiplist/skiplist.go:277-282", "tree/skiplist/skiplist.go:308-311", "tree/skiplist/skiplist.go:403-417", "tree/skiplist/skiplist.go:449-454", "tree/skiplist/skiplist.go:780-794"]}
{"id": "C100", "title": "Pointers to entries of a tree list stay with their entries", "statement": "The pointers that Head, Tail and Index return show the key and the current value of their entry as long as the entry is in the list, whatever calls follow, and assigning to Value through such a pointer has the same effect as Set of its key: every later call and every other pointer sees the new value, and nothing else changes.", "quantifier": "all programs that mix calls of the list with keeping, reading and writing through any number of pointers; all lawful comparisons", "why_tests_cant": "Whether a pointer follows its entry depends on the shape of the tree at the time of each later call; a test sees one shape.", "anchors": ["tree/treelist/tree.go:106-109", "tree/treelist/tree.go:201-207", "tree/treelist/tree.go:218-224", "tree/treelist/utils.go:365-472"]}
{"id": "C101", "title": "The iterator of experiment.Tree walks and seeks", "statement": "SeekToFirst with Next and SeekToLast with Prev see every entry once, in the order of the tree and its reverse; walking past an end and back returns to the entry at the end. SeekGE, SeekGT, SeekLE and SeekLT go to the nearest entry on that side of the key, and the Exact variants answer whether the key is present.", "quantifier": "all trees made by calls of the API; all sequences of calls on the iterator; all lawful comparators", "why_tests_cant": "The cursor is a path kept in an array; tests check a few paths, the claim is about all shapes and all sequences of moves.", "anchors": ["tree/indextree/experiment/iterator.go:22-90", "tree/indextree/experiment/iterator_hide.go:5-135"]}
{"id": "C102", "title": "Growing and shrinking arrays costs a constant number of cells per call, and the memory held follows the number of elements", "statement": "n calls on a new circular buffer (queue/linkedarray), heap or stack of segments (stack/listarray), in any order, ask the runtime for at most a constant times n array cells in total, however the calls make the container grow and shrink. At each moment the container holds on to at most a constant times as many cells as it has elements (after Clear, which releases nothing, up to what it had before). The array list should do the same.", "quantifier": "all element types and values, all histories of calls from a new container, all comparators (heap), all initial capacities of at least 1 (stack)", "why_tests_cant": "A test measures some workloads; thrashing between growing and shrinking, or a slow leak, needs an adversarial order of calls at sizes that are not known in advance.", "anchors": ["queue/linkedarray/queue.go:26", "queue/linkedarray/queue.go:40", "tree/heap/heap.go:26", "tree/heap/heap.go:84", "stack/listarray/stack.go:22", "stack/listarray/stack.go:48", "list/array_list/array_list.go:75", "list/array_list/array_list.go:101"]}
{"id": "C103", "title": "Floating point keys work like other keys", "statement": "compare.Any, AnyDesc and AnyEx accept float32 and float64. Maps, lists and heaps that use them with floats keep one entry per key, find what was put, remove only the key that is asked for, and give elements out in order, for all floats including NaN.", "quantifier": "all floats (0 and -0, infinities, NaN), all histories of calls", "why_tests_cant": "The tests use integers; that one key value breaks the order for all other keys shows only in the laws of the comparator.", "anchors": ["compare/compare.go:104", "compare/compare.go:108", "compare/compare.go:120", "compare/compare.go:132", "tree/indextree/tree.go:62", "tree/avl/tree.go:63", "tree/skiplist/skiplist.go:61", "tree/treelist/utils.go:64", "tree/heap/heap.go:64"]}
{"id": "C104", "title": "The callback of Traverse may use the tree it walks", "statement": "The callback given to Traverse of tree/avl or set/treeset may call methods of this tree. It still gets every entry that stays in the tree, once and in the order of the keys, with the value it has at that moment, and its calls and all later calls are answered right. In particular Union and Intersection of a tree set with itself leave it as it is, and Difference of a tree set with itself leaves it empty.", "quantifier": "all contents, callbacks whose calls depend on all answers so far", "why_tests_cant": "Whether the walk is disturbed depends on the rotations that a call inside the callback causes, hence on the whole shape of the tree at that moment; tests do not walk and change one tree at the same time.", "anchors": ["tree/avl/tree.go: Traverse", "set/treeset/tree.go: Traverse, Union, Intersection, Difference"]}
{"id": "C105", "title": "The callback of Traverse may change the list or queue it walks over", "statement": "The callback given to Traverse of the array list, the linked list or the circular queue (ArrayQueue) may call methods of this container. If it appends, every element, also the appended ones, is handed over once and in order, as a work list needs it. If it removes the element it is handed, the elements that stay are still handed over once, none that was removed before is handed over, and nothing panics.", "quantifier": "all histories, callbacks whose calls depend on all answers so far, any number of rounds (the walk need not end)", "why_tests_cant": "What a round reads depends on whether a call in an earlier round made the array grow, shrink or start elsewhere, and on where the array started before; a test walks over one small array that is seldom wrapped around.", "anchors": ["list/array_list/array_list.go: Traverse", "list/linked_list/linked_list.go: Traverse", "queue/linkedarray/queue.go: Traverse"]}
{"id": "C106", "title": "The callback of Traverse may use the index tree, stable tree, tree list or priority queue it walks", "statement": "The callback given to Traverse of tree/indextree, tree/avls, tree/treelist or queue/priority may call methods of this container. It still gets every entry that stays in the container, once and in order, with the value it has at that moment, and its calls and all later calls are answered right; when it answers stop, nothing more is handed over.", "quantifier": "all histories, all lawful comparators, all callbacks whose calls depend on all answers so far", "why_tests_cant": "Whether the recursion is disturbed depends on the rotations and exchanges of nodes that a call inside the callback causes, hence on the whole shape of the tree at that moment; tests do not walk and change one container at the same time.", "anchors": ["tree/indextree/tree.go: Traverse", "tree/avls/tree.go: Traverse", "tree/treelist/tree.go: Traverse", "queue/priority/tree.go: Traverse"]}
{"id": "C107", "title": "A call in which the comparator panics changes nothing", "statement": "The comparator of a container may panic in the middle of a call, for instance because a key is nil or of an unexpected type, and the caller may recover from it. Then the container is as if this call had never been made: all later calls, and those between further panics, are answered as by an ideal container that got only the calls that were not ended by a panic of the comparator. No call fails otherwise.", "quantifier": "all histories, all comparators, any set of moments at which the comparator panics", "why_tests_cant": "The comparator can panic at every comparison of every call in every state; what is left behind depends on which pointers and counters were already written at that moment. Tests use comparators that do not panic.", "anchors": ["tree/avl/tree.go: Put, Get, Set, Remove", "set/treeset/tree.go", "tree/avls/tree.go: Put, Get, Set, Remove", "queue/priority/tree.go: Put, Get, Remove", "tree/indextree/tree.go: Put, Remove, RemoveRange, Trim, Split", "tree/treelist/tree.go: Put, Remove, RemoveRange, Trim", "tree/heap/heap.go: Put, Pop", "tree/skiplist/skiplist.go: Put, Remove, RemoveTail, RemoveRangeByIndex, Trim, PutDuplicate", "utils.go: TryPanic"]}
{"id": "C108", "title": "Trees made by NewEx with any threshold", "statement": "NewEx of tree/avl, set/treeset and tree/avls takes any threshold for the difference of heights. Whatever it is, the tree answers every history of calls as an ideal sorted map (avl, treeset) or stable multimap (avls) and never panics; the threshold only changes the shape.", "quantifier": "all thresholds of type int8, all lawful comparators, all histories", "why_tests_cant": "With a threshold other than the default the recorded heights become wrong, and rotations are chosen by them; whether one of them meets a nil pointer depends on the whole history. Tests use the default or one other threshold.", "anchors": ["set/treeset/tree.go: NewEx", "tree/avls/tree.go: NewEx", "tree/avl/tree.go: NewEx", "set/treeset/tree_hide.go: rebalance", "set/treeset/node.go: updateHeightOneChild"]}
{"id": "C109", "title": "Bloom filter with Go values as keys", "statement": "Add and Contains of filter/bloom take a value of any Go type. A value of fixed size (bool, sized numbers, structs and arrays of them) or a slice of such values is found, after it was added, until the next Reset, and two different values of one such type are different keys (different bytes, big endian, without padding), except slices of empty structs. Any other value (int, string, structs with a slice) makes both calls panic before the filter is touched, in every state. With the hash of the package and 256 bits or more, keys of one byte (bool, int8, uint8) have no false positives: the filter is an exact set.", "quantifier": "all types and values, all histories that mix Add, AddBytes, Contains, ContainsBytes, Reset and refused keys, all capacities from 1 to 2^64-8 (see C15 for the others), all hashes (for exactness the FNV-1 of the package)", "why_tests_cant": "Tests add a few values of a few types. That values of nested types never share their bytes, and that no two of the keys with the same prefix share a bit for any capacity, quantifies over all types, values and capacities.", "anchors": ["filter/bloom/bloom.go: Add", "filter/bloom/bloom.go: Contains", "filter/bloom/bloom.go: New"]}
{"id": "C110", "title": "Hash containers with NaN keys and keys that cannot be hashed", "statement": "map/hashmap, map/linkedhashmap and set/hashset take any value as key. A key that is not equal to itself (NaN, a struct with a NaN) makes a new entry at each insertion, which Size, Values and Slices count and which no Get, Contains, Set, Remove or Delete finds; only Clear takes it out. In the linked hash map it stays at its place in the order. All other keys are answered as if there were no NaNs. A key that cannot be hashed (a slice, a map, a function) makes the call panic in every state and changes nothing, except that Add and Remove of the hash set have then handled the items before it; later calls are answered right.", "quantifier": "all histories with any mixture of the three kinds of keys, all orders of iteration", "why_tests_cant": "Tests use keys that are equal to themselves. The interplay of the hash table and the linked list for entries that cannot be found again has to be followed through every history.", "anchors": ["map/hashmap/hashmap.go", "map/linkedhashmap/linked_hashmap.go", "set/hashset/hashset.go"]}
{"id": "C111", "title": "HitRatio of the bloom filter", "statement": "HitRatio of a filter made by New with at least one bit is always a number from 0 to 1. It is 0 exactly when no bit is set, and in a filter of at most 2^53 bits it is 1 exactly when all bits are set. No call other than Reset makes it smaller. A filter of no bits has the ratio NaN. HitSize is the number of keys that Contains finds among any family with one key for each bit, so for a hash that spreads evenly HitRatio is the rate of false positives.", "quantifier": "all histories, capacities and hashes, all roundings to float64 that are monotone and keep floats", "why_tests_cant": "Two conversions and a division are rounded; that the result never leaves the range or reaches an end of it too early holds for all pairs of counts and capacities, too many to try.", "anchors": ["filter/bloom/bloom.go: HitRatio", "filter/bloom/bloom.go: HitSize"]}
{"id": "C112", "title": "Reset empties every bloom filter", "statement": "After Reset, and whatever calls other than Add follow, HitSize of a bloom filter is 0 and Contains is false for every key, however the filter was made (New with any capacity, NewByDecode).", "quantifier": "all hashes, all capacities, all histories before and after, all keys", "why_tests_cant": "Tests reset a few filters made by New. The claim is about all filters, histories and keys, and filters without bits take another path.", "anchors": ["filter/bloom/bloom.go: Reset", "filter/bloom/bloom.go: New", "filter/bloom/bloom.go: NewByDecode"]}
