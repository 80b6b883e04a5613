# Formal model of 474420502/structure

## Layout

* `properties.jsonl`: the properties, stated on the public API.
* `lean/Verif/<Package>/*Model.lean` (`Graph/Text.lean` for the text functions of astar): the model of one Go
  package, function by function. Every definition cites the file and lines it models.
* `lean/Verif/<Package>/*Props.lean`: the property theorems (named `Cxx_...`) with an `example` beside them that
  shows their hypotheses to be met. Specifications are small and apart from the model: ideal lists, maps and
  sets, the predicates of `Graph/Spec.lean` and `Graph/TextSpec.lean`, `Linearizable` in `Conc/Machine.lean`.
* The other modules hold helper lemmas. `lean/Verif/Common/*`: comparator laws, histories, Go maps, doubly linked
  lists.
* `MANIFEST.json`: property -> theorem names and what is missing. `seeded/LOG.jsonl`: seeded-bug experiments.
  Reading the log: `failed` names the first declarations that no longer compile. In most entries these
  are helper lemmas, and the modules after them were not reached. Such an entry shows that the proof depends on the
  edited line, not by itself that the property is false for the edited program. So the edited definitions of these
  entries were also run, on pseudo-random legal histories, beside the unedited ones: `[run: n of m legal histories
  answer differently]` in `breaks`. Edits that change no answer are marked `none: ...`.

## Trusted base

* Lean 4.33.0 kernel. Every theorem depends on at most `propext`, `Classical.choice`, `Quot.sound`.
  No own axioms, no `sorry`, no `native_decide`, no `bv_decide`.
* The transcription from Go to Lean, made by reading. The Go code was not run.
* Go built-ins and the standard library are modelled, not verified: `map` is a finite association with
  unspecified iteration order (for C110 also with its rule that a key not equal to itself is never found, and its
  panic for keys that cannot be hashed), `copy`/`append`/`make` act on lists, `sync.RWMutex.Lock` gives mutual exclusion
  and is not re-entrant, `encoding/binary.Read` into a slice reads exactly `len(slice)` elements, `fnv` is an
  arbitrary function (FNV-1 in `C109_last_byte` and `C109_one_byte_exact`), rounding to float64 is monotone and keeps floats (C111), `encoding/binary.Write` writes the values of
  the types in Bloom/Value big endian without padding and refuses all others before it writes, `bufio.Reader.ReadLine` cuts lines at its 4096 byte buffer, the class `\s` of `regexp` is
  `\t \n \f \r` and blank, `sort.Sort` sorts; `%v` of `fmt` gives an arbitrary text for an element, and for a slice
  the texts of the elements in brackets with blanks between them.
* Memory is sequentially consistent in `Conc/*`; the work under a lock may be cut into atomic accesses in any
  way.

## Modelling conventions

* Go `int`, `int64`, `uint` used as sizes or indices are `Int`/`Nat`; overflow at 2^63 is out of
  scope, except where stated (8-bit height field, `uint` wrap-around of array-list indices and
  iterator cursors, `abs` of astar).
* A panic (nil dereference, index out of range, explicit panic), a refused allocation or a loop that does not
  end is an explicit result (`Option`), never a default value. Exception: the `make` of the bloom filter's `New` is assumed to
  succeed, although Go refuses slices larger than its address space.
* A comparator is a function `K -> K -> Int`, as in Go. Theorems assume only that the sign-decoded
  comparator is a total preorder (`Std.TransCmp`). Two conventions exist in the code: the usual sign, and the
  one of avl, avls, treeset and priority, where the answer is an index of a child.
* Singly owned pointer structures (trees) are inductive trees. Parent pointers of a tree are then
  implied by the structure and are not modelled separately. Where a structure keeps a second set of
  pointers (threads of `treelist`, skip-list towers, doubly linked lists), these are modelled as
  pointer maps over node identities, and agreement is proved as an invariant.
* Loops are structural or well-founded recursion; no fuel unless adequacy of the fuel is proved or stated.

## What is modelled

| Package | Modules | Not modelled |
|---|---|---|
| `compare` | Compare/* | `Time` beyond its order |
| `stack/array`, `stack/list`, `stack/listarray` | Stack, Print | |
| `queue/list`, `queue/linkedarray`, `queue/priority` | Queue/* (priority with pointers: Queue/PriorityHeap*) | `String`, debug_utils.go, tree_old.go (commented out), the part of tree_hide.go that no exported function calls |
| `tree/heap` | Heap/* | debug functions |
| `map/hashmap`, `map/linkedhashmap`, `map/orderedmap.go`, `set/hashset` | Map/*, Print | `String` of hashmap (`fmt` of a Go map) |
| `filter/bloom` with keys of any type (`binary.Write` on bools, sized numbers, structs, arrays, slices) | Bloom, Bloom/Value, Bloom/Ratio | the hash itself (arbitrary function, FNV-1 where a theorem says so), pointers and blank fields in keys |
| `list/array_list`, `list/linked_list` | List/*, Print | |
| `tree/avl`, `tree/avls`, `set/treeset` | Tree/Avl* (with pointers: Tree/AvlHeap*), Tree/Avls* (with pointers: Tree/AvlsHeap*), Tree/TreeSet*, Print | `String` of nodes, pictures for debugging, counters of rotations, bench_stats.go |
| `tree/indextree`, `tree/treelist` | Print (`String`), Tree/Size*, Tree/Index* (with pointers: Tree/IndexHeap*), Tree/TreeList* (with pointers: Tree/ListHeap*) | other debug functions, the long picture for `IsDebugString = true`, bad_code.go and unused_code.go (not called) |
| `tree/indextree/experiment` | Tree/Exper* | counters |
| `tree/skiplist` | Skip/*, Conc/* | `String` (a constant); callbacks that call `RemoveHead` of their list, or another list |
| `graph/astar` | Graph/* | the interfaces' implementations by a user are arbitrary functions that write only `Cost` or `Weight` |
| `utils.go` | Utils | `Expect` |

## Proof per property

| Id | Model | Proof |
|---|---|---|
| C01-C03 | comparators as functions on `Int` / `List Nat` | direct laws; lexicographic order by induction; for `ArrayAnyEx` the negation by a concrete cycle, and a concrete lost key |
| C04-C05 | stacks: slice, linked nodes, segments with cache | refinement to `List` by invariant, every step preserves it |
| C06-C08 | linked queue as pointer map; circular buffer as array+start+end+size | representation invariant, abstraction `List`, simulation |
| C09-C10 | heap array with sift loops | heap invariant with hole, permutation lemmas, induction on histories |
| C11-C12 | Go map as association list, iteration order as an arbitrary permutation | refinement to a function-valued map |
| C13-C14 | sentinel linked list pointer map + hash map | invariant that list and map agree; refinement to an ordered association list |
| C15-C17 | bit array, arbitrary hash | invariant over histories; negation for decode |
| C18-C21 | buffer with head/tail indices | invariant, refinement to `List` |
| C22-C24 | doubly linked pointer map with sentinels | chain predicate, refinement to `List` with cursor |
| C25-C29 | AVL tree with recorded heights, iterator with bounded stack | in-order list refinement, height/balance invariants, zipper invariant for iterators; for the panic with threshold 1 (Tree/AvlDeep) an induction on the height that makes deep shapes by calls on the left end, then rational keys for the shapes, then an order-preserving change of the finitely many keys used |
| C30-C32 | the same for the duplicate-key tree | same, spec is a stable sorted list |
| C33-C36 | the same for the set | same plus Fibonacci lower bound for heights |
| C37-C43 | size-balanced tree | in-order list refinement + exact size counters |
| C44-C50 | size-balanced tree with node identities and thread pointer map | in-order refinement + thread invariant |
| C51-C54 | size-balanced duplicate-key tree | in-order refinement; negations for iterator/seek/RemoveIndex defects |
| C55-C58 | towers as pointer map `node -> level -> next`, random level as a parameter | chain-per-level invariant |
| C59-C61 | state machine over lock steps of any number of goroutines | mutual exclusion invariant, linearization by induction over executions; absence of deadlock by lock ranks, termination by well-founded induction over the programs of all calls; `RemoveHead` by the stages of its code and the effect of the other calls on the list in between; negations by concrete schedules |
| C62-C66 | grid, tiles as functions, open heap as in C09 | exploration invariant, termination measure, path validity; negations by concrete grids |
| C67-C68 | recover/type assertion semantics; random numbers as a parameter | case analysis; negation |
| C69 | as C59 | linearizability of Intersection and UnionSets; a schedule against DifferenceSets |
| C70-C75 | texts as lists of bytes, lines as `bufio` gives them | position of every byte; parse of a print by induction over lines; negations by concrete texts |
| C76-C79 | size-balanced tree with recorded heights and sizes; breadth-first walk | simulation of the tree of C37, height invariant; negations in general by the sign of the comparator |
| C80 | AVL tree of C25 with the comparator read the other way | reduction to C25; negations in general |
| C81 | as C55 | what a call does to nodes that are or were in the list; invariant over all nodes that have been in the list since the iteration began |
| C82 | as C44 | nodes keep their entry under calls that insert; simulation of a list with a key as cursor; negations by concrete runs |
| C83 | search loops with a count | erasure to the model, count at most the height, height from the balance; negation by a concrete history |
| C84 | text as a list of bytes | induction over the calls of `ReadLine` |
| C85 | loops of a caller over the iterator calls | induction over the elements not looked at |
| C86 | as C59, calls with a callback that makes a call | invariant: a call waits for the lock that it holds |
| C87 | AVL tree as cells in a memory, one update per assignment to a field | simulation of the tree of C25 by a predicate that a part of the memory holds a tree, with the addresses used and kept |
| C88 | C87 with an iterator that holds addresses, calls of both in any order | simulation of the iterator of C28 on the tree in the memory; calls that keep the nodes write at most one entry; negations by concrete runs |
| C89 | index trees as cells in a memory with parents, several trees, one update per assignment | simulation of the tree of C37 by a predicate that a part of the memory holds a tree below a node; walks to the root by a zipper; frames for the other trees |
| C90 | C89 with an iterator that holds addresses, calls of both in any order | simulation of the iterator of C42 on the tree in the memory; calls that keep the nodes write at most one entry; negations by concrete runs |
| C91 | the calls of C62 to C66 in any order | invariant: the graph is the map of a user, with marks between a search and Clear; refinement over histories; negations by concrete runs |
| C92 | tree lists as cells in a memory with parents and links, several lists, set operations that build a further list | simulation of the list of C44; the tree part is that of C89 on the memory whose values carry the addresses; the links agree with those of C45 outside the node `root`; frames for the other lists |
| C93 | priority queues as cells in a memory, one update per assignment, `Size` in the cells | simulation of the tree of C51 by the predicate of C87 that a part of the memory holds a tree; panics keep the memory as it was when they came |
| C94 | C93 with an iterator that holds addresses, calls of both in any order | simulation of the iterator of C54 on the tree in the memory; negations by concrete runs |
| C95 | trees of avls as cells in a memory, with the rotations of C87 | simulation of the tree of C30 by the predicate of C87; a failed search writes nothing |
| C96 | C95 with an iterator that holds addresses, calls of both in any order | simulation of the iterator of C32 on the tree in the memory, with the lemmas of C88; negations by concrete runs |
| C97 | the elements of the histories of C04, C05, C14, C18, C22 and the others, as a list of texts | the models of `String` on the states of those claims; injectivity of concatenation with a separator |
| C98 | a list of lines; the tree without sizes and values | `output` is a list of lines with (bars, mark, key); bars and marks are prefix-free, the numbers of bars determine the tree |
| C99 | two calls of C59 about to access one list | the invariant of C59 (locks held, locked programs); negations by concrete schedules |
| C100 | the list of C92, with pointers to entries that a program keeps, reads and writes | entries stay on their nodes (C82) carried to the memory; a write is what `Set` does on a key that is found; negation by concrete runs |
| C101 | the iterator of C28 (same code) on the tree of C80 | reduction to C28 for the calls that do not compare; induction on the search loop for the negation |
| C102 | the models of C05, C07, C09 and C18, with the cells passed to `make` in each call | method of potentials (`Common/Amort`): three per cell and fifteen per element over two thirds for the arrays that double and shrink by a quarter, ten per element of the top segment for the stack; the leak of C18 with its number of rounds for the array list |
| C103 | comparisons of floats by their place in a linear order, none for NaN (Compare/Float); the models of the containers | the order induced by the places; induction on histories for the negation |
| C104 | the pointer programs of tree/avl and set/treeset, Traverse with a callback that is a program of calls (Common/Callback, Tree/AvlCallback) | calls that add and remove nothing move no pointer; the recursion is a walk over the addresses; refinement of the ideal walk over a list |
| C105 | Traverse of the array list, linked list and circular queue with a callback that is a program of calls (List/Callback), cut after any number of rounds | refinement of ideal walks by index and from element to element, induction over the rounds |
| C106 | the pointer programs of tree/indextree, tree/avls, tree/treelist and queue/priority, Traverse as one recursion over the pointers of any such program, with a callback that is a program of calls (Tree/TraverseWith, TraverseWithTrees) | calls that add and remove nothing keep the shape of pointers; the recursion along a fixed shape is a walk over its addresses; refinement of the ideal walk over a list |
| C107 | the pointer programs once more, with a comparator that may stop them at every comparison (Common/Stop, Tree/AvlStop, Tree/IndexStop, Tree/ListStop, Heap/Stop, Skip/Stop) | each search either is the one without panics or stops in the memory it started with; a history with panics is the history of the calls that survived; for the heap an invariant of all states reached with panics |
| C108 | AvlModel and AvlsModel with any threshold (Tree/Threshold) | each recorded height is positive and at most the nodes below it plus the removals so far, which is enough that rotations meet no nil pointer and `int8` does not overflow; answers from the refinement that needs no heights |
| C109 | Bloom/Value: types, `sizeof`, `encoder.value`, then the Bloom model | bytes of a fixed type have constant length, so concatenations split uniquely (induction on the type); refinement as for C15; FNV-1 ends with xor of the last byte, so the sums of keys with one prefix are a block of 256 consecutive numbers |
| C110 | Map/NanModel: the Go map with keys not equal to themselves or not hashable, then the three containers as for C11 to C14 | each call with a NaN gets a key of its own (a number); simulation by the models of C11, C12 and C14 with numbered keys, lifted to histories and orders of iteration; entries with NaNs followed through the calls |
| C111 | Bloom/Ratio: `HitRatio` with a rounding of which only monotonicity and some fixed points are known | monotone functions between the fixed points 0, 2^-64, 1 - 2^-53 and 1; number of hits from C17 |
| C112 | Bloom model with a caller that recovers from panics (Bloom/Empty) | refinement of C15 for filters with bits; constant state for filters without bits; negation for decode |
| C25, C27-C29, C87, C101, C107 | Tree/AvlShallow, Tree/ShallowMore: maps of any size whose `Height()` is at most 126 before each call | the invariant of C25 with a guard on the height instead of the number of entries. C28, C29 and C87 are partial: for the default threshold a map of 127 entries or more may be higher |

## Defects of the code that are proved

Each is a theorem; MANIFEST.json names it. The property then has a `_partial` theorem for what holds.

* compare: `ArrayAnyEx` is not transitive, a map with it loses keys (C03).
* set/treeset: `s.Difference(s)` does not empty the set, and Traverse of tree/avl and set/treeset misses entries when its callback adds or removes (C104).
* Traverse with a callback that changes the container: queue/linkedarray skips elements and shows stale cells when the callback appends to a queue that starts inside its array; list/array_list skips the element after a removed one; list/linked_list panics when the callback removes the current element with an iterator (C105).
* Traverse of tree/indextree, tree/avls, tree/treelist and queue/priority misses entries when its callback adds or removes (C106).
* A panic of the comparator during RemoveRange, Trim or Split (tree/indextree, tree/treelist) or during Put or Pop (tree/heap) leaves the container damaged; one during RemoveRangeByIndex or Trim of tree/skiplist leaves the work half done (C107).
* tree/avl with its default threshold 1 is not balanced: some history makes it as deep as the square root of twice its size, and at 8257 entries a recorded height (`int8`) overflows and Put panics (C25_map_panics, C83_avl_default_deep). The history that overflows is found by induction and is too long to be run; those that make small trees deep are not (the same construction needs some 16000 calls for 16 levels).
* NewEx of tree/avl, set/treeset and tree/avls accepts thresholds below 1, with which Put or Remove panics; with thresholds other than the default the heights of treeset and avls are wrong and iterators can panic (C108, C31, C32).
* compare: NaN counts as equal to every float; as first key it keeps all others out of a map (C103).
* linkedarray: a negative `Index` is not rejected (C08).
* bloom: decoding drops the bits (C16); `Reset` of a decoded filter leaves `HitSize` (C112); for capacity 0 and the seven greatest capacities `New` wraps around to no bits and every `Add` panics, so C15 is partial (`C15_wraps`; `make` is assumed to succeed for the others); `Add` and `Contains` panic for int and string keys, and values of different types can be the same key (C109).
* array list: a list of at most 18 elements can exhaust any memory (C18), in 805 calls (C102); an out-of-range `Set` is not always
  reported (C19); circular removal at the ends leaves the cursor outside (C21);
  a loop that removes the last element through its iterator looks at the one before it again (C85).
* both lists: `Contains` counts elements with compare result -1 (C20). Linked list: an insertion of no values
  panics (C23).
* avl: with the default threshold 1 siblings differ by 2 after nine calls, and after 27 insertions without a removal (C27). avls: heights are wrong for
  thresholds 1, 3, 4 and an iterator panics with threshold 4 (C31, C32).
* avl and treeset: an iterator in use while entries are added or removed misses, repeats or shows removed entries, or
  panics (C88); the same for index trees, where `Index` is wrong too (C90), for priority
  queues (C94), and for avls (C96).
* indextree: `Set` on an empty tree answers true (C37); `RemoveRange` and `Trim` take the raw number of a
  comparator as an index (C39, C40); an out-of-range `TrimByIndex` corrupts the tree (C40); `Split` of an
  empty tree is nil (C41); `SeekGT` is right only for a key above all others, `SeekLT` can go to an entry
  that is not less or panic, `Index` is wrong after `SeekGE`, walking after `SeekByIndex` is wrong, and 1973 calls make a tree of 179 entries too deep for an iterator (C42, C83). Ordered
  map: nil values count as absent (C43).
* indextree/experiment: `Get` never finds a key that was put, and may return the value of a smaller key; `Remove`
  takes out another entry; with the other convention `Put` inserts twice or refuses (C78, C80); seeks of the iterator
  take a smaller key for the key (C101); `Height` overflows
  (C77).
* treelist: the table of heights is too short after 1779 calls (C44); `Trim` to an empty range leaves the old
  thread, `TrimByIndex` may corrupt (C47); seeks and ranges on the empty list panic (C49, C50);
  removing the current key while iterating passes over the next one, removing another key may show a key twice (C82);
  after a removal pointers to entries may show and change other entries, or entries no longer in the list (C100).
* priority: `RemoveIndex` ignores negative indices and may count sizes down (C51, C53, C93); seven entries can make a
  scan panic, `SeekGT` stops inside a run of equal keys (C54).
* skip list: `Index` of the iterator is wrong after most seeks (C57); `TrimByIndex` out of range keeps all (C58);
  `RemoveHead` panics if the list is emptied during the call, and can return nothing while it is never empty (C60); opposite orders of two lists, and
  one list with itself, block for ever (C61); `DifferenceSets` is not atomic (C69);
  a callback that calls its list blocks the list for ever (C86); methods without locks have data races (C99).
* astar: paths are not shortest (C64); multi paths have the end twice (C65); `Clear` does not restore the tile when
  start and end are the same, nor tiles with the attribute of a path, nor the old targets after `SetTarget` (C66);
  rows of more than 4096 tiles are cut (C71); `GetPath` panics or is stale after a failed search (C74); a blank line makes `SetStringTiles` panic (C75).
* utils: `TryPanic` itself panics when nothing panicked (C67); `Rangdom` is longer than asked (C68).
