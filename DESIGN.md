# Design: a Lean model of the tpp hash tables and what is proved about it

Source: `/repo` (switch-blade-stuff/tpp), read as text.  Lean project: `/verif/lean`.
Property list: `properties.jsonl` (C01..).  Status and theorem names per property: `MANIFEST.json`.
Tests of the theorems against wrong programs: `seeded/LOG.jsonl`.

## 1. Trusted base

* Lean 4.33.0's kernel.  Theorems depend only on `propext`, `Classical.choice`, `Quot.sound` (section 7 lists this per theorem).  No axiom is added;
  there is no `sorry`, `native_decide`, `bv_decide`, `implemented_by` or `unsafe`.
* The reading of the C++ text into the model.  Nothing mechanical ties the Lean definitions to the C++ text; every definition cites the file
  and lines it models and says where it simplifies.
* The statements of the theorems and of the specifications they refer to: `Verif/Spec.lean`, `Verif/Dense/Spec.lean`,
  `Verif/Ordered/DenseSpec.lean`, `Verif/Ordered/SwissSpec.lean`, `Verif/Props/*`.  The specifications do not refer to the model.

### Modelled

| code | model |
|---|---|
| swiss_table.hpp 38-338 control bytes, block matching (SSE2, SSSE3, NEON, portable), bit scans | `Verif/Bits.lean` on bit vectors |
| swiss_table.hpp 340-452 iterators (unordered and ordered) | `Swiss/Model.lean`, `Ordered/Swiss.lean` |
| swiss_table.hpp 454-742 buffers, both layouts, allocation failure | `Swiss/Buffer.lean` |
| swiss_table.hpp 744-835 probing, hash split, capacity arithmetic | `Capacity.lean`, `Swiss/Model.lean` |
| swiss_table.hpp 836-1548 `swiss_table` | `Swiss/Model.lean`, `Swiss/Multi.lean`, `Ordered/Swiss.lean` |
| dense_table.hpp 25-212 nodes, chains, iterators | `Dense/Model.lean` |
| dense_table.hpp 213-920 `dense_table` with any number of key components | `Dense/Model.lean`, `Dense/Faults.lean`, `Ordered/Dense.lean` |
| table_common.hpp 103-181 `ordered_link`, 228-298 what nodes do with it, 517-581 ordered iterators | `Ordered/Link.lean`, `Ordered/Ring.lean` |
| table_common.hpp 307-502 `stable_node`: address of the element | `Swiss/Stable.lean` (payload = address and value) |
| utility.hpp 232-248 `realloc_buffer` | `Dense/Model.lean`, `Dense/Faults.lean`, `Ordered/Dense.lean` |
| container wrappers (sparse_*, stable_*, dense_*): `at`, `operator[]`, `erase_if`, `operator==`, range insertion and assignment | with the table they wrap |

### Not modelled, so trusted or out of scope

* The C++ type system, overload resolution, templates that do not compile (section 5).
* `std::hash`, `std::equal_to`: the hash is an arbitrary function `K -> Nat`, key equality is equality of Lean values. Arbitrary
  equivalences the hash respects, and keys of other types (transparent lookup), are treated in C83 for the unordered containers.  A comparator or hash that throws is modelled in C71 and C84.
* 64-bit wrap-around of sizes: sizes are natural numbers.  `Props/Bits.lean` has the 64-bit versions of the capacity arithmetic (C33);
  `Swiss/Words.lean` has the probing and control byte functions of swiss tables in 64-bit words, proved equal to the model's (C80).
* Floating point of `max_load_factor`: the comparisons that use it are arbitrary functions for the functional properties (so every rounding is
  covered) and exact ratios for C50 and C75.  `F32.lean` models the binary32 arithmetic itself (C81); overflow to infinity and NaN are not modelled.
* Concurrency (the library has none); value categories (a moved-from value is treated as destroyed or overwritten, as the code does next).
* `std::is_permutation`: taken by its standard specification.
* The links of destroyed nodes in an array that is still allocated are readable in the ordered model.  The code reads such links in
  `erase(first, last)` and `merge`, which the standard calls undefined; the theorems about these two (C57, C60) are up to this.
* Allocations of 0 nodes are allocations of nothing at the address 0 in the ordered model.

### Outcomes

All model functions return `Except Fault _`.  `Fault` distinguishes out-of-range accesses of control bytes and nodes, reads of dead elements,
construction over a live element, destruction of a dead element, freeing storage with a live element (leak), failed assertions (`TPP_ASSERT` is an
assumption in release builds), null and dangling pointers, deallocation with a wrong size, `ctz(0)`, wrap-around of counters and non-termination.
`Fault.rawSwap` is instrumentation: the *strict* variant of the ordered swiss model stops where the code exchanges the links of two nodes (B16).
`SwissStrict.lean` proves that the strict variant otherwise does what the code does.

## 2. Model layout (`lean/Verif`)

| modules | contents |
|---|---|
| `Basic`, `Count` | outcomes; counting over `0..n-1` |
| `Spec` | finite maps as association lists, histories of calls and their answers |
| `F32` | binary32 rounding |
| `Swiss.Words` | 64-bit words instead of natural numbers |
| `Bits`, `Capacity` | see above; the block width (16 or 8 bytes) is the parameter `Isa` everywhere |
| `Swiss.Model`, `.Multi`, `.Buffer`, `.Stable` | the model of swiss tables |
| `Swiss.Probe`, `.Meta`, `.Inv`, `.Rehash`, `.Ops`, `.Map`, `.MultiSpec`, `.Bulk`, `.Hist`, `.Grow`, `.Log`, `.Move` | invariant and its preservation, refinement to the map |
| `Dense.Model`, `.Faults` | the model of dense tables |
| `Dense.Spec`, `.Chain`, `.Inv`, `.Ops`, `.Erase`, `.Copy`, `.Hist` | specification, invariant, refinement to lists with append and swap-remove |
| `Ordered.Link`, `.Dense`, `.Swiss` | links in a memory; ordered tables = table + links |
| `Ordered.Ring`, `.Chain`, `.Dense*`, `.Swiss*` | rings, their preservation, worlds of several containers in one memory |
| `Props.*` | the property theorems, each with non-trivial `example`s beside it |

### Swiss tables
State: bucket count `cap`, control bytes (`cap + W` of them: slots, sentinel at `cap`, clones of the first `W-1`), nodes (`none` = raw or destroyed
storage), `size`, `numEmpty`, and a ghost log of relocations.  Invariant: cap = 0 or 2^k-1; sentinel; tail byte `cap+1+i` equals byte `i` (for
`i < cap`; else empty); a slot is occupied iff its node is alive, and its tag is the low 7 bits of the node's stored hash, which is the key's hash;
keys are distinct; the budget of empty slots (unless the container has been moved from); and the *probe invariant*: for each occupied slot some probe
step reaches its block and all blocks of earlier steps contain no empty byte.  `find` is then correct because the probe covers all blocks (triangular
numbers are a bijection mod 2^m) and because an empty byte exists.
`Ends isa x P` says that `x` ends normally with `P`, or, with 8-byte blocks only, in `ctz(0)` (B7); for 16-byte blocks it is total correctness.

### Dense tables
State: bucket heads `bucket -> component -> Option index`, node array with value, per-component hash and next index, size, capacities.  Invariant:
for each bucket and component the chain from the head visits exactly the indices whose hash falls in the bucket, each once.  Refinement to a
list with append and swap-remove.

### Ordered containers
Memory: which addresses hold a link, and address -> (next offset, prev offset) as integers.  An allocator is any function that returns storage not
in use (`Alloc.Sound`); fresh storage has arbitrary contents.  `Ring m header [a1..an]` says the offsets form a doubly linked ring.  Ordered tables
are the unordered table, a header address and an array address; relocations in the swiss table are replayed from the ghost log, whose truth
`Swiss/Log.lean` proves.  Worlds: any number of containers in one memory, any program of operations on them, footprints pairwise disjoint.

### Reachability
`Reachable isa hash t` (swiss), `Reachable hash t` (dense), `Reached … w s` (ordered): the container is the result of a program from construction
through any operations, including copies, moves, swaps and merges with other reachable containers, where the property list does not say that the
operation itself is broken (the guards are decidable conditions on the program and the specification, listed at the definitions).

## 3. Per property

* **C01** (proved) sparse/stable lookup agrees with an abstract map over any history. Swiss refinement to a map: `Inv` is preserved by each operation, contents change as the map does; induction over histories. For 16-byte blocks every history agrees; for 8-byte blocks every history that does not iterate agrees, and any other history agrees or stops with ctz(0), the defect of C32.
* **C02** (proved) sparse/stable operations have no out-of-bounds access, no failing probe assertion and always terminate. The same theorem gives an outcome that is not a `Fault`; fuel suffices because the probe covers the table. Model faults: out-of-range access, read of a dead element, construction over a live one, failed assertion, exhausted fuel (non-termination). For 8-byte blocks ctz(0) is the only possible fault (C32).
* **C03** (proved) no duplicate keys (sparse/stable). Distinctness is part of `Inv`, stated on the iterated list.
* **C04** (proved) size() equals the number of elements (sparse/stable). As C03.
* **C05** (proved) forward iteration visits each element exactly once (sparse/stable). Iterator model (block skipping with `count_available`) yields the occupied slots in slot order. With 8-byte blocks the walk may instead stop with ctz(0), see C32.
* **C06** (proved) insert / try_emplace report and effect (sparse/stable). Insertion against the map plus designation of the returned position.
* **C07** (proved) insert_or_assign overwrites only the mapped value of its key (sparse/stable). As C06 for `insert_or_assign`.
* **C08** (proved) erase removes exactly one element and returns the position from which iteration continues (sparse/stable, unordered). The iterator computed after the erasure starts at the rest of the former list. With 8-byte blocks advancing the iterator may stop with ctz(0), see C32.
* **C09** (proved) clear empties the container and leaves it usable. `clear` re-establishes the invariant with the empty map; later histories by `Behaves`.
* **C10** (proved) growth and rehash preserve contents. `do_rehash` preserves contents: fold over the slots with an invariant on both tables.
* **C11** (partial) rehash(0) is safe. B1. Exact: defined if and only if there is at most one element; otherwise the second relocation constructs over a live element or out of range. False in the code for every container with two or more elements (C11_rehash_zero_false_all: the relocation into the single bucket fails); C11_rehash_zero_iff gives the exact condition. Proved for containers with at most one element.
* **C12** (partial) reserve(n) prevents reallocation up to n elements. B21. Budget bookkeeping: no relocation is logged during n insertions after reserve. The guard is exact: every unsettled container violates the claim. False for moved-from containers, whose free budget is stale (witness in C12_reserve_false; C12_reserve_false_all: for every such container). Proved for every container whose budget is settled.
* **C13** (proved) bucket count and load invariant. Parts of `Inv` and arithmetic of the 7/8 rule.
* **C14** (proved) in-place reclaiming of erased slots preserves contents (unordered). Invariant of the displacement loop of `rehash_deleted`: placed, pending and erased slots; measure for termination.
* **C15** (proved) memory does not grow under churn. The growth decision of `prepare` doubles only if more than 25/32 of the capacity is live; induction over histories.
* **C16** (partial) copies of a sparse/stable container are equal to the original. B2. `C16_copy_iff` needs no assumption on the source; `Weak` is the invariant of a copy (all but reachability of elements). False for sources with erased slots (witness in C16_copy_false). Proved exactly, for all sources: the copy shows all elements in iteration and size, every lookup is right or fails, and it behaves as the source if and only if the source is Connected (no element's probe path needs an erased slot), which holds in particular without erased slots.
* **C17** (partial) copy assignment of a sparse/stable container. B2, B3, B4, B38. `C17_copy_assign_iff` needs no assumption on the elements of source and target. False in four ways, each with a witness, the empty source into a non-empty target for all such pairs. Proved exactly for all sources with elements or propagated allocators (Shows; equivalent to Connected if the target has no larger bucket count).
* **C18** (proved) move construction and move assignment of sparse/stable containers. Buffers change hands; the source gets the destination's (cleared) buffer or none.
* **C19** (proved) swap of unordered sparse/stable containers. Exchange of all members.
* **C20** (proved) merge transfers exactly the missing keys (unordered stable). Fold of `transfer` over the source's slots; two hash functions. With 8-byte blocks the iteration over the source may stop with ctz(0), see C32.
* **C21** (proved) extract / insert node round trip (stable). Extraction and insertion of nodes against the map. As C20 for the iterator that extract computes.
* **C22** (proved) reference stability of stable containers. Payload = (address, value), addresses chosen by anyone; histories keep the address part. Addresses are part of the payload; the allocator may return any address. With 8-byte blocks histories may stop with ctz(0), see C32.
* **C23** (proved) operator== is equality of contents. Permutation of the iterated lists iff equal lookup in both.
* **C24** (proved) at() throws exactly when the key is absent; operator[] inserts exactly then. On the find / try_emplace model.
* **C25** (partial) range / initializer-list construction of sparse/stable containers. B5. Exact: defined if and only if the effective count is 2^k-1; otherwise the assertion (an assumption in release builds) fails. False for all lengths that are not a power of two minus one (C25_range_ctor_false_all, C25_range_ctor_iff). Proved for the others.
* **C26** (partial) construction with an explicit bucket count. B5. Exact, as C25. False for all bucket counts that are not a power of two minus one (C26_bucket_count_ctor_false_all, C26_bucket_count_ctor_iff). Proved for the others.
* **C27** (proved) erase_if on unordered sparse/stable containers. Loop over slots with a counter; C08 for the step. With 8-byte blocks the walk may stop with ctz(0), see C32.
* **C28** (proved) element constructor throwing during insertion (sparse/stable). Throw point between `prepare` and `commit`.
* **C29** (proved) allocation failure during growth (sparse/stable). Allocation heap with block sizes, each allocation may fail (`Swiss/Buffer.lean`); container level by model of the failing growth. Buffer level (both layouts, every allocation point, allocation heap with sizes) and container level for insert, insert_or_assign, reserve and rehash(n>0).
* **C30** (proved) block matching instructions compute the bytewise answer. Lane by lane on bit vectors; `C30_table` connects blocks of the table model with words. SSE2, SSSE3, NEON and portable routines on bit vectors; C30_table connects them to every block a reachable container reads. NEON and portable counts are undefined where C32 says so.
* **C31** (partial) portable and MSVC bit scans agree with the hardware ones. B6. Exact value computed by the loops, and that it differs. False: the generic scans are one too large, and so is the MSVC clz (witness); every other input is off by exactly one, which is what the partial theorem states. The builtin variants are right (ctz and clz are their specification).
* **C32** (partial) iteration with the 8-byte block variants. B7. Exact condition under which the scan is defined (if and only if). False: with 8-byte blocks iteration over any container with a free block evaluates ctz(0) (C32_iteration_false_all); C32_iteration_iff gives the exact condition. Proved for at most 7 buckets or when no window of 8 bytes is entirely free, and for 16-byte blocks always.
* **C33** (proved) capacity arithmetic. Natural-number arithmetic and its 64-bit version. 64-bit words for requests below 2^59; the natural-number functions for all requests.
* **C34** (proved) the probe sequence covers the table. Triangular numbers modulo a power of two.
* **C35** (partial) combined buffer layout. B8. Layout inequality; sizes along histories of buffer operations. Layout proved for all sizes. Deallocation sizes proved for every history of separate buffers; for the combined buffer false for buffer assignment (every non-empty buffer, C35_dealloc_false), proved for the other operations.
* **C36** (proved) dense lookup agrees with an abstract table over any history. Dense refinement; load-factor decisions are arbitrary functions. erase(key) is allowed in a history once the container has buckets (C41).
* **C37** (proved) dense iteration order is fully determined. The refinement is to the exact list.
* **C38** (proved) multi-key containers: every key component is unique and leads to the same element. Invariant per component, any number of components. Any number of key components; erase through the iterator of a container with several components is modelled as intended although it does not compile (B27).
* **C39** (proved) multi-key insertion rejects any conflict and changes nothing. As C38.
* **C40** (proved) multi-key erase removes the element from all indexes. As C38.
* **C41** (partial) erase(key) on a dense container without buckets. B9. Negation for every container without buckets. False for every container without buckets (C41_erase_false). Proved for the others.
* **C42** (proved) dense erase(iterator) continues the iteration. List equation of swap-remove.
* **C43** (partial) erase_if on unordered dense containers. B10. Exact outcome of the loop with the cached end. False whenever some element satisfies the predicate: the cached end iterator is passed and a destroyed element read. Proved when none does.
* **C44** (proved) dense range erase. Loop of C42.
* **C45** (partial) dense copy construction and copy assignment. B11. Witness family; proof otherwise. Copy construction proved. Copy assignment from an empty container into a non-empty one is false with every allocator that does not propagate on copy; proved otherwise.
* **C46** (proved) dense move and swap. As C18, C19; two theorems on the stale buckets left by other allocators (B29). Allocators that propagate on move, as std::allocator. Two additional theorems show that other allocators leave stale buckets in the source.
* **C47** (partial) element constructor throwing during a dense insertion. B12. Explicit throw point. False for every new element (C47_insert_throw_false) and always for emplace. Proved for insert of a present element, where nothing is constructed.
* **C48** (partial) allocation failure during a dense rehash. B13. Explicit throw point. False whenever buckets must grow from a non-zero count. Proved for containers without buckets and for the element array.
* **C49** (partial) inserting a reference to an element of the same container. B14. Argument as reference into the array. Proved for sparse and stable containers. False for every dense container whose element array is full; proved for the others.
* **C50** (partial) dense load factor. B15. Exact ratio; exact bound; violated for every bucket count that is not a multiple of 8. False for every bucket count that is not a multiple of 8 (C50_load_false_all; smallest witness 9 elements in 10 buckets); C50_load_iff: exactly when the new element does not fit below the limit. Proved: the bound that holds after every insertion, and that the claim is kept by insertions when the bucket count is a multiple of the denominator of the factor. The factor is an exact ratio here; C81 has the float arithmetic.
* **C51** (proved) ordered dense containers iterate in insertion order. Ring refinement to lists in insertion order; programs over several containers. Any number of containers in one memory, any addresses. erase(key) is allowed in a history once the container has buckets (C41); copies, moves and swaps as far as C45, C46 and C58 allow.
* **C52** (partial) ordered sparse/stable containers iterate in insertion order. B16. Witness by computation for both widths; otherwise as C51 on the strict variant. `C52_swiss_exchange_false` treats the exchange itself (swiss_table.hpp 1438) in every reached container: it never faults by itself, and afterwards iteration does not yield the sequence; where it ends, it shows one of the two elements in the place of the other. So the guard of the partial theorem (no exchange of linked nodes) cannot be weakened. False: reclaiming erased slots in place exchanges the relative links of two nodes (witness for both block widths; C52_swiss_exchange_false shows that every such exchange, in every container, makes iteration differ from the sequence). Proved: every program either comes to such an exchange or behaves as the list; no exchange happens without erasures, nor within reserved room.
* **C53** (partial) reverse iteration mirrors forward iteration (ordered). Ring property. Dense: proved for every reachable container. For sparse and stable containers: all containers reached without the exchange of linked nodes of C52.
* **C54** (partial) ordered erase returns the successor (sparse/stable). `unlink` and the successor read before. Removal, order and returned iterator for keys and iterators. For sparse and stable containers: all containers reached without the exchange of linked nodes of C52.
* **C55** (partial) ordered dense erase returns the successor. B17. Exact condition. False: if the next element is in the last slot of the array, the returned iterator designates a dead slot. Proved: in exactly all other cases it is right, and the removal itself always is.
* **C56** (partial) ordered erase_if. Swiss: loop over the ring. Dense: B17. Dense: false; proved that the loop ends and either reads an erased element or does what it should. Sparse and stable: as stated. For sparse and stable containers: all containers reached without the exchange of linked nodes of C52.
* **C57** (partial) ordered range erase. Swiss: loop backwards; empty range B32. Dense: B17. The loop of the dense containers steps back from the address of the element it has just erased. If this was in the last slot the stale link there still leads to the predecessor; otherwise the link is that of the element which was moved there, so the loop goes on with that element's predecessor. This gives the conditions of `C57_dense_range_two_partial`, `C57_dense_range_tail_partial` and `C57_dense_range_jump_false` (Props/OrderedExact.lean): for containers in storage order, and for ranges of two elements in all containers, they cover all cases. Dense: proved for one element, for two elements in exactly the cases in which it holds (the element in the last slot is the second one or directly behind it), and for ranges that reach the end or the last element of a container in storage order; refuted for all ranges of two elements and more if the element in the last slot is the first of the range, before it, or further behind it. Sparse and stable: the removal is right for all ranges, the result for ranges that are not empty (witness for empty ones). For sparse and stable containers: all containers reached without the exchange of linked nodes of C52. Links of destroyed nodes are taken to be readable.
* **C58** (partial) swap of ordered containers. B18. `C58_dense_swap_empty_false` and `C58_swiss_swap_empty_false` (Props/OrderedExact.lean) hold for all pairs of reached containers of which one is empty: the header of the first container then points to the header of the second one. False for all pairs of containers of which one is empty; proved for two containers that are not empty. For sparse and stable containers: all containers reached without the exchange of linked nodes of C52.
* **C59** (partial) copy and move preserve insertion order (ordered). Copying offsets of nodes, linking the ends; `relink_from` for moves. `Ordered/DenseMove.lean`: nodes relocated one by one when the allocators are unequal. Dense: every reachable container, moves between equal and unequal allocators. Sparse and stable: copies and moves with any allocators, for all containers reached without the exchange of linked nodes of C52.
* **C60** (partial) ordered merge. B19. Exact behaviour. False: the first element of the source is never transferred, the others arrive in the opposite order (witnesses). Proved: exactly this, for all pairs, and the claim where the two agree. For sparse and stable containers: all containers reached without the exchange of linked nodes of C52. Links of destroyed nodes are taken to be readable.
* **C61** (partial) hinted insertion into ordered containers places the element at the hint. B20, B71. Exact behaviour. `Ordered/HintWords.lean` models the arithmetic with which `maybe_resize` moves the hint along (unsigned 64-bit product and quotient) as it is written; the difference of pointers into different arrays, which C++ leaves undefined, is an arbitrary function. `C61_dense_hint_words_partial` gives the condition under which the simplification of `insertWith` is right, `C61_dense_hint_words_needed` shows that without it the hint is never a node of the new array. False; proved what happens instead: behind the element, in front for end(). With growth the hint end() leads outside of the storage in dense containers, and a hint at an element to freed storage in sparse and stable ones. In machine words the moved hint of dense containers is right exactly if the arrays are a multiple of 16 bytes apart and the difference of pointers into different arrays is computed by exact division. For sparse and stable containers: all containers reached without the exchange of linked nodes of C52.
* **C62** (proved) every element is destroyed exactly once. Each construct/destroy goes through the node cells of the model; freeing a buffer with a live node is the fault `leak`. Lifetime faults (constructing over a live element, destroying a dead one, freeing a buffer with a live element) are part of the model; temporaries outside the containers are not modelled.
* **C63** (partial) allocation failure in constructors and copy assignment (sparse/stable). B25. Negations for all sizes; proof for the allocation points that are handled. False three ways, each for all sizes. Proved for the allocation points that are handled.
* **C64** (proved) range insertion equals insertion one by one. Fold of the refinement; `reserve` does not change the list. For sparse and stable containers the result is compared as a map, and `assign` is `clear` followed by the insertion (Swiss/Assign.lean).
* **C65** (partial) arguments that refer into the container. B34. The argument is a slot (sparse), an index (dense) or the address of the element's block (stable) and is read where the code reads it. The stable theorems assume distinct addresses, which C67 provides. False: growth (sparse; dense with a full array, there also emplace) reads freed memory, reclaiming erased slots in place reads a dead or another value, replacing a value by itself reads the destroyed value (for all containers in which this happens; the reclaim by a witness). Proved: emplace of sparse and stable maps, try_emplace of stable maps, and the rest where none of these happens.
* **C66** (partial) exception while replacing a mapped value. B23. Mapped values are optional (none = destroyed); explicit throw point. Dense: absent keys fail as in C47. False for every present key: the mapped value is dead afterwards. Proved: nothing else changes; an absent key leaves the contents of sparse and stable containers unchanged, and breaks dense ones (counted element that does not exist).
* **C67** (partial) memory blocks of stable containers and node handles. B22, B30, B33, B35-B37, B65. The live blocks are a list of (address, allocator); `free` of a pair not in the list is the fault `badFree`. The allocator's choice of address is a parameter that only has to be fresh. `World.run` folds a program over a list of containers and handles; `AllowsAll` excludes exactly the steps of the negations. Allocator number 0 is the default-constructed one, which default-constructed handles and those of failed extractions have. False, for all states: a throwing constructor or growth leaks a block, inserting an empty handle dereferences null, and node insertion, move, swap and merge between unequal allocators free blocks with the wrong one; move assignment of handles with unequal allocators (also to a default-constructed handle, also from an extraction that found nothing) and swap of handles with unequal allocators (also if they propagate) fail an assertion. Proved: all programs without these steps; copy and move assignment under the guards of C16-C18.
* **C68** (partial) moves of sparse containers with unequal or non-propagating allocators. B2-B4, B38. The moves are reduced to the copies (`moveCtor_unequal`, `moveAssign_unequal`). False: as for copies with erased slots or a larger target, for every empty source moved into a non-empty target with an unequal allocator, and for every non-empty target with an equal non-propagating one (the source is left with control bytes of destroyed elements). Proved: what the target shows in all other cases and exactly when it behaves as the source; equal allocators with an empty target or propagation.
* **C69** (partial) exceptions while a sparse container is copied or moved element by element. B39. `copyDataThrow`, `moveDataThrow` run the loops up to the throwing slot; `none` if no constructor is called there. False for all targets and sources: a copy construction loses its memory wherever it throws; an assignment that throws at any but the first element leaves size 0, iteration showing the copied elements and a destructor that leaks them; a move assignment also leaves the source reading destroyed elements. Proved: throwing at the first element of a copy assignment leaves an empty target that is destroyed cleanly.
* **C70** (partial) exceptions while a sparse container makes room. B39. `Frag` describes a table of which only a part is shown; it is `Inv` after hiding the rest (`Frag.inv`). For reclaiming, the loop invariant `Reclaim` of C03 is used at the point of the exception. False for all containers, wherever the exception occurs: size counts elements that are lost; growth leaks them in the old buffer, reclaiming hides them behind erased marks so that the destructor leaks them. Proved: exactly what is still shown is also found, with the right values, and (growth) destroyed.
* **C71** (partial) exceptions from the hash function or the comparison in dense insertions. B40. `insertCall`, `emplaceCall` count the calls of the hash function (k of them) and of the comparison along the chains and stop at the given one. `C71_calls` ties the count to the elements: in every component all elements with the hash of the key if the key is absent, otherwise one at least. `Orphan` describes the array with an element that is in no chain. Proved for insert and try_emplace, whichever call throws; C71_calls gives the number of calls of all three functions. False for emplace, for all containers and calls: the new element is counted and iterated, but in no chain, with uninitialised hashes; erasing others then violates an assertion.
* **C72** (partial) exceptions while a dense container is copied or moved element by element. B41. `copyDataThrow`, `moveDataThrow` run the loops up to the throwing element. The target is well formed because the loop increments `m_size` as it goes (invariant of C42, `copyLoop_ok`). Proved for copy assignment: the target holds the elements before the one that threw. False for all copy constructions (both buffers lost). Move assignment: exactly when the source survives (only if the first element throws).
* **C73** (partial) exceptions while a dense container makes room or erases. B42. `resizeThrow` also returns the elements relocated into the array which the handler frees. `eraseMoveThrow` stops at the assignment in `erase_node`, after the chains have been rewired. Growth: exactly when the container survives (only if the first element throws). Erasing: the last element is lost to lookups for all containers, a chain may become a cycle. Proved: erasing the last element moves nothing.
* **C74** (partial) failing allocations in dense copy assignment. B43. `Table.B` adds to the table whether its buffers have been freed and whether the bucket heads are uninitialised. Exactly when the target survives, for each allocation. In all other cases freed buffers are kept (used by lookups, freed again) or the new buckets are never initialised.
* **C75** (partial) reserve and rehash of dense containers. B44. `rehash_bc` gives the bucket count after `rehash` exactly. The array is never reallocated up to n (all load factors). Buckets: proved for maximal load factors of at most 1; for every factor p/q exactly when n*q mod p < q (empty container). rehash: exact bucket count. The factor is an exact ratio here (LF.ratio); C81 has the float arithmetic.
* **C76** (proved) at, operator[] and operator== of dense containers. `at_`, `eq`, `indexRead` follow the wrappers; `std::is_permutation` is trusted to decide `List.Perm`. All statements for all key components.
* **C77** (partial) dense containers leave the caller's keys alone. B45, B46. `mv : K → K` is what moving from a key leaves behind, an arbitrary function. `Pass` selects the overload. In sparse and stable maps the same overload of `operator[]` exists, but there `do_try_emplace` copies even rvalue keys (`std::forward_as_tuple(key)`, swiss_table.hpp 1335), so variables are safe. False for operator[] with a variable, for all maps and new keys changed by moving: m[k] = v; m[k] inserts a second element. False for rvalue keys of multimap::try_emplace on every conflict. Proved for map try_emplace, constant keys, present keys and keys not changed by moves (exact condition).
* **C78** (partial) comparison of references to map elements. B47. Each operator is modelled over arbitrary linear orders, applying the component operators as the code does. == and != proved; <=> is the order of std::pair once synth_three_way is repaired. The operators before C++20 are componentwise: refuted for all types with two values each (no strict weak order), exact conditions and what remains proved.
* **C79** (partial) block loads on other byte orders. B48. `readLE`, `readBE` are the two byte-wise variants of `read_unaligned`; `readLE_eq`, `readBE_eq` relate them to the word used by C30. Proved for little endian. False for big endian, for all blocks: exact condition (the free slots lie symmetrically), insertions choose an occupied slot, elements are not found under their own tag.
* **C80** (proved) 64-bit arithmetic of the swiss table agrees with the mathematical one. `Verif/Swiss/Words.lean` writes find, insert, erase, extract, clear, reserve, rehash and everything they call once more with arithmetic modulo 2^64 and without the underflow checks of the model; each function is proved to return what the unbounded one returns. Forward simulation: where the unbounded model ends normally, the 64-bit code ends with the same result (C80_step, C80_history); C80_agrees adds C01. The bound 2^59 is where `size * 32` stops fitting; larger tables exceed any address space.
* **C81** (partial) single precision arithmetic of the load factor. B49. `Verif/F32.lean` defines rounding to binary32 on the rationals (ties to even, denormalized numbers, no overflow to infinity, which makes no difference here) and proves it monotone, exact on representable numbers, with absolute and relative error bounds. `lfF f` plugs these computations into the model of dense containers, where the load factor is otherwise an arbitrary function. IEEE binary32 round-to-nearest-even over the rationals. Exact below explicit bounds (p * buckets <= 2^24, or buckets <= 2^24 divisible by 2^j, for the factor p / 2^j); refuted above: with 2^k >= 2^25 buckets and 7/8 the container counts as full exactly 2^(k-25) elements early (C81_full_pow, an equivalence), other counts are late; reserve(7 * 2^(k-3)) does not prevent a rehash for every k >= 25, but reserve(n) does for n <= 7 * 2^21; max_size() is undefined exactly for factors >= 1; tiny factors make rehash undefined.
* **C82** (partial) exceptions in ordered dense containers. B50. `Verif/Ordered/DenseThrow.lean` adds the links to the operations of `Verif/Dense/Throw.lean` (C71 to C73). What is observed is the list of elements obtained by following the links (`elements`), the size, lookups, and `Works`: every further history and the destructor behave as for a list. `C82_room_false` and `C82_move_assign_false` say what iterating leads to without a condition on the memory; `C82_copy_assign_false` gives the address that is taken for the first node, which is as far behind the target's header as the source's first node is behind the source's header; iterating is undefined unless this happens to be a node of the target. Proved: hash function or comparison throwing in insert, try_emplace and hinted forms (all containers, all calls); constructor not called if the key is present; all other containers keep working in every case. Refuted for all containers: hash or comparison throwing in emplace (a counted, unlinked node; no element can be erased any more), constructors, relocation while growing (already for the first element, where unordered containers survive), copy assignment, move assignment between unequal allocators, assignment of the last element's value in erase. clear() rescues the container after a failed copy assignment and after growth failed at the first element. Copy construction is C72 (buffers lost).
* **C83** (partial) user-defined key equality and transparent lookup. `Verif/Swiss/Equiv.lean` and `Verif/Dense/Equiv.lean` restate `find_node` and the functions that call it with a comparison of the stored key instead of equality; an element (key and value) is stored as a whole, and the class of its key is carried as a ghost that no function reads. The histories are compared with a specification (`ESpec`) that knows only `cmp`. The ghost makes the table one with keys in the quotient by the equivalence, which gives the invariant. A transparent key that matches no element need not be represented by any key: for this case the swiss table is embedded in one with an additional possible key (`Table.lift`), the dense search is followed directly. The ordered containers share `find_node` and are not repeated. Sparse and stable containers: everything proved. Dense containers: everything proved except erase(key) on a container that has no buckets yet, where the code dereferences a null pointer (C41, B9) for keys of any type.
* **C84** (partial) exceptions from the hash function, the comparison and the predicate (sparse and stable containers). `Verif/Swiss/Calls.lean` restates `find_node` and its callers with a counter: `c` calls of the user's functions return, the next one throws. The result contains the container as the exception leaves it. `Costs`/`StepCosts` state that there is a number `N` of calls such that with fewer than `N` the container is returned as it was and with at least `N` the operation of `Verif/Swiss/Model.lean` takes place; growth happens after the last call. For `erase_if` the order of iteration is that of `iterate`. `std::terminate` in `merge` is the outcome `none`. Throwing constructors and allocators are C28, C29, C63, C66, C69 and C70; for dense containers see C71, C73 and C82. Strong guarantee for all key operations, prefix guarantee for range insertion, exact state after a throwing predicate: proved. Refuted: emplace leaks its temporary whichever call throws (C84_emplace_false, B36); merge calls std::terminate for every call that throws, since its transfer lambda is noexcept (C84_merge_false, B51).
* **C85** (partial) the work of a search. `findNodeT` (Verif/Swiss/Work.lean, Verif/Dense/Work.lean) is `find_node` with a record of the slots compared, the blocks read and the nodes visited; `findNodeT_fst` shows that it is the search used everywhere else, `findNodeT_calls` that the comparisons are those counted in C84. No slot is compared twice because the windows of different steps of a probe are disjoint (`window_offset`, from the injectivity of triangular numbers modulo a power of two), and no window contains a slot twice if the table is at least as large as a block. Dense containers: proved. Sparse and stable: number of blocks, tags (SSE2/NEON), at most once in tables of at least one block, at most twice otherwise: proved. Refuted: in smaller tables every element with the tag of an absent key is compared twice unless it lies before the position of the key (C85_swiss_twice_false, all tables); the portable match_eq lets through elements whose tag differs in bit 0 (C85_portable_tag_false).
* **C86** (partial) exceptions in ordered sparse and stable containers. Verif/Ordered/SwissThrow.lean models each call up to the exception, on top of the models of C69, C70 and C84 for the part without links. `Works` in Verif/Props/OrderedSwissThrow.lean says what is left to be observed: iteration, size, every further history (until linked nodes are exchanged) and destruction. Growth: `growThrow_ok` shows that the link of the throwing element is already in the new array, at a slot without element, and that the elements after it are linked in the old array, which nobody frees. Copy assignment: the header is a copy of the source's header, whose offsets are relative to the source. Hash function, comparison, predicate, constructor of a new element: proved, up to an exchange of linked nodes during the call (C52). Refuted for all containers and all positions: relocation during growth, copy assignment (not even clear helps), move assignment between unequal allocators.
* **C87** (partial) the bucket interface of dense containers. Verif/Dense/Local.lean models `bucket_iterator` with the members that do not compile read as intended for one key component. C87_bucket_partial replaces `end(n)` by the iterator at `npos` of the same array and shows that then exactly the elements of the bucket are visited, up to order. C87_local_iteration_false is for all containers, buckets and lengths of the iteration. bucket(x) and the elements met from begin(n) on: proved. Refuted for every bucket of every container: end(n) is never reached, the array is read at npos (C87_local_iteration_false); bucket(x) divides by zero without buckets.
* **C88** (partial) iterator arithmetic and comparison. Verif/Dense/Iter.lean models the iterators of unordered dense containers as addresses. The operators that do not compile (B57) are not modelled. Iterators of ordered containers are the addresses of links in the models of Verif/Ordered; `<` compares these addresses. C88_ordered_swiss_iff speaks of the containers in which no linked nodes were exchanged, like C52. Unordered dense containers: proved. Ordered containers: the comparison agrees with the sequence if and only if the array holds the elements in that order (C88_ordered_dense_iff, C88_ordered_swiss_iff); refuted for every ordered dense container of three or more elements in array order once the first is erased, for ordered sparse containers by a witness, and for end() by two allocators.
* **C89** (partial) find, at, writing mapped values and operator== of ordered containers. Verif/Ordered/Access.lean. `std::is_permutation` is modelled by its specification. That operator== ignores the order is what the code does and what the theorem says; the README does not promise otherwise. Ordered dense containers: proved. Ordered sparse and stable containers: proved for the containers in which no linked nodes were exchanged (as in C52).
* **C90** (partial) operations of a container with itself. Verif/Swiss/SelfOps.lean has `merge` with one table in both roles; Verif/Ordered/Swiss.lean `mergeSelf`, and the programs of Verif/Ordered/{Swiss,Dense}World.lean now may name the same container twice in any operation. Swapping the header of a ring with itself writes exactly what was there (`swapHeaders_self`). Assignment to itself is the test in the code. Swap of unordered containers with themselves exchanges each member with itself and has no content of its own. Unordered sparse and ordered dense containers: proved. Ordered sparse and stable containers: proved for the containers in which no linked nodes were exchanged (as in C52).
* **C91** (partial) merge of a temporary. `mergeMove` in Verif/Swiss/SelfOps.lean and the operation of this name in Verif/Ordered/SwissWorld.lean. In C91_swiss_partial the hash function of an empty destination is that of the source afterwards, since the assignment moves it. Unordered: proved unless dst is empty and its allocator is unequal and not propagated; then an exact criterion (source not larger in buckets than needed: dst.cap <= src.cap) and a witness that elements are lost. Ordered: an empty destination with equal or propagated allocators gets the exact sequence; for other destinations the code runs the lvalue merge (C60), whose result differs for every source with elements.
* **C92** (partial) memory of dense containers. Verif/Dense/Heap.lean repeats every function that allocates or deallocates on containers that hold addresses (`Box`) and a memory that knows allocator, element type and size of each live block; contents are those of Verif/Dense/Model.lean, and `step_sim` proves that both models fail alike or give the same container. Verif/Dense/HeapWorld.lean runs programs with any number of containers. The invariant (`Balanced`) says that blocks and containers correspond one to one; `Step` (what one operation does to memory) composes. The ordered containers run the same code for their arrays; their links are not part of this model. Failing allocations of existing containers are C48 and C74; here only those of constructors. Proved for all programs in which no constructor throws and no assignment passes null to an allocator that does not accept it. Refuted: propagating assignment to any container without an array calls deallocate(null, 0); constructors leak the first array if the second cannot be allocated; swap asserts that the allocators are equal after having exchanged them, so it fails for all unequal allocators.
* **C93** (partial) memory of the buffers of sparse containers. Verif/Swiss/Mem.lean models the buffer functions of both layouts on a memory that knows allocator, kind and size of each live block, and the constructors, assignments, swap and destructor of containers, of which only buffer and number of elements are kept. Operations on elements are replaced by what they may do: rehash to any capacity that align_capacity returns, and set the number of elements; the programs of the code are among these. Verif/Swiss/MemWorld.lean proves the one to one correspondence of blocks and containers (`Balanced`). Exceptions (failing allocations) are C29, C63 and C70; the element blocks of stable containers are C67. Proved for all programs without the following, each of which is refuted for all states: null pointers passed to allocators that reject them (destructor and first insertion of every container without buffer, propagating assignment); assignment between combined buffers with propagating allocators (wrong size); assignment into a container made with bucket count 0 (its control bytes leak); swap with unequal allocators (assertion, although the allocators propagate). C93_separate_partial: separate layout with an allocator that accepts null, any traits: every program that uses no bucket count 0.
* **C94** (partial) functions declared noexcept do not allocate. B62. Uses the memory models of C92 and C93: addresses are taken in sequence, so the allocations of a statement are the difference of `next`. `denseAllocs` and `sparseAllocs` say how many there are; the `_partial` theorems give none under conditions that do not mention the model functions; the `_false` theorems give at least one. The elements of stable containers are allocated one by one in addition (see C67) and are not counted here. The number of allocations of every such statement is given exactly, for all programs. None with equal or propagating allocators; refuted, for all states, for moves of elements between unequal allocators into too little room.
* **C95** (partial) rehashes of sparse containers cost a constant per insertion on average. B63. The events of the ghost log (see C17, C55) are counted. A potential argument: five for each two used slots beyond half of the admitted ones; `Room.pay` shows that growth (the elements fill half of the new buffer), reclaiming in place (at least 3/32 of the slots become free, since it is done only up to 25/32 of fill) and plain insertion are paid by ten per insertion. The number of exchanges of `rehash_deleted` is bounded by the number of elements (`processNode_cost`). `C95_two_needed` shows that the constant for histories without erasures is exact up to six. Scanning of control bytes by `rehash_deleted` is not counted. At most ten per insertion, from any container, if ranges are not inserted through random access iterators; without erasures at most two relocations per insertion, and two is the best constant. Refuted with ranges of one element, for every constant and every hash function.
* **C96** (partial) making room in dense containers costs a constant per insertion on average. B64. `Verif.Dense.Amortized` repeats the functions that make room with their work counted inside the loops; `runW_fst` shows that dropping the counts gives the model of the other theorems, so that the bounds speak about the same histories. The argument: each reallocation at least doubles, so the work is at most a constant times the growth of capacity and bucket count (`Paid`), which in turn are bounded by the number of elements. `LF.Bounds lo hi` is what is needed of the load factor; it is proved for exact fractions (`bounds_ratio`), and for every single precision value in (2^-j, 2^i] with the roundings of the code (`bounds_float`). `C96_range_false` is exact: n(n-1)/2 moves. Filling the buckets in `clear` is not counted. Two moves, four allocated nodes, 4·hi filled buckets and 2·hi·lo links per component and per element handed to an insertion (up to a constant), for every maximal load factor between 1/hi and lo, in particular in single precision; from any container with at most lo elements per bucket. Refuted with ranges through random access iterators (n(n-1)/2 moves for n one-element ranges, for every hash function and load factor) and for reserve, which relinks all elements even if nothing changes.
* **C97** (partial) programs over several containers, each with its own hash function. 
B66, B70. Elsewhere one hash function serves all containers of a theorem, or two are given. `Owned` makes it a part of the container, as in the code (`empty_base<Kh>`); `manyRun` runs programs over a list of such containers, `specManyRun` the same program over plain maps or sequences. `mv` is an arbitrary function that says what a move leaves of a hash function; the moved-from container is then empty, hence consistent with anything. `merge` looks up and places elements with the hash function of its target; `merge` of a temporary into an empty container takes over the hash function. Operations of a container with itself are in C90 and C57. `stale_hash` (both families) says what happens to elements in a container with the wrong hash function. For ordered containers `HWorld` adds to the worlds of C51 and C52 the hash function of each container: `HWorld.acting` names the container whose hash function an operation calls, `HWorld.hashes` says where the hash functions go; the specification is that of C51 and C52, which knows no hash functions. `assignThrow` is what has been done when assigning the hash function throws.
 All programs over containers with one hash function per container: unordered sparse and dense ones, ordered dense ones, and ordered sparse ones until the code exchanges two linked nodes (C52); within the conditions of C16-C18, C41, C45, C46 and, for ordered containers, of C51, C52 (copies of containers without erased slots, propagating allocators, erase by key only with buckets); with any state of moved-from hash functions. The part about exceptions is refuted: an assignment in which assigning the comparator throws leaves the container with its own elements and the hash function of the other; every element with a different hash value (dense) or tag (sparse, SSE2 and NEON) is then not found any more; in ordered containers the header has been replaced too, so that iteration begins at a place computed from the other container.
* **C98** (partial) iterators and references after reserve. B67, B68. C12 treats insertions only and sparse containers only. `Spec.Fits` says, on the specification alone, that a history finds room: for sparse containers every element added takes a slot and `erase`, `extract`, `erase_if` give none back (an erased slot may be reused, which is not counted); for dense containers every insertion call needs a free place before the key is looked up. The conclusion of the sparse theorem contains that the ghost log of allocations and relocations is unchanged, so equal bucket counts are not mistaken for an untouched buffer. `C98_swiss_full` shows that the bound is exact in containers without erased slots. `rehash` is left out of the sparse histories and allowed in the dense ones, where it replaces only the buckets. For ordered containers (Props/OrderedIters.lean) an iterator is an address in the memory of Ordered/Link.lean; the theorems give that the history ends without fault, that the address of the buffer and of the header are the same, that reading at the address yields the element with the same key and a value which the specification has, and that the order is kept. The condition that an element is not erased is put on the specification: its key is there after every operation (so erasing by position, by range and by predicate is covered). For ordered dense containers the position in the array matters, since the last node of the array, which need not be the last one in insertion order, takes the place of an erased one: the condition is that the container always has more elements than this position. Proved for all histories that add at most n - size elements after reserve (sparse, unordered and ordered; erasures may come in between but do not give slots back), or whose insertion calls, rejected ones included, all find fewer than n elements (dense, unordered and ordered). Refuted beyond that: sparse, with erasures and insertions in turn, an element leaves its slot though the size stays below n and the bucket count is the same; dense, in every full container a rejected insertion replaces the array, and in the ordered containers every iterator is shown to dangle afterwards.
* **C99** (proved) mapped values written through references. The model of a write (`Table.write`) reads the node at the position of the iterator, which faults unless there is a live element, and replaces its value. The loop writes while it walks and re-reads the control bytes at every increment. The conclusion is `Behaves`, that is, lookups, iteration, size and all later histories agree with the map whose values are written. For dense containers the guard of C36 is needed (`erase(key)` without buckets, C41). Sparse and stable maps: at(k) = v, m[k] = v, a loop that writes every value, a write through an iterator. Dense maps with any number of key components: at<j>(x) = v, a write through an iterator, the loop; m[x] = v of the single-key map is C76, ordered maps are C89.
* **C100** (partial) load_factor() of sparse and stable containers. B72. `loadF` is the division in binary32 (`F32.lean`), `none` is "not a number". The theorems quantify over all reachable containers; `C100_load_partial` is an equivalence, so it says exactly where the claim fails. False for full containers and for containers without buckets (0/0). Proved exactly when it holds: load_factor() <= 7/8 iff 8*size <= 7*buckets or there are at least 2^25 buckets; always between 0 and 1.
* **C101** (partial) rejected insertions leave the caller's arguments alone. B73. The caller's variables are pairs (key, mapped value), `MovedFrom` is what a move leaves behind, an arbitrary function. Each `…Arg` function repeats the function of the table and returns the variable as well; `C101_program` runs any list of calls over any number of variables. Hinted overloads take the same way to `do_insert`/`do_try_emplace`; ordered containers differ in the links only. Proved for insert, try_emplace, insert_or_assign and operator[] of sparse and stable containers, for insert of dense containers (any number of key components) and for whole programs. False for emplace (all containers): the temporary takes the value before the key is looked up. Keys of dense try_emplace and operator[] are C77.
* **C102** (partial) work of iteration over sparse and stable containers. B74. The functions `…B` return what the functions of the table return and the number of `meta_block` loads; that the results agree is part of each theorem. `C102_begin_false` gives, for each n, a container (after reserve) whose begin() loads n blocks; `C102_front_false` holds for all reachable containers. Neither bound depends on the tombstones that were left behind, as free and deleted slots are skipped alike. Where NEON or portable blocks reach the known `ctz(0)` (B7, C32) nothing is said about the work. Exact for begin() and erase, both bounds for a full iteration, upper bound for the erase loop. False for begin(): linear in the bucket count after reserve or clear, and emptying from the front takes quadratic work in every container.
* **C103** (proved) lookups of ordered sparse containers do not depend on the links. The theorems assume nothing about the links: `Inv` of the index and the head node being allocated and outside the slots (`Sep`) are kept by every operation, whatever its links lead to, as long as it returns. `Spec.Loose` says what an operation may do: operations by key do exactly what they should; those that follow links (erase at a position, ranges, erase_if, iteration) only erase and meet elements that are there. The iterator returned by erase(key) is read from the links, hence not covered. `C103_keys` compares with the run of the specification. Complements the refutation of C52: what remains true of a container whose links were damaged, as long as no link that is followed leads out of the container.
* **C104** (partial) requests for more room than there can be. B75. The sizes handed to the allocator are computed on 64-bit words; the allocator is any function that refuses requests of 2^64 bytes or more. The theorems cover every n: the bucket count is the right one up to 7*2^60, 2^63-1 (less than n) between 2^63 and 9*2^60, and 2^64-1 otherwise; `capacity + sizeof(meta_block)` then wraps to 15 (or 7), `buffer_size` to 0. That nothing has changed when an allocation throws is C29 and C48 (elements). Separate blocks: proved for all n but 2^63. One block: proved up to 7*2^60 elements. Refuted for every container: with one block reserve(n) and rehash(n) for almost all larger n, and the bucket count 2^64-1, write outside a block of size 0; n = 2^63 overflows a signed subtraction. Dense containers: reserve proved, rehash refuted (B13).
* **C105** (partial) capacity() and max_size(). B76. `C105_growth_iff` says exactly when an insertion enlarges a sparse container; `C105_room_partial`, `C105_full` are the case without erased slots and `C105_growth_partial` is what remains with them: no growth up to 25/32 of the buckets (C15 has the resulting bound over histories). Dense containers: `capacity()` concerns the buckets only; the product is computed in `float` (`C105_dense_exact`: exact for moderate bucket counts). Sparse and stable: the size bound, the exact condition under which an insertion replaces the buffer, and that without erased slots exactly capacity() elements fit are proved; with erased slots the claim is refuted (a queue of 8 elements gets 31 buckets). reserve(max_size()) throws with separate blocks, is undefined with one. Dense: insertions up to capacity() do not rehash (proved, in single precision arithmetic); the array is replaced independently of capacity(), and the size may exceed capacity() (refuted), by at most 2 (proved).
* **C106** (partial) Inserting and erasing the same key again and again. The theorems compare complete states: control bytes with their copies, nodes, counters, chains. Sparse containers: marking the slot erased does not change which bytes are available, so the second insertion finds the same slot, marked erased, and takes nothing from the counter of unused slots. That the erasures succeed is a hypothesis on the first one only (8-byte blocks may compute `ctz(0)` there, B7). Dense containers: an insertion appends to the chains and an erasure of the last element takes exactly that back. B78. Sparse and stable: proved (equality of the complete states, including the log of allocations and relocations). Dense: proved whenever the load after the first cycle is below the maximum (there a cycle with any new key is the identity); refuted for the first two cycles after the maximal load factor was lowered (both rehash); proved from the second cycle on for every maximal load factor p/q.
* **C107** (partial) Iteration order of unordered containers. The order is that of the slots. `C107_sparse_order` speaks of what the user sees: any list of keys that is a subsequence of the keys visited before, and whose keys the history does not remove, is a subsequence of the keys visited afterwards. It uses that elements stay in their slots (C98). Copies keep every slot index (`copy_data` writes slot i of the source to slot i), so that the order is kept even where lookups in the copy fail (C16, C17). With 8-byte blocks iteration may stop with `ctz(0)` instead (B7). For dense containers the negation is proved for all states with at least three elements (B79). Sparse and stable: proved for all histories that add no more elements than there are unused slots (in particular all that add none, and after reserve), for copies and moves of containers with elements with all allocators (assignment of an empty container: see C17, C68). Dense: refuted in every state with three or more elements, erasing the first one moves the last one before the others; C37 says what the order is.
* **C108** (proved) Average work of searches in dense containers. Uses the instrumented search `findNodeT` of C85, which is proved to be the search of the model with the visited nodes recorded. `C108_dense_absent`: the chain of a bucket holds exactly its elements. `C108_dense_present`: the search for the element at place i of its chain visits i nodes, and the chains partition the elements. `C108_dense_expected`: summing over all functions from n keys to m buckets, every pair of keys collides for one in m of them; the statement is multiplied out (2m times the sum of all visits is m^n * n * (2m + n - 1)). This is the textbook analysis of chaining, here for the container itself; order and history of the chains do not matter. Exact counts of visited nodes. The average over hash functions is over all distributions of the given keys to the buckets; which container realises a distribution is left open (any history).
* **C109** (proved) Average number of comparisons of failing searches in sparse and stable containers. Uses the instrumented search `findNodeT` of C85 (proved to be the search of the model, with the comparisons recorded), and also says how many calls of the user's functions the search makes (`seekC`). A failing search reads the blocks up to the first one with an empty slot; which blocks these are does not depend on the tag (`Table.trail`, `findLoopT_miss`). In a block every byte of an element matches one of the 128 tags, or up to two with the portable test (`sum_matchEq`). The last block has an empty byte, hence the strict inequality. The bound by `size()` uses that no element is compared twice in such tables. Averages are stated as sums over the 128 tags. With portable blocks the factor two is due to their false positives (C85).
* **C110** (proved) The cost of searches while elements come and go (sparse and stable containers). `C110_present`: a successful search ends with the first block on the probe sequence that contains the slot of the element (`findLoopT_window`), which depends on hash, slot and bucket count only; elements stay in their slots (as for C98). `C110_absent`: a failing search ends with the first block that has a never used slot; until the buffer is rebuilt such slots only disappear (`Fade`, `run_fade`, for all operations of the model but `clear` and `rehash`, with room for what is inserted). `C110_erase`: erasing marks slots as erased, never as unused (`doErase_unused`). The number of blocks is that of the instrumented search of C85. What is proved of failing searches is a weakness of the code, see B80.
* **C111** (partial) The kinds of containers can be exchanged for one another. `Call` are the common operations, `Seen` what a program sees of them; each of the four models gets a translation of calls and a view of answers (Verif/Interchange.lean). The specifications of C01, C36, C51 and C52 are related to each other step by step (`dense_step`, `osparse_step`, `odense_step`), then the theorems about histories are put together. `C111_sparse` and `C111_dense` are about all operations of the respective model, not only the common ones, and about any two reachable containers with the same elements. `C111_sparse_dense`, `C111_dense_order`, `C111_ordered_dense` compare kinds. `C111_ordered_partial` and `C111_ordered_keys_partial` are what remains for ordered sparse containers; with erasures and loops the claim fails by `C52_swiss_exchange_false`, and dense containers without buckets fail by C41. Full for two sparse/stable containers, two dense containers, sparse against dense and sparse against ordered dense (with dense containers under the guard of C41: erase(key) only once there are buckets). For ordered sparse containers the claim is false once linked nodes are exchanged (C52); proved for programs without erase(key), with the order, and for programs without loops over the elements, in every execution with defined behaviour.
* **C112** (proved) Ordered containers store their elements where unordered ones would. The ordered models contain the unordered one as `core`. For dense containers `run_plain` (Verif/Ordered/DenseCore.lean) shows that the core after a history is exactly the unordered table after the same operations, where an erasure by iterator is the erasure at the position the iterator designates (`C112_dense_same`; `C112_dense_keys` if there is none; `C112_dense_reachable` makes the theorems about unordered containers available, `C112_dense_absent` is an instance). For sparse containers the ordered model empties the log of relocations before each operation, so Verif/Swiss/Ghost.lean first proves that no operation reads the log (`…_ghost` for every function of the model); `run_plain` of Verif/Ordered/SwissCore.lean then compares the two step by step, erasures in the order of the links (iterators, ranges, erase_if) becoming erasures of the keys met. No assumption on the links is made, so that the statement covers containers after an exchange of linked nodes (C52). The unordered container makes iterators that search for the next element, which is `ctz(0)` in some states with 8-byte blocks (C32); hence `Ends` in `C112_sparse_same`, `C112_sparse_sized`, `C112_sparse_keys`. `C112_sparse_absent` is C109 for ordered containers, for all blocks.
* **C113** (proved) Keys with the same hash are compared with each other. Sparse and stable containers: a search for an absent key and the search for an element with the same hash read the same blocks (`Table.trail` does not mention the key), and the second search finds the element, hence it is compared by the first (`miss_all` in Verif/Swiss/Collide.lean). `C113_sparse_search` states this with the bounds on the number of calls, `C113_sparse_inserts` sums up over a range of new keys: with fewer calls than `N` the range insertion is left by the exception, with `N` it ends, and `N` is at least n(n+1)/2 + n·s and at most n² + 2n·size. The factor two is needed for tables smaller than a block, which compare elements twice (C85). Dense containers: `C113_dense_cost` gives the exact number of calls of an insertion of a new key, `C113_dense_inserts` that of n insertions.
* **C114** (proved) Erasing from a dense container follows only the links of two sets of buckets. Verif/Dense/EraseWork.lean repeats the functions of an erasure with a counter of the nodes passed (`eraseAtT`, `eraseT`); `eraseAtT_fst` and `eraseT_fst` show that they do what the model does. `C114_dense_at` bounds the counter by the elements in the buckets concerned (`neighbours`, counted in the contents), with an example in which the bound is reached; `C114_dense_even` is the bound by the fullest bucket, `C114_dense_key` that for erase(key), which also visits the element it finds.
* **C115** (partial) Every target compiles one working variant of the control-byte blocks. Verif/Arch.lean evaluates the conditional directives of arch.hpp, define.hpp and the places that use their results as functions on macro environments (`String → Option Nat`); that a redefinition is an error is taken from the language. `C115_sse2_iff`, `C115_neon_iff`, `C115_defined_iff`, `C115_load` and `C115_combine_iff` are exact for all environments; `C115_no_simd_false` and `C115_msvc_false` refute the claim for whole families of them, `C115_defined_partial` is what remains. That 64-bit MSVC defines `_M_X64` but not `_M_IX86_FP` is taken from its documentation. The properties about the portable variant elsewhere in this document are about the code with the second definition removed. Exact conditions for each variant, for the byte order and for the combined allocation. False: the 64-bit word variant defines count_available twice, so that no configuration without SSE2 or NEON compiles; this includes every target with TPP_NO_SIMD and every 64-bit MSVC, for which the test of _M_X64 is inside the test of _M_IX86_FP. Proved for x86 with the SSE2 macros of GCC and Clang and for ARM with NEON.
* **C116** (partial) Room once made is kept. Verif/Props/Buckets.lean. `C116_sparse_single` and `C116_sparse_quiet` are exact for single operations, `C116_sparse_partial` covers every operation that does not call `reserve`. `C116_sparse_reserve_iff` and `C116_sparse_range_iff` say exactly when buckets are lost; `C116_sparse_false` builds for every hash function and every `n` an empty container of more than `n` buckets that `reserve(1)` or `insert({x})` leaves with one; `C116_sparse_room_partial` is the claim for containers without erased slots. `C116_dense`, `C116_dense_quiet`, `C116_dense_run` need no invariant: they hold from every state. Dense: proved for every operation from every state, rehash(0) included, and for histories. Sparse and stable: proved for all operations that do not call reserve; false for reserve and for the insertion of lists and random access ranges, for every hash function and any number of buckets; exact conditions for both; true again for containers without erased slots.
* **C117** (partial) Types computed by the library. Verif/Types.lean treats template arguments as data: types are terms over unnamed base types, `const`, `std::pair` and the default arguments of the library, template specialisations are equations, a name that does not exist is `none`. Which guide overload resolution chooses is not modelled, only the type each one names and whether a constructor for its arguments exists. `C117_other_components` ties `remove_index` to the components that `Dense.Table.erase` searches. The exact conditions are `C117_list_map_iff`, `C117_range_map_iff`, `C117_list_set_iff`, `C117_stable_key_iff`; the refutations hold for all types. Index sequences and packs: proved. Keys of stable sets: exactly for elements that are not pairs. Deduction: exact conditions for maps from ranges and lists and for sets from lists; refuted for every set from a range, for every map from a range and an allocator, for every map from the range of a map, and for every stable map from a range without an explicit allocator.
* **C118** (partial) Operations of ordered containers write a bounded number of links. `Wrote m m' n` says that at most n addresses carry another link; it is stated on the memory alone. No invariant is assumed, so the bounds hold also after linked nodes have been exchanged (B16). How many nodes an insertion moves is the length of the log of its relocations, which is empty while there is a slot to spare (`C118_sparse_insert`); C95 bounds it on average. `walkN` is the loop over a container with the number of links followed; compare `C102_begin_false` for unordered containers. Proved in every state for insertions and erasures of both kinds; sparse: erasures write two links. A rejected insertion into a full dense container moves all elements first (B68), so there the bound is four per element. Iteration is proved for dense containers, and for sparse ones in which no linked nodes were exchanged (as C52).
* **C119** (proved) 64-bit words of dense containers agree with the mathematical ones. `Verif/Dense/Words.lean` writes the functions of the table once more on `UInt64` (`WTable`), closer to the text than the model: chain indices are words, the end of a chain is `npos`, `find_node` returns a node (possibly `end_node()`) and a chain pointer, and the callers test `*chain != npos`. `WTable.dec` reads off the table the words stand for; `Follow` says that a word computation succeeds with the corresponding result whenever the model does. No invariant is needed except that there are no objects behind the last element (for `find` and `contains`, which compare with `end()`). A position is below the capacity, which is itself a word, so it is never `npos`. The bound concerns the final container only, because no operation shrinks the arrays (C116). Pointers stay positions in their arrays. Proved for every operation of a history and for whole histories, together with C36. C119_limit shows that the bound cannot be dropped: a full array of 2^63 nodes would be replaced by one without room.
* **C120** (partial) The same program on different targets. `Verif/Swiss/Target.lean`: all functions of the table are the same for NEON and portable blocks by definition or induction, except the search for a key, which gives the same slot because the invariant determines it (the false reports of the portable `match_eq` only cost comparisons). Merging, range construction and the set of containers that can be made are included (`C120_exact_reachable`). For different block widths both runs are compared with the mathematical map of C01. `C120_growth` computes the buckets after any sequence of insertions of new keys (exactly what `reserve` of their number makes at once); the special case of seven elements in `capacity_to_max_size` (swiss_table.hpp 814-828) is the only number where the widths disagree. Ordered containers (`Verif/Props/OrderedTargets.lean`): the functions are compared as those of the index, and answers on different targets through the lists of C52, which do not depend on the target. Dense containers have no block variants: their model (like dense_table.hpp) has no such parameter. Proved exactly (states, answers, order, faults) between the NEON and the portable variant, although their match_eq differ. Between 16- and 8-byte blocks the answers are proved equal up to the order of iteration; C120_buckets_false shows for all hash functions that the bucket counts differ exactly for seven elements, C120_order_false that the order of iteration may differ. Ordered containers: exact between the 8-byte variants; on any two targets the same answers and orders without erasures, and with erasures unless linked nodes come to be exchanged (C52), which C120_ordered_false shows to happen on one target only.
* **C121** (partial) Template arguments that the containers accept. `Verif/Bases.lean` lists the direct base classes of the tables and buffers and the allocator types that the nodes' functions take and are given; a class compiles if no base class occurs twice and every allocator argument has the type of its parameter. `C121_iff` says exactly for which arguments this is so; the theorems after it compare this with what standard containers accept, with the default arguments and with the deduction guides of C117. Requirements on each argument alone, and all other reasons for which an instantiation can fail, are outside of this model. Exact condition for all containers (C121_iff): different classes for hash and comparison, and an allocator of what the nodes hold; C121_functions_iff says which functions another allocator excludes. Refuted for every container with one class for both, for every sparse or dense map with the allocator a standard map takes (C121_standard_allocator_false), for stable maps deduced from iterators over pairs, and for the pointers to map elements. Sets, default arguments and deduction from lists are proved to compile.
* **C122** (partial) Searches for consecutive integers. The model counts the blocks that a search reads (`findNodeT`, C85).  A successful search that reads `b` blocks ends in
block `b - 1` of the probe sequence, which begins at `hash >> 7` (swiss_table.hpp 808-811).  The hashes `a, …, a + n - 1` have at most
`n / 128 + 2` different values there, so the slots that `n` searches can reach with `j` blocks lie in `j` windows of
`n / 128 + W + 1` slots each (`few_soon`), and different keys lie in different slots: at most `j * (n / 128 + W + 1)` searches are that short.
Summing over `j` gives the bound on the total (`sum_large`).  `C122_consecutive_false` is about any reachable table, also after
erasures and rehashes; `C122_inserted` shows that inserting the keys yields one.  For dense containers the elements of a chain have hashes that
are congruent modulo the bucket count, and an interval of length `n` has at most `n / bucket_count` (rounded up) of them. Ordered containers keep their elements where unordered ones would (C103, C112), so both results carry over (`C122_ordered_false`, `C122_ordered_dense`). True for dense containers (C122_dense): with the hashes in an interval of length n a search visits at most n / bucket_count elements, rounded up. Refuted for all sparse and stable containers with n consecutive hashes, however they came about (C122_consecutive_false): at most j * (n/128 + W + 1) of the searches read at most j blocks, so from n = 128 * (W + 1) on they read at least 32 blocks each on average, and one reads nearly 128 as n grows. C122_inserted: such containers exist for every n and target. C122_small_partial: tables smaller than a block need one read. C122_ordered_false and C122_ordered_dense say the same of the ordered containers. B87.
* **C123** (proved) Hash functions and comparisons that answer arbitrarily. `Verif/Swiss/Wild.lean` gives every operation the hash it computes and the answers to the comparisons of its search, indexed by probe offset, position in the block and stored key. `find_node` is modelled with these answers in place of the comparison; everything after the search is the shared model, since the hash is stored in the node (`node->hash()`, swiss_table.hpp 1386, 1416) and neither function is called again. A node's `key` field is a ghost, a serial number paired with the hash at insertion, and the element is kept in `val`. `stepWild_plain` shows that each operation then equals an ordinary operation of a table with distinct keys and the hash function `Prod.snd`, so that `step_spec` applies; `does_turns` translates the result into the relation `Does` on multisets of elements, which mentions neither serial numbers nor hashes. Simplification: within one search the answer depends on the position and the stored key, which distinguishes all comparisons of that search, since none is made twice at one position. Range insertion, copies and node handles are not among the operations; node handle insertion hashes once and searches once like `insert`. C123_sparse_history: every history with arbitrary answers ends without fault (apart from the ctz(0) of C32 with 8-byte blocks) and each operation does to the multiset of elements what it may. C123_sparse_iterate: size and iteration agree with it. C123_sparse_found: a repeated hash and an accepting comparison suffice to find something. Dense containers: C124.
* **C124** (proved) Hash functions and comparisons that answer arbitrarily (dense containers). `Verif/Dense/Wild.lean`, as C123: the operations get the hashes and the answers to the comparisons, indexed by the position of the stored element and its key component; no search compares one position twice. After the search only stored hashes are used (dense_table.hpp 534-618), so the rest is the shared model. The ghost key of a component is a serial number paired with the hash at insertion, unique for each component, which is what the invariant needs. A search either ends like the search for a key that does not occur, with the same chain reference, or stops at a node like the search for that node's ghost key (`findLoopWild_found`); the existing theorems on insertion and erasure then apply. `Does` describes the effect on the list of elements by position. Not covered: range insertion and range erasure, copies. C124_dense_history: every history with arbitrary answers, in which erase(key) waits for buckets (C41), ends without fault and each operation does to the sequence of elements what it may. C124_dense_found: a repeated hash and an accepting comparison suffice to find something.
* **C125** (partial) Transparent hash functions and comparisons are recognised as in the standard. `Verif/Transparent.lean` models the trait `is_transparent`, which inherits from the member type, by four kinds of member (missing, no class, incomplete class, class with a constant), the short-circuiting `std::conjunction` of both, and overload resolution between `const key_type &` and the guarded template. An ill-formed program is an outcome of its own. The rules of the language used (no derivation from a type that is not a complete class, errors in a base clause are not substitution failures, tie-breaks of overload resolution) are trusted. Simplified: a marker class has a `value`; functions with forwarding references (`try_emplace`, `insert_or_assign`) and arguments that are iterators are left out. The code was not compiled; how libraries mark `std::equal_to<>` is knowledge about them and occurs in no hypothesis. Refuted: C125_hash_marker_false (a hash function marked with void, another type that is no class, or an incomplete class makes every lookup ill-formed, also one with a key) and C125_equal_to_false (so does std::equal_to<> beside a hash function marked with a class like std::true_type). C125_compiles_iff and C125_standard_iff say exactly when lookups compile and when they are those of the standard; C125_lookup_partial is the property where the marker of the hash function is missing, or is like std::true_type and that of the comparison is missing or like it.
* **C126** (proved) Ordered sparse and stable containers with hash functions and comparisons that answer arbitrarily. `Verif/Ordered/SwissWild.lean` uses the search with given answers and the serial numbers as ghost keys of C123 in the ordered model, where the links are in a memory of their own. `stepWild_plain` shows that each operation equals an ordinary operation with the serial numbers as keys, with and without the instrumentation for exchanges, so that `step_ok` of the ordered container applies; `does_turns` translates the result into the relation `Does` on lists of elements, which mentions neither serial numbers nor hashes and fixes the order. Simplifications as for C123; hints, range insertion, copies and merges with arbitrary answers are left out. C126_history: every history either comes to the exchange of linked nodes of C52 (C52_swiss_reclaim_false shows that this happens with proper functions too, so it cannot be left out of the statement) or ends without fault, and each operation does to the sequence what it may. C126_growing and C126_reserved: without that alternative, for histories without erasures of single elements, and for histories that reserve room first. C126_found: a repeated hash and an accepting comparison suffice to find something. C126_copy: after a history that did not come to that exchange, a copy is iterated over in the same order and the original keeps its elements. C126_move: the same of a move, which leaves the former container empty. Ordered dense containers are C127.
* **C127** (proved) Ordered dense containers with hash functions and comparisons that answer arbitrarily. `Verif/Ordered/DenseWild.lean` runs the operations with given answers of C124 on the unordered part of the ordered model, whose links are in a memory of their own. `insertStep_wild` and `eraseWild_ok` combine what these operations do to the array with what `insertWith_ok` and `eraseLinks_ok` say of the links; the relation `Does` speaks of the sequence of elements in the order of iteration and mentions neither array positions nor serial numbers. Operations that call neither function are those of C51. Simplifications as for C124; range insertion, hints, assignments and swaps are left out; `C127_copy` follows from `copyCtor_ok`, as copying calls neither function. C127_history: every history of a new container in which erase(key) waits for buckets (C41 shows that it must) ends without fault, each operation does to the sequence what it may, and iteration visits the sequence. C127_found: a repeated hash and an accepting comparison suffice to find something by each component. C127_copy: after such a history a copy has the same sequence, the original keeps it, and any further history of the copy does what it may. C127_move: likewise for a move, which leaves an empty container that can be used further. Range insertion, hints, assignments and swaps with arbitrary answers are not covered.
* **C128** (proved) merge, swap, moves and copies with hash functions and comparisons that answer arbitrarily. `Verif/Swiss/WildMany.lean` adds `merge`, `merge` of an rvalue, copies, assignments and `swap` to the operations with given answers of C123; the answers of a merge are given by the number of the element in the order of iteration. `mergeLoopWild_spec` carries through the loop that the source has the same capacity and the same elements at the positions not yet visited, that the target has room, and that what was moved is what the source lost. The relation `ManyDoes` speaks of the lists of elements only, and `Divided` ties each element that stays to the answers of its own search. Simplifications: merging a container into itself is skipped here (see the properties of merge with proper functions), as are ordered containers; the allocator is `std::allocator`; insertion of a range is a history of `reserve` and insertions, which is covered. C128_history: every program with containers that are empty at first ends without fault (apart from C32 with 8-byte blocks), each operation does to the elements of all containers what it may, and size and iteration agree; or the program comes to a copy of a container with elements and slots marked as erased (C16) or to a copy assignment outside the conditions of C17, which can go wrong with proper functions too, so that they cannot be left out of the statement. C128_plain: programs without copies and copy assignments do not come to that. C128_found: a repeated hash and an accepting comparison suffice to find something. Merging a container into itself and ordered containers with arbitrary answers are not covered.
* **C129** (proved) Copies, moves and swaps of dense containers with hash functions and comparisons that answer arbitrarily. `Verif/Dense/WildMany.lean` adds copies, assignments and `swap` to the operations with given answers of C124; they call neither function, since the hashes are stored in the nodes. The containers are numbered; `copy i j` gives the number `i` to a copy of container `j`. Each step follows from `stepWild_ok`, `copyCtor_ok`, `copyAssign_ok`, `moveAssign_ok` and `swap_ok` with the hash function that reads the hash off the key and serial number. `Stuck` names the two wrong operations by what a program can observe, `bucket_count()` and `size()`. Simplifications: `std::allocator`, so that copy assignment does not propagate the allocator and move assignment does; as for C124 otherwise. C129_history: every program either ends without fault, each operation doing to the sequences of all containers what it may, or comes to erase(key) without buckets (C41) or to the assignment of an empty container to one with elements, (C45), which are wrong for proper functions too, so that they cannot be left out of the statement. C129_plain: programs without these two functions come to neither. C129_found: a repeated hash and an accepting comparison suffice to find something, also in copies. std::allocator only; ordered containers are not covered.

## 4. Disagreements between code and properties

Found by reading; "(witness: X)" names the theorem in which the model confirms it, the others are notes on code that is not (or not at that level of
detail) modelled.

* B1 `swiss_table::rehash(0)` with two or more elements: `align_capacity(0)` is 1, the table is rebuilt with one bucket and overflows (swiss_table.hpp 1124-1131, 1376-1393) (witness: C11).
* B2 Copying a swiss table drops tombstones: an element that had overflowed past a once-full block is not found in the copy (1468-1473) (C16). Moving between unequal allocators does the same (1486-1521).
* B3 Copy assignment into a swiss table with a larger bucket count keeps slot indices although probing depends on the bucket count (558-571, 1461-1473) (C17).
* B4 Copy assignment from an empty swiss table leaves the old control bytes: size 0 but iteration visits destroyed elements (864-866, 1454-1458, 1522-1530) (C17). It also resets `m_num_empty` without clearing tombstones. The same for the source of a move assignment if the allocators are equal but do not propagate.
* B5 Range/initializer-list/bucket-count constructors pass an unaligned capacity (839-846): undefined unless the length is 2^k-1 (C25, C26).
* B6 `generic_ctz`, `generic_clz` (84-99) and MSVC `clz` (153-171) are off by one (C31).
* B7 8-byte `count_available` computes ctz(0) when all eight slots are free (289-292, 322-331) (C32).
* B8 Combined buffer `operator=` deallocates `capacity` nodes instead of `buffer_size(capacity)` (644-665) (C35); this hits every move assignment with `std::allocator` in release builds where the combined layout is chosen.
* B9 `dense_table::do_erase` dereferences a null chain on a table without buckets (742) (C41).
* B10 `erase_if` on unordered dense containers caches `cend()` which erase invalidates (dense_set.hpp, dense_map.hpp) (C43).
* B11 Copy assignment from an empty dense table leaves stale bucket chains (823-834): old keys are still "found" (C45).
* B12 `push_node` increments the size before constructing (552-554) (C47).
* B13 `realloc_buffer` frees before allocating (utility.hpp 232-241) (C48).
* B14 dense `do_insert` reallocates before reading its key argument (675-682) (C49).
* B15 dense load factor is checked before, not after, the insertion (775-781) (C50).
* B16 node swap in `rehash_deleted` exchanges raw link offsets (table_common.hpp 163-168, 292-298, 491-497) (C52: a queue of 23 elements after 34 insertions with 16-byte blocks, 11 after 18 with 8-byte blocks, follows a dangling link).
* B17 ordered dense erase returns the successor's old address although it may just have been moved (dense_table.hpp 595-618) (C55, C56, C57).
* B18 `swap(ordered_link&, ordered_link&)` mishandles empty rings (170-176) (C58).
* B19 ordered merge never transfers the first element and appends the others in reverse (swiss_table.hpp 1109-1112) (C60).
* B20 hint: the new element is placed after the hint, `end()` means the front; the hint dangles if the table grows (1256-1300; dense_table.hpp 582, 802-821) (C61).
* B21 After `a = std::move(b)` with a propagating allocator b has no buckets but its old `m_num_empty`, so `b.reserve(n)` does nothing (C12).
* B22 `stable_node::construct(alloc, extracted_type&&)` with unequal allocators calls `other.do_destroy()` without clearing `m_ptr`: double free (table_common.hpp 307-502).
* B23 `replace` destroys the mapped value before constructing the new one (table_common.hpp 246-258, 447-459): a throwing constructor, or an argument that refers to the old value, is undefined. `do_emplace`'s temporary leaks if `do_insert` throws (swiss_table.hpp 1318-1329).
* B24 unordered swiss `erase(first, last)` uses `--last` on a forward-only iterator and does not compile.
* B25 `resize` (523-550) tests the new instead of the old capacity before freeing; `allocate` (552-557) leaks the control bytes if the node allocation throws; `reallocate` (558-571, 700-708) frees before allocating, which leaves dangling pointers that the destructor frees again; a container constructed with bucket count 0 owns W control bytes that assignment leaks; an exception in `copy_data` of the copy constructor leaks (C63).
* B26 NEON: masks have whole bytes set (fine as used); type errors, likely does not compile. The portable block assumes little endian and defines `count_available` twice.
* B27 `find_chain_ptr<Is...>` does not compile for `erase(iterator)` with two or more and `erase(key)` with three or more key components.
* B28 dense `bucket_iterator` does not compile when instantiated; `end(n)` would never equal the end of the chain of `begin(n)`. `emplace_hint` returns a pair as iterator (dense, and swiss_table.hpp 1028); `emplace_or_replace(hint, ..)` and `insert_node(hint, ..)` pass a const_iterator where another type is needed.
* B29 Dense moves with non-propagating allocators leave stale chains in the source (C46 has the two cases).
* B30 `stable_node::construct`: if the element's constructor throws, the allocated memory leaks.
* B31 `to.construct(alloc, from)` in `copy_data` passes a non-const node, so for elements constructible from anything the wrong overload is chosen.
* B32 ordered `erase(first, first)` returns `end()` instead of `last` (C57). Ordered dense `erase(end())` computes with the header's address.
* B33 Move construction and move assignment of stable containers between unequal allocators hand over the element pointers (`move_from`, table_common.hpp 466-489), which the new owner later frees with its own, different allocator (C67).
* B34 `try_emplace`, `insert_or_assign` with an argument that refers to an element of the same container: read from freed memory if the table grows (dense: also `emplace`), a dead or another element's value if erased slots are reclaimed in place, a destroyed value if it is the value being replaced (swiss_table.hpp 1264-1300, 1330-1359; table_common.hpp 246-258, 447-459) (C65).
* B35 `insert(node_type&&)` and `insert_or_assign(node_type&&)` of an empty node handle dereference a null pointer (sparse: an indeterminate node); the standard containers do nothing (swiss_table.hpp 962-1023) (C67).
* B36 The temporary of `do_emplace` (1318-1329) has no destructor: if the hash function, the comparison or the growth throws, its element (and block) leaks (C67).
* B37 `swap` of sparse and stable containers (1140-1146, 1531-1536, 584-592) never exchanges the allocators, even if they propagate on swap; afterwards buffers and blocks are freed with the wrong one (C67). The `swap` of the buffer that would (593-600, 725-730) is unused and would not compile (hidden name).
* B38 Copying or moving (unequal allocators) an empty container into an empty one with slots marked erased resets `m_num_empty` but not the marks (`copy_data` 1453-1458, `move_data` 1491-1496): later no unused slot is left and lookups do not end (C17, with std::allocator). Move assignment between equal allocators that do not propagate swaps the target's control bytes of destroyed elements into the source (C68).
* B39 No bulk operation on sparse elements handles exceptions: `copy_data` and `move_data` set `m_size` last, a constructor that throws out of them never frees the buffer, `resize` has already exchanged the buffers when the relocation throws (523-550, 681-693), `rehash_deleted` has already marked all elements as erased (C69, C70). Stable containers only move pointers here; their copies share the problem.
* B40 Dense `do_emplace` (620-644) appends the element before it calls the hash function and the comparison and does not remove it if they throw (C71).
* B41 The dense copy constructor leaks both buffers if an element throws; `move_data` (860-885) resets the size of the source only at the end, although its elements are destroyed one by one (C72).
* B42 The handler in dense `resize_data` (783-801) frees the new array although elements have already been moved into it and destroyed in the old one; `erase_node` (594-618) rewires the chains before the assignment that may throw (C73).
* B43 Dense `copy_data` (823-842) keeps the pointers to buffers it has freed if the allocation of the new ones fails, and initialises the buckets only after both allocations (C74).
* B44 Dense `reserve(n)` rounds n / max_load_factor down: with factors above 1 the last insertions rehash nevertheless (358-362) (C75).
* B45 `operator[](key_type &)` (dense_map.hpp 548, 1198; same in sparse_map.hpp 517, stable_map.hpp 564) forwards the caller's variable as an rvalue: `dense_map<std::string, int> m; m[s] = 1;` empties `s`, and the next `m[s]` inserts the empty string (C77). An overload for `key_type &&` was probably intended.
* B46 `dense_multimap::try_emplace(key_type &&, ...)` moves from the key even if nothing is inserted (dense_table.hpp 417-421 takes the tuple by value) (C77). Sparse and stable `try_emplace(key_type &&)` never move the key, so move-only keys do not compile.
* B47 `packed_map_ref` before C++20 compares componentwise (`first < other.first && second < other.second`), which is no strict weak order and disagrees with `std::pair` (table_common.hpp 762-769) (C78). Since C++20 there is no order at all: `synth_three_way(const T &, const T &)` has a second template parameter that cannot be deduced (utility.hpp 261-264). `packed_map_ptr()` dereferences null pointers (table_common.hpp 797); `random_access_iterator_base::operator+=` returns the wrong type (606-607) and `operator[]` of map iterators binds a temporary (613), both do not compile.
* B48 On big-endian targets the portable block is reversed, so `lsb_index` gives the mirrored slot (utility.hpp 117-129, swiss_table.hpp 176, 206) (C79).
* B49 Load factor arithmetic in `float`: `max_size()` converts a float >= 2^64 to `size_type` (undefined) whenever `max_load_factor() >= 1` (dense_table.hpp 334, 481); beyond 2^24 elements `load_factor() >= m_max_load_factor` is off, so that `reserve(29360128)` on an empty container gives 2^25 buckets and inserting these elements rehashes nevertheless (361, 779); `max_load_factor(f)` accepts 0, negative and tiny values, with which `rehash` converts infinities or numbers >= 2^64 (449, 454) (C81).
* B50 Ordered dense containers and exceptions: `resize_data` relocates with `bucket_node::relocate`, which first moves the link into the new node (table_common.hpp 234-239) and then the element; if this throws for the first element already, the links lead into the freed array (dense_table.hpp 790-799). Copy assignment copies the header with its relative offsets first and links it only after all elements are copied (250-275, 852-858), so an exception leaves it pointing nowhere. `do_emplace` leaves a counted node that is in no chain; `erase_node` unlinks the node before the assignment that may throw (C82).
* B51 the lambda in `merge` of the sparse and stable containers is declared `noexcept` (swiss_table.hpp 1104-1109) although it calls the hash function, the comparison and (for sparse containers) move constructors, and allocates for stable containers with unequal allocators: an exception ends the program (C84).
* B52 (efficiency) in tables smaller than a metadata block the block read at a position contains a slot and its mirror, so a search may compare the same element twice (the example beside C84_strong).
* B53 (efficiency) the portable `match_eq` reports a byte that differs from the tag in bit 0 if the byte before it is reported (the borrow of `x - lsb`, swiss_table.hpp 313-320): elements with another tag are compared (C85_portable_tag_false).
* B54 an exception thrown while an ordered sparse container copies elements in its copy assignment leaves it with size 0 and the header offsets of the source; `begin() != end()`, and `clear` does not reset the header because it looks at the size first (swiss_table.hpp 856-869, 916-929; C86_copy_assign_false).
* B55 an exception thrown while an ordered sparse container relocates an element into a larger array leaves a linked node without element in the iteration (swiss_table.hpp 1376-1393; table_common.hpp 234-239; C86_growth_false).
* B56 dense `end(n)` is a null pointer with position 0 while the chain of `begin(n)` ends at `m_dense + npos`, so that no local iteration and no `bucket_size(n)` ends (dense_table.hpp 338-345; C87_local_iteration_false); `bucket(key)` divides by zero in a container without buckets (347; C87_bucket_false).
* B57 iterators of unordered dense containers: `operator+=` and `operator-=` return the underlying pointer as a reference to the iterator, and `operator[]` binds `auto &` to the temporary reference object of a map; both do not compile when used (table_common.hpp 606-613). There is no `n + it`. `iterator_concept` is declared contiguous (585-588) although consecutive elements are not adjacent in memory.
* B58 `ordered_iterator` offers `<`, `<=`, `>`, `>=` and `<=>`, which compare addresses of links and not positions: after `erase(begin())` the last element of an ordered dense container compares less than the first, in ordered sparse containers the order is that of the slots, and whether an iterator is less than `end()` depends on the allocator (table_common.hpp 567-577; C88_ordered_dense_false, C88_ordered_swiss_false, C88_ordered_dense_end_false).
* B59 `merge(std::move(src))` into an empty container is a move assignment (swiss_table.hpp 1116-1122): it replaces the hash function, the key comparison and possibly the allocator of the destination, it loses elements for lookups between unequal allocators (C91_swiss_false, as B2), and in ordered containers it keeps the order and takes the first element, which `merge(src)` does not (C91_ordered_swiss_lvalue_false, B19).
* B60 `swap` of dense containers asserts that the allocators are equal after exchanging them (dense_table.hpp 468-474), so that containers with unequal allocators that propagate on swap, for which the exchange is meant, cannot be swapped (C92_swap_false).
* B61 `operator=` of dense containers with propagating allocators calls `deallocate` for arrays that do not exist (dense_table.hpp 261-270, 287-296; the destructor tests for null), which the allocator requirements forbid (C92_null_false). The constructors with a bucket count and the copy constructors leak the array allocated first if the second allocation throws (217-225, 230-237, 836-838; C92_constructor_false, C92_copy_constructor_false).
* B62 move assignment of sparse containers and move construction (with allocator) and move assignment of dense containers are declared `noexcept` but allocate, and move elements, if the allocators are unequal and do not propagate (swiss_table.hpp 870-884, 1484-1521; dense_table.hpp 244-248, 276-302, 860-885): a failing allocation calls `std::terminate` (C94). Conversely the move constructors of the sparse buffers lack `noexcept` (swiss_table.hpp 474, 642), so that the condition of `swiss_table(swiss_table &&)` (851) never holds although nothing in it throws, and `std::vector` copies sparse and stable containers when it grows.
* B63 `insert(first, last)` with random access iterators reserves `size() + distance` (swiss_table.hpp 981-987, 930). If the container is nearly full and has erased slots, `reserve` allocates a new buffer of the same size to remove them, gaining as little as one slot, whereas a single insertion would grow. Alternating erasures with insertions of one-element ranges (or with `reserve(size() + 1)`) therefore takes linear time each (C95_range_false).
* B64 `insert(first, last)` of dense containers with random access iterators (also `insert({x})`) calls `reserve(size() + distance)` (dense_table.hpp 388-394), and `reserve` reallocates the array to exactly that size (360): n elements inserted by ranges of one are moved n(n-1)/2 times, whereas single insertions double the array (C96_range_false). Besides, `reserve` and `rehash` clear all buckets and put every element into its chains again whenever the bucket count asked for differs from the current one, also if it is smaller and the buckets stay as they are (450, 764-773; C96_reserve_false).
* B65 Node handles assert equal allocators at the end of move assignment and of `swap` (table_common.hpp 334-347, 360-376). `swap` asserts also if the allocators propagate and have just been exchanged; `node_type nh; nh = c.extract(k)` asserts unless the allocator of c equals a default-constructed one or propagates, although the empty target has nothing to free (std::node handles allow it); and `nh = c.extract(absent)` asserts because the handle of a failed extraction has a default-constructed allocator (swiss_table.hpp 1083, 1093) (C67).
* B66 Copy and move assignment assign the link, the hash function and the comparator before they erase the elements (swiss_table.hpp 860-864 and 874-878, dense_table.hpp 254-259 and 280-285). If assigning the comparator throws, the container has its old elements and the new hash function: elements whose hash value (dense; tag, sparse) differs are not found any more, and can be inserted a second time (C97_dense_throw_false, C97_swiss_throw_false).
* B67 In sparse containers with erased slots an insertion may relocate elements inside the buffer (`rehash_deleted`, swiss_table.hpp 1394-1446) while the bucket count stays the same and the size stays below the number reserved: iterators and references (of non-stable containers) are invalidated although neither `bucket_count()` nor `size()` tells (C98_swiss_reserve_false).
* B68 The insertion functions of dense containers call `maybe_resize()` before they look for the key (dense_table.hpp 620-723): in a full container an insertion that is rejected reallocates the array and invalidates all iterators and references (C98_dense_rejected_false).
* B69 (observed, not modelled) `stable_set<Key>` takes `value.first` as the key whenever `Key` has members `first` and `second` (stable_traits.hpp 9-26), so a `stable_set<std::pair<A, B>>` does not compile with the usual hash functions, and with a generic one it is keyed by `first` alone. The default constructor of `packed_map_ptr` dereferences null pointers (table_common.hpp 797-801). `empty_base(std::tuple)` does not compile when used (34-38, 63-67).
* B70 Ordered containers assign the header link, whose offsets are relative to its own address, before the hash function and the comparator (swiss_table.hpp 860-862, dense_table.hpp 254-256). If assigning one of these throws, `begin()` lies where the first element of the other container would be if it were laid out around this header: if the other one is empty, nothing is iterated over though no element was erased; otherwise iteration usually leaves the container (C97_ordered_swiss_throw_false, C97_ordered_dense_throw_false).
* B71 `maybe_resize` of ordered dense containers (dense_table.hpp 807-814) subtracts pointers into different arrays (undefined) and moves the hint by whole links of 16 bytes: if the arrays are not a multiple of 16 bytes apart (nodes need an alignment of 8 only, so allocators may do this), the hint points into the middle of a node and the new element is linked to storage that is no link (C61, witness: C61_dense_hint_words_false).
* B72 `load_factor()` of a full sparse container exceeds `max_load_factor()`: the bucket count is 2^k-1, of which 7*2^(k-3) may be used, and up to 7 buckets all of them (6 of 7 with 8-byte blocks) (swiss_table.hpp 817-822, 912, 1134); from 2^25 buckets on rounding hides it. Without buckets it is 0/0, not a number (dense containers as well, dense_table.hpp 336) (C100).
* B73 (permitted by the standard for std::unordered_map too) `emplace(std::move(x))` with a key that is present destroys the value of `x`: the temporary node is constructed first (swiss_table.hpp 1318-1329, dense_table.hpp 620-644) (C101_emplace_false, C101_dense_emplace_false).
* B74 (performance) `begin()` of sparse and stable containers scans from slot 0 each time (swiss_table.hpp 429-437, 898), so that `while (!c.empty()) c.erase(c.begin())` takes quadratic work, and `begin()` of an empty container with n buckets loads n/16 (or n/8) blocks; `erase(key)`, too, looks for the next element to make the iterator it returns (1361-1368) (C102_begin_false, C102_front_false, C102_erase).
* B75 `reserve(n)` and `rehash(n)` of sparse and stable containers do not check n. For n above 7*2^60 (for instance `reserve(-1)`) the bucket count is 2^64-1; in the combined layout `buffer_size` (swiss_table.hpp 619-629) then wraps to 0, `allocate(0)` succeeds, and `fill_empty` writes 15 (or 7) bytes and `meta[-1]` outside the block, where `std::unordered_map` would throw. With separate blocks the allocation of the nodes throws (by luck: the block of control bytes has wrapped to 15 bytes). `size_to_min_capacity` divides as a signed number and overflows for 2^63 (822-828) (C104_reserve_false, C104_rehash_false, C104_bucket_count_false, C104_signed_false).
* B76 `capacity()` of sparse and stable containers (swiss_table.hpp 910) does not account for erased slots: insertions may replace the buffer (or relocate all elements) although the container holds fewer than `capacity()` elements; up to the block size erased slots are never reclaimed, so that a queue of 8 elements (capacity of 15 buckets: 14) gets 31 buckets. `capacity()` of dense containers (dense_table.hpp 335) is the capacity of the buckets only, not of the array, and may be less than `size()` (B15). `reserve(max_size())` does not throw with the combined layout (B75) (C105).
* B77 (observed, not modelled) the non-member `swap` of `dense_map`, `dense_multimap`, `sparse_map` and `stable_map` names the wrong type in its `noexcept` (`sparse_map<K, H, C, A>` without the mapped type, sparse_map.hpp 570), and those of the other containers refer to `is_nothrow_swappable_v` of the very type they swap, so that the exception specification depends on itself. For `is_transparent` see B88.
* B78 after `max_load_factor(1 / q)` with a value that makes the present load too high, an insertion into a dense container rehashes to exactly `size() * q` buckets (dense_table.hpp 449), for which `load_factor() >= max_load_factor()` (line 779) still holds: the next insertion rehashes again although the first one has just made room (C106).
* B79 erasing from a dense container changes the relative order of the remaining elements (dense_table.hpp 611-615, by design), which the standard forbids for `erase` of unordered containers; code that erases while iterating visits the moved element, but code that relies on the order breaks (C107_dense_false).
* B80 (performance) erased slots are never marked unused again, even if the block around them has unused slots (swiss_table.hpp 1301-1316), so that failing searches cost as much as in the fullest state since the last rebuild, however many elements have been erased since; only `clear`, `rehash` or growth helps (C110_erase, C110_absent; the example beside them).
* B81 arch.hpp 26-34 tests `_M_X64` only inside of `#ifdef _M_IX86_FP`, which 64-bit MSVC does not define; so it gets the portable variant, which does not compile (B26), as with `TPP_NO_SIMD` on every target (C115). Without `__BYTE_ORDER__` the code takes every machine for little endian (arch.hpp 48-50, utility.hpp 87).
* B82 `reserve(n)` of a sparse or stable container compares `n` with the size and the unused slots, but computes the new bucket count from `n` alone (swiss_table.hpp 930): with erased slots it can lower the bucket count, down to one bucket, and so can `insert({x})` and the insertion of a random access range, which call it (C116).
* B83 deduction guides (C117): those of all sets for two iterators take `value_type::first_type` as the key (utility.hpp 249-256), so `sparse_set s(v.begin(), v.end())` does not compile for elements that are not pairs and is a set of the first members for pairs; those of all maps for two iterators and an allocator leave out the mapped type (sparse_map.hpp 598, 1193, stable_map.hpp 645, 1287, dense_map.hpp 653, 1303); those of maps for two iterators keep the `const` of the key of another map's elements; those of stable maps for two iterators default to `std::allocator<std::pair<K, M>>` (stable_map.hpp 638, 1280) where the class defaults to `std::allocator<std::pair<const K, M>>`, so the deduced map is not a `stable_map<K, M>` and does not even compile (C121_deduced_range_iff; the guides for lists are right); and there are no constructors for a range or list followed by an allocator alone.
* B84 `dense_table` and `swiss_table` derive from `empty_base<Kh>` and `empty_base<Kc>` (dense_table.hpp 71, swiss_table.hpp 745), so a container whose hash function and comparison are the same class does not compile (C121_one_class_false).
* B85 the nodes of sparse and dense maps hold `std::pair<K, M>`, and `destroy(A &)` (table_common.hpp 258) and, in dense tables, `construct` mix the allocator of the program with the one rebound to that type; so the maps do not compile with an allocator of their own `value_type`, `std::pair<const K, M>`, which is what the standard demands (C121_standard_allocator_false).
* B86 `packed_map_ptr()` dereferences null pointers and its conversion to a pointer to constant elements does not compile (table_common.hpp 797-799, C121_pointer_false); (observed, not modelled) neither do the constructors of `empty_base` from a tuple (table_common.hpp 33-38, 62-67), which expand `std::forward<Args>(args)...` over an `args` that is no pack.
* B87 (performance, swiss_table.hpp 808-811, 1217) The positions of sparse and stable containers are taken from `hash >> 7`, and the hash is not mixed first. With the identity as hash function, which `std::hash` of integers (the default of every container) is in common standard libraries, 128 consecutive integers start at the same slot. Successful searches among `n` consecutive integers read at least 32 blocks on average from `n = 128 * (W + 1)` on, for every table and history (`C122_consecutive_false`); arbitrary hashes need about one.
* B88 `is_transparent` (table_common.hpp 192-193) inherits from `T::is_transparent`, so only a complete class such as `std::true_type` can be used as marker. With `using is_transparent = void`, the usual way, or `std::equal_to<>` beside a transparent hash function, every call of `find`, `contains` or `erase` is ill-formed, even one with a key; a marker `std::false_type` switches transparency off (`C125_hash_marker_false`, `C125_equal_to_false`, `C125_standard_iff`). Inheriting from `std::true_type` would repair it.


## 5. Not expressible / out of scope

Members that do not compile when instantiated and so have no behaviour to model: `emplace_hint`, `emplace_or_replace(hint, ..)`,
`insert_node(hint, ..)`, range erase on unordered swiss containers (no `operator--`), `erase(iterator)` on multi-key dense containers
(`find_chain_ptr<Is...>`; modelled as evidently intended), local (bucket) iterators, random-access `+=`, `try_emplace(hint, ..)` on dense_map, the
portable meta_block (modelled with one definition of `count_available`).

## 6. Tests of the theorems

`seeded/LOG.jsonl` has one line per wrong program: the model definition edited, the edit, the claim it breaks, the theorems that no longer check.  The
edits are made in a copy; a property theorem counts as failing if it or a lemma it uses fails.  Edits whose claim no theorem noticed are listed with
the theorems tightened for them.

## 7. Axioms per theorem

Output of `#print axioms`, grouped.

propext, Classical.choice, Quot.sound (516):
`Swiss.C01_history_agrees`, `Swiss.C01_history_agrees_sse2`, `Swiss.C01_history_agrees_direct`, `Swiss.C02_no_fault`, `Swiss.C02_no_fault_sse2`, `Swiss.C02_no_fault_direct`, `Swiss.C02_erase_iterator`, `Swiss.C03_no_duplicate_keys`, `Swiss.C04_size_is_iteration_length`, `Swiss.C04_size_is_cardinality`, `Swiss.C05_iteration_exactly_once`, `Swiss.C06_insert`, `Swiss.C07_insert_or_assign`, `Swiss.C08_erase_iterator`, `Swiss.C08_erase_key`, `Swiss.C09_clear`, `Swiss.C10_reserve`, `Swiss.C10_rehash`, `Swiss.C11_rehash_zero_false_all`, `Swiss.C11_rehash_zero_iff`, `Swiss.C11_rehash_zero_partial`, `Swiss.C12_reserve_false_all`, `Swiss.C12_reserve_partial`, `Swiss.C13_bucket_count`, `Swiss.C14_reclaim`, `Swiss.C15_churn_bound`, `Swiss.C16_copy_iff`, `Swiss.C16_copy_partial`, `Swiss.C16_copy_no_erase_partial`, `Swiss.C17_copy_assign_iff`, `Swiss.C17_copy_assign_empty_false`, `Swiss.C17_copy_assign_partial`, `Swiss.C18_move_construct`, `Swiss.C18_move_assign`, `Swiss.C20_merge`, `Swiss.C21_extract`, `Swiss.C21_insert_node`, `Swiss.C21_round_trip`, `Swiss.C22_address_stable`, `Swiss.C22_address_from_insertion`, `Swiss.C22_erase_iterator`, `Swiss.C22_merge`, `Swiss.C22_move_swap`, `Swiss.C22_extract`, `Swiss.C23_eq`, `Swiss.C24_at`, `Swiss.C24_index`, `Swiss.C25_range_ctor_false_all`, `Swiss.C25_range_ctor_iff`, `Swiss.C25_range_ctor_partial`, `Swiss.C26_bucket_count_ctor_false_all`, `Swiss.C26_bucket_count_ctor_iff`, `Swiss.C26_bucket_count_ctor_partial`, `Swiss.C27_erase_if`, `Swiss.C28_constructor_throws`, `Swiss.C29_insert`, `Swiss.C29_insert_or_assign`, `Swiss.C29_reserve`, `Swiss.C29_rehash`, `Swiss.C30_sse2`, `Swiss.C30_portable`, `Swiss.C30_neon`, `Swiss.C30_table`, `Swiss.C31_bit_scans_partial`, `Swiss.C32_iteration_partial`, `Swiss.C32_iteration_sse2_partial`, `Swiss.C32_iteration_iff`, `Swiss.C32_iteration_false_all`, `Swiss.C33_min_capacity_word`, `Swiss.C33_capacity`, `Swiss.C34_probe`, `Swiss.Buf.C35_layout`, `Swiss.Buf.C35_dealloc_false`, `Dense.C36_history_agrees`, `Dense.C36_history_agrees_buckets`, `Dense.C36_behaves`, `Dense.C37_order`, `Dense.C38_components_distinct`, `Dense.C38_find_component`, `Dense.C38_find_sound`, `Dense.C39_insert`, `Dense.C39_emplace`, `Dense.C40_erase`, `Dense.C40_erase_absent`, `Dense.C41_erase_absent_partial`, `Dense.C42_erase_iterator`, `Dense.C43_erase_if_false`, `Dense.C43_erase_if_partial`, `Dense.C44_erase_range`, `Dense.C45_copy_constructor`, `Dense.C45_copy_assign_false`, `Dense.C45_copy_assign_partial`, `Dense.C46_move_constructor`, `Dense.C46_move_assign`, `Dense.C46_swap`, `Dense.C46_nonpropagating_stale`, `Dense.C46_unequal_stale`, `Dense.C47_insert_throw_false`, `Dense.C47_emplace_throw_false`, `Dense.C47_insert_throw_partial`, `Dense.C48_rehash_false`, `Dense.C48_insert_false`, `Dense.C48_rehash_partial`, `Dense.C48_elements_partial`, `Dense.C49_dense_partial`, `Swiss.C49_swiss_insert_self`, `Dense.C50_load_bound_partial`, `Dense.C50_load_divisible_partial`, `Dense.C50_load_iff`, `Dense.C50_load_false_all`, `ODense.C51_dense_insertion_order`, `ODense.C51_dense_insertion_order_worlds`, `ODense.C51_dense_position_kept`, `OSwiss.C52_swiss_insertion_order_partial`, `OSwiss.C52_swiss_growing_partial`, `OSwiss.C52_swiss_reserved_partial`, `OSwiss.C52_swiss_position_kept_partial`, `OSwiss.C52_swiss_exchange_false`, `ODense.C53_dense_increment_decrement`, `ODense.C53_dense_reverse`, `OSwiss.C53_swiss_increment_decrement_partial`, `OSwiss.C53_swiss_reverse_partial`, `OSwiss.C54_swiss_erase_iterator_partial`, `OSwiss.C54_swiss_erase_key_partial`, `OSwiss.C54_swiss_erase_absent_partial`, `ODense.C55_dense_erase_iterator_partial`, `ODense.C55_dense_erase_key_partial`, `ODense.C55_dense_successor_false`, `ODense.C56_dense_erase_if_partial`, `ODense.C56_dense_erase_if_false`, `OSwiss.C56_swiss_erase_if_partial`, `ODense.C57_dense_range_one_partial`, `ODense.C57_dense_range_false`, `ODense.C57_dense_range_jump_false`, `ODense.C57_dense_range_two_partial`, `ODense.C57_dense_range_tail_partial`, `OSwiss.C57_swiss_range_partial`, `ODense.C58_dense_swap_partial`, `ODense.C58_dense_swap_false`, `ODense.C58_dense_swap_empty_false`, `OSwiss.C58_swiss_swap_empty_false`, `OSwiss.C58_swiss_swap_partial`, `ODense.C59_dense_copy`, `ODense.C59_dense_copy_assign`, `ODense.C59_dense_move`, `ODense.C59_dense_move_assign`, `ODense.C59_dense_move_assign_nonprop`, `ODense.C59_dense_move_unequal`, `ODense.C59_dense_move_assign_unequal`, `OSwiss.C59_swiss_copy_partial`, `OSwiss.C59_swiss_copy_assign_partial`, `OSwiss.C59_swiss_move_partial`, `OSwiss.C59_swiss_move_assign_partial`, `OSwiss.C60_swiss_merge_actual_partial`, `OSwiss.C60_swiss_merge_partial`, `ODense.C61_dense_hint_words_partial`, `ODense.C61_dense_hint_words_needed`, `ODense.C61_dense_hint_words_false`, `ODense.C61_dense_behind_hint_partial`, `ODense.C61_dense_end_hint_partial`, `ODense.C61_dense_hint_false`, `OSwiss.C61_swiss_behind_hint_partial`, `OSwiss.C61_swiss_end_hint_partial`, `OSwiss.C61_swiss_growth_dangling`, `Swiss.C62_destructor`, `Swiss.C62_history`, `Swiss.C62_history_sse2`, `Swiss.C62_live_elements`, `Dense.C62_dense_destructor`, `Dense.C62_dense_live`, `Dense.C62_dense_history`, `Dense.C64_insert_range`, `Dense.C64_construct_range`, `Dense.C64_assign_range`, `Swiss.C64_swiss_insert_range`, `Swiss.C64_swiss_assign_range`, `Swiss.C65_sparse_try_emplace_partial`, `Swiss.C65_sparse_try_emplace_false`, `Swiss.C65_sparse_insert_or_assign_partial`, `Swiss.C65_sparse_assign_self_false`, `Swiss.C65_sparse_insert_or_assign_false`, `Swiss.C65_stable_try_emplace`, `Swiss.C65_stable_insert_or_assign_partial`, `Swiss.C65_stable_assign_self_false`, `Dense.C65_dense_try_emplace_partial`, `Dense.C65_dense_emplace_partial`, `Dense.C65_dense_insert_or_assign_partial`, `Dense.C65_dense_false`, `Dense.C65_dense_assign_self_false`, `Swiss.C66_swiss_false`, `Swiss.C66_swiss_partial`, `Dense.C66_dense_false`, `Dense.C66_dense_partial`, `Dense.C66_dense_absent_false`, `Swiss.C67_program_partial`, `Swiss.C67_no_leak_partial`, `Swiss.C67_addresses`, `Swiss.C67_copy`, `Swiss.C67_throw_false`, `Swiss.C67_node_unequal_false`, `Swiss.C67_empty_handle_false`, `Swiss.C67_move_unequal_false`, `Swiss.C67_merge_unequal_false`, `Swiss.C67_handle_assign_false`, `Swiss.C67_handle_init_false`, `Swiss.C67_handle_absent_false`, `Swiss.C68_move_construct_partial`, `Swiss.C68_move_construct_false`, `Swiss.C68_move_assign_unequal_partial`, `Swiss.C68_move_assign_unequal_false`, `Swiss.C68_move_assign_equal_partial`, `Swiss.C68_move_assign_equal_false`, `Swiss.C69_copy_construct_false`, `Swiss.C69_copy_assign_false`, `Swiss.C69_copy_assign_first_partial`, `Swiss.C69_move_assign_false`, `Swiss.C70_growth_partial`, `Swiss.C70_growth_false`, `Swiss.C70_reclaim_partial`, `Swiss.C70_reclaim_false`, `Swiss.C70_insert_false`, `Dense.C71_insert`, `Dense.C71_emplace_false`, `Dense.C71_calls`, `Dense.C72_copy_assign`, `Dense.C72_copy_construct_false`, `Dense.C72_move_assign_iff`, `Dense.C73_room_iff`, `Dense.C73_erase_false`, `Dense.C73_erase_last_partial`, `Dense.C74_buckets_iff`, `Dense.C74_elements_iff`, `Dense.C75_reserve_partial`, `Dense.C75_reserve_iff`, `Dense.C75_references`, `Dense.C75_rehash`, `Dense.C76_at`, `Dense.C76_index`, `Dense.C76_index_assign`, `Dense.C76_eq`, `Dense.C77_try_emplace`, `Dense.C77_index_iff`, `Dense.C77_index_false`, `Dense.C77_index_partial`, `Dense.C77_multi_try_emplace_false`, `Refs.C78_iff`, `Refs.C78_partial`, `Swiss.C79_little`, `Swiss.C79_big_iff`, `Swiss.C79_big_false`, `Swiss.C79_big_partial`, `Swiss.C80_step`, `Swiss.C80_history`, `Swiss.C80_agrees`, `Swiss.C80_mirror`, `Swiss.C80_probe`, `F32.C81_full_exact`, `F32.C81_full_exact_multiple`, `F32.C81_full_pow`, `F32.C81_early`, `F32.C81_late`, `F32.C81_div_exact`, `F32.C81_div_near`, `F32.C81_div_off`, `Dense.C81_reserve_partial`, `Dense.C81_reserve_false`, `F32.C81_max_size`, `F32.C81_tiny`, `ODense.C82_insert_call`, `ODense.C82_emplace_call_false`, `ODense.C82_insert_throw_false`, `ODense.C82_insert_throw_partial`, `ODense.C82_room_false`, `ODense.C82_copy_assign_false`, `ODense.C82_move_assign_false`, `ODense.C82_erase_false`, `Swiss.C83_swiss_history`, `Swiss.C83_swiss_unique`, `Swiss.C83_swiss_transparent`, `Swiss.C83_swiss_transparent_erase`, `Swiss.C83_swiss_key_stays`, `Dense.C83_dense_history_partial`, `Dense.C83_dense_unique`, `Dense.C83_dense_transparent`, `Dense.C83_dense_transparent_erase_partial`, `Swiss.C84_strong`, `Swiss.C84_insert_node`, `Swiss.C84_range`, `Swiss.C84_erase_if`, `Swiss.C84_emplace_false`, `Swiss.C84_emplace_partial`, `Swiss.C84_merge_false`, `Swiss.C84_merge_partial`, `Swiss.C85_swiss_search_partial`, `Swiss.C85_swiss_twice_false`, `Dense.C85_dense_search`, `OSwiss.C86_insert_call`, `OSwiss.C86_erase_call`, `OSwiss.C86_erase_if`, `OSwiss.C86_insert_range_partial`, `OSwiss.C86_insert_throw_partial`, `OSwiss.C86_growth_false`, `OSwiss.C86_copy_assign_false`, `OSwiss.C86_move_assign_false`, `Dense.C87_bucket_partial`, `Dense.C87_local_iteration_false`, `Dense.C88_dense_random_access`, `ODense.C88_ordered_dense_iff`, `ODense.C88_ordered_dense_false`, `OSwiss.C88_ordered_swiss_iff`, `OSwiss.C88_ordered_swiss_false`, `ODense.C89_dense_find`, `ODense.C89_dense_at`, `ODense.C89_dense_write`, `ODense.C89_dense_eq`, `OSwiss.C89_swiss_find_partial`, `OSwiss.C89_swiss_at_partial`, `OSwiss.C89_swiss_write_partial`, `OSwiss.C89_swiss_eq_partial`, `Swiss.C90_swiss_merge`, `OSwiss.C90_ordered_swiss_partial`, `ODense.C90_ordered_dense`, `Swiss.C91_swiss_partial`, `Swiss.C91_swiss_unequal_partial`, `OSwiss.C91_ordered_swiss_partial`, `OSwiss.C91_ordered_swiss_lvalue_false`, `Props.C93_owner_partial`, `Props.C93_buffers_partial`, `Props.C93_no_leak_partial`, `Props.C93_no_bad_free_partial`, `Props.C93_separate_partial`, `Props.C93_combined_false`, `Props.C93_bucket_count_zero_false`, `Props.C94_sparse_count`, `Props.C94_sparse_partial`, `Props.C94_sparse_false`, `Swiss.C95_amortized_partial`, `Swiss.C95_from_partial`, `Swiss.C95_growing_partial`, `Swiss.C95_two_needed`, `Swiss.C95_range_false`, `Dense.C96_from_partial`, `Dense.C96_amortized_partial`, `Dense.C96_initial_partial`, `Dense.C96_range_false`, `Dense.C96_reserve_false`, `Swiss.C97_swiss_partial`, `Swiss.C97_swiss_throw_false`, `Dense.C97_dense_partial`, `Dense.C97_dense_throw_false`, `OSwiss.C97_ordered_swiss_partial`, `OSwiss.C97_ordered_swiss_throw_false`, `ODense.C97_ordered_dense_partial`, `ODense.C97_ordered_dense_throw_false`, `Swiss.C98_swiss_room_partial`, `Swiss.C98_swiss_reserve_partial`, `Swiss.C98_swiss_full`, `Dense.C98_dense_room_partial`, `Dense.C98_dense_reserve_partial`, `Dense.C98_dense_rejected_false`, `OSwiss.C98_ordered_swiss_room_partial`, `OSwiss.C98_ordered_swiss_reserve_partial`, `ODense.C98_ordered_dense_room_partial`, `ODense.C98_ordered_dense_rejected_false`, `Swiss.C99_swiss`, `Swiss.C99_swiss_iterator`, `Dense.C99_dense`, `Dense.C99_dense_iterator`, `Swiss.C100_load_partial`, `Swiss.C100_room_partial`, `Swiss.C100_full_false`, `Swiss.C100_nan`, `OSwiss.C100_ordered_partial`, `Swiss.C101_insert`, `Swiss.C101_try_emplace`, `Swiss.C101_insert_or_assign`, `Swiss.C101_index`, `Swiss.C101_emplace_false`, `Swiss.C101_program`, `Dense.C101_dense_insert`, `Dense.C101_dense_emplace_false`, `Swiss.C102_begin`, `Swiss.C102_begin_false`, `Swiss.C102_iteration`, `Swiss.C102_erase`, `Swiss.C102_erase_loop`, `Swiss.C102_front_false`, `OSwiss.C103_history`, `OSwiss.C103_keys`, `OSwiss.C103_merge`, `Swiss.C104_reserve_partial`, `Swiss.C104_reserve_false`, `Swiss.C104_rehash_partial`, `Swiss.C104_rehash_false`, `Swiss.C104_signed_false`, `Swiss.C104_bucket_count_partial`, `Dense.C104_dense_reserve`, `Dense.C104_dense_rehash_false`, `Swiss.C105_size`, `Swiss.C105_room_partial`, `Swiss.C105_full`, `Swiss.C105_growth_iff`, `Swiss.C105_growth_partial`, `Swiss.C105_max_size_false`, `Swiss.C105_max_size_partial`, `Dense.C105_dense_exact`, `Dense.C105_dense_buckets_partial`, `Dense.C105_dense_array_false`, `Dense.C105_dense_size_false`, `Dense.C105_dense_size_partial`, `Swiss.C106_sparse`, `Swiss.C106_sparse_cycles`, `Dense.C106_dense_identity`, `Dense.C106_dense_cycles_partial`, `Dense.C106_dense_two`, `Dense.C106_dense_false`, `Swiss.C107_sparse_order`, `Swiss.C107_sparse_reserve_order`, `Swiss.C107_sparse_copy`, `Swiss.C107_sparse_copy_assign`, `Swiss.C107_sparse_move`, `Swiss.C107_sparse_move_assign`, `Dense.C107_dense_false`, `Dense.C108_dense_absent`, `Dense.C108_dense_present`, `Dense.C108_dense_expected`, `Swiss.C109_sparse_absent`, `Swiss.C110_present`, `Swiss.C110_absent`, `Swiss.C110_erase`, `C111_sparse`, `C111_dense`, `C111_sparse_dense`, `C111_dense_order`, `C111_ordered_dense`, `C111_ordered_partial`, `C111_ordered_keys_partial`, `ODense.C112_dense_absent`, `OSwiss.C112_sparse_same`, `OSwiss.C112_sparse_sized`, `OSwiss.C112_sparse_keys`, `OSwiss.C112_sparse_reachable`, `OSwiss.C112_sparse_absent`, `Swiss.C113_sparse_search`, `Swiss.C113_sparse_inserts`, `Dense.C113_dense_cost`, `Dense.C113_dense_inserts`, `Dense.C114_dense_at`, `Dense.C114_dense_even`, `Dense.C114_dense_key`, `Arch.C115_sse2_iff`, `Arch.C115_neon_iff`, `Arch.C115_no_simd_false`, `Arch.C115_msvc_false`, `Arch.C115_false`, `Arch.C115_defined_partial`, `Arch.C115_load`, `Arch.C115_combine_iff`, `Swiss.C116_sparse_single`, `Swiss.C116_sparse_quiet`, `Swiss.C116_sparse_partial`, `Swiss.C116_sparse_reserve_iff`, `Swiss.C116_sparse_range_iff`, `Swiss.C116_sparse_room_partial`, `Swiss.C116_sparse_false`, `Types.C117_other_components`, `Types.C117_range_map_iff`, `Types.C117_own_range_false`, `Types.C117_named_iff`, `OSwiss.C118_sparse_iterate_partial`, `ODense.C118_dense_iterate`, `Dense.C119_step`, `Dense.C119_history`, `OSwiss.C120_ordered_exact_step`, `OSwiss.C120_ordered_exact`, `OSwiss.C120_ordered_answers_partial`, `OSwiss.C120_ordered_growing`, `Swiss.C120_exact`, `Swiss.C120_exact_merge`, `Swiss.C120_exact_range`, `Swiss.C120_exact_reachable`, `Swiss.C120_answers_partial`, `Swiss.C120_growth`, `Swiss.C120_buckets_false`, `Types.C121_standard_map_iff`, `Types.C121_standard_allocator_false`, `Types.C121_default`, `Types.C121_deduced_range_iff`, `Types.C121_deduced_list`, `Swiss.C122_consecutive_false`, `Swiss.C122_inserted`, `Swiss.C122_small_partial`, `Dense.C122_dense`, `OSwiss.C122_ordered_false`, `ODense.C122_ordered_dense`, `Swiss.C123_sparse_history`, `Swiss.C123_sparse_iterate`, `Swiss.C123_sparse_found`, `Dense.C124_dense_history`, `Dense.C124_dense_found`, `OSwiss.C126_history`, `OSwiss.C126_growing`, `OSwiss.C126_reserved`, `OSwiss.C126_found`, `OSwiss.C126_copy`, `OSwiss.C126_move`, `ODense.C127_history`, `ODense.C127_found`, `ODense.C127_copy`, `ODense.C127_move`, `Swiss.C128_history`, `Swiss.C128_plain`, `Swiss.C128_found`, `Dense.C129_history`, `Dense.C129_plain`, `Dense.C129_found`

propext, Quot.sound (52):
`Swiss.Buf.C29_resize_split`, `Swiss.Buf.C29_resize_combined`, `Swiss.C31_bit_scans_false`, `Swiss.C33_align_word`, `Swiss.Buf.C35_dealloc_split`, `Swiss.Buf.C35_dealloc_combined_partial`, `OSwiss.C52_swiss_reclaim_false`, `OSwiss.C57_swiss_empty_range_false`, `OSwiss.C58_swiss_swap_false`, `OSwiss.C60_swiss_merge_false`, `OSwiss.C61_swiss_hint_false`, `Swiss.Buf.C63_assign_false`, `Swiss.Buf.C63_assign_combined_false`, `Swiss.Buf.C63_zero_false`, `Swiss.Buf.C63_alloc_failure_partial`, `Dense.C64_range_distinct`, `Swiss.C67_swap_unequal_false`, `Swiss.C85_portable_tag_false`, `ODense.C88_ordered_dense_end_false`, `Props.C92_owner_partial`, `Props.C92_arrays_partial`, `Props.C92_no_leak_partial`, `Props.C92_no_bad_free_partial`, `Props.C92_same_elements`, `Props.C92_null_false`, `Props.C92_constructor_false`, `Props.C92_copy_constructor_false`, `Props.C93_null_false`, `Props.C94_dense_partial`, `Props.C94_dense_false`, `Swiss.C104_bucket_count_false`, `Swiss.C105_room_false`, `ODense.C112_dense_same`, `ODense.C112_dense_keys`, `ODense.C112_dense_reachable`, `Arch.C115_defined_iff`, `Dense.C116_dense`, `Dense.C116_dense_quiet`, `Dense.C116_dense_run`, `Types.C117_remove_index`, `Types.C117_stable_key_iff`, `Types.C117_list_map_iff`, `Types.C117_range_set_false`, `Types.C117_list_set_iff`, `OSwiss.C118_sparse_insert`, `OSwiss.C118_sparse_erase`, `ODense.C118_dense_insert`, `ODense.C118_dense_erase`, `OSwiss.C120_ordered_false`, `Lookup.C125_compiles_iff`, `Lookup.C125_standard_iff`, `Lookup.C125_lookup_partial`

propext (38):
`Swiss.C11_rehash_zero_false`, `Swiss.C12_reserve_false`, `Swiss.C16_copy_false`, `Swiss.C17_copy_assign_false_scarred`, `Swiss.C17_copy_assign_false_larger`, `Swiss.C17_copy_assign_false_empty`, `Swiss.C17_copy_assign_false_erased`, `Swiss.C19_swap`, `Swiss.C25_range_ctor_false`, `Swiss.C26_bucket_count_ctor_false`, `Swiss.C32_iteration_false`, `Dense.C50_load_false`, `Swiss.Buf.C63_construct_false`, `Swiss.C65_swiss_emplace`, `Swiss.C65_sparse_reclaim_false`, `Swiss.C67_emplace_throw_false`, `Swiss.C67_handle_swap_false`, `Dense.C73_erase_cycle_false`, `Refs.C78_eq`, `Refs.C78_spaceship`, `Refs.C78_false`, `Swiss.C84_no_call`, `Swiss.C91_swiss_false`, `Props.C92_swap_false`, `Props.C93_swap_false`, `Props.C94_dense_count`, `Swiss.C98_swiss_reserve_false`, `Types.C117_pack`, `Types.C117_range_alloc_false`, `Dense.C119_limit`, `Swiss.C120_order_false`, `Types.C121_iff`, `Types.C121_functions_iff`, `Types.C121_one_class_false`, `Types.C121_standard_set`, `Types.C121_pointer_false`, `Lookup.C125_hash_marker_false`, `Lookup.C125_equal_to_false`

none (5):
`Dense.C41_erase_false`, `Dense.C41_no_buckets`, `Dense.C49_dense_false`, `Dense.C83_dense_transparent_erase_false`, `Dense.C87_bucket_false`
