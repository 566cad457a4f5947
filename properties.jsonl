{"id": "C01", "title": "sparse/stable lookup agrees with an abstract map over any history", "statement": "For sparse_set/sparse_map/stable_set/stable_map: after any sequence of insert, emplace, try_emplace, insert_or_assign, erase(key), clear, reserve and rehash(n>0) calls starting from an empty container, every result of these calls (inserted flags) and every find/contains answer equals the answer of a plain mathematical key->value map driven by the same calls.", "quantifier": "all operation sequences, all keys/values, all hash functions (including constant ones), both SIMD block widths (with 8-byte blocks up to the ctz(0) of iteration, which is C32)", "why_tests_cant": "The state space of probe layouts, tombstones and growth points is unbounded and depends on the hash function; a test exercises one layout.", "anchors": ["tpp/detail/swiss_table.hpp: find_node, find_available, emplace_node, erase_node, do_insert, do_try_emplace, do_insert_or_assign, do_rehash, rehash_deleted"]}
{"id": "C02", "title": "sparse/stable operations have no out-of-bounds access, no failing probe assertion and always terminate", "statement": "Each single-container operation (insert family, find, contains, erase, clear, reserve, rehash(n>0)) executed on a container reached by any history of such operations reads and writes only inside the allocated control-byte and node arrays, never reads a destroyed or unconstructed element, never constructs over a live element, never violates an internal assertion (which is undefined behaviour in release builds) and terminates.", "quantifier": "all operation sequences, all hash functions, both block widths (with 8-byte blocks up to the ctz(0) of iteration, which is C32)", "why_tests_cant": "Absence of undefined behaviour and termination of an unbounded probe loop cannot be observed by finitely many runs.", "anchors": ["tpp/detail/swiss_table.hpp: find_node, find_available, assert_probe, set_metadata, emplace_node, erase_node, do_rehash, rehash_deleted"]}
{"id": "C03", "title": "no duplicate keys (sparse/stable)", "statement": "At every point of every history, iterating a sparse/stable container never yields two elements whose keys compare equal.", "quantifier": "all operation sequences, all hash functions", "why_tests_cant": "A duplicate appears only if some layout makes a lookup miss a present element; tests cannot enumerate the layouts.", "anchors": ["tpp/detail/swiss_table.hpp: find_node, emplace_node, rehash_deleted, do_rehash"]}
{"id": "C04", "title": "size() equals the number of elements (sparse/stable)", "statement": "At every point of every history size() equals the number of elements visited between begin() and end(), and equals the cardinality of the abstract map.", "quantifier": "all operation sequences", "why_tests_cant": "Counter drift needs a particular interleaving of erase, reuse of deleted slots and rehash.", "anchors": ["tpp/detail/swiss_table.hpp: m_size, emplace_node, erase_node, clear, size"]}
{"id": "C05", "title": "forward iteration visits each element exactly once (sparse/stable)", "statement": "Walking from begin() to end() on an unordered sparse/stable container terminates, touches only live elements, and yields a permutation of the contents, each element exactly once.", "quantifier": "all reachable containers, all patterns of occupied/empty/deleted slots", "why_tests_cant": "The iterator skips whole blocks of free slots with bit tricks; all patterns of free slots cannot be enumerated by tests.", "anchors": ["tpp/detail/swiss_table.hpp: swiss_node_iterator::next_occupied, begin_node, end_node, to_iter, meta_block::count_available"]}
{"id": "C06", "title": "insert / try_emplace report and effect (sparse/stable)", "statement": "insert(k,v), emplace and try_emplace(k,v) return true iff k was absent; if k was present nothing changes (in particular the old mapped value stays); in both cases the returned iterator designates the element with key k; no other element is changed.", "quantifier": "all reachable containers, all k, v", "why_tests_cant": "Depends on every probe layout; tests cover a handful.", "anchors": ["tpp/detail/swiss_table.hpp: do_insert, do_emplace, do_try_emplace, emplace_node"]}
{"id": "C07", "title": "insert_or_assign overwrites only the mapped value of its key (sparse/stable)", "statement": "insert_or_assign(k,v) makes the container map k to v, returns true iff k was absent, returns an iterator to k's element, and changes nothing else.", "quantifier": "all reachable containers, all k, v", "why_tests_cant": "Universal over layouts and other keys.", "anchors": ["tpp/detail/swiss_table.hpp: do_insert_or_assign", "tpp/detail/table_common.hpp: packed_node::replace, stable_node::replace"]}
{"id": "C08", "title": "erase removes exactly one element and returns the position from which iteration continues (sparse/stable, unordered)", "statement": "erase(k) / erase(iterator) removes exactly the designated element; iterating from the returned iterator to end() yields exactly the elements that followed the erased one in iteration order before the call; erase of an absent key changes nothing and returns end().", "quantifier": "all reachable containers, all elements", "why_tests_cant": "Whether the returned iterator skips or repeats elements depends on the free-slot pattern after the erased element.", "anchors": ["tpp/detail/swiss_table.hpp: erase, do_erase, erase_node, to_iter"]}
{"id": "C09", "title": "clear empties the container and leaves it usable", "statement": "After clear() on any reachable sparse/stable container: size() is 0, iteration is empty, no key is found, the bucket count is unchanged and all later operations behave as on an empty map.", "quantifier": "all reachable containers and all later histories", "why_tests_cant": "Quantifies over all later histories.", "anchors": ["tpp/detail/swiss_table.hpp: clear, erase_nodes, fill_empty"]}
{"id": "C10", "title": "growth and rehash preserve contents", "statement": "reserve(n) for every n and rehash(n) for every n>0 leave the set of (key, value) pairs, size() and every later lookup unchanged.", "quantifier": "all reachable containers, all n, all hash functions", "why_tests_cant": "Every element must be re-found after it moved; depends on all hash values.", "anchors": ["tpp/detail/swiss_table.hpp: rehash, reserve, do_rehash, swiss_table_buffer::resize"]}
{"id": "C11", "title": "rehash(0) is safe", "statement": "rehash(0) on any reachable sparse/stable container (documented as clamped to at least size()/max_load_factor() buckets) keeps all elements and performs no out-of-bounds access.", "quantifier": "all reachable containers, including those with two or more elements", "why_tests_cant": "The failing case is memory corruption: a test may pass by luck.", "anchors": ["tpp/detail/swiss_table.hpp: rehash, align_capacity, do_rehash", "tpp/sparse_set.hpp: rehash"]}
{"id": "C12", "title": "reserve(n) prevents reallocation up to n elements", "statement": "After reserve(n), as long as only insertions are made and size() stays at most n, bucket_count() does not change, no element moves to another slot, and iterators and references stay valid.", "quantifier": "all reachable containers (with any tombstones), all n, all insertion sequences", "why_tests_cant": "Quantifies over all n and all insertion sequences; off-by-one in the 7/8 arithmetic shows only at particular sizes.", "anchors": ["tpp/detail/swiss_table.hpp: reserve, capacity_to_max_size, size_to_min_capacity, align_capacity, emplace_node"]}
{"id": "C13", "title": "bucket count and load invariant", "statement": "At every point of every history bucket_count() is 0 or a power of two minus one, size() <= capacity(), capacity() = bucket_count() - bucket_count()/8 (6 for 7 buckets with 8-byte blocks), and whenever bucket_count() >= 8 at least one slot has never been used since the last (re)hash, so every unsuccessful lookup stops.", "quantifier": "all operation sequences", "why_tests_cant": "An arithmetic invariant over unbounded histories.", "anchors": ["tpp/detail/swiss_table.hpp: capacity_to_max_size, emplace_node, do_rehash, m_num_empty"]}
{"id": "C14", "title": "in-place reclaiming of erased slots preserves contents (unordered)", "statement": "When an insertion finds no free budget and reclaims erased slots in place instead of growing, every element remains findable, none is lost, duplicated or altered, the procedure terminates, and every erased slot becomes usable again.", "quantifier": "all tables at the trigger point, all hash functions", "why_tests_cant": "The displacement cycles depend on all hash values at once.", "anchors": ["tpp/detail/swiss_table.hpp: rehash_deleted, emplace_node", "tpp/detail/table_common.hpp: packed_node swap"]}
{"id": "C15", "title": "memory does not grow under churn", "statement": "If size() never exceeds N during a history of insertions and erasures, bucket_count() never exceeds max(31, 64*N/25+1), however long the history is.", "quantifier": "all N, all histories of any length", "why_tests_cant": "A bound on unbounded histories.", "anchors": ["tpp/detail/swiss_table.hpp: emplace_node (25/32 rule), rehash_deleted"]}
{"id": "C16", "title": "copies of a sparse/stable container are equal to the original", "statement": "Copy construction yields a container with the same contents in which every key of the original is found, no key is present twice after further insertions, and the original is unchanged.", "quantifier": "all reachable source containers (including those from which elements were erased)", "why_tests_cant": "The failing case needs an overfull probe block followed by an erase; ordinary copy tests never build one.", "anchors": ["tpp/detail/swiss_table.hpp: swiss_table(const swiss_table &), copy_data"]}
{"id": "C17", "title": "copy assignment of a sparse/stable container", "statement": "a = b makes a equal to b, whatever a held before: size, iteration and every lookup in a agree with b's.", "quantifier": "all pairs of reachable containers, in particular a with a larger bucket count than b and b empty", "why_tests_cant": "Depends on the relation of the two bucket counts and on b being empty.", "anchors": ["tpp/detail/swiss_table.hpp: operator=(const swiss_table &), erase_nodes, copy_data, swiss_table_buffer::reallocate"]}
{"id": "C18", "title": "move construction and move assignment of sparse/stable containers", "statement": "After a move (construct or assign, with an allocator that propagates on move such as std::allocator, or an equal one on construction) the destination has exactly the source's former contents, the source is empty, and both remain fully usable for any later history.", "quantifier": "all pairs of reachable containers, all later histories", "why_tests_cant": "Quantifies over later histories of both containers.", "anchors": ["tpp/detail/swiss_table.hpp: swiss_table(swiss_table &&), operator=(swiss_table &&), move_from, swap_buffers"]}
{"id": "C19", "title": "swap of unordered sparse/stable containers", "statement": "a.swap(b) exchanges contents exactly; both remain fully usable.", "quantifier": "all pairs of reachable containers", "why_tests_cant": "Quantifies over all later histories.", "anchors": ["tpp/detail/swiss_table.hpp: swap, swap_buffers"]}
{"id": "C20", "title": "merge transfers exactly the missing keys (unordered stable)", "statement": "dst.merge(src): afterwards dst holds its old elements plus every element of src whose key was absent from dst, src holds exactly the rest; no element is lost, duplicated or copied; hash functions of the two may differ.", "quantifier": "all pairs of reachable containers, all hash functions", "why_tests_cant": "src is modified while being iterated; depends on all layouts.", "anchors": ["tpp/detail/swiss_table.hpp: merge, extract, emplace_node"]}
{"id": "C21", "title": "extract / insert node round trip (stable)", "statement": "extract(k) removes exactly k and hands over its element; inserting the node back restores the contents; inserting a node whose key is present leaves the container unchanged and gives the node back; a node is never lost or owned twice.", "quantifier": "all reachable containers, all keys", "why_tests_cant": "Ownership must hold on every path.", "anchors": ["tpp/detail/swiss_table.hpp: extract, do_extract, insert_node, insert_or_assign_node", "tpp/detail/table_common.hpp: stable_node::extracted_type"]}
{"id": "C22", "title": "reference stability of stable containers", "statement": "The address of an element of a stable_* container never changes between its insertion and its erasure, whatever insertions, erasures of other elements, rehashes, reserves, in-place reclaims, swaps, moves or merges happen.", "quantifier": "all histories, all elements", "why_tests_cant": "Quantifies over all histories between two observations.", "anchors": ["tpp/detail/table_common.hpp: stable_node::move_from, relocate, swap", "tpp/detail/swiss_table.hpp: do_rehash, rehash_deleted"]}
{"id": "C23", "title": "operator== is equality of contents", "statement": "For containers with unique keys, a == b (std::is_permutation over the elements) holds iff a and b map the same keys to equal values, regardless of insertion history, bucket counts or hash layout.", "quantifier": "all pairs of reachable containers", "why_tests_cant": "Two containers with the same contents can have arbitrarily many different layouts.", "anchors": ["tpp/sparse_map.hpp: operator==", "tpp/sparse_set.hpp: operator==", "tpp/dense_set.hpp: operator=="]}
{"id": "C24", "title": "at() throws exactly when the key is absent; operator[] inserts exactly then", "statement": "at(k) throws std::out_of_range iff k is absent and otherwise returns k's mapped value without changing the map; operator[](k) inserts a default value iff k is absent and returns k's mapped value.", "quantifier": "all reachable maps, all keys", "why_tests_cant": "Universal over histories.", "anchors": ["tpp/sparse_map.hpp: at, operator[]", "tpp/stable_map.hpp: at, operator[]", "tpp/dense_map.hpp: at, operator[]"]}
{"id": "C25", "title": "range / initializer-list construction of sparse/stable containers", "statement": "Constructing a sparse/stable container from a range or initializer list of any length yields a container whose keys are exactly the distinct keys of the range, the first occurrence of a key winning.", "quantifier": "all range lengths and contents", "why_tests_cant": "The existing tests use lists of length 3 only, a length of the form 2^k-1.", "anchors": ["tpp/detail/swiss_table.hpp: swiss_table(Iter, Iter, ...), swiss_table(size_type, ...)", "tpp/detail/utility.hpp: distance_or_n"]}
{"id": "C26", "title": "construction with an explicit bucket count", "statement": "A sparse/stable container constructed with any bucket count n behaves as an empty map for every later history.", "quantifier": "all n", "why_tests_cant": "Only n of the form 2^k-1 satisfy the internal assertion; a release build does not check it.", "anchors": ["tpp/detail/swiss_table.hpp: swiss_table(size_type, const hasher &, ...)"]}
{"id": "C27", "title": "erase_if on unordered sparse/stable containers", "statement": "erase_if(c, pred) calls pred exactly once on each element, removes exactly the elements satisfying it, returns their number and terminates.", "quantifier": "all reachable containers, all predicates", "why_tests_cant": "Erases while iterating; depends on the free-slot pattern.", "anchors": ["tpp/sparse_set.hpp: erase_if", "tpp/sparse_map.hpp: erase_if", "tpp/detail/swiss_table.hpp: erase"]}
{"id": "C28", "title": "element constructor throwing during insertion (sparse/stable)", "statement": "If constructing the new element throws during an insertion into a sparse/stable container, the container's contents and size are unchanged and it stays fully usable (even if the attempt had already grown or reclaimed the table).", "quantifier": "all reachable containers, all later histories", "why_tests_cant": "Crash points inside an operation.", "anchors": ["tpp/detail/swiss_table.hpp: emplace_node"]}
{"id": "C29", "title": "allocation failure during growth (sparse/stable)", "statement": "If allocating the new buffers throws while a sparse/stable container grows, the container's contents are unchanged and it stays fully usable; no buffer leaks and none is freed twice.", "quantifier": "all reachable containers, both allocation points", "why_tests_cant": "Crash points inside an operation.", "anchors": ["tpp/detail/swiss_table.hpp: swiss_table_buffer::resize, do_rehash"]}
{"id": "C30", "title": "block matching instructions compute the bytewise answer", "statement": "The SSE2, SSSE3, NEON and portable 64-bit control-byte matching routines (empty, available, equal-to-tag, leading-available count, reset) give, for every block of control bytes (empty, deleted, sentinel or a 7-bit tag in each position), exactly the bytewise answer (the portable equality match may additionally report slots that hold a different live tag, never an empty, deleted or sentinel one and never before the first true match; the leading-available count of the 8-byte variants is undefined on a block without an occupied or sentinel byte, see C32).", "quantifier": "all blocks of 16 resp. 8 control bytes (131^16 resp. 131^8) and all 128 tags; every block of every reachable container", "why_tests_cant": "The input space cannot be enumerated.", "anchors": ["tpp/detail/swiss_table.hpp: meta_block::match_empty, match_available, match_eq, count_available, reset_occupied, basic_index_mask"]}
{"id": "C31", "title": "portable and MSVC bit scans agree with the hardware ones", "statement": "generic_ctz, generic_clz and the MSVC clz return the number of trailing / leading zero bits of every non-zero word, as the GCC/Clang builtins do (the whole capacity arithmetic depends on it).", "quantifier": "all non-zero 64-bit words", "why_tests_cant": "Only one of the variants is compiled on any test platform.", "anchors": ["tpp/detail/swiss_table.hpp: generic_ctz, generic_clz, clz (MSVC), align_capacity"]}
{"id": "C32", "title": "iteration with the 8-byte block variants", "statement": "With the 8-byte block variants (portable word, NEON) iteration over any reachable container is free of undefined behaviour, as with SSE2.", "quantifier": "all reachable containers built with 8-byte blocks", "why_tests_cant": "Undefined ctz(0) may give the right answer on the test machine; the portable path is not even compiled by the tests.", "anchors": ["tpp/detail/swiss_table.hpp: meta_block::count_available, swiss_node_iterator::next_occupied"]}
{"id": "C33", "title": "capacity arithmetic", "statement": "For every requested size n (below 2^59) the bucket count chosen by reserve is a power of two minus one, can hold n elements under the 7/8 rule, and is the smallest such bucket count; aligning is idempotent and monotone.", "quantifier": "all n", "why_tests_cant": "Arithmetic over all n; the special cases for 7 elements depend on the block width.", "anchors": ["tpp/detail/swiss_table.hpp: align_capacity, size_to_min_capacity, capacity_to_max_size"]}
{"id": "C34", "title": "the probe sequence covers the table", "statement": "For every start position and every power-of-two table size the triangular probe sequence visits every block exactly once before repeating, and all bytes it reads are inside the control array.", "quantifier": "all table sizes, all hash values", "why_tests_cant": "Number-theoretic fact over all sizes.", "anchors": ["tpp/detail/swiss_table.hpp: bucket_probe, find_node, find_available"]}
{"id": "C35", "title": "combined buffer layout", "statement": "In the combined allocation the node array starts at or after the end of the control bytes (n + block size), is aligned to the node size from the start of the allocation, and ends inside the allocated size, for every bucket count and node size; each deallocation passes the size that was allocated.", "quantifier": "all bucket counts, node sizes, and operation sequences on the buffer", "why_tests_cant": "Universal over sizes; a wrong deallocation size is silently accepted by std::allocator.", "anchors": ["tpp/detail/swiss_table.hpp: swiss_table_buffer<..., true>: nodes_start, buffer_size, operator=, allocate, deallocate"]}
{"id": "C36", "title": "dense lookup agrees with an abstract table over any history", "statement": "For dense_set/dense_map: after any sequence of insert, try_emplace, insert_or_assign, erase(key) on a container that has buckets, erase(iterator), clear, reserve, rehash, max_load_factor changes, starting from an empty container, all results and all find/contains answers equal those of a plain map; no internal index is out of range.", "quantifier": "all operation sequences, all hash functions, all load-factor settings and roundings", "why_tests_cant": "Chain structure and swap-with-last renumbering have unboundedly many shapes.", "anchors": ["tpp/detail/dense_table.hpp: find_node, commit_node, erase_node, move_chain, do_rehash, maybe_rehash"]}
{"id": "C37", "title": "dense iteration order is fully determined", "statement": "Iterating a dense_set/dense_map yields the elements in insertion order, except that each erase moves the last element into the erased position: the sequence is exactly that of a list with append and swap-remove.", "quantifier": "all operation sequences", "why_tests_cant": "Exact sequence over unbounded histories.", "anchors": ["tpp/detail/dense_table.hpp: push_node, erase_node, pop_node, begin_node, end_node"]}
{"id": "C38", "title": "multi-key containers: every key component is unique and leads to the same element", "statement": "In dense_multiset/dense_multimap with any number of key components: no two elements share the value of any component, and find<I>(component I of e) returns e for every element e and every component I.", "quantifier": "all operation sequences, all numbers of key components, all hash functions", "why_tests_cant": "Every component has its own chains which must stay consistent through renumbering.", "anchors": ["tpp/detail/dense_table.hpp: find_node, commit_node, insert_node, move_chain", "tpp/dense_multimap.hpp: find", "tpp/dense_multiset.hpp"]}
{"id": "C39", "title": "multi-key insertion rejects any conflict and changes nothing", "statement": "insert/emplace into a multi-key container succeeds iff none of the new element's components is present; otherwise it returns an element that shares a component and leaves the container unchanged.", "quantifier": "all reachable containers, all elements", "why_tests_cant": "A partial conflict (only some component) must be handled on all paths.", "anchors": ["tpp/detail/dense_table.hpp: do_insert, do_emplace, do_try_emplace, pop_node"]}
{"id": "C40", "title": "multi-key erase removes the element from all indexes", "statement": "erase<I>(key) removes exactly the element whose component I equals key; afterwards none of its components is found, and all other elements are still found by all of their components.", "quantifier": "all reachable containers, all I, all keys", "why_tests_cant": "The moved last element must be renumbered in every chain.", "anchors": ["tpp/detail/dense_table.hpp: do_erase, erase_node, move_chain, find_chain_ptr"]}
{"id": "C41", "title": "erase(key) on a dense container without buckets", "statement": "erase(key) on any dense container, including a default-constructed or moved-from one, is safe and returns end() when the key is absent.", "quantifier": "all reachable containers including those that never held an element", "why_tests_cant": "Undefined behaviour (null dereference) on an unusual state.", "anchors": ["tpp/detail/dense_table.hpp: do_erase, get_chain"]}
{"id": "C42", "title": "dense erase(iterator) continues the iteration", "statement": "For an unordered dense container erase(iterator) returns an iterator from which iteration visits every not yet visited remaining element exactly once (the element moved into the hole first).", "quantifier": "all reachable containers, all positions", "why_tests_cant": "Depends on whether the erased element was the last.", "anchors": ["tpp/detail/dense_table.hpp: erase, do_erase, erase_node"]}
{"id": "C43", "title": "erase_if on unordered dense containers", "statement": "erase_if(c, pred) on dense_set/dense_map removes exactly the elements satisfying pred, returns their number, terminates, and never touches a destroyed element.", "quantifier": "all reachable containers, all predicates", "why_tests_cant": "The failing behaviour is reading past the end or not terminating.", "anchors": ["tpp/dense_set.hpp: erase_if", "tpp/dense_map.hpp: erase_if", "tpp/detail/dense_table.hpp: erase, end_node"]}
{"id": "C44", "title": "dense range erase", "statement": "erase(first, last) on an unordered dense container removes exactly the elements of the range and keeps all others.", "quantifier": "all reachable containers, all ranges", "why_tests_cant": "Elements move while the range is being erased.", "anchors": ["tpp/detail/dense_table.hpp: erase(const_iterator, const_iterator)"]}
{"id": "C45", "title": "dense copy construction and copy assignment", "statement": "Copying a dense container gives a container with the same elements in the same order and the same lookups; a = b does so whatever a held before, including when b is empty.", "quantifier": "all pairs of reachable containers", "why_tests_cant": "The failing case needs an empty source and a destination that still has buckets.", "anchors": ["tpp/detail/dense_table.hpp: copy_data, operator=(const dense_table &), clear_data"]}
{"id": "C46", "title": "dense move and swap", "statement": "Move construction/assignment (std::allocator-like) and swap of unordered dense containers transfer exactly the contents and leave both containers usable.", "quantifier": "all pairs of reachable containers, all later histories", "why_tests_cant": "Quantifies over later histories.", "anchors": ["tpp/detail/dense_table.hpp: move_from, swap_buffers, operator=(dense_table &&), swap"]}
{"id": "C47", "title": "element constructor throwing during a dense insertion", "statement": "If constructing the new element throws during an insertion into a dense container, size, iteration and lookups are unchanged and the container stays usable.", "quantifier": "all reachable containers", "why_tests_cant": "Crash points inside an operation.", "anchors": ["tpp/detail/dense_table.hpp: push_node, emplace_node, do_emplace"]}
{"id": "C48", "title": "allocation failure during a dense rehash", "statement": "If allocating buckets throws in a dense container's insertion, rehash or reserve, the container is still valid with its old contents.", "quantifier": "all reachable containers, all allocation points", "why_tests_cant": "Crash points inside an operation.", "anchors": ["tpp/detail/dense_table.hpp: do_rehash, resize_data", "tpp/detail/utility.hpp: realloc_buffer"]}
{"id": "C49", "title": "inserting a reference to an element of the same container", "statement": "c.insert(x) where x is a reference to an element of c itself is safe and changes nothing.", "quantifier": "all reachable containers, all elements", "why_tests_cant": "The failing case needs the element buffer to be exactly full.", "anchors": ["tpp/detail/dense_table.hpp: do_insert, maybe_resize", "tpp/detail/swiss_table.hpp: do_insert"]}
{"id": "C50", "title": "dense load factor", "statement": "After any insertion into a dense container load_factor() <= max_load_factor() (as std::unordered_map guarantees), so expected lookup cost stays bounded.", "quantifier": "all histories, all max_load_factor settings", "why_tests_cant": "Arithmetic relation over all sizes.", "anchors": ["tpp/detail/dense_table.hpp: maybe_rehash, rehash, load_factor"]}
{"id": "C51", "title": "ordered dense containers iterate in insertion order", "statement": "ordered_dense_set/map: after any history of insertions (without hint), insert_or_assign, erasures by key, clear, reserve and rehash the iteration sequence is exactly the sequence of present elements in order of their (latest) insertion, with the current mapped values; re-inserting or assigning a present key keeps its position.", "quantifier": "all operation sequences, all hash functions, all addresses the allocator may return", "why_tests_cant": "The order is kept in self-relative byte offsets that must be patched on every move.", "anchors": ["tpp/detail/table_common.hpp: ordered_link", "tpp/detail/dense_table.hpp: commit_node, erase_node, resize_data"]}
{"id": "C52", "title": "ordered sparse/stable containers iterate in insertion order", "statement": "ordered_sparse_*/ordered_stable_*: the same as for the dense ones, including after growth and after in-place reclaiming of erased slots.", "quantifier": "all operation sequences, all hash functions, all addresses", "why_tests_cant": "The failing case needs an in-place reclaim that swaps two elements.", "anchors": ["tpp/detail/table_common.hpp: ordered_link, packed_node swap, stable_node swap", "tpp/detail/swiss_table.hpp: emplace_node, insert_link, do_rehash, rehash_deleted"]}
{"id": "C53", "title": "reverse iteration mirrors forward iteration (ordered)", "statement": "In ordered containers walking backwards from end() yields exactly the reverse of the forward sequence, and ++ and -- are inverse to each other at every position.", "quantifier": "all reachable ordered containers", "why_tests_cant": "Both offset fields must agree at every element.", "anchors": ["tpp/detail/table_common.hpp: ordered_iterator, ordered_link"]}
{"id": "C54", "title": "ordered erase returns the successor (sparse/stable)", "statement": "In ordered sparse/stable containers erase(k) / erase(iterator) returns the iterator to the element that followed in insertion order (or end()), and the relative order of the others is unchanged.", "quantifier": "all reachable containers, all elements", "why_tests_cant": "Universal over list shapes.", "anchors": ["tpp/detail/swiss_table.hpp: erase_node", "tpp/detail/table_common.hpp: ordered_link::unlink"]}
{"id": "C55", "title": "ordered dense erase returns the successor", "statement": "In ordered dense containers erase(k) / erase(iterator) returns a valid iterator to the element that followed in insertion order (or end()).", "quantifier": "all reachable containers, all elements", "why_tests_cant": "The failing case is a dangling iterator into destroyed storage.", "anchors": ["tpp/detail/dense_table.hpp: erase_node"]}
{"id": "C56", "title": "ordered erase_if", "statement": "erase_if on ordered containers removes exactly the elements satisfying the predicate, keeps the order of the others, returns the count, and terminates.", "quantifier": "all reachable ordered containers, all predicates", "why_tests_cant": "Depends on the validity of the iterator returned by erase.", "anchors": ["tpp/dense_set.hpp: erase_if(ordered_dense_set)", "tpp/sparse_set.hpp: erase_if(ordered_sparse_set)"]}
{"id": "C57", "title": "ordered range erase", "statement": "erase(first, last) on ordered containers removes exactly the elements from first up to but excluding last in insertion order and returns last.", "quantifier": "all reachable ordered containers, all ranges", "why_tests_cant": "It walks backwards through links of already erased elements.", "anchors": ["tpp/detail/swiss_table.hpp: erase(const_iterator, const_iterator)", "tpp/detail/dense_table.hpp: erase(const_iterator, const_iterator)", "tpp/detail/table_common.hpp: ordered_link::unlink"]}
{"id": "C58", "title": "swap of ordered containers", "statement": "Swapping two ordered containers exchanges their sequences exactly, also when one or both are empty.", "quantifier": "all pairs of reachable ordered containers", "why_tests_cant": "The empty cases need relinking of self-referential headers.", "anchors": ["tpp/detail/table_common.hpp: swap(ordered_link &, ordered_link &)", "tpp/detail/swiss_table.hpp: swap", "tpp/detail/dense_table.hpp: swap"]}
{"id": "C59", "title": "copy and move preserve insertion order (ordered)", "statement": "Copying an ordered container gives the same sequence; moving it transfers the sequence; the copies' links do not refer to the original's storage.", "quantifier": "all reachable ordered containers, all addresses", "why_tests_cant": "Relative offsets are copied verbatim and only the ends are patched.", "anchors": ["tpp/detail/swiss_table.hpp: copy_data", "tpp/detail/dense_table.hpp: copy_data", "tpp/detail/table_common.hpp: ordered_link::relink_from"]}
{"id": "C60", "title": "ordered merge", "statement": "Merging ordered stable containers transfers every element of the source whose key is missing from the destination, appending them in the source's order.", "quantifier": "all pairs of reachable ordered stable containers", "why_tests_cant": "The loop boundary and direction matter for all lengths.", "anchors": ["tpp/detail/swiss_table.hpp: merge"]}
{"id": "C61", "title": "hinted insertion into ordered containers places the element at the hint", "statement": "insert(hint, v) of a new key into an ordered container places the element at position hint (it becomes the element designated by that position, before the former one; end() means at the back), and is safe also when the insertion grows the table.", "quantifier": "all reachable ordered containers, all hints", "why_tests_cant": "Universal over positions and growth.", "anchors": ["tpp/dense_set.hpp: insert(const_iterator, ...)", "tpp/sparse_map.hpp: insert(const_iterator, ...)", "tpp/detail/swiss_table.hpp: insert_link, emplace_node", "tpp/detail/dense_table.hpp: commit_node, maybe_resize"]}
{"id": "C62", "title": "every element is destroyed exactly once", "statement": "Over any history of operations on a sparse container followed by its destruction, every constructed element is destroyed exactly once (no leak, no double destruction).", "quantifier": "all histories ending in destruction", "why_tests_cant": "Lifetime accounting over all histories.", "anchors": ["tpp/detail/swiss_table.hpp: ~swiss_table, erase_nodes, do_erase, clear, do_emplace", "tpp/detail/table_common.hpp: packed_node, stable_node"]}
{"id": "C63", "title": "allocation failure in constructors and copy assignment (sparse/stable)", "statement": "If an allocation fails while a sparse/stable container is constructed or copy-assigned, no block leaks, and the assigned-to container can still be destroyed without freeing a block it does not own.", "quantifier": "all containers, both buffer layouts, every allocation point", "why_tests_cant": "Crash points inside an operation; freeing with the wrong size is silently accepted by std::allocator.", "anchors": ["tpp/detail/swiss_table.hpp: swiss_table_buffer::allocate, reallocate, deallocate, swiss_table::copy_data, ~swiss_table"]}
{"id": "C64", "title": "range insertion equals insertion one by one", "statement": "insert(first, last) and assign(first, last) of every unordered container, and the range constructor of dense_set/dense_map and their multi-key variants, give the container that inserting the elements of the range one by one in order gives (for assign and the constructor starting from an empty one), whether or not the iterators allow reserving in advance. (The range constructor of sparse and stable containers is C25.)", "quantifier": "all reachable containers, all ranges (with repeated elements), all bucket counts, all hash functions", "why_tests_cant": "The state space of containers and ranges with conflicts in any component is unbounded; the reservation changes bucket and element counts before the first insertion.", "anchors": ["tpp/detail/dense_table.hpp: insert(Iter, Iter), dense_table(Iter, Iter, ...), assign, reserve", "tpp/detail/utility.hpp: distance_or_n", "tpp/detail/swiss_table.hpp: insert(Iter, Iter), assign"]}
{"id": "C65", "title": "arguments that refer into the container", "statement": "emplace, try_emplace and insert_or_assign called with a mapped-value argument that is a reference to the mapped value of an element of the same container behave as if called with a copy of that value made before the call.", "quantifier": "all reachable sparse, stable and dense maps, all elements referred to, all keys, both block widths", "why_tests_cant": "The reference only goes bad for table states in which the call reallocates, reclaims erased slots in place, or replaces that very value; the failure is a read of freed or overwritten memory.", "anchors": ["tpp/detail/swiss_table.hpp: emplace_node, do_emplace, do_try_emplace, do_insert_or_assign", "tpp/detail/table_common.hpp: packed_node::replace, stable_node::replace", "tpp/detail/dense_table.hpp: do_emplace, do_try_emplace, do_insert_or_assign, push_node"]}
{"id": "C66", "title": "exception while replacing a mapped value", "statement": "If constructing the new mapped value throws in insert_or_assign, the container still holds the same keys and every mapped value can still be read; in particular the element being assigned keeps a live mapped value.", "quantifier": "all reachable sparse, stable and dense maps, all keys", "why_tests_cant": "The exception point lies between the destruction of the old and the construction of the new value; the following access is undefined behaviour that usually goes unnoticed.", "anchors": ["tpp/detail/table_common.hpp: packed_node::replace, stable_node::replace", "tpp/detail/swiss_table.hpp: do_insert_or_assign", "tpp/detail/dense_table.hpp: do_insert_or_assign"]}
{"id": "C67", "title": "memory blocks of stable containers and node handles", "statement": "In every program over any number of stable containers and node handles with any allocators, every memory block that holds an element is freed exactly once, with the allocator it was obtained from, none is left when all containers and handles are destroyed, and at no time do two elements share a block.", "quantifier": "all programs (creation, insertion, replacement, erasure, extraction, node insertion, copy, move, swap, merge, destruction), all allocators, all choices of addresses, both block widths", "why_tests_cant": "Quantifies over whole programs and over allocator instances; a block freed with an allocator it does not belong to or a block that leaks is silently accepted by std::allocator.", "anchors": ["tpp/detail/table_common.hpp: stable_node (construct, destroy, relocate, move_from, swap)", "tpp/detail/swiss_table.hpp: emplace_node, do_emplace, insert_node, insert_or_assign_node, extract, merge, swap_buffers, move_from, copy_data"]}
{"id": "C68", "title": "moves of sparse containers with unequal or non-propagating allocators", "statement": "Move construction with a given allocator and move assignment, whatever the relation of the allocators, make the target behave as the source did and the source as an empty container.", "quantifier": "all reachable targets and sources, all allocator traits (equal or not, propagating or not)", "why_tests_cant": "Needs stateful allocators together with particular bucket counts, erased slots and empty or non-empty targets; the default allocator never takes these paths.", "anchors": ["tpp/detail/swiss_table.hpp: swiss_table(swiss_table &&, const allocator_type &), operator=(swiss_table &&), move_from, move_data, swap_buffers"]}
{"id": "C69", "title": "exceptions while a sparse container is copied or moved element by element", "statement": "If the copy or move constructor of an element throws during copy construction, copy assignment or move assignment between unequal allocators, no memory and no element is lost, the target's size, iteration and lookups agree with each other, the source keeps the elements it has not given away, and both can be destroyed.", "quantifier": "all reachable targets and sources, every position of the throwing element, all allocator traits", "why_tests_cant": "Every position of the throwing element in every source is a separate case; leaks and stale control bytes are invisible to ordinary assertions.", "anchors": ["tpp/detail/swiss_table.hpp: swiss_table(const swiss_table &), operator=, copy_data, move_data, ~swiss_table"]}
{"id": "C70", "title": "exceptions while a sparse container makes room", "statement": "If the move constructor of an element throws while an insertion, reserve or rehash relocates elements, no element is lost: size, iteration and lookups still agree and every element is destroyed exactly once.", "quantifier": "all reachable containers, all bucket counts, every position of the throwing element, growth and reclaiming in place (after any number of exchanges)", "why_tests_cant": "Needs throwing moves at every point of both relocation algorithms, in particular in the middle of a chain of exchanges.", "anchors": ["tpp/detail/swiss_table.hpp: do_rehash, resize, rehash_deleted, emplace_node", "tpp/detail/table_common.hpp: packed_node::relocate, swap"]}
{"id": "C71", "title": "exceptions from the hash function or the comparison in dense insertions", "statement": "If the hash function or the key comparison throws during insert, try_emplace or emplace on a dense container, the container holds what it held before and keeps working.", "quantifier": "all reachable containers, all keys, every call of the hash function or the comparison", "why_tests_cant": "Needs throwing comparisons at every position of every chain; the wrong state shows only in later operations.", "anchors": ["tpp/detail/dense_table.hpp: do_insert, do_try_emplace, do_emplace, find_node, emplace_node"]}
{"id": "C72", "title": "exceptions while a dense container is copied or moved element by element", "statement": "If the copy or move of an element throws during copy construction, copy assignment or move assignment between unequal allocators, nothing leaks, and target and source are consistent afterwards.", "quantifier": "all reachable targets and sources, every position of the throwing element, propagating or not", "why_tests_cant": "Every position of the throwing element in every source is a separate case; leaks and destroyed elements are invisible to ordinary assertions.", "anchors": ["tpp/detail/dense_table.hpp: copy_data, move_data, copy_from, operator="]}
{"id": "C73", "title": "exceptions while a dense container makes room or erases", "statement": "If the move of an element throws while the element array is enlarged, or while the last element is moved into the hole left by an erased one, the container still works and no element is lost.", "quantifier": "all reachable containers, every position of the throwing element or of the erased one", "why_tests_cant": "Needs throwing moves at every position; the damage is in the chains, not in what iterating shows.", "anchors": ["tpp/detail/dense_table.hpp: resize_data, maybe_resize, reserve, erase_node, move_from"]}
{"id": "C74", "title": "failing allocations in dense copy assignment", "statement": "If an allocation fails during the copy assignment of a dense container, the target is empty, can be searched and destroyed, and no buffer is freed twice.", "quantifier": "all reachable targets and sources, each of the two allocations, propagating or not", "why_tests_cant": "Needs allocators failing at a chosen call for every combination of buffer sizes; a double free is not an observable value.", "anchors": ["tpp/detail/dense_table.hpp: copy_data, operator=, ~dense_table"]}
{"id": "C75", "title": "reserve and rehash of dense containers", "statement": "After reserve(n) no insertion up to the size n reallocates the elements or rehashes; rehash(n) keeps the contents and provides at least n buckets.", "quantifier": "all reachable containers, all n, all sequences of insertions, all rational maximal load factors", "why_tests_cant": "Whether the rounded bucket count suffices depends on the residue of n modulo the load factor.", "anchors": ["tpp/detail/dense_table.hpp: reserve, rehash, do_rehash, maybe_rehash, maybe_resize, resize_data"]}
{"id": "C76", "title": "at, operator[] and operator== of dense containers", "statement": "at throws exactly if the key is absent and otherwise gives the mapped value; operator[] inserts the default value exactly if the key is absent; two containers are equal exactly if they have the same elements, whatever their histories, hash functions and orders.", "quantifier": "all reachable containers (pairs of them), all key components and keys", "why_tests_cant": "Pairs of containers with the same contents and different histories are unbounded.", "anchors": ["tpp/dense_map.hpp: at, operator[], operator==", "tpp/dense_multimap.hpp: at, operator==", "tpp/dense_set.hpp: operator==", "tpp/dense_multiset.hpp: operator=="]}
{"id": "C77", "title": "dense containers leave the caller's keys alone", "statement": "operator[] and try_emplace do not change a variable passed as key; a key passed as an rvalue is moved from only if the element is inserted.", "quantifier": "all reachable containers, all keys, all effects of moving a key", "why_tests_cant": "The test suite uses integer keys, which a move does not change.", "anchors": ["tpp/dense_map.hpp: operator[], try_emplace", "tpp/dense_multimap.hpp: try_emplace", "tpp/detail/dense_table.hpp: do_try_emplace"]}
{"id": "C78", "title": "comparison of references to map elements", "statement": "The comparison operators of the references that dense and sparse maps hand out are consistent: == and != decide equality of key and mapped value, and <, <=, >, >= (or <=>) are the order of std::pair.", "quantifier": "all linearly ordered key and mapped types, all pairs of references", "why_tests_cant": "A test compares a few pairs; that an operator is a strict weak order is a statement about all triples. The test suite never compares references.", "anchors": ["tpp/detail/table_common.hpp: packed_map_ref::operator==, !=, <, <=, >, >=, <=>", "tpp/detail/utility.hpp: synth_three_way"]}
{"id": "C79", "title": "block loads on other byte orders", "statement": "On targets other than x86 the portable block reports the same slots: the index of a set bit is the offset of the control byte in memory, for both byte orders.", "quantifier": "all blocks of valid control bytes, all tags", "why_tests_cant": "The test machine is x86; neither branch is ever compiled there.", "anchors": ["tpp/detail/utility.hpp: read_unaligned", "tpp/detail/swiss_table.hpp: meta_block, match_empty, match_available, match_eq, count_available"]}
{"id": "C80", "title": "64-bit arithmetic of the swiss table agrees with the mathematical one", "statement": "On any container with fewer than 2^59 buckets, every operation computed as the code does, with unsigned 64-bit sums, differences, products, shifts and masks and without checks, gives exactly the container and the answer obtained with unbounded numbers in which every counter is checked; in particular wrap-around in set_metadata, in the probe position and in block_idx is harmless, and no element counter ever wraps. The n-th probe position and the position of a cloned control byte are given in closed form.", "quantifier": "all hash functions, all histories of operations (without range insertion and erase_if, which are loops over them) whose bucket count stays below 2^59, all three block implementations", "why_tests_cant": "Wrap-around depends on the bucket count, position and hash together, over the whole 64-bit range; containers of relevant sizes do not fit in memory.", "anchors": ["tpp/detail/swiss_table.hpp:775-833", "tpp/detail/swiss_table.hpp:1209-1300", "tpp/detail/swiss_table.hpp:1376-1446"]}
{"id": "C81", "title": "single precision arithmetic of the load factor", "statement": "The float computations of dense containers (bucket count for a number of elements, comparison of the load with the maximal load factor, max_size) give the exact results: buckets for n elements are n / max_load_factor rounded down, a container counts as full exactly if size / bucket_count >= max_load_factor, reserve(n) prevents rehashing up to n elements, and every conversion back to size_type is defined.", "quantifier": "all sizes and bucket counts, all positive finite float load factors", "why_tests_cant": "Rounding goes wrong from about 2^24 elements on, at particular sizes only; tests use small containers with the initial factor.", "anchors": ["tpp/detail/dense_table.hpp: load_factor, max_size, to_load_factor, reserve, rehash, maybe_rehash (334-336, 361, 449, 481, 775-781)"]}
{"id": "C82", "title": "exceptions in ordered dense containers", "statement": "If an operation of an ordered dense container ends in an exception (thrown by the hash function, the comparison, the constructor of an element, or a copy, move or assignment of an element), the container holds a sequence of elements it can be iterated over, its size is the length of this sequence, every further operation works and it can be destroyed; all other containers are untouched.", "quantifier": "all worlds of ordered dense containers reached by histories, all containers in them, every position of the throwing element or call, all allocators", "why_tests_cant": "Needs throwing functions at every position of every operation; the damage is in relative links that lead into freed or foreign memory, which reads back plausibly.", "anchors": ["tpp/detail/dense_table.hpp: do_emplace, do_insert, do_try_emplace (620-697), resize_data, maybe_resize (783-814), copy_data, move_data (823-885), erase_node (594-618)", "tpp/detail/table_common.hpp: ordered_link (228-245)"]}
{"id": "C83", "title": "user-defined key equality and transparent lookup", "statement": "If the key comparison is any equivalence relation that the hash function respects, an unordered container behaves as a map (dense: a sequence) whose keys are compared by it: no two elements have equivalent keys, insertion and assignment with an equivalent key keep the stored key, assignment replaces only the mapped value. Lookup, erasure and extraction by a value of another type (transparent hash and comparison) act on exactly the element the value designates.", "quantifier": "all equivalences and hash functions compatible with them, all histories of operations, all values of other types that designate at most one class of equivalent keys, any number of key components, all block implementations", "why_tests_cant": "The tests use std::equal_to only; equivalent but different keys, and lookups with other types, at colliding positions of every table state are out of reach of examples.", "anchors": ["tpp/detail/swiss_table.hpp: find_node (1209-1234), do_insert, do_insert_or_assign (1330-1359), find, contains (932-938), erase, extract (1052-1087)", "tpp/detail/dense_table.hpp: find_node (534-547), do_insert_or_assign (699-723), do_erase (740-762)", "tpp/sparse_map.hpp: transparent overloads (458-459, 482-495)"]}
{"id": "C84", "title": "exceptions from the hash function, the comparison and the predicate (sparse and stable containers)", "statement": "If the user's hash function or key comparison throws during find, contains, insert, emplace, insert_or_assign, operator[], erase, extract or insert(node_type&&), the container is unchanged and nothing leaks (a node handle keeps its element), whichever call throws; during range insertion a prefix of the range has been inserted. If the predicate of erase_if throws, exactly the elements it already accepted have been removed. An exception during merge leaves both containers valid. clear, reserve, rehash, growth and iteration call none of these functions.", "quantifier": "all containers, all operations and arguments, every call of the user's functions as the one that throws, all block implementations", "why_tests_cant": "The tests never throw from a hash function, comparison or predicate; which call throws and what has happened by then has as many cases as the probe sequences of all table states.", "anchors": ["tpp/detail/swiss_table.hpp: find_node (1209-1234), do_emplace, do_insert, do_insert_or_assign (1318-1359), insert(node_type&&), insert(first, last) (962-987), erase, extract, merge (1052-1113)", "tpp/sparse_set.hpp: erase_if (289-303)"]}
{"id": "C85", "title": "the work of a search", "statement": "find(k) (and with it contains, insert, erase, operator[], ...) calls the hash function once and compares k with each element at most once; with sparse and stable containers only with elements whose hash agrees with that of k in the low seven bits, reading at most bucket_count()/W + 1 metadata blocks of W bytes; with dense containers only with elements whose hash is that of k, visiting only elements of the same bucket, each once. The search stops at the element found.", "quantifier": "all containers of all histories, all keys, all hash functions, all block implementations", "why_tests_cant": "The number of comparisons and of blocks read is not visible in the results; it depends on the whole state of the table (erased slots, clones of slots, collisions), and tests check results only.", "anchors": ["tpp/detail/swiss_table.hpp: find_node (1209-1234), match_eq (254-257, 282-287, 313-320)", "tpp/detail/dense_table.hpp: find_node (534-547)"]}
{"id": "C86", "title": "exceptions in ordered sparse and stable containers", "statement": "If an operation of an ordered sparse or stable container ends in an exception (thrown by the hash function, the comparison, a predicate, the constructor of an element, or a copy or move of an element), the container holds a sequence of elements it can be iterated over, its size is the length of this sequence, every further operation works and it can be destroyed; all other containers are untouched.", "quantifier": "all worlds of ordered sparse or stable containers reached by histories, all containers in them, every position of the throwing element or call, all allocators, all block implementations", "why_tests_cant": "Needs throwing functions at every position of every operation; the damage is in relative links that lead to nodes without elements or into foreign memory, which reads back plausibly.", "anchors": ["tpp/detail/swiss_table.hpp: do_insert, emplace_node (1264-1300, 1330-1347), do_rehash (1376-1393), copy_data, move_data (1448-1521), operator= (856-883), clear (916-929)", "tpp/detail/table_common.hpp: ordered_link (228-245), erase_if"]}
{"id": "C87", "title": "the bucket interface of dense containers", "statement": "For a dense container, bucket(x) is a number below bucket_count(); iterating from begin(n) to end(n) visits exactly the elements whose key k has bucket(k) = n, each once, and bucket_size(n) is their number.", "quantifier": "all reachable dense containers (any number of key components, any hash function, any load factor), all keys, all bucket numbers, iterations of any length", "why_tests_cant": "The members do not compile when used, so no test touches them; whether the iteration would end depends on comparing with an iterator that is built independently of the container.", "anchors": ["tpp/detail/dense_table.hpp: bucket_iterator (118-202), begin(n), end(n), bucket_size, bucket (338-347)"]}
{"id": "C88", "title": "iterator arithmetic and comparison", "statement": "Iterators compare like the positions of their elements in the iteration, and end() compares greater than all of them. For random access iterators, begin() + n designates the n-th element, end() - begin() is size(), and differences are differences of positions.", "quantifier": "all reachable unordered dense containers wherever their array is, all reachable ordered dense containers and ordered sparse/stable containers in any memory and with any sound allocator, all pairs of positions", "why_tests_cant": "The comparison of ordered iterators agrees with the sequence until something is erased or, in sparse containers, as long as the hashes happen to ascend; the comparison with end() depends on where the allocator puts the array.", "anchors": ["tpp/detail/table_common.hpp: ordered_iterator (517-581), random_access_iterator_base (599-620), table_iterator (656-691)", "tpp/detail/dense_table.hpp: begin, end, front, back, begin_node, back_node, end_node"]}
{"id": "C89", "title": "find, at, writing mapped values and operator== of ordered containers", "statement": "In an ordered container, find(x) is the iterator at the position of the element in the sequence or end(); at(x) is its mapped value or throws out_of_range; assigning a mapped value through an iterator changes this value and neither the order nor any other element; operator== holds exactly if both containers have the same elements, in whatever order.", "quantifier": "all reachable ordered dense containers (any number of key components) and all reachable ordered sparse/stable containers without exchanged nodes, all keys, positions, values and pairs of containers, any sound allocator", "why_tests_cant": "find mixes positions in the array with positions in the list of links; that the iteration continues correctly from a found element must hold for every order and every reallocation.", "anchors": ["tpp/detail/dense_table.hpp: find, find_node, end_node", "tpp/detail/swiss_table.hpp: find, to_iter", "tpp/{dense,sparse,stable}_map.hpp: at, guard_at, operator== of the ordered containers"]}
{"id": "C90", "title": "operations of a container with itself", "statement": "a = a, a = std::move(a), swap(a, a), a.merge(a) and a.merge(std::move(a)) change neither the elements nor their order, nor any other container; only merge may change the storage, and then as a.reserve(2 * a.size()) does.", "quantifier": "all reachable unordered sparse/stable containers; all programs with any number of ordered dense or ordered sparse/stable containers (without exchanged nodes), also empty containers, any sound allocator", "why_tests_cant": "swap of ordered containers goes wrong if one is empty (C58), so that it must be shown to be harmless when both are the same empty container; merge reads from the table it may be writing to, for any layout.", "anchors": ["tpp/detail/swiss_table.hpp: operator=, merge, swap", "tpp/detail/dense_table.hpp: operator=, swap", "tpp/detail/table_common.hpp: swap(ordered_link&, ordered_link&)"]}
{"id": "C91", "title": "merge of a temporary", "statement": "dst.merge(std::move(src)) has the effect of dst.merge(src): exactly the elements of src whose keys dst lacks go over, in ordered containers to the end of dst and in the order of src; the others stay.", "quantifier": "all reachable sparse/stable containers dst and src with any hash functions, also empty ones, equal and unequal allocators; ordered ones without exchanged nodes", "why_tests_cant": "An empty destination takes a different path, which depends on the allocators' traits and on where the elements of the source lie.", "anchors": ["tpp/detail/swiss_table.hpp: merge(swiss_table &&), operator=(swiss_table &&), move_from, move_data"]}
{"id": "C92", "title": "memory of dense containers", "statement": "In every program with any number of dense containers, each live block of memory is the node array or the bucket array of exactly one container, comes from an allocator equal to that of the container, and has the size that the container will pass to deallocate; deallocate is called only with such blocks; no block remains when all containers have been destroyed. Containers with propagating allocators can be swapped.", "quantifier": "all programs of constructors (default, bucket count, range, copy, move, with and without allocator), all operations, copy and move assignment, swap and destruction, for any allocators and any propagation traits", "why_tests_cant": "The default allocator forgives wrong sizes, null pointers and unequal allocators; the program has to be run with every combination of traits, capacities and histories.", "anchors": ["tpp/detail/dense_table.hpp: constructors, operator=, ~dense_table, swap, resize_data, do_rehash, copy_data, move_data, swap_buffers", "tpp/detail/utility.hpp: realloc_buffer"]}
{"id": "C93", "title": "memory of the buffers of sparse containers", "statement": "In every program with any number of sparse or stable containers, and in both buffer layouts, each live buffer block belongs to exactly one container, comes from an allocator equal to that of the container, and has the size that the container will pass to deallocate; deallocate is called only with such blocks; no block remains when all containers have been destroyed. Containers with allocators that propagate on swap can be swapped.", "quantifier": "all programs of constructors (default, bucket count, copy, move, with and without allocator), growth and rehashing to any capacity, insertion and erasure, copy and move assignment, swap and destruction, for any allocators, any propagation traits, both layouts, all node and block sizes", "why_tests_cant": "The default allocator forgives null pointers, wrong sizes and unequal allocators, and a leak of a few bytes goes unnoticed; every combination of traits, layouts and histories would have to be run.", "anchors": ["tpp/detail/swiss_table.hpp: swiss_table_buffer (both), swiss_table constructors, operator=, ~swiss_table, swap, do_rehash, copy_data, move_data, swap_buffers, move_from"]}
{"id": "C94", "title": "functions declared noexcept do not allocate", "statement": "Move construction, move assignment, swap and destruction of a dense container, and move assignment and destruction of a sparse container, which are declared noexcept if the moves of allocator, hash function and comparison are, make no allocation, so that running out of memory cannot end the program in them.", "quantifier": "all programs with any number of containers and allocators, all propagation traits, both buffer layouts", "why_tests_cant": "Shows only with stateful unequal allocators that fail during a move; the program is then terminated instead of reporting an error.", "anchors": ["tpp/detail/dense_table.hpp: dense_table(dense_table &&), operator=(dense_table &&), swap, move_from, move_data", "tpp/detail/swiss_table.hpp: operator=(swiss_table &&), move_from, move_data, swiss_table_buffer::reallocate"]}
{"id": "C95", "title": "rehashes of sparse containers cost a constant per insertion on average", "statement": "In every history of single insertions, range insertions and erasures on an empty sparse container, the number of slots of all buffers allocated plus the number of relocations and exchanges of elements is at most a constant times the number of insertions asked for.", "quantifier": "all instruction sets, hash functions, keys, values and finite histories of operations other than reserve and rehash", "why_tests_cant": "The total over histories of any length, with any alternation of insertions and erasures; benchmarks measure a few access patterns.", "anchors": ["tpp/detail/swiss_table.hpp: emplace_node, do_rehash, rehash_deleted, insert(Iter, Iter), reserve, capacity_to_max_size, size_to_min_capacity"]}
{"id": "C96", "title": "making room in dense containers costs a constant per insertion on average", "statement": "In every history of single insertions, range insertions and erasures on a dense container, the number of nodes allocated and moved, of buckets filled and of nodes put into chains again is at most a constant times the number of elements that are there at first or are handed to insertions; the constant depends on the maximal load factor only. reserve for room that is there already does not touch the elements.", "quantifier": "all numbers of key components, hash functions, keys, values, maximal load factors (as functions of the sizes, exact fractions, or in single precision as the code computes) and finite histories of operations other than reserve, rehash and max_load_factor(f)", "why_tests_cant": "The total over histories of any length, with any alternation of insertions, failed insertions and erasures, for every load factor including the rounding of single precision; benchmarks measure a few access patterns.", "anchors": ["tpp/detail/dense_table.hpp: maybe_resize, resize_data, maybe_rehash, rehash, do_rehash, reserve, insert(Iter, Iter), do_insert, do_emplace, do_insert_or_assign"]}
{"id": "C97", "title": "programs over several containers, each with its own hash function", "statement": "In every program that creates containers with arbitrary hash functions, works on them, and copies, moves, assigns, swaps and merges them in any order, every answer is that of the same program over mathematical maps (sequences, for dense containers), and every container is consistent with the hash function it holds at the end: hash functions travel with the elements. An assignment that throws does not separate them.", "quantifier": "all hash functions (one per container), all finite programs over any number of containers, all states a move may leave a hash function in, all key and value types", "why_tests_cant": "The tests use stateless hash functions, so that exchanging or forgetting a hash function goes unnoticed; the number of containers, programs and hash functions is unbounded.", "anchors": ["tpp/detail/swiss_table.hpp: swiss_table(const swiss_table&), swiss_table(swiss_table&&), operator=, swap, merge", "tpp/detail/dense_table.hpp: dense_table(const dense_table&), dense_table(dense_table&&), operator=, swap"]}
{"id": "C98", "title": "iterators and references after reserve", "statement": "After reserve(n), as long as the container holds at most n elements, no operation other than erasing an element (for dense containers: or erasing another one while it is the last) invalidates the iterators and references to it: the buffer is not replaced, no element is relocated, and the place still holds the element with its current value.", "quantifier": "all reachable containers, all n, all hash functions and key and value types, all finite histories of operations, all elements", "why_tests_cant": "The tests do not hold iterators or references across other operations; whether a place stays valid depends on the whole history of insertions and erasures and on collisions.", "anchors": ["tpp/detail/swiss_table.hpp: reserve, emplace_node, rehash_deleted, do_erase, swiss_node_iterator", "tpp/detail/dense_table.hpp: reserve, maybe_resize, do_insert, do_emplace, do_insert_or_assign, erase_node"]}
{"id": "C99", "title": "mapped values written through references", "statement": "A map lets its mapped values be written in place, through at(), operator[] and iterators, also in a loop over the whole container. Such a write changes the value of that one element and nothing else; programs that mix writes with all other operations get the answers of a mathematical map whose values are written.", "quantifier": "all reachable sparse, stable and dense maps and dense multi-key maps, all instruction sets, hash functions and key and value types, all finite programs of operations and writes", "why_tests_cant": "The tests read values through references but hardly write; the interplay with later growth, erasure and relocation depends on the whole program.", "anchors": ["tpp/detail/table_common.hpp: table_iterator", "tpp/sparse_map.hpp: at, operator[]", "tpp/dense_map.hpp: at, operator[]", "tpp/dense_multimap.hpp: at", "tpp/detail/swiss_table.hpp: swiss_node_iterator"]}
{"id": "C100", "title": "load_factor() of sparse and stable containers", "statement": "At every point of every history load_factor() of a sparse or stable container (ordered or not) is a number and at most max_load_factor().", "quantifier": "all operation sequences, all sizes and bucket counts, binary32 arithmetic", "why_tests_cant": "Depends on the rounding at every size; the excess is below one in ten thousand for containers with more than some thousand buckets.", "anchors": ["tpp/detail/swiss_table.hpp: load_factor, max_load_factor, capacity_to_max_size (911, 1134, 814-820)"]}
{"id": "C101", "title": "rejected insertions leave the caller's arguments alone", "statement": "An insertion that inserts nothing because the key is present leaves the arguments of the caller as they were, also if they are passed with std::move; a successful one stores the value the caller had. Over any program of such calls no value is lost: it is in the container or still in its variable. Keys given to try_emplace, insert_or_assign and operator[] of sparse and stable containers keep their value in any case.", "quantifier": "all reachable containers, all keys and values, all effects a move may have, all sequences of calls with any number of variables", "why_tests_cant": "Tests rarely look at moved-from variables, and trivially movable keys hide the difference.", "anchors": ["tpp/detail/swiss_table.hpp: insert, try_emplace, insert_or_assign, emplace, do_insert, do_emplace, emplace_node (940-1052, 1264-1359)", "tpp/detail/dense_table.hpp: insert, do_emplace, do_insert (372-373, 620-697)", "tpp/sparse_map.hpp: operator[] (515-521)"]}
{"id": "C102", "title": "work of iteration over sparse and stable containers", "statement": "begin() takes constant time (amortised), iteration and a loop erase(it) over all elements are linear in the bucket count, and erase(it) only looks at the slots up to the next element. Work is counted in metadata blocks loaded.", "quantifier": "all reachable sparse and stable containers (any capacity, any tombstones, any layout), all iterators", "why_tests_cant": "Tests check results, not the number of blocks loaded, and use small or well filled containers.", "anchors": ["tpp/detail/swiss_table.hpp: swiss_node_iterator, next_occupied (399-437)", "tpp/detail/swiss_table.hpp: begin, to_iter, do_erase (898, 1157-1202, 1361-1368)"]}
{"id": "C103", "title": "lookups of ordered sparse containers do not depend on the links", "statement": "The index of an ordered sparse or stable container is kept by its own metadata: in every execution without undefined behaviour, also one in which linked nodes have been exchanged and iteration is broken, find, contains, size and the insertions answer as the set of elements demands, each operation by key changes the set as it should, erase_if erases only elements that satisfy the predicate, and merge loses no element.", "quantifier": "all histories of operations of any length, all keys, values, hash functions and allocators, all three metadata blocks, whether or not linked nodes were exchanged", "why_tests_cant": "The tests never reach an exchange of linked nodes; a program that only looks keys up afterwards seems to work.", "anchors": ["tpp/detail/swiss_table.hpp: do_insert, do_emplace, erase_node, do_erase, do_rehash, rehash_deleted (1204-1419)", "tpp/detail/table_common.hpp: ordered_link (103-180)"]}
{"id": "C104", "title": "requests for more room than there can be", "statement": "reserve(n), rehash(n) and construction with a bucket count n either throw and leave the container as it was, or provide the room asked for, for every 64-bit n (for instance -1, the result of a subtraction that went below zero).", "quantifier": "all reachable containers, all n below 2^64, all sizes of nodes (at least 16 bytes), both layouts of the buffer, all allocators that refuse what does not fit into the address space", "why_tests_cant": "Tests do not ask for more than 2^60 elements; the interesting values are few compared with the range, and the arithmetic wraps silently.", "anchors": ["tpp/detail/swiss_table.hpp: size_to_min_capacity, align_capacity (822-833)", "tpp/detail/swiss_table.hpp: nodes_start, buffer_size, fill_empty, resize, allocate (619-635, 679-699, 523-557)", "tpp/detail/swiss_table.hpp: reserve, rehash (930, 1124-1131)", "tpp/detail/dense_table.hpp: reserve, rehash (358-362, 442-451)"]}
{"id": "C105", "title": "capacity() and max_size()", "statement": "A container never holds more than capacity() elements, keeps its buffers while it holds at most capacity() elements, and reserve(n) for n up to max_size() either provides the room or throws.", "quantifier": "all reachable sparse, stable and dense containers, all hash functions, all block sizes, all sequences of insertions, all maximal load factors p/2^j (dense)", "why_tests_cant": "Whether the buffer is replaced depends on the history of erasures and on where the probe sequences of the keys meet erased slots; tests look at a few histories, mostly without erasures.", "anchors": ["tpp/detail/swiss_table.hpp: capacity, max_size, max_bucket_count (909-914), capacity_to_max_size (814-820)", "tpp/detail/swiss_table.hpp: emplace_node (1256-1300)", "tpp/detail/dense_table.hpp: capacity, max_size, to_load_factor (334-335, 481), maybe_resize, maybe_rehash (775-821)"]}
{"id": "C106", "title": "Inserting and erasing the same key again and again", "statement": "If a new key is inserted and erased any number of times, the container is left exactly as after the first time; in particular nothing is allocated and no other element is moved after the first time.", "quantifier": "all reachable sparse, stable and dense containers, all hash functions, all block sizes, all keys not present, all numbers of cycles, all values", "why_tests_cant": "The slot found depends on the whole probe sequence and on all erased slots left by the history; a test compares contents after a few cycles, not the complete state after any number of them.", "anchors": ["tpp/detail/swiss_table.hpp: find_available, set_metadata, emplace_node, erase_node, do_erase (1235-1316, 1361-1368)", "tpp/detail/dense_table.hpp: push_node, commit_node, erase_node, do_insert, do_erase (549-618, 674-697, 740-762), maybe_rehash (775-781)"]}
{"id": "C107", "title": "Iteration order of unordered containers", "statement": "The order in which an unordered container visits its elements does not change without need: erasing elements, lookups, overwriting mapped values and insertions for which there is room leave the remaining elements in their relative order (the standard demands this of erase), and copies and moved-to containers visit the elements in the order of the source.", "quantifier": "all reachable containers, all hash functions, all block sizes, all histories that find room, all sets of surviving keys, all allocators and all targets of assignments", "why_tests_cant": "Tests compare contents as sets; the order depends on slots, hash values and the whole history, and a deviation shows only for particular positions of the erased and surviving elements.", "anchors": ["tpp/detail/swiss_table.hpp: swiss_node_iterator (412-437), emplace_node, erase_node (1264-1316), copy_data, move_data (1448-1521)", "tpp/detail/dense_table.hpp: erase_node (594-618)"]}
{"id": "C108", "title": "Average work of searches in dense containers", "statement": "Searches in dense containers are cheap on average: one unsuccessful search per bucket looks at size() elements in total, that is at load_factor() elements on average; one successful search per element looks at c(c+1)/2 elements for every bucket with c elements; averaged over all ways to distribute n keys to m buckets a successful search looks at exactly 1 + (n-1)/(2m) elements, whatever insertions, erasures and rehashes led to the containers.", "quantifier": "all reachable dense containers, all key components, all hash functions, all numbers of keys and buckets, all m^n distributions of the keys", "why_tests_cant": "A benchmark measures some keys and one hash function; the average is over all m^n distributions and must not depend on the history that arranged the chains.", "anchors": ["tpp/detail/dense_table.hpp: find_node (534-547), get_chain (522-527), insert_node (563-569), commit_node (578-587)"]}
{"id": "C109", "title": "Average number of comparisons of failing searches in sparse and stable containers", "statement": "The seven bit tags keep failing searches from comparing keys: take 128 absent keys whose hashes have the same position and all 128 tags. The searches for them read the same number b of blocks and make on average less than b/8 comparisons of keys with SSE2 and portable blocks and less than b/16 with NEON blocks. In tables not smaller than a block they make on average at most size()/128 comparisons, twice that with portable blocks.", "quantifier": "all reachable sparse and stable containers, all block variants, all hash functions, all positions, all families of 128 absent keys with distinct tags", "why_tests_cant": "A benchmark measures some keys in some tables; the bound holds for every arrangement of elements, erased and empty slots, and for hash functions however bad they are.", "anchors": ["tpp/detail/swiss_table.hpp: find_node (1209-1234), match_eq (254-257, 282-287, 313-320), decompose_hash (808-811)"]}
{"id": "C110", "title": "The cost of searches while elements come and go (sparse and stable containers)", "statement": "Until the buffer is replaced, reclaimed or cleared: the search for an element that stays reads the same number of blocks whatever else is inserted or erased; the search for an absent key never becomes cheaper; and erasures leave its cost exactly as it was, unless they erase everything.", "quantifier": "all reachable sparse and stable containers, all block variants, all hash functions, all histories that fit into the free slots, all keys", "why_tests_cant": "A benchmark measures some histories; the statement is about every history and every key, and shows that the cost of failing searches after erasures is that of the fullest state, not of the present size.", "anchors": ["tpp/detail/swiss_table.hpp: find_node (1209-1234), erase_node (1301-1316), emplace_node (1264-1300), set_metadata (1248-1254)"]}
{"id": "C111", "title": "The kinds of containers can be exchanged for one another", "statement": "A program that uses only the operations common to sparse_map, stable_map, dense_map and their ordered variants, and looks neither at iterators nor at the order of elements, sees the same whichever of them it uses; two containers of the same kind with the same elements cannot be told apart by any later program, whatever their histories, bucket counts, hash functions, load factors and metadata blocks; the two ordered kinds agree even on the order of elements.", "quantifier": "all programs of any length, all keys and values, all reachable containers, all hash functions, load factors, bucket counts, allocators and block variants", "why_tests_cant": "Each container is tested by itself with a few histories; replacing one container by another in a program is about all programs.", "anchors": ["tpp/sparse_map.hpp (160-535, 755-1130), tpp/stable_map.hpp (153-582, 795-1224), tpp/dense_map.hpp (191-588, 841-1238): the common member functions"]}
{"id": "C112", "title": "Ordered containers store their elements where unordered ones would", "statement": "The links of an ordered container have no influence on anything but the order: whatever a program does to an ordered container, the array, the buckets, the slots and the control bytes are those of the unordered container of the same kind under the same operations, so that every statement about the places of elements, capacities and the cost of searches in unordered containers holds for ordered ones as well; for sparse and stable containers this holds even after an exchange of linked nodes.", "quantifier": "all histories of any length that end without undefined behaviour, all keys, values, hash functions, load factors, initial bucket counts, allocators and block variants", "why_tests_cant": "The tests run the two variants separately and look at their contents only, never at where the elements are; that the two implementations agree step by step is about all histories.", "anchors": ["tpp/detail/swiss_table.hpp (1175-1263, 1264-1316, 1376-1446) and tpp/detail/dense_table.hpp (430-480, 640-801): the branches on is_ordered"]}
{"id": "C113", "title": "Keys with the same hash are compared with each other", "statement": "A search for an absent key compares every element that has the hash of the key, wherever the history has put it, so that inserting n new keys with the same hash into a container takes about n * n / 2 calls of the user's functions: exactly n * (n + 1) / 2 per component in dense containers, between n * (n + 1) / 2 and n * n in empty sparse and stable ones; growing the container does not help.", "quantifier": "all reachable containers, all numbers of keys and key components, all hash functions, hash values and block variants", "why_tests_cant": "Tests measure neither comparisons nor containers full of colliding keys; a lower bound on the work for all histories, and that no rehash avoids it, cannot be observed on samples.", "anchors": ["tpp/detail/swiss_table.hpp find_node, do_insert (1209-1234, 1330-1347)", "tpp/detail/dense_table.hpp find_node, do_insert (534-547, 674-697)"]}
{"id": "C114", "title": "Erasing from a dense container follows only the links of two sets of buckets", "statement": "erase(iterator) and erase(key) of a dense container follow at most as many links as there are other elements in the buckets of the erased element and in those of the last element, which moves into the hole; if no bucket has more than c elements this is at most 2 * k * (c - 1) for k key components, however many elements there are. erase(key) of an absent key looks at exactly the elements of its bucket.", "quantifier": "all reachable containers, all positions and keys, all numbers of key components, hash functions and load factors", "why_tests_cant": "Tests see the result of an erasure, not the links followed; that the number does not depend on the size of the container is about all containers.", "anchors": ["tpp/detail/dense_table.hpp find_chain_ptr, move_chain, erase_node, do_erase (528-533, 570-576, 594-618, 725-762)"]}
{"id": "C115", "title": "Every target compiles one working variant of the control-byte blocks", "statement": "For every combination of compiler, target and library options the preprocessor selects the block variant of the target (16-byte blocks on x86 with SSE2, NEON blocks on ARM with NEON, 64-bit words otherwise), every member function of the blocks is then defined exactly once, the headers of the intrinsics used are included, control bytes are read in the byte order of the machine, and metadata and nodes share one allocation only in release builds of compilers other than GCC.", "quantifier": "all sets of predefined and user macros that do not define the library's own names", "why_tests_cant": "A test runs in one configuration; the claim ranges over all combinations of about twenty macros with their values, most of which belong to compilers and machines the tests are never run on.", "anchors": ["tpp/detail/arch.hpp:7-51", "tpp/detail/define.hpp:7-11", "tpp/detail/swiss_table.hpp:14-22", "tpp/detail/swiss_table.hpp:184-193", "tpp/detail/swiss_table.hpp:221-337", "tpp/detail/swiss_table.hpp:443-452", "tpp/detail/utility.hpp:75-146"]}
{"id": "C116", "title": "Room once made is kept", "statement": "No operation other than rehash(0) makes a container smaller: erasures, clear, lookups and node extraction keep its arrays as they are, the insertion of one element keeps them or enlarges them (a sparse container of n buckets gets 2n + 1), and reserve, rehash(n) and range insertion never lower the bucket count.", "quantifier": "all reachable containers, hash functions, operations and arguments, all block variants", "why_tests_cant": "Tests of reserve start from containers without erased slots; the loss of buckets needs a history that fills slots and erases elements, followed by a request that a smaller buffer can satisfy.", "anchors": ["tpp/detail/swiss_table.hpp:930", "tpp/detail/swiss_table.hpp:981-987", "tpp/detail/dense_table.hpp:349-362", "tpp/detail/dense_table.hpp:442-451", "tpp/detail/dense_table.hpp:764-821", "tpp/detail/utility.hpp:232-248"]}
{"id": "C117", "title": "Types computed by the library", "statement": "Erasing by one key component visits each of the other components exactly once; the default hash function and comparison of multi-key containers accept exactly the types of the components; stable maps and sets find the key of an element in the element; and a container constructed from a range or an initializer list without template arguments is the one whose elements are those of the range, with the given hash function, comparison and allocator and the defaults of its class for the others.", "quantifier": "all index sequences, packs of types, element types and constructor arguments", "why_tests_cant": "A test instantiates a few types; the claim is about every type that can be formed, and a wrong guide shows only as a container of another type or as a program that does not compile.", "anchors": ["tpp/detail/table_common.hpp:701-726", "tpp/detail/multikey.hpp:11-52", "tpp/detail/stable_traits.hpp:11-39", "tpp/detail/utility.hpp:249-258", "tpp/sparse_map.hpp:591-607", "tpp/sparse_set.hpp:308-324", "tpp/stable_map.hpp:638-654", "tpp/stable_set.hpp:341-357", "tpp/dense_map.hpp:646-662", "tpp/dense_set.hpp:355-371"]}
{"id": "C118", "title": "Operations of ordered containers write a bounded number of links", "statement": "An insertion into an ordered container writes at most three links, an erasure at most six, an insertion that is rejected none; only while room is made are more written, four for each element that is moved. Iteration follows one link per element, whatever the number of buckets.", "quantifier": "all states of the memory and of the containers, all keys, hints and hash functions; iteration: all containers a program can produce", "why_tests_cant": "Tests compare sequences; they do not see which links an operation touched, nor that the bound holds for any number of elements and buckets.", "anchors": ["tpp/detail/table_common.hpp:117-180", "tpp/detail/swiss_table.hpp:1256-1316", "tpp/detail/swiss_table.hpp:1376-1446", "tpp/detail/dense_table.hpp:570-617", "tpp/detail/dense_table.hpp:783-821"]}
{"id": "C119", "title": "64-bit words of dense containers agree with the mathematical ones", "statement": "Computed as the code does, with 64-bit sizes, hashes and chain indices, the word npos for the end of a chain, and unsigned sums, differences and products that wrap around unchecked, every operation of a dense container gives exactly the container and the answer obtained with unbounded numbers, as long as the arrays of elements and buckets have fewer than 2^64 entries. In particular no position is ever mistaken for npos, the element counter never wraps, and a conflict test that reads the chain (*chain != npos) or compares with end() agrees with what the search found.", "quantifier": "all hash functions to 64-bit words, all load factors, all numbers of key components, all histories whose arrays stay below 2^64 entries", "why_tests_cant": "Wrap-around and the clash of a position with npos occur near 2^64 only, which no test can allocate.", "anchors": ["tpp/detail/dense_table.hpp:20", "tpp/detail/dense_table.hpp:522-618", "tpp/detail/dense_table.hpp:620-762", "tpp/detail/dense_table.hpp:764-821"]}
{"id": "C120", "title": "The same program on different targets", "statement": "A program that uses sparse or stable containers, ordered or not, gives the same answers, iterates in the same order and makes the same buffers whatever block variant (SSE2, NEON, portable) the header was compiled with.", "quantifier": "all hash functions, all containers a program can have, all histories, all pairs of variants", "why_tests_cant": "A test runs on one target; a comparison of targets on sample programs misses those hash patterns in which the portable match_eq reports another tag's bytes.", "anchors": ["tpp/detail/swiss_table.hpp:184-331", "tpp/detail/swiss_table.hpp:808-833", "tpp/detail/swiss_table.hpp:1209-1246"]}
{"id": "C121", "title": "Template arguments that the containers accept", "statement": "A container compiles with every hash function, comparison and allocator that a standard container of the same elements accepts: any two function classes, also one class that does both, and allocators whose value_type is the container's. The containers named by default arguments and by class template argument deduction compile. Pointers to map elements can be default constructed and convert to pointers to constant elements.", "quantifier": "all kinds of containers, all key, mapped, hash, comparison and allocator types", "why_tests_cant": "A test instantiates a few types, and an instantiation that does not compile cannot be part of a test suite that does.", "anchors": ["tpp/detail/table_common.hpp:12-83", "tpp/detail/table_common.hpp:219-293", "tpp/detail/table_common.hpp:314-473", "tpp/detail/table_common.hpp:785-812", "tpp/detail/swiss_table.hpp:346-371", "tpp/detail/swiss_table.hpp:744-770", "tpp/detail/dense_table.hpp:17-71"]}
{"id": "C122", "title": "Searches for consecutive integers", "statement": "If the hashes of the keys of a container are consecutive integers, as those of consecutive integers are under the identity hash of common standard libraries, a successful search reads a small constant number of blocks (sparse and stable containers) or elements (dense containers) on average, as it would with arbitrary hashes.", "quantifier": "All numbers of keys, all first hashes, all histories that lead to the container, all block variants", "why_tests_cant": "Tests with a few dozen consecutive integers stay within one or two blocks and all pass; the claim is about the number of reads, which no result reveals, for every number of keys and every history.", "anchors": ["tpp/detail/swiss_table.hpp:808-811", "tpp/detail/swiss_table.hpp:1209-1232", "tpp/detail/dense_table.hpp:534-548"]}
{"id": "C123", "title": "Hash functions and comparisons that answer arbitrarily", "statement": "Even if the hash function and the comparison of a sparse or stable container return arbitrary answers, different ones for the same arguments at each call, no operation accesses memory outside of the arrays, reads or destroys an element that does not exist, leaks one, or fails to end. The elements are those whose insertion reported success and that were not erased since; size and iteration agree with that. An element whose hash is repeated and which the comparison accepts leads to a successful search, whatever was answered for other elements.", "quantifier": "All histories of operations, all hashes and all answers of the comparison at each call, all block variants", "why_tests_cant": "Tests use consistent functions; the inconsistent ones are arbitrary sequences of answers, of which tests can try a few only, and the damage would be undefined behaviour that need not show.", "anchors": ["tpp/detail/swiss_table.hpp:1209-1234", "tpp/detail/swiss_table.hpp:1266-1359", "tpp/detail/swiss_table.hpp:1376-1445"]}
{"id": "C124", "title": "Hash functions and comparisons that answer arbitrarily (dense containers)", "statement": "Even if the hash function and the comparison of a dense container, with one or several keys per element, return arbitrary answers, different ones for the same arguments at each call, no operation has undefined behaviour or fails to end, provided that erase(key) is not called before there are buckets (C41). The sequence of elements changes by appending those whose insertion reported success and by moving the last element to the place of an erased one; size and iteration agree with it. A repeated hash and a comparison that accepts the element lead to a successful search, whatever is answered for other elements.", "quantifier": "All numbers of key components, all load factors, all histories of operations, all hashes and all answers of the comparison at each call", "why_tests_cant": "Tests use consistent functions; the inconsistent ones are arbitrary sequences of answers, of which tests can try a few only, and a broken chain shows much later or not at all.", "anchors": ["tpp/detail/dense_table.hpp:534-556", "tpp/detail/dense_table.hpp:620-762"]}
{"id": "C125", "title": "Transparent hash functions and comparisons are recognised as in the standard", "statement": "If the hash function and the comparison both have a member type is_transparent, whichever type it is, then find, contains and erase with an argument of another type that the hash function accepts use the argument as it is; otherwise the argument is converted to a key if possible. Calls with a key compile in any case.", "quantifier": "All kinds of marker types of both function classes and all kinds of arguments", "why_tests_cant": "Which programs compile cannot be observed by a program that compiles; the tests use no transparent functions.", "anchors": ["tpp/detail/table_common.hpp:189-193", "tpp/detail/swiss_table.hpp:352", "tpp/detail/dense_table.hpp:22", "tpp/sparse_set.hpp:214-221"]}
{"id": "C126", "title": "Ordered sparse and stable containers with hash functions and comparisons that answer arbitrarily", "statement": "Even if the hash function and the comparison of an ordered sparse or stable container return arbitrary answers, different ones for the same arguments at each call, then as long as no two linked nodes are exchanged when erased slots are reclaimed in place (the defect of C52), and in particular in every history without erasures of single elements and in every history that begins by reserving enough room and does not call rehash, no operation has undefined behaviour. The elements are those whose insertion reported success and that were not erased since, in the order of insertion; iteration in both directions, size, front and back agree with that. An element whose hash is repeated and which the comparison accepts leads to a successful search. A copy is iterated over in the same order, and the original keeps its elements. A move passes the elements on in the same order and leaves the former container empty.", "quantifier": "All histories of operations, all hashes and all answers of the comparison at each call, all memories, sound allocators, node sizes and block variants", "why_tests_cant": "Tests use consistent functions; inconsistent ones are arbitrary sequences of answers, and damaged links would be undefined behaviour that need not show.", "anchors": ["tpp/detail/swiss_table.hpp:1209-1234", "tpp/detail/swiss_table.hpp:1256-1374", "tpp/detail/table_common.hpp:115-180"]}
{"id": "C127", "title": "Ordered dense containers with hash functions and comparisons that answer arbitrarily", "statement": "Even if the hash function and the comparison of an ordered dense container return arbitrary answers, different ones for the same arguments and for each key component at each call, no operation has undefined behaviour, provided that erase(key) is only called once there are buckets. The elements are those whose insertion reported success and that were not erased since, in the order of insertion, although erasures move elements within the array; iteration in both directions, size, front and back agree with that. An element whose hash is repeated and which the comparison accepts leads to a successful search by each of its key components. A copy has the same elements in the same order, leaves the original as it is, and behaves likewise. A move passes the elements on in the same order and leaves the former container empty.", "quantifier": "All numbers of key components, all histories of operations, all hashes and all answers of the comparison at each call, all memories, sound allocators, node sizes and load factors", "why_tests_cant": "Tests use consistent functions; inconsistent ones are arbitrary sequences of answers, and damaged chains or links would be undefined behaviour that need not show.", "anchors": ["tpp/detail/dense_table.hpp:529-546", "tpp/detail/dense_table.hpp:561-762", "tpp/detail/table_common.hpp:115-180"]}
{"id": "C128", "title": "merge, swap, moves and copies with hash functions and comparisons that answer arbitrarily", "statement": "Even if the hash functions and the comparisons of several unordered sparse or stable containers return arbitrary answers, no program of operations, swaps, copies, assignments and merges, also of rvalues, of different containers loses, duplicates or alters an element, and none has undefined behaviour, unless it copies or assigns in one of the situations of C16 and C17 that can go wrong with proper functions too. merge moves elements from the source to the target and leaves an element in the source only if the comparison accepted an element of the target in its place. Size and iteration of every container agree with its elements. Element, hash and an accepting comparison lead to a successful search, where the hash is the one merge computed if it moved the element.", "quantifier": "All numbers of containers, all programs, all hashes and all answers of the comparison at each call, all block sizes", "why_tests_cant": "Tests use consistent functions; inconsistent ones are arbitrary sequences of answers, and merge extracts from one table while it inserts in another, in arbitrary states of both.", "anchors": ["tpp/detail/swiss_table.hpp:1096-1113", "tpp/detail/swiss_table.hpp:848-883", "tpp/detail/swiss_table.hpp:1116-1122", "tpp/detail/swiss_table.hpp:1140-1146", "tpp/detail/swiss_table.hpp:1209-1234"]}
{"id": "C129", "title": "Copies, moves and swaps of dense containers with hash functions and comparisons that answer arbitrarily", "statement": "Even if the hash functions and the comparisons of several dense containers return arbitrary answers, every program of operations, copies, copy and move assignments and swaps runs without undefined behaviour unless it comes to one of the two operations that are wrong with proper functions too: erase(key) when there are no buckets, and assigning an empty container to one with elements. Copies have the elements of the original in the same order and are independent of it, moves leave the source empty, swaps exchange the sequences, and no other container changes. Size and iteration of every container agree with its sequence, and an element is found, also in copies, by each component whose hash is repeated and which the comparison accepts.", "quantifier": "All numbers of containers and of key components, all programs, all hashes and all answers of the comparison at each call, all load factors", "why_tests_cant": "Tests use consistent functions; inconsistent ones are arbitrary sequences of answers, and the copied or moved tables are in states no proper function produces, such as equal keys stored several times.", "anchors": ["tpp/detail/dense_table.hpp:230-302", "tpp/detail/dense_table.hpp:460-477", "tpp/detail/dense_table.hpp:561-762", "tpp/detail/dense_table.hpp:803-910"]}
