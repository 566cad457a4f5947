{
 "claims": [
  {
   "property": "C01",
   "status": "proved",
   "theorems": [
    "Tpp.Swiss.C01_history_agrees",
    "Tpp.Swiss.C01_history_agrees_sse2",
    "Tpp.Swiss.C01_history_agrees_direct"
   ],
   "note": "For 16-byte blocks every history agrees; for 8-byte blocks every history that does not iterate agrees, and any other history agrees or stops with ctz(0), the defect of C32."
  },
  {
   "property": "C02",
   "status": "proved",
   "theorems": [
    "Tpp.Swiss.C02_no_fault",
    "Tpp.Swiss.C02_no_fault_sse2",
    "Tpp.Swiss.C02_no_fault_direct",
    "Tpp.Swiss.C02_erase_iterator"
   ],
   "note": "Model faults: out-of-range access, read of a dead element, construction over a live one, failed assertion, exhausted fuel (non-termination). For 8-byte blocks ctz(0) is the only possible fault (C32)."
  },
  {
   "property": "C03",
   "status": "proved",
   "theorems": [
    "Tpp.Swiss.C03_no_duplicate_keys"
   ],
   "note": ""
  },
  {
   "property": "C04",
   "status": "proved",
   "theorems": [
    "Tpp.Swiss.C04_size_is_iteration_length",
    "Tpp.Swiss.C04_size_is_cardinality"
   ],
   "note": ""
  },
  {
   "property": "C05",
   "status": "proved",
   "theorems": [
    "Tpp.Swiss.C05_iteration_exactly_once"
   ],
   "note": "With 8-byte blocks the walk may instead stop with ctz(0), see C32."
  },
  {
   "property": "C06",
   "status": "proved",
   "theorems": [
    "Tpp.Swiss.C06_insert"
   ],
   "note": ""
  },
  {
   "property": "C07",
   "status": "proved",
   "theorems": [
    "Tpp.Swiss.C07_insert_or_assign"
   ],
   "note": ""
  },
  {
   "property": "C08",
   "status": "proved",
   "theorems": [
    "Tpp.Swiss.C08_erase_iterator",
    "Tpp.Swiss.C08_erase_key"
   ],
   "note": "With 8-byte blocks advancing the iterator may stop with ctz(0), see C32."
  },
  {
   "property": "C09",
   "status": "proved",
   "theorems": [
    "Tpp.Swiss.C09_clear"
   ],
   "note": ""
  },
  {
   "property": "C10",
   "status": "proved",
   "theorems": [
    "Tpp.Swiss.C10_reserve",
    "Tpp.Swiss.C10_rehash"
   ],
   "note": ""
  },
  {
   "property": "C11",
   "status": "partial",
   "theorems": [
    "Tpp.Swiss.C11_rehash_zero_false_all",
    "Tpp.Swiss.C11_rehash_zero_iff",
    "Tpp.Swiss.C11_rehash_zero_false",
    "Tpp.Swiss.C11_rehash_zero_partial"
   ],
   "note": "False in the code for every container with two or more elements (C11_rehash_zero_false_all: the relocation into the single bucket fails); C11_rehash_zero_iff gives the exact condition. Proved for containers with at most one element."
  },
  {
   "property": "C12",
   "status": "partial",
   "theorems": [
    "Tpp.Swiss.C12_reserve_false_all",
    "Tpp.Swiss.C12_reserve_partial",
    "Tpp.Swiss.C12_reserve_false"
   ],
   "note": "False for moved-from containers, whose free budget is stale (witness in C12_reserve_false; C12_reserve_false_all: for every such container). Proved for every container whose budget is settled."
  },
  {
   "property": "C13",
   "status": "proved",
   "theorems": [
    "Tpp.Swiss.C13_bucket_count"
   ],
   "note": ""
  },
  {
   "property": "C14",
   "status": "proved",
   "theorems": [
    "Tpp.Swiss.C14_reclaim"
   ],
   "note": ""
  },
  {
   "property": "C15",
   "status": "proved",
   "theorems": [
    "Tpp.Swiss.C15_churn_bound"
   ],
   "note": ""
  },
  {
   "property": "C16",
   "status": "partial",
   "theorems": [
    "Tpp.Swiss.C16_copy_iff",
    "Tpp.Swiss.C16_copy_false",
    "Tpp.Swiss.C16_copy_partial",
    "Tpp.Swiss.C16_copy_no_erase_partial"
   ],
   "note": "False for sources with erased slots (witness in C16_copy_false). Proved exactly, for all sources: the copy shows all elements in iteration and size, every lookup is right or fails, and it behaves as the source if and only if the source is Connected (no element's probe path needs an erased slot), which holds in particular without erased slots."
  },
  {
   "property": "C17",
   "status": "partial",
   "theorems": [
    "Tpp.Swiss.C17_copy_assign_iff",
    "Tpp.Swiss.C17_copy_assign_empty_false",
    "Tpp.Swiss.C17_copy_assign_false_scarred",
    "Tpp.Swiss.C17_copy_assign_false_larger",
    "Tpp.Swiss.C17_copy_assign_false_empty",
    "Tpp.Swiss.C17_copy_assign_false_erased",
    "Tpp.Swiss.C17_copy_assign_partial"
   ],
   "note": "False in four ways, each with a witness, the empty source into a non-empty target for all such pairs. Proved exactly for all sources with elements or propagated allocators (Shows; equivalent to Connected if the target has no larger bucket count)."
  },
  {
   "property": "C18",
   "status": "proved",
   "theorems": [
    "Tpp.Swiss.C18_move_construct",
    "Tpp.Swiss.C18_move_assign"
   ],
   "note": ""
  },
  {
   "property": "C19",
   "status": "proved",
   "theorems": [
    "Tpp.Swiss.C19_swap"
   ],
   "note": ""
  },
  {
   "property": "C20",
   "status": "proved",
   "theorems": [
    "Tpp.Swiss.C20_merge"
   ],
   "note": "With 8-byte blocks the iteration over the source may stop with ctz(0), see C32."
  },
  {
   "property": "C21",
   "status": "proved",
   "theorems": [
    "Tpp.Swiss.C21_extract",
    "Tpp.Swiss.C21_insert_node",
    "Tpp.Swiss.C21_round_trip"
   ],
   "note": "As C20 for the iterator that extract computes."
  },
  {
   "property": "C22",
   "status": "proved",
   "theorems": [
    "Tpp.Swiss.C22_address_stable",
    "Tpp.Swiss.C22_address_from_insertion",
    "Tpp.Swiss.C22_erase_iterator",
    "Tpp.Swiss.C22_merge",
    "Tpp.Swiss.C22_move_swap",
    "Tpp.Swiss.C22_extract"
   ],
   "note": "Addresses are part of the payload; the allocator may return any address. With 8-byte blocks histories may stop with ctz(0), see C32."
  },
  {
   "property": "C23",
   "status": "proved",
   "theorems": [
    "Tpp.Swiss.C23_eq"
   ],
   "note": ""
  },
  {
   "property": "C24",
   "status": "proved",
   "theorems": [
    "Tpp.Swiss.C24_at",
    "Tpp.Swiss.C24_index"
   ],
   "note": ""
  },
  {
   "property": "C25",
   "status": "partial",
   "theorems": [
    "Tpp.Swiss.C25_range_ctor_false_all",
    "Tpp.Swiss.C25_range_ctor_iff",
    "Tpp.Swiss.C25_range_ctor_false",
    "Tpp.Swiss.C25_range_ctor_partial"
   ],
   "note": "False for all lengths that are not a power of two minus one (C25_range_ctor_false_all, C25_range_ctor_iff). Proved for the others."
  },
  {
   "property": "C26",
   "status": "partial",
   "theorems": [
    "Tpp.Swiss.C26_bucket_count_ctor_false_all",
    "Tpp.Swiss.C26_bucket_count_ctor_iff",
    "Tpp.Swiss.C26_bucket_count_ctor_false",
    "Tpp.Swiss.C26_bucket_count_ctor_partial"
   ],
   "note": "False for all bucket counts that are not a power of two minus one (C26_bucket_count_ctor_false_all, C26_bucket_count_ctor_iff). Proved for the others."
  },
  {
   "property": "C27",
   "status": "proved",
   "theorems": [
    "Tpp.Swiss.C27_erase_if"
   ],
   "note": "With 8-byte blocks the walk may stop with ctz(0), see C32."
  },
  {
   "property": "C28",
   "status": "proved",
   "theorems": [
    "Tpp.Swiss.C28_constructor_throws"
   ],
   "note": ""
  },
  {
   "property": "C29",
   "status": "proved",
   "theorems": [
    "Tpp.Swiss.Buf.C29_resize_split",
    "Tpp.Swiss.Buf.C29_resize_combined",
    "Tpp.Swiss.C29_insert",
    "Tpp.Swiss.C29_insert_or_assign",
    "Tpp.Swiss.C29_reserve",
    "Tpp.Swiss.C29_rehash"
   ],
   "note": "Buffer level (both layouts, every allocation point, allocation heap with sizes) and container level for insert, insert_or_assign, reserve and rehash(n>0)."
  },
  {
   "property": "C30",
   "status": "proved",
   "theorems": [
    "Tpp.Swiss.C30_sse2",
    "Tpp.Swiss.C30_portable",
    "Tpp.Swiss.C30_neon",
    "Tpp.Swiss.C30_table"
   ],
   "note": "SSE2, SSSE3, NEON and portable routines on bit vectors; C30_table connects them to every block a reachable container reads. NEON and portable counts are undefined where C32 says so."
  },
  {
   "property": "C31",
   "status": "partial",
   "theorems": [
    "Tpp.Swiss.C31_bit_scans_false",
    "Tpp.Swiss.C31_bit_scans_partial"
   ],
   "note": "False: the generic scans are one too large, and so is the MSVC clz (witness); every other input is off by exactly one, which is what the partial theorem states. The builtin variants are right (ctz and clz are their specification)."
  },
  {
   "property": "C32",
   "status": "partial",
   "theorems": [
    "Tpp.Swiss.C32_iteration_false",
    "Tpp.Swiss.C32_iteration_partial",
    "Tpp.Swiss.C32_iteration_sse2_partial",
    "Tpp.Swiss.C32_iteration_iff",
    "Tpp.Swiss.C32_iteration_false_all"
   ],
   "note": "False: with 8-byte blocks iteration over any container with a free block evaluates ctz(0) (C32_iteration_false_all); C32_iteration_iff gives the exact condition. Proved for at most 7 buckets or when no window of 8 bytes is entirely free, and for 16-byte blocks always."
  },
  {
   "property": "C33",
   "status": "proved",
   "theorems": [
    "Tpp.Swiss.C33_align_word",
    "Tpp.Swiss.C33_min_capacity_word",
    "Tpp.Swiss.C33_capacity"
   ],
   "note": "64-bit words for requests below 2^59; the natural-number functions for all requests."
  },
  {
   "property": "C34",
   "status": "proved",
   "theorems": [
    "Tpp.Swiss.C34_probe"
   ],
   "note": ""
  },
  {
   "property": "C35",
   "status": "partial",
   "theorems": [
    "Tpp.Swiss.Buf.C35_layout",
    "Tpp.Swiss.Buf.C35_dealloc_false",
    "Tpp.Swiss.Buf.C35_dealloc_split",
    "Tpp.Swiss.Buf.C35_dealloc_combined_partial"
   ],
   "note": "Layout proved for all sizes. Deallocation sizes proved for every history of separate buffers; for the combined buffer false for buffer assignment (every non-empty buffer, C35_dealloc_false), proved for the other operations."
  },
  {
   "property": "C36",
   "status": "proved",
   "theorems": [
    "Tpp.Dense.C36_history_agrees",
    "Tpp.Dense.C36_history_agrees_buckets",
    "Tpp.Dense.C36_behaves"
   ],
   "note": "erase(key) is allowed in a history once the container has buckets (C41)."
  },
  {
   "property": "C37",
   "status": "proved",
   "theorems": [
    "Tpp.Dense.C37_order"
   ],
   "note": ""
  },
  {
   "property": "C38",
   "status": "proved",
   "theorems": [
    "Tpp.Dense.C38_components_distinct",
    "Tpp.Dense.C38_find_component",
    "Tpp.Dense.C38_find_sound"
   ],
   "note": "Any number of key components; erase through the iterator of a container with several components is modelled as intended although it does not compile (B27)."
  },
  {
   "property": "C39",
   "status": "proved",
   "theorems": [
    "Tpp.Dense.C39_insert",
    "Tpp.Dense.C39_emplace"
   ],
   "note": ""
  },
  {
   "property": "C40",
   "status": "proved",
   "theorems": [
    "Tpp.Dense.C40_erase",
    "Tpp.Dense.C40_erase_absent"
   ],
   "note": ""
  },
  {
   "property": "C41",
   "status": "partial",
   "theorems": [
    "Tpp.Dense.C41_erase_false",
    "Tpp.Dense.C41_no_buckets",
    "Tpp.Dense.C41_erase_absent_partial"
   ],
   "note": "False for every container without buckets (C41_erase_false). Proved for the others."
  },
  {
   "property": "C42",
   "status": "proved",
   "theorems": [
    "Tpp.Dense.C42_erase_iterator"
   ],
   "note": ""
  },
  {
   "property": "C43",
   "status": "partial",
   "theorems": [
    "Tpp.Dense.C43_erase_if_false",
    "Tpp.Dense.C43_erase_if_partial"
   ],
   "note": "False whenever some element satisfies the predicate: the cached end iterator is passed and a destroyed element read. Proved when none does."
  },
  {
   "property": "C44",
   "status": "proved",
   "theorems": [
    "Tpp.Dense.C44_erase_range"
   ],
   "note": ""
  },
  {
   "property": "C45",
   "status": "partial",
   "theorems": [
    "Tpp.Dense.C45_copy_constructor",
    "Tpp.Dense.C45_copy_assign_false",
    "Tpp.Dense.C45_copy_assign_partial"
   ],
   "note": "Copy construction proved. Copy assignment from an empty container into a non-empty one is false with every allocator that does not propagate on copy; proved otherwise."
  },
  {
   "property": "C46",
   "status": "proved",
   "theorems": [
    "Tpp.Dense.C46_move_constructor",
    "Tpp.Dense.C46_move_assign",
    "Tpp.Dense.C46_swap",
    "Tpp.Dense.C46_nonpropagating_stale",
    "Tpp.Dense.C46_unequal_stale"
   ],
   "note": "Allocators that propagate on move, as std::allocator. Two additional theorems show that other allocators leave stale buckets in the source."
  },
  {
   "property": "C47",
   "status": "partial",
   "theorems": [
    "Tpp.Dense.C47_insert_throw_false",
    "Tpp.Dense.C47_emplace_throw_false",
    "Tpp.Dense.C47_insert_throw_partial"
   ],
   "note": "False for every new element (C47_insert_throw_false) and always for emplace. Proved for insert of a present element, where nothing is constructed."
  },
  {
   "property": "C48",
   "status": "partial",
   "theorems": [
    "Tpp.Dense.C48_rehash_false",
    "Tpp.Dense.C48_insert_false",
    "Tpp.Dense.C48_rehash_partial",
    "Tpp.Dense.C48_elements_partial"
   ],
   "note": "False whenever buckets must grow from a non-zero count. Proved for containers without buckets and for the element array."
  },
  {
   "property": "C49",
   "status": "partial",
   "theorems": [
    "Tpp.Dense.C49_dense_false",
    "Tpp.Dense.C49_dense_partial",
    "Tpp.Swiss.C49_swiss_insert_self"
   ],
   "note": "Proved for sparse and stable containers. False for every dense container whose element array is full; proved for the others."
  },
  {
   "property": "C50",
   "status": "partial",
   "theorems": [
    "Tpp.Dense.C50_load_false",
    "Tpp.Dense.C50_load_bound_partial",
    "Tpp.Dense.C50_load_divisible_partial",
    "Tpp.Dense.C50_load_iff",
    "Tpp.Dense.C50_load_false_all"
   ],
   "note": "False for every bucket count that is not a multiple of 8 (C50_load_false_all; smallest witness 9 elements in 10 buckets); C50_load_iff: exactly when the new element does not fit below the limit. Proved: the bound that holds after every insertion, and that the claim is kept by insertions when the bucket count is a multiple of the denominator of the factor. The factor is an exact ratio here; C81 has the float arithmetic."
  },
  {
   "property": "C51",
   "status": "proved",
   "theorems": [
    "Tpp.ODense.C51_dense_insertion_order",
    "Tpp.ODense.C51_dense_insertion_order_worlds",
    "Tpp.ODense.C51_dense_position_kept"
   ],
   "note": "Any number of containers in one memory, any addresses. erase(key) is allowed in a history once the container has buckets (C41); copies, moves and swaps as far as C45, C46 and C58 allow."
  },
  {
   "property": "C52",
   "status": "partial",
   "theorems": [
    "Tpp.OSwiss.C52_swiss_insertion_order_partial",
    "Tpp.OSwiss.C52_swiss_growing_partial",
    "Tpp.OSwiss.C52_swiss_reserved_partial",
    "Tpp.OSwiss.C52_swiss_position_kept_partial",
    "Tpp.OSwiss.C52_swiss_reclaim_false",
    "Tpp.OSwiss.C52_swiss_exchange_false"
   ],
   "note": "False: reclaiming erased slots in place exchanges the relative links of two nodes (witness for both block widths; C52_swiss_exchange_false shows that every such exchange, in every container, makes iteration differ from the sequence). Proved: every program either comes to such an exchange or behaves as the list; no exchange happens without erasures, nor within reserved room."
  },
  {
   "property": "C53",
   "status": "partial",
   "theorems": [
    "Tpp.ODense.C53_dense_increment_decrement",
    "Tpp.ODense.C53_dense_reverse",
    "Tpp.OSwiss.C53_swiss_increment_decrement_partial",
    "Tpp.OSwiss.C53_swiss_reverse_partial"
   ],
   "note": "Dense: proved for every reachable container. For sparse and stable containers: all containers reached without the exchange of linked nodes of C52."
  },
  {
   "property": "C54",
   "status": "partial",
   "theorems": [
    "Tpp.OSwiss.C54_swiss_erase_iterator_partial",
    "Tpp.OSwiss.C54_swiss_erase_key_partial",
    "Tpp.OSwiss.C54_swiss_erase_absent_partial"
   ],
   "note": "Removal, order and returned iterator for keys and iterators. For sparse and stable containers: all containers reached without the exchange of linked nodes of C52."
  },
  {
   "property": "C55",
   "status": "partial",
   "theorems": [
    "Tpp.ODense.C55_dense_erase_iterator_partial",
    "Tpp.ODense.C55_dense_erase_key_partial",
    "Tpp.ODense.C55_dense_successor_false"
   ],
   "note": "False: if the next element is in the last slot of the array, the returned iterator designates a dead slot. Proved: in exactly all other cases it is right, and the removal itself always is."
  },
  {
   "property": "C56",
   "status": "partial",
   "theorems": [
    "Tpp.ODense.C56_dense_erase_if_partial",
    "Tpp.ODense.C56_dense_erase_if_false",
    "Tpp.OSwiss.C56_swiss_erase_if_partial"
   ],
   "note": "Dense: false; proved that the loop ends and either reads an erased element or does what it should. Sparse and stable: as stated. For sparse and stable containers: all containers reached without the exchange of linked nodes of C52."
  },
  {
   "property": "C57",
   "status": "partial",
   "theorems": [
    "Tpp.ODense.C57_dense_range_one_partial",
    "Tpp.ODense.C57_dense_range_false",
    "Tpp.ODense.C57_dense_range_jump_false",
    "Tpp.ODense.C57_dense_range_two_partial",
    "Tpp.ODense.C57_dense_range_tail_partial",
    "Tpp.OSwiss.C57_swiss_range_partial",
    "Tpp.OSwiss.C57_swiss_empty_range_false"
   ],
   "note": "Dense: proved for one element, for two elements in exactly the cases in which it holds (the element in the last slot is the second one or directly behind it), and for ranges that reach the end or the last element of a container in storage order; refuted for all ranges of two elements and more if the element in the last slot is the first of the range, before it, or further behind it. Sparse and stable: the removal is right for all ranges, the result for ranges that are not empty (witness for empty ones). For sparse and stable containers: all containers reached without the exchange of linked nodes of C52. Links of destroyed nodes are taken to be readable."
  },
  {
   "property": "C58",
   "status": "partial",
   "theorems": [
    "Tpp.ODense.C58_dense_swap_partial",
    "Tpp.ODense.C58_dense_swap_false",
    "Tpp.ODense.C58_dense_swap_empty_false",
    "Tpp.OSwiss.C58_swiss_swap_empty_false",
    "Tpp.OSwiss.C58_swiss_swap_partial",
    "Tpp.OSwiss.C58_swiss_swap_false"
   ],
   "note": "False for all pairs of containers of which one is empty; proved for two containers that are not empty. For sparse and stable containers: all containers reached without the exchange of linked nodes of C52."
  },
  {
   "property": "C59",
   "status": "partial",
   "theorems": [
    "Tpp.ODense.C59_dense_copy",
    "Tpp.ODense.C59_dense_copy_assign",
    "Tpp.ODense.C59_dense_move",
    "Tpp.ODense.C59_dense_move_assign",
    "Tpp.ODense.C59_dense_move_assign_nonprop",
    "Tpp.ODense.C59_dense_move_unequal",
    "Tpp.ODense.C59_dense_move_assign_unequal",
    "Tpp.OSwiss.C59_swiss_copy_partial",
    "Tpp.OSwiss.C59_swiss_copy_assign_partial",
    "Tpp.OSwiss.C59_swiss_move_partial",
    "Tpp.OSwiss.C59_swiss_move_assign_partial"
   ],
   "note": "Dense: every reachable container, moves between equal and unequal allocators. Sparse and stable: copies and moves with any allocators, for all containers reached without the exchange of linked nodes of C52."
  },
  {
   "property": "C60",
   "status": "partial",
   "theorems": [
    "Tpp.OSwiss.C60_swiss_merge_actual_partial",
    "Tpp.OSwiss.C60_swiss_merge_partial",
    "Tpp.OSwiss.C60_swiss_merge_false"
   ],
   "note": "False: the first element of the source is never transferred, the others arrive in the opposite order (witnesses). Proved: exactly this, for all pairs, and the claim where the two agree. For sparse and stable containers: all containers reached without the exchange of linked nodes of C52. Links of destroyed nodes are taken to be readable."
  },
  {
   "property": "C61",
   "status": "partial",
   "theorems": [
    "Tpp.ODense.C61_dense_hint_words_partial",
    "Tpp.ODense.C61_dense_hint_words_needed",
    "Tpp.ODense.C61_dense_hint_words_false",
    "Tpp.ODense.C61_dense_behind_hint_partial",
    "Tpp.ODense.C61_dense_end_hint_partial",
    "Tpp.ODense.C61_dense_hint_false",
    "Tpp.OSwiss.C61_swiss_behind_hint_partial",
    "Tpp.OSwiss.C61_swiss_end_hint_partial",
    "Tpp.OSwiss.C61_swiss_growth_dangling",
    "Tpp.OSwiss.C61_swiss_hint_false"
   ],
   "note": "False; proved what happens instead: behind the element, in front for end(). With growth the hint end() leads outside of the storage in dense containers, and a hint at an element to freed storage in sparse and stable ones. In machine words the moved hint of dense containers is right exactly if the arrays are a multiple of 16 bytes apart and the difference of pointers into different arrays is computed by exact division. For sparse and stable containers: all containers reached without the exchange of linked nodes of C52."
  },
  {
   "property": "C62",
   "status": "proved",
   "theorems": [
    "Tpp.Swiss.C62_destructor",
    "Tpp.Swiss.C62_history",
    "Tpp.Swiss.C62_history_sse2",
    "Tpp.Swiss.C62_live_elements",
    "Tpp.Dense.C62_dense_destructor",
    "Tpp.Dense.C62_dense_live",
    "Tpp.Dense.C62_dense_history"
   ],
   "note": "Lifetime faults (constructing over a live element, destroying a dead one, freeing a buffer with a live element) are part of the model; temporaries outside the containers are not modelled."
  },
  {
   "property": "C63",
   "status": "partial",
   "theorems": [
    "Tpp.Swiss.Buf.C63_construct_false",
    "Tpp.Swiss.Buf.C63_assign_false",
    "Tpp.Swiss.Buf.C63_assign_combined_false",
    "Tpp.Swiss.Buf.C63_zero_false",
    "Tpp.Swiss.Buf.C63_alloc_failure_partial"
   ],
   "note": "False three ways, each for all sizes. Proved for the allocation points that are handled."
  },
  {
   "property": "C64",
   "status": "proved",
   "theorems": [
    "Tpp.Dense.C64_insert_range",
    "Tpp.Dense.C64_construct_range",
    "Tpp.Dense.C64_assign_range",
    "Tpp.Dense.C64_range_distinct",
    "Tpp.Swiss.C64_swiss_insert_range",
    "Tpp.Swiss.C64_swiss_assign_range"
   ],
   "note": ""
  },
  {
   "property": "C65",
   "status": "partial",
   "theorems": [
    "Tpp.Swiss.C65_swiss_emplace",
    "Tpp.Swiss.C65_sparse_try_emplace_partial",
    "Tpp.Swiss.C65_sparse_try_emplace_false",
    "Tpp.Swiss.C65_sparse_insert_or_assign_partial",
    "Tpp.Swiss.C65_sparse_assign_self_false",
    "Tpp.Swiss.C65_sparse_insert_or_assign_false",
    "Tpp.Swiss.C65_sparse_reclaim_false",
    "Tpp.Swiss.C65_stable_try_emplace",
    "Tpp.Swiss.C65_stable_insert_or_assign_partial",
    "Tpp.Swiss.C65_stable_assign_self_false",
    "Tpp.Dense.C65_dense_try_emplace_partial",
    "Tpp.Dense.C65_dense_emplace_partial",
    "Tpp.Dense.C65_dense_insert_or_assign_partial",
    "Tpp.Dense.C65_dense_false",
    "Tpp.Dense.C65_dense_assign_self_false"
   ],
   "note": "False: growth (sparse; dense with a full array, there also emplace) reads freed memory, reclaiming erased slots in place reads a dead or another value, replacing a value by itself reads the destroyed value (for all containers in which this happens; the reclaim by a witness). Proved: emplace of sparse and stable maps, try_emplace of stable maps, and the rest where none of these happens."
  },
  {
   "property": "C66",
   "status": "partial",
   "theorems": [
    "Tpp.Swiss.C66_swiss_false",
    "Tpp.Swiss.C66_swiss_partial",
    "Tpp.Dense.C66_dense_false",
    "Tpp.Dense.C66_dense_partial",
    "Tpp.Dense.C66_dense_absent_false"
   ],
   "note": "False for every present key: the mapped value is dead afterwards. Proved: nothing else changes; an absent key leaves the contents of sparse and stable containers unchanged, and breaks dense ones (counted element that does not exist)."
  },
  {
   "property": "C67",
   "status": "partial",
   "theorems": [
    "Tpp.Swiss.C67_program_partial",
    "Tpp.Swiss.C67_no_leak_partial",
    "Tpp.Swiss.C67_addresses",
    "Tpp.Swiss.C67_copy",
    "Tpp.Swiss.C67_throw_false",
    "Tpp.Swiss.C67_emplace_throw_false",
    "Tpp.Swiss.C67_node_unequal_false",
    "Tpp.Swiss.C67_empty_handle_false",
    "Tpp.Swiss.C67_move_unequal_false",
    "Tpp.Swiss.C67_swap_unequal_false",
    "Tpp.Swiss.C67_merge_unequal_false",
    "Tpp.Swiss.C67_handle_swap_false",
    "Tpp.Swiss.C67_handle_assign_false",
    "Tpp.Swiss.C67_handle_init_false",
    "Tpp.Swiss.C67_handle_absent_false"
   ],
   "note": "False, for all states: a throwing constructor or growth leaks a block, inserting an empty handle dereferences null, and node insertion, move, swap and merge between unequal allocators free blocks with the wrong one; move assignment of handles with unequal allocators (also to a default-constructed handle, also from an extraction that found nothing) and swap of handles with unequal allocators (also if they propagate) fail an assertion. Proved: all programs without these steps; copy and move assignment under the guards of C16-C18."
  },
  {
   "property": "C68",
   "status": "partial",
   "theorems": [
    "Tpp.Swiss.C68_move_construct_partial",
    "Tpp.Swiss.C68_move_construct_false",
    "Tpp.Swiss.C68_move_assign_unequal_partial",
    "Tpp.Swiss.C68_move_assign_unequal_false",
    "Tpp.Swiss.C68_move_assign_equal_partial",
    "Tpp.Swiss.C68_move_assign_equal_false"
   ],
   "note": "False: as for copies with erased slots or a larger target, for every empty source moved into a non-empty target with an unequal allocator, and for every non-empty target with an equal non-propagating one (the source is left with control bytes of destroyed elements). Proved: what the target shows in all other cases and exactly when it behaves as the source; equal allocators with an empty target or propagation."
  },
  {
   "property": "C69",
   "status": "partial",
   "theorems": [
    "Tpp.Swiss.C69_copy_construct_false",
    "Tpp.Swiss.C69_copy_assign_false",
    "Tpp.Swiss.C69_copy_assign_first_partial",
    "Tpp.Swiss.C69_move_assign_false"
   ],
   "note": "False for all targets and sources: a copy construction loses its memory wherever it throws; an assignment that throws at any but the first element leaves size 0, iteration showing the copied elements and a destructor that leaks them; a move assignment also leaves the source reading destroyed elements. Proved: throwing at the first element of a copy assignment leaves an empty target that is destroyed cleanly."
  },
  {
   "property": "C70",
   "status": "partial",
   "theorems": [
    "Tpp.Swiss.C70_growth_partial",
    "Tpp.Swiss.C70_growth_false",
    "Tpp.Swiss.C70_reclaim_partial",
    "Tpp.Swiss.C70_reclaim_false",
    "Tpp.Swiss.C70_insert_false"
   ],
   "note": "False for all containers, wherever the exception occurs: size counts elements that are lost; growth leaks them in the old buffer, reclaiming hides them behind erased marks so that the destructor leaks them. Proved: exactly what is still shown is also found, with the right values, and (growth) destroyed."
  },
  {
   "property": "C71",
   "status": "partial",
   "theorems": [
    "Tpp.Dense.C71_insert",
    "Tpp.Dense.C71_emplace_false",
    "Tpp.Dense.C71_calls"
   ],
   "note": "Proved for insert and try_emplace, whichever call throws; C71_calls gives the number of calls of all three functions. False for emplace, for all containers and calls: the new element is counted and iterated, but in no chain, with uninitialised hashes; erasing others then violates an assertion."
  },
  {
   "property": "C72",
   "status": "partial",
   "theorems": [
    "Tpp.Dense.C72_copy_assign",
    "Tpp.Dense.C72_copy_construct_false",
    "Tpp.Dense.C72_move_assign_iff"
   ],
   "note": "Proved for copy assignment: the target holds the elements before the one that threw. False for all copy constructions (both buffers lost). Move assignment: exactly when the source survives (only if the first element throws)."
  },
  {
   "property": "C73",
   "status": "partial",
   "theorems": [
    "Tpp.Dense.C73_room_iff",
    "Tpp.Dense.C73_erase_false",
    "Tpp.Dense.C73_erase_cycle_false",
    "Tpp.Dense.C73_erase_last_partial"
   ],
   "note": "Growth: exactly when the container survives (only if the first element throws). Erasing: the last element is lost to lookups for all containers, a chain may become a cycle. Proved: erasing the last element moves nothing."
  },
  {
   "property": "C74",
   "status": "partial",
   "theorems": [
    "Tpp.Dense.C74_buckets_iff",
    "Tpp.Dense.C74_elements_iff"
   ],
   "note": "Exactly when the target survives, for each allocation. In all other cases freed buffers are kept (used by lookups, freed again) or the new buckets are never initialised."
  },
  {
   "property": "C75",
   "status": "partial",
   "theorems": [
    "Tpp.Dense.C75_reserve_partial",
    "Tpp.Dense.C75_reserve_iff",
    "Tpp.Dense.C75_references",
    "Tpp.Dense.C75_rehash"
   ],
   "note": "The array is never reallocated up to n (all load factors). Buckets: proved for maximal load factors of at most 1; for every factor p/q exactly when n*q mod p < q (empty container). rehash: exact bucket count. The factor is an exact ratio here (LF.ratio); C81 has the float arithmetic."
  },
  {
   "property": "C76",
   "status": "proved",
   "theorems": [
    "Tpp.Dense.C76_at",
    "Tpp.Dense.C76_index",
    "Tpp.Dense.C76_index_assign",
    "Tpp.Dense.C76_eq"
   ],
   "note": "All statements for all key components."
  },
  {
   "property": "C77",
   "status": "partial",
   "theorems": [
    "Tpp.Dense.C77_try_emplace",
    "Tpp.Dense.C77_index_iff",
    "Tpp.Dense.C77_index_false",
    "Tpp.Dense.C77_index_partial",
    "Tpp.Dense.C77_multi_try_emplace_false"
   ],
   "note": "False for operator[] with a variable, for all maps and new keys changed by moving: m[k] = v; m[k] inserts a second element. False for rvalue keys of multimap::try_emplace on every conflict. Proved for map try_emplace, constant keys, present keys and keys not changed by moves (exact condition)."
  },
  {
   "property": "C78",
   "status": "partial",
   "theorems": [
    "Tpp.Refs.C78_eq",
    "Tpp.Refs.C78_spaceship",
    "Tpp.Refs.C78_false",
    "Tpp.Refs.C78_iff",
    "Tpp.Refs.C78_partial"
   ],
   "note": "== and != proved; <=> is the order of std::pair once synth_three_way is repaired. The operators before C++20 are componentwise: refuted for all types with two values each (no strict weak order), exact conditions and what remains proved."
  },
  {
   "property": "C79",
   "status": "partial",
   "theorems": [
    "Tpp.Swiss.C79_little",
    "Tpp.Swiss.C79_big_iff",
    "Tpp.Swiss.C79_big_false",
    "Tpp.Swiss.C79_big_partial"
   ],
   "note": "Proved for little endian. False for big endian, for all blocks: exact condition (the free slots lie symmetrically), insertions choose an occupied slot, elements are not found under their own tag."
  },
  {
   "property": "C80",
   "status": "proved",
   "theorems": [
    "Tpp.Swiss.C80_step",
    "Tpp.Swiss.C80_history",
    "Tpp.Swiss.C80_agrees",
    "Tpp.Swiss.C80_mirror",
    "Tpp.Swiss.C80_probe"
   ],
   "note": "Forward simulation: where the unbounded model ends normally, the 64-bit code ends with the same result (C80_step, C80_history); C80_agrees adds C01. The bound 2^59 is where `size * 32` stops fitting; larger tables exceed any address space."
  },
  {
   "property": "C81",
   "status": "partial",
   "theorems": [
    "Tpp.F32.C81_full_exact",
    "Tpp.F32.C81_full_exact_multiple",
    "Tpp.F32.C81_full_pow",
    "Tpp.F32.C81_early",
    "Tpp.F32.C81_late",
    "Tpp.F32.C81_div_exact",
    "Tpp.F32.C81_div_near",
    "Tpp.F32.C81_div_off",
    "Tpp.Dense.C81_reserve_partial",
    "Tpp.Dense.C81_reserve_false",
    "Tpp.F32.C81_max_size",
    "Tpp.F32.C81_tiny"
   ],
   "note": "IEEE binary32 round-to-nearest-even over the rationals. Exact below explicit bounds (p * buckets <= 2^24, or buckets <= 2^24 divisible by 2^j, for the factor p / 2^j); refuted above: with 2^k >= 2^25 buckets and 7/8 the container counts as full exactly 2^(k-25) elements early (C81_full_pow, an equivalence), other counts are late; reserve(7 * 2^(k-3)) does not prevent a rehash for every k >= 25, but reserve(n) does for n <= 7 * 2^21; max_size() is undefined exactly for factors >= 1; tiny factors make rehash undefined."
  },
  {
   "property": "C82",
   "status": "partial",
   "theorems": [
    "Tpp.ODense.C82_insert_call",
    "Tpp.ODense.C82_emplace_call_false",
    "Tpp.ODense.C82_insert_throw_false",
    "Tpp.ODense.C82_insert_throw_partial",
    "Tpp.ODense.C82_room_false",
    "Tpp.ODense.C82_copy_assign_false",
    "Tpp.ODense.C82_move_assign_false",
    "Tpp.ODense.C82_erase_false"
   ],
   "note": "Proved: hash function or comparison throwing in insert, try_emplace and hinted forms (all containers, all calls); constructor not called if the key is present; all other containers keep working in every case. Refuted for all containers: hash or comparison throwing in emplace (a counted, unlinked node; no element can be erased any more), constructors, relocation while growing (already for the first element, where unordered containers survive), copy assignment, move assignment between unequal allocators, assignment of the last element's value in erase. clear() rescues the container after a failed copy assignment and after growth failed at the first element. Copy construction is C72 (buffers lost)."
  },
  {
   "property": "C83",
   "status": "partial",
   "theorems": [
    "Tpp.Swiss.C83_swiss_history",
    "Tpp.Swiss.C83_swiss_unique",
    "Tpp.Swiss.C83_swiss_transparent",
    "Tpp.Swiss.C83_swiss_transparent_erase",
    "Tpp.Swiss.C83_swiss_key_stays",
    "Tpp.Dense.C83_dense_history_partial",
    "Tpp.Dense.C83_dense_unique",
    "Tpp.Dense.C83_dense_transparent",
    "Tpp.Dense.C83_dense_transparent_erase_partial",
    "Tpp.Dense.C83_dense_transparent_erase_false"
   ],
   "note": "Sparse and stable containers: everything proved. Dense containers: everything proved except erase(key) on a container that has no buckets yet, where the code dereferences a null pointer (C41, B9) for keys of any type."
  },
  {
   "property": "C84",
   "status": "partial",
   "theorems": [
    "Tpp.Swiss.C84_strong",
    "Tpp.Swiss.C84_no_call",
    "Tpp.Swiss.C84_insert_node",
    "Tpp.Swiss.C84_range",
    "Tpp.Swiss.C84_erase_if",
    "Tpp.Swiss.C84_emplace_false",
    "Tpp.Swiss.C84_emplace_partial",
    "Tpp.Swiss.C84_merge_false",
    "Tpp.Swiss.C84_merge_partial"
   ],
   "note": "Strong guarantee for all key operations, prefix guarantee for range insertion, exact state after a throwing predicate: proved. Refuted: emplace leaks its temporary whichever call throws (C84_emplace_false, B36); merge calls std::terminate for every call that throws, since its transfer lambda is noexcept (C84_merge_false, B51)."
  },
  {
   "property": "C85",
   "status": "partial",
   "theorems": [
    "Tpp.Swiss.C85_swiss_search_partial",
    "Tpp.Swiss.C85_swiss_twice_false",
    "Tpp.Swiss.C85_portable_tag_false",
    "Tpp.Dense.C85_dense_search"
   ],
   "note": "Dense containers: proved. Sparse and stable: number of blocks, tags (SSE2/NEON), at most once in tables of at least one block, at most twice otherwise: proved. Refuted: in smaller tables every element with the tag of an absent key is compared twice unless it lies before the position of the key (C85_swiss_twice_false, all tables); the portable match_eq lets through elements whose tag differs in bit 0 (C85_portable_tag_false)."
  },
  {
   "property": "C86",
   "status": "partial",
   "theorems": [
    "Tpp.OSwiss.C86_insert_call",
    "Tpp.OSwiss.C86_erase_call",
    "Tpp.OSwiss.C86_erase_if",
    "Tpp.OSwiss.C86_insert_range_partial",
    "Tpp.OSwiss.C86_insert_throw_partial",
    "Tpp.OSwiss.C86_growth_false",
    "Tpp.OSwiss.C86_copy_assign_false",
    "Tpp.OSwiss.C86_move_assign_false"
   ],
   "note": "Hash function, comparison, predicate, constructor of a new element: proved, up to an exchange of linked nodes during the call (C52). Refuted for all containers and all positions: relocation during growth, copy assignment (not even clear helps), move assignment between unequal allocators."
  },
  {
   "property": "C87",
   "status": "partial",
   "theorems": [
    "Tpp.Dense.C87_bucket_partial",
    "Tpp.Dense.C87_local_iteration_false",
    "Tpp.Dense.C87_bucket_false"
   ],
   "note": "bucket(x) and the elements met from begin(n) on: proved. Refuted for every bucket of every container: end(n) is never reached, the array is read at npos (C87_local_iteration_false); bucket(x) divides by zero without buckets."
  },
  {
   "property": "C88",
   "status": "partial",
   "theorems": [
    "Tpp.Dense.C88_dense_random_access",
    "Tpp.ODense.C88_ordered_dense_iff",
    "Tpp.ODense.C88_ordered_dense_false",
    "Tpp.ODense.C88_ordered_dense_end_false",
    "Tpp.OSwiss.C88_ordered_swiss_iff",
    "Tpp.OSwiss.C88_ordered_swiss_false"
   ],
   "note": "Unordered dense containers: proved. Ordered containers: the comparison agrees with the sequence if and only if the array holds the elements in that order (C88_ordered_dense_iff, C88_ordered_swiss_iff); refuted for every ordered dense container of three or more elements in array order once the first is erased, for ordered sparse containers by a witness, and for end() by two allocators."
  },
  {
   "property": "C89",
   "status": "partial",
   "theorems": [
    "Tpp.ODense.C89_dense_find",
    "Tpp.ODense.C89_dense_at",
    "Tpp.ODense.C89_dense_write",
    "Tpp.ODense.C89_dense_eq",
    "Tpp.OSwiss.C89_swiss_find_partial",
    "Tpp.OSwiss.C89_swiss_at_partial",
    "Tpp.OSwiss.C89_swiss_write_partial",
    "Tpp.OSwiss.C89_swiss_eq_partial"
   ],
   "note": "Ordered dense containers: proved. Ordered sparse and stable containers: proved for the containers in which no linked nodes were exchanged (as in C52)."
  },
  {
   "property": "C90",
   "status": "partial",
   "theorems": [
    "Tpp.Swiss.C90_swiss_merge",
    "Tpp.OSwiss.C90_ordered_swiss_partial",
    "Tpp.ODense.C90_ordered_dense"
   ],
   "note": "Unordered sparse and ordered dense containers: proved. Ordered sparse and stable containers: proved for the containers in which no linked nodes were exchanged (as in C52)."
  },
  {
   "property": "C91",
   "status": "partial",
   "theorems": [
    "Tpp.Swiss.C91_swiss_partial",
    "Tpp.Swiss.C91_swiss_unequal_partial",
    "Tpp.Swiss.C91_swiss_false",
    "Tpp.OSwiss.C91_ordered_swiss_partial",
    "Tpp.OSwiss.C91_ordered_swiss_lvalue_false"
   ],
   "note": "Unordered: proved unless dst is empty and its allocator is unequal and not propagated; then an exact criterion (source not larger in buckets than needed: dst.cap <= src.cap) and a witness that elements are lost. Ordered: an empty destination with equal or propagated allocators gets the exact sequence; for other destinations the code runs the lvalue merge (C60), whose result differs for every source with elements."
  },
  {
   "property": "C92",
   "status": "partial",
   "theorems": [
    "Tpp.Props.C92_owner_partial",
    "Tpp.Props.C92_arrays_partial",
    "Tpp.Props.C92_no_leak_partial",
    "Tpp.Props.C92_no_bad_free_partial",
    "Tpp.Props.C92_same_elements",
    "Tpp.Props.C92_null_false",
    "Tpp.Props.C92_constructor_false",
    "Tpp.Props.C92_copy_constructor_false",
    "Tpp.Props.C92_swap_false"
   ],
   "note": "Proved for all programs in which no constructor throws and no assignment passes null to an allocator that does not accept it. Refuted: propagating assignment to any container without an array calls deallocate(null, 0); constructors leak the first array if the second cannot be allocated; swap asserts that the allocators are equal after having exchanged them, so it fails for all unequal allocators."
  },
  {
   "property": "C93",
   "status": "partial",
   "theorems": [
    "Tpp.Props.C93_owner_partial",
    "Tpp.Props.C93_buffers_partial",
    "Tpp.Props.C93_no_leak_partial",
    "Tpp.Props.C93_no_bad_free_partial",
    "Tpp.Props.C93_separate_partial",
    "Tpp.Props.C93_null_false",
    "Tpp.Props.C93_combined_false",
    "Tpp.Props.C93_bucket_count_zero_false",
    "Tpp.Props.C93_swap_false"
   ],
   "note": "Proved for all programs without the following, each of which is refuted for all states: null pointers passed to allocators that reject them (destructor and first insertion of every container without buffer, propagating assignment); assignment between combined buffers with propagating allocators (wrong size); assignment into a container made with bucket count 0 (its control bytes leak); swap with unequal allocators (assertion, although the allocators propagate). C93_separate_partial: separate layout with an allocator that accepts null, any traits: every program that uses no bucket count 0."
  },
  {
   "property": "C94",
   "status": "partial",
   "theorems": [
    "Tpp.Props.C94_sparse_count",
    "Tpp.Props.C94_sparse_partial",
    "Tpp.Props.C94_sparse_false",
    "Tpp.Props.C94_dense_count",
    "Tpp.Props.C94_dense_partial",
    "Tpp.Props.C94_dense_false"
   ],
   "note": "The number of allocations of every such statement is given exactly, for all programs. None with equal or propagating allocators; refuted, for all states, for moves of elements between unequal allocators into too little room."
  },
  {
   "property": "C95",
   "status": "partial",
   "theorems": [
    "Tpp.Swiss.C95_amortized_partial",
    "Tpp.Swiss.C95_from_partial",
    "Tpp.Swiss.C95_growing_partial",
    "Tpp.Swiss.C95_two_needed",
    "Tpp.Swiss.C95_range_false"
   ],
   "note": "At most ten per insertion, from any container, if ranges are not inserted through random access iterators; without erasures at most two relocations per insertion, and two is the best constant. Refuted with ranges of one element, for every constant and every hash function."
  },
  {
   "property": "C96",
   "status": "partial",
   "theorems": [
    "Tpp.Dense.C96_from_partial",
    "Tpp.Dense.C96_amortized_partial",
    "Tpp.Dense.C96_initial_partial",
    "Tpp.Dense.C96_range_false",
    "Tpp.Dense.C96_reserve_false"
   ],
   "note": "Two moves, four allocated nodes, 4·hi filled buckets and 2·hi·lo links per component and per element handed to an insertion (up to a constant), for every maximal load factor between 1/hi and lo, in particular in single precision; from any container with at most lo elements per bucket. Refuted with ranges through random access iterators (n(n-1)/2 moves for n one-element ranges, for every hash function and load factor) and for reserve, which relinks all elements even if nothing changes."
  },
  {
   "property": "C97",
   "status": "partial",
   "theorems": [
    "Tpp.Swiss.C97_swiss_partial",
    "Tpp.Swiss.C97_swiss_throw_false",
    "Tpp.Dense.C97_dense_partial",
    "Tpp.Dense.C97_dense_throw_false",
    "Tpp.OSwiss.C97_ordered_swiss_partial",
    "Tpp.OSwiss.C97_ordered_swiss_throw_false",
    "Tpp.ODense.C97_ordered_dense_partial",
    "Tpp.ODense.C97_ordered_dense_throw_false"
   ],
   "note": "All programs over containers with one hash function per container: unordered sparse and dense ones, ordered dense ones, and ordered sparse ones until the code exchanges two linked nodes (C52); within the conditions of C16-C18, C41, C45, C46 and, for ordered containers, of C51, C52 (copies of containers without erased slots, propagating allocators, erase by key only with buckets); with any state of moved-from hash functions. The part about exceptions is refuted: an assignment in which assigning the comparator throws leaves the container with its own elements and the hash function of the other; every element with a different hash value (dense) or tag (sparse, SSE2 and NEON) is then not found any more; in ordered containers the header has been replaced too, so that iteration begins at a place computed from the other container."
  },
  {
   "property": "C98",
   "status": "partial",
   "theorems": [
    "Tpp.Swiss.C98_swiss_room_partial",
    "Tpp.Swiss.C98_swiss_reserve_partial",
    "Tpp.Swiss.C98_swiss_reserve_false",
    "Tpp.Swiss.C98_swiss_full",
    "Tpp.Dense.C98_dense_room_partial",
    "Tpp.Dense.C98_dense_reserve_partial",
    "Tpp.Dense.C98_dense_rejected_false",
    "Tpp.OSwiss.C98_ordered_swiss_room_partial",
    "Tpp.OSwiss.C98_ordered_swiss_reserve_partial",
    "Tpp.ODense.C98_ordered_dense_room_partial",
    "Tpp.ODense.C98_ordered_dense_rejected_false"
   ],
   "note": "Proved for all histories that add at most n - size elements after reserve (sparse, unordered and ordered; erasures may come in between but do not give slots back), or whose insertion calls, rejected ones included, all find fewer than n elements (dense, unordered and ordered). Refuted beyond that: sparse, with erasures and insertions in turn, an element leaves its slot though the size stays below n and the bucket count is the same; dense, in every full container a rejected insertion replaces the array, and in the ordered containers every iterator is shown to dangle afterwards."
  },
  {
   "property": "C99",
   "status": "proved",
   "theorems": [
    "Tpp.Swiss.C99_swiss",
    "Tpp.Swiss.C99_swiss_iterator",
    "Tpp.Dense.C99_dense",
    "Tpp.Dense.C99_dense_iterator"
   ],
   "note": "Sparse and stable maps: at(k) = v, m[k] = v, a loop that writes every value, a write through an iterator. Dense maps with any number of key components: at<j>(x) = v, a write through an iterator, the loop; m[x] = v of the single-key map is C76, ordered maps are C89."
  },
  {
   "property": "C100",
   "status": "partial",
   "theorems": [
    "Tpp.Swiss.C100_load_partial",
    "Tpp.Swiss.C100_room_partial",
    "Tpp.Swiss.C100_full_false",
    "Tpp.Swiss.C100_nan",
    "Tpp.OSwiss.C100_ordered_partial"
   ],
   "note": "False for full containers and for containers without buckets (0/0). Proved exactly when it holds: load_factor() <= 7/8 iff 8*size <= 7*buckets or there are at least 2^25 buckets; always between 0 and 1."
  },
  {
   "property": "C101",
   "status": "partial",
   "theorems": [
    "Tpp.Swiss.C101_insert",
    "Tpp.Swiss.C101_try_emplace",
    "Tpp.Swiss.C101_insert_or_assign",
    "Tpp.Swiss.C101_index",
    "Tpp.Swiss.C101_emplace_false",
    "Tpp.Swiss.C101_program",
    "Tpp.Dense.C101_dense_insert",
    "Tpp.Dense.C101_dense_emplace_false"
   ],
   "note": "Proved for insert, try_emplace, insert_or_assign and operator[] of sparse and stable containers, for insert of dense containers (any number of key components) and for whole programs. False for emplace (all containers): the temporary takes the value before the key is looked up. Keys of dense try_emplace and operator[] are C77."
  },
  {
   "property": "C102",
   "status": "partial",
   "theorems": [
    "Tpp.Swiss.C102_begin",
    "Tpp.Swiss.C102_begin_false",
    "Tpp.Swiss.C102_iteration",
    "Tpp.Swiss.C102_erase",
    "Tpp.Swiss.C102_erase_loop",
    "Tpp.Swiss.C102_front_false"
   ],
   "note": "Exact for begin() and erase, both bounds for a full iteration, upper bound for the erase loop. False for begin(): linear in the bucket count after reserve or clear, and emptying from the front takes quadratic work in every container."
  },
  {
   "property": "C103",
   "status": "proved",
   "theorems": [
    "Tpp.OSwiss.C103_history",
    "Tpp.OSwiss.C103_keys",
    "Tpp.OSwiss.C103_merge"
   ],
   "note": "Complements the refutation of C52: what remains true of a container whose links were damaged, as long as no link that is followed leads out of the container."
  },
  {
   "property": "C104",
   "status": "partial",
   "theorems": [
    "Tpp.Swiss.C104_reserve_partial",
    "Tpp.Swiss.C104_reserve_false",
    "Tpp.Swiss.C104_rehash_partial",
    "Tpp.Swiss.C104_rehash_false",
    "Tpp.Swiss.C104_signed_false",
    "Tpp.Swiss.C104_bucket_count_partial",
    "Tpp.Swiss.C104_bucket_count_false",
    "Tpp.Dense.C104_dense_reserve",
    "Tpp.Dense.C104_dense_rehash_false"
   ],
   "note": "Separate blocks: proved for all n but 2^63. One block: proved up to 7*2^60 elements. Refuted for every container: with one block reserve(n) and rehash(n) for almost all larger n, and the bucket count 2^64-1, write outside a block of size 0; n = 2^63 overflows a signed subtraction. Dense containers: reserve proved, rehash refuted (B13)."
  },
  {
   "property": "C105",
   "status": "partial",
   "theorems": [
    "Tpp.Swiss.C105_size",
    "Tpp.Swiss.C105_room_partial",
    "Tpp.Swiss.C105_full",
    "Tpp.Swiss.C105_growth_iff",
    "Tpp.Swiss.C105_growth_partial",
    "Tpp.Swiss.C105_room_false",
    "Tpp.Swiss.C105_max_size_false",
    "Tpp.Swiss.C105_max_size_partial",
    "Tpp.Dense.C105_dense_exact",
    "Tpp.Dense.C105_dense_buckets_partial",
    "Tpp.Dense.C105_dense_array_false",
    "Tpp.Dense.C105_dense_size_false",
    "Tpp.Dense.C105_dense_size_partial"
   ],
   "note": "Sparse and stable: the size bound, the exact condition under which an insertion replaces the buffer, and that without erased slots exactly capacity() elements fit are proved; with erased slots the claim is refuted (a queue of 8 elements gets 31 buckets). reserve(max_size()) throws with separate blocks, is undefined with one. Dense: insertions up to capacity() do not rehash (proved, in single precision arithmetic); the array is replaced independently of capacity(), and the size may exceed capacity() (refuted), by at most 2 (proved)."
  },
  {
   "property": "C106",
   "status": "partial",
   "theorems": [
    "Tpp.Swiss.C106_sparse",
    "Tpp.Swiss.C106_sparse_cycles",
    "Tpp.Dense.C106_dense_identity",
    "Tpp.Dense.C106_dense_cycles_partial",
    "Tpp.Dense.C106_dense_two",
    "Tpp.Dense.C106_dense_false"
   ],
   "note": "Sparse and stable: proved (equality of the complete states, including the log of allocations and relocations). Dense: proved whenever the load after the first cycle is below the maximum (there a cycle with any new key is the identity); refuted for the first two cycles after the maximal load factor was lowered (both rehash); proved from the second cycle on for every maximal load factor p/q."
  },
  {
   "property": "C107",
   "status": "partial",
   "theorems": [
    "Tpp.Swiss.C107_sparse_order",
    "Tpp.Swiss.C107_sparse_reserve_order",
    "Tpp.Swiss.C107_sparse_copy",
    "Tpp.Swiss.C107_sparse_copy_assign",
    "Tpp.Swiss.C107_sparse_move",
    "Tpp.Swiss.C107_sparse_move_assign",
    "Tpp.Dense.C107_dense_false"
   ],
   "note": "Sparse and stable: proved for all histories that add no more elements than there are unused slots (in particular all that add none, and after reserve), for copies and moves of containers with elements with all allocators (assignment of an empty container: see C17, C68). Dense: refuted in every state with three or more elements, erasing the first one moves the last one before the others; C37 says what the order is."
  },
  {
   "property": "C108",
   "status": "proved",
   "theorems": [
    "Tpp.Dense.C108_dense_absent",
    "Tpp.Dense.C108_dense_present",
    "Tpp.Dense.C108_dense_expected"
   ],
   "note": "Exact counts of visited nodes. The average over hash functions is over all distributions of the given keys to the buckets; which container realises a distribution is left open (any history)."
  },
  {
   "property": "C109",
   "status": "proved",
   "theorems": [
    "Tpp.Swiss.C109_sparse_absent"
   ],
   "note": "Averages are stated as sums over the 128 tags. With portable blocks the factor two is due to their false positives (C85)."
  },
  {
   "property": "C110",
   "status": "proved",
   "theorems": [
    "Tpp.Swiss.C110_present",
    "Tpp.Swiss.C110_absent",
    "Tpp.Swiss.C110_erase"
   ],
   "note": "The number of blocks is that of the instrumented search of C85. What is proved of failing searches is a weakness of the code, see B80."
  },
  {
   "property": "C111",
   "status": "partial",
   "theorems": [
    "Tpp.C111_sparse",
    "Tpp.C111_dense",
    "Tpp.C111_sparse_dense",
    "Tpp.C111_dense_order",
    "Tpp.C111_ordered_dense",
    "Tpp.C111_ordered_partial",
    "Tpp.C111_ordered_keys_partial"
   ],
   "note": "Full for two sparse/stable containers, two dense containers, sparse against dense and sparse against ordered dense (with dense containers under the guard of C41: erase(key) only once there are buckets). For ordered sparse containers the claim is false once linked nodes are exchanged (C52); proved for programs without erase(key), with the order, and for programs without loops over the elements, in every execution with defined behaviour."
  },
  {
   "property": "C112",
   "status": "proved",
   "theorems": [
    "Tpp.ODense.C112_dense_same",
    "Tpp.ODense.C112_dense_keys",
    "Tpp.ODense.C112_dense_reachable",
    "Tpp.ODense.C112_dense_absent",
    "Tpp.OSwiss.C112_sparse_same",
    "Tpp.OSwiss.C112_sparse_sized",
    "Tpp.OSwiss.C112_sparse_keys",
    "Tpp.OSwiss.C112_sparse_reachable",
    "Tpp.OSwiss.C112_sparse_absent"
   ],
   "note": ""
  },
  {
   "property": "C113",
   "status": "proved",
   "theorems": [
    "Tpp.Swiss.C113_sparse_search",
    "Tpp.Swiss.C113_sparse_inserts",
    "Tpp.Dense.C113_dense_cost",
    "Tpp.Dense.C113_dense_inserts"
   ],
   "note": ""
  },
  {
   "property": "C114",
   "status": "proved",
   "theorems": [
    "Tpp.Dense.C114_dense_at",
    "Tpp.Dense.C114_dense_even",
    "Tpp.Dense.C114_dense_key"
   ],
   "note": ""
  },
  {
   "property": "C115",
   "status": "partial",
   "theorems": [
    "Tpp.Arch.C115_sse2_iff",
    "Tpp.Arch.C115_neon_iff",
    "Tpp.Arch.C115_defined_iff",
    "Tpp.Arch.C115_no_simd_false",
    "Tpp.Arch.C115_msvc_false",
    "Tpp.Arch.C115_false",
    "Tpp.Arch.C115_defined_partial",
    "Tpp.Arch.C115_load",
    "Tpp.Arch.C115_combine_iff"
   ],
   "note": "Exact conditions for each variant, for the byte order and for the combined allocation. False: the 64-bit word variant defines count_available twice, so that no configuration without SSE2 or NEON compiles; this includes every target with TPP_NO_SIMD and every 64-bit MSVC, for which the test of _M_X64 is inside the test of _M_IX86_FP. Proved for x86 with the SSE2 macros of GCC and Clang and for ARM with NEON."
  },
  {
   "property": "C116",
   "status": "partial",
   "theorems": [
    "Tpp.Swiss.C116_sparse_single",
    "Tpp.Swiss.C116_sparse_quiet",
    "Tpp.Swiss.C116_sparse_partial",
    "Tpp.Swiss.C116_sparse_reserve_iff",
    "Tpp.Swiss.C116_sparse_range_iff",
    "Tpp.Swiss.C116_sparse_room_partial",
    "Tpp.Swiss.C116_sparse_false",
    "Tpp.Dense.C116_dense",
    "Tpp.Dense.C116_dense_quiet",
    "Tpp.Dense.C116_dense_run"
   ],
   "note": "Dense: proved for every operation from every state, rehash(0) included, and for histories. Sparse and stable: proved for all operations that do not call reserve; false for reserve and for the insertion of lists and random access ranges, for every hash function and any number of buckets; exact conditions for both; true again for containers without erased slots."
  },
  {
   "property": "C117",
   "status": "partial",
   "theorems": [
    "Tpp.Types.C117_remove_index",
    "Tpp.Types.C117_other_components",
    "Tpp.Types.C117_pack",
    "Tpp.Types.C117_stable_key_iff",
    "Tpp.Types.C117_list_map_iff",
    "Tpp.Types.C117_range_map_iff",
    "Tpp.Types.C117_range_alloc_false",
    "Tpp.Types.C117_own_range_false",
    "Tpp.Types.C117_range_set_false",
    "Tpp.Types.C117_list_set_iff",
    "Tpp.Types.C117_named_iff"
   ],
   "note": "Index sequences and packs: proved. Keys of stable sets: exactly for elements that are not pairs. Deduction: exact conditions for maps from ranges and lists and for sets from lists; refuted for every set from a range, for every map from a range and an allocator, for every map from the range of a map, and for every stable map from a range without an explicit allocator."
  },
  {
   "property": "C118",
   "status": "partial",
   "theorems": [
    "Tpp.OSwiss.C118_sparse_insert",
    "Tpp.OSwiss.C118_sparse_erase",
    "Tpp.OSwiss.C118_sparse_iterate_partial",
    "Tpp.ODense.C118_dense_insert",
    "Tpp.ODense.C118_dense_erase",
    "Tpp.ODense.C118_dense_iterate"
   ],
   "note": "Proved in every state for insertions and erasures of both kinds; sparse: erasures write two links. A rejected insertion into a full dense container moves all elements first (B68), so there the bound is four per element. Iteration is proved for dense containers, and for sparse ones in which no linked nodes were exchanged (as C52)."
  },
  {
   "property": "C119",
   "status": "proved",
   "theorems": [
    "Tpp.Dense.C119_step",
    "Tpp.Dense.C119_history",
    "Tpp.Dense.C119_limit"
   ],
   "note": "Proved for every operation of a history and for whole histories, together with C36. C119_limit shows that the bound cannot be dropped: a full array of 2^63 nodes would be replaced by one without room."
  },
  {
   "property": "C120",
   "status": "partial",
   "theorems": [
    "Tpp.OSwiss.C120_ordered_exact_step",
    "Tpp.OSwiss.C120_ordered_exact",
    "Tpp.OSwiss.C120_ordered_answers_partial",
    "Tpp.OSwiss.C120_ordered_growing",
    "Tpp.OSwiss.C120_ordered_false",
    "Tpp.Swiss.C120_exact",
    "Tpp.Swiss.C120_exact_merge",
    "Tpp.Swiss.C120_exact_range",
    "Tpp.Swiss.C120_exact_reachable",
    "Tpp.Swiss.C120_answers_partial",
    "Tpp.Swiss.C120_growth",
    "Tpp.Swiss.C120_buckets_false",
    "Tpp.Swiss.C120_order_false"
   ],
   "note": "Proved exactly (states, answers, order, faults) between the NEON and the portable variant, although their match_eq differ. Between 16- and 8-byte blocks the answers are proved equal up to the order of iteration; C120_buckets_false shows for all hash functions that the bucket counts differ exactly for seven elements, C120_order_false that the order of iteration may differ. Ordered containers: exact between the 8-byte variants; on any two targets the same answers and orders without erasures, and with erasures unless linked nodes come to be exchanged (C52), which C120_ordered_false shows to happen on one target only."
  },
  {
   "property": "C121",
   "status": "partial",
   "theorems": [
    "Tpp.Types.C121_iff",
    "Tpp.Types.C121_functions_iff",
    "Tpp.Types.C121_one_class_false",
    "Tpp.Types.C121_standard_map_iff",
    "Tpp.Types.C121_standard_allocator_false",
    "Tpp.Types.C121_standard_set",
    "Tpp.Types.C121_default",
    "Tpp.Types.C121_deduced_range_iff",
    "Tpp.Types.C121_deduced_list",
    "Tpp.Types.C121_pointer_false"
   ],
   "note": "Exact condition for all containers (C121_iff): different classes for hash and comparison, and an allocator of what the nodes hold; C121_functions_iff says which functions another allocator excludes. Refuted for every container with one class for both, for every sparse or dense map with the allocator a standard map takes (C121_standard_allocator_false), for stable maps deduced from iterators over pairs, and for the pointers to map elements. Sets, default arguments and deduction from lists are proved to compile."
  },
  {
   "property": "C122",
   "status": "partial",
   "theorems": [
    "Tpp.Swiss.C122_consecutive_false",
    "Tpp.Swiss.C122_inserted",
    "Tpp.Swiss.C122_small_partial",
    "Tpp.Dense.C122_dense",
    "Tpp.OSwiss.C122_ordered_false",
    "Tpp.ODense.C122_ordered_dense"
   ],
   "note": "True for dense containers (C122_dense): with the hashes in an interval of length n a search visits at most n / bucket_count elements, rounded up. Refuted for all sparse and stable containers with n consecutive hashes, however they came about (C122_consecutive_false): at most j * (n/128 + W + 1) of the searches read at most j blocks, so from n = 128 * (W + 1) on they read at least 32 blocks each on average, and one reads nearly 128 as n grows. C122_inserted: such containers exist for every n and target. C122_small_partial: tables smaller than a block need one read. C122_ordered_false and C122_ordered_dense say the same of the ordered containers. B87."
  },
  {
   "property": "C123",
   "status": "proved",
   "theorems": [
    "Tpp.Swiss.C123_sparse_history",
    "Tpp.Swiss.C123_sparse_iterate",
    "Tpp.Swiss.C123_sparse_found"
   ],
   "note": "C123_sparse_history: every history with arbitrary answers ends without fault (apart from the ctz(0) of C32 with 8-byte blocks) and each operation does to the multiset of elements what it may. C123_sparse_iterate: size and iteration agree with it. C123_sparse_found: a repeated hash and an accepting comparison suffice to find something. Dense containers: C124."
  },
  {
   "property": "C124",
   "status": "proved",
   "theorems": [
    "Tpp.Dense.C124_dense_history",
    "Tpp.Dense.C124_dense_found"
   ],
   "note": "C124_dense_history: every history with arbitrary answers, in which erase(key) waits for buckets (C41), ends without fault and each operation does to the sequence of elements what it may. C124_dense_found: a repeated hash and an accepting comparison suffice to find something."
  },
  {
   "property": "C125",
   "status": "partial",
   "theorems": [
    "Tpp.Lookup.C125_compiles_iff",
    "Tpp.Lookup.C125_standard_iff",
    "Tpp.Lookup.C125_hash_marker_false",
    "Tpp.Lookup.C125_equal_to_false",
    "Tpp.Lookup.C125_lookup_partial"
   ],
   "note": "Refuted: C125_hash_marker_false (a hash function marked with void, another type that is no class, or an incomplete class makes every lookup ill-formed, also one with a key) and C125_equal_to_false (so does std::equal_to<> beside a hash function marked with a class like std::true_type). C125_compiles_iff and C125_standard_iff say exactly when lookups compile and when they are those of the standard; C125_lookup_partial is the property where the marker of the hash function is missing, or is like std::true_type and that of the comparison is missing or like it."
  },
  {
   "property": "C126",
   "status": "proved",
   "theorems": [
    "Tpp.OSwiss.C126_history",
    "Tpp.OSwiss.C126_growing",
    "Tpp.OSwiss.C126_reserved",
    "Tpp.OSwiss.C126_found",
    "Tpp.OSwiss.C126_copy",
    "Tpp.OSwiss.C126_move"
   ],
   "note": "C126_history: every history either comes to the exchange of linked nodes of C52 (C52_swiss_reclaim_false shows that this happens with proper functions too, so it cannot be left out of the statement) or ends without fault, and each operation does to the sequence what it may. C126_growing and C126_reserved: without that alternative, for histories without erasures of single elements, and for histories that reserve room first. C126_found: a repeated hash and an accepting comparison suffice to find something. C126_copy: after a history that did not come to that exchange, a copy is iterated over in the same order and the original keeps its elements. C126_move: the same of a move, which leaves the former container empty. Ordered dense containers are C127."
  },
  {
   "property": "C127",
   "status": "proved",
   "theorems": [
    "Tpp.ODense.C127_history",
    "Tpp.ODense.C127_found",
    "Tpp.ODense.C127_copy",
    "Tpp.ODense.C127_move"
   ],
   "note": "C127_history: every history of a new container in which erase(key) waits for buckets (C41 shows that it must) ends without fault, each operation does to the sequence what it may, and iteration visits the sequence. C127_found: a repeated hash and an accepting comparison suffice to find something by each component. C127_copy: after such a history a copy has the same sequence, the original keeps it, and any further history of the copy does what it may. C127_move: likewise for a move, which leaves an empty container that can be used further. Range insertion, hints, assignments and swaps with arbitrary answers are not covered."
  },
  {
   "property": "C128",
   "status": "proved",
   "theorems": [
    "Tpp.Swiss.C128_history",
    "Tpp.Swiss.C128_plain",
    "Tpp.Swiss.C128_found"
   ],
   "note": "C128_history: every program with containers that are empty at first ends without fault (apart from C32 with 8-byte blocks), each operation does to the elements of all containers what it may, and size and iteration agree; or the program comes to a copy of a container with elements and slots marked as erased (C16) or to a copy assignment outside the conditions of C17, which can go wrong with proper functions too, so that they cannot be left out of the statement. C128_plain: programs without copies and copy assignments do not come to that. C128_found: a repeated hash and an accepting comparison suffice to find something. Merging a container into itself and ordered containers with arbitrary answers are not covered."
  },
  {
   "property": "C129",
   "status": "proved",
   "theorems": [
    "Tpp.Dense.C129_history",
    "Tpp.Dense.C129_plain",
    "Tpp.Dense.C129_found"
   ],
   "note": "C129_history: every program either ends without fault, each operation doing to the sequences of all containers what it may, or comes to erase(key) without buckets (C41) or to the assignment of an empty container to one with elements, (C45), which are wrong for proper functions too, so that they cannot be left out of the statement. C129_plain: programs without these two functions come to neither. C129_found: a repeated hash and an accepting comparison suffice to find something, also in copies. std::allocator only; ordered containers are not covered."
  }
 ]
}
