{
 "claims": [
  {
   "property": "C01",
   "status": "proved",
   "theorems": [
    "Verif.IdxTable.C01_claim_exclusive"
   ],
   "note": "every table state reachable by any call history, size >= 1"
  },
  {
   "property": "C02",
   "status": "proved",
   "theorems": [
    "Verif.IdxTable.C02_refines_partial_map",
    "Verif.IdxTable.C02_spec_deterministic",
    "Verif.IdxTable.C02_replies_unique"
   ],
   "note": "refinement of an abstract partial map; the abstract map is deterministic, so replies are fixed. ClaimRange/FindFreeRange are specified by their exact behaviour RangeResult (see C07)"
  },
  {
   "property": "C03",
   "status": "proved",
   "theorems": [
    "Verif.IdxTable.C03_release"
   ],
   "note": ""
  },
  {
   "property": "C04",
   "status": "proved",
   "theorems": [
    "Verif.IdxTable.C04_update"
   ],
   "note": ""
  },
  {
   "property": "C05",
   "status": "proved",
   "theorems": [
    "Verif.IdxTable.C05_claimDynamic_smallest"
   ],
   "note": ""
  },
  {
   "property": "C06",
   "status": "proved",
   "theorems": [
    "Verif.IdxTable.C06_claimSize",
    "Verif.IdxTable.C06_claimSize_zero"
   ],
   "note": "n >= 1 as stated; n = 0 always fails"
  },
  {
   "property": "C07",
   "status": "partial",
   "theorems": [
    "Verif.IdxTable.C07_single_violated",
    "Verif.IdxTable.C07_gap_violated",
    "Verif.IdxTable.C07_end_violated",
    "Verif.IdxTable.C07_start_violated",
    "Verif.IdxTable.C07_wrap_violated",
    "Verif.IdxTable.C07_free_window_partial",
    "Verif.IdxTable.C07_detectable_partial",
    "Verif.IdxTable.C07_exact_behaviour_partial"
   ],
   "note": "the code violates C07 in five ways (witnesses); what holds: entirely free windows of >= 2 ids are claimed exactly, wrong answers are detectable, exact behaviour characterised for all arguments"
  },
  {
   "property": "C08",
   "status": "proved",
   "theorems": [
    "Verif.IdxTable.C08_claimRange_safe"
   ],
   "note": ""
  },
  {
   "property": "C09",
   "status": "proved",
   "theorems": [
    "Verif.IdxTable.C09_bounds_and_size"
   ],
   "note": ""
  },
  {
   "property": "C10",
   "status": "proved",
   "theorems": [
    "Verif.IdxTable.C10_iteration_complete"
   ],
   "note": "quantifies over every order of the map keys"
  },
  {
   "property": "C11",
   "status": "proved",
   "theorems": [
    "Verif.IdxTable.C11_free_iteration"
   ],
   "note": ""
  },
  {
   "property": "C12",
   "status": "proved",
   "theorems": [
    "Verif.IdxTable.C12_observers_agree",
    "Verif.IdxTable.C12_isFree_not_has"
   ],
   "note": ""
  },
  {
   "property": "C13",
   "status": "partial",
   "theorems": [
    "Verif.IdxTable.C13_snapshot_violated",
    "Verif.IdxTable.C13_snapshot_keys_partial"
   ],
   "note": "violated: Iterator.Value reads the live map; the ids are a snapshot"
  },
  {
   "property": "C14",
   "status": "partial",
   "theorems": [
    "Verif.IdxTable.C14_zero_capacity_violated",
    "Verif.IdxTable.C14_zero_capacity_partial",
    "Verif.IdxTable.C14_zero_capacity_exact_partial"
   ],
   "note": "violated: NewTable(0) accepts every Claim; dynamic allocation does fail; what a table of capacity zero does is characterised exactly for histories of at most 2^64 calls"
  },
  {
   "property": "C105",
   "status": "partial",
   "theorems": [
    "Verif.IdxTable.C105_iterator_any_order_violated",
    "Verif.IdxTable.C105_iterator_session_partial"
   ],
   "note": "violated: ID, Value and IsConsecutive panic before the first Next and after the end. Proved: what every sequence of fewer than 2^64 calls on an iterator and its table answers, including where it panics"
  },
  {
   "property": "C15",
   "status": "proved",
   "theorems": [
    "Verif.Ranged.C15_ranged_partial_map",
    "Verif.Ranged.C15_spec_deterministic"
   ],
   "note": "all three widths, every start<=end but the full range, every history over all 11 interface calls; the partial map spec is deterministic"
  },
  {
   "property": "C16",
   "status": "proved",
   "theorems": [
    "Verif.Ranged.C16_findFree_lowest"
   ],
   "note": ""
  },
  {
   "property": "C17",
   "status": "partial",
   "theorems": [
    "Verif.Ranged.C17_full_range_violated",
    "Verif.Ranged.C17_full_range_has_free",
    "Verif.Ranged.C17_full_range_partial",
    "Verif.Ranged.C17_full_range_exact_partial"
   ],
   "note": "violated in every state: the size wraps to 0 and FindFree/ClaimFree always fail; calls naming an id behave as a partial map, and so do the calls that list, in whole histories (table64: of at most 2^64 calls)"
  },
  {
   "property": "C18",
   "status": "partial",
   "theorems": [
    "Verif.Ranged.C18_get_own_id_violated",
    "Verif.Ranged.C18_get_offset_partial"
   ],
   "note": "violated unless start = 0: the returned entry carries id-start; labels are right"
  },
  {
   "property": "C19",
   "status": "proved",
   "theorems": [
    "Verif.Ranged.C19_getAll_external"
   ],
   "note": "includes absence of the nil panic"
  },
  {
   "property": "C20",
   "status": "proved",
   "theorems": [
    "Verif.Ranged.C20_getByLabel_filter"
   ],
   "note": ""
  },
  {
   "property": "C21",
   "status": "proved",
   "theorems": [
    "Verif.Ranged.C21_inverted_rejects",
    "Verif.Ranged.C21_findFree_inverted"
   ],
   "note": "FindFree is not part of the claim and can succeed on an inverted range (C21_findFree_inverted)"
  },
  {
   "property": "C95",
   "status": "partial",
   "theorems": [
    "Verif.Ranged.C95_lengths_partial",
    "Verif.Ranged.C95_table16_violated"
   ],
   "note": "violated by table16: GetAll and GetByLabel make 32 bit ids; Get and ClaimFree, and the other widths, are right"
  },
  {
   "property": "C114",
   "status": "proved",
   "theorems": [
    "Verif.Alloc.C114_idx",
    "Verif.Alloc.C114_ranged",
    "Verif.Alloc.C114_ip",
    "Verif.Alloc.C114_tree"
   ],
   "note": "the states excluded are those of C17, C65, C57; for the order in a tree see C91"
  },
  {
   "property": "C115",
   "status": "partial",
   "theorems": [
    "Verif.Ranged.C115_widths_partial",
    "Verif.Ranged.C115_full_violated"
   ],
   "note": "violated by the full range of one of the packages (C17); holds for every other range, every history, all pairs of packages"
  },
  {
   "property": "C117",
   "status": "proved",
   "theorems": [
    "Verif.Ranged.C117_shift"
   ],
   "note": "every range, also the full one (which cannot be shifted), every history over all 11 interface calls, all three widths"
  },
  {
   "property": "C22",
   "status": "partial",
   "theorems": [
    "Verif.IPTable.C22_shared_slot_violated",
    "Verif.IPTable.C22_distinct_slots_partial",
    "Verif.IPTable.C22_slots_exact_partial"
   ],
   "note": "violated by every IPv6 range of more than 2^64 addresses: the first address and the one 2^64 higher are indistinguishable; holds for every smaller range; C22_slots_exact_partial describes exactly what the table of every IPv6 range does, as a map on slots"
  },
  {
   "property": "C23",
   "status": "proved",
   "theorems": [
    "Verif.IPTable.C23_ip_partial_map",
    "Verif.IPTable.C23_spec_deterministic",
    "Verif.IPTable.C23_run_deterministic"
   ],
   "note": "every range of fewer than 2^64 addresses, every history over all 10 interface calls, arbitrary address parser; the specification is deterministic"
  },
  {
   "property": "C24",
   "status": "proved",
   "theorems": [
    "Verif.IPTable.C24_findFree_lowest"
   ],
   "note": "includes absence of the As4 panic"
  },
  {
   "property": "C25",
   "status": "proved",
   "theorems": [
    "Verif.IPTable.C25_out_of_range_rejected"
   ],
   "note": "every range, valid or not, of any size"
  },
  {
   "property": "C26",
   "status": "proved",
   "theorems": [
    "Verif.IPTable.C26_getAll_sorted"
   ],
   "note": "ranges of fewer than 2^64 addresses; includes absence of the nil panic"
  },
  {
   "property": "C65",
   "status": "partial",
   "theorems": [
    "Verif.IPTable.C65_slash64_findFree_violated",
    "Verif.IPTable.C65_slash64_has_free",
    "Verif.IPTable.C65_slash64_partial",
    "Verif.IPTable.C22_slots_exact_partial"
   ],
   "note": "violated in every state: the size wraps to 0 and FindFree always fails; calls naming an address and Size behave as a partial map; C22_slots_exact_partial describes whole histories exactly (at most 2^64 calls)"
  },
  {
   "property": "C113",
   "status": "partial",
   "theorems": [
    "Verif.IPTable.C113_refuses_partial",
    "Verif.IPTable.C113_findFree_exact",
    "Verif.IPTable.C113_findFree_violated"
   ],
   "note": "violated by FindFree, which returns the first end of the range (unless the computed size is 0 modulo 2^64), an address that Claim then rejects; everything else holds for every such range and every history"
  },
  {
   "property": "C118",
   "status": "proved",
   "theorems": [
    "Verif.IPTable.C118_place",
    "Verif.IPTable.C118_offsets"
   ],
   "note": "C118_place: every nonempty range, also IPv6 ranges of 2^64 addresses and more, where the replies are wrong (C22, C65) but the same"
  },
  {
   "property": "C122",
   "status": "proved",
   "theorems": [
    "Verif.IPTable.C122_text_round_trip",
    "Verif.IPTable.C122_text_injective",
    "Verif.IPTable.C122_v4_text",
    "Verif.IPTable.C122_v4_table",
    "Verif.IPTable.C122_findFree_claim",
    "Verif.Alloc.C122_allocate_all"
   ],
   "note": "with a model of netip.ParseAddr and Addr.String (IPTable/Text.lean), which are not part of the repository; IPv6 addresses have several texts, all of which name the same entry"
  },
  {
   "property": "C124",
   "status": "proved",
   "theorems": [
    "Verif.IPTable.C124_v6_text",
    "Verif.IPTable.C124_one_reading",
    "Verif.IPTable.C124_v6_table",
    "Verif.IPTable.C124_same_address"
   ],
   "note": "with the model of netip.ParseAddr of C122, which is not part of the repository"
  },
  {
   "property": "C27",
   "status": "proved",
   "theorems": [
    "Verif.Id.C27_overlaps"
   ],
   "note": "all three widths"
  },
  {
   "property": "C28",
   "status": "proved",
   "theorems": [
    "Verif.Id.C28_compare_total_order"
   ],
   "note": "all three widths"
  },
  {
   "property": "C29",
   "status": "partial",
   "theorems": [
    "Verif.Id.C29_next_max_violated",
    "Verif.Id.C29_prev64_violated",
    "Verif.Id.C29_next_prev_partial",
    "Verif.Id.C29_exact_partial"
   ],
   "note": "violated: Next of the largest id is 1, not the zero ID (all widths); id64's Prev computes in 32 bits. Holds elsewhere; what id64 does everywhere is stated exactly"
  },
  {
   "property": "C30",
   "status": "partial",
   "theorems": [
    "Verif.Id.C30_mask",
    "Verif.Id.C30_mask64_violated",
    "Verif.Id.C30_mask64_partial",
    "Verif.Id.C30_mask64_zero_partial"
   ],
   "note": "proved for id16 and id32; id64 rejects lengths 33..64 and masks length 0 to the upper 32 bits; lengths 1..32 are right"
  },
  {
   "property": "C31",
   "status": "partial",
   "theorems": [
    "Verif.Id.C31_lastID",
    "Verif.Id.C31_rangeOfID",
    "Verif.Id.C31_rangeOfID64_violated",
    "Verif.Id.C31_rangeOfID64_partial",
    "Verif.Id.C31_rangeOfID64_zero_partial"
   ],
   "note": "LastID proved for all widths, RangeOfID for id16 and id32; id64 RangeOfID gives the block of 2^32 values for length 0 and nil for lengths above 32"
  },
  {
   "property": "C32",
   "status": "partial",
   "theorems": [
    "Verif.Id.C32_ids_partition",
    "Verif.Id.C32_ids64_violated",
    "Verif.Id.C32_ids64_partial",
    "Verif.Id.C32_ids64_wrong_violated"
   ],
   "note": "proved for id16 and id32; id64 is wrong exactly for the ranges, other than that of all values, that straddle 2^63, start at a multiple of 2^32 and end just before one"
  },
  {
   "property": "C33",
   "status": "partial",
   "theorems": [
    "Verif.Id.C33_ids_minimal",
    "Verif.Id.C33_ids64_violated",
    "Verif.Id.C33_ids64_partial"
   ],
   "note": "proved for id16 and id32 against all competing covers; id64 wrong for the ranges of C32, right otherwise"
  },
  {
   "property": "C34",
   "status": "proved",
   "theorems": [
    "Verif.Id.C34_parseRange",
    "Verif.Id.C34_numeral_deterministic"
   ],
   "note": "all strings, all widths; decimal numerals specified independently"
  },
  {
   "property": "C35",
   "status": "proved",
   "theorems": [
    "Verif.Id.C35_positions",
    "Verif.Id.C35_switch_exhaustive"
   ],
   "note": ""
  },
  {
   "property": "C36",
   "status": "partial",
   "theorems": [
    "Verif.Id.C36_full_range_violated",
    "Verif.Id.C36_remove64_violated",
    "Verif.Id.C36_set_algebra_partial",
    "Verif.Id.C36_set_algebra64_partial",
    "Verif.Id.C36_builder_exact_partial",
    "Verif.Id.C36_builder_exact64_partial",
    "Verif.Id.C36_union_exact_partial"
   ],
   "note": "violated: adding 1..5 to a set containing the whole space loses everything above 5 (all widths, Next(max) = 1); id64 removals are wrong. Proved for all sequences in which no range ends at the maximum, or none starts at 1 (id16, id32), and for id64 with removals starting below 2^32; what every sequence of calls computes, with the wrap, is stated exactly (id16, id32; id64 with such removals)"
  },
  {
   "property": "C37",
   "status": "partial",
   "theorems": [
    "Verif.Id.C37_canonical",
    "Verif.Id.C37_unique",
    "Verif.Id.C37_order_irrelevant",
    "Verif.Id.C37_canonical64_violated",
    "Verif.Id.C37_canonical64_partial",
    "Verif.Id.C37_adds_commute"
   ],
   "note": "proved for id16 and id32 (order irrelevance within the domain of C36, and for additions alone without any restriction, all widths); id64 violated after removals above 2^32"
  },
  {
   "property": "C38",
   "status": "partial",
   "theorems": [
    "Verif.Id.C38_no_panic",
    "Verif.Id.C38_panic64_violated",
    "Verif.Id.C38_no_panic64_partial"
   ],
   "note": "proved for id16 and id32; id64 reaches the 'unexpected additional overlap scenario' panic"
  },
  {
   "property": "C39",
   "status": "partial",
   "theorems": [
    "Verif.Id.C39_invalid_reported",
    "Verif.Id.C39_invalid_reported64_partial"
   ],
   "note": "proved for id16 and id32; id64 on arguments for which the builder does not panic"
  },
  {
   "property": "C40",
   "status": "partial",
   "theorems": [
    "Verif.Id.C40_removeFreePrefix",
    "Verif.Id.C40_removeFreePrefix64_violated",
    "Verif.Id.C40_removeFreePrefix64_partial",
    "Verif.Id.C40_removeFreePrefix64_exact_partial"
   ],
   "note": "proved for id16 and id32; id64 panics for lengths above 32, and loses or invents the values before a block that is not at the start of its range: what it does is stated exactly"
  },
  {
   "property": "C41",
   "status": "partial",
   "theorems": [
    "Verif.Id.C41_ids_cover",
    "Verif.Id.C41_ids64_violated",
    "Verif.Id.C41_ids64_partial"
   ],
   "note": "proved for id16 and id32; id64 wrong for sets with a range as in C32"
  },
  {
   "property": "C66",
   "status": "partial",
   "theorems": [
    "Verif.Id.C66_long_prefix_violated"
   ],
   "note": "violated for every width, state and too long prefix: nil interface panic; nothing of the statement holds, so there is no positive part"
  },
  {
   "property": "C67",
   "status": "partial",
   "theorems": [
    "Verif.Id.C67_long_length_violated",
    "Verif.Id.C67_long_length_partial"
   ],
   "note": "violated for every non-empty set of full length ids: nil interface panic; holds for the empty set"
  },
  {
   "property": "C103",
   "status": "partial",
   "theorems": [
    "Verif.Id.C103_pointer_ids_violated",
    "Verif.Id.C103_pointer_ids_partial",
    "Verif.Id.C103_pointer_ids64_partial"
   ],
   "note": "violated: IDs returns pointers, which mergeRanges compares with values, so that touching ranges are not merged if the second starts with such an id. Proved: no panics, the right ids, ranges in order and disjoint, touching only at such an id, minimal without them; for calls that do not touch the largest value (C36), and for id64 with removals starting below 2^32"
  },
  {
   "property": "C127",
   "status": "partial",
   "theorems": [
    "Verif.Id.C127_ranges",
    "Verif.Id.C127_texts",
    "Verif.Id.C127_ids_partial",
    "Verif.Id.C127_ids64_partial",
    "Verif.Id.C127_removed",
    "Verif.Id.C127_removed_ids_partial",
    "Verif.Id.C127_removed_ids64_partial",
    "Verif.Id.C127_ids64_violated"
   ],
   "note": "violated by id64, whose AddId panics for prefixes longer than 32. Proved: ranges, texts and the removal of ranges for all packages; adding and removing prefixes for id16 and id32, and for prefixes of lengths 1 to 32 for id64; missing: longer prefixes of id64"
  },
  {
   "property": "C42",
   "status": "partial",
   "theorems": [
    "Verif.Tree.C42_tree16_is_map",
    "Verif.Tree.C42_tree32_is_map_partial",
    "Verif.Tree.C42_tree32_few_partial",
    "Verif.Tree.C42_tree32_half_partial",
    "Verif.Tree.C42_tree32_violated",
    "Verif.Tree.C42_tree64_violated"
   ],
   "note": "proved for width 16; width 32 as long as at most 2^32 nodes are needed for the prefixes stored (at most 2^31 prefixes, or any number of prefixes of ids below 2^31), violated with 2^31 + 1 prefixes; width 64 violated: all nodes share the keys of the value map"
  },
  {
   "property": "C43",
   "status": "proved",
   "theorems": [
    "Verif.Tree.C43_no_panic"
   ],
   "note": "all three widths, lengths at most the width"
  },
  {
   "property": "C44",
   "status": "proved",
   "theorems": [
    "Verif.Tree.C44_iteration"
   ],
   "note": "all three widths"
  },
  {
   "property": "C45",
   "status": "proved",
   "theorems": [
    "Verif.Tree.C45_compressed_no_leak"
   ],
   "note": "all three widths"
  },
  {
   "property": "C46",
   "status": "proved",
   "theorems": [
    "Verif.Tree.C46_no_realloc"
   ],
   "note": "all three widths"
  },
  {
   "property": "C47",
   "status": "partial",
   "theorems": [
    "Verif.Tree.C47_delete_partial",
    "Verif.Tree.C47_violated",
    "Verif.Tree.C47_delete_exact_partial"
   ],
   "note": "violated when values that are kept match one another: put back, they are merged and lost; proved when they do not, and keys do not overlap; what is kept otherwise is stated exactly"
  },
  {
   "property": "C48",
   "status": "partial",
   "theorems": [
    "Verif.Tree.C48_set_new_partial",
    "Verif.Tree.C48_set_new",
    "Verif.Tree.C48_violated",
    "Verif.Tree.C48_set_exact_partial"
   ],
   "note": "proved for histories of Set and Delete, and for prefixes with at most one value; Set on a prefix with several values replaces only the first; stated exactly for all reachable trees"
  },
  {
   "property": "C49",
   "status": "partial",
   "theorems": [
    "Verif.Tree.C49_violated",
    "Verif.Tree.C49_clone_partial",
    "Verif.Tree.C49_clone_visit_partial"
   ],
   "note": "violated: Clone drops the width and the bit function; the rest of the copy is equal; exactly: its iterator visits the same nodes with zero values"
  },
  {
   "property": "C50",
   "status": "partial",
   "theorems": [
    "Verif.Tree.C50_no_interference_partial",
    "Verif.Tree.C50_tree64_violated",
    "Verif.Tree.C50_tree16_violated"
   ],
   "note": "proved while the keys of the value map do not overlap; violated for width 64 with two prefixes and for width 16 with more than 2^16 values under a prefix"
  },
  {
   "property": "C51",
   "status": "proved",
   "theorems": [
    "Verif.Tree.C51_merge_inverts_shift"
   ],
   "note": "all three widths"
  },
  {
   "property": "C68",
   "status": "partial",
   "theorems": [
    "Verif.Tree.C68_long_length_violated",
    "Verif.Tree.C68_twice_violated",
    "Verif.Tree.C68_delete_violated",
    "Verif.Tree.C68_panic_violated",
    "Verif.GTree.C68_release_violated",
    "Verif.GTree.C68_claimFree_violated"
   ],
   "note": "violated for every id and every length above the width, in all three packages: set twice it is stored twice, Delete does not find it, and the Delete of a shorter prefix above it may panic. In the trees: ReleaseID reports success and releases nothing, and ClaimFree panics"
  },
  {
   "property": "C69",
   "status": "partial",
   "theorems": [
    "Verif.Tree.C69_vals_no_leak",
    "Verif.Tree.C69_empty",
    "Verif.Tree.C69_vals_no_leak_partial",
    "Verif.Tree.C69_tree64_violated",
    "Verif.GTree.C69_gtree_partial"
   ],
   "note": "proved for width 16 and histories of Set and Delete; widths 16 and 32 with Add as long as keys do not overlap; for tree16 and tree32 the value map has one entry per claimed prefix; width 64 violated"
  },
  {
   "property": "C72",
   "status": "proved",
   "theorems": [
    "Verif.Tree.C72_add"
   ],
   "note": "all three widths"
  },
  {
   "property": "C99",
   "status": "partial",
   "theorems": [
    "Verif.Tree.C99_multimap_partial"
   ],
   "note": "proved for width 16 with at most 2^16 values under a prefix, and width 32 with at most 2^32 values under a prefix and prefixes that need at most 2^32 nodes; otherwise, and for width 64, prefixes share values (C50)"
  },
  {
   "property": "C100",
   "status": "proved",
   "theorems": [
    "Verif.Tree.C100_vals_buffer",
    "Verif.Tree.C100_delete_buffer",
    "Verif.Tree.C100_delete_buffer_written"
   ],
   "note": "all three widths"
  },
  {
   "property": "C101",
   "status": "proved",
   "theorems": [
    "Verif.Tree.C101_memory",
    "Verif.Tree.C101_kept"
   ],
   "note": "all three widths"
  },
  {
   "property": "C102",
   "status": "partial",
   "theorems": [
    "Verif.Tree.C102_own_ids_partial",
    "Verif.Tree.C102_foreign_ids_violated"
   ],
   "note": "violated: for every two different packages there is a tree that stores ids of the other one twice, then panics, and does not find them again; with ids of its own package a tree never panics (what it answers is C42, C99)"
  },
  {
   "property": "C107",
   "status": "proved",
   "theorems": [
    "Verif.Tree.C107_next",
    "Verif.Tree.C107_loop",
    "Verif.Tree.C107_bound"
   ],
   "note": "all three widths"
  },
  {
   "property": "C108",
   "status": "partial",
   "theorems": [
    "Verif.Tree.C108_endless_violated",
    "Verif.Tree.C108_claims_partial"
   ],
   "note": "violated: two prefixes that are released and claimed again and again exchange their nodes, and the loop finds them for ever. Proved: the loop ends if the releases end, even if claims and updates go on for ever"
  },
  {
   "property": "C123",
   "status": "proved",
   "theorems": [
    "Verif.Tree.C123_iteration",
    "Verif.Tree.C123_add",
    "Verif.Tree.C123_delete",
    "Verif.GTree.C123_tree",
    "Verif.GTree.C123_tree64"
   ],
   "note": "all three widths; for the trees: tree32 with entries that need at most 2^32 nodes"
  },
  {
   "property": "C52",
   "status": "partial",
   "theorems": [
    "Verif.GTree.C52_claim_get_partial",
    "Verif.GTree.C52_tree32_violated",
    "Verif.GTree.C52_tree64_violated"
   ],
   "note": "proved for tree16 and for tree32 with entries that need at most 2^32 nodes; tree32 violated with 2^31 + 1 (a claimed id cannot be found after another was released and a third claimed); tree64 violated: all nodes share the keys of the value map"
  },
  {
   "property": "C53",
   "status": "partial",
   "theorems": [
    "Verif.GTree.C53_release_partial",
    "Verif.GTree.C53_outside_violated",
    "Verif.GTree.C53_tree64_violated"
   ],
   "note": "proved for tree16 and tree32 and ids below 2^length; entries that ClaimRange made beyond the size cannot be released; tree64 violated"
  },
  {
   "property": "C54",
   "status": "partial",
   "theorems": [
    "Verif.GTree.C54_releaseByLabel_partial",
    "Verif.GTree.C54_tree64_violated"
   ],
   "note": "proved for tree16 and tree32; tree64 violated"
  },
  {
   "property": "C55",
   "status": "partial",
   "theorems": [
    "Verif.GTree.C55_children_partial",
    "Verif.GTree.C55_tree64_violated"
   ],
   "note": "proved for tree16 and tree32; tree64 violated"
  },
  {
   "property": "C56",
   "status": "partial",
   "theorems": [
    "Verif.GTree.C56_parents_partial",
    "Verif.GTree.C56_parents_violated"
   ],
   "note": "proved for ids of full length; violated for shorter ids: children and the prefix itself are returned as well"
  },
  {
   "property": "C57",
   "status": "partial",
   "theorems": [
    "Verif.GTree.C57_sound_partial",
    "Verif.GTree.C57_claimFree_partial",
    "Verif.GTree.C57_claimFree32_partial",
    "Verif.GTree.C57_covered_violated",
    "Verif.GTree.C57_full32_violated",
    "Verif.GTree.C57_short32_violated",
    "Verif.GTree.C57_outside32_violated",
    "Verif.GTree.C57_tree64_violated",
    "Verif.GTree.C57_long32_partial",
    "Verif.GTree.C92_claimFree_violated"
   ],
   "note": "proved for tree16 and for tree32 up to length 16, when no entry covers all ids (tree32: and none lies outside); violated otherwise: a tree32 of a larger length serves only the first 2^(32-length) ids; ClaimFree on a tree64 never returns an id. C91 has the exact behaviour for all other states"
  },
  {
   "property": "C58",
   "status": "partial",
   "theorems": [
    "Verif.GTree.C58_claimRange_partial",
    "Verif.GTree.C58_claimRange_violated"
   ],
   "note": "ordered ranges proved for tree16 and tree32; violated: inverted ranges and ranges outside the tree are accepted"
  },
  {
   "property": "C59",
   "status": "partial",
   "theorems": [
    "Verif.GTree.C59_queries_partial",
    "Verif.GTree.C54_tree64_violated"
   ],
   "note": "proved for tree16 and tree32; tree64 violated"
  },
  {
   "property": "C60",
   "status": "proved",
   "theorems": [
    "Verif.GTree.C60_new"
   ],
   "note": "all three widths"
  },
  {
   "property": "C70",
   "status": "partial",
   "theorems": [
    "Verif.GTree.C70_no_panic16",
    "Verif.GTree.C70_no_panic_partial",
    "Verif.GTree.C70_history32_partial",
    "Verif.GTree.C57_tree64_violated"
   ],
   "note": "proved for tree16, for tree32 as long as the entries need at most 2^32 nodes (at most 2^31 entries), and for every history of a tree32 of length at most 31 whose range texts name only ids below 2^31; tree64 panics"
  },
  {
   "property": "C71",
   "status": "partial",
   "theorems": [
    "Verif.GTree.C71_clone_violated",
    "Verif.GTree.C71_clone_partial",
    "Verif.GTree.C71_clone_hollow_partial",
    "Verif.GTree.C71_clone_hollow64_partial"
   ],
   "note": "violated: Clone drops the width and the bit function; the rest of the copy is equal; exactly: a clone has as many entries, all nil, so Size is right and every call that looks at an entry panics"
  },
  {
   "property": "C82",
   "status": "partial",
   "theorems": [
    "Verif.GTree.C82_claim_violated",
    "Verif.GTree.C82_update_violated",
    "Verif.GTree.C82_claimRange_violated",
    "Verif.GTree.C82_claim_partial"
   ],
   "note": "violated in every state: ClaimID, Update and ClaimRange silently replace what is claimed and create what is not. Proved (tree16; tree32 with entries that need at most 2^32 nodes): the exact effect of ClaimID and Update"
  },
  {
   "property": "C83",
   "status": "partial",
   "theorems": [
    "Verif.GTree.C83_lowest_violated",
    "Verif.GTree.C83_bestFit_partial",
    "Verif.GTree.C83_count_partial",
    "Verif.GTree.C83_countLong32_partial"
   ],
   "note": "violated: ClaimFree takes the start of the smallest free block that fits. Proved (tree16; tree32 up to length 16): this choice is best fit, and on a new tree the calls count 0, 1, ... until all ids are claimed"
  },
  {
   "property": "C84",
   "status": "partial",
   "theorems": [
    "Verif.GTree.C84_tree_violated",
    "Verif.GTree.C84_tree_partial",
    "Verif.Ranged.C84_ranged_violated",
    "Verif.Ranged.C84_ranged_partial",
    "Verif.IPTable.C84_ip_violated",
    "Verif.IPTable.C84_ip_partial"
   ],
   "note": "violated in every state: the map is kept, not copied. Proved (ranged tables, IP tables, tree16, tree32 with room): the labels are those of the map passed until the id is released or updated, so they stay if the caller leaves the map alone"
  },
  {
   "property": "C85",
   "status": "partial",
   "theorems": [
    "Verif.GTree.C85_release_violated",
    "Verif.GTree.C85_claim_violated",
    "Verif.GTree.C85_omits_violated",
    "Verif.GTree.C85_updates_partial"
   ],
   "note": "violated: Next panics after the entry just visited was released or a prefix above it claimed, and reused nodes make it skip entries. Proved (tree16; tree32 with entries that need at most 2^32 nodes): a loop that only updates claimed prefixes visits each exactly once with its current entry"
  },
  {
   "property": "C86",
   "status": "proved",
   "theorems": [
    "Verif.Id.C86_string"
   ],
   "note": "also for the strings of ranges"
  },
  {
   "property": "C90",
   "status": "partial",
   "theorems": [
    "Verif.Id.C90_ids",
    "Verif.Id.C90_ids64_partial",
    "Verif.Id.C90_ids64_violated",
    "Verif.GTree.C90_claimRange_partial"
   ],
   "note": "IDs: proved for id16 and id32, and for id64 except for the ranges of C32, for which what it returns is stated. ClaimRange: proved for tree16 and tree32 with room for the entries"
  },
  {
   "property": "C91",
   "status": "partial",
   "theorems": [
    "Verif.GTree.C91_claimFree_partial"
   ],
   "note": "proved for every reachable tree16 and tree32 (with entries that need at most 2^32 nodes); tree64 panics, see C92"
  },
  {
   "property": "C92",
   "status": "partial",
   "theorems": [
    "Verif.GTree.C92_exact_partial",
    "Verif.GTree.C92_overlaps_partial",
    "Verif.GTree.C92_claim_violated",
    "Verif.GTree.C92_release_violated",
    "Verif.GTree.C92_claimFree_violated"
   ],
   "note": "violated in every state: all prefixes share one entry, so that a claim makes Get of all other ids fail, and a release makes it panic; ClaimFree never returns an id. Proved instead: exactly what every call does in every reachable state"
  },
  {
   "property": "C96",
   "status": "partial",
   "theorems": [
    "Verif.IdxTable.C96_index",
    "Verif.Ranged.C96_ranged",
    "Verif.IPTable.C96_ip",
    "Verif.GTree.C96_tree_partial",
    "Verif.GTree.C96_tree64_violated"
   ],
   "note": "proved for the index table of every capacity, the ranged tables and the IP table of every range, tree16, and tree32 with entries that need at most 2^32 nodes; violated by tree64"
  },
  {
   "property": "C128",
   "status": "partial",
   "theorems": [
    "Verif.IdxTable.C128_index",
    "Verif.Ranged.C128_ranged",
    "Verif.IPTable.C128_ip",
    "Verif.GTree.C128_tree_partial",
    "Verif.GTree.C132_rebuild_partial",
    "Verif.GTree.C128_tree_violated",
    "Verif.GTree.C128_tree64_violated"
   ],
   "note": "violated by trees whose ClaimRange stored ids beyond their length, which ClaimID refuses, and by tree64, whose entries share one cell. Proved for the tables; for tree16, and tree32 as long as the map has room, if GetAll lists ids below 2^length only, and in general if the others are claimed with ClaimRange (C132)"
  },
  {
   "property": "C129",
   "status": "partial",
   "theorems": [
    "Verif.IdxTable.C129_index",
    "Verif.Ranged.C129_ranged",
    "Verif.IPTable.C129_ip",
    "Verif.GTree.C129_tree_partial",
    "Verif.GTree.C53_outside_violated",
    "Verif.GTree.C129_tree64_violated"
   ],
   "note": "violated by tree64, whose entries share one cell so that releases miss, and by ReleaseID of ids beyond the length of the tree, which it refuses. Proved for the tables; for tree16, and tree32 as long as the map has room, with ReleaseByLabel, and with ReleaseID if GetAll lists ids below 2^length only"
  },
  {
   "property": "C130",
   "status": "partial",
   "theorems": [
    "Verif.IdxTable.C130_index",
    "Verif.Ranged.C130_ranged",
    "Verif.IPTable.C130_ip",
    "Verif.GTree.C130_tree_partial",
    "Verif.GTree.C130_tree64_violated"
   ],
   "note": "violated by tree64, in which ReleaseID of a claimed id panics after another id was released. Proved for the tables; for tree16, and tree32 as long as the map has room"
  },
  {
   "property": "C131",
   "status": "partial",
   "theorems": [
    "Verif.GTree.C131_tree_partial",
    "Verif.GTree.C53_outside_violated",
    "Verif.GTree.C131_tree64_violated"
   ],
   "note": "violated by tree64, in which a second ReleaseByLabel panics, and by ReleaseID of ids beyond the length of the tree, which it refuses. Proved for tree16, and tree32 as long as the map has room; the clause on ReleaseID if GetByLabel lists ids below 2^length only"
  },
  {
   "property": "C132",
   "status": "partial",
   "theorems": [
    "Verif.GTree.C132_tree_partial",
    "Verif.GTree.C132_rebuild_partial",
    "Verif.GTree.C132_tree64_violated"
   ],
   "note": "violated by id64, whose RangeOfID gives nil for prefixes longer than 32. Proved for tree16, and tree32 as long as the map has room"
  },
  {
   "property": "C97",
   "status": "partial",
   "theorems": [
    "Verif.IdxTable.C97_index_commute",
    "Verif.IdxTable.C97_index_undo",
    "Verif.Ranged.C97_ranged_commute",
    "Verif.Ranged.C97_ranged_undo",
    "Verif.IPTable.C97_ip_commute_partial",
    "Verif.IPTable.C97_ip_commute_violated",
    "Verif.IPTable.C97_ip_undo",
    "Verif.IPTable.C97_ip_slots_partial",
    "Verif.GTree.C97_tree_commute_partial",
    "Verif.GTree.C97_tree_undo_partial",
    "Verif.GTree.C97_tree64_violated",
    "Verif.GTree.C97_tree_reclaim_violated"
   ],
   "note": "proved for the index table, the ranged tables and, for ranges of at most 2^64 addresses, the IP table; larger IPv6 ranges violate the first half (shared slots), which is proved for addresses of different slots. Trees: proved for tree16, and tree32 with entries that need at most 2^32 nodes, the second half if the prefix was not claimed before (a claim of a claimed prefix succeeds, and the release does not bring the earlier entry back); violated by tree64"
  },
  {
   "property": "C98",
   "status": "partial",
   "theorems": [
    "Verif.GTree.C98_equal_partial",
    "Verif.GTree.C98_equal_violated"
   ],
   "note": "violated: the labels are compared by their String, which is the same for a: 'b,c=d' and a: b, c: d. Proved for labels without commas, and without equals signs in keys"
  },
  {
   "property": "C104",
   "status": "proved",
   "theorems": [
    "Verif.GTree.C104_string",
    "Verif.GTree.C104_string_packages"
   ],
   "note": ""
  },
  {
   "property": "C112",
   "status": "partial",
   "theorems": [
    "Verif.GTree.C112_nodes",
    "Verif.GTree.C112_one_reading",
    "Verif.Tree.C112_counts",
    "Verif.GTree.C112_values_partial",
    "Verif.GTree.C112_tree64_violated",
    "Verif.GTree.C112_freed_violated"
   ],
   "note": "PrintNodes proved for every tree, the counts for all widths; PrintValues for tree16 and tree32 with room for the entries. Violated: freed nodes are printed with their old links and cannot be told from nodes in use; a tree64 prints one value for all prefixes"
  },
  {
   "property": "C120",
   "status": "partial",
   "theorems": [
    "Verif.GTree.C120_widths_partial",
    "Verif.GTree.C120_claimFree_violated",
    "Verif.GTree.C120_tree64_violated"
   ],
   "note": "violated by tree64, which has one entry for all prefixes (C92), and by ClaimFree for lengths below 16: with the prefix of all ids claimed, a tree16 still returns 0, a tree32 fails. Proved for tree16 and tree32 of every length up to 16: all histories without ClaimFree, all histories if the length is 16, and for smaller lengths all in which ClaimFree is called only when no entry contains all ids and all lie within the tree; then all queries"
  },
  {
   "property": "C121",
   "status": "partial",
   "theorems": [
    "Verif.GTree.C121_tree_as_table_partial",
    "Verif.GTree.C121_one_id_violated",
    "Verif.GTree.C121_long_violated",
    "Verif.GTree.C121_tree64_violated"
   ],
   "note": "violated by tree64 (C92), by ClaimFree of a tree16 of length 0, and by ClaimFree of a tree32 of length 17 and more (shown for 31), which serves the first 2^(32-n) ids only. Proved for tree16 and for tree32 of length up to 31; the clause on ClaimFree for tree16 of length 1 and more and tree32 of length up to 16"
  },
  {
   "property": "C126",
   "status": "partial",
   "theorems": [
    "Verif.GTree.C126_table_on_tree_partial",
    "Verif.GTree.C126_unchecked_violated",
    "Verif.GTree.C126_tree64_violated"
   ],
   "note": "proved for tree16 and for tree32 of length up to 31, with the checks of the client; violated by tree64 (C92)"
  },
  {
   "property": "C61",
   "status": "partial",
   "theorems": [
    "Verif.Conc.C61_index_exclusive",
    "Verif.Conc.C61_ranged_exclusive",
    "Verif.Conc.C61_ip_exclusive_partial",
    "Verif.Conc.C61_ip_exclusive_violated",
    "Verif.Conc.C61_ip_slots_partial"
   ],
   "note": "proved for the index table, the ranged tables and the IP table with at most 2^64 addresses; violated for larger IPv6 ranges, where addresses share a slot; proved for them: exclusive by slot"
  },
  {
   "property": "C62",
   "status": "partial",
   "theorems": [
    "Verif.Conc.C62_index_deadlock_violated",
    "Verif.Conc.C62_index_no_deadlock_partial",
    "Verif.Conc.C62_ranged_deadlock_violated",
    "Verif.Conc.C62_ranged_no_deadlock_partial",
    "Verif.Conc.C62_ip_no_deadlock_partial",
    "Verif.Conc.C62_index_readers_partial",
    "Verif.Conc.C62_ranged_readers_partial",
    "Verif.Conc.C62_ip_readers_partial"
   ],
   "note": "violated: GetAll takes the read lock twice and blocks forever if a writer comes in between; no deadlock without GetAll, or without calls that write"
  },
  {
   "property": "C64",
   "status": "proved",
   "theorems": [
    "Verif.Conc.C64_index_linearizable",
    "Verif.Conc.C64_index_sequential"
   ],
   "note": ""
  },
  {
   "property": "C73",
   "status": "proved",
   "theorems": [
    "Verif.Conc.C73_index_no_race"
   ],
   "note": ""
  },
  {
   "property": "C74",
   "status": "partial",
   "theorems": [
    "Verif.Conc.C74_ranged_race_violated",
    "Verif.Conc.C74_ranged_no_race_partial",
    "Verif.Conc.C74_ip_race_violated",
    "Verif.Conc.C74_ip_no_race_partial"
   ],
   "note": "violated: GetByLabel reads the map without lock; no race without GetByLabel"
  },
  {
   "property": "C75",
   "status": "partial",
   "theorems": [
    "Verif.Conc.C75_ranged_panic_violated",
    "Verif.Conc.C75_ranged_no_panic_partial",
    "Verif.Conc.C75_ip_panic_violated",
    "Verif.Conc.C75_ip_no_panic_partial"
   ],
   "note": "violated: the entry of an id released meanwhile is nil. Proved: no panic if no Release overlaps with GetByLabel"
  },
  {
   "property": "C76",
   "status": "partial",
   "theorems": [
    "Verif.Conc.C76_claimFree_fails_violated",
    "Verif.Conc.C76_claimFree_partial"
   ],
   "note": "violated: another goroutine may take the id found; then ClaimFree fails although others are free. Proved: it fails only if the table was full at some moment or another claim overlapped"
  },
  {
   "property": "C63",
   "status": "partial",
   "theorems": [
    "Verif.Conc.C63_overlapping_violated",
    "Verif.Conc.C63_claimFree_partial"
   ],
   "note": "violated: two overlapping calls of ClaimFree on a new tree16/tree32 of any length return the same id. Proved (tree16; tree32 of length at most 31, or with at most 2^31 events): a ClaimFree that starts after a prefix was claimed does not return an id in it unless it was released meanwhile, or ReleaseByLabel was called; missing: overlapping calls, ClaimRange, prefixes not longer than the root prefix"
  },
  {
   "property": "C77",
   "status": "partial",
   "theorems": [
    "Verif.Conc.C77_iterate_race_violated",
    "Verif.Conc.C77_clone_race_violated",
    "Verif.Conc.C77_claimRange_race_violated",
    "Verif.Conc.C77_no_race_partial"
   ],
   "note": "violated: GetAll, GetByLabel, ReleaseByLabel, Size, Clone and ClaimRange access the tree without lock; no race without them"
  },
  {
   "property": "C78",
   "status": "partial",
   "theorems": [
    "Verif.Conc.C78_tree_deadlock_violated",
    "Verif.Conc.C78_tree_no_deadlock_partial",
    "Verif.Conc.C78_tree_readers_partial"
   ],
   "note": "violated: Get, Children and Parents take the read lock twice and block forever if a writer comes in between; no deadlock without the calls that do this, or without calls that change the tree"
  },
  {
   "property": "C79",
   "status": "partial",
   "theorems": [
    "Verif.Conc.C79_ranged_claimFree_violated",
    "Verif.Conc.C79_ranged_getByLabel_violated",
    "Verif.Conc.C79_ip_getByLabel_violated",
    "Verif.Conc.C79_ranged_linearizable_partial",
    "Verif.Conc.C79_ranged_weak_partial",
    "Verif.Conc.C79_ip_linearizable_partial",
    "Verif.Conc.C79_ip_weak_partial",
    "Verif.Conc.C79_full_range_partial",
    "Verif.Conc.C79_ip_slots_partial"
   ],
   "note": "violated by ClaimFree, which fails although ids are free, and GetByLabel, which panics. Proved: all histories are linearizable if ClaimFree may fail and choose any free id and GetByLabel may reply anything; histories without ClaimFree and GetByLabel (IP table: without GetByLabel) are linearizable; full ranges and IPv6 ranges of any size are linearizable with respect to the exact sequential behaviour of C17 and C22, also with ClaimFree, but without GetByLabel (and, where the size wraps to 0 modulo 2^64, without the calls that list); C94 says what GetByLabel replies"
  },
  {
   "property": "C80",
   "status": "partial",
   "theorems": [
    "Verif.Conc.C80_entry_violated",
    "Verif.Conc.C80_size_violated",
    "Verif.Conc.C80_omits_violated",
    "Verif.Conc.C80_reads_partial"
   ],
   "note": "violated: the loops run without lock; they panic if an entry is released meanwhile, and miss entries when nodes are merged and reused. Proved (tree16; tree32 of length at most 31, or with at most 2^31 events): a GetAll, GetByLabel or Size that overlaps with no changing call returns what the tree contains at a moment during the call; missing: overlapping calls (C119 for those that replace entries), histories with ClaimRange (covered by C87 if it does not overlap); tree64 (see C116)"
  },
  {
   "property": "C81",
   "status": "partial",
   "theorems": [
    "Verif.Conc.C81_claimFree_violated",
    "Verif.Conc.C81_getAll_violated",
    "Verif.Conc.C81_releaseByLabel_violated",
    "Verif.Conc.C81_claimRange_violated",
    "Verif.Conc.C81_linearizable_partial",
    "Verif.Conc.C81_weak_partial"
   ],
   "note": "violated by ClaimFree (two calls return the same id), by the unlocked readers (panic), by ReleaseByLabel (misses an entry, releases one claimed later), and by ClaimRange (others see half of it). Proved (tree16; tree32 of length at most 31, or with at most 2^31 events): histories of Get, Update, ClaimID, ReleaseID, Children, Parents are linearizable; histories without ClaimRange are linearizable if ClaimFree may return claimed ids, the replies of the unlocked readers are ignored, and ReleaseByLabel releases any prefixes; missing: the other calls, and tree64 (C87, C116 say when they are linearizable)"
  },
  {
   "property": "C119",
   "status": "partial",
   "theorems": [
    "Verif.Conc.C119_replaced_partial",
    "Verif.Conc.C119_moments",
    "Verif.Conc.C119_label_violated"
   ],
   "note": "violated by GetByLabel, which reads a matching entry a second time and may return one whose labels do not match. Proved: everything else, for every execution in which the tree represents a map when the call starts (C119_moments: always for a new tree16, or tree32 of length at most 31, without ClaimRange); the two entries that GetByLabel reads are both entries that the prefix had during the call. Missing: tree64 (its prefixes share one entry, see C92)"
  },
  {
   "property": "C87",
   "status": "proved",
   "theorems": [
    "Verif.Conc.C87_linearizable",
    "Verif.Conc.C87_mixed"
   ],
   "note": "tree16 of length at least 1, tree32 of length less than 32; TStepX is the specification of a single call"
  },
  {
   "property": "C116",
   "status": "proved",
   "theorems": [
    "Verif.Conc.C116_atomic",
    "Verif.Conc.C116_tree64"
   ],
   "note": "for every tree: all widths and lengths, any entries at the start, ids of any length. C116_tree64 replaces the code of tree64 by the specification of C92"
  },
  {
   "property": "C93",
   "status": "partial",
   "theorems": [
    "Verif.Conc.C93_index_partial",
    "Verif.Conc.C93_index_violated",
    "Verif.Conc.C93_ranged_partial",
    "Verif.Conc.C93_ranged_violated",
    "Verif.Conc.C93_ip_partial",
    "Verif.Conc.C93_tree_partial",
    "Verif.Conc.C93_tree_violated",
    "Verif.Conc.C93_tree_loops_partial",
    "Verif.Conc.C93_tree_plain_partial"
   ],
   "note": "violated by the deadlocks of C62 and C78. Proved: all calls return unless GetAll (tables) is used together with calls that write; for the trees, if all calls only read, or if Get, Children, Parents, ClaimFree and ReleaseID are not used. The loops of the trees that take no lock end by themselves once no further calls are started (with a bound that does not depend on the rounds the model allows); missing: the same beside ClaimRange, which changes the tree without lock"
  },
  {
   "property": "C94",
   "status": "partial",
   "theorems": [
    "Verif.Conc.C94_ranged",
    "Verif.Conc.C94_ranged_sound",
    "Verif.Conc.C94_ranged_complete",
    "Verif.Conc.C94_ip_partial",
    "Verif.Conc.C94_ip_sound_partial",
    "Verif.Conc.C94_ip_complete",
    "Verif.Conc.C94_ip_unselected_violated",
    "Verif.Conc.C94_ip_slots_partial",
    "Verif.Conc.C94_ip_slots_routes_partial"
   ],
   "note": "proved for the ranged tables, with an exact description of the reads; violated for the IP table, which reads a selected entry a second time and may return one that is not selected. Proved for it: what it returns was in the table during the call, and selected routes that stay are returned, also for ranges of any size, by slot; tables whose 2^64 slots are all taken are left out"
  },
  {
   "property": "C106",
   "status": "partial",
   "theorems": [
    "Verif.Conc.C106_race_violated",
    "Verif.Conc.C106_nil_violated",
    "Verif.Conc.C106_session_partial",
    "Verif.Conc.C106_free_session_partial",
    "Verif.Conc.C106_order_partial",
    "Verif.Conc.C106_no_race_partial",
    "Verif.Conc.C106_no_deadlock_partial",
    "Verif.Conc.C106_no_nil_partial"
   ],
   "note": "violated: Value reads the map while others write to it, and is nil for an id released meanwhile. Proved: what every goroutine with an iterator is answered, at which moments, and the order of all calls on the table; no race without Value, no deadlock without GetAll, no nil if no goroutine that calls Release overlaps"
  },
  {
   "property": "C125",
   "status": "partial",
   "theorems": [
    "Verif.Conc.C125_findFree_violated",
    "Verif.Conc.C125_idx_partial",
    "Verif.Conc.C125_ranged_partial",
    "Verif.Conc.C125_ip_partial"
   ],
   "note": "violated by the searches: iterateFree goes through all ids of the table and lists the free ones, so that FindFree looks at the table exactly once per id, claimed or not, also if the first id is free (ClaimDynamic, ClaimFree: at least as often). Proved: the bounds for all other calls, and that once per id (ClaimRange and ClaimSize: four times) is enough for the searches. Not counted: the copies of keys and their sorting, and local loops"
  },
  {
   "property": "C88",
   "status": "partial",
   "theorems": [
    "Verif.Tests.C88_tree64_violated",
    "Verif.Tests.C88_idxtable_partial",
    "Verif.Tests.C88_tables_partial",
    "Verif.Tests.C88_iptable_partial",
    "Verif.Tests.C88_tree16_partial",
    "Verif.Tests.C88_tree32_partial"
   ],
   "note": "violated: the test of tree64 fails in every order (all entries share one key, C42); all other tests pass in every order"
  },
  {
   "property": "C89",
   "status": "proved",
   "theorems": [
    "Verif.Tests.C89_demo"
   ],
   "note": "all labels, all selectors; the text of the errors is not modelled"
  },
  {
   "property": "C109",
   "status": "partial",
   "theorems": [
    "Verif.IdxTable.C109_one_reading",
    "Verif.IdxTable.C109_fails",
    "Verif.IdxTable.C109_true_partial",
    "Verif.IdxTable.C109_range_partial",
    "Verif.IdxTable.C109_inUse_violated",
    "Verif.IdxTable.C109_bound_violated",
    "Verif.IdxTable.C109_single_violated",
    "Verif.IdxTable.C109_zero_violated",
    "Verif.Ranged.C109_ranged_fails",
    "Verif.Ranged.C109_ranged_partial",
    "Verif.Ranged.C109_ranged_violated",
    "Verif.Ranged.C109_full_violated",
    "Verif.IPTable.C109_ip_fails",
    "Verif.IPTable.C109_ip_partial",
    "Verif.IPTable.C109_ip_violated",
    "Verif.IPTable.C109_slash64_violated",
    "Verif.GTree.C109_tree_fails",
    "Verif.GTree.C109_tree_new",
    "Verif.GTree.C109_tree_partial",
    "Verif.GTree.C109_tree_violated"
   ],
   "note": "violated by FindFreeRange and ClaimRange of the index table (a free id is said to be in use, an id equal to the limit to be above it, a free window not to be found), by Get and Update of the ranged tables (offsets instead of ids), by full ranges and IPv6 ranges of 2^64 or more addresses, and by ClaimFree of trees. Proved: all other texts are true; exactly when those of FindFreeRange and ClaimRange are. For the texts of ParseRange and of the set builders see C111"
  },
  {
   "property": "C110",
   "status": "partial",
   "theorems": [
    "Verif.IdxTable.C110_names_id",
    "Verif.Ranged.C110_ranged_partial",
    "Verif.Ranged.C110_ranged_violated",
    "Verif.IPTable.C110_ip_partial",
    "Verif.IPTable.C110_ip_violated",
    "Verif.IPTable.C110_ip_slots_partial",
    "Verif.IPTable.C110_ip_slots_violated",
    "Verif.GTree.C110_tree"
   ],
   "note": "violated by Get and Update of the ranged tables and Get of the IP table, which name the offset in the range. Proved: all other texts name the id or address, and what these name; violated by Claim and Release as well for IPv6 ranges of more than 2^64 addresses, for which the exact texts are proved"
  },
  {
   "property": "C111",
   "status": "partial",
   "theorems": [
    "Verif.Id.C111_parseRange",
    "Verif.Id.C111_builder",
    "Verif.Id.C111_builder_fails",
    "Verif.Id.C111_one_reading",
    "Verif.Id.C111_ids_silent",
    "Verif.Id.C111_isZero",
    "Verif.Id.C111_isZero64_violated",
    "Verif.GTree.C111_claimRange",
    "Verif.GTree.C111_claimFree"
   ],
   "note": "texts proved for all three packages; the part about IsZero is proved for id16 and id32 and violated for id64, where the range of every prefix of more than 32 bits is zero. %q of strconv is a parameter"
  }
 ]
}