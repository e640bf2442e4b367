# Design: a Lean 4 model of henderiw/idxtable

`properties.jsonl` lists the properties, `MANIFEST.json` says which theorems establish them, `lean/` holds the model and
the proofs, `seeded/LOG.jsonl` the wrong programs on which the theorems were tested.

## Trusted base

* Lean 4.33.0's kernel. No axioms are added; there is no `sorry`, `native_decide` or `bv_decide`. The theorems depend on
  the three standard axioms `propext`, `Classical.choice`, `Quot.sound` at most; the list is at the end of this file.
* The reading of the Go sources: every model definition cites the file and lines it models. The code is not executed.
* Go semantics we rely on:
  * fixed width unsigned arithmetic wraps; `x << n` with `n >= width` is 0; `1<<length - 1` is computed in the type of
    the struct field;
  * reading a missing map key yields the zero value; a map iterates in an arbitrary order; `len` of a map;
  * a method call on a nil interface panics; an index out of range panics; `append` moves an array exactly when the
    capacity is exceeded (`pkg/tree` depends on it);
  * `sync.RWMutex`: a waiting writer blocks new readers, see `Verif/Conc/Lang.lean`; memory accesses of goroutines
    interleave (sequential consistency; a data race is a reachable state, not undefined behaviour).
* Modelled from their documentation, since the sources are not available here:
  * `sort.Slice` (some sorted permutation; the sorts here have unique results, except in `C103`), `math/bits`, `strconv.ParseUint` (base
    10), `strings.IndexByte`, `%d`;
  * `net/netip.Addr`: `ParseAddr` is an arbitrary function, a parameter of the theorems, except in C122 and C124, where `ParseAddr` and
    `Addr.String` are modelled character by character after go 1.23 (`IPTable/Text.lean`, written from knowledge of the standard
    library, whose source is not in the sandbox);
  * `netipx.IPRange`, `math/big`;
  * k8s `labels`: a label set is a value with a canonical string, a selector an arbitrary predicate; for
    `C98` a label set is a map of strings, with `labels.Set.String` as documented (`GTree/EntryProps.lean`).

## What is modelled

| code | model |
|------|-------|
| `pkg/idxtable/{table,iterator,entry}.go`: everything | `IdxTable/Model.lean`, with locks `Conc/Model.lean` |
| `pkg/table/table{16,32,64}`: everything | `Ranged/Model.lean`, as programs on the index table `Conc/Tables.lean` |
| `pkg/iptable/iptable.go`: everything | `IPTable/Model.lean`, as programs on the index table `Conc/Tables.lean` |
| `pkg/tree/id{16,32,64}`: ids, ranges, set builder | `Id/Model.lean` |
| `pkg/tree/{tree,tree_manual,node}.go` | `Tree/Model.lean` |
| `pkg/tree/tree{16,32,64}`, `gtree`, `entry.go` | `GTree/Model.lean`, with locks `Conc/TreeModel.lean` |
| the error texts of the tables and of the trees | `Errs/Model.lean` |
| all `*_test.go`, `test/main.go` | `Tests/Model.lean`, as programs on the models above |

Packages that are the same text at three widths have one model with a record of everything in which they differ: `Pkg`
(`idN`: width, the literal `mask6` table, `addOne`, `subOne`, the limit in `Mask`), `Width` (`tableN`), `Impl` (`treeN`).

Not modelled, or simplified:

* Commented out code, the names of trees.
* Error texts are in `Errs/Model.lean` and `Errs/SetModel.lean`; the models of the packages only keep the reason where a
  method has several.
* The labels of the tree tests (all empty, or never compared) are `true`; what tests and demo print with `PrintNodes`,
  `PrintValues` is left out.
* Ids of one package passed to a tree of another one, except in `C102`. The pointers returned by `IDs` are taken for the
  values they point to, except in `C103`. Changes of a label map by the caller during a call (between calls: `C84`).
* `uint8` lengths of ids are naturals; theorems about ids say for which lengths they hold (`C66`–`C68` are about the
  others). In `pkg/tree`, where lengths are subtracted, they are reduced modulo 256.
* `uint` node indexes of the tree are naturals. Pointers into the node array are indexes; `C46` shows that this is right.
* The buffers of `DeleteWithBuffer` and `ValsWithBuffer` are nil, as in all calls in the repository, except in `C100`.
* `IDSetBuilder` on a nil set (`AddSet(nil)`): the list of ranges is empty, which is what the code reads.
* Concurrency: one access to the memory is atomic. For the index table every access to the map is a step of its own. For
  the trees the loop of `Get`, `Children`, `Parents` and each `Set` and `Delete` of the prefix tree is one step, as they
  are under the lock; in the loops of `GetAll`, `GetByLabel`, `Size`, which take no lock, each round of `Next` and each
  `Entry` is a step. The model lets these loops run for `N` rounds more than they need alone, then the reply is `stuck`;
  theorems are for every `N`, and `C93_tree_loops_partial` shows that for a large `N` nothing is `stuck`. `ClaimRange` is a read and a write for each `Set`, without lock; `Clone` is one read. A
  `ClaimRange` that overlaps with no call is replaced by a critical section in the proof of `C87` (`exec_sync`).
* Iterators of the trees held by a client are modelled for loops of one goroutine (`C85`).

## Layout

`Verif/GoMap.lean`: Go maps as association lists without duplicate keys. Each directory has `Model.lean` (the code),
`Spec.lean` (the specification, independent of the model), helper files, and `*Props.lean` (the theorems `Cxx_...` with
examples that meet their hypotheses). `Api.lean` lists the methods for the refinement theorems.

* `IdxTable`, `Ranged`, `IPTable`: `Refine.lean` relates a table to a partial map.
* `Id`: `Bits` (masks), `Ranges`, `Parse`, `Norm` and `Builder` (the loop of `normalize`), `Set`, `FreeProps`
  (`RemoveFreePrefix`).
* `Tree`: `Rep` (a node array represents an inductive tree), `AddSpec`, `Shape`, `DelNode`, `DelSpec`, `Delete` (the
  operations preserve it), `Vals` and `Runs` (the value map, keys `nodeIndex<<W + j`), `Iter`, `Refine`, `IterSame`
  (iteration while values are replaced), `Acyclic` (freed nodes
  have no cycles), `Leak`, `Needs` (how many nodes a set of prefixes needs), `Crowd` (what `2^31 + 1` prefixes do to a tree of width 32), `Viol32` (a history on which tree32 fails).
* `GTree`: `Refine`, `Free` (`findFree`), `RoomProps` (histories of tree32 that never need more than `2^32` nodes).
* `Conc`: `Lang` (goroutines, RWMutex, histories), `Model`, `Tables`, `TreeModel` (the code), `Sim` (every execution
  is simulated by one in which critical sections are atomic), `Realize` (the converse), `Methods` (the methods of the
  index table are critical sections), `Trace`, `Paths` (facts about atomic executions), `Safe` (races, deadlocks),
  `Rely` (invariants for accesses without lock), `Lin` (linearization points), `Claims`, `Points`, `Sched` (executions from a schedule),
  `Solo` (a call that overlaps with no other one may as well hold the lock), `TreePend` and `TreeSync` (where the calls of
  the trees take effect), `Term` (steps of calls in progress are well-founded), `Reads` and `Seen` (what a call finds at which moments).
* `Alloc`: repeated allocation, for all kinds of tables.
* `Tests`: the tests and the demo program of the repository.

When the code violates a property, the negation is proved with a witness (`Cxx_..._violated`), and what does hold is
proved as `Cxx_..._partial`, whose comment says what is missing.

## What the proofs found

* `idxtable`: `FindFreeRange` returns other ids than requested in five ways (`C07`); a table of size 0 accepts every id
  (`C14`); an iterator reads the live map and delivers nil for released ids (`C13`); `GetAll` locks twice and deadlocks
  with a writer (`C62`).
* `tableN`: `New(0, max)` computes the size 0, nothing can be allocated (`C17`); entries of `Get` carry the index
  instead of the id (`C18`); `GetByLabel` of a concurrent table races and panics (`C74`, `C75`); `ClaimFree` fails although ids
  are free (`C76`); these two are the only obstacles to linearizability (`C79`).
* `iptable`: ranges of `2^64` addresses are of size 0 (`C65`), larger ones share slots (`C22`, `C61`); `FindFree` of a range
  that contains nothing returns an address (`C113`).
* `idN`: `Next` of the largest id is 1 (`C29`), so merging ranges fails at the end of the space (`C36`); id64 computes
  `subOne` in 32 bits, has a wrong mask for length 0 and rejects lengths above 32 (`C29`–`C41`); too long prefixes panic
  (`C66`, `C67`).
* `tree`: for W = 64 all values of the tree share their keys (`C42`, `C50`); for W = 32 nodes `x` and `x + 2^32` do, which happens as soon as `2^31 + 1` prefixes are stored; `Clone`
  loses the width and the bit function (`C49`, `C71`).
* `treeN`: tree64 does not work at all (`C52`–`C57`, `C70`): it has one entry for all prefixes (`C92`); `Parents` returns children (`C56`); `ClaimRange` accepts
  inverted ranges and ids beyond the size (`C58`); `findFree` of tree32 starts with the wrong prefix, and ids below a
  claimed prefix are handed out (`C57`); `ClaimFree` is not atomic (`C63`); many methods take no lock (`C77`); `Get`,
  `Children`, `Parents` lock twice (`C78`); `GetAll` and the like panic or miss entries while others change the tree (`C80`).
  `ReleaseByLabel` can release an entry and miss one that was claimed earlier (`C81`). `ClaimID`, `Update` and `ClaimRange`
  replace claimed entries without complaint (`C82`); `ClaimFree` chooses the smallest free block, not the lowest id (`C83`).
  A loop over the iterator of a tree that releases or claims entries panics or skips entries (`C85`). A loop beside a
  goroutine that releases and claims two prefixes again and again need not end (`C108`); otherwise it does (`C107`).
* The test of `tree64` fails, in every map order (`C88`). The other tests pass on the model, in every order.
* `GetByLabel` of the IP table may return an entry that is not selected, if it is updated meanwhile (`C94`). `table16` lists
  its ids as 32 bit ids (`C95`).
* `Equal` of two entries compares the labels by their `String`, in which commas and equals signs are not escaped (`C98`).
* A tree called with ids of another package stores them twice, and panics (`C102`). `mergeRanges` does not merge ranges that
  touch at an id returned by `IDs` (`C103`). The methods of an iterator of the index table panic before `Next` (`C105`);
  `Value` reads the table without a lock (`C106`).
* Tables and trees keep the label map of the caller; changing it later changes the entry (`C84`).

## Properties

| id | modelled | proof |
|----|----------|-------|
| C01 C03 C04 C12 | `table` = size + GoMap; every method a function `State -> State x Result` | case analysis on the method, GoMap lemmas |
| C02 C09 | same, plus an inductive type of calls and a spec on functions `Nat -> Option a` | refinement, induction over the call list |
| C05 C06 C11 | `iterateFree` as the filtered range, iterator with its wrapping uint64 cursor | cursor loop = list recursion, then sortedness of the free list |
| C07 C08 | `findFreeRange` as written (switch, `IsConsecutive`, wrapping `start+size-1`) | C07 is false: witnesses; exact conditions as partial. C08 by invariant of the loop |
| C10 | map order is an explicit permutation parameter | sorted permutations are unique |
| C13 C14 | iterator reads the live map; `size-1` wraps | violated: witnesses, partial versions |
| C15-C21 C95 | one model for the three widths on top of the idxtable model | refinement through the index bijection |
| C22-C26 C65 | addresses as 32/128 bit values, big.Int as Int, parser a parameter | arithmetic on Nat/Int |
| C27-C31 C51 | BitVec ids, literal mask tables | tables checked entry by entry, then bit extensionality |
| C32 C33 | `appendRangeIDs` by recursion | induction on the common prefix length; blocks as Nat intervals |
| C34 | strings as lists of bytes | digit induction |
| C35-C41 C66 C67 | lists of ranges, `mergeRanges`, `normalize` loop, builder state | loop invariants; sets of naturals as spec |
| C42-C50 C68 C69 C72 | node array, free list, value map with 64 bit keys, explicit capacity | representation predicate to an inductive tree over bit lists |
| C52-C60 C70 C71 | wrappers on top of the tree, set builder | corollaries of the tree refinement and of C36, C40 |
| C82 C83 | same | effect of `Set`; induction over the calls on a new tree |
| C90 | same | the recursion of C32 without the order of the ends |
| C91 | same | C57 without its hypotheses; best fit blocks are unique |
| C92 | same | all value keys are 0 for width 64: an invariant with one shared cell |
| C96 C97 | the models of the tables and trees | states with the same size and the same map content cannot be told apart; `Get` shows the whole content |
| C120 | the tree16 and the tree32 model | the map of the tree32 is that of the tree16 with 16 zeros before each prefix; C91 and C83 say which id ClaimFree chooses |
| C121 | the ranged table and the tree models | the map of the tree has the entries of the table's map under the prefixes of full length; the order of these prefixes is that of the ids |
| C126 | the ranged table and the tree models; the client of `GTree/WrapProps.lean`, which is not code of the repository | each call of the client makes a step of the table's specification, which fixes the reply |
| C122 | `IPTable/Text.lean` (`ParseAddr`, `String`), IP table model | loops over the characters; the groups of an IPv6 text are those of the number, with the longest run of zeros elided |
| C123 | the loops of the tree model, with the number of rounds counted or as a parameter | rounds of a walk through a tree: one per node with values, two per edge; at most two nodes per prefix |
| C125 | the concurrent programs of the tables; an access is an action on the memory | runs of a program whatever the memory is at each access; the accesses of a call in an execution are those of such a run |
| C124 | `IPTable/Text.lean` (`ParseAddr`), IP table model | the grammar in `Text6.lean`; the loop over the groups reads exactly the texts of the grammar |
| C98 | `labels.Set` as a map of byte strings, `String` from its documentation | the joined text can be cut at commas and equals signs |
| C99 C100 | the tree model; buffers as lists with a capacity | refinement to lists; the result does not depend on the buffer |
| C101 | length and capacity of the node array | each stored prefix needs two nodes; the free list is used first |
| C107 C108 | the tree model; rounds of an iterator between changes | the links of freed nodes, too, lead down a rank; a cycle of states |
| C102 | ids of any package, by their common interface | computed for each pair of packages |
| C127 | the range and set builder models | the requests of the builder (C36); ranges that do not overlap are never cut; canonical lists with the same ids are equal |
| C128 | the models of the tables and the trees | the claims give the same `Get` replies; by C96 nothing else matters |
| C129 | the models of the tables and the trees | releases remove and add nothing; an empty table replies to `Get` as a new one, and by C96 nothing else matters |
| C130 | the models of the tables and the trees | both orders of calls give the same map; by C96 nothing else matters |
| C131 | the model of the trees | releases filter the map; filters compose; by C96 nothing else matters |
| C132 | the models of the ids and of the trees | a minimal decomposition of a block is the block itself; ids beyond the length have no bits behind their length |
| C103 | ranges with a flag for pointers, any sorting function | the loop invariants of C36 with a gap of 0 before a pointer |
| C104 | `%d` of structs as in the documentation of fmt | the text can be cut at the first space and brace |
| C109 C110 | the texts of `fmt.Errorf`, by a second set of functions that follow the methods | texts can be read in one way; the refinements say when they are true |
| C111 | the same; joined errors as lists of lines, `%q` a parameter | induction over the calls; lines contain no newline |
| C105 | sessions of calls on an iterator and its table | the cursor counts the calls of `Next` |
| C106 | the same in goroutines | moments of the history at which the calls of a goroutine find the table |
| C117 | two ranged tables | the specification of C15 is preserved by the shift and deterministic |
| C118 | two IP tables, and a table64 | the index tables inside stay equal, for every size; for the table64 the specifications of C15 and C23 |
| C85 | the loop of the client as a function of the tree and the iterator | the iterator only sees links and counts, which updates keep |
| C86 | `%d` as digits | numerals are unambiguous and contain no slash |
| C84 | labels as references into a memory that the client may write | the entry is the reference passed |
| C61 C64 C73 | goroutines as step machines, RWMutex with waiting writers | simulation by executions with atomic critical sections |
| C62 C78 | same | a reachable deadlock; without nested read locks, or without writers, some goroutine can always move |
| C93 | same; steps of calls in progress | the absence of deadlocks; each loop of the trees without lock has a measure that only writes of others raise |
| C74 C75 C76 | tables as programs on the locked index table | reachable bad states; rely invariants for what holds |
| C94 | same | what a call returns follows from the memories it has read, each at a moment during the call |
| C79 | same | each call takes effect at one of its sections, found by a predicate on the rest of its program |
| C80 | trees, each round of the iterator a step | schedules computed by the kernel; without writers a program computes what it computes alone |
| C119 | trees, each round of the iterator a step | replacing an entry keeps the shape of the node array, which alone decides where the iterator goes; what the call returns follows from the trees it has read, each at a moment during the call |
| C81 | trees | atomic order of critical sections; a `ReleaseID` whose entry was replaced is put before the call that replaced it |
| C87 | trees | the same order; a call that no changing call overlaps with runs on the tree as it is, like alone |
| C116 | trees, also tree64 | the calls in the order of their last critical section; no property of the tree is used. For tree64 every call is then replaced by its effect on the shared entry (C92) |
| C88 C89 | tests and demo as programs on the models | computed by the kernel for each order of the maps; C89 from the refinement and C83 |
| C63 C77 | trees as programs on critical sections | reachable bad states; the log of sections as a run of the sequential model |

## Axioms

Output of `#print axioms`, names without the prefix `Verif.`.

No axioms:

* IdxTable: `C12_isFree_not_has`

`Quot.sound`, `propext`:

* IdxTable: `C13_snapshot_violated`, `C14_zero_capacity_violated`, `C105_iterator_any_order_violated`
* Ranged: `C18_get_own_id_violated`
* Id: `C29_prev64_violated`, `C30_mask64_violated`, `C31_rangeOfID64_violated`, `C32_ids64_violated`,
  `C33_ids64_violated`, `C40_removeFreePrefix64_violated`, `C41_ids64_violated`, `C67_long_length_partial`,
  `C103_pointer_ids_violated`, `C127_ids64_violated`, `C111_isZero64_violated`
* Tree: `C42_tree64_violated`, `C47_violated`, `C48_violated`, `C49_violated`, `C50_tree64_violated`,
  `C51_merge_inverts_shift`, `C68_long_length_violated`, `C68_delete_violated`, `C69_tree64_violated`,
  `C100_vals_buffer`, `C100_delete_buffer`, `C102_foreign_ids_violated`, `C108_endless_violated`
* GTree: `C52_tree64_violated`, `C53_outside_violated`, `C53_tree64_violated`, `C54_tree64_violated`,
  `C55_tree64_violated`, `C56_parents_violated`, `C57_tree64_violated`, `C58_claimRange_violated`, `C71_clone_violated`,
  `C85_release_violated`, `C85_claim_violated`, `C85_omits_violated`, `C96_tree64_violated`, `C128_tree_violated`,
  `C128_tree64_violated`, `C129_tree64_violated`, `C130_tree64_violated`, `C131_tree64_violated`,
  `C132_tree64_violated`, `C97_tree64_violated`, `C97_tree_reclaim_violated`, `C112_tree64_violated`,
  `C120_tree64_violated`, `C121_tree64_violated`, `C126_unchecked_violated`, `C126_tree64_violated`
* Conc: `C62_index_deadlock_violated`, `C62_ranged_deadlock_violated`, `C73_index_no_race`, `C74_ranged_race_violated`,
  `C75_ranged_panic_violated`, `C77_iterate_race_violated`, `C77_clone_race_violated`, `C77_claimRange_race_violated`,
  `C78_tree_deadlock_violated`, `C79_ranged_getByLabel_violated`, `C80_entry_violated`, `C80_size_violated`,
  `C80_omits_violated`, `C81_getAll_violated`, `C81_claimRange_violated`, `C119_label_violated`, `C93_index_violated`,
  `C93_ranged_violated`, `C93_tree_violated`, `C106_race_violated`, `C106_nil_violated`
* Tests: `C88_tree64_violated`, `C88_tree16_partial`, `C88_tree32_partial`

`Classical.choice`, `Quot.sound`, `propext`:

* IdxTable: `C01_claim_exclusive`, `C02_refines_partial_map`, `C02_spec_deterministic`, `C02_replies_unique`,
  `C03_release`, `C04_update`, `C05_claimDynamic_smallest`, `C06_claimSize`, `C06_claimSize_zero`,
  `C07_single_violated`, `C07_gap_violated`, `C07_end_violated`, `C07_start_violated`, `C07_wrap_violated`,
  `C07_free_window_partial`, `C07_detectable_partial`, `C07_exact_behaviour_partial`, `C08_claimRange_safe`,
  `C09_bounds_and_size`, `C10_iteration_complete`, `C11_free_iteration`, `C12_observers_agree`,
  `C13_snapshot_keys_partial`, `C14_zero_capacity_partial`, `C14_zero_capacity_exact_partial`,
  `C105_iterator_session_partial`, `C96_index`, `C128_index`, `C129_index`, `C130_index`, `C97_index_commute`,
  `C97_index_undo`, `C109_one_reading`, `C109_fails`, `C109_true_partial`, `C109_range_partial`, `C109_inUse_violated`,
  `C109_bound_violated`, `C109_single_violated`, `C109_zero_violated`, `C110_names_id`
* Ranged: `C15_ranged_partial_map`, `C15_spec_deterministic`, `C16_findFree_lowest`, `C17_full_range_violated`,
  `C17_full_range_has_free`, `C17_full_range_partial`, `C17_full_range_exact_partial`, `C18_get_offset_partial`,
  `C19_getAll_external`, `C20_getByLabel_filter`, `C21_inverted_rejects`, `C21_findFree_inverted`,
  `C95_lengths_partial`, `C95_table16_violated`, `C115_widths_partial`, `C115_full_violated`, `C117_shift`,
  `C84_ranged_violated`, `C84_ranged_partial`, `C96_ranged`, `C128_ranged`, `C129_ranged`, `C130_ranged`,
  `C97_ranged_commute`, `C97_ranged_undo`, `C109_ranged_fails`, `C109_ranged_partial`, `C109_ranged_violated`,
  `C109_full_violated`, `C110_ranged_partial`, `C110_ranged_violated`
* Alloc: `C114_idx`, `C114_ranged`, `C114_ip`, `C114_tree`, `C122_allocate_all`
* IPTable: `C22_shared_slot_violated`, `C22_distinct_slots_partial`, `C22_slots_exact_partial`, `C23_ip_partial_map`,
  `C23_spec_deterministic`, `C23_run_deterministic`, `C24_findFree_lowest`, `C25_out_of_range_rejected`,
  `C26_getAll_sorted`, `C65_slash64_findFree_violated`, `C65_slash64_has_free`, `C65_slash64_partial`,
  `C113_refuses_partial`, `C113_findFree_exact`, `C113_findFree_violated`, `C118_place`, `C118_offsets`,
  `C122_text_round_trip`, `C122_text_injective`, `C122_v4_text`, `C122_v4_table`, `C122_findFree_claim`, `C124_v6_text`,
  `C124_one_reading`, `C124_v6_table`, `C124_same_address`, `C84_ip_violated`, `C84_ip_partial`, `C96_ip`, `C128_ip`,
  `C129_ip`, `C130_ip`, `C97_ip_commute_partial`, `C97_ip_commute_violated`, `C97_ip_undo`, `C97_ip_slots_partial`,
  `C109_ip_fails`, `C109_ip_partial`, `C109_ip_violated`, `C109_slash64_violated`, `C110_ip_partial`,
  `C110_ip_violated`, `C110_ip_slots_partial`, `C110_ip_slots_violated`
* Id: `C27_overlaps`, `C28_compare_total_order`, `C29_next_max_violated`, `C29_next_prev_partial`, `C29_exact_partial`,
  `C30_mask`, `C30_mask64_partial`, `C30_mask64_zero_partial`, `C31_lastID`, `C31_rangeOfID`, `C31_rangeOfID64_partial`,
  `C31_rangeOfID64_zero_partial`, `C32_ids_partition`, `C32_ids64_partial`, `C32_ids64_wrong_violated`,
  `C33_ids_minimal`, `C33_ids64_partial`, `C34_parseRange`, `C34_numeral_deterministic`, `C35_positions`,
  `C35_switch_exhaustive`, `C36_full_range_violated`, `C36_remove64_violated`, `C36_set_algebra_partial`,
  `C36_set_algebra64_partial`, `C36_builder_exact_partial`, `C36_builder_exact64_partial`, `C36_union_exact_partial`,
  `C37_canonical`, `C37_unique`, `C37_order_irrelevant`, `C37_canonical64_violated`, `C37_canonical64_partial`,
  `C37_adds_commute`, `C38_no_panic`, `C38_panic64_violated`, `C38_no_panic64_partial`, `C39_invalid_reported`,
  `C39_invalid_reported64_partial`, `C40_removeFreePrefix`, `C40_removeFreePrefix64_partial`,
  `C40_removeFreePrefix64_exact_partial`, `C41_ids_cover`, `C41_ids64_partial`, `C66_long_prefix_violated`,
  `C67_long_length_violated`, `C103_pointer_ids_partial`, `C103_pointer_ids64_partial`, `C127_ranges`, `C127_texts`,
  `C127_ids_partial`, `C127_ids64_partial`, `C127_removed`, `C127_removed_ids_partial`, `C127_removed_ids64_partial`,
  `C86_string`, `C90_ids`, `C90_ids64_partial`, `C90_ids64_violated`, `C111_parseRange`, `C111_builder`,
  `C111_builder_fails`, `C111_one_reading`, `C111_ids_silent`, `C111_isZero`
* Tree: `C42_tree16_is_map`, `C42_tree32_is_map_partial`, `C42_tree32_few_partial`, `C42_tree32_half_partial`,
  `C42_tree32_violated`, `C43_no_panic`, `C44_iteration`, `C45_compressed_no_leak`, `C46_no_realloc`,
  `C47_delete_partial`, `C47_delete_exact_partial`, `C48_set_new_partial`, `C48_set_new`, `C48_set_exact_partial`,
  `C49_clone_partial`, `C49_clone_visit_partial`, `C50_no_interference_partial`, `C50_tree16_violated`,
  `C68_twice_violated`, `C68_panic_violated`, `C69_vals_no_leak`, `C69_empty`, `C69_vals_no_leak_partial`, `C72_add`,
  `C99_multimap_partial`, `C100_delete_buffer_written`, `C101_memory`, `C101_kept`, `C102_own_ids_partial`, `C107_next`,
  `C107_loop`, `C107_bound`, `C108_claims_partial`, `C123_iteration`, `C123_add`, `C123_delete`, `C112_counts`
* GTree: `C68_release_violated`, `C68_claimFree_violated`, `C69_gtree_partial`, `C123_tree`, `C123_tree64`,
  `C52_claim_get_partial`, `C52_tree32_violated`, `C53_release_partial`, `C54_releaseByLabel_partial`,
  `C55_children_partial`, `C56_parents_partial`, `C57_sound_partial`, `C57_claimFree_partial`,
  `C57_claimFree32_partial`, `C57_covered_violated`, `C57_full32_violated`, `C57_short32_violated`,
  `C57_outside32_violated`, `C57_long32_partial`, `C92_claimFree_violated`, `C58_claimRange_partial`,
  `C59_queries_partial`, `C60_new`, `C70_no_panic16`, `C70_no_panic_partial`, `C70_history32_partial`,
  `C71_clone_partial`, `C71_clone_hollow_partial`, `C71_clone_hollow64_partial`, `C82_claim_violated`,
  `C82_update_violated`, `C82_claimRange_violated`, `C82_claim_partial`, `C83_lowest_violated`, `C83_bestFit_partial`,
  `C83_count_partial`, `C83_countLong32_partial`, `C84_tree_violated`, `C84_tree_partial`, `C85_updates_partial`,
  `C90_claimRange_partial`, `C91_claimFree_partial`, `C92_exact_partial`, `C92_overlaps_partial`, `C92_claim_violated`,
  `C92_release_violated`, `C96_tree_partial`, `C128_tree_partial`, `C132_rebuild_partial`, `C129_tree_partial`,
  `C130_tree_partial`, `C131_tree_partial`, `C132_tree_partial`, `C97_tree_commute_partial`, `C97_tree_undo_partial`,
  `C98_equal_partial`, `C98_equal_violated`, `C104_string`, `C104_string_packages`, `C112_nodes`, `C112_one_reading`,
  `C112_values_partial`, `C112_freed_violated`, `C120_widths_partial`, `C120_claimFree_violated`,
  `C121_tree_as_table_partial`, `C121_one_id_violated`, `C121_long_violated`, `C126_table_on_tree_partial`,
  `C109_tree_fails`, `C109_tree_new`, `C109_tree_partial`, `C109_tree_violated`, `C110_tree`, `C111_claimRange`,
  `C111_claimFree`
* Conc: `C61_index_exclusive`, `C61_ranged_exclusive`, `C61_ip_exclusive_partial`, `C61_ip_exclusive_violated`,
  `C61_ip_slots_partial`, `C62_index_no_deadlock_partial`, `C62_ranged_no_deadlock_partial`,
  `C62_ip_no_deadlock_partial`, `C62_index_readers_partial`, `C62_ranged_readers_partial`, `C62_ip_readers_partial`,
  `C64_index_linearizable`, `C64_index_sequential`, `C74_ranged_no_race_partial`, `C74_ip_race_violated`,
  `C74_ip_no_race_partial`, `C75_ranged_no_panic_partial`, `C75_ip_panic_violated`, `C75_ip_no_panic_partial`,
  `C76_claimFree_fails_violated`, `C76_claimFree_partial`, `C63_overlapping_violated`, `C63_claimFree_partial`,
  `C77_no_race_partial`, `C78_tree_no_deadlock_partial`, `C78_tree_readers_partial`, `C79_ranged_claimFree_violated`,
  `C79_ip_getByLabel_violated`, `C79_ranged_linearizable_partial`, `C79_ranged_weak_partial`,
  `C79_ip_linearizable_partial`, `C79_ip_weak_partial`, `C79_full_range_partial`, `C79_ip_slots_partial`,
  `C80_reads_partial`, `C81_claimFree_violated`, `C81_releaseByLabel_violated`, `C81_linearizable_partial`,
  `C81_weak_partial`, `C119_replaced_partial`, `C119_moments`, `C87_linearizable`, `C87_mixed`, `C116_atomic`,
  `C116_tree64`, `C93_index_partial`, `C93_ranged_partial`, `C93_ip_partial`, `C93_tree_partial`,
  `C93_tree_loops_partial`, `C93_tree_plain_partial`, `C94_ranged`, `C94_ranged_sound`, `C94_ranged_complete`,
  `C94_ip_partial`, `C94_ip_sound_partial`, `C94_ip_complete`, `C94_ip_unselected_violated`, `C94_ip_slots_partial`,
  `C94_ip_slots_routes_partial`, `C106_session_partial`, `C106_free_session_partial`, `C106_order_partial`,
  `C106_no_race_partial`, `C106_no_deadlock_partial`, `C106_no_nil_partial`, `C125_findFree_violated`,
  `C125_idx_partial`, `C125_ranged_partial`, `C125_ip_partial`
* Tests: `C88_idxtable_partial`, `C88_tables_partial`, `C88_iptable_partial`, `C89_demo`
