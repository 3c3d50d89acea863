{
 "claims": [
  {
   "property": "C01",
   "status": "partial",
   "theorems": [
    "BwTree.Props.C01_linearizable_partial",
    "BwTree.Props.C01_addresses_partial",
    "BwTree.Props.C01_refines_partial",
    "BwTree.Props.C01_enabled_partial",
    "BwTree.Props.C01_false"
   ],
   "note": "Missing for the full property: executions in which a thread reaches one of the events of C08-C10 (a node of the wrong level, an empty ancestor stack, a null pointer), which the code does not exclude; the model halts that thread there. Otherwise for every number of threads, schedule, fuel, and configuration satisfying CfgOK2; trees start empty or bulkloaded (with variable-length keys: into one leaf). The theorems with addresses (memory reuse, CAS on addresses) leave out SiblingScan without a guard, or give it one (C37). Beyond those events it is false: C01_false, a Read that returns a page ID."
  },
  {
   "property": "C02",
   "status": "partial",
   "theorems": [
    "BwTree.Props.C02_insert_partial"
   ],
   "note": "Missing for the full property: executions in which a thread reaches one of the events of C08-C10 (a node of the wrong level, an empty ancestor stack, a null pointer), which the code does not exclude; the model halts that thread there. Otherwise for every number of threads, schedule, fuel, and configuration satisfying CfgOK2; trees start empty or bulkloaded (with variable-length keys: into one leaf)."
  },
  {
   "property": "C03",
   "status": "partial",
   "theorems": [
    "BwTree.Props.C03_update_delete_partial"
   ],
   "note": "Missing for the full property: executions in which a thread reaches one of the events of C08-C10 (a node of the wrong level, an empty ancestor stack, a null pointer), which the code does not exclude; the model halts that thread there. Otherwise for every number of threads, schedule, fuel, and configuration satisfying CfgOK2; trees start empty or bulkloaded (with variable-length keys: into one leaf)."
  },
  {
   "property": "C04",
   "status": "partial",
   "theorems": [
    "BwTree.Props.C04_write_partial"
   ],
   "note": "Missing for the full property: executions in which a thread reaches one of the events of C08-C10 (a node of the wrong level, an empty ancestor stack, a null pointer), which the code does not exclude; the model halts that thread there. Otherwise for every number of threads, schedule, fuel, and configuration satisfying CfgOK2; trees start empty or bulkloaded (with variable-length keys: into one leaf)."
  },
  {
   "property": "C05",
   "status": "partial",
   "theorems": [
    "BwTree.Props.C05_smo_keeps_contents_partial"
   ],
   "note": "Missing for the full property: executions in which a thread reaches one of the events of C08-C10 (a node of the wrong level, an empty ancestor stack, a null pointer), which the code does not exclude; the model halts that thread there. Otherwise for every number of threads, schedule, fuel, and configuration satisfying CfgOK2; trees start empty or bulkloaded (with variable-length keys: into one leaf)."
  },
  {
   "property": "C06",
   "status": "partial",
   "theorems": [
    "BwTree.Props.C06_stores_lose_nothing_partial"
   ],
   "note": "Missing for the full property: executions in which a thread reaches one of the events of C08-C10 (a node of the wrong level, an empty ancestor stack, a null pointer), which the code does not exclude; the model halts that thread there. Otherwise for every number of threads, schedule, fuel, and configuration satisfying CfgOK2; trees start empty or bulkloaded (with variable-length keys: into one leaf)."
  },
  {
   "property": "C07",
   "status": "proved",
   "theorems": [
    "BwTree.Props.C07_total",
    "BwTree.Props.C07_answers",
    "BwTree.Props.C07_call_ends",
    "BwTree.Props.C07_session_run",
    "BwTree.Props.C07_sequential_partial",
    "BwTree.Props.C07_no_event",
    "BwTree.Props.C07_moves"
   ],
   "note": "Every finite sequence of calls runs to its end and returns what the map returns, on the empty tree and on a bulkloaded one. Ending is shown for configurations in which a page stays clear of the merge threshold after a split (Roomy; the default configuration is one) and, in C07_call_ends, without spurious failures of compare-and-swap (with them: C71); the answers are right for every configuration (CfgOK2) and with spurious failures (C07_sequential_partial). Sequential model of the fixed-length layout."
  },
  {
   "property": "C08",
   "status": "partial",
   "theorems": [
    "BwTree.Props.C08_false",
    "BwTree.Props.C08_target_missed",
    "BwTree.Props.C08_same_root_partial",
    "BwTree.Props.C08_no_mark_partial",
    "BwTree.Props.C08_C10_events_partial",
    "BwTree.Props.C07_no_event"
   ],
   "note": "the code violates it (not with a single thread); the witness is a schedule of two threads, and one of three threads without any merge. The partial theorems cover a call during which the root pointer stays the same, or during which no page carries a removal mark; the other calls of the execution are arbitrary."
  },
  {
   "property": "C09",
   "status": "partial",
   "theorems": [
    "BwTree.Props.C09_false",
    "BwTree.Props.C09_C10_no_mark_partial",
    "BwTree.Props.C09_same_root_partial",
    "BwTree.Props.C08_C10_events_partial",
    "BwTree.Props.C07_no_event"
   ],
   "note": "the code violates it (not with a single thread), with the default configuration. The partial theorems cover a call during which the root pointer stays the same, or during which no page carries a removal mark; the other calls of the execution are arbitrary."
  },
  {
   "property": "C10",
   "status": "partial",
   "theorems": [
    "BwTree.Props.C10_false",
    "BwTree.Props.C09_C10_no_mark_partial",
    "BwTree.Props.C08_C10_events_partial",
    "BwTree.Props.C07_no_event"
   ],
   "note": "the code violates it (not with a single thread). The partial theorems cover a call during which the root pointer stays the same, or during which no page carries a removal mark; the other calls of the execution are arbitrary."
  },
  {
   "property": "C11",
   "status": "partial",
   "theorems": [
    "BwTree.Props.C11_increasing_partial",
    "BwTree.Props.C12_scan_total"
   ],
   "note": "Missing for the full property: executions in which a thread reaches one of the events of C08-C10 (a node of the wrong level, an empty ancestor stack, a null pointer), which the code does not exclude; the model halts that thread there. Otherwise for every number of threads, schedule, fuel, and configuration satisfying CfgOK2; trees start empty or bulkloaded (with variable-length keys: into one leaf). For one thread without proviso: C12_scan_total."
  },
  {
   "property": "C12",
   "status": "partial",
   "theorems": [
    "BwTree.Props.C12_intervals_partial",
    "BwTree.Props.C12_loop",
    "BwTree.Props.C12_scan_total",
    "BwTree.Props.C12_scan_exact"
   ],
   "note": "Missing for the full property: executions in which a thread reaches one of the events of C08-C10 (a node of the wrong level, an empty ancestor stack, a null pointer), which the code does not exclude; the model halts that thread there. Otherwise for every number of threads, schedule, fuel, and configuration satisfying CfgOK2; trees start empty or bulkloaded (with variable-length keys: into one leaf). For one thread without proviso: every scan ends and yields exactly the records of the map in the range (C12_scan_exact). C12_loop: the client loop over one iterator yields exactly the records of its node visits, in order."
  },
  {
   "property": "C13",
   "status": "partial",
   "theorems": [
    "BwTree.Props.C13_begin_partial",
    "BwTree.Props.C13_false",
    "BwTree.Props.C12_scan_total"
   ],
   "note": "the code violates it when the open begin key equals a leaf separator; the partial theorem says what holds. Missing for the full property: executions in which a thread reaches one of the events of C08-C10 (a node of the wrong level, an empty ancestor stack, a null pointer), which the code does not exclude; the model halts that thread there. Otherwise for every number of threads, schedule, fuel, and configuration satisfying CfgOK2; trees start empty or bulkloaded (with variable-length keys: into one leaf)."
  },
  {
   "property": "C14",
   "status": "partial",
   "theorems": [
    "BwTree.Props.C14_end_partial",
    "BwTree.Props.C12_scan_total"
   ],
   "note": "Missing for the full property: executions in which a thread reaches one of the events of C08-C10 (a node of the wrong level, an empty ancestor stack, a null pointer), which the code does not exclude; the model halts that thread there. Otherwise for every number of threads, schedule, fuel, and configuration satisfying CfgOK2; trees start empty or bulkloaded (with variable-length keys: into one leaf)."
  },
  {
   "property": "C15",
   "status": "proved",
   "theorems": [
    "BwTree.Props.C15_chain_read_eq_consolidated_read"
   ],
   "note": ""
  },
  {
   "property": "C16",
   "status": "proved",
   "theorems": [
    "BwTree.Props.C16_consolidation_exact"
   ],
   "note": ""
  },
  {
   "property": "C17",
   "status": "proved",
   "theorems": [
    "BwTree.Props.C17_record_search_exact"
   ],
   "note": ""
  },
  {
   "property": "C18",
   "status": "proved",
   "theorems": [
    "BwTree.Props.C18_child_search_routes"
   ],
   "note": ""
  },
  {
   "property": "C19",
   "status": "proved",
   "theorems": [
    "BwTree.Props.C19_split_partitions"
   ],
   "note": ""
  },
  {
   "property": "C20",
   "status": "partial",
   "theorems": [
    "BwTree.Props.C20_size_exact_partial"
   ],
   "note": "Missing for the full property: executions in which a thread reaches one of the events of C08-C10 (a node of the wrong level, an empty ancestor stack, a null pointer), which the code does not exclude; the model halts that thread there. Otherwise for every number of threads, schedule, fuel, and configuration satisfying CfgOK2; trees start empty or bulkloaded (with variable-length keys: into one leaf)."
  },
  {
   "property": "C21",
   "status": "partial",
   "theorems": [
    "BwTree.Props.C21_chains_bounded_partial"
   ],
   "note": "Missing for the full property: executions in which a thread reaches one of the events of C08-C10 (a node of the wrong level, an empty ancestor stack, a null pointer), which the code does not exclude; the model halts that thread there. Otherwise for every number of threads, schedule, fuel, and configuration satisfying CfgOK2; trees start empty or bulkloaded (with variable-length keys: into one leaf)."
  },
  {
   "property": "C22",
   "status": "partial",
   "theorems": [
    "BwTree.Props.C22_nodes_fit_partial",
    "BwTree.Props.C22_false"
   ],
   "note": "the code violates it for variable-length keys close to a quarter of a page (the static assertion allows them); proved for fixed-length keys and for the default limits of variable-length keys. Missing for the full property: executions in which a thread reaches one of the events of C08-C10 (a node of the wrong level, an empty ancestor stack, a null pointer), which the code does not exclude; the model halts that thread there. Otherwise for every number of threads, schedule, fuel, and configuration satisfying CfgOK2; trees start empty or bulkloaded (with variable-length keys: into one leaf)."
  },
  {
   "property": "C23",
   "status": "partial",
   "theorems": [
    "BwTree.Props.C23_bulk_leaf_partial",
    "BwTree.Props.C23_false"
   ],
   "note": "The code violates it: a bulkloaded leaf does not count its lowest key. Witness with the default page size and 100-byte keys."
  },
  {
   "property": "C24",
   "status": "partial",
   "theorems": [
    "BwTree.Props.C24_metadata_lossless_partial",
    "BwTree.Props.C24_false_for_large_pages"
   ],
   "note": "holds for pages up to 32 KiB; false above (offset cast to 16 bits)"
  },
  {
   "property": "C25",
   "status": "proved",
   "theorems": [
    "BwTree.Props.C25_page_ids_unique"
   ],
   "note": ""
  },
  {
   "property": "C26",
   "status": "proved",
   "theorems": [
    "BwTree.Props.C26_ids_resolve"
   ],
   "note": ""
  },
  {
   "property": "C27",
   "status": "partial",
   "theorems": [
    "BwTree.Props.C27_directory_bound_partial",
    "BwTree.Props.C27_false"
   ],
   "note": "the code violates it: directory of 504 entries checked against 512"
  },
  {
   "property": "C28",
   "status": "partial",
   "theorems": [
    "BwTree.Props.C28_destructor_partial",
    "BwTree.Props.C28_false"
   ],
   "note": "the code violates it: nothing is released while the first table is in use"
  },
  {
   "property": "C29",
   "status": "partial",
   "theorems": [
    "BwTree.Props.C29_statistics_partial",
    "BwTree.Props.C29_false"
   ],
   "note": "reserved bytes exact; used bytes are one word too many"
  },
  {
   "property": "C30",
   "status": "proved",
   "theorems": [
    "BwTree.Props.C30_contents"
   ],
   "note": "If Bulkload ends (see C32); page IDs are distinct by C25. New tree; any layout."
  },
  {
   "property": "C31",
   "status": "proved",
   "theorems": [
    "BwTree.Props.C31_shares"
   ],
   "note": ""
  },
  {
   "property": "C32",
   "status": "partial",
   "theorems": [
    "BwTree.Props.C32_bulkload_ends_partial",
    "BwTree.Props.C32_nodes_fit",
    "BwTree.Props.C32_false"
   ],
   "note": "The code violates it: with pages of 1024 bytes and keys of 248 bytes (admitted by the static assertion) index nodes take one entry and the layers never shrink. Holds when two index entries and one record fit into the bulkload capacity (BulkOK); the capacity bound holds always. Both layouts."
  },
  {
   "property": "C33",
   "status": "proved",
   "theorems": [
    "BwTree.Props.C33_levels_linked"
   ],
   "note": "If Bulkload ends (see C32). Both layouts."
  },
  {
   "property": "C34",
   "status": "proved",
   "theorems": [
    "BwTree.Props.C34_comparator_strict_weak_order"
   ],
   "note": ""
  },
  {
   "property": "C35",
   "status": "proved",
   "theorems": [
    "BwTree.Props.C35_log2_floor"
   ],
   "note": ""
  },
  {
   "property": "C36",
   "status": "partial",
   "theorems": [
    "BwTree.Props.C36_programs_partial",
    "BwTree.Props.C36_until_return_partial",
    "BwTree.Props.C36_guarded_memory_partial"
   ],
   "note": "The theorems named programs (and until_return, at_rest) are about all executions of the operation programs on a memory with addresses, reuse and reclamation; the others about the reclamation protocol in any order. Missing: threads that reach an event of C08-C10 stop there; SiblingScan without a guard and CollectStatisticalData (C37_false). Assumes the epoch contract of the external collector."
  },
  {
   "property": "C37",
   "status": "partial",
   "theorems": [
    "BwTree.Props.C37_false",
    "BwTree.Props.C36_programs_partial"
   ],
   "note": "The code violates it: SiblingScan (iterator advance) and CollectStatisticalData take no epoch guard. If SiblingScan took a guard (gn = true in C36_programs_partial and the other theorems with addresses), its memory would be safe."
  },
  {
   "property": "C38",
   "status": "partial",
   "theorems": [
    "BwTree.Props.C38_programs_partial",
    "BwTree.Props.C38_no_leak_at_rest_partial",
    "BwTree.Props.C38_retired_once_partial",
    "BwTree.Props.C38_table_partial",
    "BwTree.Props.C38_no_leak_partial"
   ],
   "note": "The theorems named programs (and until_return, at_rest) are about all executions of the operation programs on a memory with addresses, reuse and reclamation; the others about the reclamation protocol in any order. Missing: threads that reach an event of C08-C10 stop there; SiblingScan without a guard and CollectStatisticalData (C37_false). Assumes the epoch contract of the external collector."
  },
  {
   "property": "C39",
   "status": "partial",
   "theorems": [
    "BwTree.Props.C39_programs_partial",
    "BwTree.Props.C39_unpublished_partial",
    "BwTree.Props.C39_stays_private_partial"
   ],
   "note": "The theorems named programs (and until_return, at_rest) are about all executions of the operation programs on a memory with addresses, reuse and reclamation; the others about the reclamation protocol in any order. Missing: threads that reach an event of C08-C10 stop there; SiblingScan without a guard and CollectStatisticalData (C37_false). Assumes the epoch contract of the external collector."
  },
  {
   "property": "C40",
   "status": "partial",
   "theorems": [
    "BwTree.Props.C40_one_at_a_time_partial",
    "BwTree.Props.C40_separate_pages",
    "BwTree.Props.C40_false"
   ],
   "note": "The code violates it: the node buffer is thread_local and shared by all iterators of the thread. Holds when an iterator is not used after the thread's next Scan; would hold with one buffer per iterator."
  },
  {
   "property": "C41",
   "status": "partial",
   "theorems": [
    "BwTree.Props.C41_root_splits_partial"
   ],
   "note": "Holds as long as no page has been removed. Missing for the full property: executions in which a thread reaches one of the events of C08-C10 (a node of the wrong level, an empty ancestor stack, a null pointer), which the code does not exclude; the model halts that thread there. Otherwise for every number of threads, schedule, fuel, and configuration satisfying CfgOK2; trees start empty or bulkloaded (with variable-length keys: into one leaf)."
  },
  {
   "property": "C42",
   "status": "partial",
   "theorems": [
    "BwTree.Props.C42_false",
    "BwTree.Props.C42_no_wait"
   ],
   "note": "C42_no_wait: between the calls of a single thread no page makes anybody wait and no removal mark or unset word is met. The code violates it: a schedule of two threads after which one thread alone waits forever for the word of the index-delete record it created itself."
  },
  {
   "property": "C43",
   "status": "partial",
   "theorems": [
    "BwTree.Props.C43_merge_check_sound",
    "BwTree.Props.C43_first_child_kept_partial"
   ],
   "note": "Missing for the full property: executions in which a thread reaches one of the events of C08-C10 (a node of the wrong level, an empty ancestor stack, a null pointer), which the code does not exclude; the model halts that thread there. Otherwise for every number of threads, schedule, fuel, and configuration satisfying CfgOK2; trees start empty or bulkloaded (with variable-length keys: into one leaf)."
  },
  {
   "property": "C44",
   "status": "partial",
   "theorems": [
    "BwTree.Props.C44_ranges_disjoint_partial",
    "BwTree.Props.C44_low_fixed_partial"
   ],
   "note": "Missing for the full property: executions in which a thread reaches one of the events of C08-C10 (a node of the wrong level, an empty ancestor stack, a null pointer), which the code does not exclude; the model halts that thread there. Otherwise for every number of threads, schedule, fuel, and configuration satisfying CfgOK2; trees start empty or bulkloaded (with variable-length keys: into one leaf)."
  },
  {
   "property": "C45",
   "status": "partial",
   "theorems": [
    "BwTree.Props.C45_mark_owner_partial"
   ],
   "note": "Missing for the full property: executions in which a thread reaches one of the events of C08-C10 (a node of the wrong level, an empty ancestor stack, a null pointer), which the code does not exclude; the model halts that thread there. Otherwise for every number of threads, schedule, fuel, and configuration satisfying CfgOK2; trees start empty or bulkloaded (with variable-length keys: into one leaf)."
  },
  {
   "property": "C46",
   "status": "partial",
   "theorems": [
    "BwTree.Props.C46_routing_partial"
   ],
   "note": "Missing for the full property: executions in which a thread reaches one of the events of C08-C10 (a node of the wrong level, an empty ancestor stack, a null pointer), which the code does not exclude; the model halts that thread there. Otherwise for every number of threads, schedule, fuel, and configuration satisfying CfgOK2; trees start empty or bulkloaded (with variable-length keys: into one leaf)."
  },
  {
   "property": "C47",
   "status": "partial",
   "theorems": [
    "BwTree.Props.C47_quiet_read_partial",
    "BwTree.Props.C47_one_thread_calm",
    "BwTree.Props.C47_one_thread_read",
    "BwTree.Props.C42_no_wait",
    "BwTree.Props.C72_quiet_read_partial",
    "BwTree.Props.C47_false"
   ],
   "note": "the code violates it: a tree on which all calls have returned and a Read that loops forever. The partial theorem: in every reachable state a Read that runs alone ends with the value in the map if its route meets no removal mark and no unset index-delete word; when no call is active the words are all set (C72)."
  },
  {
   "property": "C48",
   "status": "partial",
   "theorems": [
    "BwTree.Props.C48_addressing_partial",
    "BwTree.Props.C48_false"
   ],
   "note": "The code violates it for page sizes above 4096 bytes that are not powers of two (they compile). Holds for powers of two, for consolidated, scan, bulkloaded and split nodes and new roots, on byte arrays."
  },
  {
   "property": "C49",
   "status": "partial",
   "theorems": [
    "BwTree.Props.C49_counts_partial",
    "BwTree.Props.C49_returns_partial",
    "BwTree.Props.C49_one_thread_indexed",
    "BwTree.Props.C49_one_thread",
    "BwTree.Props.C77_in_order_stat",
    "BwTree.Props.C49_false",
    "BwTree.Props.C49_reserved_false"
   ],
   "note": "For one thread: the statistics end and count every live page exactly once (C49_one_thread); the same after any execution when the tree is quiet and in order (C77_in_order_stat). The code violates the full statement: pages that lost their index entry in a race of root splits are not counted, and nodes hanging from merge records are left out of the virtual usage. Proved: every page below the root (by the index records in force) is counted exactly once at its level, actual <= virtual <= reserved, and virtual = reserved without merge records."
  },
  {
   "property": "C50",
   "status": "partial",
   "theorems": [
    "BwTree.Props.C50_varlen_deltas_fit_partial",
    "BwTree.Props.C50_fixlen_deltas_fit",
    "BwTree.Props.C50_false"
   ],
   "note": "The code violates it in the general layout for maximum key lengths such as 12 or 108 bytes; exact condition proved; proved for all sizes in the fixed-length layout."
  },
  {
   "property": "C51",
   "status": "proved",
   "theorems": [
    "BwTree.Props.C51_varlen_reads_back"
   ],
   "note": "Offsets below 65536 (see C24). Nodes that are not split; byte arrays."
  },
  {
   "property": "C52",
   "status": "partial",
   "theorems": [
    "BwTree.Props.C52_unbounded_parent_partial",
    "BwTree.Props.C52_general_check_sound",
    "BwTree.Props.C52_bounded_parent_never_merges",
    "BwTree.Props.C52_false",
    "BwTree.Props.C52_false_last_child"
   ],
   "note": "The code violates it: sib_key points into the thread-local buffer of DeltaRecord::GetHighKey, which HighKeyIsGE overwrites. A consolidated bounded parent never admits a merge. Holds when the parent has no highest key; a successful check still implies that the entry is present and not the parent's lower bound."
  },
  {
   "property": "C53",
   "status": "partial",
   "theorems": [
    "BwTree.Props.C53_programs_partial",
    "BwTree.Props.C53_no_aba_partial"
   ],
   "note": "The theorems named programs (and until_return, at_rest) are about all executions of the operation programs on a memory with addresses, reuse and reclamation; the others about the reclamation protocol in any order. Missing: threads that reach an event of C08-C10 stop there; SiblingScan without a guard and CollectStatisticalData (C37_false). Assumes the epoch contract of the external collector."
  },
  {
   "property": "C54",
   "status": "partial",
   "theorems": [
    "BwTree.Props.C54_addToGC_partial",
    "BwTree.Props.C54_bulkload_new_partial",
    "BwTree.Props.C54_false"
   ],
   "note": "The code violates it: Bulkload on a tree with a non-empty root chain registers the head delta record as a node page and leaks the rest. AddToGC is right for every well-formed chain; Bulkload is right for a new tree."
  },
  {
   "property": "C55",
   "status": "partial",
   "theorems": [
    "BwTree.Props.C55_word_partial"
   ],
   "note": "The theorems named programs (and until_return, at_rest) are about all executions of the operation programs on a memory with addresses, reuse and reclamation; the others about the reclamation protocol in any order. Missing: threads that reach an event of C08-C10 stop there; SiblingScan without a guard and CollectStatisticalData (C37_false). Assumes the epoch contract of the external collector."
  },
  {
   "property": "C56",
   "status": "partial",
   "theorems": [
    "BwTree.Props.C56_both_halves_partial",
    "BwTree.Props.C56_false"
   ],
   "note": "the code violates it for variable-length keys close to a quarter of a page; proved for fixed-length keys and for the default limits of variable-length keys. Missing for the full property: executions in which a thread reaches one of the events of C08-C10 (a node of the wrong level, an empty ancestor stack, a null pointer), which the code does not exclude; the model halts that thread there. Otherwise for every number of threads, schedule, fuel, and configuration satisfying CfgOK2; trees start empty or bulkloaded (with variable-length keys: into one leaf)."
  },
  {
   "property": "C57",
   "status": "proved",
   "theorems": [
    "BwTree.Props.C57_sort_array",
    "BwTree.Props.C57_reachable_partial",
    "BwTree.Props.C57_needs_room"
   ],
   "note": "for every chain with at most as many records as the array has slots; C57_reachable_partial applies it to the pages of executions (C21)."
  },
  {
   "property": "C58",
   "status": "partial",
   "theorems": [
    "BwTree.Props.C58_partial",
    "BwTree.Props.C58_repaired",
    "BwTree.Props.C58_false",
    "BwTree.Props.C58_root_false",
    "BwTree.Props.C58_tab_false",
    "BwTree.Props.C58_word_false",
    "BwTree.Props.C58_exact",
    "BwTree.Props.C58_interleavings"
   ],
   "note": "The code violates it: root_, the word of an index-delete record and the row pointers of the mapping table are relaxed; one witness for each of the three alone. Holds while these are not written (C58_partial), and always if the three are accessed with release/acquire (C58_repaired); none of the three may stay relaxed (C58_exact). View-based model without speculative writes; page reuse and epochs left out."
  },
  {
   "property": "C59",
   "status": "partial",
   "theorems": [
    "BwTree.Props.C59_partial",
    "BwTree.Props.C59_ends_partial",
    "BwTree.Props.C59_program_partial",
    "BwTree.Props.C59_smo",
    "BwTree.Props.C59_scan",
    "BwTree.Props.C59_read_middle",
    "BwTree.Props.C59_false",
    "BwTree.Props.C59_false'",
    "BwTree.Props.C59_scan_false"
   ],
   "note": "The code violates it: the key of an iterator lies in the buffer that searches overwrite, so an operation that gets it back acts on another record. Holds for keys in the caller's memory and in the buffers of GetLowKey/GetHighKey, and for the keys the tree passes to itself. All keys have the same length in this model."
  },
  {
   "property": "C60",
   "status": "partial",
   "theorems": [
    "BwTree.Props.C60_partial",
    "BwTree.Props.C60_false",
    "BwTree.Props.C60_false'"
   ],
   "note": "The code violates it: ScanKey holds a reference to the caller's end key. Holds while the variable is left unchanged."
  },
  {
   "property": "C61",
   "status": "partial",
   "theorems": [
    "BwTree.Props.C61_consolidated_bytes_partial"
   ],
   "note": "Variable-length layout. Executions stop at the events of Flag; keys have at least one byte; page IDs fit in their bytes."
  },
  {
   "property": "C62",
   "status": "partial",
   "theorems": [
    "BwTree.Props.C62_bytes_linearizable_partial",
    "BwTree.Props.C62_bytes_accepted_partial"
   ],
   "note": "Variable-length layout. Executions stop at the events of Flag; keys have at least one byte; page IDs fit in their bytes. The word of an index-delete record and the pointers between objects are not bytes."
  },
  {
   "property": "C63",
   "status": "partial",
   "theorems": [
    "BwTree.Props.C63_reads_partial",
    "BwTree.Props.C63_consolidation_writes_partial",
    "BwTree.Props.C63_delta_writes",
    "BwTree.Props.C63_root_writes",
    "BwTree.Props.C63_false"
   ],
   "note": "Variable-length layout; holds when delta records fit in their pages (C50), C63_false shows a record that does not. Executions stop at the events of Flag. Objects a thread has not published yet are covered by the theorems on writes."
  },
  {
   "property": "C64",
   "status": "partial",
   "theorems": [
    "BwTree.Props.C64_consolidated_fix_bytes_partial"
   ],
   "note": "Fixed-length layout; pages of a power of two. Executions stop at the events of Flag; page IDs fit in their bytes."
  },
  {
   "property": "C65",
   "status": "partial",
   "theorems": [
    "BwTree.Props.C65_fix_bytes_linearizable_partial",
    "BwTree.Props.C65_bytes_accepted_partial",
    "BwTree.Props.C65_false"
   ],
   "note": "The code violates it for page sizes above 4096 bytes that are not powers of two (they compile): C65_false runs ten insertions and a read. Holds for powers of two. Executions stop at the events of Flag; page IDs fit in their bytes. The word of an index-delete record and the pointers between objects are not bytes."
  },
  {
   "property": "C66",
   "status": "partial",
   "theorems": [
    "BwTree.Props.C66_reads_partial",
    "BwTree.Props.C66_consolidation_writes_partial",
    "BwTree.Props.C66_delta_writes",
    "BwTree.Props.C66_root_writes"
   ],
   "note": "Fixed-length layout; pages of a power of two. Executions stop at the events of Flag. Objects a thread has not published yet are covered by the theorems on writes."
  },
  {
   "property": "C67",
   "status": "proved",
   "theorems": [
    "BwTree.Props.C67_bulkload_bytes",
    "BwTree.Props.C67_pages_reachable",
    "BwTree.Props.C67_bulkload_ends"
   ],
   "note": "Content: if Bulkload ends; C67_bulkload_ends: it ends when two index entries and a record fit into the reduced capacity and the page IDs used fit into their bytes. Pages of a power of two; page IDs of 8 bytes; a page ID that does not fit ends the byte-level run. C64-C66 also start from such trees."
  },
  {
   "property": "C68",
   "status": "partial",
   "theorems": [
    "BwTree.Props.C68_false",
    "BwTree.Props.C68_few_linearizable_partial",
    "BwTree.Props.C68_few_works_partial",
    "BwTree.Props.C68_few_locked_partial",
    "BwTree.Props.C69_bulkload_bytes",
    "BwTree.Props.C23_bulk_leaf_partial"
   ],
   "note": "False: C68_false runs Bulkload of 17 records on bytes, then two insertions; a loaded record that nobody removes is lost (the lowest key is missing from node_size_, consolidation overwrites metadata inside the page). The constants satisfy the conditions of C62. What holds: the leaves hold the given records right after Bulkload (C69); if they are so few that the new root is a leaf, all that follows is linearizable, calls of one thread end, and under a reader-writer lock the tree is safe (C68_few_*). With more leaves the sizes of the leaves are wrong from the start (C23); writes on such trees are not covered."
  },
  {
   "property": "C69",
   "status": "proved",
   "theorems": [
    "BwTree.Props.C69_bulkload_bytes",
    "BwTree.Props.C69_pages_reachable",
    "BwTree.Props.C69_bulkload_ends"
   ],
   "note": "Content: if Bulkload ends; C69_bulkload_ends: it ends when two index entries and one record with keys of full length fit into the reduced capacity and the page IDs used fit into their bytes (a page ID that does not fit ends the byte-level run). Operations after it: see C68."
  },
  {
   "property": "C70",
   "status": "proved",
   "theorems": [
    "BwTree.Props.C70_var_op_ends",
    "BwTree.Props.C70_var_visit_ends",
    "BwTree.Props.C70_var_scan_total",
    "BwTree.Props.C70_var_meets",
    "BwTree.Props.C70_var_total",
    "BwTree.Props.C70_fix_op_ends",
    "BwTree.Props.C70_fix_visit_ends",
    "BwTree.Props.C70_fix_scan_total",
    "BwTree.Props.C70_fix_meets",
    "BwTree.Props.C70_fix_total"
   ],
   "note": "One thread, compare-and-swaps do not fail spuriously, page sizes large enough (Roomy, as in C07_total; the sources satisfy it); fixed-length pages of a power of two; keys have at least one byte. Exception stated in the theorems: an operation takes a page ID that does not fit in a word. A scan open at the begin may return the begin key (C13_false)."
  },
  {
   "property": "C71",
   "status": "proved",
   "theorems": [
    "BwTree.Props.C71_spurious",
    "BwTree.Props.C71_scan",
    "BwTree.Props.C71_next",
    "BwTree.Props.C71_unbounded",
    "BwTree.Props.C71_strong_needed",
    "BwTree.Props.C07_answers"
   ],
   "note": "One thread; configurations as in C07_total (Roomy). Any finite number of failures of CASWeak, at any of its uses; CASStrong does not fail spuriously (C71_strong_needed: one failure would make later writers wait for ever). Without a bound on the failures a writer need not end (C71_unbounded). On records, not on bytes."
  },
  {
   "property": "C72",
   "status": "proved",
   "theorems": [
    "BwTree.Props.C72_released",
    "BwTree.Props.C72_word",
    "BwTree.Props.C72_quiet",
    "BwTree.Props.C72_quiet_read_partial",
    "BwTree.Props.C72_threshold_needed",
    "BwTree.Props.C71_strong_needed"
   ],
   "note": "Executions stop at the events of Flag (C08-C10). Assumes DELTA_RECORD_NUM_THRESHOLD <= MAX_DELTA_RECORD_NUM (true of the defaults, not checked by the code; needed: C72_threshold_needed) and, for pages, that CASStrong does not fail spuriously (needed: C71_strong_needed); since chains are compared by value, runs in which it fails because the slot holds another object with equal content are not covered. The thread that owes a word may be the one that waits for it (C42_false). C72_quiet_read_partial: C47 for states without active calls, with the proviso on removal marks only."
  },
  {
   "property": "C73",
   "status": "partial",
   "theorems": [
    "BwTree.Props.C73_pending_partial",
    "BwTree.Props.C73_quiet_leaves_partial",
    "BwTree.Props.C73_inner_pending_partial"
   ],
   "note": "Leaves, right siblings and children; for the leftmost index nodes (which can be removed as the root) only in the form of C77. Executions stop at the events of Flag (C08-C10). That the search finds every leaf of a quiet tree is false (C47_false)."
  },
  {
   "property": "C74",
   "status": "partial",
   "theorems": [
    "BwTree.Props.C74_quiet_scan_partial",
    "BwTree.Props.C74_calm_needed"
   ],
   "note": "With the proviso that the search for the first leaf meets no removal mark; without it the property is false (C74_calm_needed: a scan that begins at a key whose index entry leads to a removed leaf never ends, in the quiet state of C47_false). The later visits need no proviso, so a scan from the left finds records that Read does not find in that state. Open begin: C13_false. Assumes thr <= maxDelta and no spurious failures of CASStrong in the execution before, as C72."
  },
  {
   "property": "C75",
   "status": "partial",
   "theorems": [
    "BwTree.Props.C75_quiet_index",
    "BwTree.Props.C75_quiet_route_partial",
    "BwTree.Props.C75_packed",
    "BwTree.Props.C75_quiet_read_partial",
    "BwTree.Props.C75_children_needed"
   ],
   "note": "C75_quiet_index is proved without provisos. The search part assumes that the leftmost page of each level is not removed (not proved) and that the search goes to children only; C75_children_needed shows that the latter is needed (the state of C47_false: an outdated record in the chain of the root catches the key)."
  },
  {
   "property": "C76",
   "status": "partial",
   "theorems": [
    "BwTree.Props.C76_quiet_op_partial"
   ],
   "note": "Reads need only a search that meets no removal mark (needed: C47_false). Writes are proved where the leaf has room for one more record and is not merged: it is not consolidated, or stays above the minimal size, or is the leftmost leaf. Missing: writes whose consolidation splits the leaf or merges it with its left sibling; compare-and-swaps that fail spuriously. For trees in order all writes are covered by C77."
  },
  {
   "property": "C77",
   "status": "proved",
   "theorems": [
    "BwTree.Props.C77_in_order",
    "BwTree.Props.C77_in_order_run",
    "BwTree.Props.C77_in_order_spurious",
    "BwTree.Props.C77_in_order_scan",
    "BwTree.Props.C77_in_order_calm",
    "BwTree.Props.C77_in_order_stays",
    "BwTree.Props.C77_in_order_stat",
    "BwTree.Props.C77_order_needed"
   ],
   "note": "The order (Spec.InOrder) is a condition on the shared memory only; C77_order_needed shows that a quiet tree that is not in order can have a Read that never ends (the state of C47_false). Assumes Roomy (as C07_total), thr <= maxDelta, no spurious failures of CASStrong in the execution before (as C72); executions stop at the events of Flag (C08-C10). Open begin of scans: C13_false."
  },
  {
   "property": "C78",
   "status": "partial",
   "theorems": [
    "BwTree.Props.C78_consolidated_search",
    "BwTree.Props.C78_tight_search",
    "BwTree.Props.C78_quiet_search",
    "BwTree.Props.C78_heals_dead_end",
    "BwTree.Props.C78_consolidated_bytes_partial",
    "BwTree.Props.C78_consolidated_fix_bytes_partial"
   ],
   "note": "Proved on records for every index node in the table of every reachable state (C78_consolidated_search), in quiet trees with the liveness of the page reached (for keys before all separators of a leftmost node only that it is the leftmost child), and on the bytes of both layouts. C78_heals_dead_end: in the state of C47_false the search in the chain is not exact and never ends, that in the consolidated root goes to the right leaf. Missing: executions stop at the events of Flag (C08-C10); on bytes, page IDs fit in a word."
  },
  {
   "property": "C79",
   "status": "proved",
   "theorems": [
    "BwTree.Props.C79_var_quiet",
    "BwTree.Props.C79_var_packed",
    "BwTree.Props.C79_fix_quiet",
    "BwTree.Props.C79_fix_packed"
   ],
   "note": "C79_*_quiet assume that every reachable tree the bytes hold is in order; C79_*_packed have a condition on the bytes alone (no delta records on index nodes). Fixed-length pages of a power of two; executions stop at the events of Flag (C08-C10); page IDs fit in a word; Roomy as in C07. Open begin of scans: C13_false."
  },
  {
   "property": "C80",
   "status": "proved",
   "theorems": [
    "BwTree.Props.C80_as_if_alone",
    "BwTree.Props.C80_answers",
    "BwTree.Props.C80_op_ends",
    "BwTree.Props.C80_op_run",
    "BwTree.Props.C80_scan_ends",
    "BwTree.Props.C80_index",
    "BwTree.Props.C80_stat",
    "BwTree.Props.C80_overlap_false"
   ],
   "note": "Histories with Spec.Apart; Roomy as in C07; no spurious failures of CASStrong (as C72). CASStrong compares by value: runs in which it fails because the slot holds another object with equal content are covered by C82. Of scans the first visit is covered (an iterator that was obtained before later writes is not). C80_overlap_false: a read or scan that overlaps with a write can still fail as in C08-C10 when only one thread writes, so a mutex around the writes alone does not make readers safe."
  },
  {
   "property": "C81",
   "status": "proved",
   "theorems": [
    "BwTree.Props.C81_safe",
    "BwTree.Props.C81_linearizable",
    "BwTree.Props.C81_op_ends",
    "BwTree.Props.C81_next_ends",
    "BwTree.Props.C81_next_run",
    "BwTree.Props.C80_scan_ends"
   ],
   "note": "Histories with Spec.Exclusive; Roomy as in C07; no spurious failures of CASStrong (as C72). CASStrong compares by value: runs in which it fails because the slot holds another object with equal content are covered by C82, on bytes. C81_linearizable is the general theorem; with C81_safe its executions never stop at an event of Flag. That the other calls must not overlap with writes is needed: C80_overlap_false."
  },
  {
   "property": "C82",
   "status": "proved",
   "theorems": [
    "BwTree.Props.C82_as_if_alone",
    "BwTree.Props.C82_answers",
    "BwTree.Props.C82_op_ends",
    "BwTree.Props.C82_scan_ends",
    "BwTree.Props.C82_safe",
    "BwTree.Props.C82_next_ends",
    "BwTree.Props.C82_op_run",
    "BwTree.Props.C82_var_start",
    "BwTree.Props.C82_fix_start",
    "BwTree.Props.C82_var_locked",
    "BwTree.Props.C82_fix_locked"
   ],
   "note": "Histories with Spec.Apart (C82_safe and C82_next_ends: Spec.Exclusive). No compare-and-swap fails when the slot holds the expected address (that of another address may be equal in content). Starts: any bytes from which one thread works (Works: C82_var_start, C82_fix_start, C79). Roomy as in C07; fixed-length pages of a power of two. Exception stated in the theorems: page IDs that do not fit in a word. Open begin of scans: C13_false."
  },
  {
   "property": "C83",
   "status": "proved",
   "theorems": [
    "BwTree.Props.C83_loaded_reads"
   ],
   "note": "If Bulkload ends (see C32); page IDs are distinct by C25. New tree, no writes; each Read ends by C30. No requirement on the configuration. On nodes as lists of records, not on bytes (bytes of the loaded pages: C69)."
  }
 ]
}