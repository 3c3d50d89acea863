{"id": "C01", "title": "Point operations are linearizable", "statement": "In every concurrent execution of Read, Write, Insert, Update and Delete, each call appears to take effect at one instant between its invocation and its response, and all the return values (payloads and return codes) are those of an abstract key-to-payload map on which the calls are executed one at a time in that order.", "quantifier": "every number of threads, every program of calls, every interleaving of the atomic accesses to the mapping table and root, every delta-chain, split and merge they trigger", "why_tests_cant": "a test samples a few schedules; a lost update or stale read needs one particular interleaving of CAS/Store with consolidation, split or merge", "anchors": ["include/bw_tree/bw_tree.hpp:Read,Write,Insert,Update,Delete,GetHeadWithKeyCheck,TrySMOs,Split,TryMerge", "include/bw_tree/component/delta_chain.hpp:SearchRecord,Validate", "include/bw_tree/component/logical_ptr.hpp:CASWeak,CASStrong,Store"]}
{"id": "C02", "title": "Insert is a uniqueness check", "statement": "Insert returns kSuccess only if the key was absent at the instant it took effect and then the key maps to the given payload; it returns kKeyExist only if the key was present at some instant during the call, and then the call has no effect on the contents.", "quantifier": "every tree state and every interleaving", "why_tests_cant": "two racing inserts of the same key can both succeed only in a window of a few instructions", "anchors": ["include/bw_tree/bw_tree.hpp:Insert,GetHeadWithKeyCheck"]}
{"id": "C03", "title": "Update and Delete act only on existing keys", "statement": "Update/Delete return kSuccess only if the key was present at the instant they took effect (afterwards it maps to the new payload / is absent); they return kKeyNotExist only if the key was absent at some instant during the call, and then the contents are unchanged.", "quantifier": "every tree state and every interleaving", "why_tests_cant": "same as C02: needs every schedule", "anchors": ["include/bw_tree/bw_tree.hpp:Update,Delete"]}
{"id": "C04", "title": "Write always succeeds and overwrites", "statement": "Write returns kSuccess and at the instant it takes effect the key maps to the given payload, whatever was there before; no other key is affected.", "quantifier": "every tree state and every interleaving", "why_tests_cant": "needs every state and schedule", "anchors": ["include/bw_tree/bw_tree.hpp:Write"]}
{"id": "C05", "title": "Structure modifications never change the contents", "statement": "Installing a consolidated node, splitting a node, marking a node removed, merging it into its left sibling, undoing a failed merge, growing or shrinking the root: none of these atomic steps changes the payload (or absence) of any key.", "quantifier": "every reachable shared state, every SMO step by any thread", "why_tests_cant": "the number of reachable shapes (chains x splits x half-done merges) is unbounded", "anchors": ["include/bw_tree/bw_tree.hpp:TrySMOs,TryConsolidate,Consolidate,Split,TryRootSplit,TryMerge,TryDeleteIndexEntry,TryRemoveRoot"]}
{"id": "C06", "title": "Unconditional stores of SMOs lose no update", "statement": "When Split overwrites the head of a node with a plain store (not a CAS), and when a failed merge restores the node with a plain store, the overwritten head is exactly the one that thread consolidated: no record written by another thread in between is lost.", "quantifier": "every interleaving of writers with the splitting/merging thread", "why_tests_cant": "the window is between a load and a store in another thread", "anchors": ["include/bw_tree/bw_tree.hpp:Split,TryMerge,LoadValidHead", "include/bw_tree/component/fixlen/delta_record.hpp:NeedWaitSMOs", "include/bw_tree/component/varlen/delta_record.hpp:NeedWaitSMOs"]}
{"id": "C07", "title": "A single-threaded history behaves as an ordered map", "statement": "Any finite sequence of Read/Write/Insert/Update/Delete issued by one thread on a fresh tree returns exactly what the abstract map returns for that sequence.", "quantifier": "every sequence of calls, every key order, every page-size / threshold configuration satisfying the static assertions", "why_tests_cant": "tests use fixed key counts and orders; node boundaries, merges and root growth interact in unboundedly many ways", "anchors": ["include/bw_tree/bw_tree.hpp:Read,Write,Insert,Update,Delete,TrySMOs"]}
{"id": "C08", "title": "Backing out of a removed node stays on the right tree level", "statement": "When a call finds its node removed and retries through the remembered ancestors, it never interprets an index node as a record node or vice versa.", "quantifier": "every interleaving of growing/shrinking the tree with a suspended call", "why_tests_cant": "needs the tree to change height while a call sleeps at one instruction", "anchors": ["include/bw_tree/bw_tree.hpp:SearchChildNode,GetHeadWithKeyCheck,GetHead,Read"]}
{"id": "C09", "title": "Read never walks off its ancestor stack", "statement": "A Read that runs concurrently with other calls never accesses an empty ancestor stack (undefined behaviour).", "quantifier": "every interleaving", "why_tests_cant": "needs the root leaf to carry the temporary removal mark at the instant of the load", "anchors": ["include/bw_tree/bw_tree.hpp:Read,TryMerge"]}
{"id": "C10", "title": "Unbounded Scan tolerates concurrent structure modifications", "statement": "Scan without a begin key never dereferences a null pointer while descending to the leftmost leaf, whatever merges and root removals run concurrently.", "quantifier": "every interleaving", "why_tests_cant": "needs a node on the leftmost path to carry a removal mark at the instant of the load", "anchors": ["include/bw_tree/bw_tree.hpp:SearchLeftmostLeaf,TryMerge,TryRemoveRoot", "include/bw_tree/component/fixlen/node.hpp:GetLeftmostChild"]}
{"id": "C11", "title": "Scan output is strictly increasing", "statement": "The keys an iterator yields are strictly increasing, hence free of duplicates, even when other threads write, split and merge between the iterator's node visits.", "quantifier": "every range, every interleaving between node visits", "why_tests_cant": "a duplicate or a disorder needs an SMO exactly between two node visits", "anchors": ["include/bw_tree/bw_tree.hpp:Scan,SiblingScan,ConsolidateForScan", "include/bw_tree/component/record_iterator.hpp:HasRecord"]}
{"id": "C12", "title": "Scan visits are atomic snapshots that tile the range", "statement": "Each node visit of a scan returns exactly the records that the contents held, at one instant during the visit, in an interval that starts where the previous visit ended; together the intervals cover the whole scan range without gap or overlap.", "quantifier": "every range and every interleaving", "why_tests_cant": "a gap needs an SMO between two visits", "anchors": ["include/bw_tree/bw_tree.hpp:Scan,SiblingScan,ConsolidateForScan,TryConsolidate", "include/bw_tree/component/record_iterator.hpp:HasRecord"]}
{"id": "C13", "title": "Scan with an open begin key excludes that key", "statement": "If the begin key is given as open, no record with that key is returned; all records with greater keys (up to the end) are.", "quantifier": "every begin key and every leaf partition", "why_tests_cant": "only fails when the begin key coincides with a node boundary", "anchors": ["include/bw_tree/bw_tree.hpp:Scan,SearchLeafNode,ConsolidateForScan,SiblingScan", "include/bw_tree/component/fixlen/node.hpp:SearchChild,SearchRecord"]}
{"id": "C14", "title": "Scan respects the end key and stops", "statement": "No record beyond the end key is returned; a record equal to the end key is returned iff the end is closed; scanning ends in the node where the end key belongs; without an end key all records to the right are returned.", "quantifier": "every end key (closed/open/absent), every node content and boundary", "why_tests_cant": "boundary coincidences (end key = node's high key) are rarely generated", "anchors": ["include/bw_tree/component/fixlen/node.hpp:SearchEndPositionFor,IsRightmostOf", "include/bw_tree/component/varlen/node.hpp:SearchEndPositionFor,IsRightmostOf", "include/bw_tree/component/record_iterator.hpp:HasRecord"]}
{"id": "C15", "title": "Reading through a delta chain equals reading the consolidated node", "statement": "For every well-formed delta chain and key in the node's range, the lookup through the chain finds a record iff consolidating the chain and then searching the resulting node finds it, with the same payload.", "quantifier": "every chain length, order of inserts/updates/deletes/merges, every key", "why_tests_cant": "the newest-first rule interacts with merge deltas in unboundedly many chains", "anchors": ["include/bw_tree/component/delta_chain.hpp:SearchRecord,Sort", "include/bw_tree/bw_tree.hpp:TryConsolidate,Consolidate", "include/bw_tree/component/fixlen/delta_record.hpp:AddByInsertionSortTo"]}
{"id": "C16", "title": "Consolidation yields a sorted, duplicate-free node with the same contents", "statement": "Consolidation of any chain produces records in strictly increasing key order which are exactly the base (and merged) records overridden by the newest delta per key, without the deleted ones; range, sibling link and level are those of the chain.", "quantifier": "every chain", "why_tests_cant": "as C15", "anchors": ["include/bw_tree/bw_tree.hpp:Consolidate", "include/bw_tree/component/delta_chain.hpp:Sort", "include/bw_tree/component/fixlen/delta_record.hpp:AddByInsertionSortTo", "include/bw_tree/component/fixlen/node.hpp:CopyRecordFrom,CopyLowKeyFrom,CopyHighKeyFrom"]}
{"id": "C17", "title": "Binary search in a node is exact", "statement": "For any sorted node the record search returns 'found' with the position of the key iff the key is present, and otherwise the number of smaller keys; it always terminates and never reads outside the record array.", "quantifier": "every node size and key", "why_tests_cant": "off-by-one errors need particular sizes and positions", "anchors": ["include/bw_tree/component/fixlen/node.hpp:SearchRecord", "include/bw_tree/component/varlen/node.hpp:SearchRecord"]}
{"id": "C18", "title": "Child search routes to the covering child", "statement": "For any index node with increasing separators the child search returns the child of the last separator <= key (closed) or < key (open), or the first child if there is none.", "quantifier": "every node size, key and openness", "why_tests_cant": "as C17", "anchors": ["include/bw_tree/component/fixlen/node.hpp:SearchChild", "include/bw_tree/component/varlen/node.hpp:SearchChild"]}
{"id": "C19", "title": "Splitting partitions a node", "statement": "When an overfull node is split, both halves are non-empty, every record goes to exactly one half in order, the separator is the smallest key of the right half, it bounds the left half from above, and both halves fit in one page.", "quantifier": "every page/key/payload size satisfying the static assertions and every overfull chain", "why_tests_cant": "depends on sizes and record mixes", "anchors": ["include/bw_tree/bw_tree.hpp:TryConsolidate,Consolidate,Split", "include/bw_tree/component/fixlen/node.hpp:CopyRecordFrom,CopyLowKeyFrom,CopyHighKeyFrom"]}
{"id": "C20", "title": "Node sizes are accounted exactly", "statement": "The size carried by the head of a chain always equals the number of bytes its consolidated node will occupy (header plus records), so split/merge decisions are never based on a drifting size.", "quantifier": "every reachable chain in every history", "why_tests_cant": "drift accumulates over long histories", "anchors": ["include/bw_tree/component/fixlen/delta_record.hpp:SetNext", "include/bw_tree/bw_tree.hpp:Write,Insert,Update,Delete,Split,TryMerge,TryDeleteIndexEntry", "include/bw_tree/component/fixlen/node.hpp:GetNodeDiff,CopyRecordFrom"]}
{"id": "C21", "title": "Delta chains are bounded, the sort buffer never overflows", "statement": "No chain ever holds more delta records than the fixed-size sort buffer (kMaxDeltaRecordNum), so consolidation never writes outside it.", "quantifier": "every reachable state, every interleaving", "why_tests_cant": "needs many threads to append to the same node while its consolidator sleeps", "anchors": ["include/bw_tree/bw_tree.hpp:LoadValidHead,CreateTempRecords", "include/bw_tree/component/fixlen/delta_record.hpp:SetNext,NeedWaitSMOs,AddByInsertionSortTo"]}
{"id": "C22", "title": "Nodes never overflow their page", "statement": "Every node installed by consolidation or split, and every scan copy, fits in the memory reserved for it (one page, or two for scans): keys growing up and payloads growing down never meet.", "quantifier": "every reachable chain, every size configuration satisfying the static assertions", "why_tests_cant": "overflow needs a particular fill level", "anchors": ["include/bw_tree/component/fixlen/node.hpp:CopyRecordFrom,GetPayloadAddr", "include/bw_tree/bw_tree.hpp:Consolidate"]}
{"id": "C23", "title": "Bulkloaded variable-length nodes stay within their page", "statement": "Starting from a bulkloaded tree with variable-length records, subsequent writes never make a consolidated node exceed its page.", "quantifier": "every sequence of bulkloaded records and subsequent writes", "why_tests_cant": "needs a particular mix of key lengths and fill level", "anchors": ["include/bw_tree/component/varlen/node.hpp:Bulkload,CopyLowKeyFrom,CopyHighKeyFrom", "include/bw_tree/bw_tree.hpp:Bulkload"]}
{"id": "C24", "title": "Record metadata is stored without loss", "statement": "The (offset, key length, total length) triple written into a variable-length record's metadata is read back unchanged for every offset a page can have.", "quantifier": "every offset and length", "why_tests_cant": "only fails for large pages", "anchors": ["include/bw_tree/component/varlen/metadata.hpp:Metadata"]}
{"id": "C25", "title": "Page IDs are unique", "statement": "No two calls that reserve a page ID ever get the same ID, whatever the interleaving, including across row and table boundaries.", "quantifier": "every number of reservations and threads, every interleaving", "why_tests_cant": "boundary crossings happen every 512 / 262144 reservations and race for a few instructions", "anchors": ["include/bw_tree/component/mapping_table.hpp:GetNewPageID"]}
{"id": "C26", "title": "Every reserved page ID resolves to its own slot", "statement": "At the moment an ID is returned, the row and table it addresses are already allocated, and distinct IDs address distinct slots.", "quantifier": "every number of reservations and threads, every interleaving", "why_tests_cant": "as C25", "anchors": ["include/bw_tree/component/mapping_table.hpp:GetNewPageID,GetLogicalPtr,MappingTable"]}
{"id": "C27", "title": "The mapping table detects exhaustion before writing out of bounds", "statement": "Reserving page IDs never stores outside the table directory.", "quantifier": "every number of reservations", "why_tests_cant": "needs more than 1.3e8 page IDs", "anchors": ["include/bw_tree/component/mapping_table.hpp:GetNewPageID,kTableCapacity"]}
{"id": "C28", "title": "Destroying the tree releases every page exactly once", "statement": "The destructor of the mapping table visits every slot ever handed out exactly once and releases every row and table.", "quantifier": "every number of reserved IDs", "why_tests_cant": "leaks are invisible to functional tests", "anchors": ["include/bw_tree/component/mapping_table.hpp:~MappingTable,ReleaseLogicalPtr"]}
{"id": "C29", "title": "Mapping-table statistics are sound", "statement": "The reported used bytes never exceed the reported reserved bytes, and both equal the real numbers of allocated pages and unused words.", "quantifier": "every number of reserved IDs", "why_tests_cant": "boundary IDs", "anchors": ["include/bw_tree/component/mapping_table.hpp:CollectStatisticalData"]}
{"id": "C30", "title": "Bulkload stores exactly the given records", "statement": "After Bulkload of a sorted, duplicate-free sequence, with any number of threads, the tree contains exactly these records; every one is found by a search from the new root.", "quantifier": "every number of records, threads, every page/record size", "why_tests_cant": "tests use a few sizes; capacities, layer counts and partial trees interact", "anchors": ["include/bw_tree/bw_tree.hpp:Bulkload,BulkloadWithSingleThread,ConstructSingleLayer", "include/bw_tree/component/fixlen/node.hpp:Bulkload"]}
{"id": "C31", "title": "Parallel bulkload hands out every record once", "statement": "The per-thread shares of Bulkload are contiguous, disjoint, cover the input in order, differ in length by at most one and are all non-empty.", "quantifier": "every record count and thread count with count >= threads", "why_tests_cant": "arithmetic over all pairs", "anchors": ["include/bw_tree/bw_tree.hpp:Bulkload"]}
{"id": "C32", "title": "Bulkloaded nodes respect the page capacity and make progress", "statement": "Each bulkloaded node takes at least one entry and never exceeds the bulkload capacity of a page; building layers terminates with one root.", "quantifier": "every input and size configuration satisfying the static assertions", "why_tests_cant": "non-termination needs particular sizes", "anchors": ["include/bw_tree/component/fixlen/node.hpp:Bulkload", "include/bw_tree/bw_tree.hpp:ConstructSingleLayer,BulkloadWithSingleThread"]}
{"id": "C33", "title": "Bulkloaded levels are linked without gaps", "statement": "In every level of a bulkloaded tree, including across the borders of partial trees of different heights, each node's upper bound and sibling link are the lower bound and ID of the next node; the last node has no upper bound and the leftmost nodes have no lower bound.", "quantifier": "every input, thread count", "why_tests_cant": "borders of partial trees with different heights are rare", "anchors": ["include/bw_tree/component/fixlen/node.hpp:LinkNext,LinkVerticalBorderNodes,RemoveLeftmostKeys", "include/bw_tree/bw_tree.hpp:Bulkload"]}
{"id": "C34", "title": "The C-string comparator is a strict weak order", "statement": "CompareAsCString is irreflexive, transitive and has transitive incomparability, with null above every string, so it may be used as a key comparator.", "quantifier": "every triple of strings", "why_tests_cant": "infinitely many strings", "anchors": ["include/bw_tree/utility.hpp:CompareAsCString"]}
{"id": "C35", "title": "Log2 is the floored binary logarithm", "statement": "Log2(n) is the greatest e with 2^e <= n for every n >= 1 (and 0 for n = 0), so the default delta threshold is as documented.", "quantifier": "every n", "why_tests_cant": "unbounded domain", "anchors": ["include/bw_tree/utility.hpp:Log2,kDeltaRecordThreshold"]}
{"id": "C36", "title": "Memory reachable by a guarded call is not freed", "statement": "As long as a call holds its epoch guard, no delta record or node it could have loaded after taking the guard is freed or reused.", "quantifier": "every interleaving of guards, retirements and reclamation", "why_tests_cant": "use-after-free needs a reclamation between a load and a dereference", "anchors": ["include/bw_tree/bw_tree.hpp:AddToGC,TrySMOs", "include/bw_tree/bw_tree.hpp:CreateEpochGuard uses"]}
{"id": "C37", "title": "Advancing a scan iterator is memory safe", "statement": "HasRecord() may be called any time after Scan returned, concurrently with other threads' writes, without touching freed memory.", "quantifier": "every interleaving", "why_tests_cant": "needs reclamation during SiblingScan", "anchors": ["include/bw_tree/component/record_iterator.hpp:HasRecord", "include/bw_tree/bw_tree.hpp:Scan,SiblingScan,CollectStatisticalData"]}
{"id": "C38", "title": "Each page is retired at most once", "statement": "No delta record or node is handed to the garbage collector twice, and nothing still reachable from the mapping table is handed to it.", "quantifier": "every interleaving", "why_tests_cant": "double free needs two threads to win the same replacement", "anchors": ["include/bw_tree/bw_tree.hpp:AddToGC,TrySMOs,TryMerge,TryRemoveRoot"]}
{"id": "C39", "title": "Reused delta pages were never published", "statement": "A delta page put back into the thread-local cache was never visible to another thread.", "quantifier": "every code path through the public operations", "why_tests_cant": "path coverage plus schedule", "anchors": ["include/bw_tree/bw_tree.hpp:GetRecPage,tls_delta_page_,Insert,Update,Delete,Split,TryMerge,TryDeleteIndexEntry"]}
{"id": "C40", "title": "Iterators of one thread are independent", "statement": "Two iterators obtained by the same thread can be advanced alternately and each yields its own range.", "quantifier": "every pair of ranges", "why_tests_cant": "tests advance one iterator at a time", "anchors": ["include/bw_tree/bw_tree.hpp:Scan (thread_local page)", "include/bw_tree/component/record_iterator.hpp:RecordIterator"]}
{"id": "C41", "title": "A root split racing with another keeps all keys reachable", "statement": "If two threads split the root concurrently and one new root overwrites the other, every key is still found by a search from the surviving root.", "quantifier": "every interleaving of two root splits", "why_tests_cant": "needs a preemption between the check and the store of the root", "anchors": ["include/bw_tree/bw_tree.hpp:TryRootSplit,Split"]}
{"id": "C42", "title": "Merging makes progress", "statement": "A thread that has deleted an index entry eventually installs the merge; it never waits for itself.", "quantifier": "every interleaving", "why_tests_cant": "needs the parent path to change inside the merge window", "anchors": ["include/bw_tree/bw_tree.hpp:TryMerge,SearchTargetNode", "include/bw_tree/component/fixlen/delta_record.hpp:GetPayloadAtomically"]}
{"id": "C43", "title": "Leftmost children are never merged away", "statement": "A node is removed only if its lower separator is present in its parent and is not the parent's own lower bound, so the parent always keeps its first child and the merged range is contiguous.", "quantifier": "every parent chain", "why_tests_cant": "needs chains where the separator is only in a delta or in a merged node", "anchors": ["include/bw_tree/component/delta_chain.hpp:SearchForMerge", "include/bw_tree/bw_tree.hpp:GetHeadForMerge,TryDeleteIndexEntry"]}
{"id": "C44", "title": "Key ranges of nodes on a level are disjoint and a node's lower bound never changes", "statement": "At every instant, no key belongs to two live nodes of the same level, a page's lower bound is fixed for its lifetime, and a node's sibling link leads to a node whose lower bound is the node's upper bound.", "quantifier": "every reachable state, every interleaving", "why_tests_cant": "global structural invariant", "anchors": ["include/bw_tree/bw_tree.hpp:Split,TryMerge,TryRootSplit", "include/bw_tree/component/fixlen/node.hpp:CopyLowKeyFrom,CopyHighKeyFrom"]}
{"id": "C45", "title": "A removed node is never modified again", "statement": "Once a node carries a removal mark, only the thread that put it there can replace the mark; all other threads' operations on that node back off.", "quantifier": "every interleaving", "why_tests_cant": "race window", "anchors": ["include/bw_tree/bw_tree.hpp:TryMerge,GetHead,GetHeadWithKeyCheck,GetHeadForMerge", "include/bw_tree/component/delta_chain.hpp:SearchRecord,Validate,SearchForMerge,SearchChildNode"]}
{"id": "C46", "title": "Index deltas route every key to a node that can reach it by sibling links", "statement": "Following an index chain for a key always leads to a page of the next lower level whose lower bound is <= the key, whatever stale or pending index deltas the chain holds.", "quantifier": "every reachable index chain, every key", "why_tests_cant": "stale index entries arise only in delayed SMOs", "anchors": ["include/bw_tree/component/delta_chain.hpp:SearchChildNode", "include/bw_tree/bw_tree.hpp:Split,TryDeleteIndexEntry", "include/bw_tree/component/fixlen/delta_record.hpp:SetSiblingPID,GetPayloadAtomically"]}
{"id": "C47", "title": "A quiet tree answers in bounded time", "statement": "When no other thread is active and no SMO is pending, Read terminates after finitely many steps with the value in the map.", "quantifier": "every reachable quiescent state and key", "why_tests_cant": "non-termination cannot be observed by a terminating test", "anchors": ["include/bw_tree/bw_tree.hpp:Read,SearchLeafNode,SearchChildNode"]}
{"id": "C48", "title": "Fixed-length payload addressing is consistent", "statement": "The address at which a payload is written while building a node equals the address from which the same record is later read, for ordinary, split and two-page scan nodes.", "quantifier": "every record count and size configuration", "why_tests_cant": "only breaks at page-size rounding boundaries", "anchors": ["include/bw_tree/component/fixlen/node.hpp:GetPayloadAddr,CopyRecordFrom,Bulkload,SetNodeSizeForScan"]}
{"id": "C49", "title": "Tree statistics count every node once and never under-report reservation", "statement": "CollectStatisticalData on a quiet tree reports per level the number of nodes and actual usage <= virtual usage.", "quantifier": "every tree", "why_tests_cant": "unbounded tree shapes", "anchors": ["include/bw_tree/bw_tree.hpp:CollectStatisticalData", "include/bw_tree/component/fixlen/delta_record.hpp:GetNodeUsage"]}
{"id": "C50", "title": "Delta records fit in their pages", "statement": "Every delta record, whatever its kind (insert, modify, delete, index entry, index delete, merge, removal mark) and whatever the lengths of its keys up to the maximum, ends within the memory allocated for delta records (GetMaxDeltaSize), in both layouts.", "quantifier": "every key, payload and header size, every kind of delta record", "why_tests_cant": "an overflow of a few bytes needs particular key sizes and is silent", "anchors": ["include/bw_tree/component/varlen/delta_record.hpp:GetMaxDeltaSize,DeltaRecord", "include/bw_tree/component/fixlen/delta_record.hpp:GetMaxDeltaSize,DeltaRecord", "include/bw_tree/bw_tree.hpp:GetRecPage"]}
{"id": "C51", "title": "Variable-length nodes give back what was stored", "statement": "In the variable-length layout, every key, payload and border key of a consolidated node is read back as it was written, and the recorded node size is the number of bytes in use, whenever these bytes fit in the page.", "quantifier": "every number of records, every key and payload length, leaf and index nodes, ordinary and two-page scan nodes", "why_tests_cant": "metadata, records and border keys share one page; an overlap needs particular lengths", "anchors": ["include/bw_tree/component/varlen/node.hpp:CopyRecordFrom,CopyLowKeyFrom,CopyHighKeyFrom,GetKey,GetPayload", "include/bw_tree/component/varlen/metadata.hpp:Metadata", "include/bw_tree/bw_tree.hpp:Consolidate"]}
{"id": "C52", "title": "The merge check uses the removed node's own bounds in every key layout", "statement": "For variable-length keys GetHeadForMerge accepts or rejects a merge exactly as for fixed-length keys with the same contents: the sibling key passed to it is the removed node's highest key throughout.", "quantifier": "every parent chain, removed key and sibling key", "why_tests_cant": "the key is a pointer into a thread-local buffer that a later comparison overwrites; tests only see fewer merges", "anchors": ["include/bw_tree/bw_tree.hpp:TryDeleteIndexEntry,GetHeadForMerge", "include/bw_tree/component/varlen/delta_record.hpp:GetHighKey,HighKeyIsGE", "include/bw_tree/component/delta_chain.hpp:SearchForMerge"]}
{"id": "C53", "title": "A successful CAS on a page sees the chain the thread has read", "statement": "When a compare-and-swap on a mapping-table slot succeeds because the slot holds the address the thread loaded earlier, the whole chain behind that address is still the one the thread has read (no address is reused in between).", "quantifier": "every interleaving of loads, replacements, retirements and reuse", "why_tests_cant": "an ABA needs an address to be freed, reallocated and published on the same page between a load and a CAS", "anchors": ["include/bw_tree/bw_tree.hpp:Write,Insert,Update,Delete,TrySMOs,Split,TryMerge,TryDeleteIndexEntry", "include/bw_tree/component/logical_ptr.hpp:CASWeak,CASStrong"]}
{"id": "C54", "title": "Memory is retired under the type it was allocated with", "statement": "Whatever takes a chain out of the tree hands every object of it to the garbage collector, delta records as delta pages and nodes as node pages.", "quantifier": "every chain, every operation that retires memory (SMOs, root removal, Bulkload)", "why_tests_cant": "a delta page reused as a node page overflows silently, and only after reclamation", "anchors": ["include/bw_tree/bw_tree.hpp:AddToGC,Bulkload,GetNodePage,GetRecPage"]}
{"id": "C55", "title": "The page ID of an index-delete record is written while the record is alive", "statement": "The only field of a published record that is ever overwritten, the page ID in an index-delete delta record, is written and read only while the memory still contains that record: it is neither freed nor allocated again.", "quantifier": "every interleaving of operations, consolidations of the parent, retirements and reuse", "why_tests_cant": "the parent may be consolidated and the record retired between its publication and the write; corruption shows only after the memory is reused", "anchors": ["include/bw_tree/bw_tree.hpp:TryMerge,TryDeleteIndexEntry,AddToGC", "include/bw_tree/component/fixlen/delta_record.hpp:SetSiblingPID"]}
{"id": "C56", "title": "A split leaves records in both halves", "statement": "When consolidation decides to split a node, both halves get at least one record, so there is a separator key to post in the parent, and consolidation never fails.", "quantifier": "every reachable chain, both page layouts, every size configuration satisfying the static assertions", "why_tests_cant": "needs long keys around short ones and a particular order of splits and deletes", "anchors": ["include/bw_tree/bw_tree.hpp:Consolidate,Split", "include/bw_tree/component/varlen/node.hpp:CopyRecordFrom,CopyLowKeyFrom,CopyHighKeyFrom"]}
{"id": "C57", "title": "Sorting delta records stays inside its array and never mixes up keys", "statement": "For every chain of at most kMaxDeltaRecordNum records, filling the fixed-size sort array never accesses it out of bounds; afterwards its keys are strictly increasing, each slot holds the newest record of its key, every key of the chain has a slot, no two slots share a key buffer, and merging the array with the base nodes by index copies the same records as merging the sorted list.", "quantifier": "every chain, both page layouts, whatever an earlier consolidation of the thread left in the array and in the key page", "why_tests_cant": "a buffer shared by two slots shows only for particular insertion orders with duplicate keys, and an access one past the end usually goes unnoticed", "anchors": ["include/bw_tree/component/varlen/delta_record.hpp:AddByInsertionSortTo", "include/bw_tree/component/fixlen/delta_record.hpp:AddByInsertionSortTo", "include/bw_tree/component/delta_chain.hpp:Sort", "include/bw_tree/bw_tree.hpp:CreateTempRecords,Consolidate"]}
{"id": "C58", "title": "The memory orders let a thread see the node and the row of every page ID it learns", "statement": "Whenever a thread accesses the mapping table with a page ID, the C++ memory model does not allow it to read a null row pointer or a null slot: having learnt the ID from root_, from a record, from the word of an index-delete record, from GetNewPageID or from its own iterator, it must have seen the row and the node published before.", "quantifier": "every execution of the operations and scans by any number of threads that the memory orders of the code permit, from the empty tree and from a bulkloaded one", "why_tests_cant": "x86 hides missing release/acquire pairs; on weaker hardware the window is a few instructions wide", "anchors": ["include/bw_tree/component/mapping_table.hpp:GetNewPageID,GetLogicalPtr", "include/bw_tree/component/logical_ptr.hpp:Load,Store,CASWeak,CASStrong", "include/bw_tree/bw_tree.hpp:root_,TryRootSplit,TryRemoveRoot", "include/bw_tree/component/fixlen/delta_record.hpp:SetSiblingPID,GetPayloadAtomically"]}
{"id": "C59", "title": "An operation depends only on the characters of its key", "statement": "With variable-length keys, where a key is passed as a pointer, every operation and scan returns and does what the abstract map does for the characters behind the pointer at the time of the call, whichever memory the pointer leads to: the caller's, or one of the tree's own key buffers, in particular the pointer returned by RecordIterator::GetKey.", "quantifier": "every session of calls, every key pointer, every content of the thread-local key buffers", "why_tests_cant": "tests pass keys from their own memory; aliasing shows only when a returned key is passed back, and then looks like a lost or a foreign record", "anchors": ["include/bw_tree/component/varlen/node.hpp:GetKey,GetLowKey,GetHighKey,SearchRecord,SearchChild", "include/bw_tree/component/varlen/delta_record.hpp:GetKey,GetHighKey", "include/bw_tree/component/record_iterator.hpp:GetKey", "include/bw_tree/bw_tree.hpp:Read,Write,Insert,Update,Delete,Scan,Split,TryMerge"]}
{"id": "C60", "title": "A scan keeps to the end key it was given", "statement": "A scan that has reached its end has returned exactly the records of the map between the begin key and the end key that were passed to Scan, whatever the caller does with its variables afterwards.", "quantifier": "every session, every range, every sequence of values of the caller's end-key variable during the scan", "why_tests_cant": "the reference dangles or changes only if the caller reuses the variable while iterating, and only scans over several nodes read it again", "anchors": ["include/bw_tree/bw_tree.hpp:ScanKey,Scan,SiblingScan", "include/bw_tree/component/record_iterator.hpp:ScanKey,HasRecord", "include/bw_tree/component/varlen/node.hpp:SearchEndPositionFor,IsRightmostOf", "include/bw_tree/component/fixlen/node.hpp:SearchEndPositionFor,IsRightmostOf"]}
{"id": "C61", "title": "Consolidating the bytes of a leaf keeps its contents", "statement": "With variable-length data, the pages that TryConsolidate writes for a leaf (one page, a left and a right page, or the page to be merged) hold, byte for byte, what the delta chain held: a search for any key in the new pages returns the same payload bytes, the same 'not here' or the same sibling as a search in the bytes of the chain, whatever bytes the recycled pages contained before.", "quantifier": "every leaf in the mapping table of every reachable state, every key, every previous content of the pages", "why_tests_cant": "offsets and lengths are packed into 16-bit metadata over recycled memory; a wrong byte shows only for particular combinations of key lengths, deltas and old contents", "anchors": ["include/bw_tree/component/varlen/node.hpp:Consolidate,Split,CopyRecordFrom,CopyLowKeyFrom,CopyHighKeyFrom", "include/bw_tree/component/varlen/delta_record.hpp", "include/bw_tree/component/delta_chain.hpp:Sort,SearchRecord", "include/bw_tree/bw_tree.hpp:TryConsolidate"]}
{"id": "C62", "title": "The operations on bytes are linearizable", "statement": "With variable-length data, when nodes and delta records are byte arrays with metadata written into recycled pages, heads are compared by address, and keys and payloads are byte strings, every history of reads, writes, inserts, updates, deletes and scans is linearizable to a map from strings to strings, no thread reads a record that does not exist, and every slot of the mapping table holds the bytes of a well-formed chain.", "quantifier": "any number of threads, any schedule, any keys of 1 to the maximal number of bytes, any comparator that is a linear order on strings, any previous content of recycled pages", "why_tests_cant": "correctness of the record-level algorithm does not exclude that a byte-level getter reads the wrong place; the combinations of layouts, lengths and schedules are unbounded", "anchors": ["include/bw_tree/bw_tree.hpp", "include/bw_tree/component/delta_chain.hpp", "include/bw_tree/component/varlen/node.hpp", "include/bw_tree/component/varlen/delta_record.hpp", "include/bw_tree/component/varlen/metadata.hpp"]}
{"id": "C63", "title": "Bytes are read and written inside pages", "statement": "With variable-length data, the offsets and lengths stored in nodes and delta records never lead out of the object that holds them, and consolidations, splits, new roots, scans and delta records change no byte before the end of the header or behind the end of the page they write to.", "quantifier": "every object in the mapping table of every reachable state, every previous content of the pages", "why_tests_cant": "writing a few bytes behind a page corrupts a neighbouring allocation that is usually unused padding; the lengths that do it are rare", "anchors": ["include/bw_tree/component/varlen/node.hpp:Consolidate,Split,CopyRecordFrom,CopyLowKeyFrom,CopyHighKeyFrom", "include/bw_tree/component/varlen/delta_record.hpp:DeltaRecord,GetMaxDeltaSize", "include/bw_tree/bw_tree.hpp:TryConsolidate,RootSplit"]}
{"id": "C64", "title": "Consolidating the bytes of a fixed-length leaf keeps its contents", "statement": "With fixed-length data, the pages that TryConsolidate writes for a leaf hold, byte for byte, what the delta chain held: a search for any key in the new pages returns the same payload bytes, the same 'not here' or the same sibling as a search in the bytes of the chain, whatever bytes the recycled pages contained before.", "quantifier": "every leaf in the mapping table of every reachable state, every key, every previous content of the pages", "why_tests_cant": "payload addresses are computed from node_size_ rounded to a page; a wrong byte shows only for particular numbers of records and old contents", "anchors": ["include/bw_tree/component/fixlen/node.hpp:CopyRecordFrom,CopyLowKeyFrom,CopyHighKeyFrom,GetPayloadAddr,SearchRecord", "include/bw_tree/component/fixlen/delta_record.hpp", "include/bw_tree/component/delta_chain.hpp:Sort,SearchRecord", "include/bw_tree/bw_tree.hpp:TryConsolidate,Consolidate"]}
{"id": "C65", "title": "The operations on fixed-length bytes are linearizable", "statement": "With fixed-length data, when nodes and delta records are byte arrays written into recycled pages, heads are compared by address, and keys and payloads are strings of sizeof(Key) and sizeof(Payload) bytes, every history of reads, writes, inserts, updates, deletes and scans is linearizable to a map from strings to strings, no thread reads a record that does not exist, and every slot of the mapping table holds the bytes of a well-formed chain.", "quantifier": "any number of threads, any schedule, any keys, any comparator that is a linear order on the keys, any previous content of recycled pages", "why_tests_cant": "the combinations of record counts, recycled contents and schedules are unbounded", "anchors": ["include/bw_tree/bw_tree.hpp", "include/bw_tree/component/delta_chain.hpp", "include/bw_tree/component/fixlen/node.hpp", "include/bw_tree/component/fixlen/delta_record.hpp"]}
{"id": "C66", "title": "Fixed-length bytes are read and written inside pages", "statement": "With fixed-length data, the payload addresses of all records of all nodes lie behind the keys of the node and inside its page, and consolidations, splits, new roots, scans and delta records change no byte before the keys or behind the end of the page they write to.", "quantifier": "every object in the mapping table of every reachable state, every previous content of the pages", "why_tests_cant": "payloads that overlap the keys or a neighbouring page show only at exact fill levels", "anchors": ["include/bw_tree/component/fixlen/node.hpp:CopyRecordFrom,GetPayloadAddr,SetPayload,Node", "include/bw_tree/component/fixlen/delta_record.hpp:DeltaRecord,GetMaxDeltaSize", "include/bw_tree/bw_tree.hpp:TryConsolidate,RootSplit"]}
{"id": "C67", "title": "Bulkload writes exactly the given bytes", "statement": "With fixed-length data, after Bulkload of a sorted, duplicate-free sequence with any number of threads, the leaves, followed through their links, hold byte for byte the given keys and payloads in order; every page is reached from the root through child pointers read from bytes; every page keeps to the reduced capacity and its payloads lie behind the keys and inside the page; no byte outside the key and payload area of a page changes.", "quantifier": "every sequence, every number of threads, every previous content of the pages", "why_tests_cant": "payload offsets, links over the borders of partial trees and levelling depend on exact numbers of records and threads", "anchors": ["include/bw_tree/component/fixlen/node.hpp:Bulkload,LinkNext,LinkVerticalBorderNodes,RemoveLeftmostKeys", "include/bw_tree/bw_tree.hpp:Bulkload,BulkloadWithSingleThread,ConstructSingleLayer"]}
{"id": "C68", "title": "Operations after Bulkload with variable-length keys", "statement": "With variable-length keys, after Bulkload of a sorted, duplicate-free sequence the leaves, followed through their links, hold byte for byte the given records, and every history of operations and scans that follows is linearizable to a map that starts with these records.", "quantifier": "every sequence, every number of threads, every execution that starts from the loaded tree", "why_tests_cant": "a record is lost only if the size of a leaf meets the page size up to the length of its lowest key", "anchors": ["include/bw_tree/component/varlen/node.hpp:Bulkload,LinkNext,LinkVerticalBorderNodes,RemoveLeftmostKeys,CopyHighKeyFrom,CopyLowKeyFrom", "include/bw_tree/bw_tree.hpp:Bulkload,BulkloadWithSingleThread,ConstructSingleLayer,TryConsolidate"]}
{"id": "C69", "title": "Bulkload with variable-length keys writes exactly the given bytes", "statement": "With variable-length keys, after Bulkload of a sequence with any number of threads, the leaves, followed through their links, hold byte for byte the given keys and payloads in order; every page is reached from the root through child pointers read from bytes; every page keeps to the reduced capacity and its records and bounds lie behind the metadata and inside the page; no byte outside the metadata and record area of a page changes; Bulkload ends when two index entries and one record of full length fit.", "quantifier": "every sequence, every number of threads, every previous content of the pages", "why_tests_cant": "offsets, 16-bit metadata, links over the borders of partial trees and the removal of the leftmost keys depend on exact lengths of keys and numbers of records and threads", "anchors": ["include/bw_tree/component/varlen/node.hpp:Bulkload,LinkNext,LinkVerticalBorderNodes,RemoveLeftmostKeys", "include/bw_tree/bw_tree.hpp:Bulkload,BulkloadWithSingleThread,ConstructSingleLayer"]}
{"id": "C70", "title": "One thread on bytes: every call ends with the right answer", "statement": "When one thread alone works on the bytes of a tree (new, or bulk-loaded with fixed-length keys), every point operation and every visit of a scan ends, whatever the previous bytes of the pages it takes, and the strings returned are those of a map from strings to strings in the order of the comparator; a whole scan ends after finitely many visits and changes no shared memory.", "quantifier": "every sequence of calls on strings of legal length, every key and payload bytes, every previous content of the pages, every sufficient bound on the loops", "why_tests_cant": "termination over unbounded sequences; contents of recycled pages and the exact lengths of keys vary without bound", "anchors": ["include/bw_tree/bw_tree.hpp:Read,Write,Insert,Update,Delete,Scan,SiblingScan,TryConsolidate,TrySplit,TryMerge,RootSplit", "include/bw_tree/component/varlen/node.hpp:Consolidate,Split,Merge", "include/bw_tree/component/fixlen/node.hpp:Consolidate,Split,Merge"]}
{"id": "C71", "title": "Spurious failures of the weak compare-and-swap do no harm", "statement": "When one thread runs alone, a point operation in which CASWeak fails spuriously any finite number of times, at any of its uses (appending a record, inserting or deleting an index entry, merging), still ends, returns what the abstract map returns, and leaves a tree on which the later calls do so too; visits of a scan are not affected at all.", "quantifier": "every sequence of calls, every number and every placement of the failures, every configuration with room after a split", "why_tests_cant": "compare_exchange_weak never fails spuriously on x86, so the retry paths without an intervening change are not executed there", "anchors": ["include/bw_tree/bw_tree.hpp:Write,Insert,Update,Delete,Split,TryMerge,TryDeleteIndexEntry", "include/bw_tree/component/logical_ptr.hpp:CASWeak,CASStrong"]}
{"id": "C72", "title": "Whoever waits, waits for a thread inside its call", "statement": "Visitors wait at a page with too long a chain (NeedWaitSMOs) and at the unset word of an index-delete record. Whenever a chain in the mapping table makes its visitors wait, some thread is inside a call that replaces this chain with at most five accesses, whatever the other threads do, and that does not itself wait before. Whenever the word of an index-delete record in the table is unset, some thread is inside a call that does not return before it has been set. When no call is active, no page makes anybody wait and all words are set.", "quantifier": "every reachable state of every number of threads, every continuation", "why_tests_cant": "a page left waiting shows up only as an endless loop of a later visitor, after a particular failure of a compare-and-swap in a particular schedule; whether the responsible thread is ever delayed cannot be observed", "anchors": ["include/bw_tree/bw_tree.hpp:LoadValidHead,TrySMOs,TryConsolidate,TrySplit,TryMerge,TryDeleteIndexEntry", "include/bw_tree/component/fixlen/delta_record.hpp:NeedConsolidation,NeedWaitSMOs,GetPayloadAtomically"]}
{"id": "C73", "title": "No merge is left half done", "statement": "A merge takes the contents of a leaf out of the mapping table and puts them back into the left sibling, or into the leaf if the merge is not possible. At every moment every key belongs to a leaf in the table that has its record, or to a leaf that a thread has replaced by a removal mark; this thread is inside its call and not about to return. When no call is active, the leaves in the table hold the whole map: every key belongs to exactly one leaf, the leaves are linked in the order of the keys, and no leaf has a removed right sibling. The same holds for inner pages: the right sibling of a live page and the child of a record in force of a live index node are in the table, or taken out by a thread inside its call.", "quantifier": "every reachable state of every number of threads", "why_tests_cant": "contents that are lost on a rare failure path of a merge are noticed only if a later operation looks for one of the keys; the state between the two writes of a merge is never seen by a single test thread", "anchors": ["include/bw_tree/bw_tree.hpp:TryMerge,TryDeleteIndexEntry,TryRemoveRoot,GetHeadForMerge"]}
{"id": "C74", "title": "Scans of a quiet tree reach the end and return the map", "statement": "After any execution, when no call is active, a scan of any range that runs alone makes finitely many visits, reaches its end, leaves the shared memory unchanged, and returns exactly the records of the map in the range, in the order of the keys, whatever structure modifications and races happened before.", "quantifier": "every execution of every number of threads that leads to a quiet state, every range, every scanning thread", "why_tests_cant": "whether the links between the leaves are complete after an arbitrary interleaving of splits and merges cannot be tested exhaustively; a scan stuck behind a removed leaf needs a particular race", "anchors": ["include/bw_tree/bw_tree.hpp:Scan,SiblingScan,ConsolidateForScan,SearchLeftmostLeaf,GetHead"]}
{"id": "C75", "title": "The index of a quiet tree leads to live pages", "statement": "After any execution, when no call is active: the right sibling of a live page is live, on the same level, and begins where the page ends; every record of a live index node that has not been deleted or replaced leads to a live page that begins with the key of the record. Hence a search that goes from index nodes to their children only (in particular one that meets no index nodes with delta records) meets no removed page, and Read ends with the value of the map.", "quantifier": "every execution of every number of threads that leads to a quiet state, every page, every key", "why_tests_cant": "a record that leads to a removed page is noticed only by a later search for a key of that range, which then never returns; which races leave one behind cannot be enumerated by tests", "anchors": ["include/bw_tree/bw_tree.hpp:SearchLeafNode,GetHead,TryMerge,TryDeleteIndexEntry,TryRemoveRoot", "include/bw_tree/component/fixlen/delta_record.hpp:SearchRecord (inner chains)"]}
{"id": "C76", "title": "Operations on a quiet tree end with the right answer", "statement": "After any execution, when no call is active, every operation (Read, Write, Insert, Update, Delete) of any thread that runs alone ends, returns the answer of the map and changes the map as specified; for the writes this includes the consolidation of the leaf.", "quantifier": "every execution of every number of threads that leads to a quiet state, every thread, every operation whose search meets no removal mark; writes: the leaf of the key takes one more record without a split or merge", "why_tests_cant": "whether the state left behind by an arbitrary race still lets a later write end depends on waiting flags, pending marks and unset words anywhere on its path", "anchors": ["include/bw_tree/bw_tree.hpp:Read,Write,Insert,Update,Delete,GetHeadWithKeyCheck,TrySMOs,TryMerge"]}
{"id": "C77", "title": "A quiet tree in order works like one that was built by a single thread", "statement": "After any execution of any number of threads, when no call is active and no race has left the index in disorder (the root is not removed, every page in the table except the root is a child of an index node, leftmost children are not removed, and the records in the chains of index nodes catch the keys of their children only): every search meets only live pages and goes from index nodes to their children; every operation of a thread that then works alone ends with the answer of the map, with all the splits and merges it makes, and so do the operations after it; every scan reaches its end and returns the map.", "quantifier": "every execution of every number of threads that leads to a quiet state in order, every further sequence of operations and scans by one thread", "why_tests_cant": "that a later split or merge does not trip over something an earlier race left behind depends on the whole history; tests see only a few histories", "anchors": ["include/bw_tree/bw_tree.hpp:Read,Write,Insert,Update,Delete,Scan,TrySMOs,TrySplit,TryMerge,TryDeleteIndexEntry,TryRemoveRoot"]}
{"id": "C78", "title": "Consolidating an index node makes its searches exact", "statement": "Whatever races have left in the delta chain of an index node (records whose upper bounds are out of date, words of deleted records), consolidation of the node succeeds at every moment, and a search for any key in the page it writes, or in the two halves of a split, goes on to the child of the last separator at or before the key among the separators in force, and beyond the node to its right sibling. In a quiet tree this page is live. Holds on records and on the bytes of both page layouts.", "quantifier": "every index node in every reachable state, every key, open and closed searches", "why_tests_cant": "which outdated records a chain can hold depends on races of splits and merges; a test sees a wrong child only when the interleaving happens", "anchors": ["include/bw_tree/bw_tree.hpp:SearchChildNode,TryConsolidate", "include/bw_tree/component/delta_chain.hpp:SearchChildNode,Sort", "include/bw_tree/component/fixlen/node.hpp:SearchChild", "include/bw_tree/component/varlen/node.hpp:SearchChild"]}
{"id": "C79", "title": "One thread works on the bytes of a quiet tree", "statement": "After any execution of any number of threads on bytes (pages of either layout, recycled memory, spurious failures of CASStrong included), when no call is active, no page makes others wait, and the tree that the bytes hold is in order (C77; it is enough that the index nodes have no delta records, every page is found by a search and leftmost children are not removed): one thread works on the bytes as on those of a new tree. Every operation ends with the answer of the map from strings to strings, every scan ends with the records in the range, with all splits and merges, unless page IDs no longer fit in a word.", "quantifier": "every execution of every number of threads on bytes that leads to such a state, every further sequence of calls by one thread, every content of recycled pages", "why_tests_cant": "the bytes depend on the whole history and on what recycled pages held before", "anchors": ["include/bw_tree/bw_tree.hpp:Read,Write,Insert,Update,Delete,Scan,TrySMOs", "include/bw_tree/component/varlen/node.hpp", "include/bw_tree/component/fixlen/node.hpp"]}
{"id": "C80", "title": "Writes that take turns, with readers at any time", "statement": "In an execution in which no two writes (Write, Insert, Update, Delete) overlap, while reads and scans go on at any time: the writes act on the shared memory as those of a single thread, and return what the map returns in that order. Whenever no write is active, no page makes a thread wait and every search goes from index nodes to their children. An operation called then (a write included, whatever reads and scans overlap with it) makes a bounded number of accesses and returns the right result, as long as no other write is called before it returns; so does a scan's first visit. (Reads that overlap with a write have no such guarantee: C08-C10 fail with one writer.)", "quantifier": "every interleaving of every number of threads in which writes do not overlap, every amount of spurious failures of CASWeak", "why_tests_cant": "readers may sleep at any point through any number of splits and merges", "anchors": ["include/bw_tree/bw_tree.hpp:Read,Scan,Write,Insert,Update,Delete,SearchLeafNode,GetHead,TrySMOs"]}
{"id": "C81", "title": "A reader-writer lock makes the tree safe", "statement": "In an execution in which a write (Write, Insert, Update, Delete) overlaps with no other call, while reads and scans may overlap with each other and an iterator may be kept across writes between two of its visits: no thread ever runs into undefined behaviour or one of the failures of C08-C10, the history is linearizable, every operation called while no write is active makes a bounded number of accesses and returns the right result, and so does the next visit of every iterator, even if its page has been split or removed since the iterator was obtained.", "quantifier": "every interleaving of every number of threads in which writes overlap with no other call, every amount of spurious failures of CASWeak", "why_tests_cant": "iterators may be held through any sequence of splits and merges", "anchors": ["include/bw_tree/bw_tree.hpp:Read,Scan,Write,Insert,Update,Delete,SiblingScan,TrySMOs", "include/bw_tree/component/record_iterator.hpp"]}
{"id": "C82", "title": "Writes that take turns and reader-writer locks, on the bytes", "statement": "C80 and C81 on the bytes of the pages, with compare-and-swaps that compare addresses. If no two writes overlap, the writes act on the bytes as those of a single thread and return what the map from byte strings to byte strings returns; an operation or scan called while no write is active makes a bounded number of accesses to shared memory among any readers, whatever the bytes of the pages it takes, and returns the right result. If writes overlap with no other call, moreover, no thread runs into undefined behaviour or a failure of C08-C10, and the next visit of every iterator ends with a page of the map, even if its page has been removed since.", "quantifier": "every interleaving of every number of threads with the stated restriction on writes, every content of fresh pages; new trees of both layouts, bulk-loaded fixed-length trees, and every state from which C79 holds", "why_tests_cant": "needs readers that sleep, and iterators that are held, through any sequence of splits and merges", "anchors": ["include/bw_tree/bw_tree.hpp:Read,Scan,Write,Insert,Update,Delete,SiblingScan,TrySMOs", "include/bw_tree/component/varlen/node.hpp", "include/bw_tree/component/fixlen/node.hpp"]}
{"id": "C83", "title": "A bulkloaded tree that is only read", "statement": "After Bulkload of a sorted, duplicate-free sequence, with fixed- or variable-length keys, any number of threads may read and scan the tree at the same time: the history is linearizable to the map of the given records, no thread runs into undefined behaviour or one of the failures of C08-C10, and the tree stays as it is, although sizes of bulkloaded nodes are not exact with variable-length keys (C23).", "quantifier": "every sequence, every number of threads of Bulkload, every size of pages, records and keys, every interleaving of every number of readers", "why_tests_cant": "the sizes of nodes and the borders of partial trees depend on exact lengths of keys and numbers of records and threads", "anchors": ["include/bw_tree/bw_tree.hpp:Bulkload,Read,Scan,SiblingScan,ConsolidateForScan", "include/bw_tree/component/varlen/node.hpp:Bulkload,LinkNext", "include/bw_tree/component/fixlen/node.hpp:Bulkload,LinkNext"]}
