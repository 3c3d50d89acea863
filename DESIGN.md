# Formal model of dbgroup-nagoya-u/bw-tree in Lean 4

The code under `/repo/include/bw_tree` is a header-only, latch-free Bw-tree.  The model in
`lean/Verif` follows it function by function; every definition cites the file and lines it models.
`MANIFEST.json` maps each property of `properties.jsonl` to theorems.

## Modules

| Directory | Content |
|---|---|
| `Spec` | what the properties are about: abstract map and histories (`Map`, `Linear`, `Seq`), meaning of a delta chain read top-down (`Chain`), reachable pages (`Reach`), scans (`Scan`), bulkload (`Bulk`), statistics (`Stat`). No search, sort or consolidation code and no proof helper is used there. |
| `Util` | `CompareAsCString`, `Log2`, `Metadata` |
| `Tree` | `Model`: base nodes, delta chains, searches, insertion sort, `TryConsolidate`, scan positions, sizes. The rest are proofs (`WF` is the well-formedness predicate). `KeyBuffer`: the thread-local key buffer of the variable-length layout during merges. `SortArray`: the sort array with indices, `memmove` and key buffers |
| `Fix` | delta records, nodes, consolidation and searches on the bytes of the fixed-length layout (`Model`, `Search`, `FixLay`), callers with byte strings (`Strings`), what it means that bytes hold a chain (`Img`); the rest are proofs |
| `Layout` | byte-level pages: fixed-length and variable-length nodes, sizes of delta records, varlen bulkload (`Model`); delta records, consolidation and searches on the bytes of the variable-length layout (`Chain`, `Search`); what it means that bytes hold a chain (`Img`); the rest are proofs |
| `MapTable` | `GetNewPageID` as an interleaving state machine, slots, destructor, statistics |
| `Bulk` | `Bulkload` of both layouts: layers, shares of the workers, joining, resulting mapping table |
| `Conc` | `Prog`/`Code`: every function of `bw_tree.hpp` that the point operations and scans call, as a program over atomic accesses to shared memory; `System`: any number of threads; `Exec`: executable scenarios; `Ghost`: ghost state, invariant, rely/guarantee logic; the rest are proofs. `Iter`, `Solo`: iterators, a thread that runs alone; `Seq*`: a stronger invariant for executions in which one thread makes all calls; `Tot*`: termination; `Session`: complete calls of one thread |
| `Iter` | iterators of one thread sharing the thread-local node page |
| `Gc` | life of delta records and nodes (allocation, publication, replacement, retirement, reuse); types under which memory is allocated and retired |
| `Mem` | the programs of `Conc` on a memory of records at addresses, with allocation, reclamation and reuse (`Frame`, `System`); `Exec`: executable scenarios; the rest are proofs |
| `Stat` | `CollectStatisticalData` |
| `Weak` | the programs of `Conc` on a memory with relaxed and release/acquire accesses |
| `Keys` | the functions of `Conc` in the general layout with every key a pointer, possibly into one of the thread-local key buffers (`Model`); agreement with `Conc` for pointers outside these buffers (`Stable`) |
| `Bytes` | `Prog`: the functions of `Conc` on objects made of bytes, over an interface `Lay` for the layout; `VarLay`: the variable-length layout; `System`: any number of threads; `Exec`: executable scenarios; `Strings`: legal calls; the rest are proofs that every execution on bytes is one of `Conc/System` |
| `Props` | the property theorems, each with a non-vacuity example or a concrete witness |

## Concurrency

A program is a term of a free monad (`Conc/Prog`) whose operations are the atomic accesses of the C++
code: load, store, CAS of a mapping-table slot and of `root_`, load and store of the payload word of an
index-delete record (the only field of a published record that is ever overwritten), reservation of
a page ID.  Between two such accesses the code works on immutable chains or thread-local data; this
is a pure function.  A step of the system is a call, one access, or a return.

* Loops carry a fuel argument.  A thread without fuel stops (`stuck`); the theorems hold for all
  fuels, so every finite prefix of every execution is covered.
* CAS compares chains by value and may always fail.  Failing covers `compare_exchange_weak`.  The code
  compares addresses; that this is the same is proved (next section).
* `Flag`: the model stops a thread at the moments at which the code loses the level of the tree: an
  inner node treated as leaf or vice versa, `pop_back`/`back` on an empty stack, a target node missed.
  These moments exist in the code (C08-C10 are refuted with schedules); what the code does
  afterwards is undefined behaviour or depends on garbage.  All theorems over executions are therefore
  named `_partial`; this is the only gap, unless the note in the manifest says otherwise.
  `C07_no_event`: with a single thread these moments do not occur.
* `ub`: other undefined behaviour (empty slot, position out of range, failed sort). Never
  reached (part of the soundness theorem).
* Sequential consistency is assumed, except in `Weak` (see below).

The invariant (`Conc/Ghost`) is kept by rely/guarantee: ghost state gives each page its
family (level) and lower bound, the state of its index entry, the owner of a frozen page,
and the abstract map; `Sound` relates ghost and concrete states; `Sound.step` is the induction step.

A thread may run under a `Regime`, an assumption on the states the others leave: none (`free`), an
unchanged root pointer (`fixed`), or no removal marks (`nomark`).  Under the latter two the `Flag`s
a call can reach are few (`Props/Levels`).  All other theorems use `free`.

### Addresses

`Mem/System` runs the same programs on a memory `Obj → Rec` of records with `next_` pointers.  The
mapping table holds addresses; a load follows the pointers in the memory as it is; a CAS
compares addresses; objects are allocated with arbitrary contents, written while private, retired by
`AddToGC`, and freed by the collector, which destroys their contents.  A frame (`Mem/Frame`) holds the
local variables of a call that are pointers or page IDs.  An access the thread is not
entitled to ends in `ub` (`Bad`).

`Mem/Prov` proves about the programs what they need to remember (a CAS expects a head that was loaded
or published by this call, the store of a split follows a recheck, a restored node is the removed one).
`Mem/Inv`, `Mem/Steps`: the memory stands for the mapping table of chains, kept by every step;
this uses the reachability invariant of `Gc`, whose steps are now derived from the programs.
`Mem/Couple`: every execution with addresses is an execution of `Conc/System` with the same history
(`Cpl.run`), so the theorems about histories and threads hold for it (`C01_addresses_partial`,
`C01_refines_partial`), and `Bad` does not happen.  `C01_enabled_partial`: the steps of `Mem/System` do not
block a thread, and a CAS whose address is in the slot can succeed.

The calls of `SiblingScan` take no guard in the code (C37 is refuted); `gn` says whether they are
left out or repaired.

### Memory orders

`Weak/Model` runs the same programs on a memory with time stamps and views (relaxed and release/acquire
atomics without speculative writes, the promise-free part of the "promising" semantics): a read may
return any write that is not older than what its thread has seen.  Slots are release/acquire as in
`logical_ptr.hpp`; `root_`, the words of index-delete records, and the counter and row pointers of the
mapping table are relaxed as in the code, or release/acquire (`Orders`).  The question is C58: the code
does not test row pointers and slots against null, so a thread that learns a page ID must have seen its
row and its node.  `Weak/Known` proves about every program where the page IDs it uses come from;
`Weak/Inv` that a view covers the rows and nodes of all page IDs known to the thread, provided the relaxed
groups are strengthened or not written to.  `Weak/Mono`: stronger orders have fewer executions;
`Weak/Sc`: every execution of `Conc/System` is one of the weak machine.  `Weak/Exec`: executable scenarios.  The witnesses are
executions allowed by C++; x86 does not show them unless the compiler reorders, ARM may.

### Keys by reference

With variable-length keys a key argument is a `char *`, and the functions that read a key from a page
copy it to a thread-local buffer and return a pointer to that.  `Conc` passes keys as values.
`Keys/Model` repeats the searches, `TrySMOs`, the operations and the scans with pointers (`Ref`) and the
contents of the five buffers (`Bufs`).  `Keys/Stable` proves that nothing changes as long as the key is
in the caller's memory or in the buffer of `Node::GetLowKey`/`GetHighKey`, and that the keys the tree
passes to itself (separator of a split, deep copy of the key to delete, sibling key in the buffer of
`DeltaRecord::GetHighKey`, next key of an iterator) lead to the accesses of `Conc`.  The pointer an
iterator hands out is the exception (C59).  All keys have the same length here (a shorter key would
leave the tail of the previous one in the buffer, but every comparison stops at the length of a
key).

### Bytes

`Conc` works on records.  `Bytes` has the same functions on byte arrays, over an interface of page
layouts (`Lay`).  There are two instances: `Bytes/VarLay` (variable-length data, pages and searches in
`Layout`) and `Fix/FixLay` (fixed-length data, `Fix`).  In both,
every constructor of a node or delta record writes into a page with arbitrary old bytes, every search
decodes metadata and compares the bytes of keys, heads are compared by identity.  `Layout/Img` defines
when bytes hold a chain (`CImg`); `Layout/*` prove that each search and each constructor respects it,
(and `Fix/*` the same for fixed-length data); `Bytes/VarSim` and `Fix/FixSim` collect this in `LayOK`, and `Bytes/Run` shows that every step of a system on bytes is a
step of `Conc/System` (`run_sim`).  The theorems of `Conc` about histories, undefined behaviour and
shapes of nodes hold for bytes through this (C61, C62, C64, C65).  The image carries the bounds of every
record (`Boxed`), and the constructors leave everything outside their page as it was (`Framed`): C63, C66.
`Fix/Bulk` is `Bulkload` on the bytes of fixed-length pages (C67; `Fix/BulkSim`: what it makes, `Fix/BulkEnds`:
that it ends); C64-C66 hold for trees that start empty
and for trees that start bulkloaded (`Fix/Start`).  `Bytes/VarBulk` is `Bulkload` on the bytes of
variable-length pages (C68, C69; `Bytes/VarBulkSim`, `Bytes/VarBulkEnds` as for `Fix`).  With
variable-length keys executions start from a bulkloaded tree only if it is a single leaf (`Init.bulk`,
`Props/VarFew`): the sizes of further leaves are wrong from the start (C23, C68_false).

One thread (C70): `Bytes/Session` defines runs without spurious failures, programs that end whatever the bytes
of the pages they take (`BEnds`), and sequences of calls (`BSession`).  `Bytes/Solo` shows that a thread alone
always hands the current head to its compare-and-swaps; `Bytes/SoloSim` carries runs over to `Conc` and
termination back; `Bytes/StrSpec` carries the abstract map over to strings.

* Fixed-length data: `low_key_`, `high_key_` and their flags are fields of the header next to the bytes; the
  page size is a power of two (`GetPayloadAddr` rounds `node_size_` up to it); the payload of a delta record
  starts where the keys of a node start (the copy loop reads one through the other).

* Variable-length data: a key has at least one byte.  The code marks a missing bound by key length zero, so an empty key
  as separator would be taken for no bound.
* Page IDs handed out fit in a page ID (`npid ≤ 256 ^ pid`).
* `next_` and the pointer of a merge delta are references to objects, the word of an
  index-delete record is a cell of its own as in `Conc`; `Comp` sees the bytes of the keys only.

### One thread

`Conc/Seq*` add an invariant that holds when a single thread runs: every page is indexed, every
removed page merged, every word set, except for what the running call is working on.  `Conc/Tot*`
prove termination with it: a potential over all pages decreases with every structure
modification, provided a page stays clear of the merge threshold after a split (`Roomy`; the default
configuration qualifies) and `CASStrong` does not fail spuriously.  `Firm` are steps without spurious failures; `Loose n j` are runs in
which `CASWeak` (recognized by its new value, a delta record on the expected head: `Weak`) fails `j` times; `tp j` is
the logic for at most `j` failures (C71).  `Conc/Fuel`: a larger bound on
the loops changes nothing for a call that ends.  `Conc/Session`: complete calls of one thread,
one after the other; every call and every scan ends (`Props/SeqTotal`, `Props/StatRest`).

### Waiting

`Conc/Sure`: runs in which `CASStrong` does not fail spuriously.  `Conc/Owes` reads off the programs what a thread still has
to do: `Releases p n c` (it replaces the chain `c` of page `p` with its next accesses, at most `n`, and waits for nothing),
`Sets w` (it does not return before word `w` is set), `Tidy` (it never makes a chain that needs waiting, or takes over a
word, without being one of the above afterwards).  `Conc/Waits`: every page that makes visitors wait and every unset word has
such a thread (C72).  A limit of `Sure`: chains are compared by value, so `CASStrong` may fail only if the slot holds another
chain.  In the code it also fails if the slot holds a different object with an equal chain (a page is consolidated, changed and
changed back).  The theorems that use `SureRun` (C72-C74, C76, C77, C80, C81) do not cover these runs; the theorems on bytes
(C70, C79, C82) compare addresses (`Head.id`) and do.

`Conc/Settle`: a thread that took a page out of the table does not return before its contents are back or the page is no
longer the root (C73).  `Settles q n` says so of a program, `Tends` that a program, once it has taken a page out, has this property.  `Spec.LeafLevel` states what
the leaves of a quiet tree are.

`Conc/QuietScan`: in a quiet tree the visits of a scan that runs alone end (C74); only the search for the first leaf depends
on the index (`Spec.CalmBegin`).

`Conc/QuietIndex`: in a quiet tree siblings and children are live (C75).  A child (`Spec.ChildOf`) is what a record in force
says; the search can also be caught by an outdated record in the chain (`Spec.UpToDate` excludes it).

`Conc/QuietWrite`: in a quiet tree a write that runs alone ends (C76), if it needs no split or merge (`Spec.Roomy`).  `Ends`
lists the loads, stores and successful exchanges of a thread that runs alone.

`Conc/QuietOrder`: a quiet tree in order (`Spec.InOrder`, a condition on the shared memory) satisfies the invariant of a
thread that works alone (`Rested`, used for C07 and C12), so all further calls of one thread end, splits and merges included
(C77), spurious failures included, and the statistics count each live page once (`C77_in_order_stat`).

`Props/IndexCons`, `Props/IndexBytes`: whatever the chain of an index node holds, searches in its consolidated page (or the
halves of its split) are exact (C78, `Spec.IndexStep` in `Spec/Child`), on records and on the bytes of both layouts; searches
in the chain itself are exact if the chain is tight.

`Bytes/QuietTree`, `Props/QuietBytes`: C77 on bytes (C79).  The single-thread simulation (`Bytes/SoloTree`) starts from any quiet
state, not only from new trees; `accepts_enc` turns histories of records into histories of strings, so C62 and C65 are also
stated with the map from strings to strings alone (`C62_bytes_accepted_partial`).  `PackedBytes` is a condition on bytes only.

`Conc/Readers`, `Props/WritesApart`: writes that take turns (C80).  `Read`, `Scan` and the visits of iterators consist of loads
(`Prog.ReadsOnly`), so in a history in which writes do not overlap (`Spec.Apart`, `Spec/Apart.lean`) the shared memory is that of a
`Session` of the completed writes, plus the accesses of at most one active write (`Serial`).  `During` follows one call among readers
and counts its accesses and spurious failures.

`Conc/Exclusive`, `Props/Exclusive`: writes that overlap with no other call (C81, `Spec.Exclusive`), as under a reader-writer lock.
The ghost state is carried through the whole execution (`Excl`): between writes every active call is a reader on unchanged memory
(`ReadPart`), during a write all other threads are idle.  So no thread ever meets undefined behaviour or an event of `Flag`, and the
linearizability theorems hold without that proviso; iterators obtained before later writes are covered.

`Bytes/Readers`, `Bytes/Exclusive`, `Props/LockBytes`: C80 and C81 on bytes (C82).  `BSureRun` are executions whose compare-and-swaps do
not fail when the slot holds the expected address; `BSerial`, `BExcl` and `BDuring` correspond to `Serial`, `Excl` and `During`.  Every
iterator has a session of one thread that ends in the current memory with this iterator (the writes of all threads and its own
visits), so the theorems on sessions apply to it.  `Works` lists what is needed of the first state; it is proved for new and
bulk-loaded trees and for the quiet trees of C79.  `Bytes/ActExec` runs examples.

## Simplifications

* `Comp` is the `<` of a linear order (keys up to equivalence).
* Sizes are unbounded integers; that they stay small is C20-C22. `CfgOK2` lists what the proofs
  require of the constants; the `static_assert`s of the code do not imply it for extreme key sizes
  (C22, C32, C50, C56).  `smallCfg`, `lazyCfg`, `mixCfg`, `defCfg` are the configurations of the witnesses; the
  last one has the default constants.
* `Tree` and `Conc` cover both page layouts at the level of records and sizes (`Cfg.klen` is the
  length of a key, zero in the fixed-length layout; `Cfg.buf` selects the merge check that reads the
  sibling's key through the shared key buffer, `Tree/KeyBuffer`).  The bytes are in `Layout` and `Bytes`.
  Executions that start from a bulkloaded tree have the fixed-length layout or start with a single leaf
  (`Init.bulk`): sizes of bulkloaded nodes with variable-length keys are not exact (C23).  A `Read` or `Scan` of a
  bulkloaded tree does not look at sizes and is right in any layout as long as nobody writes (C30, C83, `Bulk/Resize`,
  `Props/LoadReads`: the tree is compared with one that has exact sizes in a build `flatCfg` with larger pages).  `CfgOK2` holds for the default build with keys of at most 128 bytes (`varCfg_ok`), `Roomy`
  for keys of at most 64 bytes in such pages (`shortCfg_roomy`) or 128 bytes in larger ones.
* A thread has at most one live iterator in `Conc` (more: C40, `Iter`).
* `Bulkload` runs before the threads start.  Its workers share nothing but page IDs (C25).
* `Gc` is a protocol model: every place at which a pointer enters or leaves the table or reaches the
  collector, in any order, by any thread.  `Mem` derives its steps from the programs of `Conc`.
  Both assume the contract of the external epoch-based collector: an object is freed only when all
  guards were taken after its retirement.
* In `Mem` a load reads the whole chain at once, and an unpublished object gets its contents when it is
  published.  From the load to the end of the call the address leads through the same objects, none is
  freed or reused, and their contents do not change (`C36_until_return_partial`; the word of an
  index-delete record is kept apart), so reading them later gives the same.
* `Stat` evaluates the traversal on one state.

* `Weak`: one level of rows with consecutive page IDs, adding a row is one step, a chain is read completely
  when its slot is read, no addresses and no reuse.  Speculative writes (load buffering) are left out;
  linearizability under weak memory is not treated.

Not modelled: the allocator and the collector beyond its contract, exceptions and
allocation failure, back-off (`BW_TREE_SPINLOCK_HINT`, sleeps), alignment, performance, the parts of
`Delete`/`Write` overloads that only forward arguments, destructors other than the mapping table's.

## Trusted base

* Lean's kernel.  Every theorem depends at most on `propext`, `Classical.choice`, `Quot.sound`
  (`vcheck` and `#print axioms`); no own axioms, no `sorry`, no `native_decide`.
* The reading of the C++ code recorded in the definitions of `*/Model.lean`, `Conc/Prog`, `Conc/Code`,
  `Conc/System`, `Keys/Model`, `Weak/Model`, `Mem/Frame`, `Mem/System`, `Tree/KeyBuffer`, `Tree/SortArray`, `Gc/Kinds`,
  `Layout/{Var,Chain,Search}`, `Bytes/{Prog,VarLay,System,Session}`, `Fix/{Search,FixLay,Bulk}`.
* The specifications in `Spec` and the statements in `Props`.

`decide` is used for concrete witnesses (negations, non-vacuity), never for a general claim.

## What the code violates

Each item is a theorem with a concrete witness; the positive part that does hold is in the manifest.

| Property | Finding |
|---|---|
| C01 | consequence of C08: a `Read` that ends on an index node copies a page ID into its result (eight-byte payloads); the history is not linearizable (`Props/Escape.lean` adds this one transition to the model) |
| C08, C09, C10 | after racing merges and root removals a thread pops more ancestors than it pushed and continues on a wrong level, or on an empty stack; an unbounded scan may start in a removed or inner page |
| C08 | also without merges: an index entry posted late still has the upper bound from before a further split of the child; if its node has been split too, the entry reaches beyond the node and hides the right sibling, and the search for the parent of that sibling ends below it |
| C13 | a scan whose open begin key equals a leaf separator: position taken from the previous leaf; the key may be returned |
| C22, C56 | with variable-length keys just below a quarter of a page the left half of a split exceeds its page, or gets all records and leaves no separator |
| C23 | varlen bulkload passes the leaf flag inverted; the lowest key of a leaf is not counted |
| C24 | record offsets are cast to 16 bits (pages above 32 KiB) |
| C27 | directory of 504 entries checked against 512 |
| C28 | destructor releases nothing while the first table is in use |
| C29 | used bytes one word too many |
| C32 | with large keys index nodes take one entry and bulkload does not end |
| C37 | `SiblingScan` and `CollectStatisticalData` run without epoch guard |
| C40 | iterators of a thread share one page |
| C42 | a merge can wait for itself |
| C47 | a quiet tree on which `Read` loops forever |
| C48, C50 | odd page sizes, maximum key lengths such as 12 or 108 bytes |
| C49 | pages without index entry and nodes hanging from merge records are not counted |
| C52 | the separator of a merge check lies in a buffer that is overwritten |
| C54 | `Bulkload` on a non-empty tree retires a delta record as a node |
| C58 | `root_`, the word of an index-delete record and the row pointers of the mapping table are accessed with relaxed order: a thread may learn a page ID without seeing its node or row, and dereference null; with release/acquire for the three it cannot |
| C59 | with variable-length keys `RecordIterator::GetKey` returns a pointer into the buffer that every search overwrites: `Read(it.GetKey())` returns the payload of another record, `Delete(it.GetKey())` deletes another record |
| C63 | an index-delete record with two keys of 12 bytes changes bytes behind its page of 64 bytes (C50 on bytes) |
| C65 | pages of 6000 bytes (fixed-length data): after ten insertions a read returns bytes nobody stored (C48 end to end) |
| C68 | variable-length keys: Bulkload of 17 records, two insertions, and a loaded record is lost (C23 end to end) |
| C60 | an iterator keeps a reference to the caller's end key; changing the variable changes the range of the scan |

Further observations, not properties: `Bulkload` replaces the whole contents; `rec_count_` has 16 bits;
a zero-length varlen key counts as "no key"; `ConsolidateForScan`'s test for a removed node is dead
code; an orphaned root (race of `TryRootSplit`) may post an entry on a wrong level, harmless without
merges.

## Mutation tests

`seeded/LOG.jsonl` records edits of the model (wrong programs) tried in a scratch copy, the claim they
break and the theorems that then failed.
