{"id": "C01", "title": "Crash-safe key-value store: every execution is one the map specification allows", "statement": "Take the coordination layer (client requests, queries, puts, replies, sync requests, background journal and map work, commits, superblock writes, crashes, recovery). For every execution there is an execution of the crash-tolerant asynchronous map specification with exactly the same client-visible events in the same order (requests accepted, replies delivered, sync requests, sync replies, crashes).", "quantifier": "every finite execution: every interleaving of client, background, commit and recovery steps and a crash at every point, for all keys and values", "why_tests_cant": "the set of interleavings and crash points is unbounded; a test can only sample schedules and cannot show that no schedule returns a wrong reply", "anchors": ["Splinter/src/abstract_system/AbstractCrashAwareSystem_v.rs: CoordinationSystem", "Splinter/src/abstract_system/AbstractCrashAwareSystemRefinement_v.rs: next_refines, i", "Splinter/src/spec/MapSpec_t.rs: CrashTolerantAsyncMap"]}
{"id": "C02", "title": "A sync that was acknowledged is never lost", "statement": "If a client asks for a sync after some puts have been executed and is later told the sync is complete, then after any number of later crashes and recoveries the store's contents still include all of those puts: the state recovered is the result of executing a prefix of the executed operations that contains every operation executed before the sync was requested.", "quantifier": "every execution of the crash-tolerant map specification, every sync id, every later crash point", "why_tests_cant": "durability is about all futures after the acknowledgement, including every crash point; a test sees only the crashes it injects", "anchors": ["Splinter/src/spec/MapSpec_t.rs: CrashTolerantAsyncMap::req_sync, reply_sync, crash, sync"]}
{"id": "C03", "title": "Recovery shows a prefix: no reordering, no holes, no invention", "statement": "After a crash the contents of the store are exactly the contents it had after some earlier executed operation, and that operation is not older than the last completed commit. Operations are never reordered, partially applied or invented by crash recovery.", "quantifier": "every execution of the coordination layer and of the map specification, every crash point", "why_tests_cant": "it is a statement about all crash points of all histories", "anchors": ["Splinter/src/spec/MapSpec_t.rs: CrashTolerantAsyncMap::crash", "Splinter/src/abstract_system/AbstractCrashAwareSystem_v.rs: crash, recover", "Splinter/src/abstract_system/MsgHistory_v.rs"]}
{"id": "C04", "title": "Commits can happen", "statement": "The coordination layer can make data durable: there is an execution in which a put is executed, a commit runs to completion and a sync covering that put is acknowledged.", "quantifier": "all executions of the coordination layer (existence, and for the negative result impossibility over all executions)", "why_tests_cant": "a transition that can never fire is invisible to refinement proofs and to unit tests of the other transitions; showing that it never fires needs an argument over all reachable states", "anchors": ["Splinter/src/abstract_system/AbstractCrashAwareSystem_v.rs: commit_start, commit_complete, reply_sync", "Splinter/src/abstract_system/AbstractCrashAwareJournal_v.rs: commit_start"]}
{"id": "C05", "title": "A query returns the value of the last put to that key", "statement": "In the map specification, after any sequence of executed puts and queries the reply to a query of key k carries the value of the most recent put to k, or the default value 0 when k was never put. A query changes nothing.", "quantifier": "all operation sequences, keys and values", "why_tests_cant": "all sequences over a 64-bit key and value space", "anchors": ["Splinter/src/spec/MapSpec_t.rs: MapSpec, AsyncMap", "Splinter/src/spec/TotalKMMap_t.rs", "Splinter/src/spec/Messages_t.rs"]}
{"id": "C06", "title": "Messages may be combined in any grouping", "statement": "Merging messages for one key is associative, a no-op update is a unit on both sides, a define absorbs everything older, and merging onto a define always leaves a define. Hence folding any list of messages in any bracketing gives the same final value, which is what lets buffers be merged or compacted in any grouping.", "quantifier": "all lists of messages and all bracketings of them", "why_tests_cant": "messages and bracketings are unbounded; the source has the associativity lemma commented out", "anchors": ["Splinter/src/spec/Messages_t.rs: Message::merge, combine_deltas, apply_delta"]}
{"id": "C07", "title": "Replaying a message history is compositional", "statement": "For well-formed histories: concatenation, cutting at an LSN (log sequence number) and discarding a prefix or a suffix are inverse and compose; replaying a history onto a stamped map equals replaying its first part and then the rest, for every cut point; the end LSN is the end of the history.", "quantifier": "all well-formed message histories, cut points and starting maps", "why_tests_cant": "histories have unbounded length and every cut point matters", "anchors": ["Splinter/src/abstract_system/MsgHistory_v.rs: MsgHistory::concat, discard_old, discard_recent, apply_to_stamped_map, map_plus_history"]}
{"id": "C08", "title": "The journal returns exactly what was appended", "statement": "Feed any sequence of appends and truncations to the journal. A read for recovery can only return messages that were appended, at the LSN they were appended at, none of them older than the last truncation point; a frozen journal used for a commit contains every such message of its range without gaps.", "quantifier": "all sequences of put, discard_old, internal, read_for_recovery and freeze_for_commit", "why_tests_cant": "unbounded histories and all truncation points", "anchors": ["Splinter/src/abstract_system/AbstractJournal_v.rs: AbstractJournal", "Splinter/src/abstract_system/MsgHistory_v.rs: includes_subseq"]}
{"id": "C09", "title": "The paged journal behaves like the abstract journal", "statement": "A journal kept as a linked list of immutable records, a boundary and an in-memory tail has the same observable behaviour as a flat message history: the same recovery reads, end LSN, frozen images, appends and truncations are possible, in particular when a truncation falls inside a record or inside the tail.", "quantifier": "all executions of the paged journal, all record layouts, all cut and truncation points", "why_tests_cant": "record layouts and truncation positions are unbounded; off-by-one errors at record boundaries only show for particular layouts", "anchors": ["Splinter/src/journal/PagedJournal_v.rs", "Splinter/src/journal/PagedJournalRefinement_v.rs: next_refines, init_refines"]}
{"id": "C10", "title": "The on-disk linked journal behaves like the paged journal", "statement": "A journal whose records are disk blocks linked by addresses refines the paged journal: following pointers terminates, no reachable pointer dangles, and appending, cropping and truncating (including dropping unreferenced blocks) give the same results as on the in-memory list.", "quantifier": "all executions of the linked journal over all disk contents that start well formed and acyclic", "why_tests_cant": "quantifies over all reachable disks and address assignments", "anchors": ["Splinter/src/journal/LinkedJournal_v.rs", "Splinter/src/journal/LinkedJournalRefinement_v.rs: next_refines, init_refines"]}
{"id": "C11", "title": "Truncating the journal and reclaiming blocks loses nothing that is still needed", "statement": "After the linked journal discards everything before an LSN, whatever unreferenced blocks it chooses to drop, every message at or after that LSN can still be read, and blocks that were dropped are only ones no longer reachable from the newest record above the boundary.", "quantifier": "all well-formed acyclic disks, roots, truncation points and choices of blocks to drop", "why_tests_cant": "the choice of blocks to drop is nondeterministic and the disk unbounded", "anchors": ["Splinter/src/journal/LinkedJournal_v.rs: discard_old, valid_discard_old, build_tight", "Splinter/src/journal/LinkedJournalRefinement_v.rs: iptr_ignores_extra_blocks"]}
{"id": "C12", "title": "Searching a sorted run finds the right position", "statement": "For a sorted run of keys, largest_lte returns the index of the last entry not above the needle (or -1) and largest_lt the index of the last entry below it (or -1); if the needle is present largest_lte points at it and largest_lt points just before it (for strictly sorted runs).", "quantifier": "all sorted sequences of keys and all needles", "why_tests_cant": "the two lemmas are assumed, not proved, in the source and hold for runs of any length; a test covers only sample runs", "anchors": ["Splinter/src/spec/KeyType_t.rs: Key::largest_lte, Key::largest_lt, Element::largest_lte"]}
{"id": "C13", "title": "Every key is routed to exactly one child", "statement": "In a well-formed pivot table every key between the first and last pivot belongs to exactly one range, route returns that range, and inserting a legal pivot keeps the table well formed and only subdivides one range.", "quantifier": "all well-formed pivot tables, keys and legal insertions", "why_tests_cant": "pivot tables have unbounded length", "anchors": ["Splinter/src/betree/PivotTable_v.rs: PivotTable::route, insert, bounded_key", "Splinter/src/betree/Domain_v.rs"]}
{"id": "C14", "title": "The paged betree is a map", "statement": "A tree of buffered nodes plus an in-memory write buffer behaves like a plain map: a query answers with the last put value, and pushing the write buffer into the root, growing, splitting nodes and flushing buffers to children never change any query answer. A frozen tree reopened answers the same.", "quantifier": "all executions of the paged betree: any tree shape, any path, any split and flush key sets", "why_tests_cant": "trees and schedules of reorganisation are unbounded", "anchors": ["Splinter/src/betree/PagedBetree_v.rs", "Splinter/src/betree/PagedBetreeRefinement_v.rs: next_refines", "Splinter/src/betree/Memtable_v.rs", "Splinter/src/betree/Buffer_v.rs"]}
{"id": "C15", "title": "The pivot betree is a map", "statement": "With children held in sequences divided by pivot keys, queries still answer with the last put value and no grow, split of a leaf, split of an index node or flush along any path changes any answer; tree well-formedness is kept.", "quantifier": "all executions of the pivot betree from an image that is empty or whose root covers the whole key space", "why_tests_cant": "trees, pivots, paths and reorganisation schedules are unbounded", "anchors": ["Splinter/src/betree/PivotBetree_v.rs", "Splinter/src/betree/PivotBetreeRefinement_v.rs: next_refines, init_refines"]}
{"id": "C16", "title": "The filtered betree is a map: flush, garbage collection and compaction are invisible", "statement": "With stacks of buffers and per-child flush offsets, queries answer with the last put value; flushing to a child with any legal amount of buffer garbage collection and compacting any run of buffers never change any answer and keep the tree well formed.", "quantifier": "all executions of the filtered betree: any tree, path, child, garbage collection amount and compaction range", "why_tests_cant": "offset arithmetic errors only show for particular combinations of offsets and ranges, of which there are unboundedly many", "anchors": ["Splinter/src/betree/FilteredBetree_v.rs: flush, compact, can_compact, can_flush", "Splinter/src/betree/BufferOffsets_v.rs: adjust_compact, shift_left", "Splinter/src/betree/BufferSeq_v.rs", "Splinter/src/betree/FilteredBetreeRefinement_v.rs: next_refines"]}
{"id": "C17", "title": "The linked betree is a map", "statement": "When nodes and buffers are disk pages reached through addresses and every change writes fresh pages (copy on write), the tree seen from the root refines the filtered betree: queries answer with the last put value and reorganisation is invisible, whatever unreachable pages are dropped.", "quantifier": "all executions of the linked betree over all acyclic disks", "why_tests_cant": "all disks, address choices and schedules", "anchors": ["Splinter/src/betree/LinkedBetree_v.rs", "Splinter/src/betree/LinkedBetreeRefinement_v.rs"]}
{"id": "C18", "title": "B+tree insert and append are exactly map updates", "statement": "In a well-formed B+tree branch, inserting (key, message) at the leaf the key is routed to makes a query of that key return the message and leaves the answer for every other key unchanged; appending a sorted run to the leaf it is routed to adds exactly that run. Well-formedness is kept.", "quantifier": "all well-formed B+trees of any height and fan-out, keys, messages, legal paths", "why_tests_cant": "tree shapes are unbounded", "anchors": ["Splinter/src/betree/PivotBranch_v.rs: Node::insert, append, insert_leaf, Path", "Splinter/src/betree/PivotBranchRefinement_v.rs"]}
{"id": "C19", "title": "B+tree splits and growth never change an answer", "statement": "Splitting any leaf or index child of a node reached by any path, or growing the tree by one level, keeps the tree well formed and leaves every query answer unchanged.", "quantifier": "all well-formed B+trees, legal split arguments and paths", "why_tests_cant": "tree shapes and split positions are unbounded", "anchors": ["Splinter/src/betree/PivotBranch_v.rs: split_leaf, split_index, split_child_of_index, split, grow", "Splinter/src/betree/PivotBranchRefinement_v.rs"]}
{"id": "C20", "title": "Integers survive a trip through bytes", "statement": "Writing any u8, u16, u32 or u64 at any offset with room and reading it back gives the same integer; the buffer length and all bytes outside the written range are unchanged; reading fails exactly when too few bytes are available.", "quantifier": "all integers of each width, all buffers and offsets", "why_tests_cant": "2^64 values times all buffers; the source assumes part of this", "anchors": ["Splinter/src/marshalling/IntegerMarshalling_v.rs: IntFormat"]}
{"id": "C21", "title": "Fixed-size sequences survive a trip through bytes", "statement": "Encoding a sequence of fixed-size elements and decoding it gives the same sequence; reading element i gives element i; overwriting element i changes element i and no other; out-of-range indices are refused.", "quantifier": "all sequences, element formats of fixed size, buffers, offsets and indices", "why_tests_cant": "unbounded sequences; the source closes two loop proofs with assume(false)", "anchors": ["Splinter/src/marshalling/UniformSizedSeq_v.rs: try_parse, exec_marshall, exec_set, try_get"]}
{"id": "C22", "title": "Length-prefixed sequences survive a trip through bytes", "statement": "In a slot of fixed total size with a length field: initialising gives an empty sequence, append adds one element at the end and is refused exactly when full, resize changes only the length, overwriting element i changes only that element, and encode then decode is the identity. No operation touches bytes outside its slot.", "quantifier": "all sequences, capacities, length-field widths, buffers, indices and operation sequences", "why_tests_cant": "unbounded sequences and capacities; the source closes three loop proofs with assume(false)", "anchors": ["Splinter/src/marshalling/ResizableUniformSizedSeq_v.rs"]}
{"id": "C23", "title": "Variable-size sequences: append keeps what was there", "statement": "In a page with a boundary table growing from one end and elements from the other: initialise gives an empty page; append is accepted exactly when the element and its table entry fit in the free space, stores the element as the last one, leaves every earlier element readable and unchanged, and keeps the page well formed; table and elements never overlap.", "quantifier": "all page sizes, integer widths, element formats and sequences of appends", "why_tests_cant": "all sequences of appends at all capacities; a key lemma is assumed in the source", "anchors": ["Splinter/src/marshalling/VariableSizedElementSeq_v.rs: append, exec_append, appendable, get, well_formed"]}
{"id": "C24", "title": "Key-value pairs survive a trip through bytes", "statement": "Encoding a key-value pair and decoding exactly those bytes gives the same pair, for keys and values of any length the length field can express; the key length field never lets the key run past the end.", "quantifier": "all keys, values, buffers and offsets", "why_tests_cant": "unbounded byte strings", "anchors": ["Splinter/src/marshalling/KVPairFormat_v.rs"]}
{"id": "C25", "title": "Parsing arbitrary bytes never misbehaves", "statement": "Given any byte string (including corrupted ones), try_parse, try_get and try_length return a value exactly when the bytes are parsable and then the value the format defines; they never panic, and never read outside the slice they were given.", "quantifier": "all byte strings and slices", "why_tests_cant": "all byte strings, including adversarial ones", "anchors": ["Splinter/src/marshalling/SeqMarshalling_v.rs", "Splinter/src/marshalling/ResizableUniformSizedSeq_v.rs: try_parse, try_length", "Splinter/src/marshalling/VariableSizedElementSeq_v.rs: try_get, exec_well_formed"]}
{"id": "C26", "title": "The disk model keeps every page either old or new", "statement": "With an asynchronous disk, a page's content changes only when an issued write to that page is processed and then is exactly the data of that write; a read response carries the content of the page at the moment it was processed; a crash drops pending requests and changes no content; each request gets at most one response.", "quantifier": "all executions of the disk, all schedules of request processing, all crash points", "why_tests_cant": "all schedules and crash points", "anchors": ["Splinter/src/spec/AsyncDisk_t.rs: AsyncDisk"]}
{"id": "C27", "title": "The page cache over the disk is coherent", "statement": "Run the page cache on top of the disk with any schedule of loads, writes, write-backs, evictions and disk processing. A read through the cache returns the data of the last write to that page (or the initial disk content), a clean cached page equals the disk page, and eviction never loses a write.", "quantifier": "all executions of cache and disk together", "why_tests_cant": "lost-update schedules are rare interleavings; every proof obligation for the cache is closed with assume(false) in the source", "anchors": ["Splinter/src/implementation/Cache_v.rs: Cache", "Splinter/src/spec/AsyncDisk_t.rs", "Splinter/src/implementation/JournalCoordinationSystem_v.rs: clean_pages_agree_with_disk, outstanding_reqs_consistent_with_disk"]}
{"id": "C28", "title": "A page address occupies at most one cache slot and lookups find it", "statement": "In every reachable cache state two different slots never hold the same page, and the lookup table maps an address to a slot exactly when that slot holds the address.", "quantifier": "all executions of the cache", "why_tests_cant": "all schedules; the invariant stated in the source is assumed preserved", "anchors": ["Splinter/src/implementation/Cache_v.rs: inv, slots_hold_unique_addr, build_lookup_map"]}
{"id": "C29", "title": "The page allocator never hands out a page twice", "statement": "Starting from a fresh allocation unit, the addresses returned by successive reservations are pairwise different, lie inside that unit, are refused exactly when the unit is full, and the bookkeeping (reserved and observed pages) equals the set of pages handed out.", "quantifier": "all sequences of add, reserve/allocate, observe and prune calls, all unit sizes", "why_tests_cant": "all call sequences and unit sizes", "anchors": ["Splinter/src/exec/MiniAllocator_v.rs: PageAllocator, MiniAllocator", "Splinter/src/allocation_layer/MiniAllocator_v.rs"]}
{"id": "C30", "title": "Each client request is answered at most once and only if it was asked", "statement": "For every execution of the program in its environment: a reply delivered to the client carries the id of a request accepted earlier and not yet answered; no request id is answered twice, not even across a crash; the same for sync replies under the environment's id discipline.", "quantifier": "all executions of program, disk and client environment, all crash points", "why_tests_cant": "all schedules and crash points", "anchors": ["Splinter/src/trusted/SystemModel_t.rs", "Splinter/src/trusted/ClientAPI_t.rs", "Splinter/src/implementation/ConcreteProgramModel_v.rs", "Splinter/src/spec/MapSpec_t.rs: AsyncMap"]}
{"id": "C31", "title": "A sync reply implies the superblock on disk covers the sync", "statement": "In the program model a sync reply is only produced when the version recorded as persistent is at least the version current when the sync was accepted, and the superblock in the disk holds that version or a newer one.", "quantifier": "all executions of the program model with the disk, all crash points and write schedules", "why_tests_cant": "all schedules and crash points; the refinement proof in the source is closed with assume(false)", "anchors": ["Splinter/src/implementation/AtomicState_v.rs: AtomicState", "Splinter/src/implementation/ModelRefinement_v.rs", "Splinter/src/implementation/ConcreteProgramModel_v.rs"]}
{"id": "C32", "title": "The program model refines the crash-tolerant map", "statement": "Every execution of the system model (program, disk holding one superblock, client queues) from a formatted disk has an execution of the crash-tolerant map specification with the same client-visible events.", "quantifier": "all executions of the system model", "why_tests_cant": "all schedules and crash points; the proof in the source is closed with assume(false) and relies on an assumed marshalling round trip", "anchors": ["Splinter/src/implementation/ModelRefinement_v.rs: next_refines, init_refines, inv", "Splinter/src/trusted/RefinementObligation_t.rs", "Splinter/src/trusted/SystemModel_t.rs"]}
{"id": "C33", "title": "Sync request buffering never acknowledges too early", "statement": "In the executable program, a sync request received while a superblock write is in flight is only answered after a later superblock write that was started after the request has completed; requests are answered once each and none is dropped while running.", "quantifier": "all sequences of sync requests, launches and completions", "why_tests_cant": "all interleavings of requests and completions", "anchors": ["Splinter/src/implementation/Implementation_v.rs: SyncRequestBuffer, handle_sync_request, maybe_launch_superblock, send_superblock, deliver_inflight_replies"]}
{"id": "C34", "title": "Floating sequences keep absolute positions", "statement": "Taking a prefix or a suffix of a floating sequence keeps every remaining entry at the same absolute index, the length is the absolute end, and prefix and suffix commute and compose.", "quantifier": "all floating sequences and cut points", "why_tests_cant": "unbounded sequences; off-by-one errors at the start offset", "anchors": ["Splinter/src/spec/FloatingSeq_t.rs: FloatingSeq"]}
{"id": "C35", "title": "Write buffer equals replay", "statement": "Applying a history of puts to the in-memory write buffer and then reading through it gives, for every key, the same answer as replaying the history onto the map below it, in any batching of the history.", "quantifier": "all histories, batchings, keys and underlying maps", "why_tests_cant": "unbounded histories and batchings", "anchors": ["Splinter/src/betree/Memtable_v.rs: apply_puts, apply_put, query", "Splinter/src/abstract_system/MsgHistory_v.rs: apply_to_stamped_map"]}
{"id": "C36", "title": "The journal on the page cache can accept puts and refines the linked journal", "statement": "The composition of cached journal, page cache and disk offers the journal interface: appended messages become part of the journal and recovery reads through the cache return what the linked journal over the combined cache and disk pages returns.", "quantifier": "all executions of the composed journal system", "why_tests_cant": "all schedules; one proof is assumed, and a put transition that can never take effect is invisible to the refinement proof", "anchors": ["Splinter/src/implementation/JournalCoordinationSystem_v.rs: put, read_for_recovery, journal_marshal", "Splinter/src/implementation/CachedJournal_v.rs", "Splinter/src/implementation/JournalCoordinationRefinement_v.rs"]}
{"id": "C37", "title": "The allocating journal never reuses a live page", "statement": "While the journal marshals, truncates and refills its allocator, a block is only written at an address that no live journal block uses, allocation units given back are ones holding no block at or above the boundary, and the index from LSN to allocation unit always agrees with a walk of the blocks.", "quantifier": "all executions of the allocation journal", "why_tests_cant": "all schedules and disks", "anchors": ["Splinter/src/allocation_layer/LikesJournal_v.rs", "Splinter/src/allocation_layer/AllocationJournal_v.rs", "Splinter/src/allocation_layer/AllocationJournalRefinement_v.rs"]}
{"id": "C38", "title": "Reference counts of betree pages are exact", "statement": "In the betree with reference counting, the recorded number of references to every node page and every buffer page equals the number of references from the root pointer and from pages reachable from the root, so a page is released exactly when nothing reachable refers to it.", "quantifier": "all executions of the reference-counting betree", "why_tests_cant": "all schedules and tree shapes", "anchors": ["Splinter/src/allocation_layer/Likes_v.rs", "Splinter/src/allocation_layer/LikesBetree_v.rs", "Splinter/src/allocation_layer/LikesBetreeRefinement_v.rs"]}
{"id": "C39", "title": "The on-disk B+tree updated in place is the B+tree", "statement": "The linked B+tree branch, whose nodes are pages on a disk view and which is updated in place by insert, append, split and grow, behaves as the tree-shaped branch: as long as it is acyclic and its keys are in range, each query, insert, append, split and grow on pages gives the same answer as the operation on the tree the pages show, and no operation writes a page outside the tree except the fresh addresses it was given.", "quantifier": "all page graphs satisfying the invariant, all keys, messages, paths and fresh addresses", "why_tests_cant": "trees and page graphs are unbounded; aliasing of pages can only be excluded by an invariant", "anchors": ["Splinter/src/betree/LinkedBranch_v.rs"]}
{"id": "C40", "title": "Decoders ask for no more memory than the input justifies", "statement": "Decoding any byte string, however corrupted, reserves at most as many elements as the input has bytes.", "quantifier": "all byte strings, all nestings of the formats", "why_tests_cant": "hostile length fields are values a test must guess; the claim is over all of them", "anchors": ["Splinter/src/marshalling/ResizableUniformSizedSeq_v.rs: try_parse", "Splinter/src/marshalling/UniformSizedSeq_v.rs: try_parse", "Splinter/src/marshalling/KVPairFormat_v.rs: try_parse", "Splinter/src/marshalling/VariableSizedElementSeq_v.rs: exec_well_formed"]}
{"id": "C41", "title": "The executable program keeps the client contract end to end", "statement": "Running against the disk and its clients, through crashes and recoveries, the executable program answers every query with the last put in effect, loses at most a suffix of the puts in a crash and never one that an acknowledged sync covers, and can always still answer every request it was sent.", "quantifier": "all executions of the program with its disk and clients, all superblock encodings", "why_tests_cant": "crashes can come between any two steps of a handler; the handlers for recovery and queries are stubs that a test of the running program cannot tell from slow ones", "anchors": ["Splinter/src/implementation/Implementation_v.rs: recover, handle_query, handle_put, handle_disk_response, send_superblock", "Splinter/src/implementation/DiskLayout_v.rs: unmarshall"]}
{"id": "C42", "title": "Unit counts of the betree are exact", "statement": "In the betree that counts references per allocation unit, the recorded count of every unit equals the number of references, from the root pointer and from pages reachable from it, to pages in that unit; a unit is counted exactly when it holds a reachable page, so a unit given back for a zero count holds nothing the tree still needs, and the tree still behaves as a map.", "quantifier": "all executions of the betree with unit counts", "why_tests_cant": "counts of many pages are summed; one missed page shows only when its unit is reused, which depends on schedule and tree shape", "anchors": ["Splinter/src/allocation_layer/AllocationBetree_v.rs", "Splinter/src/allocation_layer/Likes_v.rs: to_au_likes, restrict_domain_au"]}
{"id": "C43", "title": "Running journal, committed journal and journal being committed share one disk safely", "statement": "The journal keeps its running state, the copy the superblock points to and the copy being committed on one disk. Writing, truncating and reusing units never touch a block either copy needs, a crash at any moment followed by loading brings back exactly the copy the superblock points to, what was once reported persistent is never lost or changed, and the whole behaves as the abstract crash-tolerant journal.", "quantifier": "all executions of the journal on one disk, crashes at any point included", "why_tests_cant": "damage shows only when a unit is reused between a commit and a crash; all schedules and disks", "anchors": ["Splinter/src/allocation_layer/UnifiedCrashAwareJournal_v.rs", "Splinter/src/allocation_layer/UnifiedCrashAwareJournalRefinement_v.rs", "Splinter/src/allocation_layer/AllocationCrashAwareJournal_v.rs", "Splinter/src/allocation_layer/AllocationCrashAwareJournalRefinement_v.rs"]}
{"id": "C44", "title": "A branch owns exactly its pages, and its summary exactly its units", "statement": "A B+tree branch built page by page out of allocation units holds, at every moment, exactly the pages its tree uses and its allocator has handed out, each handed out once. When it is sealed, the summary read through its root is exactly the set of units its pages lie in; the units given back at that moment hold none of its pages, and all such units are given back. Sealed or not, it answers every query with the message written for the key.", "quantifier": "all histories of building a branch, all unit sets, keys and messages", "why_tests_cant": "a missing or extra unit shows only when the unit is reused; histories and trees are unbounded", "anchors": ["Splinter/src/allocation_layer/AllocationBranch_v.rs", "Splinter/src/allocation_layer/MiniAllocator_v.rs"]}
{"id": "C45", "title": "The betree over branches never loses track of an allocation unit", "statement": "In the betree whose buffers are on-disk branches, the units held (those of the image, plus all units asked for, minus all given back) are at every moment exactly those that hold a node reached from the root, that belong to a branch listed by such a node or read by a running compaction, or that belong to a branch under construction; each unit has one owner. A step asks only for units not held, gives back only units held, and what it gives back nobody needs. Branches in use keep their pages and answers. With enough free units the memtable can always be written out and frozen, and splits and flushes are never blocked; everything given up is returned.", "quantifier": "all executions of the betree over branches, from all images, for any check of compactions", "why_tests_cant": "a leaked or doubly owned unit shows only when the disk fills up or the unit is reused; compactions overlap with flushes in unboundedly many ways", "anchors": ["Splinter/src/allocation_layer/AllocationBranchBetree_v.rs", "Splinter/src/allocation_layer/AllocationBranchBetreeRefinement_v.rs", "Splinter/src/allocation_layer/AllocationBranch_v.rs"]}
{"id": "C46", "title": "The betree over branches is a map", "statement": "In the betree whose buffers are on-disk branches, every query answers what the puts before it leave, at the LSN they reach; every frozen image holds just that; no internal step (writing the memtable out, growing, splitting, flushing, compacting, giving up) changes an answer; and every key can be queried at any time.", "quantifier": "all executions of the betree over branches, all images", "why_tests_cant": "compaction and flushing interleave freely; a wrong entry shows only for the keys and schedules hit", "anchors": ["Splinter/src/allocation_layer/AllocationBranchBetree_v.rs", "Splinter/src/allocation_layer/AllocationBranchBetreeRefinement_v.rs", "Splinter/src/betree/LinkedBetree_v.rs: can_compact, compact_buffer_valid_domain, compact_buffer_valid_range", "Splinter/src/betree/BufferDisk_v.rs", "Splinter/src/allocation_layer/AllocationBranch_v.rs: linked_contains"]}
{"id": "C47", "title": "Concurrent transfers take effect one at a time", "statement": "However the threads of the bank program interleave, its accepted requests, executed transfers and delivered replies are a history of the one-at-a-time bank specification. Each accepted request is executed exactly once between its arrival and its reply and the reply carries its number. A transfer succeeds only when at that moment the source holds the amount and the destination has room; it is refused only when at some moment between arrival and reply it could not be paid. When nobody is at work the stored balances are exactly what the successful transfers, in the order they took effect, leave.", "quantifier": "all numbers of threads and accounts, all requests, all interleavings", "why_tests_cant": "outcomes depend on the interleaving of lock operations of many threads", "anchors": ["Splinter/src/example/SimpleBank_v.rs: maybe_transfer, failed_reply", "Splinter/src/example/Bank_v.rs", "Splinter/src/example/BankSpec_t.rs", "Splinter/src/example/BankContract_t.rs", "Splinter/src/example/BankObligations_v.rs: next_refines", "Splinter/src/example/ClientAPI_t.rs: receive_request, send_reply"]}
{"id": "C48", "title": "Concurrent transfers neither create nor destroy money", "statement": "At every moment the money in the accounts, counting what running transfers hold in hand, is the number of accounts times the initial amount. No balance ever goes below zero or over the machine word.", "quantifier": "all numbers of threads and accounts, all requests, all interleavings", "why_tests_cant": "a lost update needs a particular interleaving; sums range over all accounts", "anchors": ["Splinter/src/example/SimpleBank_v.rs: _new, maybe_transfer", "Splinter/src/example/Bank_v.rs: transfer, range_sum", "Splinter/src/example/BankSpec_t.rs: transfer"]}
{"id": "C49", "title": "Concurrent transfers cannot deadlock", "statement": "While any thread is inside an operation, some thread inside an operation can take its next step. Without new operations being started, every execution reaches within a bounded number of steps a state where all operations have finished, whatever the schedule.", "quantifier": "all numbers of threads and accounts, all requests, all reachable states, all schedules", "why_tests_cant": "deadlock needs a particular interleaving of lock acquisitions", "anchors": ["Splinter/src/example/SimpleBank_v.rs: maybe_transfer, check_value, get_total"]}
{"id": "C50", "title": "What a balance query of the concurrent bank reports", "statement": "The balance reported for an account is the account's balance at the moment of reporting. The total reported adds up every account once, each at a moment between the start of the query and its end, in order; if no transfer took effect meanwhile it is the true total.", "quantifier": "all interleavings of queries with transfers by any number of threads", "why_tests_cant": "depends on the interleaving of reads with transfers", "anchors": ["Splinter/src/example/SimpleBank_v.rs: check_value, get_total"]}
{"id": "C51", "title": "A program acting only through its tokens does nothing the trusted system model does not allow", "statement": "Whatever program runs between client and disk under the token rules, the requests received, replies sent, disk traffic and crashes are a history of the trusted system model with that program; for the store's program model it is a history of the crash-tolerant map. Every reply answers one earlier request with the same id, received since the last crash, of the same kind: 'synced' is said exactly to sync requests. No id is given to two requests and no request is answered twice.", "quantifier": "all programs, all interleavings of client, program, disk and crashes", "why_tests_cant": "the token rules are ghost code: nothing of them runs, and the link to the system model is nowhere proved", "anchors": ["Splinter/src/trusted/KVStoreTokenized_t.rs", "Splinter/src/trusted/ClientAPI_t.rs", "Splinter/src/trusted/SystemModel_t.rs", "Splinter/src/trusted/ReqReply_t.rs: mapspec_reply", "Splinter/src/trusted/ProgramModelTrait_t.rs", "Splinter/src/implementation/MultisetMapRelation_v.rs"]}
{"id": "C52", "title": "The auditor's promises to the program proof hold", "statement": "As long as request ids are not given out again: for every invariant of the trusted system model, whoever holds the program's model token and disk response tokens may conclude that a state satisfying the invariant has that program and those responses; whoever holds the model token and any request token may conclude that a state satisfying the invariant has that program and a sync request of that id.", "quantifier": "all programs, all invariants kept by the system model, all reachable sets of tokens", "why_tests_cant": "the promises are assumptions about ghost state; they are about all invariants and all histories", "anchors": ["Splinter/src/trusted/KVStoreTrait_t.rs: open_system_invariant_disk_response, open_system_invariant_user_request", "Splinter/src/trusted/RefinementObligation_t.rs"]}
{"id": "C53", "title": "The copy-on-write block store never loses an image and never mixes two", "statement": "In VeriBetrKV, whatever the application on top: in every execution in which loads ask for images announced as good, transactions read from and write to one current graph, a frozen copy stays as it was frozen, what is announced as an image is that copy, and after a crash at any moment, with whatever was being written scrambled, every image announced as good can be loaded and is exactly the graph announced. The graph never has a dangling pointer, requests in flight never collide on the disk, and every node can be paged in.", "quantifier": "all applications, all interleavings of transactions, write backs, page-ins, evictions, freezes, disk answers in any order, failed reads and crashes", "why_tests_cant": "loss needs a crash at a particular moment between particular writes with particular reuse of disk space", "anchors": ["BlockCacheSystem/BlockCache.i.dfy", "BlockCacheSystem/BlockDisk.i.dfy", "BlockCacheSystem/BlockSystem.i.dfy", "BlockCacheSystem/BetreeCache.i.dfy", "BlockCacheSystem/DiskLayout.i.dfy", "Versions/StatesView.i.dfy", "BlockCacheSystem/BlockSystem_Refines_StatesView.i.dfy"]}
{"id": "C54", "title": "The journal keeps every synchronised operation and hands back exactly a prefix of what was logged", "statement": "In VeriBetrKV's journal, in every execution: replay hands back exactly the operations logged after the image it starts from, in order, none twice; a crash at any moment, with whatever journal blocks were being written scrambled, cuts the log at a point no earlier than anything reported synchronised; and a synchronisation is reported only when all that was logged before the request survives a crash. After every crash the durable log can be recovered, from the image it belongs to. Writes in flight never touch a block that recovery needs.", "quantifier": "all operations, all interleavings with writes around the ring, freezes, superblock writes, disk answers in any order, failed reads and crashes", "why_tests_cant": "loss needs a crash at a particular moment between particular writes; wrap-around needs 65536 blocks", "anchors": ["BlockCacheSystem/JournalCache.i.dfy", "BlockCacheSystem/JournalDisk.i.dfy", "BlockCacheSystem/JournalSystem.i.dfy", "BlockCacheSystem/JournalInterval.i.dfy", "BlockCacheSystem/JournalRange.i.dfy", "Versions/JournalView.i.dfy", "BlockCacheSystem/JournalSystem_Refines_JournalView.i.dfy", "MapSpec/Journal.i.dfy"]}
{"id": "C55", "title": "Images and journal together are a crash-tolerant map", "statement": "In VeriBetrKV's top-level composition: queries and range queries are answered from the history of puts and prefix clones; a range query gives, in order, exactly the keys of the stretch it covers that have a value; a crash cuts the history at a point no earlier than anything reported synchronised; synchronised changes stay for good, whatever crashes come after; and nothing is answered before the durable history has been replayed.", "quantifier": "all histories of queries, puts, clones, freezes, image and journal writes, synchronisations and crashes", "why_tests_cant": "loss or double application needs a crash at a particular moment between adopting an image and cutting the journal", "anchors": ["Versions/CompositeView.i.dfy", "Versions/CompositeView_Refines_TSJMap.i.dfy", "MapSpec/MapSpec.s.dfy", "MapSpec/TSJ.i.dfy", "MapSpec/ThreeStateVersioned.s.dfy"]}
{"id": "C56", "title": "The whole of VeriBetrKV above the disk is a crash-tolerant map, and can always be reopened", "statement": "Whatever application acting as a map runs on block cache and journal cache: in every execution with the two disks, with requests served in any order and crashes at any moment that scramble whatever was in flight, the client sees a crash-tolerant map. After every crash the store can be opened again, and then stands for a prefix of the client's history with exactly the rest to be replayed.", "quantifier": "all applications, all interleavings of transactions, write backs, journal writes, superblock writes, disk answers and crashes", "why_tests_cant": "loss needs a crash at a particular moment between writes of two subsystems", "anchors": ["BlockCacheSystem/BetreeJournalSystem.i.dfy", "BlockCacheSystem/BlockJournalCache.i.dfy", "BlockCacheSystem/BlockJournalDisk.i.dfy", "BlockCacheSystem/BetreeJournalSystem_Refines_CompositeView.i.dfy", "BlockCacheSystem/BetreeJournalSystem_Refines_ThreeStateVersionedMap.i.dfy"]}
{"id": "C57", "title": "The betree over a graph of shared nodes is a map", "statement": "In VeriBetrKV's betree, where clones make parents share children through edges that rename keys: every answer to a query or range query is what the history of puts and prefix clones gives, whatever flushes, growths, splits, merges and removals of unused nodes happen between. Every key has exactly one value, and can always be queried. With this tree on top, the whole store is a crash-tolerant map.", "quantifier": "all graphs reachable by any sequence of transactions, all keys", "why_tests_cant": "a wrong rename or a flush past a shared child shows only for particular trees, keys and sequences of clones", "anchors": ["Betree/BetreeSpec.i.dfy", "Betree/Betree.i.dfy", "Betree/BetreeInv.i.dfy", "Betree/Betree_Refines_Map.i.dfy", "Betree/BlockInterface.i.dfy", "lib/Base/Message.i.dfy"]}
{"id": "C58", "title": "The betree with pivot nodes is a map", "statement": "In VeriBetrKV's betree of nodes with pivots, buckets and prefix-renaming edges: every answer to a query or range query is what the history of puts and prefix clones gives, whatever flushes, growths, splits, merges, repivots and removals of unused nodes happen between. No lookup gets stuck, nodes stay well-formed, and with this tree on top the whole store is a crash-tolerant map.", "quantifier": "all graphs reachable by any sequence of transactions, all keys and prefixes", "why_tests_cant": "a wrong edge prefix, pivot or bucket boundary shows only for particular keys under particular nestings of clones", "anchors": ["PivotBetree/PivotBetreeSpec.i.dfy", "PivotBetree/PivotBetreeGraph.i.dfy", "PivotBetree/PivotBetree.i.dfy", "PivotBetree/PivotBetreeSpecRefinement.i.dfy", "PivotBetree/PivotBetreeSpecWFNodes.i.dfy", "lib/Buckets/TranslationLib.i.dfy", "lib/Buckets/BoundedPivotsLib.i.dfy", "lib/Buckets/BucketsLib.i.dfy", "lib/Buckets/BucketMap.i.dfy"]}
{"id": "C59", "title": "What VeriBetrKV's journal writes is what was logged, and it reads it back", "statement": "In VeriBetrKV, at any time, the bytes handed to the disk for the journal so far are whole blocks with good checksums that decode to a prefix of all the operations logged, in order, and the rest are still in memory; a package after a freeze holds exactly what was logged before the freeze. A later instance given those blocks decodes exactly those operations. An operation is accepted exactly when it fits in the journal's blocks, and no number wraps around.", "quantifier": "every sequence of appends, freezes, packages, trims and loads, with the ring wrapped around or grown any number of times, every entry within the limits on keys and values, every checksum function", "why_tests_cant": "the ring wraps and grows at places that depend on the whole history, entries straddle block boundaries at every offset, and the limits are 65536 blocks and 33 million entries", "anchors": ["Impl/JournalistImpl.i.dfy:76-504", "Impl/JournalistMarshallingModel.i.dfy:20-417", "Impl/JournalistMarshallingModel.i.dfy:939-962", "ByteBlockCacheSystem/JournalBytes.i.dfy:14-40"]}
{"id": "C60", "title": "VeriBetrKV is a crash-tolerant map on a disk of bytes, and its requests never collide", "statement": "With the caches of VeriBetrKV attached to a disk of bytes, where requests are served in any order, reads may fail in ways a checksum shows, and anything may happen to the disk once two requests in flight share a byte: in every execution the client sees a crash-tolerant map, synchronised changes stay, and no two writes, nor a read and a write, that share a byte are ever in flight together.", "quantifier": "all applications acting as a map, all checksum functions and parsers, all interleavings of requests, disk steps, read failures and crashes", "why_tests_cant": "two requests collide only for particular allocations and orders of disk answers, and then anything may be read back", "anchors": ["ByteBlockCacheSystem/AsyncDiskModel.s.dfy:18-330", "ByteBlockCacheSystem/ByteCache.i.dfy", "ByteBlockCacheSystem/ByteSystem.i.dfy", "ByteBlockCacheSystem/InterpretationDiskOps.i.dfy", "ByteBlockCacheSystem/InterpretationDisk.i.dfy", "ByteBlockCacheSystem/InterpretationDiskContents.i.dfy"]}
{"id": "C61", "title": "VeriBetrKV can be opened again from the bytes a crash leaves on its disk", "statement": "After every crash at any moment there is a way to open the store from the bytes then on the disk, invisible to the client; it then stands for a prefix of the client's history with exactly the rest to be replayed.", "quantifier": "all executions up to the crash, all moments of the crash", "why_tests_cant": "needs a crash at every moment between writes of superblocks, tables, nodes and journal blocks", "anchors": ["ByteBlockCacheSystem/AsyncDiskModel.s.dfy:133-191", "ByteBlockCacheSystem/ByteCache.i.dfy", "BlockCacheSystem/JournalCache.i.dfy:391-513"]}
{"id": "C62", "title": "VeriBetrKV with its real committer is a crash-tolerant map", "statement": "With the code that runs the journal and the superblocks of VeriBetrKV (the committer, its ring buffer and its bytes) in place of their specification, on a disk of bytes: in every execution the client sees a crash-tolerant map, changes reported synchronised stay, and requests that share a byte are never in flight together. Both superblocks on the disk, and any on its way there, are well-formed at all times; what is written for a superblock reads back as that superblock; and whenever a superblock with a new table is in flight, both sides agree on the table and the old one can be given up when it arrives.", "quantifier": "all applications acting as a map, all checksum functions, all executions with any interleaving of handlers, disk steps, read failures and crashes", "why_tests_cant": "the committer decides what to write from flags set by answers of the disk in any order; a wrong decision loses data only if a crash falls between two of them", "anchors": ["Impl/CommitterImpl.i.dfy:113-1051", "Impl/CoordinationImpl.i.dfy", "Impl/HandleReadResponseImpl.i.dfy", "Impl/HandleWriteResponseImpl.i.dfy", "Impl/FullImpl.i.dfy", "Impl/MarshallingImpl.i.dfy:678-693", "Impl/MarshallingImpl.i.dfy:873-905"]}
{"id": "C63", "title": "What VeriBetrKV writes to its disk it reads back", "statement": "In VeriBetrKV, every value of a marshalling grammar is read back from its bytes with exactly the rest left over; bytes that read as a value are the one encoding of that value; the size computed beforehand is the number of bytes written. Every superblock is read back from its 4096 bytes, every indirection table from its bytes in whatever order the rows come, and every node within the limits fits in its 2 MB block and is read back. Whatever bytes are read, the result is a well-formed superblock, table or node.", "quantifier": "all grammars and values, all superblocks, tables and nodes within the limits, all byte strings, with the checksum CRC32-C", "why_tests_cant": "sizes, tags, offsets and limits go wrong only for particular shapes: an empty string as a pivot, a full bucket, a table of millions of rows", "anchors": ["lib/Marshalling/GenericMarshalling.i.dfy", "ByteBlockCacheSystem/Marshalling.i.dfy", "Impl/MarshallingImpl.i.dfy", "Impl/IndirectionTable.i.dfy:1613-1753", "lib/Buckets/PackedStringArray.i.dfy", "lib/Buckets/PackedKV.i.dfy", "lib/Buckets/PackedKVMarshalling.i.dfy", "lib/Checksums/CRC32C.s.dfy"]}
{"id": "C64", "title": "A VeriBetrKV store opened on a fresh file is an empty map that survives crashes", "statement": "What mkfs writes are blocks that do not meet. A store opened on a file with these blocks, whatever else the file holds, acts towards its client as a map, empty at first, that survives crashes: every answer is that of the client's history, after a crash the history is cut to a prefix, changes reported synchronised stay, and requests that share a byte are never in flight together. This holds with the code's own tree, committer, journal, bytes and checksum, with nothing left open but the code behind the block side.", "quantifier": "all files holding what mkfs writes, all executions with any interleaving of handlers, disk steps, read failures and crashes", "why_tests_cant": "needs every part to agree with every other on every byte, over all histories and moments of a crash", "anchors": ["Impl/Mkfs.i.dfy:36-104", "Impl/MkfsModel.i.dfy:40-160", "ByteBlockCacheSystem/AsyncDiskModel.s.dfy:342-356", "Impl/IndirectionTable.i.dfy:200-222", "Impl/Main.s.dfy:113-132"]}
{"id": "C65", "title": "The indirection table of VeriBetrKV counts references exactly", "statement": "Whatever table is read from the disk and whatever updates, frees, writes and searches follow: the reference the table offers for freeing is one nothing points to and not the root; it offers one whenever there is one; the search for a node that still has to be written finds one exactly when there is one, also in the copy frozen for a sync; and the bitmap of used blocks read off a table has exactly the blocks of its nodes, none shared by two nodes. A table is refused exactly when its root or a successor has no entry.", "quantifier": "all tables without duplicate references, all sequences of calls in which only garbage is freed and successors exist", "why_tests_cant": "a count that is off by one after some sequence of updates frees a live node or leaks a dead one only much later", "anchors": ["Impl/IndirectionTable.i.dfy:137-1032", "Impl/IndirectionTable.i.dfy:1310-1564", "Impl/IndirectionTable.i.dfy:1818-2110"]}
{"id": "C66", "title": "A flush in VeriBetrKV loses no message and never overfills a child", "statement": "A flush takes some number of messages with the lowest keys out of the upper buffer. Each lands in the child's buffer that its key belongs to and replaces what was there for that key; everything else stays as it was. The child is never heavier than the limit afterwards, the flush stops only at a message that does not fit, and when the flush policy calls for it at least one message moves.", "quantifier": "all buffers, pivots and children, all weights", "why_tests_cant": "the loop walks several buffers with one budget that shrinks and grows; a message is lost or the limit exceeded only when the budget runs out at a particular place", "anchors": ["lib/Buckets/BucketFlushModel.i.dfy:79-147", "lib/Buckets/BucketFlushModel.i.dfy:924-1005", "lib/Buckets/BucketFlushModel.i.dfy:1546-1559", "Impl/FlushImpl.i.dfy:36-133"]}
{"id": "C67", "title": "VeriBetrKV as coded is a map that survives crashes, in bounded memory", "statement": "A VeriBetrKV store opened on a file that mkfs wrote, with the code of every part (tree, flush policy, cache, block allocator, indirection table, committer, journal, sector format, checksum), acts towards its client as a map, empty at first, that survives crashes; changes reported synchronised stay; requests that share a byte are never in flight together. At no time are there more than 100 nodes in the cache and on their way to it. Whatever bytes come back when the indirection table is read, the program takes the table or stays as it was.", "quantifier": "all files holding what mkfs writes, all sequences of queries, range queries, inserts, clones, syncs and answers of the disk, with any interleaving of disk steps, read failures and crashes", "why_tests_cant": "a node that is evicted, written, freed or flushed a moment too early shows only after a crash or a later read, in one of many interleavings", "anchors": ["Impl/FullImpl.i.dfy", "Impl/MainHandlers.i.dfy", "Impl/CoordinationImpl.i.dfy", "Impl/BookkeepingImpl.i.dfy", "Impl/IOImpl.i.dfy", "Impl/EvictImpl.i.dfy", "Impl/SyncImpl.i.dfy", "Impl/FlushPolicyImpl.i.dfy", "Impl/BlockAllocatorModel.i.dfy", "Impl/IndirectionTable.i.dfy"]}
{"id": "C68", "title": "The checksum of a sector shows bursts, odd damage and up to three flipped bits", "statement": "Take any sector or journal block whose checksum is right, and damage it anywhere, checksum included, such that all flipped bits lie within 32 consecutive ones, or their number is odd, or there are at most three of them (in up to 256 megabytes). Then its checksum is no longer right, and VeriBetrKV reads neither superblock, indirection table, node nor journal from it. A read of the disk that fails in the first or the last of these ways therefore meets the assumption about failing disks that VeriBetrKV is proved under. A burst of 33 bits can go unseen.", "quantifier": "all payloads of any length, all positions and patterns of damage of these kinds", "why_tests_cant": "a test flips some bits of some blocks; a wrong polynomial, a missing initial value or a truncated remainder still detects almost all of them", "anchors": ["lib/Checksums/CRC32C.s.dfy", "lib/Lang/System/F2_X.s.dfy", "ByteBlockCacheSystem/AsyncDiskModel.s.dfy:149-191", "ByteBlockCacheSystem/JournalBytes.i.dfy"]}
{"id": "C69", "title": "The pipelined code computes CRC-32C", "statement": "Given any array of bytes and any part of it, the code that computes checksums with the processor's instructions, bytewise up to an aligned address, then three streams at a time joined through a table, then by words, then by bytes, yields the CRC-32C of that part as defined bit by bit with the polynomial 0x82F63B78 (of the digits 123456789 it is 0xE3069283), the lowest byte first, and 28 bytes zero. It reads nothing outside that part's array and its table.", "quantifier": "all arrays, all starts and lengths within them, all 256 entries of the table", "why_tests_cant": "the length of the streams, the alignment and the table entry all depend on the start and the length: a mistake in one entry shows for a few lengths only", "anchors": ["lib/Checksums/CRC32CImpl.i.dfy", "lib/Checksums/CRC32CArrayImpl.i.dfy", "lib/Checksums/CRC32C_Lut.i.dfy", "lib/Checksums/CRC32C.s.dfy", "lib/Lang/System/F2_X.s.dfy", "lib/Lang/System/Bits.s.dfy"]}
{"id": "C70", "title": "The hash map answers as a map, always ends, and stays small", "statement": "Whatever sequence of insertions, removals, lookups, rewritings in place (one key, or every value while iterating), counts, iterations and maximum-key queries is run on VeriBetrKV's 64-bit hash map, every call ends and answers as a mathematical map would: lookups give the last value, counts are the number of keys, an iteration shows every binding exactly once, the maximum is the largest key. No more than half of its slots are ever in use, and it never has more than 4*(128+P) slots where P is the most keys it held at a time, however many keys came and went.", "quantifier": "every initial size from 128, every sequence of fewer than 2^61 calls, every key of 64 bits, every value type", "why_tests_cant": "Whether a probe ends, and finds what was inserted, depends on the collisions and tombstones left by the whole history; no finite set of runs covers them.", "anchors": ["lib/DataStructures/LinearMutableMap.i.dfy:135-217", "lib/DataStructures/LinearMutableMap.i.dfy:219-425", "lib/DataStructures/LinearMutableMap.i.dfy:623-820", "lib/DataStructures/LinearMutableMap.i.dfy:987-1252", "lib/DataStructures/LinearMutableMapBase.i.dfy:39-54", "Impl/CommitterImpl.i.dfy:35-111"]}
{"id": "C71", "title": "The queues keep their order in bounded memory", "statement": "The queue of least recently used nodes and the queue of nodes waiting to be freed behave as sequences without repetitions: using a value moves it to the end, adding a value already there changes nothing, removing takes it out of the middle, and the first is the one longest unused. No access goes outside their arrays. Their arrays never exceed twice the longest queue there was (or their initial size), however many values went through. The doubly linked list below them is a sequence: insertion before or after a given node and removal of a given node do just that, and reading it backwards gives the reverse.", "quantifier": "every sequence of fewer than 2^61 calls, all values of 64 bits; every linked list made by its own operations", "why_tests_cant": "A dangling or crossed link shows only after particular interleavings of insertion, removal, reuse of freed nodes and growth; the memory bound is about all histories.", "anchors": ["lib/DataStructures/LinearDList.i.dfy:38-315", "lib/DataStructures/LinearLru.i.dfy:24-121", "lib/DataStructures/LinearUSeq.i.dfy:30-122"]}
{"id": "C72", "title": "The block allocator gives out only free blocks, the least one, whenever there is one", "statement": "Whatever sequence of blocks is marked used, freed, frozen and made persistent, a block the allocator gives out is on the disk and in none of: the ephemeral table, the frozen table, the persistent table, the writes under way; no access is outside a bitmap's array; if the table is never frozen while one is frozen, the block is the least free one and there is an answer whenever a block is free. The bitmaps, packed 64 to a word, are sets of numbers.", "quantifier": "every size of disk that is a multiple of 64, every initial set of blocks, every sequence of calls", "why_tests_cant": "Handing out a block still in use overwrites a node some table needs, and shows only after a crash at the right moment; the sets, the histories and the word/bit positions are too many to enumerate.", "anchors": ["lib/DataStructures/BitmapImpl.i.dfy:84-400", "lib/Base/BitsetLemmas.i.dfy:32-170", "Impl/BlockAllocatorImpl.i.dfy:30-282"]}
{"id": "C73", "title": "The B-tree of buckets is a sorted map, and balanced", "statement": "After any sequence of insertions into the empty tree no access has been outside an array and every call has ended; an insertion gives the value it replaced; a query gives the value last inserted under the key, or nothing; the tree read in order is strictly sorted and exactly the map, and the smallest and largest key, the number of keys and the test for emptiness agree with it. All leaves are at one depth, no node is overfull or (but for the root) less than half full, and the depth is logarithmic in the number of keys: at most six levels below 2^31 keys. Building a tree from a sequence gives the sequence's map and exactly its weight.", "quantifier": "every totally ordered type of keys, every limit on nodes (above 2 keys and 3 children), every sequence of insertions", "why_tests_cant": "A wrong split or pivot loses keys only for particular orders of insertion at particular sizes; balance and the depth bound are about all sequences.", "anchors": ["lib/DataStructures/MutableBtree.i.dfy:35-652", "lib/Buckets/LKMBPKVOps.i.dfy:102-585", "lib/Base/total_order_impl.i.dfy:242-266", "lib/DataStructures/BtreeModel.i.dfy:35-37"]}
{"id": "C74", "title": "What VeriBetrKV holds in memory stays within the limits of its format", "statement": "In every run of VeriBetrKV with its disk, crashes and reads of old or damaged sectors included, a node held in memory never has more than eight buffers or children, its messages never take more than 2 MB less 64 KB, and the table of nodes never has more than 2^32 rows. So a node in memory whose keys, pivots, edges and values are at most 1024 bytes long can be written at any time: it takes at most one block of 2 MB and reads back as it is.", "quantifier": "for every run of any length: every mix of puts, clones, queries, syncs, evictions, flushes, splits and growths, every order of disk replies, every crash", "why_tests_cant": "A node that is too large shows only when it is written, perhaps hours after it was filled; the limit must hold for every sequence of inserts, flushes and splits, at every fill level of parent and child, which no test can enumerate.", "anchors": ["lib/Buckets/BucketWeights.i.dfy:80-92", "PivotBetree/Bounds.i.dfy:55-65", "Impl/InsertImpl.i.dfy:47-138", "Impl/FlushImpl.i.dfy:37-156", "Impl/SplitImpl.i.dfy:34-298", "Impl/FlushPolicyImpl.i.dfy:67-203"]}
{"id": "C75", "title": "Every node VeriBetrKV holds can be written and read back, if clones keep the length of prefixes", "statement": "If clients clone only between prefixes of one length, then in every run of VeriBetrKV with its disk every node in memory can be written at any time: all its keys, values, pivots and edges are at most 1024 bytes, it takes at most one block of 2 MB, and it reads back as it is. The condition is needed: a clone from a short prefix to one of 1024 bytes can make a root that is not read back from any bytes.", "quantifier": "for every run of any length with any mix of operations, replies of the disk and crashes; for every destination prefix of 1024 bytes", "why_tests_cant": "The code translates keys and pivots lazily, when a buffer is flushed through an edge or a node is split, possibly long after the clone and after several restarts; two assumes in trusted files stand where the proof of the bound would be. No test can follow all trees and all chains of clones.", "anchors": ["lib/Buckets/TranslationApply.s.dfy:10-30", "PivotBetree/PivotBetreeSpec.i.dfy:921-1044", "Impl/CloneImpl.i.dfy:27-111", "Impl/NodeImpl.i.dfy:550-645", "Impl/FlushImpl.i.dfy:37-156", "Impl/MarshallingImpl.i.dfy"]}
{"id": "C76", "title": "The concurrent page cache gives every page one contents", "statement": "Whatever the threads do in any interleaving, and whatever pages are written back, evicted and loaded meanwhile, a client that reads a page it holds gets what was last written to that page, or what the disk had at the start. While a page is held its buffer is neither changed nor given to another page; while a client may write a page, no other client has it; a page has at most one buffer. A page in no buffer is on the disk with what was last written. The bytes that count readers never wrap around. A client that waits, waits for another client or for the disk.", "quantifier": "for every interleaving of the atomic accesses of 24 threads with up to 255 pages each, any number of slots and pages, any order of answers of the disk with arbitrary contents of a page while it is written, any choice of slots to evict or write back", "why_tests_cant": "The locks are a protocol over one status byte and 24 reader counts per slot, with no lock around it: readers announce themselves before they check, evictors set a bit before they look. Whether some order of accesses lets a reader in beside an evictor, or reuses a slot too early, cannot be found by running the code some times.", "anchors": ["concurrency/scache/CacheOps.i.dfy:57-617", "concurrency/scache/AtomicStatus.i.dfy:164-902", "concurrency/scache/AtomicRefcount.i.dfy:32-206", "concurrency/scache/AtomicIndexLookup.i.dfy:40-123", "concurrency/scache/CacheIO.i.dfy:22-97", "concurrency/scache/RWLock.i.dfy:133-520"]}
{"id": "C77", "title": "The array with one lock per entry acts as if its calls were made in turn", "statement": "In concurrency/seq-hoh, donate(v) walks along an array hand over hand, taking the lock of the next entry before it gives up that of the present one, adds one to the first number that equals v and answers where it was, or that there is none. However many threads call it at once, every answer, and what the array holds when no call is under way, is that of the same calls made one at a time in the order in which they got the lock of entry 0, which each does between its call and its answer. While a call is under way some thread can go on, and no call takes more than a bounded number of its own steps.", "quantifier": "every number of threads, every sequence of calls and every interleaving of acquires and releases, every length of the array above zero", "why_tests_cant": "A test sees some interleavings. A scan that gave up one lock before taking the next would be overtaken in few of them.", "anchors": ["concurrency/seq-hoh/Impl.i.dfy:128-182", "concurrency/seq-hoh/StateMachine.i.dfy:8-100", "concurrency/seq-hoh/Mutex.s.dfy:21-27"]}
{"id": "C78", "title": "The concurrent hash table is a map, and its calls answer", "statement": "In concurrency/ConcurrentMap, a query that answers gives the value of the insertion under its key that ended last, at a moment between its call and its answer. A key is in one slot only. A query that reads an empty slot may take it that nothing has been inserted under its key. Every query and every insertion can go on until it answers.", "quantifier": "every hash function, every size of table, every number of threads and every interleaving of their reads and writes of slots", "why_tests_cant": "A test cannot try each interleaving of threads that walk along the table while others insert, nor each pattern of colliding keys.", "anchors": ["concurrency/ConcurrentMap/ConcurrentLinearHashTable.i.dfy:17-230", "concurrency/ConcurrentMap/LinearImpl.i.dfy:204-357", "concurrency/ConcurrentMap/Impl.i.dfy:115-235"]}
{"id": "C79", "title": "The reference counter lets a value be read only while it is there, and owned only by one alone", "statement": "In concurrency/refcounter, whoever holds a value, as owner or as reader, holds one that was given and not got back. The owner of a value that was given once has no reader and no other owner beside them, and its counter is the number of its readers. A value that was given once can always be got back: when its readers give up their holds it can be owned again.", "quantifier": "every sequence of values given, got back, turned from owned to counted and back, read and no longer read, by any number of holders", "why_tests_cant": "The hold of a reader is a ghost object that exists at no run; and no test counts the holds in every order in which they may be taken and given up.", "anchors": ["concurrency/refcounter/Refcounter.i.dfy:12-73", "concurrency/refcounter/ResourceBuilderSpec.s.dfy:8-60", "concurrency/refcounter2/Refcounter.i.dfy:12-73"]}
{"id": "C80", "title": "Succ gives the first keys, and stays within its vector", "statement": "Application::Succ(lowerBound, inclusive, targetCount) of VeriBetrKV gives the first targetCount keys that have a value from the bound on, or all of them if there are fewer, in order and with their values. It never writes outside of its vector of results, though it writes every result without a check and the contract of handleSucc does not say how many there are.", "quantifier": "every history of the store on a file made by mkfs, with crashes; every bound and every number asked for; every shape of the tree and state of the cache, so every way to cut the answer into parts", "why_tests_cant": "How an answer is cut into parts depends on the pivots on the way to a key, on renamed subtrees and on the number asked for. A result too many in one of the parts overruns a heap buffer, and a range that goes back shows keys twice; a test meets few of the cuts.", "anchors": ["framework/Framework.cpp:722-777", "Impl/BucketSuccessorLoopModel.i.dfy:22-51", "Impl/SuccImpl.i.dfy:102-329", "MapSpec/MapSpec.s.dfy:83-104"]}
{"id": "C81", "title": "The store on its own disk driver is a map that survives crashes, though the driver is not the disk its proof trusts", "statement": "VeriBetrKV, on its disk driver (DiskIOHandler) and a file made by mkfs, acts as a map that survives crashes, and what was synchronised stays. The driver writes whole sectors of 4096 bytes, and what it puts after the bytes it was given is whatever was in memory; a write of more than a sector may be half done when the machine stops; writes are finished in any order. The disk in the trusted AsyncDiskModel.s.dfy does none of this but the last.", "quantifier": "every history of calls, of answers of the driver and of crashes; every content of the memory that is written along; every order in which the operating system finishes writes and every part of a long write that it has written at a crash", "why_tests_cant": "A test cannot stop the machine in each half-written state, and the rubbish after a write is most often zeros in a test.", "anchors": ["framework/Framework.cpp:54-445", "framework/Framework.cpp:452-790", "ByteBlockCacheSystem/AsyncDiskModel.s.dfy:18-260"]}
{"id": "C82", "title": "The disk driver loses no write, answers each once, keeps to eight, and does not end the program for nothing", "statement": "DiskIOHandler answers a write at most once, with the id and place it was asked with, and only when its bytes are in the file, where they stay if no other write is asked for in the same sectors. Every other write asked for is still under way. At most eight writes are with the operating system, and one waits only when they are eight. waitForOne with a write outstanding, and completeWriteTasks, end the program only if a write fails.", "quantifier": "every sequence of reads, writes, double writes and answers; every order and moment in which the operating system finishes writes", "why_tests_cant": "Whether all eight writes are found finished by one look at them, while a ninth waits, is a matter of timing that a test does not control.", "anchors": ["framework/Framework.cpp:54-171", "framework/Framework.cpp:237-289", "framework/Framework.cpp:338-445"]}
{"id": "C83", "title": "Sync waits only for a write that is on its way", "statement": "Application::Sync calls waitForOne exactly when handle_PopSync answers `wait`, and waitForOne ends the program if nothing is on its way to the disk. For every state VeriBetrKV can reach on its disk driver - across any calls, any behaviour of the operating system, and any crashes - and for either kind of sync, if popSync answers `wait` then the driver holds a write that has not been answered, so waitForOne comes back instead of ending the program.", "quantifier": "for all files mkfs wrote, all runs (calls, crashes, orders in which writes finish), all sync ids, graphSync true or false", "why_tests_cant": "whether something is outstanding depends on which of the answers of table, node, journal and superblock writes have come in and in what order, with the state shared between block cache, committer and driver; a test sees a few orders and the failing one would be a rare race", "anchors": ["framework/Framework.cpp:491-541", "framework/Framework.cpp:420-442", "Impl/CoordinationImpl.i.dfy:223-383", "Impl/SyncImpl.i.dfy:449-520", "Impl/CommitterImpl.i.dfy:840-909"]}
{"id": "C84", "title": "The file system is always one tree of directories", "statement": "In the file system of Filesys/, when GetAttr can answer for a path it can answer for each path above it and says that it is a directory. A directory has only one name. Whatever has a name can be looked at. A listing shows only paths that can be looked at, with their type.", "quantifier": "every history of creates, deletes, renames, links, writes, truncates and changes of attributes; every path", "why_tests_cant": "Names and files are separate maps that each operation changes in several places; that they fit after every order of renames and links is not shown by some orders.", "anchors": ["Filesys/FileSystem.s.dfy:25-425", "Filesys/FileSystemInv.i.dfy:11-38", "Filesys/PathSpec.s.dfy:23-90"]}
{"id": "C85", "title": "A rename moves what is at and beneath a path and loses nothing else", "statement": "After Rename(src, dst) what was at and beneath src is found at and beneath dst with the same type, contents and other names; nothing is left at src; all other paths show what they showed. In particular nothing is lost if dst is src.", "quantifier": "every reachable state, every pair of paths for which the operation is allowed", "why_tests_cant": "Renames to the same path, to a path beneath the old one, and of the root are corner cases that tests of a rename seldom have, and each state has infinitely many paths.", "anchors": ["Filesys/FileSystem.s.dfy:177-229"]}
{"id": "C86", "title": "Each file operation changes just what it says, through all names of the file", "statement": "What is written to or cut from a file through one name is seen through every name of it and through no other path, byte for byte. Deleting one name leaves the other names as they were. A new file is empty and shares nothing with another. A link is a second name of the same file. Changes of owner, permission and time change no contents and no names. A read gives the bytes that are there.", "quantifier": "every reachable state, every operation and argument it is allowed with, every path looked at afterwards", "why_tests_cant": "It is a claim on all paths that are not named in the call, of which a test can look at some.", "anchors": ["Filesys/FileSystem.s.dfy:91-175", "Filesys/FileSystem.s.dfy:231-342"]}
{"id": "C87", "title": "A directory listing that is done leaves nothing out", "statement": "ReadDir shows entries that exist in the directory, each once, in the order of their names, none before the start. If it is not done it shows all entries from the start to its last one; if it is done it shows all from the start on. So listing piece by piece until done shows every entry.", "quantifier": "every state, directory, start and allowed answer", "why_tests_cant": "The rule says which answers an implementation may give; a test sees the answers that one implementation gives.", "anchors": ["Filesys/FileSystem.s.dfy:344-379", "Filesys/PathSpec.s.dfy:66-90"]}
{"id": "C88", "title": "A file without a name is gone and its number is free", "statement": "When the last name of a file is deleted or replaced nothing of the file is kept, and Create can be called with its number. No number of a file is ever lost.", "quantifier": "every history of operations, every number", "why_tests_cant": "Whether something unreachable is still stored cannot be seen through the calls, and a leak shows only after very many operations.", "anchors": ["Filesys/FileSystem.s.dfy:121-175", "Filesys/FileSystem.s.dfy:196-229"]}
{"id": "C89", "title": "A packed array of strings is a list of strings", "statement": "Whatever history of Append, AppendSeq and Prefix calls is made on a packed array of strings (DynamicPsa), from any initial capacity and as long as it never holds 2^32 strings or bytes, no call reaches outside an array, no 32-bit offset overflows, growing loses nothing, and the packed form has exactly the strings of the list, in order, with their weight. A part cut out of a packed array has exactly the strings of that part. The binary searches in a sorted array give the number of strings below the key, or not above it; in any array they end within it. Two packed arrays of the same strings are equal.", "quantifier": "All strings, all histories of calls, all initial capacities, all packed arrays, all keys and bounds.", "why_tests_cant": "The doubling of the arrays near 2^31 and 2^32 needs gigabytes to run into; offsets relative to a cut and stale bytes after a shortening only go wrong for particular histories; unsorted arrays reach the searches only through damaged input.", "anchors": ["lib/Buckets/PackedStringArray.i.dfy:24-90", "lib/Buckets/PackedStringArray.i.dfy:178-300", "lib/Buckets/PackedStringArray.i.dfy:553-620", "lib/Buckets/PackedStringArray.i.dfy:732-1067"]}
{"id": "C90", "title": "A bucket in memory is one map whichever of its two forms it is in", "statement": "A bucket may start empty or as packed bytes read from the disk, turn into a B-tree when something is inserted, and back into packed bytes when it is split, copied or written out. After any such history no call reaches outside an array or takes a weight below zero; Query answers as the map the history means; GetFirstKey and GetLastKey are the least and the greatest key and GetMiddleKey the middle one; the bytes it is written out as list exactly the entries of the map in order; the recorded weight is exactly theirs; SplitLeft and SplitRight are the map below and from the pivot and their weights add up; NoKeyWithPrefix is true exactly when no key starts with the bytes. Packed bytes that are not in order are recognised as such, and putting them in order keeps the last entry of each key.", "quantifier": "for all sequences of Insert, SplitLeft, SplitRight and Clone from an empty bucket or from any well-formed packed bytes, in or out of order, of any size below 2^32, for all keys, messages, pivots and prefixes", "why_tests_cant": "the answers depend on which form the bucket is in, on its mark that it is sorted and on a B-tree of any depth; a test visits a few orders of calls, and a weight that drifts by one entry shows only when a node is split or a write does not fit", "anchors": ["lib/Buckets/BucketImpl.i.dfy:104-265", "lib/Buckets/BucketImpl.i.dfy:364-577", "lib/Buckets/BucketImpl.i.dfy:699-714", "lib/Buckets/BucketImpl.i.dfy:815-865", "lib/Buckets/LKMBPKVOps.i.dfy:98-589", "lib/Buckets/PackedKV.i.dfy:156-300"]}
{"id": "C91", "title": "A flush between buckets in memory moves whole entries from the low end, whichever forms the buckets are in", "statement": "BucketImpl's PartialFlush turns every bucket into packed bytes and merges the upper one into the children's. It never reaches outside an array or takes a number below zero. There is a point in the order of keys below which every entry of the upper bucket is gone from it and is found in the child's bucket whose range it is in, over what that held for the key, and above which the upper bucket is as it was; every other answer of every bucket is as it was. The buckets made are again buckets with exact weights, their weights add up to no more than a node may hold, and the flush stops only when nothing is left or at the least entry left, which does not fit.", "quantifier": "for all buckets after any history, for any number of children with any strictly increasing pivots that hold the upper bucket's keys, whose weights add up to at most MaxTotalBucketWeight", "why_tests_cant": "where the flush stops depends on the exact weights of all buckets together, and an entry dropped or doubled at that point shows only for that key; a test flushes a few buckets that all fit", "anchors": ["lib/Buckets/BucketImpl.i.dfy", "lib/Buckets/PackedKV.i.dfy"]}
{"id": "C92", "title": "A bucket in memory translated to another prefix answers for the new keys what it answered for the old", "statement": "When a clone of a range of keys is followed down the tree, ComputeTranslateBucket makes of a bucket the bucket of the entries whose keys have the old prefix, under the new one. Once ComputeTranslateBucketWillFit has said yes, the translation returns, never reaches outside an array, and the bucket it makes answers for each key with the new prefix what the bucket answers for that key with the old prefix, has no other keys, and has exactly the weight of its entries. The check always answers, and says yes to every bucket a node may hold and to every bucket whose keys do not grow; the check of all buckets of a node says yes when their weights are within the node's limit.", "quantifier": "for all buckets after any history, in either form, and all pairs of prefixes of at most KeyType.MaxLen bytes, longer, shorter, equal or empty", "why_tests_cant": "that the packed result stays below 2^32 bytes depends on every length at once, and an entry kept or dropped wrongly shows only for keys next to the prefix; a test translates a few short keys", "anchors": ["lib/Buckets/TranslationImpl.i.dfy", "lib/Buckets/TranslationApply.s.dfy", "lib/Buckets/BucketImpl.i.dfy"]}
{"id": "C93", "title": "An iterator over a bucket in memory gives exactly the entries asked for, in order, each once", "statement": "IterStart, IterFindFirstGte and IterFindFirstGt give an iterator from the first entry, from a key on, or from above a key; with a prefix set it passes over the keys without the old prefix and gives the others under the new one. Stepping it with GetNext and IterInc to its end gives exactly the entries of the bucket that were asked for, each once, in the order of their keys as given, and no step reaches outside an array.", "quantifier": "for all buckets after any history, in either form, all keys and all pairs of prefixes or none", "why_tests_cant": "the iterator skips by binary search, so a key lost depends on where the keys with the prefix lie among the others; a test has a few keys on either side", "anchors": ["Impl/BucketIteratorImpl.i.dfy", "Impl/BucketIteratorModel.i.dfy", "lib/Buckets/PackedStringArray.i.dfy"]}
