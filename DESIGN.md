# Formal model of Splinter (verified-betrfs) in Lean 4

Source: `/repo/Splinter/src` (Rust with Verus specifications), read as text. Line
numbers in comments of the Lean files refer to those files. The Rust code was not
built or run.

## Method

* Rust/Verus data are modelled by plain inductive types and structures. `Map<K,V>` is
  `K → Option V` (`PMap`), `Set<T>` is `T → Prop`, `Seq`/`Vec` is `List`, `nat` is `Nat`,
  `u64` is `UInt64` (or `Nat` with an explicit bound where overflow is what matters),
  `Option`/`Result` stay data.
* Each Verus `state_machine!` transition is one `Prop`-valued definition (pre, label,
  post), with the same `require`s and `update`s, and `Next` is their disjunction.
  Preconditions of `recommends` functions and panics are explicit guards.
* Executable code (`marshalling`, `exec/MiniAllocator_v`, `SyncRequestBuffer`) is
  modelled as total functions returning the new state. `&mut` arguments become results.
* Each property has a file `Verif/Props/Cxx.lean` which states the specification in its
  own small vocabulary, then the theorems, then `example`s showing the hypotheses hold of
  a concrete non-trivial case. Helper lemmas live in the other directories.

## Trusted base

* Lean 4.33.0 kernel. Theorems depend at most on `propext`, `Classical.choice`,
  `Quot.sound` (see the table generated in `AXIOMS.txt`). No own axioms, no `sorry`,
  no `native_decide`, no `bv_decide`.
* Mathlib is used for `Multiset` and a few list lemmas (`Alloc/Likes*.lean`); it is checked by the
  same kernel and adds no axioms.
* The faithfulness of the hand translation, file by file, as cited in the comments.
* The Rust compiler, Verus' own semantics (`choose`, `arbitrary()`), vstd, hardware,
  threads, real disks and the foreign `ClientAPI` are outside the model. For C81: that a sector of 4096 bytes is written whole or
  not at all, that `O_DSYNC` writes are on the disk when they are finished, and that damage to what is read shows in its checksum.

## Plan per property

| id | modelled | how proved |
|----|----------|------------|
| C01 | `abstract_system/*`, `spec/MapSpec_t` | forward simulation with the invariant of `AbstractCrashAwareSystemRefinement_v`, lifted to traces |
| C02 | `spec/MapSpec_t` CrashTolerantAsyncMap | invariant over traces with ghost history |
| C03 | same as C01 and C02 | trace induction: post-crash version is one of the pre-crash versions at or after the stable one |
| C04 | CoordinationSystem | code as written: impossibility by induction; repaired transition: explicit execution |
| C05 | MapSpec/AsyncMap | induction over operations |
| C06 | `Messages_t` | case analysis, induction over bracketings |
| C07 | `MsgHistory_v`, StampedMap | induction over histories |
| C08 | AbstractJournal | trace induction against the list of appended messages |
| C09 | PagedJournal | forward simulation to AbstractJournal |
| C10 | LinkedJournal | forward simulation to PagedJournal, rank induction on pointers |
| C11 | LinkedJournal discard_old/build_tight | induction on rank |
| C12 | `KeyType_t` search | induction on the run |
| C13 | PivotTable | from C12 |
| C14 | PagedBetree | forward simulation to AbstractMap |
| C15 | PivotBetree | forward simulation |
| C16 | FilteredBetree, BufferSeq, BufferOffsets | forward simulation |
| C17 | LinkedBetree | forward simulation |
| C18, C19 | PivotBranch | induction on the tree |
| C20–C25 | `marshalling/*` | functional correctness of the loops against a contract (`Fmt.Lawful`), round trips, an independent grammar for C25 |
| C40 | `marshalling/*` | memory bound per `with_capacity`; counterexample for tables, repaired decoder |
| C26 | AsyncDisk | invariants over traces |
| C27, C28 | Cache with AsyncDisk | counterexample for the code as written, coherence invariant for the repaired guard |
| C29 | exec and abstract MiniAllocator | invariant over call sequences |
| C30–C32 | SystemModel, ConcreteProgramModel, AtomicState, ModelRefinement | invariants and forward simulation; the superblock codec is a parameter with a round-trip hypothesis (the source leaves it `arbitrary()`) |
| C33 | Implementation_v, one step per visible action (`Impl/Implementation.lean`) | invariants over traces with positions of the events |
| C41 | the same | forward simulation into the system of C32, which gives the trace contract; counterexamples for the two unfinished handlers |
| C34 | FloatingSeq | list lemmas |
| C35 | Memtable | induction over histories |
| C36 | CachedJournal, Cache, AsyncDisk composition (`Journal/Cached.lean`), as written and repaired | counterexamples for the composition as written; for the repaired one a simulation into the linked journal (C10) over the combined pages, from which contents, recovery reads and durability of frozen snapshots follow |
| C37 | LikesJournal, AllocationJournal (`Journal/Index`, `Allocation`, `AllocationProof`, `AllocationLive`) | invariants; unit walk = page walk by induction on ranks; forward simulation to LinkedJournal; progress |
| C38 | LikesBetree (`Alloc/LikesBetree`, `LikesProof`, `LikesTree`) | counts = pages met when unfolding the tree, by how each operation trades references; one way per page since child ranges are disjoint; same runs as LinkedBetree both ways |
| C42 | AllocationBetree (same files) | simulation into the betree of C38; counts summed per unit |
| C43 | AllocationCrashAwareJournal, UnifiedCrashAwareJournal (`Journal/CrashAware`, `CrashAwareProof`, `UnifiedProof`) | the recorded images are parts of the running journal; each step keeps the blocks of the parts; forward simulation into the journal with separate disks and from there into the abstract crash-tolerant journal; progress |
| C39 | LinkedBranch (`Betree/LinkedBranch`, `LinkedBranchProof`) | relation `Shows` between page graphs and the trees of C18: the invariant holds exactly when a well-formed tree is shown, no page is shared, each operation commutes with it |
| C44 | AllocationBranch (`Alloc/AllocationBranch`, `AllocationBranchProof`) | invariant tying branch and allocator to a ledger of the history (pages taken, units held, entries written); trees through C39 |
| C45 | AllocationBranchBetree (`Alloc/AllocationBranchBetree`, `BranchSet`, `BranchWips`, `BranchLift`, `AllocationBranchBetreeProof`, `BranchRuns`, `BranchPossible`, `BranchBuild`) | invariant: units of nodes, of branches in use and of branches under construction, each with one owner (`Good`); node counts by simulation into AllocationBetree with blank buffers; branches through C44; specification in `Alloc/BranchLedgerSpec`; progress |
| C46 | the same | simulation into AllocationBetree (C42) reading each branch as the map it stands for, for checks that compare stored entries; counterexample for the code's check |
| C47 | `example/SimpleBank_v` thread by thread and lock by lock, `example/Bank_v`, `BankSpec_t`, `BankContract_t`, `BankObligations_v` | forward simulation of the threads into the token machine, of that into the specification; counting invariant for locks |
| C48 | the same | invariant: the balances are the ledger of the transfers executed; sum over accounts |
| C49 | the same | ordered acquisition: the waiter for the highest account is not blocked; decreasing measure |
| C50 | the same | invariant naming the moment each account was read |
| C51 | the tokens a program holds, any program model, the id counter, the real disk (`Token/`) | forward simulation into the system model of any program: tokens held plus real disk are the system's disk; with the program model of /repo composed with C30 and C32 (partial: see item 19) |
| C52 | the same, any invariant of the system model | the simulation, in which any one held request may be taken for a sync request |
| C53 | block cache, block disk, block system of VeriBetrKV (`Kv/`) over any application | invariant of the cache against the disk, then simulation into an ideal store of graphs (`Kv/Store.lean`) |
| C54 | journal cache, journal disk, journal system of VeriBetrKV (`Kv/Journal*`), with the parser of journal blocks | simulation into `JournalView`, then into an ideal journal (`Kv/Ledger.lean`); explicit recovery run |
| C55 | `CompositeView`, `StatesView`, `JournalView`, `MapSpec` of VeriBetrKV | simulation into an ideal journal, then into the client's history (`Kv/Client.lean`) |
| C56 | `BetreeJournalSystem`: both caches on both disks, over any application acting as a map | C53's and C54's invariants joined, simulation into C55's client; explicit recovery run |
| C57 | `BetreeSpec` of VeriBetrKV over a graph of nodes, with renaming edges | inductive evaluation of a key from the root; each step keeps it or changes it as the map does; no acyclicity needed. Plugged into C56 |
| C58 | `PivotBetreeSpec` of VeriBetrKV: nodes with pivots, buckets, edges that replace a prefix (`Kv/KeyOrder`, `Kv/Pivot*`) | each node is read as a node of C57; each step as a step of C57. What a node says outside its own range is left open: the argument runs for every value there, and two different ones show that no lookup leaves the range |
| C59 | `Impl/JournalistImpl` (ring of entries, weights, packages, loading) with the marshaller of journal blocks (`Kv/Journalist*`, `Kv/JournalBytes*`), checksum function as parameter | invariant of the ring; payload of the buffer without checksums read as the encoding of the entries; simulation into an ideal journalist on lists |
| C60 | `AsyncDiskModel`, `ByteCache`, `ByteSystem` of VeriBetrKV with the reading of bytes as disk operations (`Kv/Byte*`); checksum and parser of sectors as parameters | simulation into C56's system: the bytes, with all requested writes done, stand for its two disks; that requests do not collide follows from C53's and C54's invariants, which excludes the disk's havoc steps |
| C61 | as C60 | false on the disk as specified (`never_opens`, disagreement 21); with successful reads, an explicit recovery run on bytes |
| C62 | `Impl/CommitterImpl` with its callers in `CoordinationImpl`, `HandleReadResponseImpl`, `HandleWriteResponseImpl` (`Kv/Committer`), the bytes of a superblock (`Kv/SuperblockBytes`), and `Full` with the block side as its specification (`Kv/Full`) | simulation into C60's system, every handler of the committer being a step of `JournalCache`, with invariants of the committer and of both sides together; round trip of the superblock's bytes |
| C63 | `GenericMarshalling` as functions on byte sequences (`Kv/Marshal`), the values and bytes of superblocks, indirection tables, nodes and packed buckets (`Kv/SectorBytes`), CRC32-C as a remainder of polynomials (`Kv/Crc`) | induction over grammars, both directions (a parsed value's bytes are its encoding); for sectors, round trip of values, then of bytes; a weight bound shows a node fits its block |
| C64 | `Mkfs` (`Kv/Mkfs`) and everything of C58, C62 and C63 put together | the fresh file is an initial state of C62's system with the codec of C63; C62 with C58's tree |
| C65 | `IndTable` (`Kv/IndTable`): the hash map with its counts, queue of garbage and iterator | exact counts as an invariant, with an intermediate one for the two loops (`Kv/IndTableProof`); reading and the bitmap by induction on the rows (`Kv/IndTableInit`); simulation of partial maps |
| C66 | the loops of a flush in `TreeImpl` (`Kv/TreeImpl`) | induction along the loops (`Kv/TreeFlush`): what is moved is a first part, weight and slack add up |
| C67 | the whole of it as coded: the handlers with the code of the tree, the block side and the committer (`Kv/FullImpl`), on a file as mkfs writes it | every handler of the tree and the block side does a step of `BlockCache` and keeps the invariant of `StateBCImpl` (`Kv/BlockImplProof`, `Kv/TreeImplProof`, `Kv/TreeSucc`), so a run is one of C64's system |
| C68 | CRC-32C as a remainder of polynomials (`Kv/Crc`), damage as flipped bits | bit strings as polynomials over the field of two elements, residues in Mathlib's `AdjoinRoot` (`Kv/CrcPoly`); the unknown is a unit (bursts), its order is the prime 2^31-1 by 31 squarings in the kernel (two bits), x+1 divides the polynomial (odd damage) (`Kv/CrcDetect`) |
| C69 | the pipelined code of the checksum and of its table, loop by loop (`Kv/CrcImpl`) | induction along the loops; the join of three streams is an identity of residues, carry-less products reversed by `Polynomial.reflect` (`Kv/CrcImplProof`); the bitwise definition by the same identities |
| C70 | the 64-bit hash map: hash, probing, insertion, removal, growth, iterators (`Kv/HashMap`) | invariant: keys of used slots differ and every slot between a key and its own slot is in use; the probe then finds the only slot that can hold the key; the array read as a function of keys (`Kv/HashProof`) |
| C71 | the doubly linked list in an array (`Kv/Queue`), the two queues on it and on C70's map | segments linked both ways; each operation cuts or joins segments; the free nodes as a stack disjoint from the list, with lengths that add up to the array's (`Kv/QueueProof`) |
| C72 | the bitmap in words of 64 bits and the block allocator over five of them (`Kv/Bitmap`) | bit lemmas for one word; each operation on the array is the one on sets; four sets as the specification, the fifth bitmap covers them, and is exactly their union unless a table is frozen twice (witness); simulation of the allocator of C61-C69's model |
| C73 | the B-tree of buckets (`Kv/Btree`), any order of keys and any limits, recursion with fuel and arrays with `Option` | invariant of a balanced search tree with bounds from the pivots; each operation is the one on the sorted list of bindings; half-full nodes give the depth bound; weight of a sorted list under insertion |
| C74 | the runs of C67's system (`Kv/FullImpl`) | weights and numbers of buffers under each step of the tree's code (`Kv/TreeLimits`), rows of the table (`Kv/TableLimits`), by induction along the run; C63 for the bytes |
| C75 | the runs of C67's system | two layers: that keys keep their length down the tree is a property of what a node means (`Kv/PivotFit`), kept by every step of the tree, and carried to runs through the refinement of C67 (`Kv/FitRun`); lengths of pivots and sizes of references follow the code (`Kv/LenLimits`); C63 for the bytes |
| C76 | `concurrency/scache`: CacheOps, AtomicStatus, AtomicRefcount, AtomicIndexLookup, CacheIO, the protocol of RWLock | transition system with one step per atomic access (`Scache/Model`); each client has a role for each slot, one invariant per slot over status bits, roles and counts (`Scache/Slot`), one for the lookup table and the contents over all slots (`Scache/Inv`, `Scache/Steps`); each step is shown to act as a register per page (`Scache/Proof`) |
| C77 | `concurrency/seq-hoh`: `donate` and its loop, one step per acquire and release (`Donate/Model`) | the calls under way form a pipe, ordered as they entered, each with the array as those before it will leave it (`Donate/Proof`); answers follow from the head; a measure for progress |
| C78 | `concurrency/ConcurrentMap`: the table, `query`, and the protocol of insertion (`HashMap/Model`) | invariant: slots from the hash of a key to where it is, or to where a thread has come, have other keys; the table holds the last insertions; **partial**, some calls never answer (disagreement 23) |
| C79 | `concurrency/refcounter` (the same files are in `refcounter2`): the protocol on multisets (`Refcounter/Model`) | two sums over the multiset, of owners and counters, and of counts less readers; draining a counter by induction on its readers |
| C80 | `Application::Succ` in C++ (`Kv/AppSucc`) on the runs of C67's system | length of an answer by induction along the code of `succ`; the loop's results are all keys between the first start and the present one; C67 for each answer, with the range going on from its start added to the client's specification |
| C81 | `DiskIOHandler` (`Kv/DiskHandler`) under the code of C67 (`Kv/Driven`), on a file | the driver simulates the disk `⟨good, real⟩` of `Kv/ByteDisk` (padding, tearing), on which C67 holds; for the difference to the trusted disk a run that changes a byte outside its write |
| C82 | the same driver alone, used in any way, on an operating system that finishes writes in any order | invariant along the trace: what was asked is under way or in the file, ids are new, the counters count, none waits while fewer than eight are out; `complete_can_fail` gives the run with nine writes |
| C83 | `wait` of `popSync` (`Kv/Waits`) over the program on its driver of C81 | invariant of the whole system: each write the block side or the committer waits for is at the disk, and a frozen table with a place is being written or its place is known to the committer; carried down to the driver |
| C84 | `Filesys/FileSystem.s.dfy`, all operations (`Filesys/Model`) | invariant: what has a name has metadata, a directory has one name, above a name is a directory; on names and types only, so that most operations need no argument |
| C85 | the same, `Rename` | each path after a rename is traced to the path before (`Moves`); false for renames to the same path or beneath, with the losses proved in general |
| C86 | the same, all other operations | `Effect`, an account in terms of what is found at paths and which paths are one file; proved for each step from the invariant of C84 |
| C87 | the same, `ReadDir` | from the rule; false for `done`; with `done` put right, induction over the pieces |
| C88 | the same, what is stored for numbers without name | invariant for histories without the renames of C85; for those, that what is lost stays so is an invariant too |
| C89 | `Psa` and `DynamicPsa` (Kv/Psa.lean): reading, cutting, searching, growing, `none` for an access outside an array, offsets modulo 2^32 | every call keeps `Holds` (the arrays hold the strings); a well-formed array is the packed form of its strings; the binary search by induction on its rounds |
| C90 | `MutBucket` in both its forms with the conversions between them (Kv/MutBucket.lean): `none` for an access outside an array or a weight below zero | `Reach` is any history; `Inv` (the tree lists the entries, or the bytes are the packed entries; the weight is theirs) is kept by every call; the B-tree facts are those of C73, the packed ones those of C89 |
| C91 | the flush of packed buckets, loop by loop, and its call from `MutBucket` (Kv/PackedFlush.lean): `none` for an access outside an array or a number below zero | the packed flush of packed entries is the packing of the flush of C66 (`flush_spec`), so C66's account of what moves carries over to the maps of C90 |
| C92 | `ComputeTranslateBucket` and the checks before it (Kv/PackedTranslate.lean): `none` for an access outside an array | the packed result is the packing of the entries with the prefix, renamed; their weight is bounded by what the check computes, their order is kept because a common prefix does not count, and so the result is again in `Reach` of C90 |
| C93 | the iterators of buckets in memory (Kv/PackedIter.lean): `none` for an access outside an array | from an index on, an iterator gives the entries from there on that have the prefix, renamed (`settle_gives`, by induction on what is left); the skip by binary search passes over no key with the prefix because those lie together in the order (`next_spec`) |

## Disagreements between the code and its intended properties (found while reading)

1. `CoordinationSystem::commit_start` (`AbstractCrashAwareSystem_v.rs` 537-544) asks for
   `CrashTolerantJournal::next(pre.journal, pre.journal, CommitStart)`, but that journal
   step changes `in_flight` from `None` to `Some`. The transition is never enabled, so
   as written nothing is ever committed. (C04)
2. `JournalCoordinationSystem::put` (190-194) asks for
   `CachedJournal::next(pre.journal, pre.journal, Put)`, so only empty puts are possible. (C36: `put_only_empty`, `put_refused`, `never_grows`; the `_partial`
   theorems take the state that the journal's step yields)
3. `Cache::writeback_initiate` (212) lacks the injectivity requirement `load_initiate`
   has: one page can be written by two outstanding requests and the stale one can land
   last. (C27: `lost_update` is an execution that loses a write; the `_partial` theorems prove
   coherence when no batch names a page twice)
4. The invariant stated for `Cache` is not inductive: `build_lookup_map` (316) covers
   only `Filled` slots while `reserve`/`load_initiate` add `Reserved`/`Loading` addresses
   to the lookup map. (C28: `source_invariant_broken`; the corrected invariant is proved for
   every reachable state)
5. `PivotBetree`/`FilteredBetree` `initialize` does not require a root covering the whole
   key space, which the refinement invariant needs. (C15, C16)
6. `AtomicState::deliver_sync_reply` accepts ids which were never requested and
   `ModelRefinement_v` closes the case with `assume(false)`. (C30–C32)
7. `ResizableUniformSizedSeq::try_parse` (532) calls `Vec::with_capacity` with an
   unvalidated length read from the bytes. (C40: `table_not_frugal`, `page_not_frugal`;
   `checked_frugal` for the decoder with the check moved first)
8. `Implementation_v.rs`: `handle_query` produces no reply, `recover` does not restore the
   journal, and `handle_disk_response` truncates history below what `inv` requires (all under
   `assume(false)`). (C41: `as_written_never_answers_query`, `as_written_forgets`,
   `unrestored_not_good`, `source_inv_broken`; the `_partial` theorems are about the program with
   the journal restored)
9. `LinkedBetreeVars` transitions (1098-1178) do not ask that the addresses they write are
   fresh or that reachable buffers survive; only `strong_step` (1209-1240), added by
   `inv_next_by` and the layers above, does. Without it `internal_grow` can overwrite the
   root with a node pointing to itself, after which no key can be queried
   (`C17.stale_address`). C17 is about the transitions with `strong_step`.
10. `AbstractJournal::put` does not ask that the message history put is well formed; C08
   assumes it (`CleanPuts`), as all callers guarantee it.
11. `DiskLayout_v.rs` 100: `unmarshall` promises to return a journal whose map is
   `spec_unmarshall` of the page, for every page; together with the assumed round trip
   (`ModelRefinement_v.rs` 23) no function can do that (`C33.no_executable_unmarshall`). The model asks
   it only of pages the program writes.

12. `CachedJournal::discard_old` (176) compares `require_end` with the end of the marshalled part of
   the journal, `LinkedJournal::discard_old` (704) with the end of the journal: the composition takes
   truncations whose label the journal it should refine refuses (`C36.discard_label_mismatch`). The
   refinement of C36 relates labels up to that number.
13. `JournalCoordinationSystem_v.rs` 35-39: the round trip of journal records through pages is assumed
   for all records, of which there are more than pages (`C36.roundtrip_impossible`). The model asks it
   of the records that fit, a parameter.
14. `BuildEvent` (`AllocationBranch_v.rs` 45-52) has no event that grows the tree, although the other
   events assume one: `Split` needs an index root. A branch therefore always consists of one page,
   `Split` and the summary page of `Seal` never occur (`C44.one_page_only`, `C44.split_never`). The
   other theorems of C44 are proved of the machine as written and of one with the missing event.
15. `linked_contains` of a branch (`AllocationBranch_v.rs` 29-32) says `==` where it should say `!=`:
   it holds of the keys the branch does not hold (`C44.contains_inverted`, `C44.contains_wrong`).
16. `can_compact` (`LinkedBetree_v.rs` 832-863) checks the result of a compaction of branches with
   that `linked_contains`. Where every input holds an entry for a key, the entry of the result is not
   looked at, so a compaction may change the answer of a key to anything (`C46.code_wrong`); where
   one input holds an entry and another does not, every result is refused (`C46.code_refuses`), so
   branches with different keys cannot be compacted. The refinement proof of this step is closed with
   `assume(false)` (`AllocationBranchBetreeRefinement_v.rs`, `internal_compact_complete`). Turning
   `==` into `!=` makes answers right, but stored no-op entries would still break the refinement
   as stated; the model repairs it as "an entry is stored" (`storedCheck`).
17. Transitions of AllocationBranchBetree_v that replace nodes ask that the new disk holds exactly
   the pages of units in use and is well formed. If one unit held two node pages, a page no longer
   reached could stay and point to one that is gone, and the step would be refused. Trees with one
   node page to a unit stay such (`ABB.alone_run`), and for those every step is possible
   (`C45.can_split`, `can_flush`, `can_persist`). An empty memtable or an empty result of a compaction
   cannot be written out, since a leaf must hold an entry.
18. `BankSpec_t.rs` 57-78 lets an account pay itself: the account then grows by the amount, so the
   auditor's bank specification lets money appear from nothing (`C48.spec_mints`). The program does not
   do it (`SimpleBank_v.rs` 158) and the token machine cannot (its two account tokens are of different
   accounts, `C48.tokens_conserve`), but `total_amount` (`Bank_v.rs` 19) is in no invariant. Request
   numbers repeat after 2^64 requests (`ClientAPI_t.rs` 44), against the promise of
   `BankContract_t.rs` 48; C47 bounds the number of requests. `get_total` may report an amount that was
   there at no moment (`C50.total_torn`; the source says it is not thread safe).
19. `trusted/`. (a) `mapspec_reply` (`ReqReply_t.rs` 58-66) turns both `NoopOutput` and `SyncOutput` into
   `NoopOutput`, so `execute_transition` lets a program answer a no-op with "synced" without any sync
   (`C51.false_sync`). (b) `deliver_sync_reply` (`KVStoreTokenized_t.rs` 106-114) consumes no token, so
   syncs never asked for may be answered, repeatedly (`C51.unasked_sync`; with the program model of
   /repo, item 6). (c) `ClientAPI::new` starts the id counter at 0 in every lifetime while
   `id_history` of the system model survives crashes: what the code does after a restart is no run of
   the system model (`C51.ids_repeat`). (d) `send_disk_request` promises `out == id_perm` for an id
   predicted earlier, though requests take ids from the same counter: the promise is false if a request
   is received in between. In the model a disk request is sent only when its predicted id comes up
   (`C51.send_possible`), otherwise its token stays. (e) `open_system_invariant_user_request` promises a
   state with a *sync* request for a request of any kind. Such a state exists (`C52.request_promise`)
   but it is not the state that belongs to the tokens (`C52.promise_other_world`).
20. VeriBetrKV. (a) `MapSpec/MapSpec.s.dfy` 133-139, a trusted file: `fromkey` contains
   `assume |from + k[|to|..]| <= 1024`, which is false for a clone whose source prefix is longer than its
   destination prefix. The model drops the bound on keys. (b) A node read that fails its checksum is
   dropped by `NoOp` (`BlockCache.i.dfy` 403-426), but the entry in `outstandingBlockReads` stays, and
   `PageInNodeReq` asks for no such entry: that node can then never be read again before a restart.
   (c) The two superblocks are no replacement for each other: if either fails its check when read the
   result is `SuperblockCorruption`, it is not read again, and loading never finishes
   (`JournalCache.i.dfy` 411-477).
   (d) `changePrefix` (`lib/Buckets/TranslationApply.s.dfy` 17, trusted) contains the same kind of
   `assume` on key length, with the comment that it is false now. What follows if it is: a clone to a prefix
   of 1024 bytes can write a root that cannot be read again (`C75.longer_clone_unreadable`). (e) `maxTable` is
   2^32 rows, but a table of more than 24 MB (about 262,000 nodes) is not written, so a sync then never
   finishes. (f) `CloneImpl.clone` never flushes, so a clone from the journal that does not fit the root is
   tried for ever and the store does not open.
21. `ByteBlockCacheSystem/AsyncDiskModel.s.dfy` 133-191, a trusted file: `ProcessRead` is commented out, and
   `ProcessReadFailure`, the only other way to answer a read, requires the answer to differ from what is on
   the disk, and to fail its checksum wherever what is on the disk passes it. So on this disk no superblock is
   ever read, no store ever opens, and the safety theorems about it hold of a store that does nothing
   (`C61.never_opens`). The model has the step as an option; C60 is proved with and without it.
22. `concurrency/scache`, unfinished code. (a) `try_evict_page` (`CacheOps.i.dfy` 343) asks
   `bit_or(status, flag_accessed) != 0` for "if accessed"; that is always so, so the bit is cleared each time, which
   is harmless. (b) `disk_writeback_callback` (`CacheIO.i.dfy` 86-97) is empty, and nothing else
   calls `release_writeback` (a call in `get_next_chunk` is commented out): once a page is written back its bit
   stays set, so the page never becomes clean and is never evicted (`C76.never_evictable`), and a writer waits
   for ever (`C76.writer_waits_for_ever`). The model of C76 calls `release_writeback` there; its safety theorems
   hold of the empty callback too (`C76.asWritten_reachable`). (c) The count of readers is one byte and wraps
   at 256. What keeps it right is the number of 255 tokens per thread, a ghost resource (`RWLock.i.dfy` 864) that
   nothing keeps at run time; the model takes it as given. (d) Nothing in the source makes a page dirty: the
   methods for writers are commented out or missing, so C76 on writers is on the protocol only.
23. `concurrency/ConcurrentMap`, unfinished code. `query_loop` says `assume false` at an empty slot
   (`LinearImpl.i.dfy` 303) and `assume slot.slot + 1 < |ht|` (334), and `QueryComplete` only knows success: a query
   for a key that is absent has no answer (`C78.absent_never_answers`). The walk does not go round at the end
   of the table: when the last slot has another key an insertion is stuck for ever, even if all other slots are
   empty (`C78.end_for_ever`, `C78.demo_end`).
24. `framework/Framework.cpp`, trusted. (a) `aligned_copy` (57-77) fills writes up to whole sectors with bytes of memory that were
   never set: the driver is not a refinement of `AsyncDiskModel.s.dfy`, on which the proof of the store rests
   (`C81.not_the_trusted_disk`), and it puts old contents of the heap on the disk. The store is safe all the same, since the
   parts of the disk are apart by whole sectors (`C81.acts_as_durable_map`). (b) `completeWriteTasks` (391-418), called by `Query`:
   if eight writes are out, one waits and all eight are found finished, it calls `fail`, though no write failed
   (`C82.complete_can_fail`); it should call `maybeStartWriteReq` first. (c) `Application::crash` (473-482) makes a new handler while
   the writes of the old one are still out, and does not reset `nWriteReqsOut`; for tests only, and not modelled.
25. `Filesys/FileSystem.s.dfy`, a trusted specification. (a) `Rename` (196-229) says `!BeneathDir(dst, src)`; it should also forbid that `dst` is
   `src` or beneath it. A file renamed to itself is gone (`C85.onto_itself`), a directory renamed into itself is gone with all
   that is in it (`C85.beneath_itself`), and its files are kept for ever without name (`C88.lost_for_ever`); when the root is
   renamed, nothing can be done any more (`C85.root_ends`). The invariant of `FileSystemInv.i.dfy` does not ask that the root exists, so
   its proof does not notice. (b) `ReadDir` (371-378) has `done ==> …` among the conditions of the `forall`, where it makes it say nothing: a
   listing that is done may leave out anything (`C87.done_says_nothing`). (c) A rename between two names of one file removes the first; POSIX
   asks that nothing is done.

## What is modelled, and what is not, by directory

* `concurrency/scache`, `Scache/`: every method with a body in CacheOps, AtomicStatus, AtomicRefcount and
  AtomicIndexLookup, as atomic steps on shared memory that is sequentially consistent; methods without body are
  modelled by their names and contracts. The commented-out methods for writers are modelled from the protocol in
  RWLock. Not modelled: the clock hand and chunks (any slot may be tried at any time), IO slots, `BasicLock`,
  `DiskIO`, the ghost resources.
* `concurrency/seq-hoh`, `Donate/`: `donate` and its loop; `init` has no body.
* `concurrency/ConcurrentMap`, `HashMap/`: `query`, `query_loop`, and insertion as in the protocol. Not modelled: the
  ghost resources, the `PseudoCivl` files.
* `concurrency/refcounter`, `Refcounter/`: the protocol; `ResourceBuilder.i.dfy` is not modelled. Other directories of `concurrency` are not modelled.
* `Filesys`, `Filesys/`: everything; maps that have all keys are functions.
* Dafny sources of VeriBetrKV (the directories of /repo other than Splinter), `Kv/`: `MapSpec/UI`,
  `Versions/VOp`, `Versions/StatesView`, `PivotBetree/Bounds` (layout constants),
  `BlockCacheSystem/{DiskLayout, BlockDisk, BlockCache, BetreeCache, BlockSystem, JournalInterval,
  JournalRange (parser), JournalDisk, JournalCache, JournalSystem}`, `Versions/JournalView`,
  `MapSpec/{Journal, MapSpec}`, `Versions/CompositeView`, `BlockCacheSystem/{BlockJournalCache,
  BlockJournalDisk, BetreeJournalSystem}`. `Betree/{BetreeSpec, Betree}`, `lib/Base/Message`.
  `PivotBetree/{PivotBetreeSpec, PivotBetreeGraph, PivotBetree}`, `lib/Buckets/{TranslationLib, BoundedPivotsLib,
  BucketsLib}` in so far as PivotBetreeSpec uses them, without the limits on key length, weight and number of
  children; which entries a partial flush moves is left open. The application on
  top of the block cache is a parameter, of which the betree is an instance. `Impl/{JournalistImpl, JournalistMarshallingModel}`, `ByteBlockCacheSystem/{JournalBytes,
  AsyncDiskModel, ByteCache, ByteSystem, InterpretationDiskOps, InterpretationDisk,
  InterpretationDiskContents}`. `Impl/CommitterImpl` and the parts of `CoordinationImpl`,
  `HandleReadResponseImpl` and `HandleWriteResponseImpl` that call it, the bytes of superblocks.
  `lib/Marshalling/GenericMarshalling` (the functions on sequences, not the loops proved equal to them),
  `ByteBlockCacheSystem/Marshalling`, what `Impl/MarshallingImpl` and `IndirectionTableToVal` write,
  `lib/Buckets/{PackedStringArray, PackedKV}` with their marshalling, `lib/Checksums/{CRC32C.s, CRC32CImpl,
  CRC32CArrayImpl, CRC32C_Lut}` with the instructions of `lib/Lang/System/{F2_X, Bits}`, `Impl/Mkfs`.
  `Impl/IndirectionTable` (`Kv/IndTable`). The block side (`Kv/BlockImpl`): `Impl/{BookkeepingImpl, DeallocImpl, EvictImpl,
  IOImpl, SyncImpl, StateBCImpl, BlockAllocatorModel}`, with `lib/DataStructures/{BitmapModel, LruModel}`. The tree
  (`Kv/TreeImpl`): `Impl/{GrowImpl, FlushImpl, SplitImpl, LeafImpl, InsertImpl, CloneImpl, QueryImpl, SuccImpl,
  FlushPolicyImpl, BucketGeneratorModel, BucketIteratorModel, BucketSuccessorLoopModel}`
  and `lib/Buckets/BucketFlushModel`; nodes are
  values, buckets are lists there (their packed form is in `Kv/MutBucket` and the flush of packed buckets in `Kv/PackedFlush`).
  All of it together is `Kv/FullImpl`: a write request holds some bytes that
  read back as the node or table to be written (C63: there are such bytes for everything within the limits; a node
  outside them, see 20(d), has none and the model then does not write). Where the code has a method and a functional model proved equal to it in Dafny, the functional model is
  followed. The linear data structures below: `lib/DataStructures/{LinearMutableMapBase,
  LinearMutableMap}` (`Kv/HashMap`), `{LinearDList, LinearLru, LinearUSeq}` (`Kv/Queue`), `BitmapImpl`, `Impl/BlockAllocatorImpl` (`Kv/Bitmap`), `MutableBtree`
  with `lib/Buckets/LKMBPKVOps` (`Kv/Btree`); buckets in memory, `lib/Buckets/BucketImpl` (`Kv/MutBucket`,
  `Kv/PackedFlush`), the translation of such buckets (`Kv/PackedTranslate`) and their iterators (`Kv/PackedIter`). Seen while modelling: a journal read
  that fails its checksum leaves `journalFrontRead` set (CommitterImpl.i.dfy:520-562), so it is never asked for
  again and the store stays closed; that is not unsafe, and C61's recovery assumes reads that succeed.
  Of the C++ in `framework/`: `Application::SuccOnce` and `Application::Succ` (`Kv/AppSucc`), `DiskIOHandler` (`Kv/DiskHandler`).
* `spec/`: `Messages_t`, `KeyType_t`, `FloatingSeq_t`, `MapSpec_t`, `AsyncDisk`. Not `AppIO_t`
  beyond the request and reply types.
* `abstract_system/`: everything.
* `journal/`: PagedJournal, LinkedJournal and their refinements.
* `betree/`: Buffer, Memtable, Domain, PivotTable, PagedBetree, PivotBetree, FilteredBetree,
  BufferSeq, BufferOffsets, OffsetMap, SplitRequest, LinkedBetree, LinkedSeq, BufferDisk (for
  `T = SimpleBuffer`). PivotBetree and FilteredBetree share one Lean tree type
  (`Betree/Tree.lean`) with a parameter for what a node stores, since their path, split and
  grow functions are the same text.
  PivotBranch and its refinement functions (`Betree/Branch.lean`); the comparison with a flat
  map is proved directly rather than through the source's lemma structure.
  LinkedBranch (`Betree/LinkedBranch.lean`): all operations; sets the source computes by recursion
  on a ranking (`all_keys`, `representation`) are inductive.
* `marshalling/`: Slice, IntegerMarshalling, SeqMarshalling, UniformSizedSeq,
  ResizableUniformSizedSeq, VariableSizedElementSeq, KVPairFormat. `usize` is 64 bits.
  Executable functions live in a monad with panic (overflow, index out of range, `unwrap` of
  `None`, `with_capacity` beyond a given bound); theorems show that no panic happens. The
  places the source closes with `assume(false)` (IntegerMarshalling `exec_parse`, the loops of
  UniformSizedSeq and ResizableUniformSizedSeq, `appendable_implies_bdyf_appendable` and
  `exec_well_formed` of VariableSizedElementSeq) are proved in the model. Functions that always
  refuse (`unimplemented` trait methods) are left out. WrappableMarshalling is not modelled.
* `spec/AsyncDisk_t` (`Disk/AsyncDisk.lean`): everything; disk geometry is a parameter, reading a
  page never written yields any data.
* `implementation/Cache_v` (`Disk/Cache.lean`): all transitions; `Slot` is `Int`. The composition
  with the disk (`Disk/CacheSystem.lean`) is the one of `JournalCoordinationSystem_v`, plus a
  crash step that the source does not have there.
* `exec/MiniAllocator_v` and `allocation_layer/MiniAllocator_v` (`Alloc/MiniAllocator.lean`): all
  functions; `requires`/`recommends` clauses guard the calls. The executable `add_aus` makes the
  unit current while the set-based one does not (the source states no relation there); the
  executable `prune` gives the unit back without asking that its pages are unreferenced.
* `allocation_layer/LikesJournal_v`, `AllocationJournal_v`: all transitions. The recursive index
  builders are relations (`Builds`, `AuWalk`) proved total and functional. In `AllocationJournal_v`
  `new_first` may return any unit where the source says `arbitrary()`.
* `allocation_layer/AllocationCrashAwareJournal_v`, `UnifiedCrashAwareJournal_v`
  (`Journal/CrashAware.lean`): all transitions. `commit_start` records any first unit where the
  source says `arbitrary()`. `fresh_label` is a guard of the first machine only; for the second it
  is proved (`C43.taken_fresh`).
* `allocation_layer/Likes_v`, `LikesBetree_v`, `AllocationBetree_v` (`Alloc/LikesBetree.lean`): all
  transitions. Functions that walk a tree or empty a multiset step by step are bounded recursions or
  Mathlib's `map`/`bind`. In `AllocationBetree_v` `internal_buffer_noop` may drop single unreached
  pages of units in use, which the other transitions may not.
* `allocation_layer/AllocationBranch_v` (`Alloc/AllocationBranch.lean`): all events, with a switch for
  a growth event the source lacks.
* `allocation_layer/AllocationBranchBetree_v` (`Alloc/AllocationBranchBetree.lean`): all transitions,
  with the same switch and with the check of a finished compaction as a parameter. LinkedBetree at
  `T = BranchNode` is the LinkedBetree of simple buffers with the buffer disk taken apart, see the
  head of the file.
* `implementation/CachedJournal_v`, `JournalCoordinationSystem_v` (`Journal/Cached.lean`): all
  transitions, each in a version as written and a repaired one (`Version`). `min_lsn` is the least
  element of its set.
* `implementation/`, `allocation_layer/`, `disk/`: see the table above.
* `implementation/Implementation_v`, `DiskLayout_v` (`Impl/Implementation.lean`): every handler, cut
  at its visible actions so that the disk or a crash may come in between; tokens and ghost
  state are dropped and reappear as the simulation relation `Impl.Rel`. `u64` LSNs are naturals
  (overflow after 2^64 puts is not modelled).
* `example/` (`Bank/`): BankSpec_t, Bank_v, BankContract_t, BankObligations_v as state machines,
  SimpleBank_v and ClientAPI_t as threads that interleave at lock operations (see the head of
  `Bank/Simple.lean`). vstd's `RwLock` is not in /repo and is taken to be a reader-writer lock without
  fairness: any waiter may get it when it is free. `usize` is 64 bits. `VerifiedEntry_t` only starts the program.
* `trusted/` (`Token/`): KVStoreTokenized_t, SystemModel_t and ProgramModelTrait_t for any program,
  ClientAPI_t, ReqReply_t, the promises of KVStoreTrait_t, and `implementation/MultisetMapRelation_v`. Instance ids
  are left out: there is one instance. What is *received* by `receive_disk_response` is a response the disk
  has (the source returns `arbitrary()`); what `send_disk_request` sends reaches the disk.
