import Verif.Base.Trace
import Mathlib.Logic.Function.Basic
/-
The concurrent page cache of concurrency/scache: a status byte per cache slot, a count of readers per slot and
thread, and for each disk page the slot it is in. Threads run the operations of CacheOps.i.dfy interleaved at
their atomic accesses (Atomic.s.dfy; sequentially consistent), and writes back end at any time.

Simplifications, besides those said at the definitions: the numbers of slots and pages are unbounded; the
policy by which `get_free_page` picks slots (a clock hand over chunks) is left open, any slot may be tried at
any time. `atomic_index_lookup_read`, `atomic_index_lookup_clear_mapping` and `check_all_refcounts_dont_wait`
have no body in the source; they are a read, a write of `NOT_MAPPED`, and the loop that the commented-out
`take_write_lock_on_cache_entry` (CacheOps.i.dfy:183-243) has, ending at the first count that is not zero.
-/
namespace Verif.Scache

/-- `NUM_THREADS`, Constants.i.dfy:5 -/
abbrev numThreads : Nat := 24
/-- `NUM_CLIENTS`, RWLock.i.dfy:864: the tokens `Client(t)` of one thread; each is for one page held. -/
abbrev numClients : Nat := 255
/-- A token `Client(t)` (RWLock.i.dfy:95): the thread and which of its tokens. -/
abbrev Client := Fin numThreads × Fin numClients
/-- An index in `cache_idx_of_page` (Cache.i.dfy:33), a page of the disk. -/
abbrev Page := Nat
/-- An index in `data`, `status` and so on (Cache.i.dfy:27-31). -/
abbrev Slot := Nat

/-! ### The status byte (AtomicStatus.i.dfy:21-48) -/

/-- `flag_writeback`, AtomicStatus.i.dfy:23 -/
abbrev flagWriteback : UInt8 := 1
/-- `flag_exc`, AtomicStatus.i.dfy:24 -/
abbrev flagExc : UInt8 := 2
/-- `flag_accessed`, AtomicStatus.i.dfy:25 -/
abbrev flagAccessed : UInt8 := 4
/-- `flag_unmapped`, AtomicStatus.i.dfy:26 -/
abbrev flagUnmapped : UInt8 := 8
/-- `flag_reading`, AtomicStatus.i.dfy:27 -/
abbrev flagReading : UInt8 := 16
/-- `flag_clean`, AtomicStatus.i.dfy:28 -/
abbrev flagClean : UInt8 := 32
/-- `flag_writeback_clean`, AtomicStatus.i.dfy:30 -/
abbrev flagWritebackClean : UInt8 := 33
/-- `flag_exc_clean`, AtomicStatus.i.dfy:31 -/
abbrev flagExcClean : UInt8 := 34
/-- `flag_exc_reading`, AtomicStatus.i.dfy:40 -/
abbrev flagExcReading : UInt8 := 18
/-- `flag_accessed_reading_clean`, AtomicStatus.i.dfy:46 -/
abbrev flagAccessedReadingClean : UInt8 := 52

/-- Where a client is in its call of `try_take_read_lock_disk_page` (CacheOps.i.dfy:518-617), or what it
holds. `d` is the page asked for, `c` a slot. -/
inductive Pc
  | idle
  /-- :538, before the read of `cache_idx_of_page` -/
  | look (d : Page)
  /-- `try_take_read_lock_on_cache_entry`, :82, before `quicktest_is_exc_locked` -/
  | quick (d : Page) (c : Slot)
  /-- :90, before `inc_refcount_for_shared` -/
  | inc (d : Page) (c : Slot)
  /-- :99, before `is_exc_locked_or_free` (`SharedLockPending`) -/
  | check (d : Page) (c : Slot)
  /-- :105, before `dec_refcount_for_shared_pending` -/
  | decPending (c : Slot)
  /-- :115, before `mark_accessed` (`SharedLockPending2`) -/
  | mark (d : Page) (c : Slot)
  /-- :134-155, the loop around `is_reading` -/
  | wait (d : Page) (c : Slot)
  /-- :160, before the read of `disk_idx_of_entry` (`SharedLockObtained`) -/
  | verify (d : Page) (c : Slot)
  /-- the client holds a `ReadonlyPageHandle` for `d` -/
  | hold (d : Page) (c : Slot)
  /-- :165, before `dec_refcount_for_shared_obtained` -/
  | decObtained (c : Slot)
  /-- `get_free_page`, :433-514 -/
  | alloc (d : Page)
  /-- :560, before `atomic_index_lookup_add_mapping` (`ReadingPending`) -/
  | map (d : Page) (c : Slot)
  /-- :573, before `abandon_reading_pending` -/
  | unalloc (c : Slot)
  /-- :582, before `inc_refcount_for_reading` -/
  | incReading (d : Page) (c : Slot)
  /-- :586, before `clear_exc_bit_during_load_phase` (`ReadingPendingCounted`) -/
  | clearExc (d : Page) (c : Slot)
  /-- :590, in `disk_read_sync` (`ReadingObtained`) -/
  | load (d : Page) (c : Slot)
  /-- :598, before the write of `disk_idx_of_entry` -/
  | setIdx (d : Page) (c : Slot)
  /-- :602, before `load_phase_finish` -/
  | fin (d : Page) (c : Slot)
  /-- `try_evict_page`, :339-345, with the status read -/
  | evClear (d : Page) (c : Slot) (f : UInt8)
  /-- :363, before `take_exc_if_eq_clean` -/
  | evTake (d : Page) (c : Slot)
  /-- :377, in `check_all_refcounts_dont_wait`, with the number of counts seen to be zero -/
  | visit (d : Page) (c : Slot) (n : Nat)
  /-- :381, before `abandon_exc` -/
  | abandon (d : Page) (c : Slot)
  /-- :393, before the read of `disk_idx_of_entry` (`ExcLockObtained`) -/
  | readIdx (d : Page) (c : Slot)
  /-- :399, before `atomic_index_lookup_clear_mapping` -/
  | unmap (d : Page) (c : Slot) (p : Page)
  /-- :407, before `set_to_free` -/
  | free (d : Page) (c : Slot)
  /-- `get_next_chunk`, :284-299, with the write back of the slot to be started (`WriteBackObtained`) -/
  | issue (d : Page) (c : Slot)
  /-- `ExcLockPendingAwaitWriteBack`, RWLock.i.dfy:105 -/
  | await (d : Page) (c : Slot)
  /-- `ExcLockPending`, RWLock.i.dfy:107 -/
  | visitExc (d : Page) (c : Slot) (n : Nat)
  /-- `ExcLockObtained`, RWLock.i.dfy:110: the client may write -/
  | write (d : Page) (c : Slot)
deriving DecidableEq

/-- A write back between `async_write` (CacheIO.i.dfy:53-58) and its answer: the page written to, and whether
the disk is done. -/
inductive Flight
  | none
  | issued (p : Page)
  | done
deriving DecidableEq

/-- `Cache` (Cache.i.dfy:26-36) with the disk, the writes back under way and what each client does.
`global_clockpointer` is left out. -/
structure State (Data : Type) where
  /-- `status` -/
  status : Slot → UInt8
  /-- `read_refcounts` -/
  rc : Fin numThreads → Slot → UInt8
  /-- `cache_idx_of_page`; `none` is `NOT_MAPPED` (AtomicIndexLookup.i.dfy:23) -/
  lookup : Page → Option Slot
  /-- `disk_idx_of_entry` -/
  idx : Slot → Page
  /-- `data` -/
  data : Slot → Data
  flight : Slot → Flight
  disk : Page → Data
  pc : Client → Pc

/-- What is seen from outside: what a client reads from or writes to a page it holds. -/
inductive Label (Data : Type)
  | tau
  | read (i : Client) (d : Page) (x : Data)
  | write (i : Client) (d : Page) (x : Data)

variable {Data : Type}

namespace State
/-- Client `i` goes on to `p`. -/
def go (s : State Data) (i : Client) (p : Pc) : State Data := { s with pc := Function.update s.pc i p }
/-- The status of `c` becomes `v`. -/
def setStatus (s : State Data) (c : Slot) (v : UInt8) : State Data := { s with status := Function.update s.status c v }
/-- The count of thread `t` for slot `c` becomes `v`. -/
def setRc (s : State Data) (t : Fin numThreads) (c : Slot) (v : UInt8) : State Data :=
  { s with rc := Function.update s.rc t (Function.update (s.rc t) c v) }
/-- `cache_idx_of_page[p]` becomes `v`. -/
def setLookup (s : State Data) (p : Page) (v : Option Slot) : State Data :=
  { s with lookup := Function.update s.lookup p v }
/-- `disk_idx_of_entry[c]` becomes `p`. -/
def setIdx (s : State Data) (c : Slot) (p : Page) : State Data := { s with idx := Function.update s.idx c p }
/-- `data[c]` becomes `x`. -/
def setData (s : State Data) (c : Slot) (x : Data) : State Data := { s with data := Function.update s.data c x }
/-- The write back of `c` is now at `f`. -/
def setFlight (s : State Data) (c : Slot) (f : Flight) : State Data :=
  { s with flight := Function.update s.flight c f }
/-- The disk has `x` at `p`. -/
def setDisk (s : State Data) (p : Page) (x : Data) : State Data := { s with disk := Function.update s.disk p x }
end State

open State

/-- One atomic access of one client, or a step of the disk. -/
inductive Step : State Data → Label Data → State Data → Prop
  /-- A call of `try_take_read_lock_disk_page`, CacheOps.i.dfy:518 -/
  | call {s : State Data} {i} (d) : s.pc i = .idle → Step s .tau (s.go i (.look d))
  /-- CacheOps.i.dfy:538-542 -/
  | lookMiss {s : State Data} {i d} : s.pc i = .look d → s.lookup d = none → Step s .tau (s.go i (.alloc d))
  /-- CacheOps.i.dfy:538, 613-614 -/
  | lookHit {s : State Data} {i d c} : s.pc i = .look d → s.lookup d = some c → Step s .tau (s.go i (.quick d c))
  /-- `quicktest_is_exc_locked`, AtomicStatus.i.dfy:556-561; CacheOps.i.dfy:82-86 -/
  | quickFail {s : State Data} {i d c} : s.pc i = .quick d c → s.status c &&& flagExc ≠ 0 →
      Step s .tau (s.go i .idle)
  | quick {s : State Data} {i d c} : s.pc i = .quick d c → s.status c &&& flagExc = 0 →
      Step s .tau (s.go i (.inc d c))
  /-- `inc_refcount_for_shared`, AtomicRefcount.i.dfy:106-137 -/
  | inc {s : State Data} {i d c} : s.pc i = .inc d c →
      Step s .tau ((s.setRc i.1 c (s.rc i.1 c + 1)).go i (.check d c))
  /-- `is_exc_locked_or_free`, AtomicStatus.i.dfy:563-603; CacheOps.i.dfy:98-117 -/
  | checkFail {s : State Data} {i d c} : s.pc i = .check d c →
      s.status c &&& (flagExc ||| flagUnmapped) ≠ 0 → Step s .tau (s.go i (.decPending c))
  | check {s : State Data} {i d c} : s.pc i = .check d c → s.status c &&& (flagExc ||| flagUnmapped) = 0 →
      Step s .tau (s.go i (if s.status c &&& flagAccessed ≠ 0 then .wait d c else .mark d c))
  /-- `dec_refcount_for_shared_pending`, AtomicRefcount.i.dfy:139-170 -/
  | decPending {s : State Data} {i c} : s.pc i = .decPending c →
      Step s .tau ((s.setRc i.1 c (s.rc i.1 c - 1)).go i .idle)
  /-- `mark_accessed`, AtomicStatus.i.dfy:605-632 -/
  | mark {s : State Data} {i d c} : s.pc i = .mark d c →
      Step s .tau ((s.setStatus c (s.status c ||| flagAccessed)).go i (.wait d c))
  /-- `is_reading`, AtomicStatus.i.dfy:658-706; while it reads, the loop goes on (no step) -/
  | waited {s : State Data} {i d c} : s.pc i = .wait d c → s.status c &&& flagReading = 0 →
      Step s .tau (s.go i (.verify d c))
  /-- CacheOps.i.dfy:160-177 -/
  | verifyFail {s : State Data} {i d c} : s.pc i = .verify d c → s.idx c ≠ d → Step s .tau (s.go i (.decObtained c))
  | verify {s : State Data} {i d c} : s.pc i = .verify d c → s.idx c = d → Step s .tau (s.go i (.hold d c))
  /-- The holder of a page reads it. -/
  | read {s : State Data} {i d c} : s.pc i = .hold d c → Step s (.read i d (s.data c)) s
  /-- The holder is done with the page. -/
  | release {s : State Data} {i d c} : s.pc i = .hold d c → Step s .tau (s.go i (.decObtained c))
  /-- `dec_refcount_for_shared_obtained`, AtomicRefcount.i.dfy:172-206 -/
  | decObtained {s : State Data} {i c} : s.pc i = .decObtained c →
      Step s .tau ((s.setRc i.1 c (s.rc i.1 c - 1)).go i .idle)
  /-- `try_alloc`, AtomicStatus.i.dfy:420-483. The first read, which only spares a compare-and-set, is left
  out. -/
  | alloc {s : State Data} {i d} (c) : s.pc i = .alloc d → s.status c = flagUnmapped →
      Step s .tau ((s.setStatus c flagExcReading).go i (.map d c))
  /-- `atomic_index_lookup_add_mapping`, AtomicIndexLookup.i.dfy:65-123 -/
  | map {s : State Data} {i d c} : s.pc i = .map d c → s.lookup d = none →
      Step s .tau ((s.setLookup d (some c)).go i (.incReading d c))
  | mapFail {s : State Data} {i d c} : s.pc i = .map d c → s.lookup d ≠ none → Step s .tau (s.go i (.unalloc c))
  /-- `abandon_reading_pending`, AtomicStatus.i.dfy:862-902 -/
  | unalloc {s : State Data} {i c} : s.pc i = .unalloc c →
      Step s .tau ((s.setStatus c flagUnmapped).go i .idle)
  /-- `inc_refcount_for_reading`, AtomicRefcount.i.dfy:73-105 -/
  | incReading {s : State Data} {i d c} : s.pc i = .incReading d c →
      Step s .tau ((s.setRc i.1 c (s.rc i.1 c + 1)).go i (.clearExc d c))
  /-- `clear_exc_bit_during_load_phase`, AtomicStatus.i.dfy:485-514 -/
  | clearExc {s : State Data} {i d c} : s.pc i = .clearExc d c →
      Step s .tau ((s.setStatus c flagAccessedReadingClean).go i (.load d c))
  /-- `disk_read_sync`, CacheIO.i.dfy:72-82 (no body): the disk fills the buffer, in any way … -/
  | loading {s : State Data} {i d c} (x) : s.pc i = .load d c → Step s .tau (s.setData c x)
  /-- … until it holds the page. -/
  | load {s : State Data} {i d c} : s.pc i = .load d c → Step s .tau ((s.setData c (s.disk d)).go i (.setIdx d c))
  /-- CacheOps.i.dfy:598-599 -/
  | setIdx {s : State Data} {i d c} : s.pc i = .setIdx d c → Step s .tau ((s.setIdx c d).go i (.fin d c))
  /-- `load_phase_finish`, AtomicStatus.i.dfy:516-554 -/
  | fin {s : State Data} {i d c} : s.pc i = .fin d c →
      Step s .tau ((s.setStatus c (s.status c &&& (0xff - flagReading))).go i (.hold d c))
  /-- `try_evict_page`, CacheOps.i.dfy:332-339 -/
  | evict {s : State Data} {i d} (c) : s.pc i = .alloc d → Step s .tau (s.go i (.evClear d c (s.status c)))
  /-- CacheOps.i.dfy:343-351 with `clear_accessed`, AtomicStatus.i.dfy:634-656. The code asks
  `bit_or(status, flag_accessed) != 0`, which is always so. -/
  | evClear {s : State Data} {i d c f} : s.pc i = .evClear d c f →
      Step s .tau ((if f ||| flagAccessed ≠ 0 then s.setStatus c (s.status c &&& (0xff - flagAccessed)) else s).go i
        (if f ≠ flagClean then .alloc d else .evTake d c))
  /-- `take_exc_if_eq_clean`, AtomicStatus.i.dfy:708-776 -/
  | evTake {s : State Data} {i d c} : s.pc i = .evTake d c → s.status c = flagClean →
      Step s .tau ((s.setStatus c flagExcClean).go i (.visit d c 0))
  | evTakeFail {s : State Data} {i d c} : s.pc i = .evTake d c → s.status c ≠ flagClean →
      Step s .tau (s.go i (.alloc d))
  /-- `is_refcount_eq` with 0, AtomicRefcount.i.dfy:32-71 -/
  | visit {s : State Data} {i d c n} (h : n < numThreads) : s.pc i = .visit d c n → s.rc ⟨n, h⟩ c = 0 →
      Step s .tau (s.go i (.visit d c (n + 1)))
  | visitFail {s : State Data} {i d c n} (h : n < numThreads) : s.pc i = .visit d c n → s.rc ⟨n, h⟩ c ≠ 0 →
      Step s .tau (s.go i (.abandon d c))
  /-- `abandon_exc`, AtomicStatus.i.dfy:817-860 -/
  | abandon {s : State Data} {i d c} : s.pc i = .abandon d c →
      Step s .tau ((s.setStatus c (s.status c &&& (0xff - flagExc))).go i (.alloc d))
  /-- `transform_TakeExcLockFinish`, CacheOps.i.dfy:388-389 -/
  | visited {s : State Data} {i d c} : s.pc i = .visit d c numThreads → Step s .tau (s.go i (.readIdx d c))
  /-- CacheOps.i.dfy:393-395 -/
  | readIdx {s : State Data} {i d c} : s.pc i = .readIdx d c → Step s .tau (s.go i (.unmap d c (s.idx c)))
  /-- `atomic_index_lookup_clear_mapping`, AtomicIndexLookup.i.dfy:47-63 -/
  | unmap {s : State Data} {i d c p} : s.pc i = .unmap d c p →
      Step s .tau ((s.setLookup p none).go i (.free d c))
  /-- `set_to_free`, AtomicStatus.i.dfy:778-815 -/
  | free {s : State Data} {i d c} : s.pc i = .free d c →
      Step s .tau ((s.setStatus c flagUnmapped).go i (.alloc d))
  /-- `try_acquire_writeback`, AtomicStatus.i.dfy:164-282, called in `get_next_chunk` (CacheOps.i.dfy:260-313).
  The first read is left out. -/
  | writeback {s : State Data} {i d} (c) : s.pc i = .alloc d → s.status c = 0 →
      Step s .tau ((s.setStatus c flagWriteback).go i (.issue d c))
  /-- The same `with_access`, in the same method; nothing calls it so yet -/
  | writebackAccessed {s : State Data} {i d} (c) : s.pc i = .alloc d → s.status c = flagAccessed →
      Step s .tau ((s.setStatus c (flagWriteback ||| flagAccessed)).go i (.issue d c))
  /-- CacheOps.i.dfy:284-299 and `disk_writeback_async`, CacheIO.i.dfy:22-69 -/
  | issue {s : State Data} {i d c} : s.pc i = .issue d c →
      Step s .tau ((s.setFlight c (.issued (s.idx c))).go i (.alloc d))
  /-- While the disk writes, the page on it may be anything … -/
  | tearing {s : State Data} {c p} (x) : s.flight c = .issued p → Step s .tau (s.setDisk p x)
  /-- … until it is what the buffer holds. -/
  | written {s : State Data} {c p} : s.flight c = .issued p →
      Step s .tau ((s.setDisk p (s.data c)).setFlight c .done)
  /-- `release_writeback`, AtomicStatus.i.dfy:284-326, when the disk has answered. `disk_writeback_callback`, which is to
  call it (CacheIO.i.dfy:86-97), is empty in the source. -/
  | released {s : State Data} {c} : s.flight c = .done →
      Step s .tau ((s.setStatus c (s.status c ^^^ flagWritebackClean)).setFlight c .none)
  /-- `SharedToExc`, RWLock.i.dfy:206-222, as the commented-out `try_set_write_lock`
  (AtomicStatus.i.dfy:328-367) does it: the holder of a page asks to write it. -/
  | upgrade {s : State Data} {i d c} : s.pc i = .hold d c → s.status c &&& flagExc = 0 →
      Step s .tau ((s.setStatus c (s.status c ||| flagExc)).go i (.await d c))
  /-- The same when another client was first. -/
  | upgradeFail {s : State Data} {i d c} : s.pc i = .hold d c → s.status c &&& flagExc ≠ 0 →
      Step s .tau (s.setStatus c (s.status c ||| flagExc))
  /-- `try_check_writeback_isnt_set`, AtomicStatus.i.dfy:369-418; while the bit is set it is asked again -/
  | await {s : State Data} {i d c} : s.pc i = .await d c → s.status c &&& flagWriteback = 0 →
      Step s .tau (s.go i (.visitExc d c 0))
  /-- `is_refcount_eq`, AtomicRefcount.i.dfy:32-71; asked again while it is not equal -/
  | visitExc {s : State Data} {i d c n} (h : n < numThreads) : s.pc i = .visitExc d c n →
      s.rc ⟨n, h⟩ c = (if i.1.val = n then 1 else 0) → Step s .tau (s.go i (.visitExc d c (n + 1)))
  /-- `transform_TakeExcLockFinish`, RWLockMethods.i.dfy:336 -/
  | visitedExc {s : State Data} {i d c} : s.pc i = .visitExc d c numThreads → Step s .tau (s.go i (.write d c))
  /-- The only holder writes. -/
  | write {s : State Data} {i d c} (x) : s.pc i = .write d c → Step s (.write i d x) (s.setData c x)
  /-- The only holder reads. -/
  | readExc {s : State Data} {i d c} : s.pc i = .write d c → Step s (.read i d (s.data c)) s
  /-- `DowngradeExcLock`, RWLock.i.dfy:277-297. No code for it is in the source; here it clears the bits `exc`
  and `clean` at once, so that the page is dirty. -/
  | downgrade {s : State Data} {i d c} : s.pc i = .write d c →
      Step s .tau ((s.setStatus c (s.status c &&& (0xff - flagExcClean))).go i (.hold d c))

/-- At the start all slots are unmapped and nobody does anything. There is no code for it in the source. -/
structure Init (s : State Data) : Prop where
  status : ∀ c, s.status c = flagUnmapped
  rc : ∀ t c, s.rc t c = 0
  lookup : ∀ p, s.lookup p = none
  flight : ∀ c, s.flight c = .none
  pc : ∀ i, s.pc i = .idle

/-- The cache as a machine. -/
def machine (Data : Type) : Machine (State Data) (Label Data) := ⟨Init, Step⟩

end Verif.Scache
