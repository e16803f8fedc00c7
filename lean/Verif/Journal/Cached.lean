import Verif.Journal.Index
import Verif.Disk.CacheSystem
/-
Model of Splinter/src/implementation/CachedJournal_v.rs (the journal whose records are read and
written through a page cache; it keeps only the root pointer, the boundary, the unmarshalled tail
and the index from LSN to address) and of JournalCoordinationSystem_v.rs (that journal, the page
cache and the disk together). JournalModel_v.rs 622-833 repeats LikesJournal_v.rs, modelled in
Journal/Index.lean.
-/
namespace Verif.CachedJ
open Verif Linked

/-- CachedJournal_v.rs 80-83 `JournalSnapShot` -/
structure Snapshot where
  boundary : LSN
  root : Pointer

/-- CachedJournal_v.rs 86-91 -/
structure State where
  boundary : LSN
  root : Pointer
  tail : MsgHistory
  ix : PMap LSN Address

/-- CachedJournal_v.rs 25-28 `addr_to_lsns` -/
def AddrLsns (ix : PMap LSN Address) (a : Address) (b : LSN) (l : LSN) : Prop :=
  b ≤ l ∧ ix l = some a

open Classical in
/-- CachedJournal_v.rs 30-56 `min_lsn`: the least element (`min_lsn_ensures`). The source computes
it by recursion over a finite set and assumes finiteness where it is used
(JournalCoordinationRefinement_v.rs, `assume(lsns.finite())`); a non-empty set of numbers has a
least element anyway. -/
noncomputable def minLsn (P : LSN → Prop) : LSN :=
  if h : ∃ m, P m ∧ ∀ l, P l → m ≤ l then h.choose else 0

/-- CachedJournal_v.rs 58-78 `build_lsn_addr_index_from_reads` -/
def buildFromReads (reads : PMap Address JRec) (b : LSN) (p : Pointer) (e : LSN) :
    PMap LSN Address :=
  match p with
  | none => PMap.empty
  | some a =>
    match reads a with
    | none => PMap.empty
    | some r =>
      if max b r.msgs.seqStart < e then
        (buildFromReads reads b (r.croppedPrior b) (max b r.msgs.seqStart)).unionRight
          (Index.singleton (max b r.msgs.seqStart) r.msgs.seqEnd a)
      else PMap.empty
termination_by e

open Classical in
/-- CachedJournal_v.rs 247-262 `next_index`. On `none` the source unwraps a missing pointer; the
callers do not use that value. -/
noncomputable def State.nextIndex (s : State) : Pointer → Pointer
  | none => none
  | some a =>
    if ∃ l, AddrLsns s.ix a s.boundary l then
      let m := minLsn (AddrLsns s.ix a s.boundary)
      if 0 < m ∧ s.boundary ≤ m - 1 then s.ix (m - 1) else none
    else none

/-- CachedJournal_v.rs 264-271 -/
def State.CanCropIndex (s : State) : Pointer → Nat → Prop
  | _, 0 => True
  | p, n + 1 => p ≠ none ∧ s.CanCropIndex (s.nextIndex p) n

/-- CachedJournal_v.rs 273-281 -/
noncomputable def State.pointerAfterCropIndex (s : State) : Pointer → Nat → Pointer
  | p, 0 => p
  | p, n + 1 => s.pointerAfterCropIndex (s.nextIndex p) n

/-- CachedJournal_v.rs 120-129. No transition has the label `Internal`. -/
inductive Label
  | readForRecovery (m : MsgHistory) (reads : PMap Address JRec)
  | freezeForCommit (f : Snapshot) (domain : PSet Address) (reads : PMap Address JRec)
  | queryEndLsn (l : LSN)
  | put (m : MsgHistory)
  | discardOld (start requireEnd : LSN) (addrs : PSet Address)
  | marshal (writes : PMap Address JRec)

/-- CachedJournal_v.rs 154: `frozen_seq_end`; also 214 `seq_end` -/
def endOf (reads : PMap Address JRec) (p : Pointer) (b : LSN) : LSN :=
  match p with
  | none => b
  | some a => match reads a with
    | some r => r.msgs.seqEnd
    | none => b

/-- CachedJournal_v.rs 136-202: the transitions. -/
inductive Next : State → Label → State → Prop
  /-- 136-143 -/
  | readForRecovery {s : State} {m reads n a r} : s.CanCropIndex s.root n →
      s.pointerAfterCropIndex s.root n = some a → reads a = some r →
      m = r.msgs.maybeDiscardOld s.boundary → Next s (.readForRecovery m reads) s
  /-- 145-160 -/
  | freezeForCommit {s : State} {f : Snapshot} {dom : PSet Address} {reads n} :
      s.boundary ≤ f.boundary → s.CanCropIndex s.root n →
      s.pointerAfterCropIndex s.root n = f.root →
      (∀ a, f.root = some a → reads.Has a) →
      f.boundary ≤ endOf reads f.root s.boundary →
      (f.root ≠ none → f.boundary < endOf reads f.root s.boundary) →
      (∀ a, dom a ↔ ∃ l, (f.boundary ≤ l ∧ l < endOf reads f.root s.boundary) ∧ s.ix l = some a) →
      Next s (.freezeForCommit f dom reads) s
  /-- 162-165 -/
  | queryEndLsn {s : State} : Next s (.queryEndLsn s.tail.seqEnd) s
  /-- 167-172 -/
  | put {s : State} {m} : m.WF → m.seqStart = s.tail.seqEnd →
      Next s (.put m) { s with tail := s.tail.concat m }
  /-- 174-186 -/
  | discardOld {s : State} {l e : LSN} {addrs : PSet Address} : e = s.tail.seqStart →
      s.boundary ≤ l → l ≤ e →
      (∀ a, addrs a ↔ s.ix.HasValue a ∧ ¬ (Index.discardUpTo s.ix l).HasValue a) →
      Next s (.discardOld l e addrs)
        { s with
          boundary := l
          root := if l = e then none else s.root
          ix := Index.discardUpTo s.ix l }
  /-- 188-202 `internal_journal_marshal` -/
  | marshal {s : State} {cut a} : ¬ s.ix.HasValue a → s.tail.seqStart < cut →
      s.tail.CanDiscardTo cut →
      Next s (.marshal (PMap.empty.insert a ⟨s.tail.discardRecent cut, s.root⟩))
        { s with
          root := some a
          tail := s.tail.discardOld cut
          ix := Index.append s.ix (s.tail.discardRecent cut) a }

/-- CachedJournal_v.rs 205-221 `initialize` -/
def Init (reads : PMap Address JRec) (f : Snapshot) (s : State) : Prop :=
  (∀ a, f.root = some a → ∃ r, reads a = some r ∧ f.boundary ≤ r.msgs.seqEnd) ∧
  s = { boundary := f.boundary
        root := f.root
        tail := .emptyAt (endOf reads f.root f.boundary)
        ix := buildFromReads reads f.boundary f.root (endOf reads f.root f.boundary) }

end Verif.CachedJ

namespace Verif.CachedSys
open AsyncDisk (ID Req Resp)
open Linked

/-- JournalCoordinationSystem_v.rs 25-38: the conversion between journal records and raw pages is
an unspecified function in the source, with the round trip `journal_unmarshall_marshall` assumed
(`assume(false)`) for all records. No functions have that round trip (C36 `roundtrip_impossible`),
so here it is asked only of the records that fit in a page; which ones do is a parameter. -/
structure Codec where
  enc : JRec → RawPage
  dec : RawPage → JRec
  fits : JRec → Prop
  round : ∀ r, fits r → dec (enc r) = r

/-- JournalCoordinationSystem_v.rs 141-145 -/
structure State where
  j : CachedJ.State
  c : Cache.State
  k : AsyncDisk.State

/-- JournalCoordinationSystem_v.rs 148-155 -/
inductive Label
  | readForRecovery (m : MsgHistory)
  | freezeForCommit (f : CachedJ.Snapshot)
  | queryEndLsn (l : LSN)
  | put (m : MsgHistory)
  | discardOld (start requireEnd : LSN)
  | internal

/-- Two versions of the system: as written, and repaired. In the repaired system `put` takes the
state that the journal's `put` yields, a batch of write-backs has no two requests for the same page
(the condition missing in Cache_v.rs 214, see C27), and only records that fit are written. -/
inductive Version
  | asWritten | repaired
  deriving DecidableEq

/-- JournalCoordinationSystem_v.rs 158-251: the transitions. `to_journal_reads` and
`to_cache_writes` (40-54) are `mapVal cd.dec` and `mapVal cd.enc`. -/
inductive Next (g : Geometry) (cd : Codec) (v : Version) : State → Label → State → Prop
  /-- 158-166 -/
  | readForRecovery {s : State} {m} (reads : PMap Address RawPage)
      (hc : Cache.Next s.c (.access reads PMap.empty) s.c)
      (hj : CachedJ.Next s.j (.readForRecovery m (reads.mapVal cd.dec)) s.j) :
      Next g cd v s (.readForRecovery m) s
  /-- 168-182 -/
  | freezeForCommit {s : State} {f} (dom : PSet Address) (reads : PMap Address RawPage)
      (hc : Cache.Next s.c (.access reads PMap.empty) s.c)
      (he : Cache.Next s.c (.evictable dom) s.c)
      (hj : CachedJ.Next s.j (.freezeForCommit f dom (reads.mapVal cd.dec)) s.j) :
      Next g cd v s (.freezeForCommit f) s
  /-- 184-188 -/
  | queryEndLsn {s : State} {l} (hj : CachedJ.Next s.j (.queryEndLsn l) s.j) :
      Next g cd v s (.queryEndLsn l) s
  /-- 190-194. As written the transition demands a step of the journal from `pre.journal` to
  `pre.journal`. -/
  | put {s : State} {m j'} (hj : CachedJ.Next s.j (.put m) j')
      (hv : v = .asWritten → j' = s.j) :
      Next g cd v s (.put m) { s with j := j' }
  /-- 196-212 -/
  | discardOld {s : State} {l e j'} (addrs : PSet Address)
      (hj : CachedJ.Next s.j (.discardOld l e addrs) j')
      (hc : Cache.Next s.c (.evictable addrs) s.c) :
      Next g cd v s (.discardOld l e) { s with j := j' }
  /-- 215-226 -/
  | marshal {s : State} {j' c'} (a : Address) (r : JRec)
      (hj : CachedJ.Next s.j (.marshal (PMap.empty.insert a r)) j')
      (hc : Cache.Next s.c (.access PMap.empty ((PMap.empty.insert a r).mapVal cd.enc)) c')
      (hv : v = .repaired → cd.fits r) :
      Next g cd v s .internal { s with j := j', c := c' }
  /-- 228-239 -/
  | ops {s : State} {c' k'} (rq : PMap ID Req) (rs : PMap ID Resp)
      (hc : Cache.Next s.c (.ops rq rs) c') (hk : AsyncDisk.Next g s.k (.ops rq rs) k')
      (hv : v = .repaired → CacheSystem.DistinctWrites rq) :
      Next g cd v s .internal { s with c := c', k := k' }
  /-- 241-245 -/
  | cacheInternal {s : State} {c'} (hc : Cache.Next s.c .internal c') :
      Next g cd v s .internal { s with c := c' }
  /-- 247-251: processing a read -/
  | diskRead {s : State} {k' id a d} (hk : AsyncDisk.Next g s.k (.didRead id a d) k') :
      Next g cd v s .internal { s with k := k' }
  /-- 247-251: processing a write -/
  | diskWrite {s : State} {k' id a d} (hk : AsyncDisk.Next g s.k (.didWrite id a d) k') :
      Next g cd v s .internal { s with k := k' }

/-- JournalCoordinationSystem_v.rs 64-69 `valid_dirty_addr`, with the page: the cached version of
`a` is newer than the disk's. -/
def dirtyPage (c : Cache.State) (a : Address) : Option RawPage :=
  match c.lookup a with
  | none => none
  | some sl =>
    if c.status sl = some .writeback ∨ c.status sl = some .dirty then
      match c.entries sl with
      | some (.filled _ d) => some d
      | _ => none
    else none

/-- JournalCoordinationSystem_v.rs 315-322 -/
noncomputable def State.persistentPages (cd : Codec) (s : State) : PMap Address JRec :=
  (s.k.content.restrict s.j.ix.HasValue).mapVal cd.dec

/-- JournalCoordinationSystem_v.rs 324-330 -/
def State.dirtyPages (cd : Codec) (s : State) : PMap Address JRec :=
  PMap.mapVal cd.dec (dirtyPage s.c)

/-- JournalCoordinationSystem_v.rs 334-345 `ephemeral_disk`, `ephemeral_tj` -/
noncomputable def State.tj (cd : Codec) (s : State) : TJ where
  root := s.j.root
  disk := { boundary := s.j.boundary
            entries := (s.persistentPages cd).unionRight (s.dirtyPages cd) }

/-- JournalCoordinationSystem_v.rs 71-137: `outstanding_reqs_consistent_with_disk`. A missing page
is an unspecified value in the source (`disk_content[…]`), so a read of it is unconstrained. -/
structure OutstandingOk (c : Cache.State) (k : AsyncDisk.State) : Prop where
  dom : ∀ id, c.outstanding.Has id ↔ k.requests.Has id ∨ k.responses.Has id
  readReq : ∀ id sl a, c.outstanding id = some sl → k.requests id = some (.read a) →
    c.entries sl = some (.loading a)
  writeReq : ∀ id sl a d, c.outstanding id = some sl → k.requests id = some (.write a d) →
    c.entries sl = some (.filled a d) ∧ c.status sl = some .writeback
  readResp : ∀ id sl d, c.outstanding id = some sl → k.responses id = some (.read d) →
    ∃ a, c.entries sl = some (.loading a) ∧ ∀ x, k.content a = some x → d = x
  writeResp : ∀ id sl, c.outstanding id = some sl → k.responses id = some .write →
    ∃ a d, c.entries sl = some (.filled a d) ∧ c.status sl = some .writeback ∧
      k.content a = some d

/-- JournalCoordinationSystem_v.rs 266-295 `initialize`: an already filled cache is handed to the
journal. `cache.inv()` of the source is replaced by the corrected invariant `Cache.Wf` (C28: the
source's is not preserved) and injectivity of `outstanding`, its last clause. -/
structure Init (cd : Codec) (f : CachedJ.Snapshot) (reads : PMap Address RawPage) (s : State) :
    Prop where
  diskInv : ∀ id, s.k.requests.Has id → ¬ s.k.responses.Has id
  cacheWf : Cache.Wf s.c
  cacheInj : s.c.outstanding.Injective
  access : Cache.Next s.c (.access reads PMap.empty) s.c
  journal : CachedJ.Init (reads.mapVal cd.dec) f s.j
  outstanding : OutstandingOk s.c s.k
  clean : ∀ sl a d, s.c.entries sl = some (.filled a d) → s.c.status sl = some .clean →
    ∀ x, s.k.content a = some x → x = d
  dirty : ∀ a, dirtyPage s.c a ≠ none → s.j.ix.HasValue a
  dec : TJ.Decodable ⟨f.root, ⟨f.boundary, reads.mapVal cd.dec⟩⟩
  onDisk : ∀ a, reads.Has a → s.k.content.Has a
  exact : ∀ a, reads.Has a ↔ s.j.ix.HasValue a

/-- JournalCoordinationSystem_v.rs 253-263 `tj_from_reads_and_snapshot` -/
def image (cd : Codec) (f : CachedJ.Snapshot) (reads : PMap Address RawPage) : TJ :=
  ⟨f.root, ⟨f.boundary, reads.mapVal cd.dec⟩⟩

/-- The system opened on a snapshot, with these pages of it in the cache. -/
def machine (g : Geometry) (cd : Codec) (v : Version) (f : CachedJ.Snapshot)
    (reads : PMap Address RawPage) : Machine State Label where
  Init := Init cd f reads
  Step := Next g cd v

end Verif.CachedSys
