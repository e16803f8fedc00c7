import Verif.Kv.JournalDisk
import Verif.Kv.JournalView
/-
`JournalCache` (BlockCacheSystem/JournalCache.i.dfy) and `JournalSystem`
(BlockCacheSystem/JournalSystem.i.dfy): the in-memory side of the journal and of the superblocks, and
that machine attached to the journal disk.
Simplifications: `which` is a `Bool`; pairs of fields (the two superblock reads, the front and the back
of the journal) are functions of a `Bool`; ghost `int`s are natural numbers.
-/
namespace Verif.Kv
open JournalDisk (Op)

namespace JournalCache

/-- `SuperblockReadResult`, JournalCache.i.dfy:33-36 -/
inductive ReadResult
  | success (sb : Superblock)
  | unfinished
  | corruption

/-- `CommitStatus`, JournalCache.i.dfy:38-41 -/
inductive Commit | none | log | location
deriving DecidableEq

/-- `Variables.Ready`, JournalCache.i.dfy:44-67 -/
structure Ready where
  frozenLoc : Option Loc
  isFrozen : Bool
  frozenPos : Nat
  sbWrite : Option ReqId
  memFrozen : List Entry
  mem : List Entry
  writes : ReqId → Prop
  written : Nat
  replay : List Entry
  sb : Superblock
  which : Bool
  commit : Commit
  newSb : Option Superblock
  syncReqs : PMap Nat SyncStatus

/-- `Variables.LoadingOther`, JournalCache.i.dfy:69-79. `read` and `got`: `false` is the front of the
journal, `true` the back. -/
structure Other where
  sb : Superblock
  which : Bool
  read : Bool → Option ReqId
  got : Bool → Option (List Block)
  syncReqs : PMap Nat SyncStatus

/-- `Variables.LoadingSuperblock`, JournalCache.i.dfy:81-88 -/
structure Loading where
  read : Bool → Option ReqId
  got : Bool → ReadResult
  syncReqs : PMap Nat SyncStatus

/-- `Variables`, JournalCache.i.dfy:43-88 -/
inductive State
  | ready (r : Ready)
  | other (o : Other)
  | loading (l : Loading)

/-- `Init`, JournalCache.i.dfy:636-639 -/
def start : State := .loading ⟨fun _ => none, fun _ => .unfinished, .empty⟩

/-- `IncrementSuperblockCounter`, JournalCache.i.dfy:90-96 -/
def incr (i : Nat) : Nat := if i = 2 ^ 64 - 1 then 0 else i + 1

/-- `SelectSuperblockIndex`, JournalCache.i.dfy:98-110 -/
def select (f : Bool → Superblock) : Bool := (f true).counter = incr (f false).counter

/-- `WFSuperblock`, JournalCache.i.dfy:152-157 -/
def WFSb (sb : Superblock) : Prop :=
  sb.start < numJournalBlocks ∧ sb.len ≤ numJournalBlocks ∧ ValidTableLoc sb.loc

instance (l : Loc) : Decidable (ValidTableLoc l) :=
  inferInstanceAs (Decidable ((_ ∨ _) ∧ _ ∧ _))
instance (sb : Superblock) : Decidable (WFSb sb) := inferInstanceAs (Decidable (_ ∧ _ ∧ _))

/-- `JournalFrontInterval` and `JournalBackInterval`, JournalInterval.i.dfy:103-131, of a superblock
(JournalCache.i.dfy:135-150) -/
def part (sb : Superblock) : Bool → Option Interval
  | false => if sb.len = 0 then none else
      some ⟨sb.start, if sb.len ≤ numJournalBlocks - sb.start then sb.len
        else numJournalBlocks - sb.start⟩
  | true => if sb.len = 0 then none else if sb.len ≤ numJournalBlocks - sb.start then none else
      some ⟨0, sb.len - (numJournalBlocks - sb.start)⟩

/-- The two parts put together (`fullRange`), JournalCache.i.dfy:489-496 -/
def fullRange (o : Other) : List Block :=
  ((part o.sb false).bind (fun _ => o.got false)).getD [] ++
    ((part o.sb true).bind (fun _ => o.got true)).getD []

/-- The synchronisation requests of a state. -/
def State.syncReqs : State → PMap Nat SyncStatus
  | .ready r => r.syncReqs
  | .other o => o.syncReqs
  | .loading l => l.syncReqs

/-- `s.(syncReqs := …)` -/
def State.setSync (s : State) (q : PMap Nat SyncStatus) : State :=
  match s with
  | .ready r => .ready { r with syncReqs := q }
  | .other o => .other { o with syncReqs := q }
  | .loading l => .loading { l with syncReqs := q }

/-- `dop.id1`, and `dop.id2` if there is one -/
def ids (id1 : ReqId) (id2 : Option ReqId) (i : ReqId) : Prop := i = id1 ∨ id2 = some i

/-- `NextStep`, JournalCache.i.dfy:183-610, one constructor per step (`WriteBackJournalReq` and
`WriteBackSuperblockResp` are split by case) -/
inductive Next : State → Op → VOp → State → Prop
  /-- `WriteBackJournalReq`, :183-238, when there is no frozen part left to write -/
  | writeJournal {r : Ready} {id1 id2 jr} :
      r.memFrozen = [] → parseRange jr = some r.mem → jr.length + r.written ≤ numJournalBlocks →
      0 < jr.length → r.sbWrite = none → r.sb.start < numJournalBlocks →
      r.written ≤ numJournalBlocks →
      Next (.ready r) (.reqWriteJ id1 id2 (posAdd r.sb.start r.written) jr) .journalInternal
        (.ready { r with
          writes := fun i => r.writes i ∨ ids id1 id2 i
          written := r.written + jr.length
          mem := []
          memFrozen := []
          syncReqs := r.syncReqs.mapVal .to2 })
  /-- `WriteBackJournalReq`, :183-238, the frozen part -/
  | writeFrozen {r : Ready} {id1 id2 jr} :
      r.memFrozen ≠ [] → parseRange jr = some r.memFrozen →
      jr.length + r.written ≤ numJournalBlocks →
      0 < jr.length → r.sbWrite = none → r.sb.start < numJournalBlocks →
      r.written ≤ numJournalBlocks →
      Next (.ready r) (.reqWriteJ id1 id2 (posAdd r.sb.start r.written) jr) .journalInternal
        (.ready { r with
          writes := fun i => r.writes i ∨ ids id1 id2 i
          written := r.written + jr.length
          frozenPos := r.written + jr.length
          memFrozen := [] })
  /-- `WriteBackJournalResp`, :240-249 -/
  | writeJournalResp {r : Ready} {id} : r.writes id →
      Next (.ready r) (.respWriteJ id) .journalInternal
        (.ready { r with writes := fun i => r.writes i ∧ i ≠ id })
  /-- `WriteBackSuperblockReq_AdvanceLog`, :251-273 -/
  | advanceLog {r : Ready} {id sb} :
      r.commit = .none → (∀ i, ¬ r.writes i) → r.memFrozen = [] → r.written ≤ numJournalBlocks →
      sb = ⟨incr r.sb.counter, r.sb.start, r.written, r.sb.loc⟩ →
      Next (.ready r) (.reqWriteSb id (!r.which) sb) .journalInternal
        (.ready { r with newSb := some sb, sbWrite := some id, commit := .log })
  /-- `WriteBackSuperblockReq_AdvanceLocation`, :275-303 -/
  | advanceLocation {r : Ready} {id sb loc} :
      r.frozenLoc = some loc → r.commit = .none → (∀ i, ¬ r.writes i) → r.memFrozen = [] →
      r.sb.start < numJournalBlocks → r.frozenPos ≤ r.written → r.written ≤ numJournalBlocks →
      sb = ⟨incr r.sb.counter, posAdd r.sb.start r.frozenPos, r.written - r.frozenPos, loc⟩ →
      Next (.ready r) (.reqWriteSb id (!r.which) sb) .journalInternal
        (.ready { r with newSb := some sb, sbWrite := some id, commit := .location })
  /-- `WriteBackSuperblockResp`, :305-336, of a new location -/
  | locationResp {r : Ready} {id w sb} :
      r.sbWrite = some id → r.newSb = some sb → r.commit = .location →
      Next (.ready r) (.respWriteSb id w) .cleanUp
        (.ready { r with
          sbWrite := none, sb := sb, newSb := none, which := !r.which
          syncReqs := r.syncReqs.mapVal .to1
          written := r.written - r.frozenPos, frozenPos := 0, frozenLoc := none
          isFrozen := false, commit := .none })
  /-- `WriteBackSuperblockResp`, :305-336, of a longer log -/
  | logResp {r : Ready} {id w sb} :
      r.sbWrite = some id → r.newSb = some sb → r.commit = .log →
      Next (.ready r) (.respWriteSb id w) .journalInternal
        (.ready { r with
          sbWrite := none, sb := sb, newSb := none, which := !r.which
          syncReqs := r.syncReqs.mapVal .to1, commit := .none })
  /-- `PageInJournalReq`, :338-367 -/
  | pageJournal {o : Other} {w id v} :
      o.sb.start < numJournalBlocks → o.sb.len ≤ numJournalBlocks → part o.sb w = some v →
      o.read w = none → o.got w = none →
      Next (.other o) (.reqReadJ id v) .journalInternal
        (.other { o with read := fun x =>
          if x = w then some id else if o.read x = some id then none else o.read x })
  /-- `PageInJournalResp`, :369-389 -/
  | pageJournalResp {o : Other} {w id bs} : o.read w = some id →
      Next (.other o) (.respReadJ id (some bs)) .journalInternal
        (.other { o with read := setAt o.read w none, got := setAt o.got w (some bs) })
  /-- `PageInSuperblockReq`, :391-409 -/
  | pageSb {l : Loading} {w id} : l.read w = none → l.got w = .unfinished →
      Next (.loading l) (.reqReadSb id w) .journalInternal
        (.loading { l with read := setAt l.read w (some id) })
  /-- `PageInSuperblockResp`, :411-438, a good superblock -/
  | pageSbOk {l : Loading} {w id sb} : l.read w = some id → WFSb sb →
      Next (.loading l) (.respReadSb id w (some sb)) .journalInternal
        (.loading { l with read := setAt l.read w none, got := setAt l.got w (.success sb) })
  /-- `PageInSuperblockResp`, :411-438, no or a bad superblock -/
  | pageSbBad {l : Loading} {w id sb} : l.read w = some id → (∀ x, sb = some x → ¬ WFSb x) →
      Next (.loading l) (.respReadSb id w sb) .journalInternal
        (.loading { l with read := setAt l.read w none, got := setAt l.got w .corruption })
  /-- `FinishLoadingSuperblockPhase`, :440-477 -/
  | finishSb {l : Loading} {f : Bool → Superblock} : (∀ w, l.got w = .success (f w)) →
      Next (.loading l) .none (.sendPersistentLoc (f (select f)).loc)
        (.other ⟨f (select f), select f, fun _ => none, fun _ => none, l.syncReqs⟩)
  /-- `FinishLoadingOtherPhase`, :479-513. The ghost `frozenJournalPosition` is unconstrained. -/
  | finishOther {o : Other} {p replay} :
      o.sb.start < numJournalBlocks → o.sb.len ≤ numJournalBlocks →
      (∀ w, part o.sb w ≠ none → o.got w ≠ none) → parseRange (fullRange o) = some replay →
      Next (.other o) .none .journalInternal
        (.ready {
          frozenLoc := none, isFrozen := false, frozenPos := p, sbWrite := none, memFrozen := []
          mem := [], writes := fun _ => False, written := o.sb.len, replay := replay, sb := o.sb
          which := o.which, commit := .none, newSb := none, syncReqs := o.syncReqs })
  /-- `Freeze`, :515-531 -/
  | freeze {r : Ready} : r.sbWrite = none → r.frozenLoc ≠ some r.sb.loc → r.replay = [] →
      Next (.ready r) .none .freeze
        (.ready { r with
          frozenLoc := none, memFrozen := r.memFrozen ++ r.mem, mem := [], frozenPos := r.written
          syncReqs := r.syncReqs.mapVal .to2, isFrozen := true })
  /-- `ReceiveFrozenLoc`, :533-542 -/
  | receiveFrozen {r : Ready} {loc} : r.isFrozen = true → r.frozenLoc = none → ValidTableLoc loc →
      Next (.ready r) .none (.sendFrozenLoc loc) (.ready { r with frozenLoc := some loc })
  /-- `Advance`, :544-553 -/
  | advance {r : Ready} {u} : r.replay = [] →
      Next (.ready r) .none (.advance u false) (.ready { r with mem := r.mem ++ u.entries })
  /-- `Replay`, :555-565 -/
  | replay {r : Ready} {u rest} : r.replay = u.entries ++ rest →
      Next (.ready r) .none (.advance u true) (.ready { r with replay := rest })
  /-- `PushSyncReq`, :567-575 -/
  | pushSync {s : State} {id} : s.syncReqs id = none →
      Next s .none (.pushSync id) (s.setSync (s.syncReqs.insert id .s3))
  /-- `PopSyncReq`, :577-586 -/
  | popSync {s : State} {id} : s.syncReqs id = some .s1 →
      Next s .none (.popSync id) (s.setSync (s.syncReqs.remove id))
  /-- `NoOp`, :588-610 -/
  | noop {s : State} {dop vop} : vop = .journalInternal ∨ vop = .statesInternal →
      (dop = .none ∨ (∃ id w sb, dop = .respReadSb id w sb) ∨ (∃ id bs, dop = .respReadJ id bs) ∨
        (∃ id w, dop = .respWriteSb id w ∧ ∀ r, s = .ready r → r.sbWrite ≠ some id) ∨
        (∃ id, dop = .respWriteJ id ∧ ∀ r, s = .ready r → ¬ r.writes id)) →
      Next s dop vop s

end JournalCache

namespace JournalSystem
open JournalCache (select WFSb)

/-- `AsyncSectorDiskModelVariables<M.Variables, D.Variables>`, JournalSystem.i.dfy:41 -/
structure State where
  m : JournalCache.State
  d : JournalDisk.State

/-- `DiskHasSuperblock` with `Superblock1OfDisk`, `Superblock2OfDisk`, JournalSystem.i.dfy:43-71 -/
def Holds (d : JournalDisk.State) (f : Bool → Superblock) : Prop :=
  ∀ w, d.sb w = some (f w) ∧ WFSb (f w)

/-- `Init`, JournalSystem.i.dfy:293-303 -/
def Init (loc : Loc) (s : State) : Prop :=
  s.m = JournalCache.start ∧ JournalDisk.Init s.d ∧ ∃ f, Holds s.d f ∧
    (f (select f)).start = 0 ∧ (f (select f)).len = 0 ∧ (f (select f)).loc = loc

/-- `NextStep`, JournalSystem.i.dfy:312-339 -/
inductive Next : State → VOp → State → Prop
  /-- `Machine`, :312-316 -/
  | machine {s : State} {dop vop m' d'} :
      JournalCache.Next s.m dop vop m' → JournalDisk.Next s.d dop d' → Next s vop ⟨m', d'⟩
  /-- `DiskInternal`, :318-323 -/
  | disk {s : State} {d'} : JournalDisk.Internal s.d d' → Next s .journalInternal ⟨s.m, d'⟩
  /-- `Crash`, :325-330 -/
  | crash {s : State} {d'} : JournalDisk.Crash s.d d' → Next s .crash ⟨JournalCache.start, d'⟩

/-- The machine. -/
def machine (loc : Loc) : Machine State VOp := ⟨Init loc, Next⟩

end JournalSystem
end Verif.Kv
