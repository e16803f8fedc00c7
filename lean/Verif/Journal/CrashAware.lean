import Verif.Journal.Allocation
/-
Models of Splinter/src/allocation_layer/AllocationCrashAwareJournal_v.rs (the running journal, the
image on disk and the image being committed, each with its own disk) and of
UnifiedCrashAwareJournal_v.rs (the same with one disk for all three and superblock records in place
of images).
-/
namespace Verif

namespace CrashJ
open Linked AllocJ

/-- AllocationCrashAwareJournal_v.rs 62-73; the labels of UnifiedCrashAwareJournal_v.rs 207-218 are
the same. -/
inductive Label where
  | load
  | readForRecovery (records : MsgHistory)
  | queryEndLsn (endLsn : LSN)
  | put (records : MsgHistory)
  | internal (allocs deallocs : PSet Nat)
  | queryLsnPersistence (syncLsn : LSN)
  | commitStart (newBoundary maxLsn : LSN)
  | commitComplete (requireEnd : LSN) (discarded : PSet Nat)
  | crash (keepInFlight : Bool)

/-- AllocationCrashAwareJournalRefinement_v.rs 106-130 `Label::i` -/
def Label.abs : Label → CTJournal.Label
  | .load => .loadEphemeral
  | .readForRecovery m => .readForRecovery m
  | .queryEndLsn l => .queryEndLsn l
  | .put m => .put m
  | .internal _ _ => .internal
  | .queryLsnPersistence l => .queryLsnPersistence l
  | .commitStart b m => .commitStart b m
  | .commitComplete e _ => .commitComplete e
  | .crash k => .crash k

/-- AllocationCrashAwareJournal_v.rs 48-52, `Ephemeral` 17-21: `Unknown` = `none` -/
structure State where
  persistent : Image
  ephemeral : Option AllocJ.State
  inflight : Option Image

/-- AllocationJournal_v.rs 32-34 `JournalImage::accessible_aus`: a unit holding a block of the
image -/
def Uses (i : Image) (au : Nat) : Prop := ∃ a, a.au = au ∧ i.tj.disk.entries.Has a

/-- AllocationCrashAwareJournal_v.rs 75-83 `fresh_label`, for the allocations of an `Internal`
label -/
def Fresh (s : State) (j : AllocJ.State) (allocs : PSet Nat) : Prop :=
  (∀ au, allocs au → ¬ Uses s.persistent au) ∧ (∀ au, allocs au → ¬ j.Accessible au) ∧
  ∀ f, s.inflight = some f → ∀ au, allocs au → ¬ Uses f au

/-- AllocationCrashAwareJournal_v.rs 54-60 -/
def Init (s : State) : Prop := s = ⟨.empty, none, none⟩

/-- AllocationCrashAwareJournal_v.rs 85-213 -/
inductive Next (g : Geometry) : State → Label → State → Prop
  /-- 85-92, `init_by` 31-43 -/
  | load {s : State} {j} : s.ephemeral = none → AllocJ.Init g s.persistent j →
      Next g s .load { s with ephemeral := some j }
  /-- 94-104 -/
  | readForRecovery {s : State} {j m} : s.ephemeral = some j →
      AllocJ.Next g j (.readForRecovery m) j → Next g s (.readForRecovery m) s
  /-- 106-116 -/
  | queryEndLsn {s : State} {j l} : s.ephemeral = some j →
      AllocJ.Next g j (.queryEndLsn l) j → Next g s (.queryEndLsn l) s
  /-- 118-129 -/
  | put {s : State} {j j' m} : s.ephemeral = some j → AllocJ.Next g j (.put m) j' →
      Next g s (.put m) { s with ephemeral := some j' }
  /-- 131-143 -/
  | internal {s : State} {j j' al de} : s.ephemeral = some j → Fresh s j al →
      AllocJ.Next g j (.internal al de) j' →
      Next g s (.internal al de) { s with ephemeral := some j' }
  /-- 145-150 -/
  | queryLsnPersistence {s : State} {l} : l ≤ s.persistent.tj.seqEnd →
      Next g s (.queryLsnPersistence l) s
  /-- 152-172 -/
  | commitStart {s : State} {j z maxLsn} : s.ephemeral = some j → s.inflight = none →
      s.persistent.tj.seqEnd ≤ z.tj.seqEnd → z.tj.seqStart ≤ maxLsn →
      AllocJ.Next g j (.freezeForCommit z) j →
      Next g s (.commitStart z.tj.seqStart maxLsn) { s with inflight := some z }
  /-- 174-204 -/
  | commitComplete {s : State} {j j' f e d} : s.ephemeral = some j → s.inflight = some f →
      AllocJ.Next g j (.discardOld f.tj.seqStart e d) j' →
      Next g s (.commitComplete e d) { persistent := f, ephemeral := some j', inflight := none }
  /-- 206-213 -/
  | crash {s : State} {keep : Bool} :
      Next g s (.crash keep)
        { persistent := if keep then s.inflight.getD s.persistent else s.persistent
          ephemeral := none, inflight := none }

def machine (g : Geometry) : Machine State Label := { Init := Init, Step := Next g }

end CrashJ

namespace Unified
open Linked AllocJ

/-- UnifiedCrashAwareJournal_v.rs 25-32 `ImageState`: what the superblock records of a journal -/
structure Super where
  root : Pointer
  boundary : LSN
  first : Nat

/-- 35-37 -/
def Super.empty : Super := ⟨none, 0, 0⟩

/-- 39-44 `to_tj`, with `to_jdv` 185-187: the journal the record describes on disk `dv` -/
def Super.tj (z : Super) (dv : PMap Address JRec) : TJ := ⟨z.root, ⟨z.boundary, dv⟩⟩

/-- 50-55 -/
def Super.seqEnd (z : Super) (dv : PMap Address JRec) : LSN := (z.tj dv).seqEnd

/-- 58-63 `valid_image` -/
def Super.ValidOn (g : Geometry) (z : Super) (dv : PMap Address JRec) : Prop :=
  (z.tj dv).disk.WFAddrs g ∧ (z.tj dv).disk.Upstream z.root z.first ∧
  ∃ ix, AuWalk (z.tj dv).disk z.first z.root ix ∧ (z.tj dv).disk.BoundedInactive g ix z.root

/-- 65-84 `tight_domain`, `tight_dv`, given the index built from the record -/
noncomputable def Super.tightDv (g : Geometry) (z : Super) (dv : PMap Address JRec)
    (ix : PMap LSN Nat) : PMap Address JRec :=
  dv.restrict ((z.tj dv).disk.TightDomain g ix z.root)

/-- 111-116 `EphemeralState` -/
structure Eph where
  image : Super
  tail : MsgHistory
  ix : PMap LSN Nat
  mini : MiniAlloc

/-- 144-158 `to_lj`, `to_aj` -/
def Eph.aj (v : Eph) (dv : PMap Address JRec) : AllocJ.State :=
  ⟨⟨v.image.tj dv, v.tail⟩, v.ix, v.image.first, v.mini⟩

/-- 120-129 `init_by` -/
def Eph.InitBy (g : Geometry) (v : Eph) (z : Super) (dv : PMap Address JRec) : Prop :=
  z.ValidOn g dv ∧ v.image = z ∧ v.tail = .emptyAt (z.seqEnd dv) ∧
  AuWalk (z.tj dv).disk z.first z.root v.ix ∧ v.mini = .empty

/-- 191-196 -/
structure State where
  ephemeral : Option Eph
  inflight : Option Super
  persistent : Super
  dv : PMap Address JRec

/-- 198-205 -/
def Init (s : State) : Prop := s = ⟨none, none, .empty, PMap.empty⟩

/-- 220-366. In `commit_start` the record's `first` is any unit when the image is empty
(`arbitrary()` in the source). -/
inductive Next (g : Geometry) : State → CrashJ.Label → State → Prop
  /-- 220-230 -/
  | load {s : State} {v : Eph} : s.ephemeral = none → s.persistent.ValidOn g s.dv →
      v.InitBy g s.persistent s.dv →
      Next g s .load { s with ephemeral := some v, dv := s.persistent.tightDv g s.dv v.ix }
  /-- 232-242 -/
  | readForRecovery {s : State} {v m} : s.ephemeral = some v →
      AllocJ.Next g (v.aj s.dv) (.readForRecovery m) (v.aj s.dv) → Next g s (.readForRecovery m) s
  /-- 244-254 -/
  | queryEndLsn {s : State} {v l} : s.ephemeral = some v →
      AllocJ.Next g (v.aj s.dv) (.queryEndLsn l) (v.aj s.dv) → Next g s (.queryEndLsn l) s
  /-- 256-267 -/
  | put {s : State} {v v' : Eph} {m} : s.ephemeral = some v →
      AllocJ.Next g (v.aj s.dv) (.put m) (v'.aj s.dv) →
      Next g s (.put m) { s with ephemeral := some v' }
  /-- 269-287 -/
  | internal {s : State} {v v' : Eph} {dv' al de} : s.ephemeral = some v →
      AllocJ.Next g (v.aj s.dv) (.internal al de) (v'.aj dv') →
      Next g s (.internal al de) { s with ephemeral := some v', dv := dv' }
  /-- 289-294 -/
  | queryLsnPersistence {s : State} {l} : l ≤ s.persistent.seqEnd s.dv →
      Next g s (.queryLsnPersistence l) s
  /-- 296-330 -/
  | commitStart {s : State} {v : Eph} {z : Super} {n maxLsn} : s.ephemeral = some v →
      s.inflight = none → s.persistent.seqEnd s.dv ≤ z.seqEnd s.dv → z.boundary ≤ maxLsn →
      (v.image.tj s.dv).disk.CanCrop v.image.root n →
      ((v.image.tj s.dv).crop n).CanDiscardTo z.boundary →
      (z.root ≠ none → ∀ au, v.ix z.boundary = some au → z.first = au) →
      z.root = (if ((v.image.tj s.dv).crop n).seqEnd = z.boundary then none
        else ((v.image.tj s.dv).crop n).root) →
      Next g s (.commitStart z.boundary maxLsn) { s with inflight := some z }
  /-- 332-357 -/
  | commitComplete {s : State} {v v' : Eph} {f dv' e d} : s.ephemeral = some v →
      s.inflight = some f →
      AllocJ.Next g (v.aj s.dv) (.discardOld f.boundary e d) (v'.aj dv') →
      Next g s (.commitComplete e d)
        { persistent := f, ephemeral := some v', inflight := none, dv := dv' }
  /-- 359-366 -/
  | crash {s : State} {keep : Bool} :
      Next g s (.crash keep)
        { s with
          persistent := if keep then s.inflight.getD s.persistent else s.persistent
          ephemeral := none, inflight := none }

def machine (g : Geometry) : Machine State CrashJ.Label := { Init := Init, Step := Next g }

end Unified
end Verif
