import Verif.Journal.Index
import Verif.Alloc.MiniAllocator
/-
Model of Splinter/src/allocation_layer/AllocationJournal_v.rs: the linked journal with an index
from LSN to allocation unit and its own page allocator.
-/
namespace Verif

/-- GenericDisk_v.rs 38-40 `Address::first_page` -/
def Address.firstPage (a : Address) : Address := { a with page := 0 }

/-- GenericDisk_v.rs 43-45 `Address::previous` (on page 0 the Rust value is unspecified; it is
only used on other pages) -/
def Address.previous (a : Address) : Address := { a with page := a.page - 1 }

/-- GenericDisk_v.rs 48-50 `Address::next` -/
def Address.next (a : Address) : Address := { a with page := a.page + 1 }

/-- GenericDisk_v.rs 53-57 `Address::after_page`: `x` lies after `a` in the same unit -/
def Address.afterPage (g : Geometry) (a x : Address) : Prop := x.wf g ∧ x.au = a.au ∧ a.page < x.page

namespace Linked

namespace DiskView

/-- LikesJournal_v.rs 123-127 `addr_supports_lsn` with LinkedJournal_v.rs 45-47 `contains_lsn` -/
def Supports (d : DiskView) (a : Address) (l : LSN) : Prop :=
  ∃ r, d.entries a = some r ∧ max r.msgs.seqStart d.boundary ≤ l ∧ l < r.msgs.seqEnd

/-- AllocationJournal_v.rs 135-143 `tight_domain` (126-132 `au_addrs_past_pointer`) -/
def TightDomain (g : Geometry) (d : DiskView) (ix : PMap LSN Nat) (root : Pointer) : PSet Address :=
  fun a => d.entries.Has a ∧ ix.HasValue a.au ∧ ∀ t, root = some t → ¬ t.afterPage g a

/-- AllocationJournal_v.rs 145-151 `domain_tight_wrt_index` -/
def DomainTight (g : Geometry) (d : DiskView) (ix : PMap LSN Nat) (root : Pointer) : Prop :=
  ∀ a, d.entries.Has a → ix.HasValue a.au ∧ ∀ t, root = some t → ¬ t.afterPage g a

/-- AllocationJournal_v.rs 153-162 `bounded_inactive_lsns` -/
def BoundedInactive (g : Geometry) (d : DiskView) (ix : PMap LSN Nat) (root : Pointer) : Prop :=
  ∀ a r l, d.entries a = some r → r.msgs.Contains l → ix.HasValue a.au → ix l = none →
    (∀ t, root = some t → ¬ t.afterPage g a) → l < d.boundary

/-- AllocationJournal_v.rs 459-468 `nonzero_pages_point_backward` -/
def PointBackward (d : DiskView) : Prop :=
  ∀ a r, a.page ≠ 0 → d.entries a = some r → r.prior = some a.previous

/-- AllocationJournal_v.rs 474-485 `pages_allocated_in_lsn_order` -/
def LsnOrder (d : DiskView) : Prop :=
  ∀ lo hi rlo rhi, lo.au = hi.au → lo.page < hi.page → d.entries lo = some rlo →
    d.entries hi = some rhi → rlo.msgs.seqEnd ≤ rhi.msgs.seqStart

/-- AllocationJournal_v.rs 550-554 `has_unique_lsns` -/
def UniqueLsns (d : DiskView) : Prop := ∀ l a b, d.Supports a l → d.Supports b l → a = b

/-- AllocationJournal_v.rs 565-567 `wf_addrs` -/
def WFAddrs (g : Geometry) (d : DiskView) : Prop := ∀ a, d.entries.Has a → a.wf g

/-- AllocationJournal_v.rs 569-573 `valid_first_au` -/
def ValidFirst (d : DiskView) (first : Nat) : Prop := ∃ a, a.au = first ∧ d.Supports a d.boundary

/-- AllocationJournal_v.rs 556-563 `pointer_is_upstream` (451-454 `upstream`, 488-494
`internal_au_pages_fully_linked`) -/
def Upstream (d : DiskView) (root : Pointer) (first : Nat) : Prop :=
  d.Decodable root ∧ d.Acyclic ∧ (d.PointBackward ∧ d.LsnOrder) ∧ d.UniqueLsns ∧
  (root ≠ none → d.ValidFirst first) ∧
  ∀ a, root = some a → ∃ r, d.entries a = some r ∧ d.boundary < r.msgs.seqEnd

end DiskView

/-- AllocationJournal_v.rs 292-327 `build_lsn_au_index_au_walk`, as a relation: inside the unit
`first` page by page, otherwise jumping from any page of a unit to the unit's page 0 and from there
to the prior unit. -/
inductive AuWalk (d : DiskView) (first : Nat) : Pointer → PMap LSN Nat → Prop
  | nil : AuWalk d first none PMap.empty
  | inFirst {a ix} : a.au = first → Builds d Address.au (some a) ix → AuWalk d first (some a) ix
  | jump {a r rb ix} : a.au ≠ first → d.entries a = some r → d.entries a.firstPage = some rb →
      AuWalk d first (d.next (some a.firstPage)) ix →
      AuWalk d first (some a) (ix.unionRight (Index.singleton rb.msgs.seqStart r.msgs.seqEnd a.au))

end Linked

namespace AllocJ
open Linked

/-- AllocationJournal_v.rs 22-25 `JournalImage` -/
structure Image where
  tj : TJ
  first : Nat

/-- AllocationJournal_v.rs 40-46 `valid_image`. `build_lsn_au_index(first)` (912-918) is the unit
walk. -/
def Image.Valid (g : Geometry) (i : Image) : Prop :=
  i.tj.disk.WFAddrs g ∧ i.tj.disk.Upstream i.tj.root i.first ∧
  ∃ ix, AuWalk i.tj.disk i.first i.tj.root ix ∧
    i.tj.disk.DomainTight g ix i.tj.root ∧ i.tj.disk.BoundedInactive g ix i.tj.root

/-- AllocationJournal_v.rs 36-38 `empty` -/
def Image.empty : Image := ⟨TJ.mkfs, 0⟩

/-- AllocationJournal_v.rs 1229-1241 -/
structure State where
  j : Linked.State
  ix : PMap LSN Nat
  first : Nat
  mini : MiniAlloc

/-- AllocationJournal_v.rs 1243-1251 -/
inductive Label where
  | readForRecovery (messages : MsgHistory)
  | freezeForCommit (frozen : Image)
  | queryEndLsn (endLsn : LSN)
  | put (messages : MsgHistory)
  | discardOld (startLsn requireEnd : LSN) (deallocs : PSet Nat)
  | internal (allocs deallocs : PSet Nat)

/-- AllocationJournal_v.rs 1253-1269 `linked_lbl` -/
def Label.linked : Label → Paged.Label TJ
  | .readForRecovery m => .readForRecovery m
  | .freezeForCommit z => .freezeForCommit z.tj
  | .queryEndLsn l => .queryEndLsn l
  | .put m => .put m
  | .discardOld l e _ => .discardOld l e
  | .internal _ _ => .internal

/-- AllocationJournal_v.rs 1276-1278 `accessible_aus` -/
def State.Accessible (s : State) (au : Nat) : Prop := s.ix.HasValue au ∨ s.mini.allocs.Has au

/-- AllocationJournal_v.rs 881-892 `discard_old_tight` -/
def DiscardOldTight (t : TJ) (l : LSN) (keep : PSet Address) (new : TJ) : Prop :=
  t.DiscardOldCond l keep new ∧ ∀ a, keep a ↔ new.disk.entries.Has a

/-- AllocationJournal_v.rs 1321-1331 `new_first`, as a relation (the source's `arbitrary()` may be
any unit) -/
def NewFirst (t : TJ) (ix : PMap LSN Nat) (b : LSN) (first : Nat) : Prop :=
  t.seqEnd ≠ b → t.root ≠ none → ∀ au, ix b = some au → first = au

/-- MiniAllocator_v.rs 122-135 `all_pages_free` -/
def allPagesFree (p : PageAlloc) : Prop := (∀ a, ¬ p.observed a) ∧ p.noRefs

/-- AllocationJournal_v.rs 1216-1226 `tight_next_addr` -/
def TightNext (g : Geometry) (m : MiniAlloc) (root : Pointer) (a : Address) : Prop :=
  m.canAllocate g a ∧
  (m.curr = none → (∀ p, m.allocs a.au = some p → allPagesFree p) ∧ a.page = 0) ∧
  (m.curr ≠ none → ∀ t, root = some t → a = t.next)

/-- the units given up by a truncation, AllocationJournal_v.rs 1344-1345 -/
def Discarded (ix : PMap LSN Nat) (l : LSN) : PSet Nat :=
  fun au => ix.HasValue au ∧ ¬ (Index.discardUpTo ix l).HasValue au

/-- `frozen_index`, AllocationJournal_v.rs 1299-1300 -/
noncomputable def frozenIndex (ix : PMap LSN Nat) (l e : LSN) : PMap LSN Nat :=
  ix.restrict (fun k => l ≤ k ∧ k < e)

/-- AllocationJournal_v.rs 1280-1406 -/
inductive Next (g : Geometry) : State → Label → State → Prop
  /-- 1280-1283 -/
  | readForRecovery {s m} : Linked.Next s.j (.readForRecovery m) s.j →
      Next g s (.readForRecovery m) s
  /-- 1287-1307 -/
  | freezeForCommit {s : State} {z : Image} {n} :
      s.j.tj.disk.CanCrop s.j.tj.root n →
      (s.j.tj.crop n).CanDiscardTo z.tj.seqStart →
      DiscardOldTight (s.j.tj.crop n) z.tj.seqStart
        ((s.j.tj.crop n).disk.TightDomain g
          (frozenIndex s.ix z.tj.seqStart ((s.j.tj.crop n).discardOld z.tj.seqStart).seqEnd)
          z.tj.root) z.tj →
      NewFirst z.tj s.ix z.tj.seqStart z.first →
      Next g s (.freezeForCommit z) s
  /-- 1309-1312 -/
  | queryEndLsn {s l} : Linked.Next s.j (.queryEndLsn l) s.j → Next g s (.queryEndLsn l) s
  /-- 1314-1318 -/
  | put {s j' m} : Linked.Next s.j (.put m) j' → Next g s (.put m) { s with j := j' }
  /-- 1333-1360 -/
  | discardOld {s : State} {l new f} : s.j.tj.CanDiscardTo l → NewFirst s.j.tj s.ix l f →
      DiscardOldTight s.j.tj l
        (fun a => s.j.tj.disk.entries.Has a ∧ (Index.discardUpTo s.ix l).HasValue a.au) new →
      Next g s (.discardOld l s.j.tail.seqEnd (Discarded s.ix l))
        { j := { tj := new, tail := boundedDiscard s.j.tail l }
          ix := Index.discardUpTo s.ix l
          first := f
          mini := s.mini.prune (Discarded s.ix l) }
  /-- 1362-1380 -/
  | marshal {s : State} {cut a} : TightNext g s.mini s.j.tj.root a →
      s.j.tail.seqStart < cut → s.j.tail.CanDiscardTo cut →
      Next g s (.internal PSet.empty PSet.empty)
        { j := { tj := s.j.tj.appendRecord a (s.j.tail.discardRecent cut)
                 tail := s.j.tail.discardOld cut }
          ix := Index.append s.ix (s.j.tail.discardRecent cut) a.au
          first := if s.j.tj.root = none then a.au else s.first
          mini := (s.mini.allocate g a).observe a }
  /-- 1382-1390 -/
  | fill {s : State} {allocs : PSet Nat} : (∀ au, allocs au → ¬ s.mini.allocs.Has au) →
      (∀ au, allocs au → ¬ s.ix.HasValue au) →
      Next g s (.internal allocs PSet.empty) { s with mini := s.mini.addAus allocs }
  /-- 1392-1400 -/
  | prune {s : State} {deallocs : PSet Nat} : (∀ au, deallocs au → s.mini.canRemove au) →
      Next g s (.internal PSet.empty deallocs) { s with mini := s.mini.prune deallocs }
  /-- 1402-1406 -/
  | noop {s} : Next g s (.internal PSet.empty PSet.empty) s

/-- AllocationJournal_v.rs 1408-1420 -/
def Init (g : Geometry) (i : Image) (s : State) : Prop :=
  i.Valid g ∧ Linked.Init i.tj s.j ∧ AuWalk i.tj.disk i.first i.tj.root s.ix ∧ s.first = i.first ∧
  s.mini = MiniAlloc.empty

/-- The journal opened on an image. -/
def machine (g : Geometry) (i : Image) : Machine State Label := { Init := Init g i, Step := Next g }

end AllocJ
end Verif
