import Verif.Journal.AllocationLive
import Verif.Props.C10
/-
C37. The journal writes blocks only where no block is, gives back only units holding nothing it
needs, and its index agrees with a walk of the blocks.

Specification: `Holds` (Journal/Index.lean: LSN `l` is in block `a`, which following pointers from
the newest record visits), `Gives`/`Takes` (the units a label hands back and receives) and `ledger`
(the units received and not handed back).
-/
namespace Verif.C37
open Verif Linked AllocJ

/-- The units handed back by a labelled step. -/
def Gives : AllocJ.Label → Nat → Prop
  | .discardOld _ _ d, au => d au
  | .internal _ d, au => d au
  | _, _ => False

/-- The units received by a labelled step. -/
def Takes : AllocJ.Label → Nat → Prop
  | .internal t _, au => t au
  | _, _ => False

/-- The units held after a trace, starting from the units in `u`. -/
def ledger (u : PSet Nat) : List AllocJ.Label → PSet Nat
  | [] => u
  | l :: tr => ledger (fun au => (u au ∨ Takes l au) ∧ ¬ Gives l au) tr

theorem ledger_snoc (u : PSet Nat) (tr l) :
    ledger u (tr ++ [l]) = fun au => (ledger u tr au ∨ Takes l au) ∧ ¬ Gives l au := by
  induction tr generalizing u with
  | nil => rfl
  | cons x tr ih => exact ih _

/-- Unit `au` holds a block. -/
def UsesUnit (d : DiskView) (au : Nat) : Prop := ∃ a, a.au = au ∧ d.entries.Has a

/-- In every reachable state, the index maps exactly the LSNs found by following pointers from the
newest record to the unit of the block they are found in. -/
theorem index_agrees {g : Geometry} {i : Image} {s} (h : (machine g i).Reachable s) (l : LSN) (au : Nat) :
    s.ix l = some au ↔ ∃ a, s.j.tj.disk.Holds s.j.tj.root l a ∧ a.au = au := by
  have hi := reachable_inv h
  exact hi.shape.builds.iff hi.shape.dec.1.1 l au

/-- ... and its domain is the LSNs from the boundary to the end of the written journal. -/
theorem index_domain {g : Geometry} {i : Image} {s} (h : (machine g i).Reachable s) (l : LSN) :
    s.ix.Has l ↔ s.j.tj.seqStart ≤ l ∧ l < s.j.tj.seqEnd := (reachable_inv h).shape.domain l

/-- Every block stored, visited or not, that holds an LSN at or above the boundary is the one the
walk finds for that LSN: the journal stores no stale block with live LSNs. -/
theorem every_block_indexed {g : Geometry} {i : Image} {s} (h : (machine g i).Reachable s) {a r l}
    (ha : s.j.tj.disk.entries a = some r) (hl : r.msgs.Contains l) (hb : s.j.tj.disk.boundary ≤ l) :
    s.j.tj.disk.Holds s.j.tj.root l a ∧ s.ix l = some a.au :=
  ⟨(reachable_inv h).shape.covered ha hl hb, (reachable_inv h).shape.index ha hl hb⟩

theorem write_fresh_of_inv {g : Geometry} {s : AllocJ.State} {l s'} (hi : s.Inv g)
    (hs : Next g s l s') {a r} (ha : s'.j.tj.disk.entries a = some r) :
    s.j.tj.disk.entries a = some r ∨
    (s.j.tj.disk.entries a = none ∧ a.wf g ∧ s.mini.allocs.Has a.au ∧ s'.j.tj.root = some a) := by
  cases hs with
  | readForRecovery hn => exact .inl ha
  | freezeForCommit => exact .inl ha
  | queryEndLsn hn => exact .inl ha
  | put hn => cases hn with | put h1 h2 h3 => exact .inl ha
  | discardOld hcd hnf hv => exact .inl (hv.1.2.2.1 a r ha)
  | @marshal cut b hn h1 h2 =>
    obtain ⟨he, hw, _⟩ := next_addr hi hn
    obtain ⟨p, hp, _⟩ := hn.1
    by_cases hx : a = b
    · subst hx; exact .inr ⟨he, hw, by simp [PMap.Has, hp], rfl⟩
    · simp only [Linked.TJ.appendRecord] at ha
      rw [PMap.insert_other _ _ hx] at ha; exact .inl ha
  | fill => exact .inl ha
  | prune => exact .inl ha
  | noop => exact .inl ha

/-- A step writes at most one block; it is written where there was none, in a unit the allocator
holds, and it becomes the newest record. All other blocks are kept as they are or dropped. -/
theorem write_fresh {g : Geometry} {i : Image} {s l s'} (h : (machine g i).Reachable s)
    (hs : Next g s l s') {a r} (ha : s'.j.tj.disk.entries a = some r) :
    s.j.tj.disk.entries a = some r ∨
    (s.j.tj.disk.entries a = none ∧ a.wf g ∧ s.mini.allocs.Has a.au ∧ s'.j.tj.root = some a) :=
  write_fresh_of_inv (reachable_inv h) hs ha

/-- No step changes the contents of a block: it is kept as it was or dropped. -/
theorem blocks_immutable {g : Geometry} {i : Image} {s l s'} (h : (machine g i).Reachable s)
    (hs : Next g s l s') {a r} (ha : s.j.tj.disk.entries a = some r) :
    s'.j.tj.disk.entries a = some r ∨ s'.j.tj.disk.entries a = none := by
  cases he : s'.j.tj.disk.entries a with
  | none => exact .inr rfl
  | some r' =>
    rcases write_fresh h hs he with h1 | ⟨h1, _⟩
    · rw [ha] at h1; cases h1; exact .inl rfl
    · rw [ha] at h1; cases h1

theorem given_back_of_inv {g : Geometry} {s : AllocJ.State} {l s'} (hi : s.Inv g)
    (hs : Next g s l s') {au} (hg : Gives l au) :
    (∀ a r k, a.au = au → s.j.tj.disk.entries a = some r → r.msgs.Contains k →
      k < s'.j.tj.disk.boundary) ∧
    ¬ UsesUnit s'.j.tj.disk au ∧ ¬ s'.Accessible au := by
  cases hs with
  | readForRecovery hn => exact hg.elim
  | freezeForCommit => exact hg.elim
  | queryEndLsn hn => exact hg.elim
  | put hn => exact hg.elim
  | @discardOld l new f hcd hnf hv =>
    obtain ⟨hg1, hg2⟩ : Discarded s.ix l au := hg
    have hbl : s.j.tj.disk.boundary ≤ l := hcd.1
    refine ⟨?_, ?_, ?_⟩
    · intro a r k hau ha hk
      show k < new.disk.boundary
      rw [hv.1.2.1]
      apply Classical.byContradiction
      intro hge
      apply hg2
      exact ⟨k, Index.discardUpTo_some.mpr ⟨by omega, by
        rw [← hau]; exact hi.shape.index ha hk (by omega)⟩⟩
    · rintro ⟨a, hau, ha⟩
      apply hg2
      have := ((hv.2 a).mpr ha).2
      rw [hau] at this; exact this
    · rintro (h1 | h1)
      · exact hg2 h1
      · obtain ⟨p, hp⟩ := (PMap.has_iff _ _).mp h1
        exact (PMap.removeKeys_some.mp hp).1 ⟨hg1, hg2⟩
  | marshal => exact hg.elim
  | fill => exact hg.elim
  | @prune de hc =>
    obtain ⟨p, hp, hf⟩ := hc au hg
    have hnone : ¬ UsesUnit s.j.tj.disk au := by
      rintro ⟨a, hau, ha⟩
      refine hi.notFree a ha ⟨p, by rw [hau]; exact hp, hi.shape.addrs a ha, ?_, ?_⟩
      · rw [(hi.mwf.1 au p hp).2]; exact hau
      · rintro (h1 | h1)
        · exact hf a (hi.observed au p hp a h1)
        · exact hf a h1
    refine ⟨?_, hnone, ?_⟩
    · intro a r k hau ha _
      exact absurd ⟨a, hau, by simp [PMap.Has, ha]⟩ hnone
    · rintro (⟨k, hk⟩ | h1)
      · obtain ⟨x, r, hxa, hx, _⟩ := hi.shape.holder hk
        exact hnone ⟨x, hxa, by simp [PMap.Has, hx]⟩
      · obtain ⟨q, hq⟩ := (PMap.has_iff _ _).mp h1
        exact (PMap.removeKeys_some.mp hq).1 hg
  | noop => exact hg.elim

/-- A unit handed back holds only LSNs below the boundary now in force, and nothing of it is used
any more: no block is left in it, no index entry points to it, no page can be taken from it. -/
theorem given_back_unused {g : Geometry} {i : Image} {s l s'} (h : (machine g i).Reachable s)
    (hs : Next g s l s') {au} (hg : Gives l au) :
    (∀ a r k, a.au = au → s.j.tj.disk.entries a = some r → r.msgs.Contains k →
      k < s'.j.tj.disk.boundary) ∧
    ¬ UsesUnit s'.j.tj.disk au ∧ ¬ s'.Accessible au :=
  given_back_of_inv (reachable_inv h) hs hg

/-- Truncation hands back exactly the units that held needed LSNs before and hold none at or above
the new boundary. -/
theorem truncation_gives_exactly {g : Geometry} {i : Image} {s l e d s'}
    (h : (machine g i).Reachable s) (hs : Next g s (.discardOld l e d) s') (au : Nat) :
    d au ↔ (∃ k a, s.j.tj.disk.Holds s.j.tj.root k a ∧ a.au = au) ∧
      ¬ ∃ k a, l ≤ k ∧ s.j.tj.disk.Holds s.j.tj.root k a ∧ a.au = au := by
  have hi := reachable_inv h
  have hiff := fun k => hi.shape.builds.iff hi.shape.dec.1.1 k au
  cases hs with
  | discardOld hcd hnf hv =>
    unfold Discarded PMap.HasValue
    simp only [Index.discardUpTo_some, hiff]
    constructor
    · rintro ⟨⟨k, a, h1⟩, h2⟩
      exact ⟨⟨k, a, h1⟩, fun ⟨k, a, h3, h4⟩ => h2 ⟨k, h3, a, h4⟩⟩
    · rintro ⟨⟨k, a, h1⟩, h2⟩
      exact ⟨⟨k, a, h1⟩, fun ⟨k, h3, a, h4⟩ => h2 ⟨k, a, h3, h4⟩⟩

/-- The units of the image the journal was opened on. -/
def imageUnits (i : Image) : PSet Nat :=
  fun au => ∃ k a, i.tj.disk.Holds i.tj.root k a ∧ a.au = au

theorem accessible_step {g : Geometry} {i : Image} {s l s'} (h : (machine g i).Reachable s)
    (hs : Next g s l s') (au : Nat) :
    s'.Accessible au ↔ (s.Accessible au ∨ Takes l au) ∧ ¬ Gives l au := by
  have hgb := fun hg => (given_back_unused h hs (au := au) hg).2.2
  have hi := reachable_inv h
  have same : s'.Accessible au = s.Accessible au → (Takes l au → s.Accessible au) →
      (s'.Accessible au ↔ (s.Accessible au ∨ Takes l au) ∧ ¬ Gives l au) := by
    intro h1 h2
    constructor
    · intro h3; exact ⟨.inl (h1 ▸ h3), fun hg => hgb hg h3⟩
    · rintro ⟨h3 | h3, _⟩
      · exact h1 ▸ h3
      · exact h1 ▸ h2 h3
  cases hs with
  | readForRecovery hn => exact same rfl (fun h => h.elim)
  | freezeForCommit => exact same rfl (fun h => h.elim)
  | queryEndLsn hn => exact same rfl (fun h => h.elim)
  | put hn => exact same rfl (fun h => h.elim)
  | @discardOld l new f hcd hnf hv =>
    constructor
    · intro h3
      refine ⟨.inl ?_, fun hg => hgb hg h3⟩
      rcases h3 with ⟨k, hk⟩ | h3
      · exact .inl ⟨k, (Index.discardUpTo_some.mp hk).2⟩
      · obtain ⟨q, hq⟩ := (PMap.has_iff _ _).mp h3
        exact .inr ((PMap.has_iff _ _).mpr ⟨q, (PMap.removeKeys_some.mp hq).2⟩)
    · rintro ⟨h3 | h3, hg⟩
      · have hg : ¬ Discarded s.ix l au := hg
        rcases h3 with h3 | h3
        · exact .inl (Classical.byContradiction fun h4 => hg ⟨h3, h4⟩)
        · obtain ⟨q, hq⟩ := (PMap.has_iff _ _).mp h3
          exact .inr ((PMap.has_iff _ _).mpr ⟨q, PMap.removeKeys_some.mpr ⟨hg, hq⟩⟩)
      · exact h3.elim
  | @marshal cut a hn h1 h2 =>
    refine same (propext ?_) (fun h => h.elim)
    obtain ⟨p, hp, _⟩ := hn.1
    have hold : ∀ k v, s.ix k = some v →
        Index.append s.ix (s.j.tail.discardRecent cut) a.au k = some v := by
      intro k v hk
      have hd := (hi.shape.domain k).mp (by rw [hk]; simp)
      have hst : s.j.tj.seqEnd = s.j.tail.seqStart := hi.jinv.1.2.2.2
      refine Index.append_some.mpr (.inr ⟨?_, hk⟩)
      rintro ⟨hc, _⟩
      have hc : s.j.tail.seqStart ≤ k := hc
      omega
    constructor
    · rintro (⟨k, hk⟩ | h3)
      · rcases Index.append_some.mp hk with ⟨_, rfl⟩ | ⟨_, h4⟩
        · exact .inr ((PMap.has_iff _ _).mpr ⟨p, hp⟩)
        · exact .inl ⟨k, h4⟩
      · simp only at h3
        rw [mini_take hp] at h3
        by_cases hx : au = a.au
        · subst hx; exact .inr ((PMap.has_iff _ _).mpr ⟨p, hp⟩)
        · unfold PMap.Has at h3
          rw [PMap.insert_other _ _ hx] at h3; exact .inr h3
    · rintro (⟨k, hk⟩ | h3)
      · exact .inl ⟨k, hold k au hk⟩
      · right
        show ((s.mini.allocate g a).observe a).allocs.Has au
        rw [mini_take hp]
        unfold PMap.Has
        by_cases hx : au = a.au
        · subst hx; simp
        · rw [PMap.insert_other _ _ hx]; exact h3
  | @fill al h1 h2 =>
    have hacc : State.Accessible { s with mini := s.mini.addAus al } au ↔ s.Accessible au ∨ al au := by
      unfold State.Accessible
      simp only [addAus_has]
      constructor
      · rintro (h3 | h3 | h3)
        · exact .inl (.inl h3)
        · exact .inl (.inr h3)
        · exact .inr h3
      · rintro ((h3 | h3) | h3)
        · exact .inl h3
        · exact .inr (.inl h3)
        · exact .inr (.inr h3)
    rw [hacc]
    exact ⟨fun h3 => ⟨h3, fun h => h.elim⟩, fun h3 => h3.1⟩
  | @prune de hc =>
    constructor
    · intro h3
      refine ⟨.inl ?_, fun hg => hgb hg h3⟩
      rcases h3 with h3 | h3
      · exact .inl h3
      · obtain ⟨q, hq⟩ := (PMap.has_iff _ _).mp h3
        exact .inr ((PMap.has_iff _ _).mpr ⟨q, (PMap.removeKeys_some.mp hq).2⟩)
    · rintro ⟨h3 | h3, hg⟩
      · rcases h3 with h3 | h3
        · exact .inl h3
        · obtain ⟨q, hq⟩ := (PMap.has_iff _ _).mp h3
          exact .inr ((PMap.has_iff _ _).mpr ⟨q, PMap.removeKeys_some.mpr ⟨hg, hq⟩⟩)
      · exact h3.elim
  | noop => exact same rfl (fun h => h.elim)

/-- Over any execution, the units the journal indexes or allocates from are exactly those of the
image it was opened on and those received, less those handed back. -/
theorem ledger_exact {g : Geometry} {i : Image} {tr s} (h : (machine g i).Exec tr s) (au : Nat) :
    s.Accessible au ↔ ledger (imageUnits i) tr au := by
  have aux := Machine.exec_invariant (M := machine g i)
    (I := fun tr s => (machine g i).Exec tr s ∧
      ∀ au, s.Accessible au ↔ ledger (imageUnits i) tr au) ?_ ?_ h
  · exact aux.2 au
  · intro s hs
    have hi := init_inv hs
    refine ⟨⟨s, hs, .nil s⟩, fun au => ?_⟩
    obtain ⟨_, ⟨_, hj⟩, _, _, hm⟩ := hs
    show _ ↔ imageUnits i au
    have hiff := fun k => hi.shape.builds.iff hi.shape.dec.1.1 k au
    rw [hj] at hiff
    unfold State.Accessible imageUnits PMap.HasValue
    simp only [hiff, hm]
    constructor
    · rintro (⟨k, a, h1⟩ | h1)
      · exact ⟨k, a, h1⟩
      · exact absurd rfl h1
    · rintro ⟨k, a, h1⟩; exact .inl ⟨k, a, h1⟩
  · rintro tr s l s' ⟨he, ih⟩ hs
    refine ⟨he.snoc hs, fun au => ?_⟩
    rw [accessible_step ⟨tr, he⟩ hs au, ledger_snoc, ih au]

/-- Units stored in are units held: every stored block lies in a unit the ledger has. -/
theorem blocks_in_held_units {g : Geometry} {i : Image} {tr s} (h : (machine g i).Exec tr s) {a}
    (ha : s.j.tj.disk.entries.Has a) : ledger (imageUnits i) tr a.au :=
  (ledger_exact h a.au).mp (.inl ((reachable_inv ⟨tr, h⟩).shape.tight a ha).1)

/-- The image frozen for a commit can be opened, and the journal opened on it has the index of the
frozen LSNs. -/
theorem frozen_opens {g : Geometry} {i : Image} {s z s'} (h : (machine g i).Reachable s)
    (hs : Next g s (.freezeForCommit z) s') :
    ∃ s0, AllocJ.Init g z s0 ∧ ∀ l, s0.ix l = if z.tj.seqStart ≤ l ∧ l < z.tj.seqEnd then s.ix l else none := by
  have hi := reachable_inv h
  cases hs with
  | freezeForCommit hc hcd hv hnf =>
    have hsh := freeze_shape hi.shape hcd hv hnf
    refine ⟨⟨⟨z.tj, .emptyAt z.tj.seqEnd⟩, _, z.first, .empty⟩,
      ⟨hsh.valid, ⟨hsh.dec, rfl⟩, hsh.auWalk, rfl, rfl⟩, ?_⟩
    intro l
    have hd := hsh.domain l
    show frozenIndex _ _ _ l = _
    split
    · rename_i hin
      have := hd.mpr hin
      unfold frozenIndex PMap.restrict at this ⊢
      split
      · rfl
      · rename_i hn; rw [if_neg hn] at this; exact absurd rfl this
    · rename_i hin
      exact Classical.byContradiction fun hn => hin (hd.mp hn)

/-- The allocating journal refines the linked journal. -/
theorem refines_linked {g : Geometry} {i : Image} {tr s} (h : (machine g i).Exec tr s) :
    (Linked.machine i.tj).Exec (tr.map AllocJ.Label.linked) s.j := by
  have := Machine.refine (M := machine g i) (N := Linked.machine i.tj) AllocJ.Label.linked
    (fun s t => s.Inv g ∧ t = s.j) (fun s hs => ⟨s.j, hs.2.1, init_inv hs, rfl⟩)
    (by
      rintro s l s' t ⟨hi, rfl⟩ hs
      exact ⟨s'.j, step_linked hi hs, step_inv hi hs, rfl⟩) h
  obtain ⟨t, h1, _, rfl⟩ := this
  exact h1

/-! ### Nothing blocks -/

/-- The journal can be truncated to any LSN from its boundary to the end of what is written. -/
theorem can_truncate {g : Geometry} {i : Image} {s} (h : (machine g i).Reachable s) {l}
    (h1 : s.j.tj.seqStart ≤ l) (h2 : l ≤ s.j.tj.seqEnd) :
    ∃ d s', Next g s (.discardOld l s.j.tail.seqEnd d) s' ∧ s'.j.tj.seqStart = l := by
  obtain ⟨new, hn⟩ := can_discard (reachable_inv h).shape (l := l) ⟨h1, h2⟩
  refine ⟨_, _, .discardOld (f := (s.ix l).getD 0) ⟨h1, h2⟩ ?_ hn, hn.1.2.1⟩
  intro _ _ au hau; rw [hau]; rfl

/-- It can be frozen up to any written record, from any LSN it holds there. -/
theorem can_freeze {g : Geometry} {i : Image} {s} (h : (machine g i).Reachable s) {n l}
    (hc : s.j.tj.disk.CanCrop s.j.tj.root n)
    (h1 : s.j.tj.seqStart ≤ l) (h2 : l ≤ (s.j.tj.crop n).seqEnd) :
    ∃ z s', Next g s (.freezeForCommit z) s' ∧ z.tj.seqStart = l := by
  have hcd : (s.j.tj.crop n).CanDiscardTo l := ⟨h1, h2⟩
  obtain ⟨z, rfl, hv, hnf⟩ := AllocJ.can_freeze (reachable_inv h).shape (n := n) hcd
  exact ⟨z, s, .freezeForCommit (n := n) hc hcd hv hnf, rfl⟩

/-- As long as a unit it holds has a page not taken, buffered messages can be written. -/
theorem can_write {g : Geometry} {i : Image} {s} (h : (machine g i).Reachable s) {au p cut}
    (hp : s.mini.allocs au = some p) (hf : ∃ x : Address, x.wf g ∧ x.au = au ∧ ¬ p.reserved x)
    (h1 : s.j.tail.seqStart < cut) (h2 : cut ≤ s.j.tail.seqEnd) :
    ∃ s' a, Next g s (.internal PSet.empty PSet.empty) s' ∧ s'.j.tj.root = some a ∧
      s'.j.tj.seqEnd = cut := by
  obtain ⟨hi, hpg⟩ := reachable_pages h
  obtain ⟨a, ha⟩ := next_addr_exists hi hpg hp (by
    intro hall
    obtain ⟨x, hx, hxa, hxf⟩ := hf
    rcases hall x hx (by rw [(hi.mwf.1 au p hp).2]; exact hxa) with h3 | h3
    · exact hxf h3
    · exact hxf (hi.observed au p hp x h3))
  refine ⟨_, a, .marshal (cut := cut) ha h1 ⟨by omega, h2⟩, rfl, ?_⟩
  simp [Linked.TJ.seqEnd, DiskView.seqEnd, Linked.TJ.appendRecord, MsgHistory.discardRecent]

/-! ### A concrete journal: units of two pages, three records in units 1 and 2, truncation to LSN 2
hands back unit 1 -/

/-- two pages per unit, four units -/
def g0 : Geometry := ⟨2, 4⟩

/-- messages for LSNs 0, 1, 2 -/
def ms : MsgHistory := ⟨fun l => if l < 3 then some ⟨7, .define (l.toUInt64)⟩ else none, 0, 3⟩

def a10 : Address := ⟨1, 0⟩
def a11 : Address := ⟨1, 1⟩
def a20 : Address := ⟨2, 0⟩

noncomputable def st0 : AllocJ.State := ⟨⟨Linked.TJ.mkfs, .emptyAt 0⟩, PMap.empty, 0, .empty⟩
noncomputable def st1 : AllocJ.State := { st0 with mini := st0.mini.addAus (fun au => au = 1 ∨ au = 2) }
noncomputable def st2 : AllocJ.State := { st1 with j := { st1.j with tail := st1.j.tail.concat ms } }
noncomputable def write (s : AllocJ.State) (cut : LSN) (a : Address) : AllocJ.State :=
  { j := { tj := s.j.tj.appendRecord a (s.j.tail.discardRecent cut), tail := s.j.tail.discardOld cut }
    ix := Index.append s.ix (s.j.tail.discardRecent cut) a.au
    first := if s.j.tj.root = none then a.au else s.first
    mini := (s.mini.allocate g0 a).observe a }
noncomputable def st3 : AllocJ.State := write st2 1 a10
noncomputable def st4 : AllocJ.State := write st3 2 a11
noncomputable def st5 : AllocJ.State := write st4 3 a20

theorem ms_wf : ms.WF := by
  refine ⟨by simp [ms], fun l => ?_⟩
  by_cases h : l < 3 <;> simp [ms, MsgHistory.Contains, PMap.Has, h]

theorem init0 : AllocJ.Init g0 Image.empty st0 := by
  have hd := C10.mkfs_decodable
  refine ⟨⟨?_, ⟨⟨hd.1.1, hd.1.2.1⟩, hd.2, ⟨?_, ?_⟩, ?_, ?_, ?_⟩, PMap.empty, .nil, ?_, ?_⟩,
    ⟨hd, rfl⟩, .nil, rfl, rfl⟩
  · intro a h; exact absurd rfl h
  · intro a r _ h; cases h
  · intro _ _ _ _ _ _ h; cases h
  · rintro l a b ⟨r, h, _⟩; cases h
  · intro h; exact absurd rfl h
  · intro a h; cases h
  · intro a h; exact absurd rfl h
  · intro a r l h; cases h

theorem curr_take {m : MiniAlloc} {a : Address} {p} (hp : m.allocs a.au = some p) :
    ((p.reserve (fun x => x = a)).allAllocated g0 → ((m.allocate g0 a).observe a).curr = none) ∧
    (¬ (p.reserve (fun x => x = a)).allAllocated g0 →
      ((m.allocate g0 a).observe a).curr = some a.au) := by
  have : ((m.allocate g0 a).observe a).curr = (m.allocate g0 a).curr := rfl
  rw [this]
  have hq : (m.allocs a.au).getD (PageAlloc.new a.au) = p := by rw [hp]; rfl
  simp only [MiniAlloc.allocate]
  rw [hq]
  exact ⟨fun h => if_pos h, fun h => if_neg h⟩

/-- unit 1 with its first page written -/
def p1 : PageAlloc := ((PageAlloc.new 1).reserve (fun x => x = a10)).observe (fun x => x = a10)

theorem m2 : st2.mini.allocs 1 = some (.new 1) ∧ st2.mini.allocs 2 = some (.new 2) ∧
    st2.mini.curr = none := by
  refine ⟨?_, ?_, rfl⟩ <;> simp [st2, st1, st0, MiniAlloc.addAus, MiniAlloc.empty, PMap.empty]

theorem m3 : st3.mini.allocs 1 = some p1 ∧ st3.mini.allocs 2 = some (.new 2) ∧
    st3.mini.curr = some 1 := by
  have hp : st2.mini.allocs a10.au = some (.new 1) := m2.1
  refine ⟨?_, ?_, (curr_take hp).2 ?_⟩
  · show ((st2.mini.allocate g0 a10).observe a10).allocs 1 = _
    rw [mini_take hp]; exact PMap.insert_same _ _ _
  · show ((st2.mini.allocate g0 a10).observe a10).allocs 2 = _
    rw [mini_take hp, PMap.insert_other _ _ (by decide)]; exact m2.2.1
  · intro h
    rcases h a11 (by simp [Address.wf, a11, g0]) rfl with (h | h) | h
    · exact h
    · simp [a10, a11] at h
    · exact h

theorem m4 : st4.mini.allocs 2 = some (.new 2) ∧ st4.mini.curr = none := by
  have hp : st3.mini.allocs a11.au = some p1 := m3.1
  refine ⟨?_, (curr_take hp).1 ?_⟩
  · show ((st3.mini.allocate g0 a11).observe a11).allocs 2 = _
    rw [mini_take hp, PMap.insert_other _ _ (by decide)]; exact m3.2.1
  · intro x hx hxa
    have h1 : x.page < 2 := hx.2
    have h2 : x.au = 1 := hxa
    left
    by_cases h3 : x.page = 0
    · left; right; show x = a10; ext <;> simp [a10, h2, h3]
    · right; show x = a11; ext
      · exact h2
      · show x.page = 1; omega

theorem write2 : Next g0 st2 (.internal PSet.empty PSet.empty) st3 :=
  .marshal (cut := 1) (a := a10)
    ⟨⟨_, m2.1, by simp [Address.wf, a10, g0], rfl, by rintro (h | h) <;> exact h⟩,
      fun _ => ⟨fun p hp => by
        have hp : st2.mini.allocs 1 = some p := hp
        rw [m2.1] at hp; cases hp; exact ⟨fun _ h => h, fun _ h => h⟩, rfl⟩,
      fun h => absurd m2.2.2 h⟩
    (by decide) (by constructor <;> decide)

theorem write3 : Next g0 st3 (.internal PSet.empty PSet.empty) st4 := by
  refine .marshal (cut := 2) (a := a11)
    ⟨⟨_, m3.1, by simp [Address.wf, a11, g0], rfl, ?_⟩, ?_, ?_⟩ (by decide) (by constructor <;> decide)
  · rintro ((h | h) | (h | h))
    · exact h
    · simp [a10, a11] at h
    · exact h
    · simp [a10, a11] at h
  · intro h; rw [m3.2.2] at h; cases h
  · intro _ t ht; cases ht; rfl

theorem write4 : Next g0 st4 (.internal PSet.empty PSet.empty) st5 :=
  .marshal (cut := 3) (a := a20)
    ⟨⟨_, m4.1, by simp [Address.wf, a20, g0], rfl, by rintro (h | h) <;> exact h⟩,
      fun _ => ⟨fun p hp => by
        have hp : st4.mini.allocs 2 = some p := hp
        rw [m4.1] at hp; cases hp; exact ⟨fun _ h => h, fun _ h => h⟩, rfl⟩,
      fun h => absurd m4.2 h⟩
    (by decide) (by constructor <;> decide)

/-- Three records are written: two in unit 1, which is then full, and one in unit 2. -/
theorem demo_reach : (machine g0 .empty).Exec
    [.internal (fun au => au = 1 ∨ au = 2) PSet.empty, .put ms, .internal PSet.empty PSet.empty,
     .internal PSet.empty PSet.empty, .internal PSet.empty PSet.empty] st5 := by
  have e0 : (machine g0 .empty).Exec [] st0 := ⟨_, init0, .nil _⟩
  have s1 : Next g0 st0 (.internal (fun au => au = 1 ∨ au = 2) PSet.empty) st1 :=
    .fill (by intro au _ h; exact h rfl) (by rintro au _ ⟨k, hk⟩; cases hk)
  have e1 := e0.snoc s1
  have s2 : Next g0 st1 (.put ms) st2 := .put (.put (reachable_inv ⟨_, e1⟩).jinv.1 ms_wf rfl)
  exact (((e1.snoc s2).snoc write2).snoc write3).snoc write4

theorem demo_index : st5.ix 0 = some 1 ∧ st5.ix 1 = some 1 ∧ st5.ix 2 = some 2 ∧ st5.ix 3 = none ∧
    st5.j.tj.seqStart = 0 ∧ st5.j.tj.seqEnd = 3 := by
  refine ⟨?_, ?_, ?_, ?_, rfl, ?_⟩
  · simp [st5, st4, st3, st2, st1, st0, write, Index.append, Index.singleton, PMap.unionRight,
      MsgHistory.discardRecent, MsgHistory.discardOld, MsgHistory.concat, MsgHistory.emptyAt, ms, a10, a11, a20]
  · simp [st5, st4, st3, st2, st1, st0, write, Index.append, Index.singleton, PMap.unionRight,
      MsgHistory.discardRecent, MsgHistory.discardOld, MsgHistory.concat, MsgHistory.emptyAt, ms, a10, a11, a20]
  · simp [st5, st4, st3, st2, st1, st0, write, Index.append, Index.singleton, PMap.unionRight,
      MsgHistory.discardRecent, MsgHistory.discardOld, MsgHistory.concat, MsgHistory.emptyAt, ms, a10, a11, a20]
  · simp [st5, st4, st3, st2, st1, st0, write, Index.append, Index.singleton, PMap.unionRight,
      MsgHistory.discardRecent, MsgHistory.discardOld, MsgHistory.concat, MsgHistory.emptyAt, ms, PMap.empty]
  · simp [st5, st4, write, Linked.TJ.seqEnd, DiskView.seqEnd, Linked.TJ.appendRecord,
      MsgHistory.discardRecent]

/-- Truncating it to LSN 2 hands back unit 1 and not unit 2. -/
example : ∃ d s', Next g0 st5 (.discardOld 2 3 d) s' ∧ d 1 ∧ ¬ d 2 ∧ ¬ s'.Accessible 1 ∧
    s'.Accessible 2 := by
  have hr : (machine g0 .empty).Reachable st5 := ⟨_, demo_reach⟩
  obtain ⟨h0, h1, h2, h3, hs, he⟩ := demo_index
  obtain ⟨d, s', hs', _⟩ := can_truncate hr (l := 2) (by omega) (by omega)
  have hg := truncation_gives_exactly hr hs'
  have hd : ∀ k, st5.ix k ≠ none → k < 3 := by
    intro k hk; have := (index_domain hr k).mp hk; omega
  have d1 : d 1 := by
    refine (hg 1).mpr ⟨⟨0, (index_agrees hr 0 1).mp h0⟩, ?_⟩
    rintro ⟨k, a, hk, ha⟩
    have hix := (index_agrees hr k 1).mpr ⟨a, ha⟩
    have := hd k (by rw [hix]; simp)
    have : k = 2 := by omega
    subst this
    rw [h2] at hix; simp at hix
  have d2 : ¬ d 2 := by
    intro hc
    obtain ⟨a, ha⟩ := (index_agrees hr 2 2).mp h2
    exact ((hg 2).mp hc).2 ⟨2, a, Nat.le_refl _, ha⟩
  have acc := accessible_step hr hs'
  refine ⟨d, s', hs', d1, d2, fun h => ((acc 1).mp h).2 d1, (acc 2).mpr ⟨.inl (.inl ⟨2, h2⟩), d2⟩⟩

/-- The walk finds LSN 1 in unit 1 and LSN 2 in unit 2. -/
example : (∃ a, st5.j.tj.disk.Holds st5.j.tj.root 1 a ∧ a.au = 1) ∧
    ∃ a, st5.j.tj.disk.Holds st5.j.tj.root 2 a ∧ a.au = 2 :=
  ⟨(index_agrees ⟨_, demo_reach⟩ 1 1).mp demo_index.2.1,
   (index_agrees ⟨_, demo_reach⟩ 2 2).mp demo_index.2.2.1⟩

/-- The last write is one `write_fresh` speaks about: page 0 of unit 2, empty before. -/
example : Next g0 st4 (.internal PSet.empty PSet.empty) st5 ∧ st4.j.tj.disk.entries a20 = none ∧
    st5.j.tj.disk.entries a20 ≠ none := by
  refine ⟨write4, ?_, ?_⟩
  · simp [st4, st3, st2, st1, st0, write, Linked.TJ.appendRecord, Linked.TJ.mkfs, PMap.insert, PMap.empty,
      a10, a11, a20]
  · simp [st5, write, Linked.TJ.appendRecord]

/-- It can be frozen without its newest record, from LSN 1, and the frozen image opens. -/
example : ∃ z s', Next g0 st5 (.freezeForCommit z) s' ∧ z.tj.seqStart = 1 ∧
    ∃ s0, AllocJ.Init g0 z s0 := by
  have hr : (machine g0 .empty).Reachable st5 := ⟨_, demo_reach⟩
  have hroot : st5.j.tj.root = some a20 := rfl
  obtain ⟨z, s', h1, h2⟩ := can_freeze hr (n := 1) (l := 1) ⟨by rw [hroot]; simp, trivial⟩
    (by rw [demo_index.2.2.2.2.1]; omega) (by
      show 1 ≤ st5.j.tj.disk.seqEnd (st5.j.tj.disk.next st5.j.tj.root)
      simp [st5, st4, st3, st2, st1, st0, write, Linked.TJ.appendRecord, Linked.TJ.mkfs, PMap.insert,
        a10, a11, a20, DiskView.next, DiskView.seqEnd, JRec.croppedPrior, MsgHistory.discardRecent,
        MsgHistory.discardOld])
  obtain ⟨s0, h3, _⟩ := frozen_opens hr h1
  exact ⟨z, s', h1, h2, s0, h3⟩

end Verif.C37
