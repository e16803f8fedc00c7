import Verif.Journal.UnifiedProof
import Verif.Abs.CTJournalKeep
import Verif.Props.C09
import Verif.Props.C37
/-
C43. The journal keeps its running state, the copy the superblock points to and the copy being
committed on one disk. The three never damage each other, a crash at any point loses nothing that
the superblock covers, and the whole behaves as the abstract crash-tolerant journal, which has a
separate history for each.

Specification: `Reads` (what one reads off the disk starting from a superblock record: `Walk` of
Journal/Linked.lean follows pointers, `C09.Shows` says which history the visited records make),
`Runs` (the same with the in-memory tail), `Visits` (blocks met when following pointers),
`CTJournal.Later` (truncated at the front, extended at the end) and the abstract machine
`CTJournal` (Abs/Machines.lean).
-/
namespace Verif.C43
open Verif Linked AllocJ Unified

/-- What one reads off disk `dv` from superblock record `z`. -/
def Reads (z : Super) (dv : PMap Address JRec) (h : MsgHistory) : Prop :=
  ∃ c, Walk ⟨z.boundary, dv⟩ z.root c ∧ C09.Shows ⟨z.boundary, c⟩ h

/-- What the running journal holds: the blocks on disk followed by the tail in memory. -/
def Runs (v : Eph) (dv : PMap Address JRec) (h : MsgHistory) : Prop :=
  ∃ c, Walk ⟨v.image.boundary, dv⟩ v.image.root c ∧ C09.StateShows ⟨⟨v.image.boundary, c⟩, v.tail⟩ h

/-- Block `a` is met when following pointers from the newest block of `z`. -/
def Visits (z : Super) (dv : PMap Address JRec) (a : Address) : Prop :=
  DiskView.Reach ⟨z.boundary, dv⟩ z.root a

/-- Record `z` is the superblock's, or the one being committed: after a crash either may be what
the superblock holds. -/
def Live (s : Unified.State) (z : Super) : Prop := z = s.persistent ∨ s.inflight = some z

theorem reads_unique {z dv h h'} (h1 : Reads z dv h) (h2 : Reads z dv h') : h = h' := by
  obtain ⟨c, hc, hs⟩ := h1
  obtain ⟨c', hc', hs'⟩ := h2
  have := hc.det hc'; subst this
  exact C09.shows_unique hs hs'

/-- The abstract state shown by a state of the journal on one disk. -/
structure StateReads (s : Unified.State) (t : CTJournal.State) : Prop where
  pers : Reads s.persistent s.dv t.persistent
  eph : (s.ephemeral = none ∧ t.ephemeral = none) ∨
    ∃ v h, s.ephemeral = some v ∧ t.ephemeral = some h ∧ Runs v s.dv h
  infl : (s.inflight = none ∧ t.inFlight = none) ∨
    ∃ f h, s.inflight = some f ∧ t.inFlight = some h ∧ Reads f s.dv h

/-! ### Simulation -/

theorem reads_of_img {g : Geometry} {z : Super} {dv : PMap Address JRec} {ix h}
    (hd : (image g dv ix z).tj.Decodable) (hi : CrashJ.Img (image g dv ix z).tj h) :
    Reads z dv h := by
  obtain ⟨q, hq, rfl⟩ := hi
  have hsh := C09.interp_shows (hq.wf hd.1)
  obtain ⟨hb, hw⟩ := hq
  have hb : q.boundary = z.boundary := hb
  refine ⟨q.chain, hw.mono (image_sub dv _), ?_⟩
  rw [← hb]; exact hsh

theorem runs_of_jnl {v : Eph} {dv : PMap Address JRec} {h} (hj : CrashJ.Jnl (v.aj dv).j h) :
    Runs v dv h := by
  obtain ⟨p, hp, rfl⟩ := hj
  have hsh := C09.interp_stateShows hp.wf
  obtain ⟨_, ⟨hb, hw⟩, ht⟩ := hp
  have hb : p.tj.boundary = v.image.boundary := hb
  have ht : p.tail = v.tail := ht
  refine ⟨p.tj.chain, hw, ?_⟩
  rw [← hb, ← ht]; exact hsh

/-- The simulation relation. -/
def Sim (g : Geometry) (s : Unified.State) (t : CTJournal.State) : Prop :=
  s.Inv g ∧ CTJournal.Good t ∧ ∃ T ix first, Owner g s T ix first ∧ (split g s ix).Inv g ∧
    CrashJ.Shows (split g s ix) t

theorem Sim.reads {g : Geometry} {s t} (h : Sim g s t) : StateReads s t := by
  obtain ⟨_, _, T, ix, first, ho, hi, hsh⟩ := h
  refine ⟨reads_of_img (Shape.decodable_of_valid hi.pers) hsh.pers, ?_, ?_⟩
  · rcases hsh.eph with ⟨h1, h2⟩ | ⟨j, h, h1, h2, h3⟩
    · refine .inl ⟨?_, h2⟩
      cases he : s.ephemeral with
      | none => rfl
      | some v => unfold split at h1; rw [he] at h1; cases h1
    · right
      cases he : s.ephemeral with
      | none => unfold split at h1; rw [he] at h1; cases h1
      | some v =>
        unfold split at h1; rw [he] at h1; cases h1
        exact ⟨v, h, rfl, h2, runs_of_jnl h3⟩
  · rcases hsh.infl with ⟨h1, h2⟩ | ⟨j, h, h1, h2, h3⟩
    · refine .inl ⟨?_, h2⟩
      cases he : s.inflight with
      | none => rfl
      | some v => unfold split at h1; rw [he] at h1; cases h1
    · right
      have hv := hi.infl j h1
      cases he : s.inflight with
      | none => unfold split at h1; rw [he] at h1; cases h1
      | some v =>
        unfold split at h1; rw [he] at h1; cases h1
        exact ⟨v, h, rfl, h2, reads_of_img (Shape.decodable_of_valid hv) h3⟩

theorem sim_init {g : Geometry} {s} (h : Unified.Init s) : ∃ t, CTJournal.Init t ∧ Sim g s t := by
  obtain ⟨hi, T, ix, first, ho, hc⟩ := Unified.init_inv (g := g) h
  obtain ⟨t, h1, h2⟩ := CrashJ.init_shows hc
  exact ⟨t, h1, hi, CTJournal.good_init h1, T, ix, first, ho, CrashJ.init_inv hc, h2⟩

theorem put_wf {g : Geometry} {s s' l m} (hs : Unified.Next g s l s')
    (hm : CrashJ.Label.abs l = .put m) : m.WF := by
  cases hs with
  | @put v v' m' he hn =>
    cases hm
    generalize v'.aj s.dv = j' at hn
    cases hn with
    | put hn => cases hn with | put _ h4 _ => exact h4
  | _ => cases hm

theorem sim_step {g : Geometry} {s s' l t} (h : Sim g s t) (hs : Unified.Next g s l s') :
    ∃ t', CTJournal.Next t l.abs t' ∧ Sim g s' t' ∧ CTJournal.Later t.persistent t'.persistent := by
  obtain ⟨hi, hg, T, ix, first, ho, hci, hsh⟩ := h
  obtain ⟨hi', T', ix', first', ho', hn, _⟩ := step_split hi ho hs
  obtain ⟨t', h1, h2⟩ := CrashJ.step_shows hci hsh hn
  obtain ⟨h3, h4⟩ := CTJournal.good_step hg h1 (fun _ hm => put_wf hs hm)
  exact ⟨t', h1, ⟨hi', h3, T', ix', first', ho', CrashJ.step_inv hci hn, h2⟩, h4⟩

theorem sim_exec {g : Geometry} {tr s} (h : (Unified.machine g).Exec tr s) :
    ∃ t, CrashJ.absMachine.Exec (tr.map CrashJ.Label.abs) t ∧ Sim g s t :=
  Machine.refine (M := Unified.machine g) (N := CrashJ.absMachine) CrashJ.Label.abs (Sim g)
    (fun _ h => sim_init h)
    (fun _ _ _ _ h hs => by
      obtain ⟨t', h1, h2, _⟩ := sim_step h hs
      exact ⟨t', h1, h2⟩) h

/-! ### The properties -/

/-- Every execution of the journal on one disk is, label by label, an execution of the abstract
crash-tolerant journal, and the abstract histories (persistent, in flight, running) are what one
reads off the disk. -/
theorem refines_abstract {g : Geometry} {tr s} (h : (Unified.machine g).Exec tr s) :
    ∃ t, CrashJ.absMachine.Exec (tr.map CrashJ.Label.abs) t ∧ StateReads s t := by
  obtain ⟨t, h1, h2⟩ := sim_exec h
  exact ⟨t, h1, h2.reads⟩

/-- It is also an execution, with the same labels, of the journal that gives each image a disk of
its own (AllocationCrashAwareJournal_v.rs), in a state that has the same running journal. -/
theorem refines_separate {g : Geometry} {tr s} (h : (Unified.machine g).Exec tr s) :
    ∃ c, (CrashJ.machine g).Exec tr c ∧
      c.ephemeral = s.ephemeral.map (fun v => v.aj s.dv) ∧
      c.persistent.tj.root = s.persistent.root ∧
      (∀ a r, c.persistent.tj.disk.entries a = some r → s.dv a = some r) ∧
      (∀ a, Visits s.persistent s.dv a → c.persistent.tj.disk.entries.Has a) ∧
      (c.inflight = none ↔ s.inflight = none) := by
  have := Machine.refine (M := Unified.machine g) (N := CrashJ.machine g) id
    (fun s c => s.Inv g ∧ c.Inv g ∧ ∃ T ix first, Owner g s T ix first ∧ c = split g s ix)
    (fun s hs => by
      obtain ⟨hi, T, ix, first, ho, hc⟩ := Unified.init_inv (g := g) hs
      exact ⟨_, hc, hi, CrashJ.init_inv hc, T, ix, first, ho, rfl⟩)
    (by
      rintro s l s' c ⟨hi, hci, T, ix, first, ho, rfl⟩ hs
      obtain ⟨hi', T', ix', first', ho', hn, _⟩ := step_split hi ho hs
      exact ⟨_, hn, hi', CrashJ.step_inv hci hn, T', ix', first', ho', rfl⟩) h
  rw [List.map_id] at this
  obtain ⟨c, h1, hi, hci, T, ix, first, ho, rfl⟩ := this
  refine ⟨_, h1, rfl, rfl, fun a r hr => (tightDv_some.mp hr).2, ?_, ?_⟩
  · intro a ha
    have hd := Shape.decodable_of_valid hci.pers
    obtain ⟨r, hr⟩ := Linked.Reach.has (reach_restrict (image_sub s.dv _) hd.1.1.2.1 ha hd.1.2.1)
    exact AllocJ.PMap.has_some hr
  · unfold split
    cases s.inflight <;> simp

theorem visit_image {g : Geometry} {s : Unified.State} {T ix first} (ho : Owner g s T ix first)
    {z a r} (hz : Live s z) (ha : Visits z s.dv a) (hr : s.dv a = some r) :
    Sub T ix z ∧ (image g s.dv ix z).tj.disk.entries a = some r := by
  have hsub : Sub T ix z := by
    rcases hz with rfl | hz
    · exact ho.pers
    · exact ho.infl z hz
  have hsh := hsub.shape ho.shape
  rw [ho.disk] at hsh
  obtain ⟨r', hr'⟩ := Linked.Reach.has
    (reach_restrict (image_sub s.dv _) hsh.dec.1.1.2.1 ha hsh.dec.1.2.1)
  have h1 : z.tightDv g s.dv (subIx ix z s.dv) a = some r' := hr'
  have h2 := (tightDv_some.mp h1).2
  rw [hr] at h2; cases h2
  exact ⟨hsub, hr'⟩

/-- A step keeps every block visited from a record that is live before and after it, as it is:
writing, truncating, filling, loading and crashing never touch the journal the superblock points
to, nor the one being committed. -/
theorem images_untouched {g : Geometry} {s l s'} (h : (Unified.machine g).Reachable s)
    (hs : Unified.Next g s l s') {z} (hz : Live s z) (hz' : Live s' z) {a r}
    (ha : Visits z s.dv a) (hr : s.dv a = some r) : s'.dv a = some r := by
  have hi := Unified.reachable_inv h
  obtain ⟨T, ix, first, ho⟩ := hi.owner
  obtain ⟨_, T', ix', first', ho', _, hk⟩ := step_split hi ho hs
  obtain ⟨hsub, him⟩ := visit_image ho hz ha hr
  rw [← hk z hsub hz'] at him
  exact (tightDv_some.mp him).2

/-- ... so what one reads from it is the same before and after. -/
theorem reads_kept {g : Geometry} {s l s'} (h : (Unified.machine g).Reachable s)
    (hs : Unified.Next g s l s') {z} (hz : Live s z) (hz' : Live s' z) {h0}
    (hr : Reads z s.dv h0) : Reads z s'.dv h0 := by
  have hi := Unified.reachable_inv h
  obtain ⟨T, ix, first, ho⟩ := hi.owner
  obtain ⟨_, T', ix', first', ho', _, hk⟩ := step_split hi ho hs
  have hsub : Sub T ix z := by
    rcases hz with rfl | hz
    · exact ho.pers
    · exact ho.infl z hz
  have hsh := hsub.shape ho.shape
  rw [ho.disk] at hsh
  obtain ⟨c, hc, hsw⟩ := hr
  refine ⟨c, ?_, hsw⟩
  have h1 := Walk.restrict (image_sub (g := g) s.dv (subIx ix z s.dv)) hsh.dec.1.1.2.1
    hc hsh.dec.1.2.1
  have h2 : Walk (image g s'.dv ix' z).tj.disk z.root c := by rw [hk z hsub hz']; exact h1
  exact h2.mono (image_sub s'.dv _)

/-- Every live record can be read. -/
theorem live_readable {g : Geometry} {s} (h : (Unified.machine g).Reachable s) {z}
    (hz : Live s z) : ∃ h0, Reads z s.dv h0 := by
  obtain ⟨tr, h⟩ := h
  obtain ⟨t, _, hr⟩ := refines_abstract h
  rcases hz with rfl | hz
  · exact ⟨_, hr.pers⟩
  · rcases hr.infl with ⟨h1, _⟩ | ⟨f, h0, h1, _, h2⟩
    · rw [hz] at h1; cases h1
    · rw [hz] at h1; cases h1; exact ⟨_, h2⟩

/-- A block written by a step is written where the disk had none, in a unit the running journal's
allocator holds. No step overwrites a block. -/
theorem written_fresh {g : Geometry} {s l s'} (h : (Unified.machine g).Reachable s)
    (hs : Unified.Next g s l s') {a r} (ha : s'.dv a = some r) :
    s.dv a = some r ∨
    (s.dv a = none ∧ a.wf g ∧ ∃ v, s.ephemeral = some v ∧ v.mini.allocs.Has a.au) := by
  have hi := Unified.reachable_inv h
  cases hs with
  | load => exact .inl (tightDv_some.mp ha).2
  | readForRecovery => exact .inl ha
  | queryEndLsn => exact .inl ha
  | put => exact .inl ha
  | @internal v v' dv' al de he hn =>
    rcases C37.write_fresh_of_inv (hi.known v he) hn ha with h1 | ⟨h1, h2, h3, _⟩
    · exact .inl h1
    · exact .inr ⟨h1, h2, v, he, h3⟩
  | queryLsnPersistence => exact .inl ha
  | commitStart => exact .inl ha
  | @commitComplete v v' f dv' e d he hf hn =>
    rcases C37.write_fresh_of_inv (hi.known v he) hn ha with h1 | ⟨h1, h2, h3, _⟩
    · exact .inl h1
    · exact .inr ⟨h1, h2, v, he, h3⟩
  | crash => exact .inl ha

/-- The units a labelled step hands back. -/
def Gives : CrashJ.Label → Nat → Prop
  | .commitComplete _ d, au => d au
  | .internal _ d, au => d au
  | _, _ => False

/-- The units a labelled step receives. -/
def Takes : CrashJ.Label → Nat → Prop
  | .internal a _, au => a au
  | _, _ => False

/-- A unit handed back holds no block of the journal the superblock points to after the step, nor
of one being committed: neither before the step nor after; indeed the disk has no block in it. -/
theorem given_back_unused {g : Geometry} {s l s'} (h : (Unified.machine g).Reachable s)
    (hs : Unified.Next g s l s') {au} (hg : Gives l au) :
    (∀ a, s'.dv.Has a → a.au ≠ au) ∧
    (∀ z a, Live s z → Live s' z → Visits z s.dv a → a.au ≠ au) ∧
    ∃ v', s'.ephemeral = some v' ∧ ¬ (v'.aj s'.dv).Accessible au := by
  have hi := Unified.reachable_inv h
  have key : (∀ a, s'.dv.Has a → a.au ≠ au) ∧
      ∃ v', s'.ephemeral = some v' ∧ ¬ (v'.aj s'.dv).Accessible au := by
    cases hs with
    | @internal v v' dv' al de he hn =>
      obtain ⟨_, h1, h2⟩ := C37.given_back_of_inv (hi.known v he) hn (au := au) hg
      exact ⟨fun a ha hau => h1 ⟨a, hau, ha⟩, v', rfl, h2⟩
    | @commitComplete v v' f dv' e d he hf hn =>
      obtain ⟨_, h1, h2⟩ := C37.given_back_of_inv (hi.known v he) hn (au := au) hg
      exact ⟨fun a ha hau => h1 ⟨a, hau, ha⟩, v', rfl, h2⟩
    | _ => exact hg.elim
  refine ⟨key.1, ?_, key.2⟩
  intro z a hz hz' ha
  obtain ⟨r, hr⟩ := Linked.Reach.has ha
  exact key.1 a (AllocJ.PMap.has_some (images_untouched h hs hz hz' ha hr))

/-- A unit received holds no block of the disk, hence none of the running journal, of the journal
the superblock points to or of one being committed, and the allocator does not hold it. The source
states this as a guard of the journal with separate disks (`fresh_label`); on one disk it need not
be asked for. -/
theorem taken_fresh {g : Geometry} {s l s'} (h : (Unified.machine g).Reachable s)
    (hs : Unified.Next g s l s') {au} (ht : Takes l au) :
    (∀ a, s.dv.Has a → a.au ≠ au) ∧ ∃ v, s.ephemeral = some v ∧ ¬ v.mini.allocs.Has au := by
  have hi := Unified.reachable_inv h
  cases hs with
  | @internal v v' dv' al de he hn =>
    have hk := (internal_keeps (hi.known v he) hn).2 au ht
    refine ⟨?_, v, he, fun hc => hk (.inr hc)⟩
    intro a ha hau
    have := ((hi.known v he).shape.tight a ha).1
    rw [hau] at this
    exact hk (.inl this)
  | _ => exact ht.elim

/-- Loading brings back exactly what one reads from the superblock's record, with an empty tail, and
the record still reads the same. -/
theorem load_reads {g : Geometry} {s s'} (h : (Unified.machine g).Reachable s)
    (hs : Unified.Next g s .load s') {h0} (hr : Reads s.persistent s.dv h0) :
    ∃ v, s'.ephemeral = some v ∧ Runs v s'.dv h0 ∧ v.tail = .emptyAt h0.seqEnd ∧
      s'.persistent = s.persistent ∧ Reads s'.persistent s'.dv h0 := by
  have hsp : s'.persistent = s.persistent := by cases hs; rfl
  obtain ⟨tr, h'⟩ := h
  obtain ⟨t, _, hsim⟩ := sim_exec h'
  have hp := hsim.reads.pers
  have := reads_unique hr hp; subst this
  have hgood := hsim.2.1
  obtain ⟨t', hn, hsim', _⟩ := sim_step hsim hs
  have hk := reads_kept ⟨tr, h'⟩ hs (.inl rfl) (.inl hsp.symm) hp
  have ht : t'.ephemeral = some t.persistent := by
    generalize hl : CrashJ.Label.abs .load = l at hn
    cases hn with
    | loadEphemeral _ hj => obtain ⟨_, rfl⟩ := hj; rfl
    | _ => cases hl
  rcases hsim'.reads.eph with ⟨_, h2⟩ | ⟨v, h1, h2, h3, h4⟩
  · rw [ht] at h2; cases h2
  · rw [ht] at h3; cases h3
    refine ⟨v, h2, h4, ?_, hsp, by rw [hsp]; exact hk⟩
    cases hs with
    | @load v' he hval hv =>
      cases h2
      obtain ⟨_, _, hvt, _⟩ := hv
      rw [hvt]
      obtain ⟨c, hc, hsw⟩ := hr
      have h5 : s.persistent.seqEnd s.dv = t.persistent.seqEnd := by
        rw [hsw.2.1]
        have := hc.seqEnd
        show DiskView.seqEnd ⟨s.persistent.boundary, s.dv⟩ s.persistent.root = _
        rw [this]; cases c <;> rfl
      rw [h5]

/-- A crash at any moment followed by loading brings back exactly the journal the superblock points
to, or the one being committed if its superblock write got through. -/
theorem crash_recovers {g : Geometry} {s s1 s2 keep} (h : (Unified.machine g).Reachable s)
    (hc : Unified.Next g s (.crash keep) s1) (hl : Unified.Next g s1 .load s2) {z h0}
    (hz : z = if keep then s.inflight.getD s.persistent else s.persistent)
    (hr : Reads z s.dv h0) :
    ∃ v, s2.ephemeral = some v ∧ Runs v s2.dv h0 ∧ v.tail = .emptyAt h0.seqEnd := by
  obtain ⟨tr, h'⟩ := h
  have h1 : (Unified.machine g).Reachable s1 := ⟨_, h'.snoc hc⟩
  have hp : s1.persistent = z ∧ s1.dv = s.dv := by cases hc; exact ⟨hz.symm, rfl⟩
  obtain ⟨v, h2, h3, h4, _⟩ := load_reads h1 hl (h0 := h0) (by rw [hp.1, hp.2]; exact hr)
  exact ⟨v, h2, h3, h4⟩

/-- Whatever happens after a state, crashes included, what the superblock covered is never lost or
changed: the persistent history later is the earlier one truncated at the front and extended at the
end. -/
theorem persisted_never_lost {g : Geometry} {s tr s'} (h : (Unified.machine g).Reachable s)
    (hr : (Unified.machine g).Run s tr s') {h0 h1} (hp : Reads s.persistent s.dv h0)
    (hp' : Reads s'.persistent s'.dv h1) : CTJournal.Later h0 h1 := by
  obtain ⟨tr0, h⟩ := h
  obtain ⟨t, _, hsim⟩ := sim_exec h
  have := reads_unique hp hsim.reads.pers; subst this
  have : ∃ t', Sim g s' t' ∧ CTJournal.Later t.persistent t'.persistent := by
    refine Machine.Run.invariant (M := Unified.machine g)
      (I := fun s' => ∃ t', Sim g s' t' ∧ CTJournal.Later t.persistent t'.persistent) ?_ hr
      ⟨t, hsim, .refl _⟩
    rintro s1 l s2 ⟨t1, h2, h3⟩ hs
    obtain ⟨t2, _, h4, h5⟩ := sim_step h2 hs
    exact ⟨t2, h4, h3.trans h5⟩
  obtain ⟨t', h2, h3⟩ := this
  rw [reads_unique hp' h2.reads.pers]; exact h3

/-- An LSN once reported persistent stays covered by the superblock. -/
theorem reported_stays {g : Geometry} {s l s1 tr s'} (h : (Unified.machine g).Reachable s)
    (hq : Unified.Next g s (.queryLsnPersistence l) s1) (hr : (Unified.machine g).Run s1 tr s')
    {h1} (hp' : Reads s'.persistent s'.dv h1) : l ≤ h1.seqEnd := by
  obtain ⟨h0, hp⟩ := live_readable h (.inl rfl)
  cases hq with
  | queryLsnPersistence hle =>
    have hl := persisted_never_lost h hr hp hp'
    obtain ⟨c, hc, hsw⟩ := hp
    have h5 : s.persistent.seqEnd s.dv = h0.seqEnd := by
      rw [hsw.2.1]
      have := hc.seqEnd
      show DiskView.seqEnd ⟨s.persistent.boundary, s.dv⟩ s.persistent.root = _
      rw [this]; cases c <;> rfl
    have := hl.2.1
    omega

/-! ### Nothing blocks -/

/-- After a crash the journal can always be loaded. -/
theorem load_possible {g : Geometry} {s} (h : (Unified.machine g).Reachable s)
    (he : s.ephemeral = none) : ∃ s', Unified.Next g s .load s' := by
  obtain ⟨T, ix, first, ho⟩ := (Unified.reachable_inv h).owner
  have hv := ho.pers.validOn ho.shape
  have hw := ho.pers.walk ho.shape
  rw [ho.disk] at hv hw
  exact ⟨_, .load (v := ⟨s.persistent, .emptyAt (s.persistent.seqEnd s.dv), _, .empty⟩) he hv
    ⟨hv, rfl, rfl, hw, rfl⟩⟩

/-- With the journal running and no commit going on, everything written can be committed, from any
LSN it still holds. -/
theorem commit_possible {g : Geometry} {s v} (h : (Unified.machine g).Reachable s)
    (he : s.ephemeral = some v) (hno : s.inflight = none) {b}
    (h1 : v.image.boundary ≤ b) (h2 : b ≤ v.image.seqEnd s.dv) :
    ∃ z s', Unified.Next g s (.commitStart b b) s' ∧ s'.inflight = some z ∧ z.boundary = b ∧
      z.seqEnd s'.dv = v.image.seqEnd s.dv := by
  obtain ⟨T, ix, first, ho⟩ := (Unified.reachable_inv h).owner
  obtain ⟨hT, hix, hfi⟩ := ho.eph v he
  have hle := ho.pers.end_le ho.shape
  rw [ho.disk] at hle
  have hsh := ho.shape
  rw [hT, hix, hfi] at hsh
  let z : Super := ⟨if ((v.image.tj s.dv).crop 0).seqEnd = b then none
    else ((v.image.tj s.dv).crop 0).root, b, (v.ix b).getD 0⟩
  have hcd : ((v.image.tj s.dv).crop 0).CanDiscardTo z.boundary := ⟨h1, h2⟩
  have hze : ((v.image.tj s.dv).crop 0).seqEnd = z.seqEnd s.dv :=
    (frozen_image hsh hcd rfl).1
  have hze' : z.seqEnd s.dv = v.image.seqEnd s.dv := hze.symm
  refine ⟨z, _, .commitStart (z := z) (n := 0) he hno ?_ (Nat.le_refl _) trivial hcd ?_ rfl, rfl,
    rfl, hze'⟩
  · rw [hze']
    rw [hT] at hle
    exact hle
  · intro _ au hau
    have hau : v.ix b = some au := hau
    show (v.ix b).getD 0 = au
    rw [hau]; rfl

/-- A commit that was started can complete. -/
theorem commit_completes {g : Geometry} {s f} (h : (Unified.machine g).Reachable s)
    (hf : s.inflight = some f) : ∃ e d s', Unified.Next g s (.commitComplete e d) s' ∧
      s'.persistent = f := by
  have hi := Unified.reachable_inv h
  obtain ⟨T, ix, first, ho⟩ := hi.owner
  cases he : s.ephemeral with
  | none => rw [hi.unk he] at hf; cases hf
  | some v =>
    obtain ⟨hT, hix, hfi⟩ := ho.eph v he
    have hsub := ho.infl f hf
    rw [hT, hix] at hsub
    have hinv := hi.known v he
    obtain ⟨new, hn⟩ := can_discard hinv.shape (l := f.boundary) ⟨hsub.1, hsub.2.1⟩
    have hb : new.disk.boundary = f.boundary := hn.1.2.1
    let f1 := (v.ix f.boundary).getD 0
    have hst : AllocJ.Next g (v.aj s.dv) (.discardOld f.boundary _ _)
        ((⟨⟨new.root, new.disk.boundary, f1⟩, boundedDiscard v.tail f.boundary,
          Index.discardUpTo v.ix f.boundary, v.mini.prune (Discarded v.ix f.boundary)⟩ : Eph).aj
          new.disk.entries) :=
      .discardOld (s := v.aj s.dv) (f := f1) ⟨hsub.1, hsub.2.1⟩ (by
        intro _ _ au hau
        have hau : v.ix f.boundary = some au := hau
        show (v.ix f.boundary).getD 0 = au
        rw [hau]; rfl) hn
    exact ⟨_, _, _, .commitComplete he hf hst, rfl⟩

/-! ### A concrete run: write three records, commit from LSN 1, complete, crash, load -/

/-- A running journal as the part in memory and the part on disk. -/
def ofAj (j : AllocJ.State) : Eph :=
  ⟨⟨j.j.tj.root, j.j.tj.disk.boundary, j.first⟩, j.j.tail, j.ix, j.mini⟩

/-- the journal of `C37` after three writes, on the shared disk -/
noncomputable def su : Unified.State := ⟨some (ofAj C37.st5), none, .empty, C37.st5.j.tj.disk.entries⟩

theorem demo_reach : (Unified.machine C37.g0).Reachable su := by
  let un (j : AllocJ.State) : Unified.State := ⟨some (ofAj j), none, .empty, j.j.tj.disk.entries⟩
  have e0 : (Unified.machine C37.g0).Exec [] ⟨none, none, .empty, PMap.empty⟩ := ⟨_, rfl, .nil _⟩
  have hsh : Shape C37.g0 ⟨none, ⟨0, PMap.empty⟩⟩ PMap.empty 0 := empty_shape
  have hval : Super.empty.ValidOn C37.g0 PMap.empty := (sub_self hsh).validOn hsh
  have hld : Unified.Next C37.g0 ⟨none, none, .empty, PMap.empty⟩ .load (un C37.st0) := by
    have hd : Super.empty.tightDv C37.g0 PMap.empty PMap.empty = PMap.empty := by
      funext a
      cases hx : Super.empty.tightDv C37.g0 PMap.empty PMap.empty a with
      | none => rfl
      | some r => cases (tightDv_some.mp hx).2
    have := Unified.Next.load (g := C37.g0) (s := ⟨none, none, .empty, PMap.empty⟩)
      (v := ofAj C37.st0) rfl hval ⟨hval, rfl, rfl, .nil, rfl⟩
    have hix : (ofAj C37.st0).ix = PMap.empty := rfl
    rw [hix] at this
    dsimp only at this
    rw [hd] at this
    exact this
  have s1 : AllocJ.Next C37.g0 C37.st0 (.internal (fun au => au = 1 ∨ au = 2) PSet.empty) C37.st1 :=
    .fill (by intro au _ h; exact h rfl) (by rintro au _ ⟨k, hk⟩; cases hk)
  have hw1 : C37.st1.j.WF := (AllocJ.step_inv (AllocJ.init_inv C37.init0) s1).jinv.1
  have s2 : AllocJ.Next C37.g0 C37.st1 (.put C37.ms) C37.st2 := .put (.put hw1 C37.ms_wf rfl)
  have step : ∀ j j' al de, AllocJ.Next C37.g0 j (.internal al de) j' →
      Unified.Next C37.g0 (un j) (.internal al de) (un j') :=
    fun j j' al de hn => .internal (s := un j) (v := ofAj j) (v' := ofAj j') rfl hn
  have stepPut : Unified.Next C37.g0 (un C37.st1) (.put C37.ms) (un C37.st2) :=
    .put (s := un C37.st1) (v := ofAj C37.st1) (v' := ofAj C37.st2) rfl s2
  exact ⟨_, (((((e0.snoc hld).snoc (step _ _ _ _ s1)).snoc stepPut).snoc
    (step _ _ _ _ C37.write2)).snoc (step _ _ _ _ C37.write3)).snoc (step _ _ _ _ C37.write4)⟩

theorem su_end : (ofAj C37.st5).image.seqEnd su.dv = 3 := C37.demo_index.2.2.2.2.2

/-- From it a commit at LSN 2 starts, of one message; it can complete, and a crash that comes after
its superblock write can be recovered from. -/
example : ∃ s1 z, Unified.Next C37.g0 su (.commitStart 2 2) s1 ∧ s1.inflight = some z ∧
    z.boundary = 2 ∧ z.seqEnd s1.dv = 3 ∧
    (∃ e d s2, Unified.Next C37.g0 s1 (.commitComplete e d) s2 ∧ s2.persistent = z) ∧
    (∃ s2 s3, Unified.Next C37.g0 s1 (.crash true) s2 ∧ Unified.Next C37.g0 s2 .load s3) := by
  obtain ⟨z, s1, h1, h2, h3, h4⟩ := commit_possible demo_reach (v := ofAj C37.st5) rfl rfl (b := 2)
    (Nat.zero_le _) (by rw [su_end]; omega)
  rw [su_end] at h4
  obtain ⟨tr, hex⟩ := demo_reach
  have hr1 : (Unified.machine C37.g0).Reachable s1 := ⟨_, hex.snoc h1⟩
  obtain ⟨e, d, s2, h5, h6⟩ := commit_completes hr1 h2
  have hcr : Unified.Next C37.g0 s1 (.crash true) _ := .crash
  obtain ⟨s3, h7⟩ := load_possible (g := C37.g0) ⟨_, (hex.snoc h1).snoc hcr⟩ rfl
  exact ⟨s1, z, h1, h2, h3, h4, ⟨e, d, s2, h5, h6⟩, _, s3, hcr, h7⟩

/-- The running journal there visits three blocks, so the statements about visited blocks are not
about none. -/
example : Visits (ofAj C37.st5).image su.dv C37.a20 := by
  have : su.dv C37.a20 ≠ none := by
    simp [su, C37.st5, C37.write, Linked.TJ.appendRecord]
  cases hx : su.dv C37.a20 with
  | none => exact absurd hx this
  | some r => exact .here hx

end Verif.C43
