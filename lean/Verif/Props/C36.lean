import Verif.Journal.CachedSystem
import Verif.Journal.RecordCodec
import Verif.Disk.CacheDemo
import Verif.Props.C10
/-
C36. The cached journal, the page cache and the disk together offer the journal interface.

Specification: `Page s a d` (the page at an address as cache and disk hold it), `Held` (a message can
be found through the index), `Logged` and `Truncated` (from the trace alone), and the linked journal
of C10.

Findings. As written, the composition accepts no append of a message (`put_refused`), its truncation
names a different end than the journal it is meant to refine (`discard_label_mismatch`), and the
assumed round trip of records through pages cannot hold for all records (`roundtrip_impossible`).
The theorems named `_partial` are about the repaired composition (`Version.repaired`); what is
missing is the composition as written.
-/
namespace Verif.C36
open CachedSys
open Linked (JRec DiskView TJ)
open Linked.Index (append append_some discardUpTo)
open CacheSystem (Newer Mem)

/-! ### Specification -/

/-- The cache holds `d` for page `a` and `d` is not yet known to be on the disk. -/
def NewerIn (s : State) (a : Address) (d : RawPage) : Prop :=
  ∃ sl, s.c.entries sl = some (.filled a d) ∧
    (s.c.status sl = some .dirty ∨ s.c.status sl = some .writeback)

/-- The current page at `a`: the cache's if newer, else the disk's. -/
def Page (s : State) (a : Address) (d : RawPage) : Prop :=
  NewerIn s a d ∨ ((∀ e, ¬ NewerIn s a e) ∧ s.k.content a = some d)

/-- The journal holds message `km` at position `l`: the index leads to a page with it, or it is in
the unmarshalled tail. -/
def Held (cd : Codec) (s : State) (l : LSN) (km : KeyedMessage) : Prop :=
  (∃ a d, s.j.ix l = some a ∧ Page s a d ∧ (cd.dec d).msgs.msgs l = some km) ∨
    s.j.tail.msgs l = some km

/-- The messages in the pages the system was opened on, and those put since. -/
def Logged (cd : Codec) (f : CachedJ.Snapshot) (reads : PMap Address RawPage) (tr : List Label)
    (l : LSN) (km : KeyedMessage) : Prop :=
  (f.boundary ≤ l ∧ ∃ a d, reads a = some d ∧ (cd.dec d).msgs.msgs l = some km) ∨
  ∃ m, Label.put m ∈ tr ∧ m.Contains l ∧ m.msgs l = some km

def Truncated (tr : List Label) (l : LSN) : Prop := ∃ b e, Label.discardOld b e ∈ tr ∧ l < b

/-! ### The assumed round trip -/

/-- JournalCoordinationSystem_v.rs 35-39 `journal_unmarshall_marshall` is assumed for every record.
There are no two functions between records and pages with that property: there are more records
than pages. -/
theorem roundtrip_impossible :
    ¬ ∃ (enc : JRec → RawPage) (dec : RawPage → JRec), ∀ r, dec (enc r) = r := by
  classical
  rintro ⟨enc, dec, h⟩
  let P : Nat → Prop := fun n => ∃ d, pageNat d = n ∧ (dec d).msgs.msgs n = none
  let r : JRec := ⟨⟨fun n => if P n then some ⟨0, .define 0⟩ else none, 0, 0⟩, none⟩
  have hr : (dec (enc r)).msgs.msgs = fun n => if P n then some ⟨0, .define 0⟩ else none := by
    rw [h r]
  have hn := congrFun hr (pageNat (enc r))
  by_cases hp : P (pageNat (enc r))
  · rw [if_pos hp] at hn
    obtain ⟨d, hd, hnone⟩ := hp
    rw [pageNat_inj hd] at hnone
    rw [hnone] at hn; cases hn
  · rw [if_neg hp] at hn
    exact hp ⟨enc r, rfl, hn⟩

/-! ### As written -/

theorem put_inv {j j' : CachedJ.State} {m} (h : CachedJ.Next j (.put m) j') :
    m.WF ∧ m.seqStart = j.tail.seqEnd ∧ j' = { j with tail := j.tail.concat m } := by
  cases h with | put h1 h2 => exact ⟨h1, h2, rfl⟩

/-- As written, a put carries no message and changes nothing. -/
theorem put_only_empty {g cd s m s'} (h : CachedSys.Next g cd .asWritten s (.put m) s') :
    m.IsEmpty ∧ s' = s := by
  cases h with
  | put hj hv =>
    have hj' := hv rfl
    obtain ⟨_, h2, h3⟩ := put_inv hj
    refine ⟨?_, by rw [hj']⟩
    rw [hj'] at h3
    have : s.j.tail.seqEnd = m.seqEnd := by
      have := congrArg (fun j : CachedJ.State => j.tail.seqEnd) h3
      exact this
    unfold MsgHistory.IsEmpty
    omega

/-- So a put of any message is refused in every state. -/
theorem put_refused {g cd s m} (hm : ¬ m.IsEmpty) :
    ¬ ∃ s', CachedSys.Next g cd .asWritten s (.put m) s' :=
  fun ⟨_, h⟩ => hm (put_only_empty h).1

/-- As written, the journal never contains anything but what it was opened on. -/
theorem never_grows {g cd f reads tr s}
    (h : (CachedSys.machine g cd .asWritten f reads).Exec tr s) :
    s.j.tail = .emptyAt (CachedJ.endOf (reads.mapVal cd.dec) f.root f.boundary) := by
  refine Machine.exec_invariant (M := CachedSys.machine g cd .asWritten f reads)
    (I := fun _ s => s.j.tail = .emptyAt (CachedJ.endOf (reads.mapVal cd.dec) f.root f.boundary))
    ?_ ?_ h
  · intro s hs; rw [hs.journal.2]
  · intro tr s l s' hi hs
    cases hs with
    | put hj hv => rw [show _ = s.j from hv rfl]; exact hi
    | @discardOld _ _ j' _ hj _ => cases hj; exact hi
    | @marshal j' _ a r hj _ _ =>
      generalize PMap.empty.insert a r = w at hj
      cases hj with
      | marshal _ h1 h2 =>
        have := h2.2
        rw [hi] at h1 this
        simp only [MsgHistory.emptyAt] at h1 this
        omega
    | _ => exact hi

/-! ### Repaired -/

/-- Every execution of the repaired composition is, label by label, an execution of the linked
journal over the combined pages. -/
theorem refines_inv {g cd f reads tr s}
    (h : (CachedSys.machine g cd .repaired f reads).Exec tr s) :
    (∃ tr', (Linked.machine (image cd f reads)).Exec tr' (s.i cd) ∧ Forall2 SameLabel tr tr') ∧
      ∃ m, Inv cd s m := by
  refine Machine.exec_invariant (M := CachedSys.machine g cd .repaired f reads)
    (I := fun tr s => (∃ tr', (Linked.machine (image cd f reads)).Exec tr' (s.i cd) ∧
      Forall2 SameLabel tr tr') ∧ ∃ m, Inv cd s m) ?_ ?_ h
  · intro s hs
    obtain ⟨_, h2, h3⟩ := inv_init hs
    exact ⟨⟨[], ⟨_, h2, .nil _⟩, .nil⟩, h3⟩
  · rintro tr s l s' ⟨⟨tr', h1, h2⟩, m, hm⟩ hs
    obtain ⟨ll, m', a1, a2, a3, _⟩ := step hm hs
    exact ⟨⟨tr' ++ [ll], h1.snoc a2, h2.snoc a1⟩, m', a3⟩

/-- Refinement. `s.i cd` is the linked journal whose pages are those of the disk, overridden by the
newer ones of the cache, restricted to the index. -/
theorem refines_partial {g cd f reads tr s}
    (h : (CachedSys.machine g cd .repaired f reads).Exec tr s) :
    ∃ tr', (Linked.machine (image cd f reads)).Exec tr' (s.i cd) ∧ Forall2 SameLabel tr tr' :=
  (refines_inv h).1

theorem newerIn_iff {s : State} (hw : Cache.Wf s.c) {a d} :
    NewerIn s a d ↔ dirtyPage s.c a = some d := (dirtyPage_iff hw).symm

/-- The current page is the page of the memory that cache and disk implement. -/
theorem page_iff {cd s m} (h : Inv cd s m) {a d} : Page s a d ↔ m.mem a = some d := by
  unfold Page
  constructor
  · rintro (⟨sl, he, hn⟩ | ⟨hn, hd⟩)
    · exact (h.coh.filled sl a d he).2 hn
    · rw [← h.coh.disk a (fun sl e he hne => hn e ⟨sl, he, hne⟩)]; exact hd
  · intro hm
    by_cases hn : ∃ e, NewerIn s a e
    · obtain ⟨e, sl, he, hne⟩ := hn
      have := (h.coh.filled sl a e he).2 hne
      rw [hm] at this; cases this
      exact .inl ⟨sl, he, hne⟩
    · refine .inr ⟨fun e he => hn ⟨e, he⟩, ?_⟩
      rw [h.coh.disk a (fun sl e he hne => hn ⟨e, sl, he, hne⟩)]; exact hm

theorem ix_iff {cd s m} (h : Inv cd s m) {l a} :
    s.j.ix l = some a ↔ (s.tj cd).disk.Holds (s.tj cd).root l a := by
  rw [h.like.2.iff h.dec.1.1]
  constructor
  · rintro ⟨x, hx, rfl⟩; exact hx
  · intro hx; exact ⟨a, hx, rfl⟩

theorem entry_iff {cd s m} (h : Inv cd s m) {a r} :
    (s.tj cd).disk.entries a = some r ↔ s.j.ix.HasValue a ∧ ∃ d, Page s a d ∧ cd.dec d = r := by
  rw [h.entries, Cache.mapVal_some]
  constructor
  · rintro ⟨d, hd, hr⟩
    obtain ⟨h1, h2⟩ := PMap.restrict_some.mp hd
    exact ⟨h1, d, (page_iff h).mpr h2, hr⟩
  · rintro ⟨h1, d, hd, rfl⟩
    exact ⟨d, PMap.restrict_some.mpr ⟨h1, (page_iff h).mp hd⟩, rfl⟩

theorem held_iff {cd s m} (h : Inv cd s m) (l : LSN) (km : KeyedMessage) :
    Held cd s l km ↔ ((s.i cd).tj.disk.boundary ≤ l ∧
      ((∃ a r, (s.i cd).tj.disk.Reach (s.i cd).tj.root a ∧ (s.i cd).tj.disk.entries a = some r ∧
        r.msgs.msgs l = some km) ∨ (s.i cd).tail.msgs l = some km)) := by
  have hst : (s.i cd).WF := h.like.1.1
  show _ ↔ ((s.tj cd).disk.boundary ≤ l ∧
      ((∃ a r, (s.tj cd).disk.Reach (s.tj cd).root a ∧ (s.tj cd).disk.entries a = some r ∧
        r.msgs.msgs l = some km) ∨ s.j.tail.msgs l = some km))
  constructor
  · rintro (⟨a, d, h1, h2, h3⟩ | ht)
    · have hh := (ix_iff h).mp h1
      exact ⟨hh.2.1, .inl ⟨a, _, hh.1, (entry_iff h).mpr ⟨⟨l, h1⟩, d, h2, rfl⟩, h3⟩⟩
    · refine ⟨?_, .inr ht⟩
      have h1 : s.j.tail.seqStart ≤ l := ((hst.2.1.2 l).mp (by
        rw [PMap.has_iff]; exact ⟨km, ht⟩)).1
      have h2 := hst.2.2.1
      have h3 := h.seqEnd
      have h4 : (s.tj cd).disk.boundary ≤ (s.tj cd).seqEnd := h2
      omega
  · rintro ⟨hb, ⟨a, r, h1, h2, h3⟩ | ht⟩
    · obtain ⟨_, d, hd, rfl⟩ := (entry_iff h).mp h2
      have hc : (cd.dec d).msgs.Contains l := ((h.dec.1.1.1 a _ h2).1.2 l).mp (by
        rw [PMap.has_iff]; exact ⟨km, h3⟩)
      exact .inl ⟨a, d, (ix_iff h).mpr ⟨h1, hb, _, h2, hc⟩, hd, h3⟩
    · exact .inr ht

theorem init_of {g cd v f reads tr s} (h : (CachedSys.machine g cd v f reads).Exec tr s) :
    ∃ s0, Init cd f reads s0 := by
  obtain ⟨s0, h0, _⟩ := h; exact ⟨s0, h0⟩

theorem logged_iff {g cd f reads tr s tr'}
    (h : (CachedSys.machine g cd .repaired f reads).Exec tr s) (hf : Forall2 SameLabel tr tr')
    (l : LSN) (km : KeyedMessage) :
    C10.Logged (image cd f reads) tr' l km ↔ Logged cd f reads tr l km := by
  obtain ⟨s0, h0⟩ := init_of h
  obtain ⟨i1, _, m0, i3⟩ := inv_init h0
  unfold C10.Logged Logged
  refine or_congr (and_congr_right fun _ => ?_) ?_
  · constructor
    · rintro ⟨a, r, _, h2, h3⟩
      obtain ⟨d, hd, rfl⟩ := Cache.mapVal_some.mp (show reads.mapVal cd.dec a = some r from h2)
      exact ⟨a, d, hd, h3⟩
    · rintro ⟨a, d, hd, h3⟩
      refine ⟨a, cd.dec d, ?_, Cache.mapVal_some.mpr ⟨d, hd, rfl⟩, h3⟩
      have hv := (h0.exact a).mp ((PMap.has_iff _ _).mpr ⟨d, hd⟩)
      rw [← i1]
      exact (CachedJ.builds_values i3.dec.1.1 i3.like.2 i3.dec.1.2.2 a).mp hv
  · constructor
    · rintro ⟨m, hm, hc⟩
      obtain ⟨x, hx, hr⟩ := hf.mem_right hm
      cases hr with
      | put => exact ⟨m, hx, hc⟩
    · rintro ⟨m, hm, hc⟩
      obtain ⟨x, hx, hr⟩ := hf.mem_left hm
      cases hr with
      | put => exact ⟨m, hx, hc⟩

theorem truncated_iff {tr tr'} (hf : Forall2 SameLabel tr tr') (l : LSN) :
    C10.Truncated tr' l ↔ Truncated tr l := by
  unfold C10.Truncated Truncated
  constructor
  · rintro ⟨a, e, hm, hl⟩
    obtain ⟨x, hx, hr⟩ := hf.mem_right hm
    cases hr with
    | discard => exact ⟨a, _, hx, hl⟩
  · rintro ⟨a, e, hm, hl⟩
    obtain ⟨x, hx, hr⟩ := hf.mem_left hm
    cases hr with
    | discard => exact ⟨a, _, hx, hl⟩

/-- What can be found through the index, in cache and disk, and in the tail, is exactly what was put
(or was there at the start) and not truncated. -/
theorem contents_exact_partial {g cd f reads tr s}
    (h : (CachedSys.machine g cd .repaired f reads).Exec tr s) (l : LSN) (km : KeyedMessage) :
    Held cd s l km ↔ Logged cd f reads tr l km ∧ ¬ Truncated tr l := by
  obtain ⟨⟨tr', h1, h2⟩, m, hm⟩ := refines_inv h
  rw [held_iff hm, C10.journal_exact h1, logged_iff h h2, truncated_iff h2]

/-- A recovery read through the cache returns, at every position of its range, a message put and not
truncated. -/
theorem recovery_reads_partial {g cd f reads tr s m s'}
    (h : (CachedSys.machine g cd .repaired f reads).Exec tr s)
    (hr : CachedSys.Next g cd .repaired s (.readForRecovery m) s') :
    s' = s ∧ ∀ l, m.Contains l →
      ∃ km, m.msgs l = some km ∧ Logged cd f reads tr l km ∧ ¬ Truncated tr l := by
  obtain ⟨⟨tr', h1, h2⟩, mm, hm⟩ := refines_inv h
  obtain ⟨ll, _, hl, hn, _, _⟩ := step hm hr
  cases hl with
  | read =>
    have := (C10.read_exact h1 hn).2
    refine ⟨?_, fun l hl => ?_⟩
    · cases hr with | readForRecovery _ _ _ => rfl
    · obtain ⟨km, k1, k2, k3⟩ := this l hl
      exact ⟨km, k1, (logged_iff h h2 l km).mp k2, fun hc => k3 ((truncated_iff h2 l).mpr hc)⟩

/-- The predecessor that the walk over the index finds is the one stored in the page. -/
theorem index_walk_partial {g cd f reads tr s}
    (h : (CachedSys.machine g cd .repaired f reads).Exec tr s) {l a d}
    (ha : s.j.ix l = some a) (hd : Page s a d) :
    s.j.nextIndex (some a) =
      if s.j.boundary < (cd.dec d).msgs.seqStart then (cd.dec d).prior else none := by
  obtain ⟨_, m, hm⟩ := refines_inv h
  have hh := (ix_iff hm).mp ha
  rw [CachedJ.nextIndex_eq hm.describes hm.dec.1 hh.1]
  have := (entry_iff hm).mpr ⟨⟨l, ha⟩, d, hd, rfl⟩
  simp only [DiskView.next, this]
  rfl

theorem reach_crop {d : DiskView} {p a} (h : d.Reach p a) :
    ∃ n, d.CanCrop p n ∧ d.pointerAfterCrop p n = some a := by
  induction h with
  | @here a r _ => exact ⟨0, trivial, rfl⟩
  | @there x r a he _ ih =>
    obtain ⟨n, h1, h2⟩ := ih
    have : d.next (some x) = r.croppedPrior d.boundary := by simp only [DiskView.next, he]
    refine ⟨n + 1, ⟨by simp, ?_⟩, ?_⟩
    · rw [this]; exact h1
    · show d.pointerAfterCrop (d.next (some x)) n = _
      rw [this]; exact h2

theorem access_none (c : Cache.State) : Cache.access c PMap.empty = c := by
  have h : ∀ sl, ¬ Cache.WriteSlot c PMap.empty sl := by
    rintro sl ⟨a, ha, _⟩; exact ha rfl
  have e1 : (Cache.access c PMap.empty).entries = c.entries := by
    funext k
    unfold Cache.access PMap.unionRight
    dsimp only
    rw [if_neg (h k)]
  have e2 : (Cache.access c PMap.empty).status = c.status := by
    funext k
    unfold Cache.access PMap.unionRight
    dsimp only
    rw [PMap.const_none.mpr (h k)]
  cases c
  unfold Cache.access at e1 e2 ⊢
  simp only [Cache.State.mk.injEq] at e1 e2 ⊢
  exact ⟨e1, e2, trivial, trivial⟩

theorem access_reads {c : Cache.State} {rd : PMap Address RawPage}
    (h : ∀ a d, rd a = some d → Cache.ValidRead c a d) :
    Cache.Next c (.access rd PMap.empty) c := by
  have := Cache.Next.access (c := c) (reads := rd) (writes := PMap.empty) h (fun _ hc => absurd rfl hc)
  rwa [access_none] at this

/-- Recovery can proceed: every position in the index whose page is in the cache can be read. -/
theorem can_read_partial {g cd f reads tr s}
    (h : (CachedSys.machine g cd .repaired f reads).Exec tr s) {l a sl d}
    (ha : s.j.ix l = some a) (hc : s.c.entries sl = some (.filled a d)) :
    ∃ m, CachedSys.Next g cd .repaired s (.readForRecovery m) s ∧ m.Contains l := by
  obtain ⟨_, mm, hm⟩ := refines_inv h
  have hh := (ix_iff hm).mp ha
  have hl := (hm.coh.wf.look a sl).mpr ⟨_, hc, rfl⟩
  have hrd : ∀ x e, (PMap.empty.insert a d : PMap Address RawPage) x = some e →
      Cache.ValidRead s.c x e := by
    intro x e hx
    by_cases hxa : x = a
    · subst hxa
      rw [PMap.insert_same] at hx; cases hx
      exact ⟨sl, x, hl, hc⟩
    · rw [PMap.insert_other _ _ hxa] at hx; cases hx
  have hra : (PMap.empty.insert a d : PMap Address RawPage).mapVal cd.dec a = some (cd.dec d) :=
    Cache.mapVal_some.mpr ⟨d, PMap.insert_same _ _ _, rfl⟩
  obtain ⟨n, hn1, hn2⟩ := reach_crop hh.1
  have hcf := CachedJ.crop_facts hm.describes hm.dec.1 n
  refine ⟨_, .readForRecovery _ (access_reads hrd)
    (.readForRecovery (hcf.1.mpr hn1) (hcf.2.trans hn2) hra rfl), ?_⟩
  obtain ⟨r, hr, hct⟩ := hh.2.2
  have := hm.read hrd hra ⟨l, ha⟩
  rw [hr] at this; cases this
  have hb : s.j.boundary ≤ l := hh.2.1
  by_cases hs : (cd.dec d).msgs.seqStart ≤ s.j.boundary
  · simp only [MsgHistory.maybeDiscardOld, if_pos hs, MsgHistory.Contains, MsgHistory.discardOld]
    exact ⟨hb, hct.2⟩
  · simp only [MsgHistory.maybeDiscardOld, if_neg hs]
    exact hct

/-- Any contiguous batch can be appended. -/
theorem can_put {g cd s m} (hw : m.WF) (hs : m.seqStart = s.j.tail.seqEnd) :
    ∃ s', CachedSys.Next g cd .repaired s (.put m) s' ∧ s'.j.tail = s.j.tail.concat m :=
  ⟨_, .put (.put hw hs) (fun h => by cases h), rfl⟩

/-! ### Freezing -/

/-- Following pointers from the snapshot's root in the disk's pages `p` reads as `q`. -/
def DiskReads (cd : Codec) (f : CachedJ.Snapshot) (p : PMap Address RawPage) (q : Paged.TJ) : Prop :=
  C10.ReadsAs ⟨f.root, ⟨f.boundary, p.mapVal cd.dec⟩⟩ q

theorem freeze_inv {g cd v s f s'} (h : CachedSys.Next g cd v s (.freezeForCommit f) s') :
    s' = s ∧ ∃ dom reads, Cache.Next s.c (.access reads PMap.empty) s.c ∧
      Cache.Next s.c (.evictable dom) s.c ∧
      CachedJ.Next s.j (.freezeForCommit f dom (reads.mapVal cd.dec)) s.j := by
  cases h with | freezeForCommit dom reads h1 h2 h3 => exact ⟨rfl, dom, reads, h1, h2, h3⟩

theorem freeze_dec {s z s'} (h : Linked.Next s (.freezeForCommit z) s') : z.Decodable := by
  cases h with | freezeForCommit _ h _ _ _ _ _ => exact h

theorem frozen_sub {cd f dom} {p p' : PMap Address RawPage} (h : ∀ a, dom a → p' a = p a) :
    (frozenImage cd f dom p).disk.IsSubDisk ⟨f.boundary, p'.mapVal cd.dec⟩ := by
  refine ⟨rfl, fun a r hr => ?_⟩
  obtain ⟨d, hd, rfl⟩ := Cache.mapVal_some.mp (show (p.restrict dom).mapVal cd.dec a = _ from hr)
  obtain ⟨h1, h2⟩ := PMap.restrict_some.mp hd
  exact Cache.mapVal_some.mpr ⟨d, by rw [h a h1]; exact h2, rfl⟩

/-- A snapshot frozen for commit can be read from the disk alone: it holds, at every position from
its boundary to its end, a message, and each was put and not truncated. -/
theorem frozen_on_disk_partial {g cd f reads tr s z s'}
    (h : (CachedSys.machine g cd .repaired f reads).Exec tr s)
    (hz : CachedSys.Next g cd .repaired s (.freezeForCommit z) s') :
    ∃ q, DiskReads cd z s.k.content q ∧ s.j.boundary ≤ z.boundary ∧
      (∀ l, z.boundary ≤ l → l < q.seqEnd → ∃ m ∈ q.chain, ∃ km, m.msgs l = some km) ∧
      ∀ l km, z.boundary ≤ l → (∃ m ∈ q.chain, m.msgs l = some km) →
        Logged cd f reads tr l km ∧ ¬ Truncated tr l := by
  obtain ⟨_, m, hm⟩ := refines_inv h
  obtain ⟨_, dom, rd, h1, h2, h3⟩ := freeze_inv hz
  obtain ⟨f1, f2, f3⟩ := freeze_facts hm (access_inv h1).1 (evictable_inv h2) h3
  have hd := freeze_dec f1
  obtain ⟨q, hq, _⟩ := C10.decodable_readable hd
  have hb : s.j.boundary ≤ z.boundary := by
    cases h3 with | freezeForCommit hb _ _ _ _ _ _ => exact hb
  refine ⟨q, ⟨hq.1, hq.2.mono (frozen_sub (fun _ _ => rfl))⟩, hb, ?_, ?_⟩
  · intro l hl1 hl2
    obtain ⟨ix, hix⟩ := Linked.builds_exists (f := id) hd.1.1 hd.2 hd.1.2.1
    have hend : (frozenImage cd z dom s.k.content).disk.seqEnd
        (frozenImage cd z dom s.k.content).root = q.seqEnd := by
      rw [hq.2.seqEnd, ← hq.1]; rfl
    have := (hix.domain hd.1.1 hd.1.2.2 l).mpr ⟨hl1, by rw [hend]; exact hl2⟩
    obtain ⟨a, ha⟩ := Option.ne_none_iff_exists'.mp this
    obtain ⟨x, ⟨hx1, _, r, hx2, hx3⟩, _⟩ := (hix.iff hd.1.1 l a).mp ha
    obtain ⟨km, hkm⟩ := MsgHistory.wf_msgs_some (hd.1.1.1 x r hx2).1 hx3
    exact ⟨r.msgs, (C10.walk_mem_iff hq.2 _).mpr ⟨x, r, hx1, hx2, rfl⟩, km, hkm⟩
  · rintro l km hl ⟨mm, hmm, hkm⟩
    obtain ⟨a, r, _, hr, rfl⟩ := (C10.walk_mem_iff hq.2 _).mp hmm
    refine (contents_exact_partial h l km).mp ((held_iff hm l km).mpr ?_)
    obtain ⟨d, hd', rfl⟩ := Cache.mapVal_some.mp
      (show (s.k.content.restrict dom).mapVal cd.dec a = _ from hr)
    obtain ⟨e1, e2⟩ := PMap.restrict_some.mp hd'
    obtain ⟨k, _, hk⟩ := f2 a e1
    have hpg : Page s a d := (page_iff hm).mpr (by rw [← (f3 a e1).1]; exact e2)
    exact ⟨Nat.le_trans hb hl, .inl ⟨a, _, ((ix_iff hm).mp hk).1,
      (entry_iff hm).mpr ⟨⟨k, hk⟩, d, hpg, rfl⟩, hkm⟩⟩

/-- What freezing promises stays true: as long as the journal is not truncated past the snapshot's
boundary, the disk continues to hold it, whatever is put, marshalled, written back or evicted. -/
theorem frozen_stays_partial {g cd f reads tr s z s' tr2 s2 q}
    (h : (CachedSys.machine g cd .repaired f reads).Exec tr s)
    (hz : CachedSys.Next g cd .repaired s (.freezeForCommit z) s')
    (hq : DiskReads cd z s.k.content q)
    (h2 : (CachedSys.machine g cd .repaired f reads).Run s tr2 s2)
    (hno : ∀ b e, Label.discardOld b e ∈ tr2 → b ≤ z.boundary) :
    DiskReads cd z s2.k.content q := by
  obtain ⟨-, m, hm⟩ := refines_inv h
  obtain ⟨-, dom, rd, h1, he, h3⟩ := freeze_inv hz
  obtain ⟨f1, f2, f3⟩ := freeze_facts hm (access_inv h1).1 (evictable_inv he) h3
  have hd := freeze_dec f1
  obtain ⟨q', hq', _⟩ := C10.decodable_readable hd
  have hqq : q = q' :=
    C10.readsAs_unique hq ⟨hq'.1, hq'.2.mono (frozen_sub (fun _ _ => rfl))⟩
  subst hqq
  suffices hs : ∃ m2, Inv cd s2 m2 ∧ ∀ a, dom a → m2.mem a = m.mem a ∧ Settled s2.c a ∧
      ∃ l, z.boundary ≤ l ∧ s2.j.ix l = some a by
    obtain ⟨m2, i2, hs⟩ := hs
    refine ⟨hq'.1, hq'.2.mono (frozen_sub (fun a ha => ?_))⟩
    obtain ⟨e1, e2, _⟩ := hs a ha
    rw [i2.coh.disk a e2, e1, (f3 a ha).1]
  clear hq hq' h1 he h3 f1 hd hz h
  have base : ∀ a, dom a → m.mem a = m.mem a ∧ Settled s.c a ∧
      ∃ l, z.boundary ≤ l ∧ s.j.ix l = some a := fun a ha => ⟨rfl, (f3 a ha).2, f2 a ha⟩
  clear f2 f3
  generalize hmm : m = m0 at base
  have base' : ∀ a, dom a → m.mem a = m0.mem a ∧ Settled s.c a ∧
      ∃ l, z.boundary ≤ l ∧ s.j.ix l = some a := fun a ha => by
    obtain ⟨e1, e2, e3⟩ := base a ha; exact ⟨by rw [hmm], e2, e3⟩
  clear base hmm
  induction h2 generalizing m with
  | nil => exact ⟨m, hm, base'⟩
  | @cons s l s1 ls s2 hst hrun ih =>
    obtain ⟨ll, m1, _, _, i1, k1⟩ := step hm hst
    refine ih (fun b e hb => hno b e (List.mem_cons_of_mem _ hb)) m1 i1 (fun a ha => ?_)
    obtain ⟨e1, e2, p, e3, e4⟩ := base' a ha
    refine ⟨(k1.mem a ⟨p, e4⟩).trans e1, k1.settled a ⟨p, e4⟩ e2, p, e3, ?_⟩
    rcases k1.ix p a e4 with hk | ⟨b, e, rfl, hlt⟩
    · exact hk
    · have := hno b e (by simp)
      omega

/-! ### A concrete run: three messages put, two of them marshalled to a page, read back from the
cache, written back, frozen, and truncated. -/

open CacheDemo (pg demoG Sum at1)

/-- internal steps of cache and disk are internal steps of the composition -/
inductive Lifts : CacheSystem.Label → Prop
  | cache : Lifts .cacheInternal
  | disk : Lifts .diskInternal
  | ops {rq rs} : CacheSystem.DistinctWrites rq → Lifts (.ops rq rs)

theorem lift {g cd v j c} {l} (hl : Lifts l) {c'} (h : CacheSystem.Next g c l c') :
    CachedSys.Next g cd v ⟨j, c.cache, c.disk⟩ .internal ⟨j, c'.cache, c'.disk⟩ := by
  cases hl with
  | cache => cases h with | cacheInternal h => exact .cacheInternal (s := ⟨j, _, _⟩) h
  | disk =>
    cases h with
    | diskRead h => exact .diskRead (s := ⟨j, _, _⟩) h
    | diskWrite h => exact .diskWrite (s := ⟨j, _, _⟩) h
  | ops hd => cases h with | ops h1 h2 => exact .ops (s := ⟨j, _, _⟩) _ _ h1 h2 (fun _ => hd)

/-- journal states of the run -/
def j0 : CachedJ.State := ⟨0, none, .emptyAt 0, PMap.empty⟩
def j1 : CachedJ.State := { j0 with tail := j0.tail.concat C09.m3 }
def rec2 : JRec := ⟨j1.tail.discardRecent 2, none⟩
def j2 : CachedJ.State :=
  ⟨0, some pg, j1.tail.discardOld 2, append PMap.empty (j1.tail.discardRecent 2) pg⟩

theorem m3_tail : j1.tail.WF := MsgHistory.wf_concat (MsgHistory.wf_emptyAt 0) C09.m3_wf rfl

theorem rec2_wf : rec2.WF := by
  refine ⟨MsgHistory.wf_discardRecent m3_tail ⟨by decide, by decide⟩, ?_⟩
  show ¬ (0 = 2)
  decide

/-- the page that is written -/
noncomputable def page2 : RawPage := demoCodec.enc rec2

theorem page2_dec : demoCodec.dec page2 = rec2 := demoCodec.round rec2 rec2_wf

noncomputable abbrev M (v : Version) := CachedSys.machine demoG demoCodec v ⟨0, none⟩ PMap.empty

theorem demo_init (v : Version) : (M v).Exec [] ⟨j0, Cache.init 1, AsyncDisk.init⟩ := by
  have hc : ∀ sl a d, (Cache.init 1).entries sl ≠ some (.filled a d) := by
    intro sl a d h
    simp only [Cache.init] at h
    split at h <;> cases h
  have hd : ∀ a, dirtyPage (Cache.init 1) a = none := fun a => rfl
  refine ⟨_, ⟨?_, Cache.wf_init 1, ?_, ?_, ?_, ?_, ?_, ?_, ?_, ?_, ?_⟩, .nil _⟩
  · intro id h; exact absurd rfl h
  · intro _ _ _ h; cases h
  · exact access_reads (fun _ _ h => by cases h)
  · refine ⟨fun a h => (by cases h), ?_⟩
    show j0 = ⟨0, none, .emptyAt 0, CachedJ.buildFromReads _ 0 none 0⟩
    rw [CachedJ.buildFromReads]; rfl
  · refine ⟨fun id => ⟨fun h => absurd rfl h, fun h => h.elim (absurd rfl) (absurd rfl)⟩, ?_, ?_, ?_, ?_⟩
    · intro _ _ _ h; cases h
    · intro _ _ _ _ h; cases h
    · intro _ _ _ h; cases h
    · intro _ _ h; cases h
  · intro sl a d h; exact absurd h (hc sl a d)
  · intro a h; exact absurd (hd a) h
  · exact C10.mkfs_decodable
  · intro a h; exact absurd rfl h
  · intro a; exact ⟨fun h => absurd rfl h, fun ⟨_, h⟩ => by cases h⟩

theorem j2_ix {l a} (h : j2.ix l = some a) : a = pg ∧ l < 2 := by
  rcases append_some.mp h with ⟨h1, h2⟩ | ⟨_, h2⟩
  · exact ⟨h2.symm, h1.2⟩
  · cases h2

theorem j2_ix0 {l} (h : l < 2) : j2.ix l = some pg :=
  append_some.mpr (.inl ⟨⟨Nat.zero_le _, h⟩, rfl⟩)

/-- the reads of the page -/
theorem demo_reads {c : CacheSystem.State} {st o rq rs ct}
    (h : Sum c (.filled pg page2) st (some 0) o rq rs ct) :
    Cache.Next c.cache (.access (at1 page2) PMap.empty) c.cache := by
  refine access_reads (fun a d hd => ?_)
  obtain ⟨rfl, rfl⟩ := CacheDemo.at1_some.mp hd
  exact ⟨0, pg, h.l, h.e⟩

def readLabel : MsgHistory := rec2.msgs.maybeDiscardOld 0

def demoHead : List Label := [.put C09.m3, .internal, .internal, .readForRecovery readLabel]
def demoMid : List Label := demoHead ++ [.internal, .internal, .internal]
def snap : CachedJ.Snapshot := ⟨0, some pg⟩

theorem demo_marshalled (v : Version) (hv : v = .repaired) :
    ∃ c, (M v).Exec demoHead ⟨j2, c.cache, c.disk⟩ ∧
      Sum c (.filled pg page2) .dirty (some 0) PMap.empty PMap.empty PMap.empty none := by
  have e0 := demo_init v
  have s1 : CachedSys.Next demoG demoCodec v ⟨j0, Cache.init 1, AsyncDisk.init⟩ (.put C09.m3)
      ⟨j1, Cache.init 1, AsyncDisk.init⟩ :=
    .put (s := ⟨j0, Cache.init 1, AsyncDisk.init⟩) (.put C09.m3_wf rfl)
      (fun h => by rw [hv] at h; cases h)
  have e1 := e0.snoc s1
  obtain ⟨c2, n2, m2⟩ := CacheDemo.do_reserve (CacheDemo.sum_init PMap.empty)
  have e2 := e1.snoc (lift (cd := demoCodec) (v := v) (j := j1) .cache n2)
  obtain ⟨c3, n3, m3⟩ := CacheDemo.do_write page2 m2 (.inl rfl)
  have s3 : CachedSys.Next demoG demoCodec v ⟨j1, c2.cache, c2.disk⟩ .internal
      ⟨j2, c3.cache, c3.disk⟩ := by
    cases n3 with
    | @access _ _ c' hc =>
      have hw : (PMap.empty.insert pg rec2 : PMap Address JRec).mapVal demoCodec.enc = at1 page2 := by
        funext a
        unfold PMap.mapVal at1
        by_cases ha : a = pg
        · subst ha; simp [page2]
        · simp [PMap.insert, ha]
      refine .marshal (s := ⟨j1, c2.cache, c2.disk⟩) pg rec2 (j' := j2) (c' := c') ?_ ?_
        (fun _ => rec2_wf)
      · exact .marshal (s := j1) (cut := 2) (a := pg) (fun ⟨_, h⟩ => by cases h) (by decide)
          ⟨by decide, by decide⟩
      · rw [hw]; exact hc
  have e3 := e2.snoc s3
  have hra : (at1 page2).mapVal demoCodec.dec pg = some rec2 :=
    Cache.mapVal_some.mpr ⟨page2, CacheDemo.at1_some.mpr ⟨rfl, rfl⟩, page2_dec⟩
  have s4 : CachedSys.Next demoG demoCodec v ⟨j2, c3.cache, c3.disk⟩ (.readForRecovery readLabel)
      ⟨j2, c3.cache, c3.disk⟩ :=
    .readForRecovery (s := ⟨j2, c3.cache, c3.disk⟩) (at1 page2) (demo_reads m3)
      (.readForRecovery (n := 0) trivial rfl hra rfl)
  exact ⟨c3, e3.snoc s4, m3⟩

theorem demo_durable : ∃ c, (M .repaired).Exec demoMid ⟨j2, c.cache, c.disk⟩ ∧
    Sum c (.filled pg page2) .clean (some 0) (PMap.empty.remove 1) (PMap.empty.remove 1)
      (PMap.empty.remove 1) (some page2) := by
  obtain ⟨c0, e0, m0⟩ := demo_marshalled .repaired rfl
  obtain ⟨c1, n1, m1⟩ := CacheDemo.do_writeback [1] m0 (by simp) (by simp) (by simp) (by simp)
  have hd : CacheSystem.DistinctWrites (CacheDemo.batch page2 [1]) := by
    intro i j a d e hi hj
    have h1 := (CacheDemo.batch_some.mp hi).1
    have h2 := (CacheDemo.batch_some.mp hj).1
    simp at h1 h2; rw [h1, h2]
  have e1 := e0.snoc (lift (cd := demoCodec) (v := .repaired) (j := j2) (.ops hd) n1)
  obtain ⟨c2, n2, m2⟩ := CacheDemo.do_diskWrite (d := page2) 1 m1 (by simp)
  have e2 := e1.snoc (lift (cd := demoCodec) (v := .repaired) (j := j2) .disk n2)
  obtain ⟨c3, n3, m3⟩ := CacheDemo.do_written 1 m2 (by simp) (by simp)
  have e3 := e2.snoc (lift (cd := demoCodec) (v := .repaired) (j := j2)
    (.ops (fun _ _ _ _ _ h => by cases h)) n3)
  refine ⟨c3, e3, ?_⟩
  have a1 : (PMap.remove (fun i => if i ∈ [1] then some 0 else PMap.empty i) 1 :
      PMap AsyncDisk.ID Cache.Slot) = PMap.empty.remove 1 := by
    funext i; by_cases hi : i = 1 <;> simp [PMap.remove, hi]
  have a2 : (PMap.remove (fun i => if i ∈ [1] then some (.write pg page2) else PMap.empty i) 1 :
      PMap AsyncDisk.ID AsyncDisk.Req) = PMap.empty.remove 1 := by
    funext i; by_cases hi : i = 1 <;> simp [PMap.remove, hi]
  have a3 : (PMap.remove (PMap.insert PMap.empty 1 .write) 1 :
      PMap AsyncDisk.ID AsyncDisk.Resp) = PMap.empty.remove 1 := by
    funext i; by_cases hi : i = 1 <;> simp [PMap.remove, PMap.insert, hi]
  rw [a1, a2, a3] at m3
  exact m3

theorem demo_freeze : ∃ s, (M .repaired).Exec demoMid s ∧
    CachedSys.Next demoG demoCodec .repaired s (.freezeForCommit snap) s ∧
    ∃ s', CachedSys.Next demoG demoCodec .repaired s (.discardOld 2 2) s' ∧
      s'.j.root = none ∧ s'.j.tail.msgs 2 = C09.m3.msgs 2 ∧ s.j.tail.seqEnd = 3 := by
  obtain ⟨c, e, m⟩ := demo_durable
  have hra : (at1 page2).mapVal demoCodec.dec pg = some rec2 :=
    Cache.mapVal_some.mpr ⟨page2, CacheDemo.at1_some.mpr ⟨rfl, rfl⟩, page2_dec⟩
  have hend : CachedJ.endOf ((at1 page2).mapVal demoCodec.dec) (some pg) 0 = 2 := by
    simp only [CachedJ.endOf, hra]; rfl
  have hev : ∀ A : PSet Address, (∀ a, A a → a = pg) → Cache.Next c.cache (.evictable A) c.cache := by
    intro A hA
    refine .evictable (fun a sl ha hl => ?_)
    rw [hA a ha, m.l] at hl; cases hl
    exact ⟨⟨pg, page2, m.e⟩, m.st⟩
  refine ⟨_, e, ?_, ?_⟩
  · refine .freezeForCommit (s := ⟨j2, c.cache, c.disk⟩)
      (fun a => ∃ l, (0 ≤ l ∧ l < 2) ∧ j2.ix l = some a) (at1 page2) (demo_reads m)
      (hev _ (fun a ⟨l, _, hl⟩ => (j2_ix hl).1)) ?_
    refine .freezeForCommit (s := j2) (f := snap) (n := 0) (Nat.le_refl _) trivial rfl ?_ ?_ ?_ ?_
    · intro a ha; cases ha; exact (PMap.has_iff _ _).mpr ⟨_, hra⟩
    · show 0 ≤ _; omega
    · intro _; show 0 < CachedJ.endOf _ (some pg) 0; rw [hend]; decide
    · intro a
      show _ ↔ ∃ l, (0 ≤ l ∧ l < CachedJ.endOf _ (some pg) 0) ∧ _
      rw [hend]
  · exact ⟨_, .discardOld (s := ⟨j2, c.cache, c.disk⟩)
      (fun a => j2.ix.HasValue a ∧ ¬ (discardUpTo j2.ix 2).HasValue a)
      (.discardOld (s := j2) rfl (Nat.zero_le _) (Nat.le_refl _) (fun _ => Iff.rfl))
      (hev _ (fun a ⟨⟨l, hl⟩, _⟩ => (j2_ix hl).1)), rfl, rfl, rfl⟩

/-- The theorems apply to the run: the put is found, through the page for the first two positions,
in the tail for the third. -/
example : ∃ s, (M .repaired).Exec demoMid s ∧ Held demoCodec s 1 ⟨2, .define 20⟩ ∧
    Held demoCodec s 2 ⟨1, .define 11⟩ ∧ ∀ km, ¬ Held demoCodec s 3 km := by
  obtain ⟨s, e, _⟩ := demo_freeze
  have ht : ∀ l, ¬ Truncated demoMid l := by
    rintro l ⟨b, x, h, _⟩
    simp [demoMid, demoHead] at h
  have hp : Label.put C09.m3 ∈ demoMid := by simp [demoMid, demoHead]
  refine ⟨s, e, (contents_exact_partial e 1 _).mpr ⟨.inr ⟨C09.m3, hp, ⟨by decide, by decide⟩, rfl⟩, ht 1⟩,
    (contents_exact_partial e 2 _).mpr ⟨.inr ⟨C09.m3, hp, ⟨by decide, by decide⟩, rfl⟩, ht 2⟩, ?_⟩
  intro km h
  rcases ((contents_exact_partial e 3 km).mp h).1 with ⟨_, a, d, hd, _⟩ | ⟨m, hm, hc, _⟩
  · cases hd
  · simp [demoMid, demoHead] at hm
    subst hm
    have h1 : 3 < 3 := hc.2
    omega

/-- The recovery read of the run is non-empty. -/
example : readLabel.Contains 0 ∧ readLabel.Contains 1 := ⟨⟨by decide, by decide⟩, ⟨by decide, by decide⟩⟩

/-- After the freeze of the run the snapshot is on the disk and holds the first two messages. -/
example : ∃ s q, (M .repaired).Exec demoMid s ∧ DiskReads demoCodec snap s.k.content q ∧
    q.chain ≠ [] := by
  obtain ⟨s, e, h, _⟩ := demo_freeze
  obtain ⟨q, hq, _⟩ := frozen_on_disk_partial e h
  refine ⟨s, q, e, hq, fun hc => ?_⟩
  have := hq.2
  rw [hc] at this
  generalize hp : (TJ.root ⟨snap.root, ⟨snap.boundary, s.k.content.mapVal demoCodec.dec⟩⟩) = p at this
  cases this
  cases hp

/-- The end named by a truncation differs: in a reachable state with an unmarshalled message the
composition truncates with a label that the linked journal does not accept in the state it stands
for. CachedJournal_v.rs 176 compares `require_end` with the end of the marshalled part,
LinkedJournal_v.rs 704 with the end of the journal. -/
theorem discard_label_mismatch :
    ∃ tr s s', (M .repaired).Exec tr s ∧
      CachedSys.Next demoG demoCodec .repaired s (.discardOld 2 2) s' ∧
      ¬ ∃ t, Linked.Next (s.i demoCodec) (.discardOld 2 2) t := by
  obtain ⟨s, e, _, s', h, _, _, h3⟩ := demo_freeze
  refine ⟨_, s, s', e, h, ?_⟩
  rintro ⟨t, ht⟩
  generalize hx : s.i demoCodec = x at ht
  generalize hl : (Paged.Label.discardOld 2 2 : Paged.Label TJ) = l at ht
  cases ht with
  | discardOld _ _ _ =>
    injection hl with _ h5
    rw [← hx] at h5
    have : s.j.tail.seqEnd = 2 := h5.symm
    omega
  | _ => cases hl

/-- As written the same system starts, and the first step of the run is impossible. -/
example : ∃ s, (M .asWritten).Exec [] s ∧ s.j.tail = .emptyAt 0 :=
  ⟨_, demo_init .asWritten, never_grows (demo_init .asWritten)⟩

example : ¬ ∃ s', CachedSys.Next demoG demoCodec .asWritten ⟨j0, Cache.init 1, AsyncDisk.init⟩
    (.put C09.m3) s' := put_refused (by show ¬ (0 = 3); decide)

end Verif.C36
