import Verif.Journal.CachedProof
/-
Proof that cached journal, page cache and disk together (Journal/Cached.lean) are the linked
journal over the combined pages.
-/
namespace Verif.CachedSys
open AsyncDisk (ID Req Resp)
open CacheSystem (Coh Newer Mem DistinctWrites)
open Linked

theorem access_inv {c rd wr c'} (h : Cache.Next c (.access rd wr) c') :
    (∀ a d, rd a = some d → Cache.ValidRead c a d) ∧ (∀ a, wr.Has a → Cache.ValidWrite c a) ∧
      c' = Cache.access c wr := by
  cases h with | access h1 h2 => exact ⟨h1, h2, rfl⟩

theorem read_inv {j j' : CachedJ.State} {m reads}
    (h : CachedJ.Next j (.readForRecovery m reads) j') :
    ∃ n a r, j.CanCropIndex j.root n ∧ j.pointerAfterCropIndex j.root n = some a ∧
      reads a = some r ∧ m = r.msgs.maybeDiscardOld j.boundary := by
  cases h with | readForRecovery h1 h2 h3 h4 => exact ⟨_, _, _, h1, h2, h3, h4⟩

theorem evictable_inv {c A c'} (h : Cache.Next c (.evictable A) c') :
    ∀ a sl, A a → c.lookup a = some sl →
        (∃ b d, c.entries sl = some (.filled b d)) ∧ c.status sl = some .clean := by
  cases h with | evictable h => exact h

/-- A slot is newer than the disk only if it was, or was just written. -/
theorem newer_step {c l c'} (hw : Cache.Wf c) (hs : Cache.Next c l c') {sl a d}
    (he : c'.entries sl = some (.filled a d)) (hn : Newer c' sl) :
    (c.entries sl = some (.filled a d) ∧ Newer c sl) ∨
      ∃ rd wr, l = .access rd wr ∧ wr a = some d := by
  cases hs with
  | reserve m hm =>
    refine .inl ⟨?_, hn⟩
    rcases PMap.unionRight_some.mp he with h | ⟨_, h⟩
    · obtain ⟨b, _, hb⟩ := Cache.mapVal_some.mp h; cases hb
    · exact h
  | loadInitiate m _ hm _ _ _ =>
    refine .inl ⟨?_, hn⟩
    rcases PMap.unionRight_some.mp he with h | ⟨_, h⟩
    · obtain ⟨b, _, hb⟩ := Cache.mapVal_some.mp h; cases hb
    · exact h
  | @loadComplete rs _ hrs =>
    cases hi : (c.outstanding.restrict rs.Has).invert sl with
    | none =>
      obtain ⟨h1, h2⟩ := Cache.loadComplete_other hi
      unfold Newer at hn ⊢
      rw [h1] at he; rw [h2] at hn
      exact .inl ⟨he, hn⟩
    | some id =>
      obtain ⟨_, _, _, _, _, _, h⟩ := Cache.loadComplete_entry hrs hi
      unfold Newer at hn
      rw [h] at hn
      rcases hn with hn | hn <;> cases hn
  | @access rd wr hr hwr =>
    by_cases h : Cache.WriteSlot c wr sl
    · obtain ⟨b, hb, hl⟩ := h
      obtain ⟨x, hx⟩ := (PMap.has_iff _ _).mp hb
      obtain ⟨h1, _⟩ := Cache.access_entry hw hl hx
      rw [he] at h1; cases h1
      exact .inr ⟨rd, wr, rfl, hx⟩
    · obtain ⟨h1, h2⟩ := Cache.access_other h
      unfold Newer at hn ⊢
      rw [h1] at he; rw [h2] at hn
      exact .inl ⟨he, hn⟩
  | @writebackInitiate rq _ _ hrq =>
    refine .inl ⟨he, ?_⟩
    have hst := Cache.status_update c (Cache.writebackSlots c rq).HasValue .writeback sl
    by_cases h : (Cache.writebackSlots c rq).HasValue sl
    · obtain ⟨id, hid⟩ := h
      obtain ⟨_, _, _, _, _, hd⟩ := CacheSystem.writebackSlots_some hrq hid
      exact .inl hd
    · have := hst.2 h
      unfold Newer Cache.writebackInitiate at hn
      simp only [this] at hn
      exact hn
  | @writebackComplete rs _ hrs =>
    refine .inl ⟨he, ?_⟩
    have hst := Cache.status_update c (c.outstanding.restrict rs.Has).HasValue .clean sl
    unfold Newer Cache.writebackComplete at hn
    by_cases h : (c.outstanding.restrict rs.Has).HasValue sl
    · simp only [hst.1 h] at hn
      rcases hn with hn | hn <;> cases hn
    · simp only [hst.2 h] at hn
      exact hn
  | evict S hS =>
    by_cases h : S sl
    · rw [(Cache.evict_entry.1 h).1] at he; cases he
    · obtain ⟨h1, h2⟩ := Cache.evict_entry.2 h
      unfold Newer at hn ⊢
      rw [h1] at he; rw [h2] at hn
      exact .inl ⟨he, hn⟩
  | evictable _ => exact .inl ⟨he, hn⟩
  | noop => exact .inl ⟨he, hn⟩

theorem dirtyPage_iff {c : Cache.State} (hw : Cache.Wf c) {a d} :
    dirtyPage c a = some d ↔ ∃ sl, c.entries sl = some (.filled a d) ∧ Newer c sl := by
  unfold dirtyPage Newer
  constructor
  · intro h
    cases hl : c.lookup a with
    | none => rw [hl] at h; cases h
    | some sl =>
      rw [hl] at h
      dsimp only at h
      split at h
      · rename_i hst
        obtain ⟨e, he, hea⟩ := (hw.look a sl).mp hl
        rw [he] at h
        cases e with
        | filled b x =>
          cases hea; cases h
          exact ⟨sl, he, hst.symm⟩
        | _ => cases h
      · cases h
  · rintro ⟨sl, he, hn⟩
    have hl := (hw.look a sl).mpr ⟨_, he, rfl⟩
    rw [hl]
    dsimp only
    rw [if_pos hn.symm, he]

/-- The linked journal that the system stands for. -/
noncomputable def State.i (cd : Codec) (s : State) : Linked.State := ⟨s.tj cd, s.j.tail⟩

/-- The invariant (JournalCoordinationSystem_v.rs 297-311, 347-354), with the pages `m` that cache
and disk together hold. -/
structure Inv (cd : Codec) (s : State) (m : Mem) : Prop where
  coh : Coh s.c s.k m
  has : ∀ a, s.j.ix.HasValue a → m.mem.Has a
  dirty : ∀ sl a d, s.c.entries sl = some (.filled a d) → Newer s.c sl → s.j.ix.HasValue a
  like : LikesJ.State.Inv ⟨s.i cd, s.j.ix⟩

/-- The combined pages are the current pages of the memory that cache and disk implement. -/
theorem eph_entries {cd : Codec} {s : State} {m : Mem} (hc : Coh s.c s.k m)
    (hd : ∀ sl a d, s.c.entries sl = some (.filled a d) → Newer s.c sl → s.j.ix.HasValue a) :
    (s.tj cd).disk.entries = (m.mem.restrict s.j.ix.HasValue).mapVal cd.dec := by
  funext a
  show PMap.unionRight _ _ a = _
  unfold PMap.unionRight State.dirtyPages State.persistentPages PMap.mapVal PMap.restrict
  cases hp : dirtyPage s.c a with
  | some d =>
    obtain ⟨sl, he, hn⟩ := (dirtyPage_iff hc.wf).mp hp
    have h1 := (hc.filled sl a d he).2 hn
    have h2 := hd sl a d he hn
    simp [h1, h2]
  | none =>
    have h1 := hc.disk a (fun sl d he hn => by
      rw [(dirtyPage_iff hc.wf).mpr ⟨sl, he, hn⟩] at hp; cases hp)
    simp [h1]

theorem Inv.entries {cd s m} (h : Inv cd s m) :
    (s.tj cd).disk.entries = (m.mem.restrict s.j.ix.HasValue).mapVal cd.dec :=
  eph_entries h.coh h.dirty

theorem Inv.describes {cd s m} (h : Inv cd s m) : CachedJ.Describes s.j (s.tj cd) :=
  ⟨rfl, rfl, h.like.2⟩

theorem Inv.dec {cd s m} (h : Inv cd s m) : (s.tj cd).Decodable := h.like.1.2

theorem Inv.seqEnd {cd s m} (h : Inv cd s m) : (s.tj cd).seqEnd = s.j.tail.seqStart :=
  h.like.1.1.2.2.2

/-- A page read through the cache is the record of the combined disk. -/
theorem Inv.read {cd s m} (h : Inv cd s m) {reads : PMap Address RawPage}
    (hr : ∀ a d, reads a = some d → Cache.ValidRead s.c a d) {a r}
    (hra : reads.mapVal cd.dec a = some r) (hix : s.j.ix.HasValue a) :
    (s.tj cd).disk.entries a = some r := by
  obtain ⟨d, hd, rfl⟩ := Cache.mapVal_some.mp hra
  obtain ⟨sl, b, hl, he⟩ := hr a d hd
  obtain ⟨e, he', hea⟩ := (h.coh.wf.look a sl).mp hl
  rw [he] at he'; cases he'; cases hea
  obtain ⟨x, hx⟩ := (PMap.has_iff _ _).mp (h.has a hix)
  have := (h.coh.filled sl a d he).1 x hx
  subst this
  rw [h.entries]
  exact Cache.mapVal_some.mpr ⟨d, PMap.restrict_some.mpr ⟨hix, hx⟩, rfl⟩

/-- The pages stay, so does the journal. -/
theorem same_i {cd : Codec} {s s' : State} {m : Mem} (hj : s'.j = s.j)
    (h : (s.tj cd).disk.entries = (m.mem.restrict s.j.ix.HasValue).mapVal cd.dec)
    (h' : (s'.tj cd).disk.entries = (m.mem.restrict s'.j.ix.HasValue).mapVal cd.dec) :
    s'.i cd = s.i cd := by
  rw [hj, ← h] at h'
  have : s'.tj cd = s.tj cd := by
    ext1
    · show s'.j.root = _; rw [hj]; rfl
    · ext1
      · show s'.j.boundary = _; rw [hj]; rfl
      · exact h'
  unfold State.i
  rw [this, hj]

theorem inv_init {cd f reads s} (h : Init cd f reads s) :
    s.tj cd = image cd f reads ∧ Linked.Init (image cd f reads) (s.i cd) ∧ ∃ m, Inv cd s m := by
  have hdirty : ∀ sl a d, s.c.entries sl = some (.filled a d) → Newer s.c sl →
      s.j.ix.HasValue a := fun sl a d he hn => h.dirty a (by
    rw [(dirtyPage_iff h.cacheWf).mpr ⟨sl, he, hn⟩]; simp)
  have hcoh : Coh s.c s.k ⟨s.k.content.unionRight (dirtyPage s.c), fun _ _ => True⟩ := by
    refine ⟨h.cacheWf, h.cacheInj, ?_, fun id hid => (h.outstanding.dom id).mpr hid, h.diskInv,
      ?_, ?_, fun _ => trivial, fun _ => trivial⟩
    · intro id sl ho
      have hload : ∀ a, s.c.entries sl = some (.loading a) → dirtyPage s.c a = none := by
        intro a he
        cases hp : dirtyPage s.c a with
        | none => rfl
        | some d =>
          obtain ⟨sl', he', _⟩ := (dirtyPage_iff h.cacheWf).mp hp
          have e1 := (h.cacheWf.look a sl).mpr ⟨_, he, rfl⟩
          have e2 := (h.cacheWf.look a sl').mpr ⟨_, he', rfl⟩
          rw [e1] at e2; cases e2
          rw [he] at he'; cases he'
      rcases (h.outstanding.dom id).mp ((PMap.has_iff _ _).mpr ⟨sl, ho⟩) with hq | hq
      · obtain ⟨r, hr⟩ := (PMap.has_iff _ _).mp hq
        cases r with
        | read a => exact .inl ⟨a, h.outstanding.readReq id sl a ho hr, .inl hr⟩
        | write a d =>
          obtain ⟨h1, h2⟩ := h.outstanding.writeReq id sl a d ho hr
          exact .inr ⟨a, d, h1, h2, .inl hr⟩
      · obtain ⟨r, hr⟩ := (PMap.has_iff _ _).mp hq
        cases r with
        | read d =>
          obtain ⟨a, h1, h2⟩ := h.outstanding.readResp id sl d ho hr
          refine .inl ⟨a, h1, .inr ⟨d, hr, fun x hx => h2 x ?_⟩⟩
          rcases PMap.unionRight_some.mp hx with hx | ⟨_, hx⟩
          · rw [hload a h1] at hx; cases hx
          · exact hx
        | write =>
          obtain ⟨a, d, h1, h2, h3⟩ := h.outstanding.writeResp id sl ho hr
          exact .inr ⟨a, d, h1, h2, .inr ⟨hr, h3⟩⟩
    · intro sl a d he
      have hnew : Newer s.c sl → s.k.content.unionRight (dirtyPage s.c) a = some d := fun hn =>
        PMap.unionRight_some.mpr (.inl ((dirtyPage_iff h.cacheWf).mpr ⟨sl, he, hn⟩))
      refine ⟨?_, hnew⟩
      intro x hx
      by_cases hn : Newer s.c sl
      · have := hnew hn
        rw [show s.k.content.unionRight (dirtyPage s.c) a = some x from hx] at this
        cases this; rfl
      · rcases PMap.unionRight_some.mp hx with hx | ⟨_, hx⟩
        · obtain ⟨sl', he', hn'⟩ := (dirtyPage_iff h.cacheWf).mp hx
          have e1 := (h.cacheWf.look a sl).mpr ⟨_, he, rfl⟩
          have e2 := (h.cacheWf.look a sl').mpr ⟨_, he', rfl⟩
          rw [e1] at e2; cases e2
          exact absurd hn' hn
        · refine (h.clean sl a d he ?_ x hx).symm
          cases hst : s.c.status sl with
          | none => rw [(h.cacheWf.dom sl).mp hst] at he; cases he
          | some st =>
            cases st with
            | notFilled => exact absurd ⟨a, d, rfl⟩ ((h.cacheWf.stat sl _ he).mp hst)
            | clean => rfl
            | dirty => exact absurd (.inl hst) hn
            | writeback => exact absurd (.inr hst) hn
    · intro a ha
      have : dirtyPage s.c a = none := by
        cases hp : dirtyPage s.c a with
        | none => rfl
        | some d =>
          obtain ⟨sl, he, hn⟩ := (dirtyPage_iff h.cacheWf).mp hp
          exact absurd hn (ha sl d he)
      show _ = s.k.content.unionRight (dirtyPage s.c) a
      simp [PMap.unionRight, this]
  have hhas : ∀ a, s.j.ix.HasValue a → (s.k.content.unionRight (dirtyPage s.c)).Has a := by
    intro a ha hn
    have := h.onDisk a ((h.exact a).mpr ha)
    exact this (PMap.unionRight_none.mp hn).2
  have hent := eph_entries (cd := cd) hcoh hdirty
  have htj : s.tj cd = image cd f reads := by
    ext1
    · show s.j.root = f.root; rw [h.journal.2]
    · ext1
      · show s.j.boundary = f.boundary; rw [h.journal.2]
      · rw [hent]
        show _ = reads.mapVal cd.dec
        congr 1
        funext a
        unfold PMap.restrict
        by_cases ha : s.j.ix.HasValue a
        · rw [if_pos ha]
          obtain ⟨d, hd⟩ := (PMap.has_iff _ _).mp ((h.exact a).mpr ha)
          obtain ⟨sl, b, hl, he⟩ := (access_inv h.access).1 a d hd
          obtain ⟨e, he', hea⟩ := (h.cacheWf.look a sl).mp hl
          rw [he] at he'; cases he'; cases hea
          obtain ⟨x, hx⟩ := (PMap.has_iff _ _).mp (hhas a ha)
          have := (hcoh.filled sl a d he).1 x hx
          subst this
          rw [hd]; exact hx
        · rw [if_neg ha]
          cases hr : reads a with
          | none => rfl
          | some d => exact absurd ((h.exact a).mp ((PMap.has_iff _ _).mpr ⟨d, hr⟩)) ha
  have hdec : (image cd f reads).Decodable := h.dec
  have hend : CachedJ.endOf (reads.mapVal cd.dec) f.root f.boundary = (image cd f reads).seqEnd := by
    unfold CachedJ.endOf TJ.seqEnd
    cases hr : f.root with
    | none => simp [image, hr, DiskView.seqEnd]
    | some a => simp only [image, hr, DiskView.seqEnd]; rfl
  have hix : Builds (image cd f reads).disk id (image cd f reads).root s.j.ix := by
    obtain ⟨ix, hix⟩ := builds_exists (f := id) hdec.1.1 hdec.2 hdec.1.2.1
    have := CachedJ.buildFromReads_eq hdec.1.1 hix hdec.1.2.2
    have hj : s.j.ix = ix := by
      rw [h.journal.2]
      show CachedJ.buildFromReads _ _ _ (CachedJ.endOf _ _ _) = _
      rw [hend]; exact this
    rw [hj]; exact hix
  have hi : s.i cd = ⟨image cd f reads, .emptyAt (image cd f reads).seqEnd⟩ := by
    unfold State.i
    rw [htj, h.journal.2, hend]
  have hinit : LikesJ.Init (image cd f reads) ⟨s.i cd, s.j.ix⟩ := ⟨hdec, hi, hix⟩
  exact ⟨htj, (LikesJ.init_inv hinit).1, _, hcoh, hhas, hdirty, (LikesJ.init_inv hinit).2⟩

/-- Labels of the system and of the linked journal: equal, except that a frozen snapshot stands for
an image with that boundary and root, and that the end a truncation names differs (CachedJournal_v.rs
176 compares it with the end of the marshalled part, LinkedJournal_v.rs 704 with the end of the
journal). -/
inductive SameLabel : Label → Paged.Label TJ → Prop
  | read (m) : SameLabel (.readForRecovery m) (.readForRecovery m)
  | freeze {f z} : z.root = f.root → z.seqStart = f.boundary →
      SameLabel (.freezeForCommit f) (.freezeForCommit z)
  | query (l) : SameLabel (.queryEndLsn l) (.queryEndLsn l)
  | put (m) : SameLabel (.put m) (.put m)
  | discard (l e e') : SameLabel (.discardOld l e) (.discardOld l e')
  | internal : SameLabel .internal .internal

/-- a frozen snapshot, with the pages it needs, as found in the pages `p` -/
noncomputable def frozenImage (cd : Codec) (f : CachedJ.Snapshot) (dom : PSet Address)
    (p : PMap Address RawPage) : TJ :=
  ⟨f.root, ⟨f.boundary, (p.restrict dom).mapVal cd.dec⟩⟩

/-- What a freeze yields: an image the linked journal could have frozen, and its pages are in the
index and on the disk. -/
theorem freeze_facts {cd s m f dom} {reads : PMap Address RawPage} (h : Inv cd s m)
    (hr : ∀ a d, reads a = some d → Cache.ValidRead s.c a d)
    (he : ∀ a sl, dom a → s.c.lookup a = some sl →
        (∃ b d, s.c.entries sl = some (.filled b d)) ∧ s.c.status sl = some .clean)
    {j'} (hj : CachedJ.Next s.j (.freezeForCommit f dom (reads.mapVal cd.dec)) j') :
    Linked.Next (s.i cd) (.freezeForCommit (frozenImage cd f dom s.k.content)) (s.i cd) ∧
    (∀ a, dom a → ∃ l, f.boundary ≤ l ∧ s.j.ix l = some a) ∧
    (∀ a, dom a → s.k.content a = m.mem a ∧ ∀ sl d, s.c.entries sl = some (.filled a d) →
      ¬ Newer s.c sl) := by
  cases hj with
  | @freezeForCommit f dom reads' n hb hcan hptr hreads hle hlt hdom =>
  have hcf := CachedJ.crop_facts h.describes h.dec.1 n
  rw [hcf.1] at hcan
  rw [hcf.2] at hptr
  have hcd : ((s.tj cd).crop n).Decodable := AllocJ.crop_decodable h.dec n
  have hroot : ((s.tj cd).crop n).root = f.root := hptr
  have hend : ((s.tj cd).crop n).seqEnd =
      CachedJ.endOf (reads.mapVal cd.dec) f.root s.j.boundary := by
    unfold TJ.seqEnd CachedJ.endOf
    rw [hroot]
    cases hfr : f.root with
    | none => rfl
    | some a =>
      obtain ⟨r, hra⟩ := (PMap.has_iff _ _).mp (hreads a hfr)
      have hreach := crop_reach h.dec.1.1 h.dec.1.2.1 (hptr.trans hfr)
      have hix := (CachedJ.builds_values h.dec.1.1 h.like.2 h.dec.1.2.2 a).mpr hreach
      have := h.read hr hra hix
      have h2 : ((s.tj cd).crop n).disk.entries a = some r := this
      simp only [DiskView.seqEnd, h2, hra]
  rw [← hend] at hle hlt hdom
  have hcdt : ((s.tj cd).crop n).CanDiscardTo f.boundary := ⟨hb, hle⟩
  obtain ⟨ix', hix'⟩ := builds_exists (f := id) hcd.1.1 hcd.2 hcd.1.2.1
  have hixeq : ∀ l a, ix' l = some a ↔ l < ((s.tj cd).crop n).seqEnd ∧ s.j.ix l = some a := by
    intro l a
    have e1 : ix' l = some a ↔ ((s.tj cd).crop n).disk.Holds ((s.tj cd).crop n).root l a := by
      rw [hix'.iff hcd.1.1]
      constructor
      · rintro ⟨x, hx, rfl⟩; exact hx
      · intro hx; exact ⟨a, hx, rfl⟩
    have e2 : s.j.ix l = some a ↔ (s.tj cd).disk.Holds (s.tj cd).root l a := by
      rw [h.like.2.iff h.dec.1.1]
      constructor
      · rintro ⟨x, hx, rfl⟩; exact hx
      · intro hx; exact ⟨a, hx, rfl⟩
    rw [e1, e2]
    exact holds_crop h.dec.1.1 h.dec.2 h.dec.1.2.2
  have hdomix : ∀ a, dom a ↔ (Index.discardUpTo ix' f.boundary).HasValue a := by
    intro a
    rw [hdom]
    constructor
    · rintro ⟨l, ⟨h1, h2⟩, h3⟩
      exact ⟨l, Index.discardUpTo_some.mpr ⟨h1, (hixeq l a).mpr ⟨h2, h3⟩⟩⟩
    · rintro ⟨l, hl⟩
      obtain ⟨h1, h2⟩ := Index.discardUpTo_some.mp hl
      obtain ⟨h3, h4⟩ := (hixeq l a).mp h2
      exact ⟨l, ⟨h1, h3⟩, h4⟩
  have hin : ∀ a, dom a → ∃ l, f.boundary ≤ l ∧ s.j.ix l = some a := by
    intro a ha
    obtain ⟨l, ⟨h1, _⟩, h3⟩ := (hdom a).mp ha
    exact ⟨l, h1, h3⟩
  have hdisk : ∀ a, dom a → s.k.content a = m.mem a ∧
      ∀ sl d, s.c.entries sl = some (.filled a d) → ¬ Newer s.c sl := by
    intro a ha
    have hnn : ∀ sl d, s.c.entries sl = some (.filled a d) → ¬ Newer s.c sl := by
      intro sl d hes hn
      have := (he a sl ha ((h.coh.wf.look a sl).mpr ⟨_, hes, rfl⟩)).2
      unfold Newer at hn
      rw [this] at hn
      rcases hn with hn | hn <;> cases hn
    exact ⟨h.coh.disk a hnn, hnn⟩
  have himg : (⟨if ((s.tj cd).crop n).seqEnd = f.boundary then none else ((s.tj cd).crop n).root,
      (((s.tj cd).crop n).disk.discardOld f.boundary).only
        (Index.discardUpTo ix' f.boundary).HasValue⟩ : TJ) =
      frozenImage cd f dom s.k.content := by
    ext1
    · show (if _ then _ else _) = f.root
      rw [hroot]
      split
      · rename_i heq
        cases hfr : f.root with
        | none => rfl
        | some a => have := hlt (by rw [hfr]; simp); omega
      · rfl
    · ext1
      · rfl
      · show PMap.restrict _ _ = _
        funext a
        show PMap.restrict (s.tj cd).disk.entries _ a = ((s.k.content.restrict dom).mapVal cd.dec) a
        rw [h.entries]
        unfold PMap.restrict PMap.mapVal
        dsimp only
        by_cases ha : dom a
        · rw [if_pos ((hdomix a).mp ha), if_pos ha, (hdisk a ha).1]
          obtain ⟨l, _, hl⟩ := hin a ha
          rw [if_pos ⟨l, hl⟩]
        · rw [if_neg (fun hc => ha ((hdomix a).mpr hc)), if_neg ha]; rfl
  have hcond := CachedJ.truncate_cond hcd hcdt hix'
  rw [himg] at hcond
  have hv := hcond.valid hcd.2 hcdt
  have hzs : (frozenImage cd f dom s.k.content).seqStart = f.boundary := rfl
  have hzd : (frozenImage cd f dom s.k.content).Decodable :=
    ⟨hv.1, subDisk_acyclic hv.2.2.1 (discardOld_acyclic hcd.2 hb)⟩
  exact ⟨.freezeForCommit h.like.1.1 hzd h.dec hcan hb hcdt hv, hin, hdisk⟩

/-- `a`'s cached version, if any, is not newer than the disk's. -/
def Settled (c : Cache.State) (a : Address) : Prop :=
  ∀ sl d, c.entries sl = some (.filled a d) → ¬ Newer c sl

/-- What a step keeps: pages in the index keep their content; settled ones stay settled; an LSN
leaves the index only when truncated. -/
structure Keeps (s : State) (m : Mem) (l : Label) (s' : State) (m' : Mem) : Prop where
  mem : ∀ a, s.j.ix.HasValue a → m'.mem a = m.mem a
  settled : ∀ a, s.j.ix.HasValue a → Settled s.c a → Settled s'.c a
  ix : ∀ k a, s.j.ix k = some a → s'.j.ix k = some a ∨ ∃ b e, l = .discardOld b e ∧ k < b

/-- A step of cache and disk alone. -/
theorem step_pages {g cd} {s s' : State} {m : Mem} (h : Inv cd s m) (hj : s'.j = s.j)
    {l : CacheSystem.Label} (hl : l.distinct) (ho : l.obs = none)
    (hs : CacheSystem.Next g ⟨s.c, s.k⟩ l ⟨s'.c, s'.k⟩)
    (hn : ∀ sl a d, s'.c.entries sl = some (.filled a d) → Newer s'.c sl →
      s.c.entries sl = some (.filled a d) ∧ Newer s.c sl) :
    Inv cd s' m ∧ s'.i cd = s.i cd ∧ Keeps s m .internal s' m := by
  obtain ⟨m', hm, hc⟩ := CacheSystem.coh_step (s := ⟨s.c, s.k⟩) h.coh hl hs
  rw [ho] at hm
  cases hm
  have hdirty : ∀ sl a d, s'.c.entries sl = some (.filled a d) → Newer s'.c sl →
      s'.j.ix.HasValue a := by
    intro sl a d he hn'
    obtain ⟨h1, h2⟩ := hn sl a d he hn'
    rw [hj]; exact h.dirty sl a d h1 h2
  have hi := same_i hj h.entries (eph_entries (cd := cd) hc hdirty)
  refine ⟨⟨hc, by rw [hj]; exact h.has, hdirty, by rw [hi, hj]; exact h.like⟩, hi, fun _ _ => rfl, ?_, ?_⟩
  · intro a _ hset sl d he hn'
    obtain ⟨h1, h2⟩ := hn sl a d he hn'
    exact hset sl d h1 h2
  · intro k a hk; rw [hj]; exact .inl hk

theorem keeps_refl {s : State} {m : Mem} {l : Label} : Keeps s m l s m :=
  ⟨fun _ _ => rfl, fun _ _ h => h, fun _ _ h => .inl h⟩

/-- Every step of the repaired system is a step of the linked journal over the combined pages. -/
theorem step {g cd} {s s' : State} {m : Mem} {l} (h : Inv cd s m)
    (hs : Next g cd .repaired s l s') :
    ∃ ll m', SameLabel l ll ∧ Linked.Next (s.i cd) ll (s'.i cd) ∧ Inv cd s' m' ∧
      Keeps s m l s' m' := by
  cases hs with
  | @readForRecovery m0 reads hc hj =>
    refine ⟨_, m, .read m0, ?_, h, keeps_refl⟩
    obtain ⟨n, a, r, hcan, hptr, hra, hm⟩ := read_inv hj
    have hcf := CachedJ.crop_facts h.describes h.dec.1 n
    rw [hcf.1] at hcan
    rw [hcf.2] at hptr
    have hreach := crop_reach h.dec.1.1 h.dec.1.2.1 hptr
    have hix := (CachedJ.builds_values h.dec.1.1 h.like.2 h.dec.1.2.2 a).mpr hreach
    have he := h.read (access_inv hc).1 hra hix
    have hrw := h.dec.1.1.1 a r he
    have hbd := (hreach.inBounds h.dec.1.1 h.dec.1.2.2).2 a r rfl he
    refine .readForRecovery h.like.1.1 ?_ h.dec hcan hptr he hm.symm
    rw [hm]
    unfold MsgHistory.maybeDiscardOld
    split
    · exact MsgHistory.wf_discardOld hrw.1 ⟨by assumption, Nat.le_of_lt hbd⟩
    · exact hrw.1
  | @freezeForCommit f dom reads hc he hj =>
    have := freeze_facts h (access_inv hc).1 (evictable_inv he) hj
    exact ⟨_, m, .freeze rfl rfl, this.1, h, keeps_refl⟩
  | @queryEndLsn l hj =>
    refine ⟨_, m, .query l, ?_, h, keeps_refl⟩
    have : l = s.j.tail.seqEnd := by
      generalize s.j = j' at hj ⊢
      cases hj; rfl
    rw [this]
    exact .queryEndLsn (s := s.i cd) h.like.1.1
  | @put m0 j' hj hv =>
    cases hj with
    | put h1 h2 =>
    have hn : LikesJ.Next ⟨s.i cd, s.j.ix⟩ (.put m0) ⟨⟨s.tj cd, s.j.tail.concat m0⟩, s.j.ix⟩ :=
      .put (.put h.like.1.1 h1 h2)
    have := LikesJ.step h.like hn
    exact ⟨_, m, .put m0, this.1, ⟨h.coh, h.has, h.dirty, this.2⟩,
      fun _ _ => rfl, fun _ _ h => h, fun _ _ h => .inl h⟩
  | @discardOld l e j' addrs hj hc =>
    cases hj with
    | discardOld he hle hle' haddr =>
    have hval : ∀ a, (Index.discardUpTo s.j.ix l).HasValue a → s.j.ix.HasValue a := by
      rintro a ⟨k, hk⟩; exact ⟨k, (Index.discardUpTo_some.mp hk).2⟩
    have hcd : (s.tj cd).CanDiscardTo l := ⟨hle, by rw [h.seqEnd]; omega⟩
    have hcond := CachedJ.truncate_cond h.dec hcd h.like.2
    have hn := LikesJ.step h.like (LikesJ.Next.discardOld (s := ⟨s.i cd, s.j.ix⟩) hcd hcond)
    have hdirty : ∀ sl a d, s.c.entries sl = some (.filled a d) → Newer s.c sl →
        (Index.discardUpTo s.j.ix l).HasValue a := by
      intro sl a d hes hnw
      apply Classical.byContradiction
      intro hno
      have := (evictable_inv hc a sl ((haddr a).mpr ⟨h.dirty sl a d hes hnw, hno⟩)
        ((h.coh.wf.look a sl).mpr ⟨_, hes, rfl⟩)).2
      unfold Newer at hnw
      rw [this] at hnw
      rcases hnw with hnw | hnw <;> cases hnw
    have htail : boundedDiscard s.j.tail l = s.j.tail := by
      unfold boundedDiscard
      split
      · have : l = s.j.tail.seqStart := by omega
        rw [this]; exact MsgHistory.discardOld_seqStart h.like.1.1.2.1
      · rfl
    have hent := eph_entries (cd := cd) (s := { s with j := { s.j with
        boundary := l, root := if l = e then none else s.j.root,
        ix := Index.discardUpTo s.j.ix l } }) h.coh hdirty
    have hi : State.i cd { s with j := { s.j with
        boundary := l, root := if l = e then none else s.j.root,
        ix := Index.discardUpTo s.j.ix l } } =
      ⟨⟨if (s.tj cd).seqEnd = l then none else (s.tj cd).root,
        ((s.tj cd).disk.discardOld l).only (Index.discardUpTo s.j.ix l).HasValue⟩,
        boundedDiscard s.j.tail l⟩ := by
      rw [htail]
      unfold State.i
      congr 1
      ext1
      · show (if l = e then none else s.j.root) = if _ then none else s.j.root
        rw [h.seqEnd, he]
        by_cases hc : l = s.j.tail.seqStart
        · rw [if_pos hc, if_pos hc.symm]
        · rw [if_neg hc, if_neg (fun hh => hc hh.symm)]
      · ext1
        · rfl
        · rw [hent]
          funext a
          show _ = PMap.restrict (s.tj cd).disk.entries _ a
          rw [h.entries]
          unfold PMap.restrict PMap.mapVal
          dsimp only
          by_cases ha : (Index.discardUpTo s.j.ix l).HasValue a
          · rw [if_pos ha, if_pos ha, if_pos (hval a ha)]
          · rw [if_neg ha, if_neg ha]; rfl
    refine ⟨_, m, .discard l e s.j.tail.seqEnd, ?_, ⟨h.coh, fun a ha => h.has a (hval a ha), hdirty, ?_⟩,
      fun _ _ => rfl, fun _ _ h => h, ?_⟩
    · rw [hi]; exact hn.1
    · rw [hi]; exact hn.2
    · intro k a hk
      by_cases hkl : l ≤ k
      · exact .inl (Index.discardUpTo_some.mpr ⟨hkl, hk⟩)
      · exact .inr ⟨l, e, rfl, by omega⟩
  | @marshal j' c' a r hj hc hfit =>
    obtain ⟨cut, hfresh, hcut, hcan, hr, hj'⟩ : ∃ cut, ¬ s.j.ix.HasValue a ∧
        s.j.tail.seqStart < cut ∧ s.j.tail.CanDiscardTo cut ∧
        r = ⟨s.j.tail.discardRecent cut, s.j.root⟩ ∧
        j' = { s.j with
          root := some a
          tail := s.j.tail.discardOld cut
          ix := Index.append s.j.ix (s.j.tail.discardRecent cut) a } := by
      generalize hw : PMap.empty.insert a r = w at hj
      cases hj with
      | @marshal cut a' h1 h2 h3 =>
      have := congrFun hw a
      rw [PMap.insert_same] at this
      by_cases ha : a = a'
      · subst ha
        rw [PMap.insert_same] at this
        cases this
        exact ⟨cut, h1, h2, h3, rfl, rfl⟩
      · rw [PMap.insert_other _ _ ha] at this; cases this
    subst hj'
    obtain ⟨m', hm, hcoh⟩ := CacheSystem.coh_step (g := g) (s := ⟨s.c, s.k⟩) (s' := ⟨c', s.k⟩) h.coh
      (l := .access PMap.empty ((PMap.empty.insert a r).mapVal cd.enc)) trivial (.access hc)
    have hwr : ∀ x d, (PMap.empty.insert a r).mapVal cd.enc x = some d ↔ x = a ∧ d = cd.enc r := by
      intro x d
      by_cases hx : x = a
      · subst hx; simp [PMap.mapVal, eq_comm]
      · simp [PMap.mapVal, PMap.insert_other _ _ hx, hx]
    have hmem : m'.mem = m.mem.unionRight ((PMap.empty.insert a r).mapVal cd.enc) := by
      cases hm with | access _ => rfl
    have hma : m'.mem a = some (cd.enc r) := by
      rw [hmem]; exact PMap.unionRight_some.mpr (.inl ((hwr a _).mpr ⟨rfl, rfl⟩))
    have hmo : ∀ x, x ≠ a → m'.mem x = m.mem x := by
      intro x hx
      rw [hmem]
      have : (PMap.empty.insert a r).mapVal cd.enc x = none := by
        cases hq : (PMap.empty.insert a r).mapVal cd.enc x with
        | none => rfl
        | some d => exact absurd ((hwr x d).mp hq).1 hx
      simp [PMap.unionRight, this]
    have hne : ∀ x, s.j.ix.HasValue x → x ≠ a := by rintro x hx rfl; exact hfresh hx
    have hlt : ∀ k x, s.j.ix k = some x → k < s.j.tail.seqStart := by
      intro k x hk
      have := (h.like.2.domain h.dec.1.1 h.dec.1.2.2 k).mp (by
        show s.j.ix k ≠ none
        rw [hk]; simp)
      rw [← h.seqEnd]; exact this.2
    have hold : ∀ k x, s.j.ix k = some x →
        Index.append s.j.ix (s.j.tail.discardRecent cut) a k = some x := by
      intro k x hk
      refine Index.append_some.mpr (.inr ⟨?_, hk⟩)
      intro hc
      have h1 : s.j.tail.seqStart ≤ k := hc.1
      have := hlt k x hk
      omega
    have hval : ∀ x, (Index.append s.j.ix (s.j.tail.discardRecent cut) a).HasValue x ↔
        x = a ∨ s.j.ix.HasValue x := by
      intro x
      constructor
      · rintro ⟨k, hk⟩
        rcases Index.append_some.mp hk with ⟨_, h1⟩ | ⟨_, h1⟩
        · exact .inl h1.symm
        · exact .inr ⟨k, h1⟩
      · rintro (rfl | ⟨k, hk⟩)
        · exact ⟨s.j.tail.seqStart, Index.append_some.mpr (.inl ⟨⟨Nat.le_refl _, hcut⟩, rfl⟩)⟩
        · exact ⟨k, hold k x hk⟩
    have hnew : ∀ sl x d, c'.entries sl = some (.filled x d) → Newer c' sl →
        (s.c.entries sl = some (.filled x d) ∧ Newer s.c sl) ∨ x = a := by
      intro sl x d hes hn
      rcases newer_step h.coh.wf hc hes hn with h1 | ⟨_, _, h1, h2⟩
      · exact .inl h1
      · cases h1; exact .inr ((hwr x d).mp h2).1
    have hdirty : ∀ sl x d, c'.entries sl = some (.filled x d) → Newer c' sl →
        (Index.append s.j.ix (s.j.tail.discardRecent cut) a).HasValue x := by
      intro sl x d hes hn
      rw [hval]
      rcases hnew sl x d hes hn with ⟨h1, h2⟩ | h1
      · exact .inr (h.dirty sl x d h1 h2)
      · exact .inl h1
    have hent := eph_entries (cd := cd) (s := { s with c := c', j := { s.j with
          root := some a
          tail := s.j.tail.discardOld cut
          ix := Index.append s.j.ix (s.j.tail.discardRecent cut) a } }) hcoh hdirty
    have hi : State.i cd { s with c := c', j := { s.j with
          root := some a
          tail := s.j.tail.discardOld cut
          ix := Index.append s.j.ix (s.j.tail.discardRecent cut) a } } =
        ⟨(s.tj cd).appendRecord a (s.j.tail.discardRecent cut), s.j.tail.discardOld cut⟩ := by
      unfold State.i
      congr 1
      ext1
      · rfl
      · ext1
        · rfl
        · rw [hent]
          funext x
          show _ = (s.tj cd).disk.entries.insert a ⟨_, s.j.root⟩ x
          by_cases hx : x = a
          · subst hx
            rw [PMap.insert_same]
            refine Cache.mapVal_some.mpr ⟨_, PMap.restrict_some.mpr ⟨(hval x).mpr (.inl rfl), hma⟩, ?_⟩
            rw [cd.round r (hfit rfl), hr]
          · rw [PMap.insert_other _ _ hx, h.entries]
            unfold PMap.restrict PMap.mapVal
            dsimp only
            rw [hmo x hx]
            by_cases hv : s.j.ix.HasValue x
            · rw [if_pos ((hval x).mpr (.inr hv)), if_pos hv]
            · rw [if_neg (fun hc => ((hval x).mp hc).elim hx hv), if_neg hv]
    have hnone : (s.tj cd).disk.entries a = none := by
      rw [h.entries]
      unfold PMap.restrict PMap.mapVal
      dsimp only
      rw [if_neg hfresh]; rfl
    have hn := LikesJ.step h.like (LikesJ.Next.marshal (s := ⟨s.i cd, s.j.ix⟩) hnone h.like.1.1
      hcut hcan)
    refine ⟨_, m', .internal, ?_, ⟨hcoh, ?_, hdirty, ?_⟩, ?_, ?_, ?_⟩
    · rw [hi]; exact hn.1
    · intro x hx
      rcases (hval x).mp hx with rfl | hx
      · exact (PMap.has_iff _ _).mpr ⟨_, hma⟩
      · have := h.has x hx
        unfold PMap.Has at this ⊢
        rw [hmo x (hne x hx)]; exact this
    · rw [hi]; exact hn.2
    · intro x hx; exact hmo x (hne x hx)
    · intro x hx hset sl d hes hn'
      rcases hnew sl x d hes hn' with ⟨h1, h2⟩ | h1
      · exact hset sl d h1 h2
      · exact hne x hx h1
    · intro k x hk; exact .inl (hold k x hk)
  | @ops c' k' rq rs hc hk hv =>
    have := step_pages (g := g) (s' := { s with c := c', k := k' }) h rfl (l := .ops rq rs)
      (hv rfl) rfl (.ops hc hk) (fun sl a d he hn => by
        rcases newer_step h.coh.wf hc he hn with h1 | ⟨_, _, h1, _⟩
        · exact h1
        · cases h1)
    exact ⟨_, m, .internal, by rw [this.2.1]; exact .noop h.like.1.1, this.1, this.2.2⟩
  | @cacheInternal c' hc =>
    have := step_pages (g := g) (s' := { s with c := c' }) h rfl (l := .cacheInternal)
      trivial rfl (.cacheInternal hc) (fun sl a d he hn => by
        rcases newer_step h.coh.wf hc he hn with h1 | ⟨_, _, h1, _⟩
        · exact h1
        · cases h1)
    exact ⟨_, m, .internal, by rw [this.2.1]; exact .noop h.like.1.1, this.1, this.2.2⟩
  | @diskRead k' id a d hk =>
    have := step_pages (g := g) (s' := { s with k := k' }) h rfl (l := .diskInternal)
      trivial rfl (.diskRead hk) (fun sl a d he hn => ⟨he, hn⟩)
    exact ⟨_, m, .internal, by rw [this.2.1]; exact .noop h.like.1.1, this.1, this.2.2⟩
  | @diskWrite k' id a d hk =>
    have := step_pages (g := g) (s' := { s with k := k' }) h rfl (l := .diskInternal)
      trivial rfl (.diskWrite hk) (fun sl a d he hn => ⟨he, hn⟩)
    exact ⟨_, m, .internal, by rw [this.2.1]; exact .noop h.like.1.1, this.1, this.2.2⟩

end Verif.CachedSys
