import Verif.Journal.Cached
import Verif.Journal.AllocationProof
/-
Proofs about the cached journal (Journal/Cached.lean): the walk over the index is the walk over
the records, and the composition with cache and disk is the linked journal over the combined pages.
-/
namespace Verif.CachedJ
open Verif Linked

theorem minLsn_eq {P : LSN → Prop} {m} (h1 : P m) (h2 : ∀ l, P l → m ≤ l) : minLsn P = m := by
  have h : ∃ m, P m ∧ ∀ l, P l → m ≤ l := ⟨m, h1, h2⟩
  unfold minLsn
  rw [dif_pos h]
  have := h.choose_spec
  exact Nat.le_antisymm (this.2 m h1) (h2 _ this.1)

/-- The index built from the reads is the index of the journal image they form. -/
theorem buildFromReads_eq {d : DiskView} (hw : d.WF) {p ix} (h : Builds d id p ix)
    (hb : d.BlockInBounds p) : buildFromReads d.entries d.boundary p (d.seqEnd p) = ix := by
  induction h with
  | nil => rw [buildFromReads]
  | @cons a r ix he hb' ih =>
    have hse : d.seqEnd (some a) = r.msgs.seqEnd := by simp only [DiskView.seqEnd, he]
    have h1 := hb.2 a r rfl he
    have h2 := hw.1 a r he
    have h3 : r.msgs.seqStart < r.msgs.seqEnd := by
      have := h2.1.1
      have := h2.2
      unfold MsgHistory.IsEmpty at this
      omega
    have hn := next_inBounds hw hb
    simp only [DiskView.next, he] at hn
    have ih := ih hn
    rw [buildFromReads, hse]
    simp only [he]
    rw [if_pos (by omega)]
    have : buildFromReads d.entries d.boundary (r.croppedPrior d.boundary)
        (max d.boundary r.msgs.seqStart) = ix := by
      cases hcp : r.croppedPrior d.boundary with
      | none =>
        rw [hcp] at hb'
        cases hb'
        rw [buildFromReads]
      | some y =>
        obtain ⟨q, hq⟩ := hw.2.1 a r he y hcp
        have h4 : r.msgs.seqStart = q.msgs.seqEnd := hw.2.2.1 a r y q he hcp hq
        have h5 := croppedPrior_some hcp
        have h6 : d.seqEnd (some y) = q.msgs.seqEnd := by simp only [DiskView.seqEnd, hq]
        rw [hcp, h6] at ih
        have : max d.boundary r.msgs.seqStart = q.msgs.seqEnd := by omega
        rw [this]; exact ih
    rw [this]; rfl

/-- A visited block is in the index. -/
theorem reach_holds {d : DiskView} {p a r} (h : d.Reach p a)
    (he : d.entries a = some r) {l} : d.Holds p l a ↔ max d.boundary r.msgs.seqStart ≤ l ∧ l < r.msgs.seqEnd := by
  constructor
  · rintro ⟨_, h1, r', he', h2⟩
    rw [he] at he'; cases he'
    have := h2.1; have := h2.2
    omega
  · rintro ⟨h1, h2⟩
    exact ⟨h, by omega, r, he, by omega, h2⟩

theorem reach_range {d : DiskView} (hw : d.WF) {p a r} (hb : d.BlockInBounds p) (h : d.Reach p a)
    (he : d.entries a = some r) : max d.boundary r.msgs.seqStart < r.msgs.seqEnd := by
  have h1 := (h.inBounds hw hb).2 a r rfl he
  have h2 := hw.1 a r he
  have := h2.1.1
  have := h2.2
  unfold MsgHistory.IsEmpty at this
  omega

/-- The addresses in the index are the visited blocks. -/
theorem builds_values {d : DiskView} (hw : d.WF) {p ix} (h : Builds d id p ix)
    (hb : d.BlockInBounds p) (a : Address) : ix.HasValue a ↔ d.Reach p a := by
  constructor
  · rintro ⟨l, hl⟩
    obtain ⟨x, hx, rfl⟩ := (h.iff hw l a).mp hl
    exact hx.1
  · intro hr
    obtain ⟨r, he⟩ := Reach.has hr
    have h1 := reach_range hw hb hr he
    exact ⟨_, (h.iff hw _ a).mpr ⟨a, (reach_holds hr he).mpr ⟨Nat.le_refl _, h1⟩, rfl⟩⟩

/-- The journal's state describes the image `t`. -/
structure Describes (s : State) (t : TJ) : Prop where
  root : s.root = t.root
  boundary : s.boundary = t.disk.boundary
  ix : Builds t.disk id t.root s.ix

/-- JournalCoordinationRefinement_v.rs `next_index_refines`-style fact: the predecessor found in the
index is the predecessor recorded in the block. -/
theorem nextIndex_eq {s : State} {t : TJ} (hd : Describes s t) (hw : t.WF) {a}
    (hr : t.disk.Reach t.root a) : s.nextIndex (some a) = t.disk.next (some a) := by
  obtain ⟨r, he⟩ := Reach.has hr
  have hrange := reach_range hw.1 hw.2.2 hr he
  have hl : ∀ l, AddrLsns s.ix a s.boundary l ↔
      max t.disk.boundary r.msgs.seqStart ≤ l ∧ l < r.msgs.seqEnd := by
    intro l
    rw [← reach_holds hr he]
    unfold AddrLsns
    rw [hd.ix.iff hw.1, hd.boundary]
    constructor
    · rintro ⟨_, x, hx, rfl⟩; exact hx
    · intro h; exact ⟨h.2.1, a, h, rfl⟩
  have hmin : minLsn (AddrLsns s.ix a s.boundary) = max t.disk.boundary r.msgs.seqStart :=
    minLsn_eq ((hl _).mpr ⟨Nat.le_refl _, hrange⟩) (fun l h => ((hl l).mp h).1)
  have hex : ∃ l, AddrLsns s.ix a s.boundary l := ⟨_, (hl _).mpr ⟨Nat.le_refl _, hrange⟩⟩
  rw [hd.boundary] at hmin
  unfold State.nextIndex
  simp only [hd.boundary, hmin, DiskView.next, he]
  rw [if_pos hex]
  by_cases hlt : t.disk.boundary < r.msgs.seqStart
  · rw [if_pos (by omega)]
    obtain ⟨y, hy⟩ := Option.ne_none_iff_exists'.mp (hw.1.2.2.2 a r he hlt)
    obtain ⟨q, hq⟩ := hw.1.2.1 a r he y hy
    have h4 : r.msgs.seqStart = q.msgs.seqEnd := hw.1.2.2.1 a r y q he hy hq
    have hry := reach_next hr he hy hw.1.2.1
    have hq' := reach_range hw.1 hw.2.2 hry hq
    have := (reach_holds hry hq).mpr
      (⟨by omega, by omega⟩ : max t.disk.boundary q.msgs.seqStart ≤ q.msgs.seqEnd - 1 ∧
        q.msgs.seqEnd - 1 < q.msgs.seqEnd)
    rw [hy]
    have h5 : max t.disk.boundary r.msgs.seqStart - 1 = q.msgs.seqEnd - 1 := by omega
    rw [h5]
    exact (hd.ix.iff hw.1 _ y).mpr ⟨y, this, rfl⟩
  · rw [if_neg (by omega)]
    unfold JRec.croppedPrior
    rw [if_neg hlt]

/-- Cropping by the index is cropping by the records. -/
theorem crop_agrees {s : State} {t : TJ} (hd : Describes s t) (hw : t.WF) (n : Nat) :
    ∀ p, (∀ a, p = some a → t.disk.Reach t.root a) →
      (s.CanCropIndex p n ↔ t.disk.CanCrop p n) ∧
      s.pointerAfterCropIndex p n = t.disk.pointerAfterCrop p n := by
  induction n with
  | zero => intro p _; exact ⟨Iff.rfl, rfl⟩
  | succ n ih =>
    intro p hp
    have hnext : s.nextIndex p = t.disk.next p := by
      cases p with
      | none => rfl
      | some a => exact nextIndex_eq hd hw (hp a rfl)
    have := ih (t.disk.next p) (by
      intro x hx
      cases p with
      | none => cases hx
      | some a =>
        obtain ⟨r, he⟩ := Reach.has (hp a rfl)
        simp only [DiskView.next, he] at hx
        exact reach_next (hp a rfl) he hx hw.1.2.1)
    simp only [State.CanCropIndex, State.pointerAfterCropIndex, DiskView.CanCrop,
      DiskView.pointerAfterCrop, hnext]
    exact ⟨by rw [this.1], this.2⟩

theorem root_reach {t : TJ} (hw : t.WF) : ∀ a, t.root = some a → t.disk.Reach t.root a := by
  intro a ha
  obtain ⟨r, hr⟩ := hw.2.1 a ha
  rw [ha]; exact .here hr

theorem crop_facts {s : State} {t : TJ} (hd : Describes s t) (hw : t.WF) (n : Nat) :
    (s.CanCropIndex s.root n ↔ t.disk.CanCrop t.root n) ∧
      s.pointerAfterCropIndex s.root n = t.disk.pointerAfterCrop t.root n := by
  rw [hd.root]
  exact crop_agrees hd hw n _ (root_reach hw)

/-! ### Truncation keeps the visited blocks -/

/-- The disk view with only the addresses in `S`. -/
noncomputable def _root_.Verif.Linked.DiskView.only (d : DiskView) (S : PSet Address) : DiskView :=
  { d with entries := d.entries.restrict S }

/-- What remains of the image truncated to `l`, with exactly the blocks in the remaining index. -/
theorem truncate_cond {t : TJ} (hd : t.Decodable) {l} (hl : t.CanDiscardTo l) {ix}
    (hix : Builds t.disk id t.root ix) :
    t.DiscardOldCond l (fun a => (Index.discardUpTo ix l).HasValue a)
      ⟨if t.seqEnd = l then none else t.root,
        (t.disk.discardOld l).only (Index.discardUpTo ix l).HasValue⟩ := by
  have hw := discardOld_tj_wf hd.1 hl
  have hself : t.DiscardOldCond l (fun _ => False) (t.discardOld l) :=
    ⟨hw, rfl, fun _ _ h => h, fun _ h => h.elim, rfl⟩
  have hb := hself.builds hd hl hix
  have hval := builds_values hw.1 hb hw.2.2
  have hac : (t.discardOld l).disk.Acyclic := discardOld_acyclic hd.2 hl.1
  have htight : ((t.disk.discardOld l).only (Index.discardUpTo ix l).HasValue) =
      (t.discardOld l).disk.buildTight (t.discardOld l).root := by
    unfold DiskView.buildTight
    rw [if_pos hac]
    ext1
    · rfl
    · funext a
      show PMap.restrict _ _ a = _
      unfold PMap.restrict
      dsimp only
      by_cases h : (Index.discardUpTo ix l).HasValue a
      · rw [if_pos h, if_pos ((hval a).mp h)]; rfl
      · rw [if_neg h, if_neg (fun hc => h ((hval a).mpr hc))]
  obtain ⟨f1, f2, f3⟩ := buildTight_facts hw.1 hac hw.2.1
  rw [← htight] at f1 f2 f3
  refine ⟨⟨f1, f2, f2, ?_⟩, rfl, ?_, ?_, rfl⟩
  · intro a r h1 h2
    exact hw.2.2.2 a r h1 (f3.2 a r h2)
  · intro a r h
    exact (PMap.restrict_some.mp h).2
  · intro a ha
    obtain ⟨r, hr⟩ := Reach.has ((hval a).mp ha)
    exact (PMap.has_iff _ _).mpr ⟨r, PMap.restrict_some.mpr ⟨ha, hr⟩⟩

end Verif.CachedJ
