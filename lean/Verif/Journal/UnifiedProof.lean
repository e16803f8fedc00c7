import Verif.Journal.CrashAwareProof
/-
The journal on one shared disk: the journals recorded in superblocks are parts of the running
journal, stay in place, and the whole refines the crash-aware journal with separate disks.
-/
namespace Verif.Linked

theorem AuWalk.mono {d big : DiskView} (hs : d.IsSubDisk big) {first p ix}
    (h : AuWalk d first p ix) : AuWalk big first p ix := by
  induction h with
  | nil => exact .nil
  | inFirst ha hb => exact .inFirst ha (hb.mono hs)
  | @jump a r rb ix hne hr hrb _ ih =>
    have h1 : d.next (some a.firstPage) = rb.croppedPrior d.boundary := by
      simp only [DiskView.next, hrb]
    have h2 : big.next (some a.firstPage) = rb.croppedPrior d.boundary := by
      simp only [DiskView.next, hs.2 _ _ hrb, hs.1]
    refine .jump hne (hs.2 _ _ hr) (hs.2 _ _ hrb) ?_
    rw [h2, ← h1]; exact ih

theorem reach_crop {d : DiskView} {p a} (h : d.Reach p a) :
    ∃ n, d.CanCrop p n ∧ d.pointerAfterCrop p n = some a := by
  induction h with
  | here => exact ⟨0, trivial, rfl⟩
  | @there a' r x he _ ih =>
    obtain ⟨n, h1, h2⟩ := ih
    have hn : d.next (some a') = r.croppedPrior d.boundary := by simp only [DiskView.next, he]
    refine ⟨n + 1, ⟨by simp, ?_⟩, ?_⟩
    · rw [hn]; exact h1
    · show d.pointerAfterCrop (d.next (some a')) n = _
      rw [hn]; exact h2

end Verif.Linked

namespace Verif.Unified
open Verif Linked AllocJ

/-- The journal `z` records is a part of the journal `t` with index `ix`: it starts in it, and its
newest block is one `t`'s walk visits. -/
def Sub (t : TJ) (ix : PMap LSN Nat) (z : Super) : Prop :=
  t.disk.boundary ≤ z.boundary ∧ z.boundary ≤ t.seqEnd ∧
  ∀ a, z.root = some a → t.disk.Reach t.root a ∧ ix z.boundary = some z.first ∧
    ∃ r, t.disk.entries a = some r ∧ z.boundary < r.msgs.seqEnd

/-- the part of the index belonging to `z` -/
noncomputable def subIx (ix : PMap LSN Nat) (z : Super) (dv : PMap Address JRec) : PMap LSN Nat :=
  frozenIndex ix z.boundary (z.seqEnd dv)

/-- UnifiedCrashAwareJournalRefinement_v.rs 57-69 `ImageState::i`, by the index of the running
journal -/
noncomputable def image (g : Geometry) (dv : PMap Address JRec) (ix : PMap LSN Nat) (z : Super) :
    Image :=
  ⟨z.tj (z.tightDv g dv (subIx ix z dv)), z.first⟩

theorem seqEnd_some {z : Super} {dv : PMap Address JRec} {a r} (ha : z.root = some a)
    (hr : dv a = some r) : z.seqEnd dv = r.msgs.seqEnd := by
  unfold Super.seqEnd TJ.seqEnd Super.tj
  simp only [ha, DiskView.seqEnd, hr]

theorem seqEnd_none {z : Super} {dv : PMap Address JRec} (ha : z.root = none) :
    z.seqEnd dv = z.boundary := by
  unfold Super.seqEnd TJ.seqEnd Super.tj
  simp only [ha, DiskView.seqEnd]

theorem frozenIndex_some {ix : PMap LSN Nat} {l e k v} :
    frozenIndex ix l e k = some v ↔ (l ≤ k ∧ k < e) ∧ ix k = some v := PMap.restrict_some

theorem frozenIndex_nil {ix : PMap LSN Nat} {l : LSN} : frozenIndex ix l l = PMap.empty := by
  funext k
  cases h : frozenIndex ix l l k with
  | none => rfl
  | some v => have := (frozenIndex_some.mp h).1; omega

theorem tightDv_some {g : Geometry} {z : Super} {dv ix a r} :
    z.tightDv g dv ix a = some r ↔
      (ix.HasValue a.au ∧ ∀ t, z.root = some t → ¬ t.afterPage g a) ∧ dv a = some r := by
  unfold Super.tightDv
  rw [PMap.restrict_some]
  unfold DiskView.TightDomain
  constructor
  · rintro ⟨⟨_, h⟩, hr⟩; exact ⟨h, hr⟩
  · rintro ⟨h, hr⟩; exact ⟨⟨AllocJ.PMap.has_some hr, h⟩, hr⟩

section
variable {g : Geometry} {t : TJ} {ix : PMap LSN Nat} {first : Nat} {z : Super}

/-- The empty image. -/
theorem empty_shape {b : LSN} {f : Nat} :
    Shape g ⟨none, ⟨b, PMap.empty⟩⟩ PMap.empty f := by
  refine ⟨⟨⟨⟨?_, ?_, ?_, ?_⟩, ?_, ?_, ?_⟩, fun _ => 0, ?_⟩, ?_, ?_, ?_, ?_, ?_, ?_, ?_, .nil⟩
  · intro a r h; cases h
  · intro a r h; cases h
  · intro a r _ _ h; cases h
  · intro a r h; cases h
  · intro a h; cases h
  · intro a h; cases h
  · intro a r h; cases h
  · intro a r p h; cases h
  · intro a h; exact absurd rfl h
  · intro a r _ h; cases h
  · intro _ _ _ _ _ _ h; cases h
  · rintro l a b ⟨r, h, _⟩; cases h
  · intro h; exact absurd rfl h
  · intro a r l h; cases h
  · intro a h; exact absurd rfl h

/-- The image of a record made at crop depth `n` is what the allocating journal freezes. -/
theorem frozen_image (h : Shape g t ix first) {n} (hcd : (t.crop n).CanDiscardTo z.boundary)
    (hroot : z.root = if (t.crop n).seqEnd = z.boundary then none else (t.crop n).root) :
    (t.crop n).seqEnd = z.seqEnd t.disk.entries ∧
    DiscardOldTight (t.crop n) z.boundary
      ((t.crop n).disk.TightDomain g
        (frozenIndex ix z.boundary ((t.crop n).discardOld z.boundary).seqEnd)
        (image g t.disk.entries ix z).tj.root) (image g t.disk.entries ix z).tj := by
  have hse : (t.crop n).seqEnd = z.seqEnd t.disk.entries := by
    by_cases he : (t.crop n).seqEnd = z.boundary
    · rw [if_pos he] at hroot
      rw [seqEnd_none hroot]; exact he
    · rw [if_neg he] at hroot
      unfold Super.seqEnd TJ.seqEnd Super.tj
      rw [hroot]
      cases hc : (t.crop n).root with
      | none =>
        exfalso
        have h1 : (t.crop n).seqEnd = t.disk.boundary := by unfold TJ.seqEnd; rw [hc]; rfl
        have h2 : t.disk.boundary ≤ z.boundary := hcd.1
        have h3 := hcd.2
        omega
      | some a =>
        obtain ⟨r, hr⟩ := (crop_decodable h.dec n).1.2.1 a hc
        have hr : t.disk.entries a = some r := hr
        have hr2 : (t.crop n).disk.entries a = some r := hr
        simp only [DiskView.seqEnd, hr, hr2]
  refine ⟨hse, ?_⟩
  obtain ⟨z0, hz0, hv, hnf⟩ := AllocJ.can_freeze h hcd
  have hr0 : z0.tj.root = z.root := by rw [hv.1.2.2.2.2, hroot]
  have htj : z0.tj = (image g t.disk.entries ix z).tj := by
    ext1
    · exact hr0
    · ext1
      · exact hz0
      · funext x
        have hk := hv.2 x
        rw [discardOld_seqEnd hcd, hse, hr0] at hk
        show z0.tj.disk.entries x = z.tightDv g t.disk.entries (subIx ix z t.disk.entries) x
        cases hx : z.tightDv g t.disk.entries (subIx ix z t.disk.entries) x with
        | some r =>
          obtain ⟨⟨h1, h2⟩, h3⟩ := tightDv_some.mp hx
          have := hk.mp ⟨AllocJ.PMap.has_some h3, h1, h2⟩
          obtain ⟨r', hr'⟩ := (PMap.has_iff _ _).mp this
          have h4 : t.disk.entries x = some r' := hv.1.2.2.1 x r' hr'
          rw [h3] at h4; cases h4; exact hr'
        | none =>
          cases hy : z0.tj.disk.entries x with
          | none => rfl
          | some r =>
            have h4 : t.disk.entries x = some r := hv.1.2.2.1 x r hy
            obtain ⟨_, h1, h2⟩ := hk.mpr (AllocJ.PMap.has_some hy)
            have h5 : z.tightDv g t.disk.entries (subIx ix z t.disk.entries) x = some r :=
              tightDv_some.mpr ⟨⟨h1, h2⟩, h4⟩
            rw [h5] at hx; cases hx
  rw [← htj]; exact hv

/-- Crop depth of a part's newest block. -/
theorem Sub.depth (h : Shape g t ix first) (hs : Sub t ix z) {a} (ha : z.root = some a) :
    ∃ n, t.disk.CanCrop t.root n ∧ (t.crop n).root = some a ∧
      (t.crop n).seqEnd = z.seqEnd t.disk.entries ∧ z.boundary < (t.crop n).seqEnd ∧
      (t.crop n).CanDiscardTo z.boundary := by
  obtain ⟨hr, _, r, he, hlt⟩ := hs.2.2 a ha
  obtain ⟨n, h1, h2⟩ := reach_crop hr
  have hcr : (t.crop n).root = some a := h2
  have hse : (t.crop n).seqEnd = r.msgs.seqEnd := by
    obtain ⟨_, _, r', hr', hend⟩ := crop_root h hcr
    rw [he] at hr'; cases hr'; exact hend.symm
  exact ⟨n, h1, hcr, by rw [hse, seqEnd_some ha he], by rw [hse]; exact hlt,
    hs.1, by rw [hse]; exact Nat.le_of_lt hlt⟩

/-- The blocks of a part form a valid image, with the part of the index. -/
theorem Sub.shape (h : Shape g t ix first) (hs : Sub t ix z) :
    Shape g (image g t.disk.entries ix z).tj (subIx ix z t.disk.entries) z.first := by
  cases hz : z.root with
  | none =>
    have he : subIx ix z t.disk.entries = PMap.empty := by
      unfold subIx; rw [seqEnd_none hz, frozenIndex_nil]
    have hd : z.tightDv g t.disk.entries (subIx ix z t.disk.entries) = PMap.empty := by
      funext a
      cases hx : z.tightDv g t.disk.entries (subIx ix z t.disk.entries) a with
      | none => rfl
      | some r =>
        obtain ⟨⟨⟨k, hk⟩, _⟩, _⟩ := tightDv_some.mp hx
        rw [he] at hk; cases hk
    unfold image
    dsimp only
    rw [hd, he]
    unfold Super.tj
    rw [hz]
    exact empty_shape
  | some a =>
    obtain ⟨n, hc, hcr, hse, hlt, hcd⟩ := hs.depth h hz
    obtain ⟨_, hv⟩ := frozen_image h hcd (by rw [if_neg (by omega), hcr, hz])
    have hfs : Shape g (image g t.disk.entries ix z).tj
        (frozenIndex ix z.boundary (t.crop n).seqEnd) z.first := by
      refine freeze_shape (z := image g t.disk.entries ix z) h hcd hv ?_
      intro _ _ au hau
      obtain ⟨_, h5, _⟩ := hs.2.2 a hz
      have hau : ix z.boundary = some au := hau
      rw [h5] at hau; cases hau; rfl
    unfold subIx
    rw [← hse]
    exact hfs

theorem image_sub (dv : PMap Address JRec) (ix' : PMap LSN Nat) :
    (z.tj (z.tightDv g dv ix')).disk.IsSubDisk (z.tj dv).disk :=
  ⟨rfl, fun _ _ h => (tightDv_some.mp h).2⟩

/-- The unit walk of a part on the shared disk gives its part of the index. -/
theorem Sub.walk (h : Shape g t ix first) (hs : Sub t ix z) :
    AuWalk (z.tj t.disk.entries).disk z.first z.root (subIx ix z t.disk.entries) :=
  (hs.shape h).auWalk.mono (image_sub _ _)

theorem Sub.seqEnd (h : Shape g t ix first) (hs : Sub t ix z) :
    (image g t.disk.entries ix z).tj.seqEnd = z.seqEnd t.disk.entries := by
  cases hz : z.root with
  | none =>
    rw [seqEnd_none hz]
    exact seqEnd_none hz
  | some a =>
    obtain ⟨r, hr⟩ := (hs.shape h).dec.1.2.1 a hz
    have hr : z.tightDv g t.disk.entries (subIx ix z t.disk.entries) a = some r := hr
    rw [seqEnd_some hz (tightDv_some.mp hr).2]
    exact seqEnd_some hz hr

/-- A part of a journal is a valid image on the shared disk. -/
theorem Sub.validOn (h : Shape g t ix first) (hs : Sub t ix z) : z.ValidOn g t.disk.entries := by
  have hsh := hs.shape h
  have hsub := image_sub (g := g) (z := z) t.disk.entries (subIx ix z t.disk.entries)
  have hsup : ∀ a k, (z.tj t.disk.entries).disk.Supports a k → t.disk.Supports a k := by
    intro a k hk
    obtain ⟨q1, r, q2, q3⟩ := supports_iff.mp hk
    exact supports_iff.mpr ⟨Nat.le_trans hs.1 q1, r, q2, q3⟩
  refine ⟨h.addrs, ⟨⟨?_, ?_⟩, ?_, ⟨h.back, h.order⟩, ?_, ?_, ?_⟩, _, hs.walk h, ?_⟩
  · exact discardOld_wf h.dec.1.1 (l := z.boundary) hs.1
  · intro a ha
    obtain ⟨_, _, r, hr, _⟩ := hs.2.2 a ha
    exact ⟨r, hr⟩
  · exact discardOld_acyclic h.dec.2 (l := z.boundary) hs.1
  · intro k a b ha hb; exact h.unique k a b (hsup a k ha) (hsup b k hb)
  · intro hne
    obtain ⟨a, h1, r, h2, h3⟩ := hsh.firstAu hne
    exact ⟨a, h1, r, hsub.2 a r h2, h3⟩
  · intro a ha
    obtain ⟨_, _, r, hr, hlt⟩ := hs.2.2 a ha
    exact ⟨r, hr, hlt⟩
  · intro a r l hr hl hv hn hna
    exact hsh.inactive a r l (tightDv_some.mpr ⟨⟨hv, hna⟩, hr⟩) hl hv hn hna

/-- A journal is a part of itself. -/
theorem sub_self (h : Shape g t ix first) : Sub t ix ⟨t.root, t.disk.boundary, first⟩ := by
  refine ⟨Nat.le_refl _, tj_seqStart_le h.dec.1, ?_⟩
  intro a ha
  have ha : t.root = some a := ha
  obtain ⟨r, hr⟩ := h.dec.1.2.1 a ha
  refine ⟨by rw [ha]; exact .here hr, ?_, r, hr, h.dec.1.2.2.2 a r ha hr⟩
  obtain ⟨x, hx, hsup⟩ := h.firstAu (by rw [ha]; simp)
  obtain ⟨_, q, hq, hc⟩ := supports_iff.mp hsup
  show ix t.disk.boundary = some first
  rw [← hx]; exact h.index hq hc (Nat.le_refl _)

/-- the tight image of a tight image is itself -/
theorem image_self (h : Shape g t ix first) :
    image g t.disk.entries ix ⟨t.root, t.disk.boundary, first⟩ = ⟨t, first⟩ := by
  have hix : subIx ix ⟨t.root, t.disk.boundary, first⟩ t.disk.entries = ix := by
    funext k
    show frozenIndex ix t.disk.boundary t.seqEnd k = ix k
    cases hk : ix k with
    | none =>
      cases hf : frozenIndex ix t.disk.boundary t.seqEnd k with
      | none => rfl
      | some v => rw [(frozenIndex_some.mp hf).2] at hk; cases hk
    | some v =>
      exact frozenIndex_some.mpr ⟨(h.domain k).mp (by rw [hk]; simp), hk⟩
  unfold image
  rw [hix]
  have : (⟨t.root, t.disk.boundary, first⟩ : Super).tightDv g t.disk.entries ix = t.disk.entries := by
    funext a
    cases ha : t.disk.entries a with
    | some r =>
      exact tightDv_some.mpr ⟨h.tight a (AllocJ.PMap.has_some ha), ha⟩
    | none =>
      cases hx : (⟨t.root, t.disk.boundary, first⟩ : Super).tightDv g t.disk.entries ix a with
      | none => rfl
      | some r => rw [(tightDv_some.mp hx).2] at ha; cases ha
  rw [this]
  rfl

/-- The reach condition of `Sub` follows from the shape. -/
theorem sub_mk (h : Shape g t ix first) (h1 : t.disk.boundary ≤ z.boundary)
    (h2 : z.boundary ≤ t.seqEnd)
    (h3 : ∀ a, z.root = some a → ix z.boundary = some z.first ∧
      ∃ r, t.disk.entries a = some r ∧ z.boundary < r.msgs.seqEnd) : Sub t ix z := by
  refine ⟨h1, h2, ?_⟩
  intro a ha
  obtain ⟨h4, r, hr, hlt⟩ := h3 a ha
  have hw := h.dec.1.1.1 a r hr
  have hle := hw.1.1
  have hne : r.msgs.seqStart ≠ r.msgs.seqEnd := hw.2
  exact ⟨(h.covered hr (l := r.msgs.seqEnd - 1) ⟨by omega, by omega⟩ (by omega)).1, h4, r, hr, hlt⟩

theorem Sub.end_le (h : Shape g t ix first) (hs : Sub t ix z) :
    z.seqEnd t.disk.entries ≤ t.seqEnd := by
  cases hz : z.root with
  | none => rw [seqEnd_none hz]; exact hs.2.1
  | some a =>
    obtain ⟨_, _, r, hr, _⟩ := hs.2.2 a hz
    rw [seqEnd_some hz hr]; exact h.end_le hr

theorem image_congr {dv dv' : PMap Address JRec} {ix' : PMap LSN Nat}
    (he : z.seqEnd dv' = z.seqEnd dv)
    (hix : ∀ k, z.boundary ≤ k → k < z.seqEnd dv → ix' k = ix k)
    (hdv : ∀ a, (subIx ix z dv).HasValue a.au → (∀ t, z.root = some t → ¬ t.afterPage g a) →
      dv' a = dv a) : image g dv' ix' z = image g dv ix z := by
  have h1 : subIx ix' z dv' = subIx ix z dv := by
    unfold subIx
    rw [he]
    funext k
    by_cases hk : z.boundary ≤ k ∧ k < z.seqEnd dv
    · have := hix k hk.1 hk.2
      unfold frozenIndex PMap.restrict
      rw [this]
    · have hn : ∀ j : PMap LSN Nat, frozenIndex j z.boundary (z.seqEnd dv) k = none := by
        intro j
        cases hx : frozenIndex j z.boundary (z.seqEnd dv) k with
        | none => rfl
        | some v => exact absurd (frozenIndex_some.mp hx).1 hk
      rw [hn, hn]
  have h2 : z.tightDv g dv' (subIx ix z dv) = z.tightDv g dv (subIx ix z dv) := by
    funext a
    cases hx : z.tightDv g dv (subIx ix z dv) a with
    | some r =>
      obtain ⟨h3, h4⟩ := tightDv_some.mp hx
      exact tightDv_some.mpr ⟨h3, by rw [hdv a h3.1 h3.2]; exact h4⟩
    | none =>
      cases hy : z.tightDv g dv' (subIx ix z dv) a with
      | none => rfl
      | some r =>
        obtain ⟨h3, h4⟩ := tightDv_some.mp hy
        rw [hdv a h3.1 h3.2] at h4
        rw [tightDv_some.mpr ⟨h3, h4⟩] at hx; cases hx
  unfold image
  rw [h1, h2]

/-- A record made at crop depth `n` describes a part. -/
theorem frozen_sub (h : Shape g t ix first) {n} (hcd : (t.crop n).CanDiscardTo z.boundary)
    (hroot : z.root = if (t.crop n).seqEnd = z.boundary then none else (t.crop n).root)
    (hf : z.root ≠ none → ∀ au, ix z.boundary = some au → z.first = au) : Sub t ix z := by
  have h1 : t.disk.boundary ≤ z.boundary := hcd.1
  have h2 : z.boundary ≤ t.seqEnd := Nat.le_trans hcd.2 (crop_seqEnd_le h n)
  refine sub_mk h h1 h2 ?_
  intro a ha
  have hne : (t.crop n).seqEnd ≠ z.boundary := by
    intro he; rw [if_pos he, ha] at hroot; cases hroot
  rw [if_neg hne, ha] at hroot
  obtain ⟨h3, _, r, hr, hend⟩ := crop_root h hroot.symm
  have h4 := hcd.2
  have hlt : z.boundary < t.seqEnd := by have := crop_seqEnd_le h n; omega
  refine ⟨?_, r, hr, by omega⟩
  cases hix : ix z.boundary with
  | none => exact absurd hix ((h.domain _).mpr ⟨h1, hlt⟩)
  | some au => rw [hf (by rw [ha]; simp) au hix]

end

/-! ### Steps of the running journal keep the parts -/

/-- All parts survive the step, with the same images. -/
def Keeps (g : Geometry) (j j' : AllocJ.State) (z : Super) : Prop :=
  Sub j.j.tj j.ix z → Sub j'.j.tj j'.ix z ∧
    image g j'.j.tj.disk.entries j'.ix z = image g j.j.tj.disk.entries j.ix z

theorem keeps_same {g : Geometry} {j j' : AllocJ.State} {z} (h1 : j'.j.tj = j.j.tj)
    (h2 : j'.ix = j.ix) : Keeps g j j' z := by
  intro h; rw [h1, h2]; exact ⟨h, rfl⟩

theorem marshal_keeps {g : Geometry} {s s' : AllocJ.State} {cut a} (h : s.Inv g) (h' : s'.Inv g)
    (hn : TightNext g s.mini s.j.tj.root a) (h1 : s.j.tail.seqStart < cut)
    (h2 : s.j.tail.CanDiscardTo cut)
    (ht : s'.j.tj = s.j.tj.appendRecord a (s.j.tail.discardRecent cut))
    (hx : s'.ix = Index.append s.ix (s.j.tail.discardRecent cut) a.au) (z : Super) :
    Keeps g s s' z := by
  intro hs
  obtain ⟨hea, haw, _, _⟩ := next_addr h hn
  have hstart : s.j.tail.seqStart = s.j.tj.seqEnd := h.jinv.1.2.2.2.symm
  have hsh' := h'.shape
  rw [ht, hx] at hsh' ⊢
  generalize hm : s.j.tail.discardRecent cut = m at *
  have hms : m.seqStart = s.j.tj.seqEnd := by rw [← hm, ← hstart]; rfl
  have hme : m.seqEnd = cut := by rw [← hm]; rfl
  let new := s.j.tj.appendRecord a m
  have hnew : new.disk.entries a = some { msgs := m, prior := s.j.tj.root } :=
    PMap.insert_same _ _ _
  have hold : ∀ x, x ≠ a → new.disk.entries x = s.j.tj.disk.entries x :=
    fun x hxa => PMap.insert_other _ _ hxa
  have hkeep : ∀ x r, s.j.tj.disk.entries x = some r → new.disk.entries x = some r := by
    intro x r hr
    rw [hold x (by intro he; rw [he, hea] at hr; cases hr)]; exact hr
  have hend : new.seqEnd = cut := by
    show new.disk.seqEnd (some a) = cut
    simp only [DiskView.seqEnd, hnew]; exact hme
  have hix : ∀ k, k < s.j.tj.seqEnd → Index.append s.ix m a.au k = s.ix k := by
    intro k hk
    have hn : Index.singleton m.seqStart m.seqEnd a.au k = none :=
      Index.singleton_none.mpr (by omega)
    unfold Index.append PMap.unionRight
    rw [hn]
  have hsub : Sub new (Index.append s.ix m a.au) z := by
    refine sub_mk hsh' hs.1 (by rw [hend]; have := hs.2.1; omega) ?_
    intro b hb
    obtain ⟨_, h3, r, hr, hlt⟩ := hs.2.2 b hb
    refine ⟨?_, r, hkeep b r hr, hlt⟩
    rw [hix _ (by have := h.shape.end_le hr; omega)]; exact h3
  refine ⟨hsub, ?_⟩
  have hze : z.seqEnd new.disk.entries = z.seqEnd s.j.tj.disk.entries := by
    cases hz : z.root with
    | none => rw [seqEnd_none hz, seqEnd_none hz]
    | some b =>
      obtain ⟨_, _, r, hr, _⟩ := hs.2.2 b hz
      rw [seqEnd_some hz hr, seqEnd_some hz (hkeep b r hr)]
  have hzl := hs.end_le h.shape
  refine image_congr hze (fun k _ hk => hix k (by omega)) ?_
  intro x hxv hxa
  by_cases hxe : x = a
  · exfalso
    subst hxe
    obtain ⟨k, hk⟩ := hxv
    obtain ⟨⟨hk1, hk2⟩, hk3⟩ := frozenIndex_some.mp hk
    cases hz : z.root with
    | none => rw [seqEnd_none hz] at hk2; omega
    | some b =>
      obtain ⟨n, _, hcr, hse, _, _⟩ := hsub.depth hsh' hz
      have := frozen_below hsh' (k := m.seqStart) (m := k) hcr hnew ⟨Nat.le_refl _, by show m.seqStart < m.seqEnd; omega⟩
        (by rw [hix k (by omega)]; exact hk3) (by rw [hse, hze]; exact hk2) (hxa b hz)
      rw [hse, hze] at this
      omega
  · exact hold x hxe

theorem discard_keeps {g : Geometry} {t new : TJ} {ix first l f} (h : Shape g t ix first)
    (hl : t.CanDiscardTo l) (hnf : NewFirst t ix l f)
    (hd : DiscardOldTight t l
      (fun a => t.disk.entries.Has a ∧ (Index.discardUpTo ix l).HasValue a.au) new) {z : Super}
    (hz : l ≤ z.boundary) (hs : Sub t ix z) :
    Sub new (Index.discardUpTo ix l) z ∧
      image g new.disk.entries (Index.discardUpTo ix l) z = image g t.disk.entries ix z := by
  have hsh := discard_shape h hl hnf hd
  have hb : new.disk.boundary = l := hd.1.2.1
  have hend : new.seqEnd = t.seqEnd := by
    rw [← discardOld_seqEnd hl]
    unfold TJ.seqEnd
    rw [hd.1.2.2.2.2]
    show new.disk.seqEnd (if t.seqEnd = l then none else t.root) =
      (t.disk.discardOld l).seqEnd (if t.seqEnd = l then none else t.root)
    split
    · exact hb
    · rename_i hne
      cases hr : t.root with
      | none => exact hb
      | some a =>
        obtain ⟨r, hr'⟩ := hsh.dec.1.2.1 a (by rw [hd.1.2.2.2.2, if_neg hne]; exact hr)
        have h4 : t.disk.entries a = some r := hd.1.2.2.1 a r hr'
        have h5 : (t.disk.discardOld l).entries a = some r := h4
        simp only [DiskView.seqEnd, hr', h5]
  have hix : ∀ k, l ≤ k → Index.discardUpTo ix l k = ix k := by
    intro k hk; unfold Index.discardUpTo; rw [if_pos hk]
  have hent : ∀ a, (Index.discardUpTo ix l).HasValue a.au →
      new.disk.entries a = t.disk.entries a := by
    intro a ha
    cases hx : t.disk.entries a with
    | some r =>
      obtain ⟨r', hr'⟩ := (PMap.has_iff _ _).mp ((hd.2 a).mp ⟨AllocJ.PMap.has_some hx, ha⟩)
      have h4 : t.disk.entries a = some r' := hd.1.2.2.1 a r' hr'
      rw [hx] at h4; cases h4; exact hr'
    | none =>
      cases hy : new.disk.entries a with
      | none => rfl
      | some r =>
        have h4 : t.disk.entries a = some r := hd.1.2.2.1 a r hy
        rw [hx] at h4; cases h4
  have hroot : ∀ a r, t.disk.entries a = some r → z.boundary < r.msgs.seqEnd →
      new.disk.entries a = some r := by
    intro a r hr hlt
    have hw := h.dec.1.1.1 a r hr
    have hle := hw.1.1
    have hne : r.msgs.seqStart ≠ r.msgs.seqEnd := hw.2
    rw [hent a ⟨r.msgs.seqEnd - 1, ?_⟩]
    · exact hr
    · rw [hix _ (by omega)]
      exact h.index hr ⟨by omega, by omega⟩ (by have := hs.1; omega)
  have hsub : Sub new (Index.discardUpTo ix l) z := by
    refine sub_mk hsh (by rw [hb]; exact hz) (by rw [hend]; exact hs.2.1) ?_
    intro a ha
    obtain ⟨_, h3, r, hr, hlt⟩ := hs.2.2 a ha
    exact ⟨by rw [hix _ hz]; exact h3, r, hroot a r hr hlt, hlt⟩
  refine ⟨hsub, ?_⟩
  refine image_congr ?_ (fun k hk _ => hix k (by omega)) ?_
  · cases hzr : z.root with
    | none => rw [seqEnd_none hzr, seqEnd_none hzr]
    | some b =>
      obtain ⟨_, _, r, hr, hlt⟩ := hs.2.2 b hzr
      rw [seqEnd_some hzr hr, seqEnd_some hzr (hroot b r hr hlt)]
  · rintro a ⟨k, hk⟩ _
    obtain ⟨⟨hk1, _⟩, hk3⟩ := frozenIndex_some.mp hk
    exact hent a ⟨k, by rw [hix k (by omega)]; exact hk3⟩

theorem internal_keeps {g : Geometry} {j j' : AllocJ.State} {al de} (h : j.Inv g)
    (hs : AllocJ.Next g j (.internal al de) j') :
    (∀ z, Keeps g j j' z) ∧ ∀ au, al au → ¬ j.Accessible au := by
  have h' := AllocJ.step_inv h hs
  cases hs with
  | marshal hn h1 h2 => exact ⟨fun z => marshal_keeps h h' hn h1 h2 rfl rfl z, fun _ hc => hc.elim⟩
  | fill h1 h2 =>
    refine ⟨fun z => keeps_same rfl rfl, ?_⟩
    rintro au ha (hb | hb)
    · exact h2 au ha hb
    · exact h1 au ha hb
  | prune => exact ⟨fun z => keeps_same rfl rfl, fun _ hc => hc.elim⟩
  | noop => exact ⟨fun z => keeps_same rfl rfl, fun _ hc => hc.elim⟩

/-! ### The whole machine -/

/-- The journal on the shared disk of which both recorded images are parts. While the journal runs
it is the running journal, after a crash the one that was running. -/
structure Owner (g : Geometry) (s : State) (t : TJ) (ix : PMap LSN Nat) (first : Nat) : Prop where
  disk : t.disk.entries = s.dv
  shape : Shape g t ix first
  eph : ∀ v, s.ephemeral = some v → t = v.image.tj s.dv ∧ ix = v.ix ∧ first = v.image.first
  pers : Sub t ix s.persistent
  infl : ∀ f, s.inflight = some f → Sub t ix f

/-- Invariant of the journal on one disk. -/
structure State.Inv (g : Geometry) (s : State) : Prop where
  unk : s.ephemeral = none → s.inflight = none
  known : ∀ v, s.ephemeral = some v → (v.aj s.dv).Inv g
  owner : ∃ t ix first, Owner g s t ix first

/-- UnifiedCrashAwareJournalRefinement_v.rs 71-91 `i`: the state with a disk of its own for each
image -/
noncomputable def split (g : Geometry) (s : State) (ix : PMap LSN Nat) : CrashJ.State where
  persistent := image g s.dv ix s.persistent
  ephemeral := s.ephemeral.map (fun v => v.aj s.dv)
  inflight := s.inflight.map (image g s.dv ix)

theorem init_inv {g : Geometry} {s} (h : Init s) :
    s.Inv g ∧ ∃ t ix first, Owner g s t ix first ∧ CrashJ.Init (split g s ix) := by
  subst h
  have ho : Owner g ⟨none, none, .empty, PMap.empty⟩ ⟨none, ⟨0, PMap.empty⟩⟩ PMap.empty 0 :=
    ⟨rfl, empty_shape, (fun _ h => by cases h), sub_self (g := g) empty_shape, (fun _ h => by cases h)⟩
  refine ⟨⟨fun _ => rfl, (fun _ h => by cases h), _, _, _, ho⟩, _, _, _, ho, ?_⟩
  have h1 : image g PMap.empty PMap.empty Super.empty = Image.empty :=
    image_self (t := ⟨none, ⟨0, PMap.empty⟩⟩) (first := 0) empty_shape
  unfold CrashJ.Init split
  dsimp only
  rw [h1]; rfl

theorem image_uses {g : Geometry} {dv : PMap Address JRec} {ix z au}
    (h : CrashJ.Uses (image g dv ix z) au) : ix.HasValue au := by
  obtain ⟨a, rfl, ha⟩ := h
  obtain ⟨r, hr⟩ := (PMap.has_iff _ _).mp ha
  obtain ⟨⟨⟨k, hk⟩, _⟩, _⟩ := tightDv_some.mp hr
  exact ⟨k, (frozenIndex_some.mp hk).2⟩

/-- Each step of the journal on one disk is a step of the journal with separate disks, and the
images kept by the step are the same before and after. -/
theorem step_split {g : Geometry} {s s' : State} {l} (hi : s.Inv g) {t ix first}
    (ho : Owner g s t ix first) (hs : Next g s l s') :
    s'.Inv g ∧ ∃ t' ix' first', Owner g s' t' ix' first' ∧
      CrashJ.Next g (split g s ix) l (split g s' ix') ∧
      ∀ z, Sub t ix z → (z = s'.persistent ∨ s'.inflight = some z) →
        image g s'.dv ix' z = image g s.dv ix z := by
  cases hs with
  | @load v he hval hv =>
    obtain ⟨_, hvi, hvt, hvw, hvm⟩ := hv
    have hno := hi.unk he
    have hdv := ho.disk
    have hw := ho.pers.walk ho.shape
    have hsh := ho.pers.shape ho.shape
    have hse := ho.pers.seqEnd ho.shape
    rw [hdv] at hw hsh hse
    have hix := hvw.det hw
    let im := image g s.dv ix s.persistent
    have hdv' : s.persistent.tightDv g s.dv v.ix = im.tj.disk.entries := by rw [hix]; rfl
    have htj : v.image.tj (s.persistent.tightDv g s.dv v.ix) = im.tj := by rw [hvi, hix]; rfl
    have ho' : Owner g { s with ephemeral := some v, dv := s.persistent.tightDv g s.dv v.ix }
        im.tj v.ix s.persistent.first := by
      refine ⟨hdv'.symm, by rw [hix]; exact hsh, ?_, ?_, ?_⟩
      · intro v' hv'; cases hv'
        exact ⟨htj.symm, rfl, by rw [hvi]⟩
      · have := sub_self hsh
        rw [hix]; exact this
      · intro f hf
        rw [hno] at hf; cases hf
    have hinit : AllocJ.Init g im (v.aj (s.persistent.tightDv g s.dv v.ix)) := by
      refine ⟨hsh.valid, ⟨hsh.dec, ?_⟩, ?_, ?_, hvm⟩
      · show (⟨v.image.tj _, v.tail⟩ : Linked.State) = _
        rw [htj, hvt, ← hse]
      · show AuWalk im.tj.disk s.persistent.first im.tj.root v.ix
        rw [hix]; exact hsh.auWalk
      · show v.image.first = s.persistent.first
        rw [hvi]
    refine ⟨⟨(fun h => by cases h), ?_, _, _, _, ho'⟩, _, _, _, ho', ?_⟩
    · intro v' hv'; cases hv'; exact AllocJ.init_inv hinit
    · have him : image g (s.persistent.tightDv g s.dv v.ix) v.ix s.persistent = im := by
        have := image_self hsh
        rw [hdv', hix]; exact this
      have : split g { s with ephemeral := some v, dv := s.persistent.tightDv g s.dv v.ix } v.ix =
          { split g s ix with
            ephemeral := some (v.aj (s.persistent.tightDv g s.dv v.ix)) } := by
        unfold split
        dsimp only
        rw [him, hno]; rfl
      rw [this]
      refine ⟨.load (s := split g s ix) (by unfold split; rw [he]; rfl) hinit, ?_⟩
      rintro z _ (rfl | hz)
      · exact him
      · have hz : s.inflight = some z := hz
        rw [hno] at hz; cases hz
  | readForRecovery he hn =>
    exact ⟨hi, _, _, _, ho, .readForRecovery (by unfold split; rw [he]; rfl) hn, fun _ _ _ => rfl⟩
  | queryEndLsn he hn =>
    exact ⟨hi, _, _, _, ho, .queryEndLsn (by unfold split; rw [he]; rfl) hn, fun _ _ _ => rfl⟩
  | @put v v' m he hn =>
    obtain ⟨h1, h2, h3⟩ := ho.eph v he
    have hin := AllocJ.step_inv (hi.known v he) hn
    have hsame : (v'.aj s.dv).j.tj = (v.aj s.dv).j.tj ∧ (v'.aj s.dv).ix = (v.aj s.dv).ix ∧
        (v'.aj s.dv).first = (v.aj s.dv).first := by
      generalize v'.aj s.dv = j' at hn
      cases hn with
      | put hn => cases hn; exact ⟨rfl, rfl, rfl⟩
    have ho' : Owner g { s with ephemeral := some v' } t ix first := by
      refine ⟨ho.disk, ho.shape, ?_, ho.pers, ho.infl⟩
      intro w hw; cases hw
      exact ⟨h1.trans hsame.1.symm, h2.trans hsame.2.1.symm, h3.trans hsame.2.2.symm⟩
    refine ⟨⟨(fun h => by cases h), ?_, _, _, _, ho'⟩, _, _, _, ho', ?_⟩
    · intro w hw; cases hw; exact hin
    · exact ⟨.put (s := split g s ix) (by unfold split; rw [he]; rfl) hn, fun _ _ _ => rfl⟩
  | @internal v v' dv' al de he hn =>
    obtain ⟨h1, h2, h3⟩ := ho.eph v he
    have hinv := hi.known v he
    have hin := AllocJ.step_inv hinv hn
    obtain ⟨hk, hfr⟩ := internal_keeps hinv hn
    have hT : ∀ z, Sub t ix z → Sub (v'.image.tj dv') v'.ix z ∧
        image g dv' v'.ix z = image g s.dv ix z := by
      intro z hz
      rw [h1, h2] at hz
      have := hk z hz
      rw [h2]; exact this
    have ho' : Owner g { s with ephemeral := some v', dv := dv' } (v'.image.tj dv') v'.ix
        v'.image.first := by
      refine ⟨rfl, hin.shape, ?_, (hT _ ho.pers).1, fun f hf => (hT f (ho.infl f hf)).1⟩
      intro w hw; cases hw; exact ⟨rfl, rfl, rfl⟩
    refine ⟨⟨(fun h => by cases h), ?_, _, _, _, ho'⟩, _, _, _, ho', ?_⟩
    · intro w hw; cases hw; exact hin
    · have hif : s.inflight.map (image g dv' v'.ix) = s.inflight.map (image g s.dv ix) := by
        cases hf : s.inflight with
        | none => rfl
        | some f => show some _ = some _; rw [(hT f (ho.infl f hf)).2]
      have : split g { s with ephemeral := some v', dv := dv' } v'.ix =
          { split g s ix with ephemeral := some (v'.aj dv') } := by
        unfold split
        dsimp only
        rw [(hT _ ho.pers).2, hif]; rfl
      rw [this]
      refine ⟨.internal (s := split g s ix) (by unfold split; rw [he]; rfl) ⟨?_, hfr, ?_⟩ hn,
        fun z hz _ => (hT z hz).2⟩
      · intro au hau hu
        have := image_uses hu
        rw [h2] at this
        exact hfr au hau (.inl this)
      · intro f hf au hau hu
        unfold split at hf
        dsimp only at hf
        cases hsf : s.inflight with
        | none => rw [hsf] at hf; cases hf
        | some f0 =>
          rw [hsf] at hf; cases hf
          have := image_uses hu
          rw [h2] at this
          exact hfr au hau (.inl this)
  | queryLsnPersistence hle =>
    refine ⟨hi, _, _, _, ho, .queryLsnPersistence ?_, fun _ _ _ => rfl⟩
    have := ho.pers.seqEnd ho.shape
    rw [ho.disk] at this
    show _ ≤ (image g s.dv ix s.persistent).tj.seqEnd
    rw [this]; exact hle
  | @commitStart v z n mx he hno hse hmx hc hcd hf hroot =>
    obtain ⟨h1, h2, h3⟩ := ho.eph v he
    have hsh := ho.shape
    rw [h1, h2, h3] at hsh
    have hsub := frozen_sub hsh hcd hroot hf
    have hfi := frozen_image hsh hcd hroot
    have hze : (image g s.dv v.ix z).tj.seqEnd = z.seqEnd s.dv := hsub.seqEnd hsh
    have hpe := ho.pers.seqEnd ho.shape
    rw [ho.disk] at hpe
    have ho' : Owner g { s with inflight := some z } t ix first := by
      refine ⟨ho.disk, ho.shape, ho.eph, ho.pers, ?_⟩
      intro f hf'; cases hf'
      rw [h1, h2]; exact hsub
    refine ⟨⟨fun h => (by rw [he] at h; cases h), hi.known, _, _, _, ho'⟩, _, _, _, ho', ?_⟩
    have : split g { s with inflight := some z } ix =
        { split g s ix with inflight := some (image g s.dv ix z) } := rfl
    rw [this, h2]
    refine ⟨.commitStart (s := split g s v.ix) (z := image g s.dv v.ix z) (j := v.aj s.dv)
      (by unfold split; rw [he]; rfl) (by unfold split; rw [hno]; rfl) ?_ hmx ?_,
      fun _ _ _ => rfl⟩
    · rw [hze]
      show (image g s.dv v.ix s.persistent).tj.seqEnd ≤ _
      rw [← h2, hpe]; exact hse
    · refine .freezeForCommit (n := n) hc hcd hfi.2 ?_
      intro _ hne au hau
      exact hf hne au hau
  | @commitComplete v v' f dv' e d he hf hn =>
    obtain ⟨h1, h2, h3⟩ := ho.eph v he
    have hinv := hi.known v he
    have hin := AllocJ.step_inv hinv hn
    have hfs := ho.infl f hf
    have hT : Sub (v'.image.tj dv') v'.ix f ∧ image g dv' v'.ix f = image g s.dv ix f := by
      rw [h1, h2] at hfs
      rw [h2]
      have hx : Sub (v'.aj dv').j.tj (v'.aj dv').ix f ∧
          image g (v'.aj dv').j.tj.disk.entries (v'.aj dv').ix f = image g s.dv v.ix f := by
        generalize v'.aj dv' = j' at hn hin
        cases hn with
        | discardOld hl hnf hd => exact discard_keeps hinv.shape hl hnf hd (Nat.le_refl _) hfs
      exact hx
    have ho' : Owner g { persistent := f, ephemeral := some v', inflight := none, dv := dv' }
        (v'.image.tj dv') v'.ix v'.image.first := by
      refine ⟨rfl, hin.shape, ?_, hT.1, (fun _ h => by cases h)⟩
      intro w hw; cases hw; exact ⟨rfl, rfl, rfl⟩
    refine ⟨⟨(fun h => by cases h), ?_, _, _, _, ho'⟩, _, _, _, ho', ?_⟩
    · intro w hw; cases hw; exact hin
    · have : split g { persistent := f, ephemeral := some v', inflight := none, dv := dv' } v'.ix =
          { persistent := image g s.dv ix f, ephemeral := some (v'.aj dv'), inflight := none } := by
        unfold split
        dsimp only
        rw [hT.2]; rfl
      rw [this]
      refine ⟨.commitComplete (s := split g s ix) (j := v.aj s.dv) (by unfold split; rw [he]; rfl)
        (by unfold split; rw [hf]; rfl) hn, ?_⟩
      rintro z _ (rfl | hz)
      · exact hT.2
      · cases hz
  | @crash keep =>
    have hp : Sub t ix (if keep then s.inflight.getD s.persistent else s.persistent) := by
      split
      · cases hf : s.inflight with
        | none => exact ho.pers
        | some f => exact ho.infl f hf
      · exact ho.pers
    have ho' : Owner g { s with
          persistent := if keep then s.inflight.getD s.persistent else s.persistent
          ephemeral := none, inflight := none } t ix first :=
      ⟨ho.disk, ho.shape, (fun _ h => by cases h), hp, (fun _ h => by cases h)⟩
    refine ⟨⟨fun _ => rfl, (fun _ h => by cases h), _, _, _, ho'⟩, _, _, _, ho', ?_⟩
    have : split g { s with
          persistent := if keep then s.inflight.getD s.persistent else s.persistent
          ephemeral := none, inflight := none } ix =
        { persistent := if keep then (split g s ix).inflight.getD (split g s ix).persistent
            else (split g s ix).persistent
          ephemeral := none, inflight := none } := by
      unfold split
      dsimp only
      cases keep <;> cases s.inflight <;> rfl
    rw [this]
    exact ⟨.crash, fun _ _ _ => rfl⟩

theorem reachable_inv {g : Geometry} {s} (h : (machine g).Reachable s) : s.Inv g := by
  refine Machine.reachable_invariant (M := machine g) (I := fun s => s.Inv g)
    (fun _ h => (init_inv h).1) ?_ h
  intro s l s' hi hs
  obtain ⟨t, ix, first, ho⟩ := hi.owner
  exact (step_split hi ho hs).1

end Verif.Unified
