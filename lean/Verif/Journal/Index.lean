import Verif.Journal.Linked
/-
Model of Splinter/src/allocation_layer/LikesJournal_v.rs: the linked journal together with the
index from LSN to the address of the block holding it. The index building walk is shared with
AllocationJournal_v.rs, which maps an LSN to the allocation unit of that address.
-/
namespace Verif.Linked
open Verif Paged

namespace Index
variable {α : Type}

/-- LikesJournal_v.rs 31-36 `lsn_addr_index_discard_up_to`; AllocationJournal_v.rs 61-67 -/
def discardUpTo (ix : PMap LSN α) (b : LSN) : PMap LSN α := fun k => if b ≤ k then ix k else none

/-- LikesJournal_v.rs 48-51 `singleton_index`; AllocationJournal_v.rs 82-85 -/
def singleton (s e : LSN) (v : α) : PMap LSN α := fun k => if s ≤ k ∧ k < e then some v else none

/-- LikesJournal_v.rs 53-60 `lsn_addr_index_append_record`; AllocationJournal_v.rs 88-103 -/
def append (ix : PMap LSN α) (m : MsgHistory) (v : α) : PMap LSN α :=
  ix.unionRight (singleton m.seqStart m.seqEnd v)

theorem discardUpTo_some {ix : PMap LSN α} {b k v} :
    discardUpTo ix b k = some v ↔ b ≤ k ∧ ix k = some v := by
  unfold discardUpTo; by_cases h : b ≤ k <;> simp [h]

theorem singleton_some {s e k : LSN} {v w : α} :
    singleton s e v k = some w ↔ (s ≤ k ∧ k < e) ∧ v = w := by
  unfold singleton; by_cases h : s ≤ k ∧ k < e <;> simp [h]

theorem singleton_none {s e k : LSN} {v : α} :
    singleton s e v k = none ↔ ¬ (s ≤ k ∧ k < e) := by
  unfold singleton; by_cases h : s ≤ k ∧ k < e <;> simp [h]

theorem append_some {ix : PMap LSN α} {m v k w} :
    append ix m v k = some w ↔ (m.Contains k ∧ v = w) ∨ (¬ m.Contains k ∧ ix k = some w) := by
  unfold append
  rw [PMap.unionRight_some, singleton_some, singleton_none]; rfl

theorem append_has {ix : PMap LSN α} {m v k} :
    append ix m v k ≠ none ↔ m.Contains k ∨ ix k ≠ none := by
  unfold append
  rw [Ne, PMap.unionRight_none, singleton_none]
  unfold MsgHistory.Contains
  by_cases h : m.seqStart ≤ k ∧ k < m.seqEnd <;> simp [h]

end Index

/-- LikesJournal_v.rs 100-118 `build_lsn_addr_index` (with `f = id`) and AllocationJournal_v.rs
201-225 `build_lsn_au_index_page_walk` (with `f` the allocation unit of an address), as a relation:
the recursion of the source ends (it is defined only for decodable acyclic disks) with this map. -/
inductive Builds {α : Type} (d : DiskView) (f : Address → α) : Pointer → PMap LSN α → Prop
  | nil : Builds d f none PMap.empty
  | cons {a r ix} : d.entries a = some r → Builds d f (r.croppedPrior d.boundary) ix →
      Builds d f (some a)
        (ix.unionRight (Index.singleton (max d.boundary r.msgs.seqStart) r.msgs.seqEnd (f a)))

/-- LSN `l`, not below the boundary, is in block `a`, and `a` is visited from `p`. -/
def DiskView.Holds (d : DiskView) (p : Pointer) (l : LSN) (a : Address) : Prop :=
  d.Reach p a ∧ d.boundary ≤ l ∧ ∃ r, d.entries a = some r ∧ r.msgs.Contains l

theorem Builds.det {α} {d : DiskView} {f : Address → α} {p ix ix'} (h : Builds d f p ix)
    (h' : Builds d f p ix') : ix = ix' := by
  induction h generalizing ix' with
  | nil => cases h'; rfl
  | cons he _ ih =>
    cases h' with
    | cons he' hw' => rw [he] at he'; cases he'; rw [ih hw']

theorem builds_exists {α} {d : DiskView} (f : Address → α) (hw : d.WF) (ha : d.Acyclic) {p}
    (hp : d.Nondangling p) : ∃ ix, Builds d f p ix := by
  obtain ⟨c, hc⟩ := walk_exists hw ha hp
  clear hp
  induction hc with
  | nil => exact ⟨_, .nil⟩
  | cons he _ ih =>
    obtain ⟨ix, h⟩ := ih
    exact ⟨_, .cons he h⟩

theorem Builds.mono {α} {d big : DiskView} {f : Address → α} (hs : d.IsSubDisk big) {p ix}
    (h : Builds d f p ix) : Builds big f p ix := by
  induction h with
  | nil => exact .nil
  | cons he _ ih => rw [← hs.1] at ih ⊢; exact .cons (hs.2 _ _ he) ih

theorem croppedPrior_some {r : JRec} {b p} (h : r.croppedPrior b = some p) :
    b < r.msgs.seqStart ∧ r.prior = some p := by
  unfold JRec.croppedPrior at h
  split at h
  · exact ⟨by assumption, h⟩
  · cases h

theorem not_reach_none {d : DiskView} {a} : ¬ d.Reach none a := by intro h; cases h

theorem reach_cons {d : DiskView} {a r x} (he : d.entries a = some r) :
    d.Reach (some a) x ↔ x = a ∨ d.Reach (r.croppedPrior d.boundary) x := by
  constructor
  · intro h
    cases h with
    | here => exact .inl rfl
    | there h1 h2 => rw [he] at h1; cases h1; exact .inr h2
  · rintro (rfl | h)
    · exact .here he
    · exact .there he h

theorem DiskView.Reach.trans {d : DiskView} {p a x} (h : d.Reach p a) (h' : d.Reach (some a) x) :
    d.Reach p x := by
  induction h with
  | here he => exact h'
  | there he _ ih => exact .there he (ih h')

theorem DiskView.Reach.inBounds {d : DiskView} (hw : d.WF) {p a} (h : d.Reach p a)
    (hb : d.BlockInBounds p) : d.BlockInBounds (some a) := by
  induction h with
  | here => exact hb
  | @there a r x he _ ih =>
    have := next_inBounds hw hb
    simp only [DiskView.next, he] at this
    exact ih this

/-- Everything visited from `p` ends no later than `p`'s block. -/
theorem DiskView.Reach.seqEnd_le {d : DiskView} (hw : d.WF) {p a r} (h : d.Reach p a)
    (hr : d.entries a = some r) : r.msgs.seqEnd ≤ d.seqEnd p := by
  induction h with
  | here he => rw [he] at hr; cases hr; simp [DiskView.seqEnd, he]
  | @there a' r' x he hx ih =>
    have ih := ih hr
    have : d.seqEnd (some a') = r'.msgs.seqEnd := by simp only [DiskView.seqEnd, he]
    rw [this]
    cases hcp : r'.croppedPrior d.boundary with
    | none => rw [hcp] at hx; cases hx
    | some y =>
      rw [hcp] at ih
      obtain ⟨q, hq⟩ := hw.2.1 a' r' he y hcp
      have : r'.msgs.seqStart = q.msgs.seqEnd := hw.2.2.1 a' r' y q he hcp hq
      have h3 : d.seqEnd (some y) = q.msgs.seqEnd := by simp only [DiskView.seqEnd, hq]
      have := (hw.1 a' r' he).1.1
      omega

/-- Everything visited after the first block ends no later than that block starts. -/
theorem prior_seqEnd_le {d : DiskView} (hw : d.WF) {a r x rx} (he : d.entries a = some r)
    (h : d.Reach (r.croppedPrior d.boundary) x) (hx : d.entries x = some rx) :
    rx.msgs.seqEnd ≤ r.msgs.seqStart := by
  have h1 := h.seqEnd_le hw hx
  cases hcp : r.croppedPrior d.boundary with
  | none => rw [hcp] at h; cases h
  | some y =>
    rw [hcp] at h1
    obtain ⟨q, hq⟩ := hw.2.1 a r he y hcp
    have : r.msgs.seqStart = q.msgs.seqEnd := hw.2.2.1 a r y q he hcp hq
    have h3 : d.seqEnd (some y) = q.msgs.seqEnd := by simp only [DiskView.seqEnd, hq]
    omega

namespace DiskView

theorem holds_cons {d : DiskView} {a r l x} (he : d.entries a = some r) :
    d.Holds (some a) l x ↔
      (x = a ∧ d.boundary ≤ l ∧ r.msgs.Contains l) ∨ d.Holds (r.croppedPrior d.boundary) l x := by
  unfold Holds
  rw [reach_cons he]
  constructor
  · rintro ⟨rfl | h, hb, q, hq, hc⟩
    · rw [he] at hq; cases hq; exact .inl ⟨rfl, hb, hc⟩
    · exact .inr ⟨h, hb, q, hq, hc⟩
  · rintro (⟨rfl, hb, hc⟩ | ⟨h, hb, q, hq, hc⟩)
    · exact ⟨.inl rfl, hb, r, he, hc⟩
    · exact ⟨.inr h, hb, q, hq, hc⟩

theorem Holds.lt_seqEnd {d : DiskView} (hw : d.WF) {p l a} (h : d.Holds p l a) :
    l < d.seqEnd p := by
  obtain ⟨h1, _, r, hr, hc⟩ := h
  have := h1.seqEnd_le hw hr
  have := hc.2
  omega

theorem Holds.lt_seqStart {d : DiskView} (hw : d.WF) {a r l x} (he : d.entries a = some r)
    (h : d.Holds (r.croppedPrior d.boundary) l x) : l < r.msgs.seqStart := by
  obtain ⟨h1, _, q, hq, hc⟩ := h
  have := prior_seqEnd_le hw he h1 hq
  have := hc.2
  omega

theorem Holds.unique {d : DiskView} (hw : d.WF) {p l x y} (hx : d.Holds p l x)
    (hy : d.Holds p l y) : x = y := by
  have hr := hx.1
  induction hr with
  | @here a r he =>
    rcases (holds_cons he).mp hy with ⟨h, _⟩ | h
    · exact h.symm
    · have h1 := h.lt_seqStart hw he
      obtain ⟨_, _, r', hr', hc⟩ := hx
      rw [he] at hr'; cases hr'
      have := hc.1; omega
  | @there a r x he hr ih =>
    have hx' : d.Holds (r.croppedPrior d.boundary) l x := ⟨hr, hx.2⟩
    rcases (holds_cons he).mp hy with ⟨_, _, h⟩ | h
    · have := hx'.lt_seqStart hw he
      have := h.1; omega
    · exact ih hx' h

end DiskView

/-- The index says exactly where the walk finds each LSN. -/
theorem Builds.iff {α} {d : DiskView} {f : Address → α} {p ix} (h : Builds d f p ix) (hw : d.WF)
    (l : LSN) (v : α) : ix l = some v ↔ ∃ a, d.Holds p l a ∧ f a = v := by
  induction h generalizing v with
  | nil =>
    simp only [PMap.empty_apply]
    constructor
    · intro h; cases h
    · rintro ⟨a, h, _⟩; exact absurd h.1 not_reach_none
  | @cons a r ix he hb ih =>
    rw [PMap.unionRight_some, Index.singleton_some, Index.singleton_none]
    constructor
    · rintro (⟨⟨h1, h2⟩, rfl⟩ | ⟨_, h2⟩)
      · exact ⟨a, (DiskView.holds_cons he).mpr (.inl ⟨rfl, by omega, by omega, h2⟩), rfl⟩
      · obtain ⟨x, hx, hv⟩ := (ih v).mp h2
        exact ⟨x, (DiskView.holds_cons he).mpr (.inr hx), hv⟩
    · rintro ⟨x, hx, hv⟩
      rcases (DiskView.holds_cons he).mp hx with ⟨rfl, h1, h2⟩ | hx
      · exact .inl ⟨⟨by have := h2.1; omega, h2.2⟩, hv⟩
      · refine .inr ⟨?_, (ih v).mpr ⟨x, hx, hv⟩⟩
        have := hx.lt_seqStart hw he
        omega

/-- The index is defined exactly between the boundary and the end. -/
theorem Builds.domain {α} {d : DiskView} {f : Address → α} {p ix} (h : Builds d f p ix) (hw : d.WF)
    (hb : d.BlockInBounds p) (l : LSN) : ix l ≠ none ↔ d.boundary ≤ l ∧ l < d.seqEnd p := by
  induction h with
  | nil => simp [DiskView.seqEnd]
  | @cons a r ix he _ ih =>
    have hn := next_inBounds hw hb
    have hrw := hw.1 a r he
    have hle := hrw.1.1
    have hend := hb.2 a r rfl he
    simp only [DiskView.next, he] at hn
    have ih := ih hn
    have hse : d.seqEnd (some a) = r.msgs.seqEnd := by simp only [DiskView.seqEnd, he]
    rw [Ne, PMap.unionRight_none, Index.singleton_none, hse]
    have hst : d.boundary < r.msgs.seqStart → d.seqEnd (r.croppedPrior d.boundary) = r.msgs.seqStart := by
      intro hlt
      obtain ⟨y, hy⟩ := Option.ne_none_iff_exists'.mp (hw.2.2.2 a r he hlt)
      obtain ⟨q, hq⟩ := hw.2.1 a r he y hy
      have h3 : r.msgs.seqStart = q.msgs.seqEnd := hw.2.2.1 a r y q he hy hq
      rw [hy]; simp only [DiskView.seqEnd, hq]; exact h3.symm
    by_cases hlt : d.boundary < r.msgs.seqStart
    · rw [hst hlt] at ih
      by_cases hix : ix l = none
      · have : ¬ (d.boundary ≤ l ∧ l < r.msgs.seqStart) := fun hc => (ih.mpr hc) hix
        simp only [hix, and_true, Classical.not_not]
        omega
      · have := ih.mp hix
        simp only [hix, and_false, not_false_eq_true, true_iff]
        omega
    · have hnone : r.croppedPrior d.boundary = none := by
        unfold JRec.croppedPrior; rw [if_neg hlt]
      rw [hnone] at ih
      simp only [DiskView.seqEnd] at ih
      have hix : ix l = none := by
        by_cases hix : ix l = none
        · exact hix
        · have := ih.mp hix; omega
      simp only [hix, and_true, Classical.not_not]
      omega

theorem holds_exists {d : DiskView} (hw : d.WF) (ha : d.Acyclic) {p} (hb : d.BlockInBounds p)
    {l} (h1 : d.boundary ≤ l) (h2 : l < d.seqEnd p) : ∃ a, d.Holds p l a := by
  obtain ⟨ix, hix⟩ := builds_exists (f := id) hw ha hb.1
  have := (hix.domain hw hb l).mpr ⟨h1, h2⟩
  obtain ⟨v, hv⟩ := Option.ne_none_iff_exists'.mp this
  obtain ⟨a, ha, _⟩ := (hix.iff hw l v).mp hv
  exact ⟨a, ha⟩

/-- Raising the boundary keeps exactly the LSNs at or above it. -/
theorem holds_discardOld {d : DiskView} (hw : d.WF) {l0 : LSN} (hl : d.boundary ≤ l0) {p l a} :
    (d.discardOld l0).Holds p l a ↔ l0 ≤ l ∧ d.Holds p l a := by
  constructor
  · rintro ⟨hr, hb, r, he, hc⟩
    have hb : l0 ≤ l := hb
    refine ⟨hb, ?_, by omega, r, he, hc⟩
    clear he hc
    induction hr with
    | here he => exact .here he
    | @there a' r' x he hx ih =>
      refine .there he ?_
      cases hcp : r'.croppedPrior l0 with
      | none =>
        have hx : (d.discardOld l0).Reach (r'.croppedPrior l0) x := hx
        rw [hcp] at hx; cases hx
      | some y =>
        have ih : d.Reach (r'.croppedPrior l0) x := ih
        have := croppedPrior_some hcp
        have h2 : r'.croppedPrior d.boundary = some y := by
          unfold JRec.croppedPrior; rw [if_pos (by omega)]; exact this.2
        rw [hcp] at ih; rw [h2]; exact ih
  · rintro ⟨hb, hh⟩
    refine ⟨?_, hb, hh.2.2⟩
    have hr := hh.1
    induction hr with
    | here he => exact .here (d := d.discardOld l0) he
    | @there a' r' x he hx ih =>
      have hh' : d.Holds (r'.croppedPrior d.boundary) l x := ⟨hx, hh.2⟩
      have h3 := hh'.lt_seqStart hw he
      refine .there (d := d.discardOld l0) he ?_
      have ih := ih hh'
      have : r'.croppedPrior (d.discardOld l0).boundary = r'.croppedPrior d.boundary := by
        show r'.croppedPrior l0 = _
        unfold JRec.croppedPrior; rw [if_pos (by omega), if_pos (by omega)]
      rw [this]; exact ih

theorem reach_mono {d big : DiskView} (hs : d.IsSubDisk big) {p a} (h : d.Reach p a) :
    big.Reach p a := by
  induction h with
  | here he => exact .here (hs.2 _ _ he)
  | there he _ ih => exact .there (hs.2 _ _ he) (by rw [hs.1]; exact ih)

theorem reach_restrict {d big : DiskView} (hs : d.IsSubDisk big) (hd : d.NondanglingPointers)
    {p a} (h : big.Reach p a) (hp : d.Nondangling p) : d.Reach p a := by
  induction h with
  | here he => obtain ⟨r, hr⟩ := hp _ rfl; exact .here hr
  | @there a' r' x he _ ih =>
    obtain ⟨r, hr⟩ := hp _ rfl
    have := hs.2 _ _ hr
    rw [he] at this; cases this
    refine .there hr ?_
    rw [← hs.1]
    exact ih (by rw [hs.1]; exact hd _ _ hr)

theorem holds_sub {d big : DiskView} (hs : d.IsSubDisk big) (hd : d.NondanglingPointers) {p l a}
    (hp : d.Nondangling p) : d.Holds p l a ↔ big.Holds p l a := by
  constructor
  · rintro ⟨h1, h2, r, h3, h4⟩
    exact ⟨reach_mono hs h1, by rw [hs.1]; exact h2, r, hs.2 _ _ h3, h4⟩
  · rintro ⟨h1, h2, r, h3, h4⟩
    have hr := reach_restrict hs hd h1 hp
    obtain ⟨q, hq⟩ := Reach.has hr
    have := hs.2 _ _ hq
    rw [h3] at this; cases this
    exact ⟨hr, by rw [← hs.1]; exact h2, r, hq, h4⟩

/-! ### Truncation -/

/-- LikesJournal_v.rs 494-503 `discard_old_cond` -/
def TJ.DiscardOldCond (t : TJ) (l : LSN) (keep : PSet Address) (new : TJ) : Prop :=
  new.WF ∧ new.disk.boundary = l ∧
  (∀ a r, new.disk.entries a = some r → t.disk.entries a = some r) ∧
  (∀ a, keep a → new.disk.entries.Has a) ∧
  new.root = if t.seqEnd = l then none else t.root

theorem TJ.DiscardOldCond.sub {t new : TJ} {l keep} (h : t.DiscardOldCond l keep new) :
    new.disk.IsSubDisk (t.disk.discardOld l) := ⟨h.2.1.symm, h.2.2.1⟩

/-- A truncation allowed by `discard_old_cond` is one the linked journal allows. -/
theorem TJ.DiscardOldCond.valid {t new : TJ} {l keep} (h : t.DiscardOldCond l keep new)
    (ha : t.disk.Acyclic) (hl : t.CanDiscardTo l) : t.ValidDiscardOld l new := by
  have hs := h.sub
  obtain ⟨h1, h2, h3, h4, h5⟩ := h
  refine ⟨h1, h5, hs, ?_⟩
  have hac : (t.discardOld l).disk.Acyclic := discardOld_acyclic ha hl.1
  show ((t.discardOld l).disk.buildTight (t.discardOld l).root).IsSubDisk new.disk
  unfold DiskView.buildTight
  rw [if_pos hac]
  refine ⟨h2, ?_⟩
  intro a r hr
  dsimp only at hr
  split at hr
  · rename_i hreach
    have hroot : (t.discardOld l).root = new.root := h5.symm
    rw [hroot] at hreach
    obtain ⟨q, hq⟩ := Reach.has (reach_restrict hs h1.1.2.1 hreach h1.2.1)
    have h6 := h3 a q hq
    have hr : t.disk.entries a = some r := hr
    rw [hr] at h6; cases h6
    exact hq
  · cases hr

/-- After such a truncation the index is the old one from `l` on. -/
theorem TJ.DiscardOldCond.builds {α} {f : Address → α} {t new : TJ} {l keep}
    (h : t.DiscardOldCond l keep new) (hd : t.Decodable) (hl : t.CanDiscardTo l) {ix}
    (hix : Builds t.disk f t.root ix) : Builds new.disk f new.root (Index.discardUpTo ix l) := by
  have hs := h.sub
  have hv := h.valid hd.2 hl
  obtain ⟨h1, h2, h3, h4, h5⟩ := h
  have hac : new.disk.Acyclic := subDisk_acyclic hs (discardOld_acyclic hd.2 hl.1)
  obtain ⟨ix', hix'⟩ := builds_exists (f := f) h1.1 hac h1.2.1
  have : ix' = Index.discardUpTo ix l := by
    funext k
    have key : ∀ v, ix' k = some v ↔ Index.discardUpTo ix l k = some v := by
      intro v
      rw [hix'.iff h1.1, Index.discardUpTo_some, hix.iff hd.1.1]
      have hk : ∀ a, new.disk.Holds new.root k a ↔ l ≤ k ∧ t.disk.Holds t.root k a := by
        intro a
        rw [holds_sub hs h1.1.2.1 h1.2.1, holds_discardOld hd.1.1 hl.1, h5]
        by_cases he : t.seqEnd = l
        · rw [if_pos he]
          constructor
          · rintro ⟨_, hh⟩; exact absurd hh.1 not_reach_none
          · rintro ⟨h6, hh⟩
            have : k < t.seqEnd := hh.lt_seqEnd hd.1.1
            omega
        · rw [if_neg he]
      simp only [hk]
      constructor
      · rintro ⟨a, ⟨h6, h7⟩, h8⟩; exact ⟨h6, a, h7, h8⟩
      · rintro ⟨h6, a, h7, h8⟩; exact ⟨a, ⟨h6, h7⟩, h8⟩
    cases h9 : Index.discardUpTo ix l k with
    | none =>
      cases h10 : ix' k with
      | none => rfl
      | some v => rw [(key v).mp h10] at h9; cases h9
    | some v => exact (key v).mpr h9
  rw [← this]; exact hix'

/-- Appending a block adds its LSNs to the index. -/
theorem append_builds {α} {f : Address → α} {s : State} (h : s.Inv) {cut a}
    (ha : s.tj.disk.entries a = none) {ix} (hix : Builds s.tj.disk f s.tj.root ix) :
    Builds (s.tj.appendRecord a (s.tail.discardRecent cut)).disk f (some a)
      (Index.append ix (s.tail.discardRecent cut) (f a)) := by
  have hsub : s.tj.disk.IsSubDisk (s.tj.appendRecord a (s.tail.discardRecent cut)).disk := by
    refine ⟨rfl, fun x r hr => ?_⟩
    simp only [TJ.appendRecord]
    rw [PMap.insert_other _ _ (by rintro rfl; rw [ha] at hr; cases hr)]; exact hr
  have hnew : (s.tj.appendRecord a (s.tail.discardRecent cut)).disk.entries a =
      some { msgs := s.tail.discardRecent cut, prior := s.tj.root } := by simp [TJ.appendRecord]
  have hle : s.tj.disk.boundary ≤ s.tail.seqStart := by
    have h1 := h.1.2.2.1; have h2 := h.1.2.2.2
    show s.tj.seqStart ≤ _
    omega
  have hcp : JRec.croppedPrior { msgs := s.tail.discardRecent cut, prior := s.tj.root }
      s.tj.disk.boundary = s.tj.root := by
    unfold JRec.croppedPrior
    split
    · rfl
    · rename_i hn
      cases hr : s.tj.root with
      | none => rfl
      | some x =>
        exfalso
        have hib := h.1.1.2.2
        obtain ⟨r, hrr⟩ := hib.1 x hr
        have h3 := hib.2 x r hr hrr
        have h4 : s.tj.seqEnd = r.msgs.seqEnd := by
          unfold TJ.seqEnd; rw [hr]; simp only [DiskView.seqEnd, hrr]
        have h5 := h.1.2.2.2
        have hn : ¬ s.tj.disk.boundary < s.tail.seqStart := hn
        omega
  have := Builds.cons (f := f) hnew (by
    show Builds _ f (JRec.croppedPrior _ s.tj.disk.boundary) ix
    rw [hcp]; exact hix.mono hsub)
  have hmax : max s.tj.disk.boundary s.tail.seqStart = s.tail.seqStart := by omega
  unfold Index.append
  have e : Index.singleton (max (s.tj.appendRecord a (s.tail.discardRecent cut)).disk.boundary
      (s.tail.discardRecent cut).seqStart) (s.tail.discardRecent cut).seqEnd (f a) =
      Index.singleton (s.tail.discardRecent cut).seqStart (s.tail.discardRecent cut).seqEnd (f a) := by
    show Index.singleton (max s.tj.disk.boundary s.tail.seqStart) _ _ = _
    rw [hmax]; rfl
  rw [← e]; exact this

end Verif.Linked

namespace Verif.LikesJ
open Verif Linked

/-- LikesJournal_v.rs 628-636: the labels are those of the linked journal -/
abbrev Label := Paged.Label

/-- LikesJournal_v.rs 623-626 -/
structure State where
  j : Linked.State
  ix : PMap LSN Address

/-- LikesJournal_v.rs 664-738. A truncation may drop any blocks but must keep those in the
remaining index. -/
inductive Next : State → Label TJ → State → Prop
  /-- 664-667 -/
  | readForRecovery {s m} : Linked.Next s.j (.readForRecovery m) s.j → Next s (.readForRecovery m) s
  /-- 669-689 -/
  | freezeForCommit {s : State} {z : TJ} {n} : z.Decodable →
      s.j.tj.disk.CanCrop s.j.tj.root n → s.j.tj.disk.boundary ≤ z.seqStart →
      (s.j.tj.crop n).CanDiscardTo z.seqStart →
      (s.j.tj.crop n).DiscardOldCond z.seqStart
        (fun a => ∃ l, (z.seqStart ≤ l ∧ l < ((s.j.tj.crop n).discardOld z.seqStart).seqEnd) ∧
          s.ix l = some a) z →
      Next s (.freezeForCommit z) s
  /-- 691-694 -/
  | queryEndLsn {s l} : Linked.Next s.j (.queryEndLsn l) s.j → Next s (.queryEndLsn l) s
  /-- 696-700 -/
  | put {s j' m} : Linked.Next s.j (.put m) j' → Next s (.put m) { s with j := j' }
  /-- 702-722 -/
  | discardOld {s : State} {l new} : s.j.tj.CanDiscardTo l →
      s.j.tj.DiscardOldCond l (fun a => (Index.discardUpTo s.ix l).HasValue a) new →
      Next s (.discardOld l s.j.tail.seqEnd)
        { j := { tj := new, tail := boundedDiscard s.j.tail l }, ix := Index.discardUpTo s.ix l }
  /-- 724-734, with LinkedJournal_v.rs 726-739 -/
  | marshal {s : State} {cut a} : s.j.tj.disk.entries a = none → s.j.WF →
      s.j.tail.seqStart < cut → s.j.tail.CanDiscardTo cut →
      Next s .internal
        { j := { tj := s.j.tj.appendRecord a (s.j.tail.discardRecent cut)
                 tail := s.j.tail.discardOld cut }
          ix := Index.append s.ix (s.j.tail.discardRecent cut) a }
  /-- 736-738 -/
  | noop {s} : Next s .internal s

/-- LikesJournal_v.rs 744-751 -/
def Init (t : TJ) (s : State) : Prop :=
  t.Decodable ∧ s.j = { tj := t, tail := .emptyAt t.seqEnd } ∧ Builds t.disk id t.root s.ix

/-- The indexed journal opened on image `t`. -/
def machine (t : TJ) : Machine State (Label TJ) := { Init := Init t, Step := Next }

/-- LikesJournal_v.rs 753-759 -/
def State.Inv (s : State) : Prop := s.j.Inv ∧ Builds s.j.tj.disk id s.j.tj.root s.ix

theorem linked_inv_step {s s' : Linked.State} {l} (h : s.Inv) (hs : Linked.Next s l s') :
    s'.Inv := by
  obtain ⟨q, hq⟩ := TJRel.exists h.2
  obtain ⟨_, _, _, _, hr⟩ := Linked.step_refines (p := ⟨q, s.tail⟩) ⟨h, hq, rfl⟩ hs
  exact hr.1

/-- One step of the indexed journal is one of the linked journal, and the index stays exact. -/
theorem step {s s' : State} {l} (h : s.Inv) (hs : Next s l s') :
    Linked.Next s.j l s'.j ∧ s'.Inv := by
  have key : Linked.Next s.j l s'.j → Builds s'.j.tj.disk id s'.j.tj.root s'.ix →
      Linked.Next s.j l s'.j ∧ s'.Inv := fun h1 h2 => ⟨h1, linked_inv_step h.1 h1, h2⟩
  cases hs with
  | readForRecovery hn => exact key hn h.2
  | @freezeForCommit z n hz hc hb hcd hv =>
    refine key (.freezeForCommit h.1.1 hz h.1.2 hc hb hcd ?_) h.2
    exact hv.valid h.1.2.2 hcd
  | queryEndLsn hn => exact key hn h.2
  | put hn => cases hn with | put h1 h2 h3 => exact key (.put h1 h2 h3) h.2
  | @discardOld l new hcd hv =>
    exact key (.discardOld h.1.1 hcd (hv.valid h.1.2.2 hcd)) (hv.builds h.1.2 hcd h.2)
  | @marshal cut a ha hw h1 h2 => exact key (.marshal ha hw h1 h2) (append_builds h.1 ha h.2)
  | noop => exact key (.noop h.1.1) h.2

theorem init_inv {t s} (h : Init t s) : Linked.Init t s.j ∧ s.Inv := by
  obtain ⟨h1, h2, h3⟩ := h
  refine ⟨⟨h1, h2⟩, ?_, by rw [h2]; exact h3⟩
  rw [h2]
  exact ⟨⟨h1.1, MsgHistory.wf_emptyAt _, tj_seqStart_le h1.1, rfl⟩, h1⟩

end Verif.LikesJ
