import Verif.Props.C10
/-
C11. Truncating the journal and reclaiming blocks loses nothing that is still needed.
-/
namespace Verif.C11
open Verif Paged Linked

/-- A block of image `t` that is still needed when everything before `l` is discarded: it is
visited when following pointers from the newest record, not going past a record that starts at or
below `l` (and nothing is needed when `l` is the end of the journal). -/
inductive Needed (t : Linked.TJ) (l : LSN) : Address → Prop
  | root {a} : t.root = some a → t.seqEnd ≠ l → Needed t l a
  | older {a r x} : Needed t l a → t.disk.entries a = some r → l < r.msgs.seqStart →
      r.prior = some x → Needed t l x

/-- Message `km` at LSN `k` is held by a block that reading visits. -/
def CanRead (t : Linked.TJ) (k : LSN) (km : KeyedMessage) : Prop :=
  t.disk.boundary ≤ k ∧
  ∃ a r, t.disk.Reach t.root a ∧ t.disk.entries a = some r ∧ r.msgs.msgs k = some km

theorem needed_iff {t : Linked.TJ} (h : t.Decodable) {l} (hl : t.CanDiscardTo l) (a : Address) :
    Needed t l a ↔ (t.discardOld l).disk.Reach (t.discardOld l).root a := by
  have hw := discardOld_tj_wf h.1 hl
  have hnd := hw.1.2.1
  constructor
  · intro hn
    induction hn with
    | @root a hr hne =>
      have hroot : (t.discardOld l).root = some a := by
        unfold Linked.TJ.discardOld; rw [if_neg hne]; exact hr
      obtain ⟨r, hr'⟩ := hw.2.1 a hroot
      rw [hroot]; exact .here hr'
    | @older a r x _ hr hlt hp ih =>
      refine reach_next ih (r := r) hr ?_ hnd
      show r.croppedPrior l = some x
      unfold JRec.croppedPrior; rw [if_pos hlt]; exact hp
  · intro hr
    have aux : ∀ p a, (t.discardOld l).disk.Reach p a → (∀ x, p = some x → Needed t l x) →
        Needed t l a := by
      intro p a hr
      induction hr with
      | here => intro hp; exact hp _ rfl
      | @there a r x he _ ih =>
        intro hp
        apply ih
        intro y hy
        have hy : r.croppedPrior l = some y := hy
        unfold JRec.croppedPrior at hy
        split at hy
        · exact .older (hp a rfl) he (by assumption) hy
        · cases hy
    apply aux _ _ hr
    intro x hx
    unfold Linked.TJ.discardOld at hx
    dsimp only at hx
    split at hx
    · cases hx
    · exact .root hx (by assumption)

/-- Whatever blocks a legal truncation drops, exactly the messages at or after the truncation
point stay readable. -/
theorem discard_keeps_messages {t new : Linked.TJ} (h : t.Decodable) {l} (hl : t.CanDiscardTo l)
    (hv : t.ValidDiscardOld l new) (k : LSN) (km : KeyedMessage) :
    CanRead new k km ↔ l ≤ k ∧ CanRead t k km := by
  obtain ⟨c, hc⟩ := walk_exists h.1.1 h.2 h.1.2.1
  obtain ⟨n1, n2, n3⟩ := validDiscard_walk h hl hv hc
  have hq : TJRel t ⟨t.disk.boundary, c⟩ := ⟨rfl, hc⟩
  have hqw := hq.wf h.1
  have hl' : Paged.TJ.CanDiscardTo ⟨t.disk.boundary, c⟩ l :=
    ⟨hl.1, by rw [hq.seqEnd]; exact hl.2⟩
  obtain ⟨d1, _, d3⟩ := Paged.TJ.discardOld_wf hqw hl'
  have hnew : TJRel new (Paged.TJ.discardOld ⟨t.disk.boundary, c⟩ l) := by
    refine ⟨n2.symm, ?_⟩
    show Walk new.disk new.root (if (Paged.TJ.mk _ c).seqEnd = l then [] else c.discard l)
    rw [hq.seqEnd]; exact n3
  have f := Paged.TJ.interp_facts hqw
  have hi : ∀ {t : Linked.TJ} {q : Paged.TJ}, TJRel t q → q.WF →
      (CanRead t k km ↔ q.boundary ≤ k ∧ q.interp.msgs k = some km) := by
    intro t q hq hw
    unfold CanRead
    rw [hq.1]
    constructor
    · rintro ⟨hb, a, r, h1, h2, h3⟩
      refine ⟨hb, (Chain.interp_msgs hw (by rw [hq.1]; exact hb) km).mpr ?_⟩
      exact ⟨r.msgs, (C10.walk_mem_iff hq.2 _).mpr ⟨a, r, h1, h2, rfl⟩, h3⟩
    · rintro ⟨hb, hm⟩
      obtain ⟨m, hm1, hm2⟩ := (Chain.interp_msgs hw (by rw [hq.1]; exact hb) km).mp hm
      obtain ⟨a, r, h1, h2, rfl⟩ := (C10.walk_mem_iff hq.2 m).mp hm1
      exact ⟨hb, a, r, h1, h2, hm2⟩
  rw [hi hnew d1, hi hq hqw, d3]
  show l ≤ k ∧ (if l ≤ k ∧ k < _ then _ else none) = some km ↔ _
  constructor
  · rintro ⟨hk, hm⟩
    split at hm
    · exact ⟨hk, by have := hl.1; exact Nat.le_trans this hk, hm⟩
    · cases hm
  · rintro ⟨hk, _, hm⟩
    have hc := (f.1.2 k).mp (by simp [PMap.Has, hm])
    exact ⟨hk, by rw [if_pos ⟨hk, hc.2⟩]; exact hm⟩

/-- The image stays readable and ends where it ended. -/
theorem discard_keeps_image {t new : Linked.TJ} (h : t.Decodable) {l} (hl : t.CanDiscardTo l)
    (hv : t.ValidDiscardOld l new) :
    new.Decodable ∧ new.disk.boundary = l ∧ new.seqEnd = t.seqEnd := by
  obtain ⟨c, hc⟩ := walk_exists h.1.1 h.2 h.1.2.1
  obtain ⟨n1, n2, n3⟩ := validDiscard_walk h hl hv hc
  refine ⟨n1, n2, ?_⟩
  have h1 : new.seqEnd = _ := n3.seqEnd
  have h0 : t.seqEnd = _ := hc.seqEnd
  rw [h1]
  by_cases he : t.seqEnd = l
  · rw [if_pos he, he]; exact n2
  · rw [if_neg he, Chain.discard_seqEnd, h0, n2]
    cases c with
    | nil =>
      have h9 : t.disk.boundary ≤ l := hl.1
      have := hl.2
      simp only [Chain.seqEnd] at h0; omega
    | cons => rfl

/-- Blocks kept are unchanged, and only blocks that are no longer needed are dropped. -/
theorem dropped_not_needed {t new : Linked.TJ} (h : t.Decodable) {l} (hl : t.CanDiscardTo l)
    (hv : t.ValidDiscardOld l new) :
    (∀ a r, new.disk.entries a = some r → t.disk.entries a = some r) ∧
    (∀ a, Needed t l a → ∃ r, t.disk.entries a = some r ∧ new.disk.entries a = some r) := by
  obtain ⟨v1, v2, v3, v4⟩ := hv
  refine ⟨v3.2, ?_⟩
  intro a ha
  have hr := (needed_iff h hl a).mp ha
  obtain ⟨r, hr'⟩ := Linked.Reach.has hr
  refine ⟨r, hr', v4.2 a r ?_⟩
  show ((t.discardOld l).disk.buildTight (t.discardOld l).root).entries a = some r
  unfold DiskView.buildTight
  have hac : (t.discardOld l).disk.Acyclic := discardOld_acyclic h.2 hl.1
  rw [if_pos hac]
  dsimp only
  rw [if_pos hr]; exact hr'

/-- Every block that is not needed may be dropped: keep exactly the needed ones. -/
theorem drop_all_garbage {t : Linked.TJ} (h : t.Decodable) {l} (hl : t.CanDiscardTo l) :
    ∃ new, t.ValidDiscardOld l new ∧
      ∀ a r, new.disk.entries a = some r ↔ Needed t l a ∧ t.disk.entries a = some r := by
  have hw := discardOld_tj_wf h.1 hl
  have ha : (t.discardOld l).disk.Acyclic := discardOld_acyclic h.2 hl.1
  obtain ⟨b1, b2, b3⟩ := buildTight_facts hw.1 ha hw.2.1
  refine ⟨(t.discardOld l).buildTight, ⟨⟨b1, b2, b2, ?_⟩, rfl, b3, rfl, fun _ _ h => h⟩, ?_⟩
  · intro a r hroot hr
    have := hw.2.2.2 a r hroot (b3.2 a r hr)
    have hb : (t.discardOld l).disk.boundary = (t.discardOld l).buildTight.disk.boundary := b3.1
    omega
  · intro a r
    rw [needed_iff h hl]
    show ((t.discardOld l).disk.buildTight (t.discardOld l).root).entries a = some r ↔ _
    unfold DiskView.buildTight
    rw [if_pos ha]
    dsimp only
    constructor
    · intro hx
      split at hx
      · exact ⟨by assumption, hx⟩
      · cases hx
    · rintro ⟨h1, h2⟩
      rw [if_pos h1]; exact h2

/-- Dropping nothing is allowed. -/
theorem drop_nothing {t : Linked.TJ} (h : t.Decodable) {l} (hl : t.CanDiscardTo l) :
    t.ValidDiscardOld l (t.discardOld l) := by
  have hw := discardOld_tj_wf h.1 hl
  have ha : (t.discardOld l).disk.Acyclic := discardOld_acyclic h.2 hl.1
  obtain ⟨b1, b2, b3⟩ := buildTight_facts hw.1 ha hw.2.1
  exact ⟨hw, rfl, ⟨rfl, fun _ _ h => h⟩, b3⟩

/-- The needed blocks are the least one can keep: any part of the disk that is well formed by
itself and holds the newest record has them all. -/
theorem needed_is_least {t : Linked.TJ} (h : t.Decodable) {l} (hl : t.CanDiscardTo l)
    {d : DiskView} (hs : d.IsSubDisk (t.discardOld l).disk) (hw : d.WF)
    (hr : d.Nondangling (t.discardOld l).root) {a} (ha : Needed t l a) :
    ∃ r, d.entries a = some r := by
  have hreach := (needed_iff h hl a).mp ha
  have aux : ∀ p a, (t.discardOld l).disk.Reach p a → d.Nondangling p → ∃ r, d.entries a = some r := by
    intro p a hr
    induction hr with
    | here => intro hp; exact hp _ rfl
    | @there a r x he _ ih =>
      intro hp
      obtain ⟨r', hr'⟩ := hp a rfl
      have := hs.2 a r' hr'
      rw [he] at this; cases this
      apply ih
      rw [hs.1]
      exact hw.2.1 a r hr'
  exact aux _ _ hreach hr

/-- All of this holds in every reachable state of the journal, for its `discard_old` step. -/
theorem discard_step {t tr s s' l e} (h : (Linked.machine t).Exec tr s)
    (hs : Linked.Next s (.discardOld l e) s') :
    s'.tj.Decodable ∧ s'.tj.disk.boundary = l ∧
    (∀ k km, CanRead s'.tj k km ↔ l ≤ k ∧ CanRead s.tj k km) ∧
    (∀ a, Needed s.tj l a → ∃ r, s.tj.disk.entries a = some r ∧ s'.tj.disk.entries a = some r) ∧
    ∀ a r, s'.tj.disk.entries a = some r → s.tj.disk.entries a = some r := by
  have hi := C10.inv_reach h
  cases hs with
  | @discardOld _ new hw hcd hvd =>
    obtain ⟨k1, k2, _⟩ := discard_keeps_image hi.2 hcd hvd
    obtain ⟨d1, d2⟩ := dropped_not_needed hi.2 hcd hvd
    exact ⟨k1, k2, discard_keeps_messages hi.2 hcd hvd, d2, d1⟩

/-- A truncation to any LSN of the marshalled part is always possible. -/
theorem discard_possible {t tr s} (h : (Linked.machine t).Exec tr s) {l}
    (hl : s.tj.CanDiscardTo l) : ∃ s', Linked.Next s (.discardOld l s.tail.seqEnd) s' := by
  have hi := C10.inv_reach h
  exact ⟨_, .discardOld hi.1 hl (drop_nothing hi.2 hl)⟩

/-- Concrete case: of the two blocks of the run in C10, truncating to LSN 2 needs only the newer
one, truncating to LSN 1 (inside the older block) needs both. -/
example : ∃ s, (Linked.machine .mkfs).Exec C10.demo s ∧
    s.tj.Decodable ∧ s.tj.CanDiscardTo 2 ∧ s.tj.CanDiscardTo 1 ∧
    Needed s.tj 2 C10.a1 ∧ ¬ Needed s.tj 2 C10.a0 ∧ Needed s.tj 1 C10.a0 := by
  have e0 : (Linked.machine .mkfs).Exec [] ⟨.mkfs, .emptyAt 0⟩ :=
    ⟨_, ⟨C10.mkfs_decodable, rfl⟩, .nil _⟩
  have e1 := C10.Exec_step (l := .put C09.m3) e0 (.put (C10.inv_reach e0).1 C09.m3_wf rfl)
  have e2 := C10.Exec_step (l := .internal) e1
    (.marshal (cut := 2) (a := C10.a0) rfl (C10.inv_reach e1).1 (by decide) ⟨by decide, by decide⟩)
  have e3 := C10.Exec_step (l := .internal) e2
    (.marshal (cut := 3) (a := C10.a1) (by decide) (C10.inv_reach e2).1 (by decide)
      ⟨by decide, by decide⟩)
  have e4 := C10.Exec_step (l := .queryEndLsn 3) e3 (.queryEndLsn (C10.inv_reach e3).1)
  refine ⟨_, e4, (C10.inv_reach e4).2, ⟨by decide, by decide⟩, ⟨by decide, by decide⟩, ?_, ?_, ?_⟩
  · exact .root rfl (by decide)
  · have key : ∀ tj : Linked.TJ, tj.root = some C10.a1 →
        (∀ r, tj.disk.entries C10.a1 = some r → ¬ 2 < r.msgs.seqStart) →
        ¬ Needed tj 2 C10.a0 := by
      intro tj h1 h2 hn
      have hy : ∀ y, Needed tj 2 y → y = C10.a1 := by
        intro y hy
        induction hy with
        | root hr _ => rw [h1] at hr; cases hr; rfl
        | older _ he hlt _ ih => rw [ih] at he; exact absurd hlt (h2 _ he)
      exact absurd (hy _ hn) (by decide)
    exact key _ rfl (fun r hr => by cases hr; decide)
  · exact .older (.root rfl (by decide)) rfl (by decide) rfl

end Verif.C11
