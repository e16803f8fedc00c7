import Verif.Base.Disk
import Verif.Journal.Paged
/-
Model of Splinter/src/journal/LinkedJournal_v.rs and of the interpretation in
LinkedJournalRefinement_v.rs.
-/
namespace Verif.Linked
open Verif Paged
open Classical in
attribute [local instance] propDecidable

/-- LinkedJournal_v.rs 20-29 -/
@[ext] structure JRec where
  msgs : MsgHistory
  prior : Pointer

namespace JRec

/-- LinkedJournal_v.rs 32-35 -/
def WF (r : JRec) : Prop := r.msgs.WF ∧ ¬ r.msgs.IsEmpty

/-- LinkedJournal_v.rs 41-43 -/
def croppedPrior (r : JRec) (b : LSN) : Pointer := if b < r.msgs.seqStart then r.prior else none

/-- LinkedJournal_v.rs 37-39 -/
def HasLink (r : JRec) (b : LSN) : Prop := b < r.msgs.seqStart → r.croppedPrior b ≠ none

end JRec

/-- LinkedJournal_v.rs 59-62 -/
@[ext] structure DiskView where
  boundary : LSN
  entries : PMap Address JRec

namespace DiskView

/-- LinkedJournal_v.rs 65-67 -/
def EntriesWF (d : DiskView) : Prop := ∀ a r, d.entries a = some r → r.WF

/-- LinkedJournal_v.rs 69-71 -/
def Nondangling (d : DiskView) (p : Pointer) : Prop := ∀ a, p = some a → ∃ r, d.entries a = some r

/-- LinkedJournal_v.rs 73-76 -/
def NondanglingPointers (d : DiskView) : Prop :=
  ∀ a r, d.entries a = some r → d.Nondangling (r.croppedPrior d.boundary)

/-- LinkedJournal_v.rs 78-98 `this_block_can_concat`, `blocks_can_concat` -/
def BlocksCanConcat (d : DiskView) : Prop :=
  ∀ a r p q, d.entries a = some r → r.croppedPrior d.boundary = some p → d.entries p = some q →
    q.msgs.CanConcat r.msgs

/-- LinkedJournal_v.rs 100-104 -/
def BlocksEachHaveLink (d : DiskView) : Prop := ∀ a r, d.entries a = some r → r.HasLink d.boundary

/-- LinkedJournal_v.rs 106-110 -/
def BlockInBounds (d : DiskView) (p : Pointer) : Prop :=
  d.Nondangling p ∧ ∀ a r, p = some a → d.entries a = some r → d.boundary < r.msgs.seqEnd

/-- LinkedJournal_v.rs 112-118 -/
def WF (d : DiskView) : Prop :=
  d.EntriesWF ∧ d.NondanglingPointers ∧ d.BlocksCanConcat ∧ d.BlocksEachHaveLink

/-- LinkedJournal_v.rs 120-128 -/
def ValidRanking (d : DiskView) (rk : Ranking) : Prop :=
  ∀ a r p, d.entries a = some r → r.croppedPrior d.boundary = some p → rk p < rk a

/-- LinkedJournal_v.rs 130-135 -/
def Acyclic (d : DiskView) : Prop := ∃ rk, d.ValidRanking rk

/-- LinkedJournal_v.rs 145-149 -/
def Decodable (d : DiskView) (p : Pointer) : Prop := d.WF ∧ d.Nondangling p

/-- LinkedJournal_v.rs 168-176. On a dangling pointer the Rust value is unspecified, here the
boundary. -/
def seqEnd (d : DiskView) : Pointer → LSN
  | none => d.boundary
  | some a => match d.entries a with
    | some r => r.msgs.seqEnd
    | none => d.boundary

/-- LinkedJournal_v.rs 179-184 -/
def discardOld (d : DiskView) (l : LSN) : DiskView := { d with boundary := l }

/-- LinkedJournal_v.rs 186-190 -/
def IsSubDisk (d big : DiskView) : Prop :=
  big.boundary = d.boundary ∧ ∀ a r, d.entries a = some r → big.entries a = some r

/-- LinkedJournal_v.rs 292-301 `next` (none on a dangling pointer, unspecified in Rust) -/
def next (d : DiskView) : Pointer → Pointer
  | none => none
  | some a => match d.entries a with
    | some r => r.croppedPrior d.boundary
    | none => none

/-- Addresses visited by following `next` from a pointer. -/
inductive Reach (d : DiskView) : Pointer → Address → Prop
  | here {a r} : d.entries a = some r → Reach d (some a) a
  | there {a r x} : d.entries a = some r → Reach d (r.croppedPrior d.boundary) x →
      Reach d (some a) x

/-- LinkedJournal_v.rs 210-227 `build_tight`. The code recurses along `next`, inserting each
visited block; the model restricts the map to the blocks visited (`buildTight_rec` below recovers
the recursion). -/
noncomputable def buildTight (d : DiskView) (root : Pointer) : DiskView :=
  if d.Acyclic then
    { boundary := d.boundary, entries := fun a => if d.Reach root a then d.entries a else none }
  else { boundary := 0, entries := PMap.empty }

/-- LinkedJournal_v.rs 248-259 -/
def CanCrop (d : DiskView) : Pointer → Nat → Prop
  | _, 0 => True
  | p, n + 1 => p ≠ none ∧ CanCrop d (d.next p) n

/-- LinkedJournal_v.rs 261-270 -/
def pointerAfterCrop (d : DiskView) : Pointer → Nat → Pointer
  | p, 0 => p
  | p, n + 1 => pointerAfterCrop d (d.next p) n

end DiskView

/-- LinkedJournal_v.rs 430-433 -/
@[ext] structure TJ where
  root : Pointer
  disk : DiskView

namespace TJ

/-- LinkedJournal_v.rs 436-440 -/
def WF (t : TJ) : Prop := t.disk.WF ∧ t.disk.Nondangling t.root ∧ t.disk.BlockInBounds t.root

/-- LinkedJournal_v.rs 442-444 -/
def seqStart (t : TJ) : LSN := t.disk.boundary

/-- LinkedJournal_v.rs 446-451 -/
def seqEnd (t : TJ) : LSN := t.disk.seqEnd t.root

/-- LinkedJournal_v.rs 453-458 -/
def CanDiscardTo (t : TJ) (l : LSN) : Prop := t.seqStart ≤ l ∧ l ≤ t.seqEnd

/-- LinkedJournal_v.rs 460-470 -/
def discardOld (t : TJ) (l : LSN) : TJ :=
  { root := if t.seqEnd = l then none else t.root, disk := t.disk.discardOld l }

/-- LinkedJournal_v.rs 525-533 -/
noncomputable def buildTight (t : TJ) : TJ := { t with disk := t.disk.buildTight t.root }

/-- LinkedJournal_v.rs 472-484 -/
def ValidDiscardOld (t : TJ) (l : LSN) (new : TJ) : Prop :=
  new.WF ∧ new.root = (t.discardOld l).root ∧
  new.disk.IsSubDisk (t.discardOld l).disk ∧
  (t.discardOld l).buildTight.disk.IsSubDisk new.disk

/-- LinkedJournal_v.rs 486-490 -/
def Decodable (t : TJ) : Prop := t.WF ∧ t.disk.Acyclic

/-- LinkedJournal_v.rs 498-504 -/
def crop (t : TJ) (n : Nat) : TJ := { t with root := t.disk.pointerAfterCrop t.root n }

/-- LinkedJournal_v.rs 513-523 -/
def appendRecord (t : TJ) (a : Address) (m : MsgHistory) : TJ :=
  { root := some a
    disk := { t.disk with entries := t.disk.entries.insert a { msgs := m, prior := t.root } } }

/-- LinkedJournal_v.rs 535-541 -/
def mkfs : TJ := { root := none, disk := { boundary := 0, entries := PMap.empty } }

end TJ

/-- LinkedJournal_v.rs 590-600 `bounded_discard` -/
def boundedDiscard (m : MsgHistory) (l : LSN) : MsgHistory :=
  if m.seqStart ≤ l then m.discardOld l else m

/-- LinkedJournal_v.rs 602-606 -/
@[ext] structure State where
  tj : TJ
  tail : MsgHistory

/-- LinkedJournal_v.rs 609-615 -/
def State.WF (s : State) : Prop :=
  s.tj.WF ∧ s.tail.WF ∧ s.tj.seqStart ≤ s.tj.seqEnd ∧ s.tj.seqEnd = s.tail.seqStart

/-- LinkedJournal_v.rs 655-747 (labels 635-643, `lbl_wf` 645-652) -/
inductive Next : State → Label TJ → State → Prop
  /-- 655-665 -/
  | readForRecovery {s : State} {m n a r} : s.WF → m.WF → s.tj.Decodable →
      s.tj.disk.CanCrop s.tj.root n →
      s.tj.disk.pointerAfterCrop s.tj.root n = some a → s.tj.disk.entries a = some r →
      r.msgs.maybeDiscardOld s.tj.disk.boundary = m →
      Next s (.readForRecovery m) s
  /-- 667-684 -/
  | freezeForCommit {s : State} {z n} : s.WF → z.Decodable → s.tj.Decodable →
      s.tj.disk.CanCrop s.tj.root n → s.tj.disk.boundary ≤ z.seqStart →
      (s.tj.crop n).CanDiscardTo z.seqStart →
      (s.tj.crop n).ValidDiscardOld z.seqStart z →
      Next s (.freezeForCommit z) s
  /-- 686-691 -/
  | queryEndLsn {s : State} : s.WF → Next s (.queryEndLsn s.tail.seqEnd) s
  /-- 693-700 -/
  | put {s : State} {m} : s.WF → m.WF → m.seqStart = s.tail.seqEnd →
      Next s (.put m) { s with tail := s.tail.concat m }
  /-- 702-719 -/
  | discardOld {s : State} {l new} : s.WF → s.tj.CanDiscardTo l → s.tj.ValidDiscardOld l new →
      Next s (.discardOld l s.tail.seqEnd) { tj := new, tail := boundedDiscard s.tail l }
  /-- 726-739 -/
  | marshal {s : State} {cut a} : s.tj.disk.entries a = none → s.WF →
      s.tail.seqStart < cut → s.tail.CanDiscardTo cut →
      Next s .internal
        { tj := s.tj.appendRecord a (s.tail.discardRecent cut), tail := s.tail.discardOld cut }
  /-- 741-744 -/
  | noop {s : State} : s.WF → Next s .internal s

/-- LinkedJournal_v.rs 746-750 -/
def Init (t : TJ) (s : State) : Prop :=
  t.Decodable ∧ s = { tj := t, tail := .emptyAt t.seqEnd }

/-- The linked journal opened on image `t`. -/
def machine (t : TJ) : Machine State (Label TJ) := { Init := Init t, Step := Next }

/-- LinkedJournal_v.rs 752-757 -/
def State.Inv (s : State) : Prop := s.WF ∧ s.tj.Decodable

/-- LinkedJournalRefinement_v.rs 28-44 `iptr`, as a relation: following the pointer `p` visits
records with these message sequences, newest first, and ends. -/
inductive Walk (d : DiskView) : Pointer → Chain → Prop
  | nil : Walk d none []
  | cons {a r c} : d.entries a = some r → Walk d (r.croppedPrior d.boundary) c →
      Walk d (some a) (r.msgs :: c)

/-! ### Lemmas -/

theorem Walk.det {d p c c'} (h : Walk d p c) (h' : Walk d p c') : c = c' := by
  induction h generalizing c' with
  | nil => cases h'; rfl
  | cons he _ ih =>
    cases h' with
    | cons he' hw' =>
      rw [he] at he'; cases he'
      rw [ih hw']

/-- Following pointers terminates in a decodable acyclic disk. -/
theorem walk_exists {d : DiskView} (hw : d.WF) (ha : d.Acyclic) {p} (hp : d.Nondangling p) :
    ∃ c, Walk d p c := by
  obtain ⟨rk, hrk⟩ := ha
  have aux : ∀ n p, d.Nondangling p → (∀ a, p = some a → rk a < n) → ∃ c, Walk d p c := by
    intro n
    induction n with
    | zero =>
      intro p _ hn
      cases p with
      | none => exact ⟨[], .nil⟩
      | some a => exact absurd (hn a rfl) (by omega)
    | succ n ih =>
      intro p hp hn
      cases p with
      | none => exact ⟨[], .nil⟩
      | some a =>
        obtain ⟨r, hr⟩ := hp a rfl
        obtain ⟨c, hc⟩ := ih (r.croppedPrior d.boundary) (hw.2.1 a r hr) (by
          intro x hx
          have := hrk a r x hr hx
          have := hn a rfl; omega)
        exact ⟨_, .cons hr hc⟩
  cases p with
  | none => exact ⟨[], .nil⟩
  | some a => exact aux (rk a + 1) _ hp (by intro x hx; cases hx; omega)

theorem Walk.seqEnd {d p c} (h : Walk d p c) : d.seqEnd p = c.seqEnd d.boundary := by
  cases h with
  | nil => rfl
  | cons he _ => simp only [DiskView.seqEnd, he]; rfl

/-- `iptr_output_valid`, LinkedJournalRefinement_v.rs 84-97 -/
theorem Walk.valid {d p c} (h : Walk d p c) (hw : d.WF) (hb : d.BlockInBounds p) :
    c.OptValid d.boundary := by
  obtain ⟨w1, w2, w3, w4⟩ := hw
  induction h with
  | nil => simp [Chain.OptValid]
  | @cons a r c he hc ih =>
    intro _
    have hrw := w1 a r he
    have hend : d.boundary < r.msgs.seqEnd := hb.2 a r rfl he
    by_cases hs : d.boundary < r.msgs.seqStart
    · have hcp : r.croppedPrior d.boundary ≠ none := w4 a r he hs
      obtain ⟨p, hp⟩ := Option.ne_none_iff_exists'.mp hcp
      obtain ⟨q, hq⟩ := w2 a r he p hp
      have hcat : r.msgs.seqStart = q.msgs.seqEnd := w3 a r p q he hp hq
      have hib : d.BlockInBounds (r.croppedPrior d.boundary) := by
        refine ⟨w2 a r he, ?_⟩
        intro a' r' h1 h2
        rw [hp] at h1; cases h1
        rw [hq] at h2; cases h2
        omega
      have ih := ih hib
      rw [hp] at hc
      cases hc with
      | cons hq' hc' =>
        rw [hq] at hq'; cases hq'
        have hv := ih (by simp)
        exact ⟨⟨hrw.1, hv.wf, hcat⟩, hend, .inr hv⟩
    · have hnone : r.croppedPrior d.boundary = none := by
        simp only [JRec.croppedPrior, if_neg hs]
      rw [hnone] at hc
      cases hc
      exact ⟨hrw.1, hend, .inl ⟨by omega, Nat.le_of_lt hend⟩⟩

theorem Walk.mono {d big : DiskView} (hs : d.IsSubDisk big) {p c} (h : Walk d p c) :
    Walk big p c := by
  induction h with
  | nil => exact .nil
  | cons he _ ih =>
    refine .cons (hs.2 _ _ he) ?_
    rw [hs.1]; exact ih

/-- `iptr_ignores_extra_blocks`, LinkedJournalRefinement_v.rs 61-82 -/
theorem Walk.restrict {d big : DiskView} (hs : d.IsSubDisk big) (hd : d.NondanglingPointers) {p c}
    (h : Walk big p c) (hp : d.Nondangling p) : Walk d p c := by
  induction h with
  | nil => exact .nil
  | @cons a r c he hc ih =>
    obtain ⟨r', hr'⟩ := hp a rfl
    have := hs.2 a r' hr'
    rw [he] at this; cases this
    refine .cons hr' ?_
    rw [← hs.1]
    exact ih (by rw [hs.1]; exact hd a r hr')

/-- `discard_interp`: raising the boundary crops the walk. -/
theorem Walk.raise {d : DiskView} {l : LSN} (hl : d.boundary ≤ l) {p c} (h : Walk d p c) :
    Walk (d.discardOld l) p (c.discard l) := by
  induction h with
  | nil => exact .nil
  | @cons a r c he hc ih =>
    simp only [Chain.discard]
    refine .cons (d := d.discardOld l) he ?_
    show Walk (d.discardOld l) (r.croppedPrior l) _
    by_cases hs : r.msgs.seqStart ≤ l
    · rw [if_pos hs]
      have : r.croppedPrior l = none := by
        simp only [JRec.croppedPrior]; rw [if_neg (by omega)]
      rw [this]; exact .nil
    · rw [if_neg hs]
      have : r.croppedPrior l = r.croppedPrior d.boundary := by
        simp only [JRec.croppedPrior]; rw [if_pos (by omega), if_pos (by omega)]
      rw [this]; exact ih

theorem Walk.next {d p c} (h : Walk d p c) : Walk d (d.next p) c.tail := by
  cases h with
  | nil => exact .nil
  | cons he hc => simp only [DiskView.next, he, List.tail_cons]; exact hc

/-- In a walked chain nothing follows a record reaching down to the boundary. -/
theorem Walk.croppedPrior {d p c} (h : Walk d p c) : Chain.croppedPrior d.boundary c = c.tail := by
  cases h with
  | nil => rfl
  | @cons a r c he hc =>
    simp only [Chain.croppedPrior, List.tail_cons]
    split
    · rename_i hs
      have : r.croppedPrior d.boundary = none := by
        simp only [JRec.croppedPrior]; rw [if_neg (by omega)]
      rw [this] at hc; cases hc; rfl
    · rfl

theorem next_inBounds {d : DiskView} (hw : d.WF) {p} (hb : d.BlockInBounds p) :
    d.BlockInBounds (d.next p) := by
  obtain ⟨w1, w2, w3, w4⟩ := hw
  cases p with
  | none => exact hb
  | some a =>
    obtain ⟨r, hr⟩ := hb.1 a rfl
    simp only [DiskView.next, hr]
    refine ⟨w2 a r hr, ?_⟩
    intro x q hx hq
    have : r.msgs.seqStart = q.msgs.seqEnd := w3 a r x q hr hx hq
    have : d.boundary < r.msgs.seqStart := by
      unfold JRec.croppedPrior at hx
      split at hx
      · assumption
      · cases hx
    omega

theorem crop_inBounds {d : DiskView} (hw : d.WF) {p n} (hb : d.BlockInBounds p) :
    d.BlockInBounds (d.pointerAfterCrop p n) := by
  induction n generalizing p with
  | zero => exact hb
  | succ n ih => exact ih (next_inBounds hw hb)

/-- `pointer_after_crop_commutes_with_interpretation` -/
theorem Walk.crop {d p c} (h : Walk d p c) (hw : d.WF) (hb : d.BlockInBounds p) {n}
    (hc : d.CanCrop p n) :
    Walk d (d.pointerAfterCrop p n) (c.crop d.boundary n) ∧ c.CanCrop d.boundary n := by
  induction n generalizing p c with
  | zero =>
    rw [Chain.crop_zero]
    refine ⟨h, ?_⟩
    have hv := h.valid hw hb
    cases c with
    | nil => trivial
    | cons m r => exact hv (by simp)
  | succ n ih =>
    obtain ⟨h1, h2⟩ := hc
    have hcp := h.croppedPrior
    have := ih h.next (next_inBounds hw hb) h2
    have hv := h.valid hw hb
    cases h with
    | nil => exact absurd rfl h1
    | cons he hc' =>
      refine ⟨?_, hv (by simp), ?_⟩
      · show Walk d _ (Chain.crop d.boundary n (Chain.croppedPrior d.boundary _))
        rw [hcp]; exact this.1
      · rw [hcp]; exact this.2

theorem canCrop_succ {d : DiskView} {p n} (h : d.CanCrop p n) (hn : d.pointerAfterCrop p n ≠ none) :
    d.CanCrop p (n + 1) := by
  induction n generalizing p with
  | zero => exact ⟨hn, trivial⟩
  | succ n ih => exact ⟨h.1, ih h.2 hn⟩

theorem discardOld_wf {d : DiskView} (hw : d.WF) {l} (hl : d.boundary ≤ l) :
    (d.discardOld l).WF := by
  obtain ⟨w1, w2, w3, w4⟩ := hw
  have key : ∀ (r : JRec) x, r.croppedPrior l = some x → r.croppedPrior d.boundary = some x := by
    intro r x hx
    unfold JRec.croppedPrior at hx ⊢
    split at hx
    · rw [if_pos (by omega)]; exact hx
    · cases hx
  refine ⟨w1, ?_, ?_, ?_⟩
  · intro a r hr x hx
    exact w2 a r hr x (key r x hx)
  · intro a r p q h1 h2 h3
    exact w3 a r p q h1 (key r p h2) h3
  · intro a r hr hs
    have hs : l < r.msgs.seqStart := hs
    have := w4 a r hr (by omega)
    unfold JRec.croppedPrior at this
    rw [if_pos (by omega)] at this
    show r.croppedPrior l ≠ none
    unfold JRec.croppedPrior; rw [if_pos hs]; exact this

theorem discardOld_acyclic {d : DiskView} (ha : d.Acyclic) {l} (hl : d.boundary ≤ l) :
    (d.discardOld l).Acyclic := by
  obtain ⟨rk, hrk⟩ := ha
  refine ⟨rk, fun a r p h1 h2 => hrk a r p h1 ?_⟩
  have h2 : r.croppedPrior l = some p := h2
  unfold JRec.croppedPrior at h2 ⊢
  split at h2
  · rw [if_pos (by omega)]; exact h2
  · cases h2

/-- `sub_disk_ranking` -/
theorem subDisk_acyclic {d big : DiskView} (hs : d.IsSubDisk big) (ha : big.Acyclic) :
    d.Acyclic := by
  obtain ⟨rk, hrk⟩ := ha
  exact ⟨rk, fun a r p h1 h2 => hrk a r p (hs.2 a r h1) (by rw [hs.1]; exact h2)⟩

theorem discardOld_tj_wf {t : TJ} (h : t.WF) {l} (hl : t.CanDiscardTo l) : (t.discardOld l).WF := by
  obtain ⟨h1, h2, h3⟩ := h
  have hd := discardOld_wf h1 (l := l) hl.1
  have hb : (t.disk.discardOld l).BlockInBounds (t.discardOld l).root := by
    unfold TJ.discardOld
    dsimp only
    split
    · constructor <;> simp [DiskView.Nondangling]
    · rename_i hne
      refine ⟨h2, ?_⟩
      intro a r hroot hr
      have hr : t.disk.entries a = some r := hr
      show l < r.msgs.seqEnd
      have he : t.seqEnd = r.msgs.seqEnd := by
        unfold TJ.seqEnd; rw [hroot]; simp only [DiskView.seqEnd, hr]
      have := hl.2
      omega
  exact ⟨hd, hb.1, hb⟩

/-- What is left after a truncation, whatever blocks were dropped. -/
theorem validDiscard_walk {t new : TJ} (h : t.Decodable) {l} (hl : t.CanDiscardTo l)
    (hv : t.ValidDiscardOld l new) {c} (hc : Walk t.disk t.root c) :
    new.Decodable ∧ new.disk.boundary = l ∧
    Walk new.disk new.root (if t.seqEnd = l then [] else c.discard l) := by
  obtain ⟨v1, v2, v3, v4⟩ := hv
  have hacyc : (t.discardOld l).disk.Acyclic := discardOld_acyclic h.2 hl.1
  refine ⟨⟨v1, subDisk_acyclic v3 hacyc⟩, v3.1.symm, ?_⟩
  have hw : Walk (t.discardOld l).disk (t.discardOld l).root
      (if t.seqEnd = l then [] else c.discard l) := by
    unfold TJ.discardOld
    dsimp only
    split
    · exact .nil
    · exact hc.raise hl.1
  rw [v2]
  exact hw.restrict v3 v1.1.2.1 (by rw [← v2]; exact v1.2.1)

theorem tj_seqStart_le {t : TJ} (h : t.WF) : t.seqStart ≤ t.seqEnd := by
  unfold TJ.seqEnd TJ.seqStart
  cases hr : t.root with
  | none => exact Nat.le_refl _
  | some a =>
    have h3 := h.2.2
    rw [hr] at h3
    obtain ⟨r, hr'⟩ := h3.1 a rfl
    simp only [DiskView.seqEnd, hr']
    exact Nat.le_of_lt (h3.2 a r rfl hr')

/-- Appending a record at a fresh address. -/
theorem append_facts {s : State} (h : s.Inv) {cut a} (ha : s.tj.disk.entries a = none)
    (h1 : s.tail.seqStart < cut) (h2 : s.tail.CanDiscardTo cut) {c}
    (hc : Walk s.tj.disk s.tj.root c) :
    (s.tj.appendRecord a (s.tail.discardRecent cut)).Decodable ∧
    Walk (s.tj.appendRecord a (s.tail.discardRecent cut)).disk (some a)
      (s.tail.discardRecent cut :: c) := by
  obtain ⟨⟨htj, htail, hse, hstitch⟩, _, rk, hrk⟩ := h
  obtain ⟨⟨w1, w2, w3, w4⟩, hnd, hib⟩ := htj
  -- the new disk
  generalize hd : (s.tj.appendRecord a (s.tail.discardRecent cut)).disk = d
  have hdb : d.boundary = s.tj.disk.boundary := by rw [← hd]; rfl
  have hnew : d.entries a = some { msgs := s.tail.discardRecent cut, prior := s.tj.root } := by
    rw [← hd]; simp [TJ.appendRecord]
  have hold : ∀ x, x ≠ a → d.entries x = s.tj.disk.entries x := by
    intro x hx; rw [← hd]; simp only [TJ.appendRecord]; exact PMap.insert_other _ _ hx
  have holds : ∀ x r, s.tj.disk.entries x = some r → d.entries x = some r := by
    intro x r hr
    rw [hold x (by rintro rfl; rw [ha] at hr; cases hr)]; exact hr
  have hcase : ∀ x r, d.entries x = some r →
      (x = a ∧ r = { msgs := s.tail.discardRecent cut, prior := s.tj.root }) ∨
      s.tj.disk.entries x = some r := by
    intro x r hr
    by_cases hx : x = a
    · subst hx; rw [hnew] at hr; cases hr; exact .inl ⟨rfl, rfl⟩
    · rw [hold x hx] at hr; exact .inr hr
  have hss : (s.tail.discardRecent cut).seqStart = s.tail.seqStart := rfl
  have hb : s.tj.disk.boundary ≤ s.tj.seqEnd := hse
  -- with a boundary at the start there is no previous record
  have hroot : s.tj.root ≠ none → s.tj.disk.boundary < s.tail.seqStart := by
    intro hne
    obtain ⟨x, hx⟩ := Option.ne_none_iff_exists'.mp hne
    obtain ⟨r, hr⟩ := hib.1 x hx
    have := hib.2 x r hx hr
    have he : s.tj.seqEnd = r.msgs.seqEnd := by
      unfold TJ.seqEnd; rw [hx]; simp only [DiskView.seqEnd, hr]
    omega
  have hrootnone : s.tj.root = none → s.tail.seqStart = s.tj.disk.boundary := by
    intro hn
    rw [← hstitch]; unfold TJ.seqEnd; rw [hn]; rfl
  have hcp : JRec.croppedPrior { msgs := s.tail.discardRecent cut, prior := s.tj.root } d.boundary
      = s.tj.root := by
    simp only [JRec.croppedPrior]
    split
    · rfl
    · rename_i hn
      rw [hss, hdb] at hn
      by_cases hne : s.tj.root = none
      · exact hne.symm
      · exact absurd (hroot hne) hn
  have hbelow : ∀ x, s.tj.root = some x → ∃ r, s.tj.disk.entries x = some r ∧
      r.msgs.seqEnd = s.tail.seqStart := by
    intro x hx
    obtain ⟨r, hr⟩ := hnd x hx
    refine ⟨r, hr, ?_⟩
    rw [← hstitch]; unfold TJ.seqEnd; rw [hx]; simp only [DiskView.seqEnd, hr]
  have hdw : d.WF := by
    refine ⟨?_, ?_, ?_, ?_⟩
    · intro x r hr
      rcases hcase x r hr with ⟨rfl, rfl⟩ | hr
      · refine ⟨MsgHistory.wf_discardRecent htail h2, ?_⟩
        show ¬ s.tail.seqStart = cut
        omega
      · exact w1 x r hr
    · intro x r hr y hy
      rcases hcase x r hr with ⟨rfl, rfl⟩ | hr
      · rw [hcp] at hy
        obtain ⟨q, hq⟩ := hnd y hy
        exact ⟨q, holds y q hq⟩
      · rw [hdb] at hy
        obtain ⟨q, hq⟩ := w2 x r hr y hy
        exact ⟨q, holds y q hq⟩
    · intro x r p q hr hp hq
      rcases hcase x r hr with ⟨rfl, rfl⟩ | hr
      · rw [hcp] at hp
        obtain ⟨q', hq', he⟩ := hbelow p hp
        rw [holds p q' hq'] at hq; cases hq
        exact he.symm
      · rw [hdb] at hp
        obtain ⟨q', hq'⟩ := w2 x r hr p hp
        rw [holds p q' hq'] at hq; cases hq
        exact w3 x r p _ hr hp hq'
    · intro x r hr
      rcases hcase x r hr with ⟨rfl, rfl⟩ | hr
      · intro hlt
        rw [hcp]
        intro hn
        rw [hss, hdb] at hlt
        have := hrootnone hn
        omega
      · rw [hdb]; exact w4 x r hr
  have hib' : d.BlockInBounds (some a) := by
    refine ⟨fun x hx => ⟨_, by cases hx; exact hnew⟩, ?_⟩
    intro x r hx hr
    cases hx
    rw [hnew] at hr; cases hr
    rw [hdb]; show s.tj.disk.boundary < cut
    omega
  have hrkd : d.Acyclic := by
    refine ⟨fun x => if x = a then (match s.tj.root with | none => 0 | some y => rk y + 1) else rk x, ?_⟩
    intro x r p hr hp
    have hpa : ∀ q, s.tj.disk.entries p = some q → p ≠ a := by
      rintro q hq rfl; rw [ha] at hq; cases hq
    rcases hcase x r hr with ⟨rfl, rfl⟩ | hr
    · rw [hcp] at hp
      obtain ⟨q, hq⟩ := hnd p hp
      simp only [if_neg (hpa q hq), if_true, hp]
      exact Nat.lt_succ_self _
    · rw [hdb] at hp
      obtain ⟨q, hq⟩ := w2 x r hr p hp
      have hxa : x ≠ a := by rintro rfl; rw [ha] at hr; cases hr
      simp only [if_neg (hpa q hq), if_neg hxa]
      exact hrk x r p hr hp
  refine ⟨⟨⟨by rw [hd]; exact hdw, by rw [hd]; exact hib'.1, by rw [hd]; exact hib'⟩, by rw [hd]; exact hrkd⟩, ?_⟩
  refine .cons hnew ?_
  rw [hcp]
  exact hc.mono ⟨hdb, holds⟩

/-- Relation between a linked image and a paged one. -/
def TJRel (t : TJ) (q : Paged.TJ) : Prop :=
  q.boundary = t.disk.boundary ∧ Walk t.disk t.root q.chain

theorem TJRel.det {t q q'} (h : TJRel t q) (h' : TJRel t q') : q = q' := by
  ext1
  · rw [h.1, h'.1]
  · exact h.2.det h'.2

theorem TJRel.exists {t : TJ} (h : t.Decodable) : ∃ q, TJRel t q := by
  obtain ⟨c, hc⟩ := walk_exists h.1.1 h.2 h.1.2.1
  exact ⟨⟨t.disk.boundary, c⟩, rfl, hc⟩

theorem TJRel.seqEnd {t q} (h : TJRel t q) : q.seqEnd = t.seqEnd := by
  unfold TJ.seqEnd Paged.TJ.seqEnd
  rw [h.2.seqEnd, h.1]

theorem TJRel.wf {t q} (h : TJRel t q) (hw : t.WF) : q.WF := by
  have := h.2.valid hw.1 hw.2.2
  unfold Paged.TJ.WF; rw [h.1]; exact this

/-- Relation between states. -/
def Rel (s : State) (p : Paged.State) : Prop := s.Inv ∧ TJRel s.tj p.tj ∧ p.tail = s.tail

theorem Rel.wf {s p} (h : Rel s p) : p.WF := by
  obtain ⟨⟨hw, hd⟩, hr, ht⟩ := h
  refine ⟨hr.wf hw.1, by rw [ht]; exact hw.2.1, ?_⟩
  rw [hr.seqEnd, ht]; exact hw.2.2.2

/-- Labels related: same, with frozen images related. -/
inductive LabelRel : Label TJ → Label Paged.TJ → Prop
  | read (m) : LabelRel (.readForRecovery m) (.readForRecovery m)
  | freeze {t q} : TJRel t q → LabelRel (.freezeForCommit t) (.freezeForCommit q)
  | query (l) : LabelRel (.queryEndLsn l) (.queryEndLsn l)
  | put (m) : LabelRel (.put m) (.put m)
  | discard (a b) : LabelRel (.discardOld a b) (.discardOld a b)
  | internal : LabelRel .internal .internal

/-- `next_refines`, LinkedJournalRefinement_v.rs 771-822 -/
theorem step_refines {s s' : State} {lbl p} (hr : Rel s p) (hs : Next s lbl s') :
    ∃ lbl' p', LabelRel lbl lbl' ∧ Paged.Next p lbl' p' ∧ Rel s' p' := by
  have hpw := hr.wf
  have hr0 := hr
  obtain ⟨⟨hw, hdec⟩, htj, htail⟩ := hr
  obtain ⟨hb, hwalk⟩ := htj
  cases hs with
  | @readForRecovery m n a r _ hm _ hcan hp he hmsg =>
    refine ⟨_, p, .read m, ?_, hr0⟩
    have h1 := hwalk.crop hdec.1.1 hdec.1.2.2 hcan
    have h2 := hwalk.crop hdec.1.1 hdec.1.2.2 (canCrop_succ hcan (by rw [hp]; simp))
    rw [hp] at h1
    obtain ⟨h1, _⟩ := h1
    generalize hcr : Chain.crop s.tj.disk.boundary n p.tj.chain = cc at h1
    cases h1 with
    | cons he' hrest =>
      rw [he] at he'; cases he'
      refine .readForRecovery (d := n) hpw hm ⟨?_, by rw [hb]; exact h2.2, r.msgs, _, by rw [hb]; exact hcr, by rw [hb]; exact hmsg⟩
      intro hnil
      rw [hnil] at hcr
      cases n <;> simp [Chain.crop] at hcr
  | @freezeForCommit z n _ hz _ hcan hbz hcd hvd =>
    obtain ⟨hcw, hcc⟩ := hwalk.crop hdec.1.1 hdec.1.2.2 hcan
    have hcib := crop_inBounds hdec.1.1 (n := n) hdec.1.2.2
    have hcdec : (s.tj.crop n).Decodable := ⟨⟨hdec.1.1, hcib.1, hcib⟩, hdec.2⟩
    obtain ⟨_, vb, vw⟩ := validDiscard_walk hcdec hcd hvd hcw
    have hcrel : TJRel (s.tj.crop n) (p.tj.crop n) := by
      refine ⟨hb, ?_⟩
      show Walk s.tj.disk _ (Chain.crop p.tj.boundary n p.tj.chain)
      rw [hb]; exact hcw
    have hfz : TJRel z ((p.tj.crop n).discardOld z.seqStart) := by
      refine ⟨rfl, ?_⟩
      show Walk z.disk z.root (if (p.tj.crop n).seqEnd = z.seqStart then [] else
        Chain.discard z.seqStart (Chain.crop p.tj.boundary n p.tj.chain))
      rw [hcrel.seqEnd, hb]
      exact vw
    refine ⟨_, p, .freeze hfz, ?_, hr0⟩
    refine .freezeForCommit (d := n) ⟨hfz.wf hz.1, ?_, ?_, ?_⟩
    · show Chain.CanCrop p.tj.boundary n p.tj.chain
      rw [hb]; exact hcc
    · refine ⟨?_, ?_⟩
      · show p.tj.boundary ≤ z.seqStart
        rw [hb]; exact hbz
      · rw [hcrel.seqEnd]; exact hcd.2
    · rfl
  | queryEndLsn =>
    refine ⟨_, p, .query _, ?_, hr0⟩
    rw [← htail]; exact .queryEndLsn
  | @put m _ hm hse =>
    refine ⟨_, { p with tail := p.tail.concat m }, .put m, .put hm (by rw [htail]; exact hse), ?_⟩
    refine ⟨⟨⟨hw.1, MsgHistory.wf_concat hw.2.1 hm hse, hw.2.2.1, hw.2.2.2⟩, hdec⟩, ⟨hb, hwalk⟩, ?_⟩
    show p.tail.concat m = s.tail.concat m
    rw [htail]
  | @discardOld l new _ hcd hvd =>
    obtain ⟨v1, v2, v3⟩ := validDiscard_walk hdec hcd hvd hwalk
    have hse : p.tj.seqEnd = s.tj.seqEnd := TJRel.seqEnd ⟨hb, hwalk⟩
    have hst := hw.2.2.2
    have hle := hcd.2
    have htl := hw.2.1.1
    have hpn : Paged.Next p (.discardOld l p.tail.seqEnd) _ :=
      .discardOld (by rw [hb]; exact hcd.1) (by rw [htail]; omega)
    refine ⟨_, _, .discard l _, by rw [← htail]; exact hpn, ?_⟩
    have hnewend : new.seqEnd = s.tj.seqEnd := by
      have h1 : new.seqEnd = _ := v3.seqEnd
      have h0 : s.tj.seqEnd = _ := hwalk.seqEnd
      rw [h1]
      by_cases he : s.tj.seqEnd = l
      · rw [if_pos he, he]; exact v2
      · rw [if_neg he, Chain.discard_seqEnd, h0, v2]
        cases hc : p.tj.chain with
        | nil =>
          rw [hc] at h0
          have h9 : s.tj.disk.boundary ≤ l := hcd.1
          simp only [Chain.seqEnd] at h0; omega
        | cons => rfl
    refine ⟨⟨⟨v1.1, ?_, tj_seqStart_le v1.1, ?_⟩, v1⟩, ⟨?_, ?_⟩, ?_⟩
    · show (boundedDiscard s.tail l).WF
      unfold boundedDiscard
      split
      · exact MsgHistory.wf_discardOld hw.2.1 ⟨by assumption, by omega⟩
      · exact hw.2.1
    · show new.seqEnd = (boundedDiscard s.tail l).seqStart
      rw [hnewend]
      unfold boundedDiscard
      split
      · show _ = l; omega
      · omega
    · show Paged.TJ.boundary (if p.tail.seqStart ≤ l then _ else _) = new.disk.boundary
      rw [v2]; split <;> rfl
    · show Walk new.disk new.root (Paged.TJ.chain (if p.tail.seqStart ≤ l then _ else _))
      rw [htail]
      by_cases hq : s.tail.seqStart ≤ l
      · rw [if_pos hq]
        rw [if_pos (by omega)] at v3
        exact v3
      · rw [if_neg hq]
        rw [if_neg (by omega)] at v3
        show Walk _ _ (if p.tj.seqEnd = l then [] else _)
        rw [if_neg (by omega)]
        exact v3
    · show (if p.tail.seqStart ≤ l then p.tail.discardOld l else p.tail) = boundedDiscard s.tail l
      rw [htail]; rfl
  | @marshal cut a ha _ h1 h2 =>
    obtain ⟨q1, q2⟩ := append_facts ⟨hw, hdec⟩ ha h1 h2 hwalk
    refine ⟨.internal, { tj := p.tj.appendRecord (p.tail.discardRecent cut), tail := p.tail.discardOld cut },
      .internal, .marshal (by rw [htail]; exact h1) (by rw [htail]; exact h2), ?_⟩
    refine ⟨⟨⟨q1.1, MsgHistory.wf_discardOld hw.2.1 h2, tj_seqStart_le q1.1, ?_⟩, q1⟩, ⟨hb, ?_⟩, ?_⟩
    · show TJ.seqEnd _ = cut
      have := q2.seqEnd
      exact this
    · show Walk _ (some a) (p.tail.discardRecent cut :: p.tj.chain)
      rw [htail]; exact q2
    · show p.tail.discardOld cut = s.tail.discardOld cut
      rw [htail]
  | noop => exact ⟨.internal, p, .internal, .noop, hr0⟩

theorem init_refines {t : TJ} {s} (h : Init t s) {q} (hq : TJRel t q) :
    ∃ p, Paged.Init q p ∧ Rel s p := by
  obtain ⟨hd, rfl⟩ := h
  refine ⟨_, ⟨hq.wf hd.1, rfl⟩, ⟨⟨hd.1, MsgHistory.wf_emptyAt _, tj_seqStart_le hd.1, rfl⟩, hd⟩, hq, ?_⟩
  show MsgHistory.emptyAt q.seqEnd = MsgHistory.emptyAt t.seqEnd
  rw [hq.seqEnd]

/-! ### build_tight -/

theorem Reach.has {d p a} (h : DiskView.Reach d p a) : ∃ r, d.entries a = some r := by
  induction h with
  | here h => exact ⟨_, h⟩
  | there _ _ ih => exact ih

/-- The code's recursion, LinkedJournal_v.rs 217-227. -/
theorem buildTight_rec {d : DiskView} (ha : d.Acyclic) {a r} (hr : d.entries a = some r) :
    (d.buildTight none).entries = PMap.empty ∧
    (d.buildTight (some a)).entries = (d.buildTight (d.next (some a))).entries.insert a r ∧
    (d.buildTight (some a)).boundary = d.boundary := by
  unfold DiskView.buildTight
  simp only [if_pos ha]
  refine ⟨?_, ?_, trivial⟩
  · funext x
    have : ¬ d.Reach none x := by intro h; cases h
    rw [if_neg this]; rfl
  · funext x
    by_cases hx : x = a
    · subst hx
      rw [PMap.insert_same, if_pos (.here hr)]
      exact hr
    · rw [PMap.insert_other _ _ hx]
      have hn : d.next (some a) = r.croppedPrior d.boundary := by simp only [DiskView.next, hr]
      have : d.Reach (some a) x ↔ d.Reach (d.next (some a)) x := by
        rw [hn]
        constructor
        · intro h
          cases h with
          | here => exact absurd rfl hx
          | there h1 h2 => rw [hr] at h1; cases h1; exact h2
        · exact .there hr
      simp only [this]

theorem reach_next {d : DiskView} {p a r x} (h : d.Reach p a) (hr : d.entries a = some r)
    (hx : r.croppedPrior d.boundary = some x) (hw : d.NondanglingPointers) : d.Reach p x := by
  induction h with
  | @here a' r' he =>
    rw [he] at hr; cases hr
    obtain ⟨q, hq⟩ := hw _ _ he x hx
    exact .there he (by rw [hx]; exact .here hq)
  | there he _ ih => exact .there he (ih hr)

theorem buildTight_facts {d : DiskView} (hw : d.WF) (ha : d.Acyclic) {p} (hp : d.Nondangling p) :
    (d.buildTight p).WF ∧ (d.buildTight p).Nondangling p ∧ (d.buildTight p).IsSubDisk d := by
  have hent : ∀ a r, (d.buildTight p).entries a = some r ↔ d.Reach p a ∧ d.entries a = some r := by
    intro a r
    unfold DiskView.buildTight
    rw [if_pos ha]
    dsimp only
    split <;> simp_all
  have hbd : (d.buildTight p).boundary = d.boundary := by
    unfold DiskView.buildTight; rw [if_pos ha]
  obtain ⟨w1, w2, w3, w4⟩ := hw
  refine ⟨⟨?_, ?_, ?_, ?_⟩, ?_, hbd.symm, fun a r h => ((hent a r).mp h).2⟩
  · intro a r h; exact w1 a r ((hent a r).mp h).2
  · intro a r h x hx
    obtain ⟨h1, h2⟩ := (hent a r).mp h
    rw [hbd] at hx
    obtain ⟨q, hq⟩ := w2 a r h2 x hx
    exact ⟨q, (hent x q).mpr ⟨reach_next h1 h2 hx w2, hq⟩⟩
  · intro a r x q h1 h2 h3
    rw [hbd] at h2
    exact w3 a r x q ((hent a r).mp h1).2 h2 ((hent x q).mp h3).2
  · intro a r h
    rw [hbd]; exact w4 a r ((hent a r).mp h).2
  · intro a h
    subst h
    obtain ⟨r, hr⟩ := hp a rfl
    exact ⟨r, (hent a r).mpr ⟨.here hr, hr⟩⟩

end Verif.Linked
