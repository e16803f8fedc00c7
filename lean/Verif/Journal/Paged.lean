import Verif.Abs.Machines
/-
Model of Splinter/src/journal/PagedJournal_v.rs and the interpretation functions of
PagedJournalRefinement_v.rs.

`Option<JournalRecord>` (a record with a boxed optional prior record, 16-19) is modelled as the
list of the records' message sequences, newest first: `None` is `[]` and
`Some(JournalRecord{message_seq, prior_rec})` is `message_seq :: prior_rec`.
-/
namespace Verif.Paged
open Verif

instance (h : MsgHistory) (l : LSN) : Decidable (h.CanDiscardTo l) :=
  inferInstanceAs (Decidable (_ ∧ _))

/-- `Option<JournalRecord>`, PagedJournal_v.rs 16-19 -/
abbrev Chain := List MsgHistory

namespace Chain

/-- PagedJournal_v.rs 22-30 `JournalRecord::wf`; the empty list is `None`, for which the code
asks nothing. -/
def WF : Chain → Prop
  | [] => True
  | [m] => m.WF
  | m :: p :: r => m.WF ∧ WF (p :: r) ∧ p.CanConcat m

/-- PagedJournal_v.rs 32-40 `JournalRecord::valid` (`False` for `None`, which is no record) -/
def Valid (b : LSN) : Chain → Prop
  | [] => False
  | m :: r => WF (m :: r) ∧ b < m.seqEnd ∧ (m.CanDiscardTo b ∨ Valid b r)

/-- `ojr is Some ==> ojr.unwrap().valid(b)` -/
def OptValid (b : LSN) (c : Chain) : Prop := c ≠ [] → Valid b c

/-- PagedJournal_v.rs 57-60 -/
def croppedPrior (b : LSN) : Chain → Chain
  | [] => []
  | m :: r => if m.seqStart ≤ b then [] else r

/-- PagedJournal_v.rs 62-80 `can_crop_head_records`, `opt_rec_can_crop_head_records` -/
def CanCrop (b : LSN) : Nat → Chain → Prop
  | 0, [] => True
  | _ + 1, [] => False
  | 0, m :: r => Valid b (m :: r)
  | d + 1, m :: r => Valid b (m :: r) ∧ CanCrop b d (croppedPrior b (m :: r))

/-- PagedJournal_v.rs 82-106 `crop_head_records`, `opt_rec_crop_head_records` -/
def crop (b : LSN) : Nat → Chain → Chain
  | _, [] => []
  | 0, m :: r => m :: r
  | d + 1, m :: r => crop b d (croppedPrior b (m :: r))

/-- PagedJournal_v.rs 224-241 `discard_old_journal_rec` -/
def discard (l : LSN) : Chain → Chain
  | [] => []
  | m :: r => m :: (if m.seqStart ≤ l then [] else discard l r)

/-- End of the chain: `seq_end` of TruncatedJournal, PagedJournal_v.rs 295-301 -/
def seqEnd (b : LSN) : Chain → LSN
  | [] => b
  | m :: _ => m.seqEnd

/-- PagedJournalRefinement_v.rs 27-53 `i`, `i_opt` -/
def interp (b : LSN) : Chain → MsgHistory
  | [] => .emptyAt b
  | m :: r => if m.CanDiscardTo b then m.discardOld b else (interp b r).concat m

end Chain

/-- PagedJournal_v.rs 269-272 -/
@[ext] structure TJ where
  boundary : LSN
  chain : Chain

namespace TJ

/-- PagedJournal_v.rs 284-286 -/
def WF (t : TJ) : Prop := t.chain.OptValid t.boundary

/-- PagedJournal_v.rs 295-301 -/
def seqEnd (t : TJ) : LSN := t.chain.seqEnd t.boundary

/-- PagedJournal_v.rs 303-308 -/
def seqStart (t : TJ) : LSN := t.boundary

/-- PagedJournal_v.rs 310-315 -/
def CanDiscardTo (t : TJ) (l : LSN) : Prop := t.seqStart ≤ l ∧ l ≤ t.seqEnd

/-- PagedJournal_v.rs 317-332 `discard_old_defn` -/
def discardOld (t : TJ) (l : LSN) : TJ :=
  { boundary := l, chain := if t.seqEnd = l then [] else t.chain.discard l }

/-- PagedJournal_v.rs 336-344 `has_messages_at_depth` with `message_seq_after_crop` 195-206 -/
def HasMessagesAtDepth (t : TJ) (m : MsgHistory) (d : Nat) : Prop :=
  t.chain ≠ [] ∧ t.chain.CanCrop t.boundary (d + 1) ∧
  ∃ r rest, t.chain.crop t.boundary d = r :: rest ∧ r.maybeDiscardOld t.boundary = m

/-- PagedJournal_v.rs 346-354 -/
def appendRecord (t : TJ) (m : MsgHistory) : TJ := { t with chain := m :: t.chain }

/-- PagedJournal_v.rs 356-358 -/
def CanCrop (t : TJ) (d : Nat) : Prop := t.chain.CanCrop t.boundary d

/-- PagedJournal_v.rs 360-369 -/
def crop (t : TJ) (d : Nat) : TJ := { t with chain := t.chain.crop t.boundary d }

/-- PagedJournal_v.rs 383-392 `freeze_for_commit` -/
def FreezeForCommit (t fz : TJ) (d : Nat) : Prop :=
  fz.WF ∧ t.CanCrop d ∧ (t.crop d).CanDiscardTo fz.boundary ∧
  fz = (t.crop d).discardOld fz.boundary

/-- PagedJournal_v.rs 396-400 -/
def mkfs : TJ := { boundary := 0, chain := [] }

/-- PagedJournalRefinement_v.rs 301-306 -/
def interp (t : TJ) : MsgHistory := t.chain.interp t.boundary

end TJ

/-- PagedJournal_v.rs 408-412 -/
@[ext] structure State where
  tj : TJ
  tail : MsgHistory

/-- PagedJournal_v.rs 414-418 -/
def State.WF (s : State) : Prop := s.tj.WF ∧ s.tail.WF ∧ s.tj.seqEnd = s.tail.seqStart

/-- PagedJournal_v.rs 434-442. Generic in the type of frozen images, so that the same labels
serve the linked journal. -/
inductive Label (F : Type) where
  | readForRecovery (messages : MsgHistory)
  | freezeForCommit (frozen : F)
  | queryEndLsn (endLsn : LSN)
  | put (messages : MsgHistory)
  | discardOld (startLsn requireEnd : LSN)
  | internal

/-- PagedJournal_v.rs 444-513 -/
inductive Next : State → Label TJ → State → Prop
  /-- 444-454 -/
  | readForRecovery {s : State} {m d} : s.WF → m.WF → s.tj.HasMessagesAtDepth m d →
      Next s (.readForRecovery m) s
  /-- 456-459 -/
  | freezeForCommit {s : State} {fz d} : s.tj.FreezeForCommit fz d →
      Next s (.freezeForCommit fz) s
  /-- 461-464 -/
  | queryEndLsn {s : State} : Next s (.queryEndLsn s.tail.seqEnd) s
  /-- 469-475 -/
  | put {s : State} {m : MsgHistory} : m.WF → m.seqStart = s.tail.seqEnd →
      Next s (.put m) { s with tail := s.tail.concat m }
  /-- 477-500 -/
  | discardOld {s : State} {l} : s.tj.boundary ≤ l → l ≤ s.tail.seqEnd →
      Next s (.discardOld l s.tail.seqEnd)
        { tail := if s.tail.seqStart ≤ l then s.tail.discardOld l else s.tail
          tj := if s.tail.seqStart ≤ l then { boundary := l, chain := [] } else s.tj.discardOld l }
  /-- 502-509 -/
  | marshal {s : State} {cut} : s.tail.seqStart < cut → s.tail.CanDiscardTo cut →
      Next s .internal
        { tj := s.tj.appendRecord (s.tail.discardRecent cut), tail := s.tail.discardOld cut }
  /-- 511-513 -/
  | noop {s : State} : Next s .internal s

/-- PagedJournal_v.rs 515-519 -/
def Init (t : TJ) (s : State) : Prop :=
  t.WF ∧ s = { tj := t, tail := .emptyAt t.seqEnd }

/-- The paged journal opened on image `t`. -/
def machine (t : TJ) : Machine State (Label TJ) := { Init := Init t, Step := Next }

/-- PagedJournalRefinement_v.rs 360-380 `Label::i`, generic in the interpretation of frozen
images -/
def Label.i {F G : Type} (f : F → G) : Label F → Label G
  | .readForRecovery m => .readForRecovery m
  | .freezeForCommit z => .freezeForCommit (f z)
  | .queryEndLsn l => .queryEndLsn l
  | .put m => .put m
  | .discardOld a b => .discardOld a b
  | .internal => .internal

/-- The same labels as used by AbstractJournal. -/
def Label.abs : Label MsgHistory → AbstractJournal.Label
  | .readForRecovery m => .readForRecovery m
  | .freezeForCommit z => .freezeForCommit z
  | .queryEndLsn l => .queryEndLsn l
  | .put m => .put m
  | .discardOld a b => .discardOld a b
  | .internal => .internal

/-- PagedJournalRefinement_v.rs 384-390 -/
def State.interp (s : State) : MsgHistory := s.tj.interp.concat s.tail

/-! ### Lemmas -/
namespace Chain

theorem Valid.wf {b c} (h : Valid b c) : WF c := by
  cases c with
  | nil => exact h.elim
  | cons m r => exact h.1

theorem WF.head {m r} (h : WF (m :: r)) : m.WF := by
  cases r with
  | nil => exact h
  | cons p r => exact h.1

theorem WF.tail {m r} (h : WF (m :: r)) : WF r := by
  cases r with
  | nil => trivial
  | cons p r => exact h.2.1

theorem WF.link {m p r} (h : WF (m :: p :: r)) : p.seqEnd = m.seqStart := h.2.2.symm

theorem WF.cons {m r} (hm : m.WF) (hr : WF r) (hl : ∀ p ∈ r.head?, p.seqEnd = m.seqStart) :
    WF (m :: r) := by
  cases r with
  | nil => exact hm
  | cons p r => exact ⟨hm, hr, (hl p rfl).symm⟩

theorem Valid.lt_end {b c} (h : Valid b c) : b < c.seqEnd b := by
  cases c with
  | nil => exact h.elim
  | cons m r => exact h.2.1

theorem OptValid.le_end {b c} (h : OptValid b c) : b ≤ c.seqEnd b := by
  cases c with
  | nil => exact Nat.le_refl _
  | cons m r => exact Nat.le_of_lt (h (by simp)).lt_end

/-- `i_lemma`, PagedJournalRefinement_v.rs 56-80 -/
theorem interp_facts {b c} (h : OptValid b c) :
    (interp b c).WF ∧ (interp b c).seqStart = b ∧ (interp b c).seqEnd = c.seqEnd b := by
  induction c with
  | nil => exact ⟨MsgHistory.wf_emptyAt b, rfl, rfl⟩
  | cons m r ih =>
    have hv := h (by simp)
    have hmw := hv.wf.head
    by_cases hc : m.CanDiscardTo b
    · simp only [interp, if_pos hc]
      exact ⟨MsgHistory.wf_discardOld hmw hc, rfl, rfl⟩
    · simp only [interp, if_neg hc]
      have hr : Valid b r := by
        rcases hv.2.2 with h | h
        · exact absurd h hc
        · exact h
      obtain ⟨i1, i2, i3⟩ := ih (fun _ => hr)
      have hl : (interp b r).CanConcat m := by
        cases r with
        | nil => exact hr.elim
        | cons p r' =>
          show m.seqStart = (interp b (p :: r')).seqEnd
          rw [i3]; exact hv.wf.link.symm
      exact ⟨MsgHistory.wf_concat i1 hmw hl, i2, rfl⟩

/-- An interpreted record not reaching down to the boundary continues the older ones. -/
theorem prior_valid {b m r} (h : Valid b (m :: r)) (hb : ¬ m.seqStart ≤ b) : Valid b r := by
  rcases h.2.2 with h' | h'
  · exact absurd h'.1 hb
  · exact h'

theorem canDiscard_of {b m r} (h : Valid b (m :: r)) (hb : m.seqStart ≤ b) : m.CanDiscardTo b :=
  ⟨hb, Nat.le_of_lt h.2.1⟩

theorem interp_low {b m r} (h : Valid b (m :: r)) (hb : m.seqStart ≤ b) :
    interp b (m :: r) = m.discardOld b := by
  simp only [interp]; rw [if_pos (canDiscard_of h hb)]

theorem interp_high {b : LSN} {m : MsgHistory} {r : Chain} (hb : ¬ m.seqStart ≤ b) :
    interp b (m :: r) = (interp b r).concat m := by
  simp only [interp]; rw [if_neg (fun h => hb h.1)]

theorem canConcat_high {b m r} (h : Valid b (m :: r)) (hb : ¬ m.seqStart ≤ b) :
    (interp b r).CanConcat m := by
  have hr := prior_valid h hb
  cases r with
  | nil => exact hr.elim
  | cons p r' =>
    show m.seqStart = (interp b (p :: r')).seqEnd
    rw [(interp_facts (fun _ => hr)).2.2]; exact h.wf.link.symm

/-- Records deep in a well-formed chain end before the head starts. -/
theorem wf_mem_end {m r x} (h : WF (m :: r)) (hx : x ∈ r) : x.seqEnd ≤ m.seqStart := by
  induction r generalizing m with
  | nil => simp at hx
  | cons p r ih =>
    rcases List.mem_cons.mp hx with rfl | hx
    · exact Nat.le_of_eq h.link
    · have := ih h.tail hx
      have h2 := h.tail.head.1
      have h3 := h.link
      omega

theorem wf_mem {c x} (h : WF c) (hx : x ∈ c) : x.WF := by
  induction c with
  | nil => simp at hx
  | cons p r ih =>
    rcases List.mem_cons.mp hx with rfl | hx
    · exact h.head
    · exact ih h.tail hx

/-- The interpretation holds exactly the messages of the chain's records at or above the
boundary. -/
theorem interp_msgs {b c} (h : OptValid b c) {l : LSN} (hl : b ≤ l) (km : KeyedMessage) :
    (interp b c).msgs l = some km ↔ ∃ x ∈ c, x.msgs l = some km := by
  induction c with
  | nil => simp [interp, MsgHistory.emptyAt]
  | cons m r ih =>
    have hv := h (by simp)
    have hmw := hv.wf.head
    have deep : ∀ x ∈ r, m.seqStart ≤ l → x.msgs l = none := by
      intro x hx hml
      apply MsgHistory.wf_msgs_none (wf_mem hv.wf.tail hx)
      have := wf_mem_end hv.wf hx
      unfold MsgHistory.Contains; omega
    by_cases hb : m.seqStart ≤ b
    · rw [interp_low hv hb]
      have : (m.discardOld b).msgs l = m.msgs l := by
        simp only [MsgHistory.discardOld]
        split
        · rfl
        · rw [MsgHistory.wf_msgs_none hmw]; unfold MsgHistory.Contains; omega
      rw [this]
      constructor
      · intro h; exact ⟨m, by simp, h⟩
      · rintro ⟨x, hx, hxl⟩
        rcases List.mem_cons.mp hx with rfl | hx
        · exact hxl
        · rw [deep x hx (by omega)] at hxl; cases hxl
    · rw [interp_high hb]
      have hr := prior_valid hv hb
      have hcc := canConcat_high hv hb
      have ih := ih (fun _ => hr)
      by_cases hml : m.seqStart ≤ l
      · constructor
        · intro hm
          by_cases hme : l < m.seqEnd
          · rw [MsgHistory.concat_msgs_right hmw ⟨hml, hme⟩] at hm
            exact ⟨m, by simp, hm⟩
          · have hw := MsgHistory.wf_concat (interp_facts (fun _ => hr)).1 hmw hcc
            rw [MsgHistory.wf_msgs_none hw] at hm
            · cases hm
            · simp only [MsgHistory.Contains, MsgHistory.concat]; omega
        · rintro ⟨x, hx, hxl⟩
          rcases List.mem_cons.mp hx with rfl | hx
          · have : x.Contains l := (hmw.2 l).mp (by simp [PMap.Has, hxl])
            rw [MsgHistory.concat_msgs_right hmw this]; exact hxl
          · rw [deep x hx hml] at hxl; cases hxl
      · have hlt : l < (interp b r).seqEnd := by
          have : m.seqStart = (interp b r).seqEnd := hcc
          omega
        rw [MsgHistory.concat_msgs_left hmw hcc hlt, ih]
        constructor
        · rintro ⟨x, hx, hxl⟩; exact ⟨x, by simp [hx], hxl⟩
        · rintro ⟨x, hx, hxl⟩
          rcases List.mem_cons.mp hx with rfl | hx
          · rw [MsgHistory.wf_msgs_none hmw (by unfold MsgHistory.Contains; omega)] at hxl
            cases hxl
          · exact ⟨x, hx, hxl⟩

/-- `new_boundary_valid`, PagedJournal_v.rs 42-55 -/
theorem new_boundary_valid {b b' c} (h : Valid b c) (hb : b ≤ b') (he : b' < c.seqEnd b) :
    Valid b' c := by
  induction c with
  | nil => exact h
  | cons m r ih =>
    refine ⟨h.wf, he, ?_⟩
    by_cases hm : m.seqStart ≤ b'
    · exact .inl ⟨hm, Nat.le_of_lt he⟩
    · have hr := prior_valid h (by omega)
      refine .inr (ih hr ?_)
      cases r with
      | nil => exact hr.elim
      | cons p r' =>
        show b' < p.seqEnd
        have := h.wf.link; omega

/-- Raising the boundary drops exactly the older messages. -/
theorem interp_raise {b b' c} (h : Valid b c) (hb : b ≤ b') (he : b' < c.seqEnd b) :
    interp b' c = (interp b c).discardOld b' := by
  have h' := new_boundary_valid h hb he
  have f := interp_facts (c := c) (b := b) (fun _ => h)
  have f' := interp_facts (c := c) (b := b') (fun _ => h')
  have hse : c.seqEnd b' = c.seqEnd b := by
    cases c with
    | nil => exact h.elim
    | cons m r => rfl
  apply MsgHistory.ext_wf f'.1 (MsgHistory.wf_discardOld f.1 ⟨by omega, by omega⟩) f'.2.1
    (by show _ = (interp b c).seqEnd; rw [f.2.2, f'.2.2, hse])
  intro l hl
  have hlb : b' ≤ l := by have := hl.1; omega
  have hle : l < (interp b c).seqEnd := by have := hl.2; omega
  simp only [MsgHistory.discardOld]
  rw [if_pos ⟨hlb, hle⟩]
  apply Option.ext
  intro km
  show (interp b' c).msgs l = some km ↔ (interp b c).msgs l = some km
  rw [interp_msgs (fun _ => h') hlb, interp_msgs (fun _ => h) (by omega)]

theorem discard_wf {l c} (h : WF c) : WF (discard l c) := by
  induction c with
  | nil => trivial
  | cons m r ih =>
    simp only [discard]
    split
    · exact h.head
    · refine WF.cons h.head (ih h.tail) ?_
      intro p hp
      cases r with
      | nil => simp [discard] at hp
      | cons q r =>
        simp only [discard, List.head?_cons, Option.mem_def, Option.some.injEq] at hp
        subst hp
        exact h.link

/-- `discard_old_journal_rec_ensures`, PagedJournal_v.rs 243-264 -/
theorem discard_valid {l c} (h : Valid l c) : Valid l (discard l c) := by
  induction c with
  | nil => exact h
  | cons m r ih =>
    have hw := discard_wf (l := l) h.wf
    by_cases hm : m.seqStart ≤ l
    · simp only [discard, if_pos hm] at hw ⊢
      exact ⟨hw, h.2.1, .inl (canDiscard_of h hm)⟩
    · simp only [discard, if_neg hm] at hw ⊢
      exact ⟨hw, h.2.1, .inr (ih (prior_valid h hm))⟩

theorem interp_discard {l c} (h : Valid l c) : interp l (discard l c) = interp l c := by
  induction c with
  | nil => exact h.elim
  | cons m r ih =>
    by_cases hm : m.seqStart ≤ l
    · simp only [discard, if_pos hm]
      rw [interp_low h hm, interp_low _ hm]
      have := discard_valid h
      simpa only [discard, if_pos hm] using this
    · simp only [discard, if_neg hm]
      rw [interp_high hm, interp_high hm, ih (prior_valid h hm)]

theorem discard_seqEnd (l b : LSN) (c : Chain) : (discard l c).seqEnd b = c.seqEnd b := by
  cases c <;> rfl

theorem croppedPrior_valid {b c} (h : Valid b c) : OptValid b (croppedPrior b c) := by
  cases c with
  | nil => exact h.elim
  | cons m r =>
    simp only [croppedPrior]
    split
    · simp [OptValid]
    · exact fun _ => prior_valid h (by assumption)

theorem crop_zero (b : LSN) (c : Chain) : crop b 0 c = c := by cases c <;> rfl

/-- `crop_head_records_lemma`, PagedJournal_v.rs 109-140 -/
theorem crop_valid {b d c} (h : CanCrop b d c) : OptValid b (crop b d c) := by
  induction d generalizing c with
  | zero =>
    rw [crop_zero]
    cases c with
    | nil => simp [OptValid]
    | cons m r => exact fun _ => h
  | succ d ih =>
    cases c with
    | nil => exact h.elim
    | cons m r => exact ih h.2

theorem CanCrop.valid {b d c} (h : CanCrop b d c) : OptValid b c := by
  cases c with
  | nil => simp [OptValid]
  | cons m r =>
    cases d with
    | zero => exact fun _ => h
    | succ d => exact fun _ => h.1

/-- Cropping the newest records leaves a prefix of the history. -/
theorem interp_crop {b d c} (h : CanCrop b d c) :
    (crop b d c).seqEnd b ≤ c.seqEnd b ∧
    interp b (crop b d c) = (interp b c).discardRecent ((crop b d c).seqEnd b) := by
  induction d generalizing c with
  | zero =>
    rw [crop_zero]
    have f := interp_facts h.valid
    refine ⟨Nat.le_refl _, ?_⟩
    rw [← f.2.2, MsgHistory.discardRecent_seqEnd f.1]
  | succ d ih =>
    cases c with
    | nil => exact h.elim
    | cons m r =>
      obtain ⟨hv, hcc⟩ := h
      have f := interp_facts (b := b) (c := m :: r) (fun _ => hv)
      obtain ⟨i1, i2⟩ := ih hcc
      show (crop b d (croppedPrior b (m :: r))).seqEnd b ≤ m.seqEnd ∧
        interp b (crop b d (croppedPrior b (m :: r))) =
          (interp b (m :: r)).discardRecent ((crop b d (croppedPrior b (m :: r))).seqEnd b)
      by_cases hm : m.seqStart ≤ b
      · have hp : croppedPrior b (m :: r) = [] := by simp only [croppedPrior, if_pos hm]
        rw [hp] at i1 i2 ⊢
        have hc0 : crop b d [] = [] := by cases d <;> rfl
        rw [hc0]
        refine ⟨Nat.le_of_lt hv.2.1, ?_⟩
        show MsgHistory.emptyAt b = (interp b (m :: r)).discardRecent b
        apply MsgHistory.ext_wf (MsgHistory.wf_emptyAt b)
          (MsgHistory.wf_discardRecent f.1 ⟨by omega, by rw [f.2.2]; exact Nat.le_of_lt hv.2.1⟩)
          (by show b = (interp b (m :: r)).seqStart; omega) rfl
        intro l hl
        simp only [MsgHistory.Contains, MsgHistory.emptyAt] at hl; omega
      · have hp : croppedPrior b (m :: r) = r := by simp only [croppedPrior, if_neg hm]
        rw [hp] at i1 i2 ⊢
        have hcat := canConcat_high hv hm
        have hre : m.seqStart = Chain.seqEnd b r := by
          rw [← (interp_facts (fun _ => prior_valid hv hm)).2.2]; exact hcat
        have := hv.wf.head.1
        refine ⟨by omega, ?_⟩
        rw [i2, interp_high hm, MsgHistory.concat_discardRecent_left hv.wf.head hcat]
        show _ ≤ (interp b r).seqEnd
        rw [(interp_facts (fun _ => prior_valid hv hm)).2.2]
        exact i1

end Chain

namespace TJ

theorem interp_facts {t : TJ} (h : t.WF) :
    t.interp.WF ∧ t.interp.seqStart = t.boundary ∧ t.interp.seqEnd = t.seqEnd :=
  Chain.interp_facts h

theorem start_le_end {t : TJ} (h : t.WF) : t.boundary ≤ t.seqEnd := Chain.OptValid.le_end h

/-- `discard_old_defn_wf`, PagedJournalRefinement_v.rs 336-350 -/
theorem discardOld_wf {t : TJ} (h : t.WF) {l} (hl : t.CanDiscardTo l) :
    (t.discardOld l).WF ∧ (t.discardOld l).seqEnd = t.seqEnd ∧
    (t.discardOld l).interp = t.interp.discardOld l := by
  obtain ⟨h1, h2⟩ := hl
  unfold seqStart at h1
  have f := interp_facts h
  by_cases he : t.seqEnd = l
  · have hd : t.discardOld l = { boundary := l, chain := [] } := by
      unfold discardOld; rw [if_pos he]
    rw [hd]
    refine ⟨by simp [WF, Chain.OptValid], he.symm, ?_⟩
    show MsgHistory.emptyAt l = t.interp.discardOld l
    apply MsgHistory.ext_wf (MsgHistory.wf_emptyAt l)
      (MsgHistory.wf_discardOld f.1 ⟨by omega, by omega⟩) rfl
      (by show l = t.interp.seqEnd; omega)
    intro k hk
    simp only [MsgHistory.Contains, MsgHistory.emptyAt] at hk; omega
  · have hne : t.chain ≠ [] := by
      intro hc
      have : t.seqEnd = t.boundary := by unfold seqEnd; rw [hc]; rfl
      omega
    have hv := h hne
    have hlt : l < t.chain.seqEnd t.boundary := Nat.lt_of_le_of_ne h2 (fun h => he h.symm)
    have hv' := Chain.new_boundary_valid hv h1 hlt
    unfold discardOld interp seqEnd WF
    simp only [seqEnd] at he
    simp only [if_neg he]
    refine ⟨fun _ => Chain.discard_valid hv', ?_, ?_⟩
    · rw [Chain.discard_seqEnd]
      cases hc : t.chain with
      | nil => exact absurd hc hne
      | cons m r => rfl
    · rw [Chain.interp_discard hv', Chain.interp_raise hv h1 hlt]

end TJ

theorem includes_discardOld {h : MsgHistory} {l : LSN} (hl : h.CanDiscardTo l) :
    h.IncludesSubseq (h.discardOld l) := by
  refine ⟨hl.1, Nat.le_refl _, ?_⟩
  intro k hk
  simp only [MsgHistory.Contains, MsgHistory.discardOld] at hk
  refine ⟨⟨by have := hl.1; omega, hk.2⟩, ?_⟩
  simp only [MsgHistory.discardOld]; rw [if_pos hk]

theorem includes_discardRecent {h : MsgHistory} {l : LSN} (hl : l ≤ h.seqEnd) :
    h.IncludesSubseq (h.discardRecent l) := by
  refine ⟨Nat.le_refl _, hl, ?_⟩
  intro k hk
  simp only [MsgHistory.Contains, MsgHistory.discardRecent] at hk
  refine ⟨⟨hk.1, by omega⟩, ?_⟩
  simp only [MsgHistory.discardRecent]; rw [if_pos hk]

theorem includes_trans {a b c : MsgHistory} (h1 : a.IncludesSubseq b) (h2 : b.IncludesSubseq c) :
    a.IncludesSubseq c := by
  refine ⟨Nat.le_trans h1.1 h2.1, Nat.le_trans h2.2.1 h1.2.1, fun l hl => ?_⟩
  obtain ⟨q1, q2⟩ := h2.2.2 l hl
  obtain ⟨q3, q4⟩ := h1.2.2 l q1
  exact ⟨q3, q4.trans q2⟩

theorem includes_concat_left {a b : MsgHistory} (hb : b.WF) (hc : a.CanConcat b) :
    (a.concat b).IncludesSubseq a := by
  have h0 : b.seqStart = a.seqEnd := hc
  have hb1 := hb.1
  refine ⟨Nat.le_refl _, ?_, fun l hl => ⟨⟨hl.1, ?_⟩, MsgHistory.concat_msgs_left hb hc hl.2⟩⟩
  · show a.seqEnd ≤ b.seqEnd; omega
  · show l < b.seqEnd; have := hl.2; omega

theorem includes_concat_right {a b : MsgHistory} (ha : a.WF) (hb : b.WF) (hc : a.CanConcat b) :
    (a.concat b).IncludesSubseq b := by
  have h0 : b.seqStart = a.seqEnd := hc
  have ha1 := ha.1
  refine ⟨?_, Nat.le_refl _, fun l hl => ⟨⟨?_, hl.2⟩, MsgHistory.concat_msgs_right hb hl⟩⟩
  · show a.seqStart ≤ b.seqStart; omega
  · show a.seqStart ≤ l; have := hl.1; omega

/-- The (cropped) record found at a depth is part of the interpretation. -/
theorem Chain.crop_head_included {b d} {c : Chain} (h : c.CanCrop b (d + 1)) {r rest}
    (hc : c.crop b d = r :: rest) : (c.interp b).IncludesSubseq (r.maybeDiscardOld b) := by
  have hd : c.CanCrop b d := by
    clear hc
    induction d generalizing c with
    | zero =>
      cases c with
      | nil => exact h.elim
      | cons m r => exact h.1
    | succ d ih =>
      cases c with
      | nil => exact h.elim
      | cons m r => exact ⟨h.1, ih h.2⟩
  obtain ⟨h1, h2⟩ := Chain.interp_crop hd
  have hv := Chain.crop_valid hd
  have f := Chain.interp_facts hd.valid
  rw [hc] at h1 h2 hv
  have hv := hv (by simp)
  have i1 : (c.interp b).IncludesSubseq (Chain.interp b (r :: rest)) := by
    rw [h2]; exact includes_discardRecent (by rw [f.2.2]; exact h1)
  refine includes_trans i1 ?_
  by_cases hm : r.seqStart ≤ b
  · rw [Chain.interp_low hv hm]
    simp only [MsgHistory.maybeDiscardOld, if_pos hm]
    exact ⟨Nat.le_refl _, Nat.le_refl _, fun _ hk => ⟨hk, rfl⟩⟩
  · rw [Chain.interp_high hm]
    simp only [MsgHistory.maybeDiscardOld, if_neg hm]
    exact includes_concat_right (Chain.interp_facts (fun _ => Chain.prior_valid hv hm)).1
      hv.wf.head (Chain.canConcat_high hv hm)

/-- State invariant and interpretation facts. -/
theorem State.interp_facts {s : State} (h : s.WF) :
    s.interp.WF ∧ s.interp.seqStart = s.tj.boundary ∧ s.interp.seqEnd = s.tail.seqEnd ∧
    s.tj.interp.CanConcat s.tail := by
  obtain ⟨h1, h2, h3⟩ := h
  have f := TJ.interp_facts h1
  have hc : s.tj.interp.CanConcat s.tail := by
    show s.tail.seqStart = s.tj.interp.seqEnd; omega
  exact ⟨MsgHistory.wf_concat f.1 h2 hc, f.2.1, rfl, hc⟩

theorem concat_discardOld_right {a b : MsgHistory} (ha : a.WF) (hb : b.WF) (hc : a.CanConcat b)
    {l : LSN} (hl : b.CanDiscardTo l) : (a.concat b).discardOld l = b.discardOld l := by
  have h0 : b.seqStart = a.seqEnd := hc
  have ha1 := ha.1
  apply MsgHistory.ext_wf
    (MsgHistory.wf_discardOld (MsgHistory.wf_concat ha hb hc)
      ⟨by show a.seqStart ≤ l; have := hl.1; omega, hl.2⟩)
    (MsgHistory.wf_discardOld hb hl) rfl rfl
  intro k hk
  simp only [MsgHistory.Contains, MsgHistory.discardOld, MsgHistory.concat] at hk
  have h1 : k < (a.concat b).seqEnd := hk.2
  have h2 : k < b.seqEnd := hk.2
  simp only [MsgHistory.discardOld]
  rw [if_pos ⟨hk.1, h1⟩, if_pos ⟨hk.1, h2⟩,
    MsgHistory.concat_msgs_right hb ⟨by have := hl.1; omega, h2⟩]

theorem concat_discardOld_left {a b : MsgHistory} (ha : a.WF) (hb : b.WF) (hc : a.CanConcat b)
    {l : LSN} (hl : a.CanDiscardTo l) : (a.concat b).discardOld l = (a.discardOld l).concat b := by
  have h0 : b.seqStart = a.seqEnd := hc
  have ha1 := ha.1
  have hb1 := hb.1
  have hl2 := hl.2
  have hc' : (a.discardOld l).CanConcat b := hc
  apply MsgHistory.ext_wf
    (MsgHistory.wf_discardOld (MsgHistory.wf_concat ha hb hc)
      ⟨hl.1, by show l ≤ b.seqEnd; omega⟩)
    (MsgHistory.wf_concat (MsgHistory.wf_discardOld ha hl) hb hc') rfl rfl
  intro k hk
  simp only [MsgHistory.Contains, MsgHistory.discardOld, MsgHistory.concat] at hk
  have h1 : k < (a.concat b).seqEnd := hk.2
  have e : ((a.concat b).discardOld l).msgs k = (a.concat b).msgs k := by
    simp only [MsgHistory.discardOld]; rw [if_pos ⟨hk.1, h1⟩]
  rw [e]
  by_cases hka : k < a.seqEnd
  · rw [MsgHistory.concat_msgs_left hb hc hka, MsgHistory.concat_msgs_left hb hc' hka]
    simp only [MsgHistory.discardOld]; rw [if_pos ⟨hk.1, hka⟩]
  · have : b.Contains k := ⟨by omega, hk.2⟩
    rw [MsgHistory.concat_msgs_right hb this, MsgHistory.concat_msgs_right hb this]

/-- One step: well-formedness is kept and the interpretation takes the same abstract step. -/
theorem step_refines {s s' : State} {lbl : Label TJ} (hw : s.WF) (hs : Next s lbl s') :
    s'.WF ∧ AbstractJournal.Next s.interp (lbl.i TJ.interp).abs s'.interp := by
  obtain ⟨hiw, his, hie, hcc⟩ := s.interp_facts hw
  have hw0 := hw
  obtain ⟨h1, h2, h3⟩ := hw
  have f := TJ.interp_facts h1
  cases hs with
  | @readForRecovery m d _ hm hd =>
    refine ⟨hw0, .readForRecovery hiw ?_⟩
    obtain ⟨_, hcrop, r, rest, hr, rfl⟩ := hd
    exact includes_trans (includes_concat_left h2 hcc) (Chain.crop_head_included hcrop hr)
  | @freezeForCommit fz d hf =>
    refine ⟨hw0, ?_⟩
    obtain ⟨hfw, hcrop, hcd, heq⟩ := hf
    have hv : (s.tj.crop d).WF := Chain.crop_valid hcrop
    obtain ⟨c1, c2⟩ := Chain.interp_crop hcrop
    have hi : fz.interp = (s.tj.crop d).interp.discardOld fz.boundary := by
      have := (TJ.discardOld_wf hv hcd).2.2
      rw [← heq] at this; exact this
    have ff := TJ.interp_facts hfw
    have fc := TJ.interp_facts hv
    refine AbstractJournal.Next.freezeForCommit hiw ff.1 ?_
    refine includes_trans (includes_concat_left h2 hcc) ?_
    rw [hi]
    have hcd' : (s.tj.crop d).interp.CanDiscardTo fz.boundary := by
      refine ⟨?_, ?_⟩
      · rw [fc.2.1]; exact hcd.1
      · rw [fc.2.2]; exact hcd.2
    refine includes_trans ?_ (includes_discardOld hcd')
    show s.tj.interp.IncludesSubseq (Chain.interp s.tj.boundary (s.tj.chain.crop s.tj.boundary d))
    rw [c2]
    apply includes_discardRecent
    rw [f.2.2]; exact c1
  | queryEndLsn =>
    refine ⟨hw0, ?_⟩
    rw [← hie]; exact .observeFresh hiw
  | @put m hm hse =>
    have hc : s.tail.CanConcat m := hse
    refine ⟨⟨h1, MsgHistory.wf_concat h2 hm hc, h3⟩, ?_⟩
    have : ({ s with tail := s.tail.concat m } : State).interp = s.interp.concat m := by
      show s.tj.interp.concat (s.tail.concat m) = (s.tj.interp.concat s.tail).concat m
      rw [MsgHistory.concat_assoc]
    rw [this]
    exact .put hiw (by rw [hie]; exact hse.symm)
  | @discardOld l hl1 hl2 =>
    have hcd : s.interp.CanDiscardTo l := ⟨by omega, by omega⟩
    have key : ∀ s' : State, s'.WF → s'.interp = s.interp.discardOld l →
        s'.WF ∧ AbstractJournal.Next s.interp (.discardOld l s.tail.seqEnd) s'.interp := by
      intro s' hw' hi'
      refine ⟨hw', ?_⟩
      rw [hi', ← hie]; exact .discardOld hiw hcd
    apply key
    · by_cases hlt : s.tail.seqStart ≤ l
      · simp only [if_pos hlt]
        exact ⟨by simp [TJ.WF, Chain.OptValid], MsgHistory.wf_discardOld h2 ⟨hlt, hl2⟩, rfl⟩
      · simp only [if_neg hlt]
        obtain ⟨d1, d2, d3⟩ := TJ.discardOld_wf h1 (l := l) ⟨hl1, by omega⟩
        exact ⟨d1, h2, by rw [d2]; exact h3⟩
    · by_cases hlt : s.tail.seqStart ≤ l
      · simp only [if_pos hlt]
        show (MsgHistory.emptyAt l).concat (s.tail.discardOld l) = (s.tj.interp.concat s.tail).discardOld l
        rw [concat_discardOld_right f.1 h2 hcc ⟨hlt, hl2⟩]
        exact MsgHistory.empty_concat (MsgHistory.wf_emptyAt l)
          (MsgHistory.wf_discardOld h2 ⟨hlt, hl2⟩) rfl rfl
      · simp only [if_neg hlt]
        obtain ⟨d1, d2, d3⟩ := TJ.discardOld_wf h1 (l := l) ⟨hl1, by omega⟩
        show (s.tj.discardOld l).interp.concat s.tail = (s.tj.interp.concat s.tail).discardOld l
        rw [d3, concat_discardOld_left f.1 h2 hcc ⟨by omega, by omega⟩]
  | @marshal cut hc1 hc2 =>
    have hrw := MsgHistory.wf_discardRecent h2 hc2
    have how := MsgHistory.wf_discardOld h2 hc2
    have hle := TJ.start_le_end h1
    have hstart : (s.tail.discardRecent cut).seqStart = s.tail.seqStart := rfl
    have hchw : Chain.WF (s.tail.discardRecent cut :: s.tj.chain) := by
      refine Chain.WF.cons hrw ?_ ?_
      · cases hc : s.tj.chain with
        | nil => trivial
        | cons m r => rw [← hc]; exact (h1 (by simp [hc])).wf
      · intro p hp
        rw [hstart, ← h3]
        unfold TJ.seqEnd
        cases hc : s.tj.chain with
        | nil => simp [hc] at hp
        | cons m r =>
          simp only [hc, List.head?_cons, Option.mem_def, Option.some.injEq] at hp
          subst hp; rfl
    have hv : Chain.Valid s.tj.boundary (s.tail.discardRecent cut :: s.tj.chain) := by
      refine ⟨hchw, by show s.tj.boundary < cut; omega, ?_⟩
      by_cases he : s.tj.chain = []
      · left
        have : s.tj.seqEnd = s.tj.boundary := by unfold TJ.seqEnd; rw [he]; rfl
        refine ⟨?_, ?_⟩
        · show s.tail.seqStart ≤ s.tj.boundary; omega
        · show s.tj.boundary ≤ cut; omega
      · exact .inr (h1 he)
    have hwf' : (s.tj.appendRecord (s.tail.discardRecent cut)).WF := fun _ => hv
    refine ⟨⟨hwf', how, rfl⟩, ?_⟩
    have : (⟨s.tj.appendRecord (s.tail.discardRecent cut), s.tail.discardOld cut⟩ : State).interp
        = s.interp := by
      show (Chain.interp s.tj.boundary (s.tail.discardRecent cut :: s.tj.chain)).concat
        (s.tail.discardOld cut) = s.tj.interp.concat s.tail
      have e : Chain.interp s.tj.boundary (s.tail.discardRecent cut :: s.tj.chain)
          = s.tj.interp.concat (s.tail.discardRecent cut) := by
        by_cases hm : (s.tail.discardRecent cut).seqStart ≤ s.tj.boundary
        · rw [Chain.interp_low hv hm]
          have hb : s.tj.boundary = s.tail.seqStart := by rw [hstart] at hm; omega
          have hemp : s.tj.interp.IsEmpty := by
            unfold MsgHistory.IsEmpty; rw [f.2.1, f.2.2, h3]; exact hb
          rw [MsgHistory.empty_concat f.1 hrw hcc hemp, hb, ← hstart,
            MsgHistory.discardOld_seqStart hrw]
        · rw [Chain.interp_high hm]; rfl
      rw [e, MsgHistory.concat_assoc, MsgHistory.discard_concat h2 hc2]
    rw [this]
    exact .internal hiw
  | noop => exact ⟨hw0, .internal hiw⟩

theorem init_refines {t : TJ} {s : State} (h : Init t s) :
    s.WF ∧ AbstractJournal.Init t.interp s.interp := by
  obtain ⟨hw, rfl⟩ := h
  have f := TJ.interp_facts hw
  refine ⟨⟨hw, MsgHistory.wf_emptyAt _, rfl⟩, f.1, ?_⟩
  exact MsgHistory.concat_empty f.1 (MsgHistory.wf_emptyAt _)
    (by show t.seqEnd = t.interp.seqEnd; exact f.2.2.symm) rfl

end Verif.Paged
