import Verif.Base.PMap
import Verif.Spec.Messages
/-
Model of Splinter/src/abstract_system/StampedMap_v.rs and MsgHistory_v.rs.
-/
namespace Verif

/-- StampedMap_v.rs 10: `type LSN = nat` -/
notation "LSN" => Nat

/-- StampedMap_v.rs 18-24: `Stamped<TotalKMMap>` (`Stamped<T>` is only used at this type here) -/
@[ext] structure StampedMap where
  value : TotalKMMap
  seqEnd : LSN

/-- StampedMap_v.rs 26-28 `empty()` -/
def StampedMap.empty : StampedMap := { value := TotalKMMap.empty, seqEnd := 0 }

/-- MsgHistory_v.rs 15-18 -/
@[ext] structure KeyedMessage where
  key : Key
  message : Message
  deriving DecidableEq, Repr

/-- MsgHistory_v.rs 27-36 -/
@[ext] structure MsgHistory where
  msgs : PMap LSN KeyedMessage
  seqStart : LSN
  seqEnd : LSN

/-- Applying one keyed message to a stamped map: the body of the recursion in
MsgHistory_v.rs 189-197. -/
def StampedMap.applyMsg (m : StampedMap) (km : KeyedMessage) : StampedMap :=
  { value := m.value.insert km.key ((m.value km.key).merge km.message), seqEnd := m.seqEnd + 1 }

namespace MsgHistory

/-- MsgHistory_v.rs 57-59 -/
def Contains (h : MsgHistory) (lsn : LSN) : Prop := h.seqStart ≤ lsn ∧ lsn < h.seqEnd

/-- MsgHistory_v.rs 39-42 with `contains_exactly` 68-70 -/
def WF (h : MsgHistory) : Prop :=
  h.seqStart ≤ h.seqEnd ∧ ∀ lsn, h.msgs.Has lsn ↔ h.Contains lsn

/-- MsgHistory_v.rs 72-74 -/
def IsEmpty (h : MsgHistory) : Prop := h.seqStart = h.seqEnd

/-- MsgHistory_v.rs 76-81 -/
def len (h : MsgHistory) : Nat := h.seqEnd - h.seqStart

/-- MsgHistory_v.rs 83-85 -/
def CanFollow (h : MsgHistory) (lsn : LSN) : Prop := h.seqStart = lsn

/-- MsgHistory_v.rs 87-89 -/
def CanConcat (h other : MsgHistory) : Prop := other.CanFollow h.seqEnd

/-- MsgHistory_v.rs 91-99 -/
def concat (h other : MsgHistory) : MsgHistory :=
  { msgs := h.msgs.unionRight other.msgs, seqStart := h.seqStart, seqEnd := other.seqEnd }

/-- MsgHistory_v.rs 152-154 -/
def CanDiscardTo (h : MsgHistory) (lsn : LSN) : Prop := h.seqStart ≤ lsn ∧ lsn ≤ h.seqEnd

/-- MsgHistory_v.rs 157-165. `Map::new` over `[seq_start, lsn)`; on positions where the history
has no message the Rust map would hold an unspecified message, the model holds none (no
difference for `can_discard_to` positions of well-formed histories). -/
def discardRecent (h : MsgHistory) (lsn : LSN) : MsgHistory :=
  { msgs := fun k => if h.seqStart ≤ k ∧ k < lsn then h.msgs k else none
    seqStart := h.seqStart, seqEnd := lsn }

/-- MsgHistory_v.rs 244-252 (same remark as `discardRecent`) -/
def discardOld (h : MsgHistory) (lsn : LSN) : MsgHistory :=
  { msgs := fun k => if lsn ≤ k ∧ k < h.seqEnd then h.msgs k else none
    seqStart := lsn, seqEnd := h.seqEnd }

/-- MsgHistory_v.rs 260-270 -/
def maybeDiscardOld (h : MsgHistory) (lsn : LSN) : MsgHistory :=
  if h.seqStart ≤ lsn then h.discardOld lsn else h

/-- MsgHistory_v.rs 302-310 -/
def IncludesSubseq (h sub : MsgHistory) : Prop :=
  h.seqStart ≤ sub.seqStart ∧ sub.seqEnd ≤ h.seqEnd ∧
  ∀ lsn, sub.Contains lsn → h.Contains lsn ∧ h.msgs lsn = sub.msgs lsn

/-- MsgHistory_v.rs 312-314 -/
def emptyAt (lsn : LSN) : MsgHistory := { msgs := PMap.empty, seqStart := lsn, seqEnd := lsn }

/-- MsgHistory_v.rs 316-318 -/
def singletonAt (lsn : LSN) (km : KeyedMessage) : MsgHistory :=
  { msgs := PMap.insert PMap.empty lsn km, seqStart := lsn, seqEnd := lsn + 1 }

/-- Apply the messages at `start, start+1, ..., start+n-1` in order. A missing message (not
possible in a well-formed history, where the Rust function is defined) is skipped. -/
def applyRange (msgs : PMap LSN KeyedMessage) (start : LSN) : Nat → StampedMap → StampedMap
  | 0, m => m
  | n + 1, m =>
    match msgs (start + n) with
    | some km => (applyRange msgs start n m).applyMsg km
    | none => applyRange msgs start n m

/-- MsgHistory_v.rs 176-199. The code peels the last LSN with `discard_recent`; the model
recurses over the length (`applyTo_rec` below recovers the code's equation). -/
def applyTo (h : MsgHistory) (m : StampedMap) : StampedMap :=
  applyRange h.msgs h.seqStart h.len m

/-- MsgHistory_v.rs 320-327 -/
def mapPlusHistory (m : StampedMap) (h : MsgHistory) : StampedMap := h.applyTo m

/-! ### Lemmas -/

theorem wf_msgs_none {h : MsgHistory} (hw : h.WF) {l : LSN} (hl : ¬ h.Contains l) :
    h.msgs l = none := by
  have := (not_congr (hw.2 l)).mpr hl
  simpa [PMap.Has] using this

theorem wf_msgs_some {h : MsgHistory} (hw : h.WF) {l : LSN} (hl : h.Contains l) :
    ∃ km, h.msgs l = some km := (PMap.has_iff _ _).mp ((hw.2 l).mpr hl)

/-- Two well-formed histories with the same bounds and the same messages inside are equal. -/
theorem ext_wf {a b : MsgHistory} (ha : a.WF) (hb : b.WF) (hs : a.seqStart = b.seqStart)
    (he : a.seqEnd = b.seqEnd) (hm : ∀ l, a.Contains l → a.msgs l = b.msgs l) : a = b := by
  ext1
  · funext l
    by_cases hl : a.Contains l
    · exact hm l hl
    · rw [wf_msgs_none ha hl, wf_msgs_none hb (by unfold Contains at hl ⊢; omega)]
  · exact hs
  · exact he

theorem applyRange_congr {f g : PMap LSN KeyedMessage} {start n : Nat}
    (h : ∀ k, start ≤ k → k < start + n → f k = g k) (m : StampedMap) :
    applyRange f start n m = applyRange g start n m := by
  induction n with
  | zero => rfl
  | succ n ih =>
    simp only [applyRange]
    rw [h (start + n) (by omega) (by omega), ih (fun k h1 h2 => h k h1 (by omega))]

theorem applyRange_add (f : PMap LSN KeyedMessage) (start a b : Nat) (m : StampedMap) :
    applyRange f start (a + b) m = applyRange f (start + a) b (applyRange f start a m) := by
  induction b with
  | zero => rfl
  | succ b ih =>
    rw [Nat.add_succ]
    simp only [applyRange, ih, Nat.add_assoc]

theorem applyRange_seqEnd {f : PMap LSN KeyedMessage} {start n : Nat}
    (h : ∀ k, start ≤ k → k < start + n → f k ≠ none) (m : StampedMap) :
    (applyRange f start n m).seqEnd = m.seqEnd + n := by
  induction n with
  | zero => rfl
  | succ n ih =>
    simp only [applyRange]
    have := h (start + n) (by omega) (by omega)
    have ih := ih (fun k h1 h2 => h k h1 (by omega))
    cases hf : f (start + n) with
    | none => exact absurd hf this
    | some km => simp [StampedMap.applyMsg, ih]; omega

theorem wf_emptyAt (l : LSN) : (emptyAt l).WF := by
  refine ⟨Nat.le_refl _, fun k => ?_⟩
  simp only [emptyAt, PMap.Has, PMap.empty, Contains]; simp

theorem wf_singletonAt (l : LSN) (km : KeyedMessage) : (singletonAt l km).WF := by
  refine ⟨by simp [singletonAt], fun k => ?_⟩
  simp only [singletonAt, PMap.Has, PMap.insert, Contains]
  by_cases hk : k = l
  · simp [hk]
  · simp [hk, PMap.empty]; omega

theorem wf_discardRecent {h : MsgHistory} (hw : h.WF) {l : LSN} (hl : h.CanDiscardTo l) :
    (h.discardRecent l).WF := by
  refine ⟨hl.1, fun k => ?_⟩
  have := hw.2 k
  simp only [PMap.Has, discardRecent, Contains] at this ⊢
  split
  · rename_i hk
    rw [this]; unfold CanDiscardTo at hl; omega
  · rename_i hk; simp; omega

theorem wf_discardOld {h : MsgHistory} (hw : h.WF) {l : LSN} (hl : h.CanDiscardTo l) :
    (h.discardOld l).WF := by
  refine ⟨hl.2, fun k => ?_⟩
  have := hw.2 k
  simp only [PMap.Has, discardOld, Contains] at this ⊢
  split
  · rename_i hk
    rw [this]; unfold CanDiscardTo at hl; omega
  · rename_i hk; simp; omega

theorem unionRight_eq_left {f g : PMap LSN KeyedMessage} {l : LSN} (h : g l = none) :
    (f.unionRight g) l = f l := by simp [PMap.unionRight, h]

theorem unionRight_eq_right {f g : PMap LSN KeyedMessage} {l : LSN} (h : g l ≠ none) :
    (f.unionRight g) l = g l := by
  simp only [PMap.unionRight]; split
  · rename_i h'; rw [h']
  · rename_i h'; exact absurd h' h

/-- MsgHistory_v.rs 103-118 `concat_lemma` -/
theorem wf_concat {a b : MsgHistory} (ha : a.WF) (hb : b.WF) (hc : a.CanConcat b) :
    (a.concat b).WF := by
  unfold CanConcat CanFollow at hc
  refine ⟨by simp only [concat]; have := ha.1; have := hb.1; omega, fun k => ?_⟩
  have h1 := ha.2 k
  have h2 := hb.2 k
  simp only [PMap.Has, Contains] at *
  simp only [concat]
  by_cases hk : b.msgs k = none
  · rw [unionRight_eq_left hk, h1]
    have := hb.1
    simp only [hk, ne_eq, not_true_eq_false, false_iff] at h2
    omega
  · rw [unionRight_eq_right hk, h2]
    have h3 := h2.mp hk
    have := ha.1
    omega

theorem contains_concat {a b : MsgHistory} (ha : a.WF) (hb : b.WF) (hc : a.CanConcat b) (k : LSN) :
    (a.concat b).Contains k ↔ a.Contains k ∨ b.Contains k := by
  unfold CanConcat CanFollow at hc
  have := ha.1; have := hb.1
  simp only [concat, Contains]; omega

theorem concat_msgs_left {a b : MsgHistory} (hb : b.WF) (hc : a.CanConcat b) {k : LSN}
    (hk : k < a.seqEnd) : (a.concat b).msgs k = a.msgs k := by
  apply unionRight_eq_left
  apply wf_msgs_none hb
  unfold CanConcat CanFollow at hc
  unfold Contains; omega

theorem concat_msgs_right {a b : MsgHistory} (hb : b.WF) {k : LSN}
    (hk : b.Contains k) : (a.concat b).msgs k = b.msgs k :=
  unionRight_eq_right ((hb.2 k).mpr hk)

theorem concat_empty {a : MsgHistory} (ha : a.WF) {b : MsgHistory} (hb : b.WF)
    (hc : a.CanConcat b) (he : b.IsEmpty) : a.concat b = a := by
  unfold CanConcat CanFollow at hc
  unfold IsEmpty at he
  apply ext_wf (wf_concat ha hb hc) ha rfl (by simp [concat]; omega)
  intro l hl
  apply concat_msgs_left hb hc
  simp only [Contains, concat] at hl; omega

theorem empty_concat {a : MsgHistory} {b : MsgHistory} (ha : a.WF) (hb : b.WF)
    (hc : a.CanConcat b) (he : a.IsEmpty) : a.concat b = b := by
  unfold IsEmpty at he
  have hc' := hc
  unfold CanConcat CanFollow at hc
  apply ext_wf (wf_concat ha hb hc') hb (by simp [concat]; omega) rfl
  intro l hl
  apply concat_msgs_right hb
  simp only [Contains, concat] at hl ⊢; omega

theorem concat_assoc (a b c : MsgHistory) : (a.concat b).concat c = a.concat (b.concat c) := by
  ext1
  · funext l
    simp only [concat, PMap.unionRight]
    cases c.msgs l <;> rfl
  · rfl
  · rfl

/-- MsgHistory_v.rs 290-300 `added_slices_union` -/
theorem discard_concat {h : MsgHistory} (hw : h.WF) {l : LSN} (hl : h.CanDiscardTo l) :
    (h.discardRecent l).concat (h.discardOld l) = h := by
  have h1 := wf_discardRecent hw hl
  have h2 := wf_discardOld hw hl
  apply ext_wf (wf_concat h1 h2 rfl) hw rfl rfl
  intro k hk
  simp only [concat, Contains, discardRecent, discardOld] at hk
  by_cases hkl : k < l
  · rw [concat_msgs_left (a := h.discardRecent l) h2 rfl hkl]
    simp only [discardRecent]; rw [if_pos]; omega
  · rw [concat_msgs_right h2 (by simp only [Contains, discardOld]; omega)]
    simp only [discardOld]; rw [if_pos]; omega

theorem discardRecent_seqEnd {h : MsgHistory} (hw : h.WF) : h.discardRecent h.seqEnd = h := by
  apply ext_wf (wf_discardRecent hw ⟨hw.1, Nat.le_refl _⟩) hw rfl rfl
  intro k hk
  simp only [discardRecent, Contains] at *
  rw [if_pos hk]

theorem discardOld_seqStart {h : MsgHistory} (hw : h.WF) : h.discardOld h.seqStart = h := by
  apply ext_wf (wf_discardOld hw ⟨Nat.le_refl _, hw.1⟩) hw rfl rfl
  intro k hk
  simp only [discardOld, Contains] at *
  rw [if_pos hk]

theorem discardOld_discardOld {h : MsgHistory} {l l' : LSN} (h1 : l ≤ l') :
    (h.discardOld l).discardOld l' = h.discardOld l' := by
  ext1
  · funext k; simp only [discardOld]
    grind
  · rfl
  · rfl

theorem discardRecent_discardRecent {h : MsgHistory} {l l' : LSN} (h1 : l' ≤ l) :
    (h.discardRecent l).discardRecent l' = h.discardRecent l' := by
  ext1
  · funext k; simp only [discardRecent]
    grind
  · rfl
  · rfl

theorem concat_discardRecent_left {a b : MsgHistory} (hb : b.WF) (hc : a.CanConcat b) {l : LSN}
    (hl : l ≤ a.seqEnd) : (a.concat b).discardRecent l = a.discardRecent l := by
  ext1
  · funext k; simp only [discardRecent]
    have : (a.concat b).seqStart = a.seqStart := rfl
    rw [this]
    split
    · rw [concat_msgs_left hb hc (by omega)]
    · rfl
  · rfl
  · rfl

theorem applyTo_discardRecent (h : MsgHistory) (l : LSN) (m : StampedMap) :
    mapPlusHistory m (h.discardRecent l) = applyRange h.msgs h.seqStart (l - h.seqStart) m := by
  unfold mapPlusHistory applyTo len
  simp only [discardRecent]
  apply applyRange_congr
  intro k h1 h2
  rw [if_pos (by omega)]

/-- The code's own recursion, MsgHistory_v.rs 176-199. -/
theorem applyTo_rec {h : MsgHistory} (hw : h.WF) (m : StampedMap) :
    h.applyTo m =
      if h.seqStart = h.seqEnd then m
      else match h.msgs (h.seqEnd - 1) with
        | some km => ((h.discardRecent (h.seqEnd - 1)).applyTo m).applyMsg km
        | none => (h.discardRecent (h.seqEnd - 1)).applyTo m := by
  have hse := hw.1
  split
  · rename_i he; simp [applyTo, len, he, applyRange]
  · rename_i he
    have : h.applyTo m = applyRange h.msgs h.seqStart (h.seqEnd - 1 - h.seqStart + 1) m := by
      unfold applyTo len; congr 1; omega
    rw [this]
    have h2 := applyTo_discardRecent h (h.seqEnd - 1) m
    unfold mapPlusHistory at h2
    rw [h2]
    simp only [applyRange]
    have : h.seqStart + (h.seqEnd - 1 - h.seqStart) = h.seqEnd - 1 := by omega
    rw [this]

theorem mapPlus_seqEnd {h : MsgHistory} (hw : h.WF) {m : StampedMap} (hf : h.CanFollow m.seqEnd) :
    (mapPlusHistory m h).seqEnd = h.seqEnd := by
  unfold mapPlusHistory applyTo
  rw [applyRange_seqEnd]
  · unfold CanFollow at hf; have := hw.1; unfold len; omega
  · intro k h1 h2
    have := hw.1
    exact (hw.2 k).mpr ⟨h1, by unfold len at h2; omega⟩

/-- Replaying a concatenation is replaying one part after the other
(AbstractCrashAwareSystemRefinement_v.rs `journal_associativity`). -/
theorem mapPlus_concat {a b : MsgHistory} (ha : a.WF) (hb : b.WF) (hc : a.CanConcat b)
    (m : StampedMap) :
    mapPlusHistory m (a.concat b) = mapPlusHistory (mapPlusHistory m a) b := by
  unfold mapPlusHistory applyTo
  have h1 := ha.1; have h2 := hb.1
  have hc' : b.seqStart = a.seqEnd := hc
  have : (a.concat b).len = a.len + b.len := by simp only [len, concat]; omega
  rw [this, applyRange_add]
  have hs : (a.concat b).seqStart = a.seqStart := rfl
  rw [hs]
  have e1 : applyRange (a.concat b).msgs a.seqStart a.len m = applyRange a.msgs a.seqStart a.len m := by
    apply applyRange_congr
    intro k h3 h4
    exact concat_msgs_left hb hc (by unfold len at h4; omega)
  rw [e1]
  have e2 : a.seqStart + a.len = b.seqStart := by unfold len; omega
  rw [e2]
  apply applyRange_congr
  intro k h3 h4
  exact concat_msgs_right hb ⟨h3, by unfold len at h4; omega⟩

theorem mapPlus_singleton (m : StampedMap) (l : LSN) (km : KeyedMessage) :
    mapPlusHistory m (singletonAt l km) = m.applyMsg km := by
  unfold mapPlusHistory applyTo len
  have : (singletonAt l km).seqEnd - (singletonAt l km).seqStart = 1 := by simp [singletonAt]
  rw [this]
  simp [applyRange, singletonAt]

theorem mapPlus_empty (m : StampedMap) {h : MsgHistory} (he : h.IsEmpty) :
    mapPlusHistory m h = m := by
  unfold IsEmpty at he
  simp [mapPlusHistory, applyTo, len, he, applyRange]

theorem applyRange_isDefine (f : PMap LSN KeyedMessage) (start n : Nat) {m : StampedMap}
    (hm : ∀ k, (m.value k).IsDefine) : ∀ k, ((applyRange f start n m).value k).IsDefine := by
  induction n with
  | zero => exact hm
  | succ n ih =>
    intro k
    simp only [applyRange]
    split
    · simp only [StampedMap.applyMsg, TotalKMMap.insert]
      split
      · exact Message.isDefine_merge _ (ih _)
      · exact ih k
    · exact ih k

end MsgHistory
end Verif
