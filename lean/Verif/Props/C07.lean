import Verif.Abs.MsgHistory
/-
C07. Replaying a message history is compositional.
Specification: a well-formed history is a start LSN and the list of its messages; the operations
are `++`, `take`, `drop`, and replay is a left fold.
-/
namespace Verif.C07
open Verif MsgHistory

/-- The messages of a history, oldest first. -/
def messages (h : MsgHistory) : List KeyedMessage :=
  (List.range' h.seqStart (h.seqEnd - h.seqStart)).filterMap h.msgs

/-- Apply one message to a map: combine with what the key holds. -/
def applyOne (m : TotalKMMap) (km : KeyedMessage) : TotalKMMap :=
  fun k => if k = km.key then (m k).merge km.message else m k

theorem messages_length {h : MsgHistory} (hw : h.WF) : (messages h).length = h.seqEnd - h.seqStart := by
  unfold messages
  have : ∀ n s, (∀ l, s ≤ l → l < s + n → h.msgs l ≠ none) →
      ((List.range' s n).filterMap h.msgs).length = n := by
    intro n
    induction n with
    | zero => intros; rfl
    | succ n ih =>
      intro s hs
      rw [List.range'_succ, List.filterMap_cons]
      cases hm : h.msgs s with
      | none => exact absurd hm (hs s (by omega) (by omega))
      | some km =>
        simp only [List.length_cons]
        rw [ih (s + 1) (fun l h1 h2 => hs l (by omega) (by omega))]
  apply this
  intro l h1 h2
  exact (hw.2 l).mpr ⟨h1, by have := hw.1; omega⟩

theorem messages_getElem? {h : MsgHistory} (hw : h.WF) (i : Nat) :
    (messages h)[i]? = if i < h.seqEnd - h.seqStart then h.msgs (h.seqStart + i) else none := by
  unfold messages
  have : ∀ n s i, (∀ l, s ≤ l → l < s + n → h.msgs l ≠ none) →
      ((List.range' s n).filterMap h.msgs)[i]? = if i < n then h.msgs (s + i) else none := by
    intro n
    induction n with
    | zero => intros; simp
    | succ n ih =>
      intro s i hs
      rw [List.range'_succ, List.filterMap_cons]
      cases hm : h.msgs s with
      | none => exact absurd hm (hs s (by omega) (by omega))
      | some km =>
        cases i with
        | zero => simp [hm]
        | succ i =>
          simp only [List.getElem?_cons_succ]
          rw [ih (s + 1) i (fun l h1 h2 => hs l (by omega) (by omega))]
          have : s + 1 + i = s + (i + 1) := by omega
          rw [this]; simp
  apply this
  intro l h1 h2
  exact (hw.2 l).mpr ⟨h1, by have := hw.1; omega⟩

/-- A well-formed history is determined by its start and its messages. -/
theorem ext_messages {a b : MsgHistory} (ha : a.WF) (hb : b.WF) (hs : a.seqStart = b.seqStart)
    (hm : messages a = messages b) : a = b := by
  have hl : a.seqEnd - a.seqStart = b.seqEnd - b.seqStart := by
    rw [← messages_length ha, ← messages_length hb, hm]
  have := ha.1; have := hb.1
  apply ext_wf ha hb hs (by omega)
  intro l hl
  have h1 := messages_getElem? ha (l - a.seqStart)
  have h2 := messages_getElem? hb (l - a.seqStart)
  unfold Contains at hl
  rw [hm, h2, if_pos (by omega), if_pos (by omega)] at h1
  have e1 : a.seqStart + (l - a.seqStart) = l := by omega
  have e2 : b.seqStart + (l - a.seqStart) = l := by omega
  rw [e1, e2] at h1
  exact h1.symm

/-- Replay is a left fold over the messages, and moves the stamp to the end of the history. -/
theorem replay_eq_fold {h : MsgHistory} (hw : h.WF) {m : StampedMap} (hf : h.seqStart = m.seqEnd) :
    (mapPlusHistory m h).value = (messages h).foldl applyOne m.value ∧
    (mapPlusHistory m h).seqEnd = h.seqEnd := by
  refine ⟨?_, mapPlus_seqEnd hw hf⟩
  unfold mapPlusHistory applyTo messages len
  generalize h.seqEnd - h.seqStart = n
  induction n with
  | zero => rfl
  | succ n ih =>
    rw [List.range'_concat, List.filterMap_append, List.foldl_append, ← ih]
    simp only [applyRange, Nat.one_mul, List.filterMap_cons, List.filterMap_nil]
    cases h.msgs (h.seqStart + n) with
    | none => rfl
    | some km =>
      simp only [List.foldl_cons, List.foldl_nil, StampedMap.applyMsg]
      funext k
      unfold TotalKMMap.insert applyOne
      by_cases hk : k = km.key
      · simp [hk]
      · simp [hk]

/-- Concatenation is list append, and keeps histories well formed. -/
theorem concat_append {a b : MsgHistory} (ha : a.WF) (hb : b.WF) (hc : b.seqStart = a.seqEnd) :
    (a.concat b).WF ∧ messages (a.concat b) = messages a ++ messages b ∧
    (a.concat b).seqStart = a.seqStart ∧ (a.concat b).seqEnd = b.seqEnd := by
  have hw := wf_concat ha hb hc
  refine ⟨hw, ?_, rfl, rfl⟩
  apply List.ext_getElem?
  intro i
  have h1 := ha.1; have h2 := hb.1
  rw [messages_getElem? hw, List.getElem?_append, messages_length ha,
    messages_getElem? ha, messages_getElem? hb]
  have es : (a.concat b).seqStart = a.seqStart := rfl
  have ee : (a.concat b).seqEnd = b.seqEnd := rfl
  rw [es, ee]
  by_cases hi : i < a.seqEnd - a.seqStart
  · rw [if_pos hi, if_pos (by omega), if_pos hi, concat_msgs_left hb hc (by omega)]
  · rw [if_neg hi]
    by_cases hi2 : i < b.seqEnd - a.seqStart
    · rw [if_pos hi2, if_pos (by omega)]
      have e : a.seqStart + i = b.seqStart + (i - (a.seqEnd - a.seqStart)) := by omega
      rw [e]
      exact concat_msgs_right hb ⟨by omega, by omega⟩
    · rw [if_neg hi2, if_neg (by omega)]

/-- Cutting at an LSN: `discard_recent` is `take`, `discard_old` is `drop`. -/
theorem cut {h : MsgHistory} (hw : h.WF) {l : LSN} (h1 : h.seqStart ≤ l) (h2 : l ≤ h.seqEnd) :
    (h.discardRecent l).WF ∧ (h.discardOld l).WF ∧
    messages (h.discardRecent l) = (messages h).take (l - h.seqStart) ∧
    messages (h.discardOld l) = (messages h).drop (l - h.seqStart) := by
  have w1 := wf_discardRecent hw ⟨h1, h2⟩
  have w2 := wf_discardOld hw ⟨h1, h2⟩
  have hcat := concat_append w1 w2 rfl
  rw [discard_concat hw ⟨h1, h2⟩] at hcat
  have hlen : (messages (h.discardRecent l)).length = l - h.seqStart := messages_length w1
  refine ⟨w1, w2, ?_, ?_⟩
  · rw [hcat.2.1, ← hlen]; simp
  · rw [hcat.2.1, ← hlen]; simp

/-- Cutting and concatenating are inverse. -/
theorem cut_concat {h : MsgHistory} (hw : h.WF) {l : LSN} (h1 : h.seqStart ≤ l) (h2 : l ≤ h.seqEnd) :
    (h.discardRecent l).concat (h.discardOld l) = h := discard_concat hw ⟨h1, h2⟩

theorem concat_cut {a b : MsgHistory} (ha : a.WF) (hb : b.WF) (hc : b.seqStart = a.seqEnd) :
    (a.concat b).discardRecent a.seqEnd = a ∧ (a.concat b).discardOld a.seqEnd = b := by
  have hcat := concat_append ha hb hc
  have h1 := ha.1; have h2 := hb.1
  have hcut := cut (h := a.concat b) hcat.1 (l := a.seqEnd) h1
    (by show a.seqEnd ≤ b.seqEnd; omega)
  have es : (a.concat b).seqStart = a.seqStart := rfl
  constructor
  · apply ext_messages hcut.1 ha rfl
    rw [hcut.2.2.1, hcat.2.1, es, ← messages_length ha]; simp
  · apply ext_messages hcut.2.1 hb hc.symm
    rw [hcut.2.2.2, hcat.2.1, es, ← messages_length ha]; simp

/-- Replaying a history is replaying its first part and then the rest, for every cut point. -/
theorem replay_cut {h : MsgHistory} (hw : h.WF) {l : LSN} (h1 : h.seqStart ≤ l) (h2 : l ≤ h.seqEnd)
    (m : StampedMap) :
    mapPlusHistory m h = mapPlusHistory (mapPlusHistory m (h.discardRecent l)) (h.discardOld l) := by
  rw [← mapPlus_concat (wf_discardRecent hw ⟨h1, h2⟩) (wf_discardOld hw ⟨h1, h2⟩) rfl,
    discard_concat hw ⟨h1, h2⟩]

theorem replay_concat {a b : MsgHistory} (ha : a.WF) (hb : b.WF) (hc : b.seqStart = a.seqEnd)
    (m : StampedMap) : mapPlusHistory m (a.concat b) = mapPlusHistory (mapPlusHistory m a) b :=
  mapPlus_concat ha hb hc m

/-- Nested cuts compose. -/
theorem cut_cut {h : MsgHistory} {l l' : LSN} (hl : l ≤ l') :
    (h.discardOld l).discardOld l' = h.discardOld l' ∧
    (h.discardRecent l').discardRecent l = h.discardRecent l :=
  ⟨discardOld_discardOld hl, discardRecent_discardRecent hl⟩

/-- A well-formed history of three messages starting at LSN 4. -/
def sample : MsgHistory :=
  ((singletonAt 4 ⟨1, .define 10⟩).concat (singletonAt 5 ⟨2, .define 20⟩)).concat
    (singletonAt 6 ⟨1, .update 3⟩)

example : sample.WF ∧ messages sample = [⟨1, .define 10⟩, ⟨2, .define 20⟩, ⟨1, .update 3⟩] := by
  have h1 := concat_append (wf_singletonAt 4 ⟨1, .define 10⟩) (wf_singletonAt 5 ⟨2, .define 20⟩) rfl
  have h2 := concat_append h1.1 (wf_singletonAt 6 ⟨1, .update 3⟩) rfl
  exact ⟨h2.1, rfl⟩

end Verif.C07
