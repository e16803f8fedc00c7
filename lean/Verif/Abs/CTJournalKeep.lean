import Verif.Abs.Machines
/-
The abstract crash-tolerant journal never loses or changes what its persistent copy holds.
-/
namespace Verif.CTJournal
open Verif

/-- `k` is `h` truncated at the front and extended at the end. -/
def Later (h k : MsgHistory) : Prop :=
  h.seqStart ≤ k.seqStart ∧ h.seqEnd ≤ k.seqEnd ∧
  ∀ l, k.seqStart ≤ l → l < h.seqEnd → k.msgs l = h.msgs l

theorem Later.refl (h : MsgHistory) : Later h h := ⟨Nat.le_refl _, Nat.le_refl _, fun _ _ _ => rfl⟩

theorem Later.trans {a b c} (h1 : Later a b) (h2 : Later b c) : Later a c := by
  refine ⟨Nat.le_trans h1.1 h2.1, Nat.le_trans h1.2.1 h2.2.1, ?_⟩
  intro l hl ha
  have := h1.2.1
  have := h2.1
  rw [h2.2.2 l hl (by omega), h1.2.2 l (by omega) ha]

/-- The running journal and the one being committed continue the persistent one. -/
structure Good (t : State) : Prop where
  noInfl : t.ephemeral = none → t.inFlight = none
  pers : t.persistent.WF
  eph : ∀ j, t.ephemeral = some j → j.WF ∧ Later t.persistent j
  infl : ∀ f, t.inFlight = some f → f.WF ∧ Later t.persistent f ∧
    ∀ j, t.ephemeral = some j → j.IncludesSubseq f

theorem good_init {t} (h : Init t) : Good t := by
  subst h
  exact ⟨fun _ => rfl, MsgHistory.wf_emptyAt 0, (fun _ h => by cases h), (fun _ h => by cases h)⟩

theorem good_step {t t' : State} {l} (h : Good t) (hs : Next t l t')
    (hc : ∀ m, l = .put m → m.WF) : Good t' ∧ Later t.persistent t'.persistent := by
  cases hs with
  | @loadEphemeral j he hi =>
    obtain ⟨hw, rfl⟩ := hi
    refine ⟨⟨(fun h1 => by cases h1), h.pers, ?_, ?_⟩, .refl _⟩
    · intro j hj; cases hj; exact ⟨hw, .refl _⟩
    · intro f hf
      have hf : t.inFlight = some f := hf
      rw [h.noInfl he] at hf; cases hf
  | readForRecovery => exact ⟨h, .refl _⟩
  | queryEndLsn => exact ⟨h, .refl _⟩
  | @put j j' m he hn =>
    have hm := hc m rfl
    cases hn with
    | put hw hse =>
      obtain ⟨h1, h2⟩ := h.eph j he
      have hcc : j.CanConcat m := hse.symm
      have hmle := hm.1
      refine ⟨⟨(fun h1 => by cases h1), h.pers, ?_, ?_⟩, .refl _⟩
      · intro j' hj'; cases hj'
        refine ⟨MsgHistory.wf_concat h1 hm hcc, h2.1, ?_, ?_⟩
        · show t.persistent.seqEnd ≤ m.seqEnd
          have := h2.2.1; omega
        · intro l hl hlt
          have hlt : l < t.persistent.seqEnd := hlt
          rw [MsgHistory.concat_msgs_left hm hcc (by have := h2.2.1; omega)]
          exact h2.2.2 l hl hlt
      · intro f hf
        obtain ⟨h3, h4, h5⟩ := h.infl f hf
        refine ⟨h3, h4, ?_⟩
        intro j' hj'; cases hj'
        obtain ⟨h6, h7, h8⟩ := h5 j he
        refine ⟨h6, ?_, ?_⟩
        · show f.seqEnd ≤ m.seqEnd
          omega
        · intro k hk
          obtain ⟨h9, h10⟩ := h8 k hk
          refine ⟨(MsgHistory.contains_concat h1 hm hcc k).mpr (.inl h9), ?_⟩
          rw [MsgHistory.concat_msgs_left hm hcc h9.2]; exact h10
  | @internal j j' he hn =>
    cases hn
    refine ⟨⟨(fun h1 => by cases h1), h.pers, ?_, ?_⟩, .refl _⟩
    · intro j' hj'; cases hj'; exact h.eph j he
    · intro f hf
      obtain ⟨h3, h4, h5⟩ := h.infl f hf
      exact ⟨h3, h4, fun j' hj' => by cases hj'; exact h5 j he⟩
  | queryLsnPersistence => exact ⟨h, .refl _⟩
  | @commitStart j f b mx he hno hw hb hle hmx hn =>
    obtain ⟨h1, h2⟩ := h.eph j he
    refine ⟨⟨fun h3 => (by rw [he] at h3; cases h3), h.pers, h.eph, ?_⟩, .refl _⟩
    intro f' hf'; cases hf'
    cases hn with
    | freezeForCommit _ _ hinc =>
      refine ⟨hw, ⟨Nat.le_trans h2.1 hinc.1, hle, ?_⟩, ?_⟩
      · intro l hl hlt
        have hlt : l < t.persistent.seqEnd := hlt
        have := hinc.1
        rw [← (hinc.2.2 l ⟨hl, by omega⟩).2]
        exact h2.2.2 l (by omega) hlt
      · intro j' hj'
        rw [he] at hj'; cases hj'; exact hinc
  | @commitComplete j j' f e he hf hn =>
    obtain ⟨h3, h4, h5⟩ := h.infl f hf
    have hinc := h5 j he
    obtain ⟨h1, h2⟩ := h.eph j he
    cases hn with
    | discardOld _ hcd =>
      refine ⟨⟨(fun h1 => by cases h1), h3, ?_, (fun _ h1 => by cases h1)⟩, h4⟩
      intro j' hj'; cases hj'
      refine ⟨MsgHistory.wf_discardOld h1 hcd, Nat.le_refl _, hinc.2.1, ?_⟩
      intro l hl hlt
      have hl : f.seqStart ≤ l := hl
      have hlt : l < f.seqEnd := hlt
      show (if f.seqStart ≤ l ∧ l < j.seqEnd then j.msgs l else none) = _
      rw [if_pos ⟨hl, by have := hinc.2.1; omega⟩]
      exact (hinc.2.2 l ⟨hl, hlt⟩).2
  | @crash keep =>
    have key : ∀ p, (p = t.persistent ∨ t.inFlight = some p) → p.WF ∧ Later t.persistent p := by
      rintro p (rfl | hp)
      · exact ⟨h.pers, .refl _⟩
      · exact ⟨(h.infl p hp).1, (h.infl p hp).2.1⟩
    have hk := key (if keep then t.inFlight.getD t.persistent else t.persistent) (by
      cases keep
      · exact .inl rfl
      · cases hf : t.inFlight with
        | none => exact .inl rfl
        | some f => exact .inr rfl)
    exact ⟨⟨fun _ => rfl, hk.1, (fun _ h1 => by cases h1), (fun _ h1 => by cases h1)⟩, hk.2⟩

end Verif.CTJournal
