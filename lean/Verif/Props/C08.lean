import Verif.Abs.Machines
/-
C08. The journal returns exactly what was appended (AbstractJournal).
-/
namespace Verif.C08
open Verif AbstractJournal

/-- Event sequence form of the specification. `Logged p tr l km`: the message `km` with LSN `l`
was in the journal the machine was started with or was appended by one of the events. -/
def Logged (p : MsgHistory) (tr : List Label) (l : LSN) (km : KeyedMessage) : Prop :=
  (p.Contains l ∧ p.msgs l = some km) ∨
  ∃ m, Label.put m ∈ tr ∧ m.Contains l ∧ m.msgs l = some km

/-- LSN `l` has been truncated away by one of the events. -/
def Truncated (tr : List Label) (l : LSN) : Prop := ∃ a e, Label.discardOld a e ∈ tr ∧ l < a

/-- Clients append well-formed message sequences. -/
def CleanPuts (tr : List Label) : Prop := ∀ m, Label.put m ∈ tr → m.WF

/-- The journal machine started from journal `p`. -/
def machine (p : MsgHistory) : Machine MsgHistory Label := { Init := Init p, Step := Next }

/-- The invariant: the journal holds exactly the logged messages that were not truncated. -/
theorem journal_exact {p : MsgHistory} {tr : List Label} {j : MsgHistory}
    (h : (machine p).Exec tr j) (hc : CleanPuts tr) :
    j.WF ∧ p.seqStart ≤ j.seqStart ∧
    ∀ l km, j.msgs l = some km ↔ Logged p tr l km ∧ ¬ Truncated tr l := by
  suffices hs : CleanPuts tr → j.WF ∧ p.seqStart ≤ j.seqStart ∧
      (∀ l, Truncated tr l ↔ (p.seqStart ≤ l ∧ l < j.seqStart) ∨ (l < p.seqStart ∧ Truncated tr l)) ∧
      (∀ l km, Logged p tr l km → p.seqStart ≤ l ∧ l < j.seqEnd) ∧
      ∀ l km, j.seqStart ≤ l → (j.msgs l = some km ↔ Logged p tr l km) by
    obtain ⟨h1, h2, h3, h4, h5⟩ := hs hc
    refine ⟨h1, h2, fun l km => ?_⟩
    by_cases hl : j.seqStart ≤ l
    · rw [h5 l km hl]
      constructor
      · intro hlog
        refine ⟨hlog, fun ht => ?_⟩
        have := (h3 l).mp ht
        omega
      · exact fun h => h.1
    · have hn : j.msgs l = none := MsgHistory.wf_msgs_none h1 (by unfold MsgHistory.Contains; omega)
      rw [hn]
      simp only [reduceCtorEq, false_iff, not_and, Classical.not_not]
      intro hlog
      have := h4 l km hlog
      exact (h3 l).mpr (.inl ⟨this.1, by omega⟩)
  clear hc
  refine Machine.exec_invariant (M := machine p) (I := fun tr j => CleanPuts tr →
      j.WF ∧ p.seqStart ≤ j.seqStart ∧
      (∀ l, Truncated tr l ↔ (p.seqStart ≤ l ∧ l < j.seqStart) ∨ (l < p.seqStart ∧ Truncated tr l)) ∧
      (∀ l km, Logged p tr l km → p.seqStart ≤ l ∧ l < j.seqEnd) ∧
      ∀ l km, j.seqStart ≤ l → (j.msgs l = some km ↔ Logged p tr l km)) ?_ ?_ h
  · rintro j ⟨hw, rfl⟩ -
    refine ⟨hw, Nat.le_refl _, ?_, ?_, ?_⟩
    · intro l; simp [Truncated]
    · rintro l km (⟨hl, _⟩ | ⟨m, hm, _⟩)
      · exact hl
      · simp at hm
    · intro l km _
      constructor
      · intro hm
        refine .inl ⟨(hw.2 l).mp ?_, hm⟩
        simp [PMap.Has, hm]
      · rintro (⟨_, hm⟩ | ⟨m, hm, _⟩)
        · exact hm
        · simp at hm
  · intro tr j lbl j' ih hs hcl
    obtain ⟨hw, hst, htr, hlog, hex⟩ := ih (fun m hm => hcl m (by simp [hm]))
    -- events that neither append nor truncate
    have quiet : (∀ m, lbl ≠ .put m) → (∀ a e, lbl ≠ .discardOld a e) →
        (∀ l, Truncated (tr ++ [lbl]) l ↔ Truncated tr l) ∧
        (∀ l km, Logged p (tr ++ [lbl]) l km ↔ Logged p tr l km) := by
      intro h1 h2
      constructor
      · intro l
        unfold Truncated
        constructor
        · rintro ⟨a, e, hm, hl⟩
          rcases List.mem_append.mp hm with hm | hm
          · exact ⟨a, e, hm, hl⟩
          · exact absurd (List.mem_singleton.mp hm).symm (h2 a e)
        · rintro ⟨a, e, hm, hl⟩; exact ⟨a, e, List.mem_append_left _ hm, hl⟩
      · intro l km
        unfold Logged
        constructor
        · rintro (h | ⟨m, hm, hl⟩)
          · exact .inl h
          · rcases List.mem_append.mp hm with hm | hm
            · exact .inr ⟨m, hm, hl⟩
            · exact absurd (List.mem_singleton.mp hm).symm (h1 m)
        · rintro (h | ⟨m, hm, hl⟩)
          · exact .inl h
          · exact .inr ⟨m, List.mem_append_left _ hm, hl⟩
    have keep : (∀ m, lbl ≠ .put m) → (∀ a e, lbl ≠ .discardOld a e) → j' = j →
        j'.WF ∧ p.seqStart ≤ j'.seqStart ∧
        (∀ l, Truncated (tr ++ [lbl]) l ↔ (p.seqStart ≤ l ∧ l < j'.seqStart) ∨
          (l < p.seqStart ∧ Truncated (tr ++ [lbl]) l)) ∧
        (∀ l km, Logged p (tr ++ [lbl]) l km → p.seqStart ≤ l ∧ l < j'.seqEnd) ∧
        ∀ l km, j'.seqStart ≤ l → (j'.msgs l = some km ↔ Logged p (tr ++ [lbl]) l km) := by
      rintro h1 h2 rfl
      obtain ⟨q1, q2⟩ := quiet h1 h2
      simp only [q1, q2]
      exact ⟨hw, hst, htr, hlog, hex⟩
    simp only [machine] at hs
    cases hs with
    | readForRecovery => exact keep (by simp) (by simp) rfl
    | freezeForCommit => exact keep (by simp) (by simp) rfl
    | observeFresh => exact keep (by simp) (by simp) rfl
    | internal => exact keep (by simp) (by simp) rfl
    | @put m _ he =>
      have hmw : m.WF := hcl m (by simp)
      have hT : ∀ l, Truncated (tr ++ [Label.put m]) l ↔ Truncated tr l := by
        intro l; simp [Truncated]
      have hL : ∀ l km, Logged p (tr ++ [Label.put m]) l km ↔
          Logged p tr l km ∨ (m.Contains l ∧ m.msgs l = some km) := by
        intro l km
        unfold Logged
        constructor
        · rintro (h | ⟨m', hm, hl⟩)
          · exact .inl (.inl h)
          · rcases List.mem_append.mp hm with hm | hm
            · exact .inl (.inr ⟨m', hm, hl⟩)
            · have := List.mem_singleton.mp hm; cases this; exact .inr hl
        · rintro ((h | ⟨m', hm, hl⟩) | h)
          · exact .inl h
          · exact .inr ⟨m', List.mem_append_left _ hm, hl⟩
          · exact .inr ⟨m, by simp, h⟩
      have hcc : j.CanConcat m := he.symm
      have h1 := hw.1; have h2 := hmw.1
      refine ⟨MsgHistory.wf_concat hw hmw hcc, hst, ?_, ?_, ?_⟩
      · intro l; rw [hT l]; exact htr l
      · intro l km hl
        show _ ∧ l < m.seqEnd
        rcases (hL l km).mp hl with hl | ⟨hl, _⟩
        · have := hlog l km hl; omega
        · unfold MsgHistory.Contains at hl; omega
      · intro l km hl
        have hl : j.seqStart ≤ l := hl
        rw [hL l km]
        by_cases hlj : l < j.seqEnd
        · rw [MsgHistory.concat_msgs_left hmw hcc hlj, hex l km hl]
          constructor
          · exact .inl
          · rintro (h | ⟨h, _⟩)
            · exact h
            · unfold MsgHistory.Contains at h; omega
        · constructor
          · intro hm
            refine .inr ?_
            have hcon : (j.concat m).Contains l :=
              ((MsgHistory.wf_concat hw hmw hcc).2 l).mp (by simp [PMap.Has, hm])
            have hcm : m.Contains l := by
              unfold MsgHistory.Contains at hcon ⊢
              exact ⟨by omega, hcon.2⟩
            rw [MsgHistory.concat_msgs_right hmw hcm] at hm
            exact ⟨hcm, hm⟩
          · rintro (h | ⟨hcm, hm⟩)
            · have := hlog l km h; omega
            · rw [MsgHistory.concat_msgs_right hmw hcm]; exact hm
    | @discardOld a _ hcd =>
      have hT : ∀ l, Truncated (tr ++ [Label.discardOld a j.seqEnd]) l ↔ Truncated tr l ∨ l < a := by
        intro l
        unfold Truncated
        constructor
        · rintro ⟨a', e, hm, hl⟩
          rcases List.mem_append.mp hm with hm | hm
          · exact .inl ⟨a', e, hm, hl⟩
          · have := List.mem_singleton.mp hm; cases this; exact .inr hl
        · rintro (⟨a', e, hm, hl⟩ | hl)
          · exact ⟨a', e, List.mem_append_left _ hm, hl⟩
          · exact ⟨a, j.seqEnd, by simp, hl⟩
      have hL : ∀ l km, Logged p (tr ++ [Label.discardOld a j.seqEnd]) l km ↔ Logged p tr l km := by
        intro l km; simp [Logged]
      unfold MsgHistory.CanDiscardTo at hcd
      refine ⟨MsgHistory.wf_discardOld hw hcd, ?_, ?_, ?_, ?_⟩
      · show p.seqStart ≤ a; omega
      · intro l
        rw [hT l, htr l]
        show _ ↔ (p.seqStart ≤ l ∧ l < a) ∨ _
        have := htr l
        grind
      · intro l km hl; exact hlog l km ((hL l km).mp hl)
      · intro l km hl
        have hl : a ≤ l := hl
        rw [hL l km, ← hex l km (by omega)]
        show (if a ≤ l ∧ l < j.seqEnd then j.msgs l else none) = _ ↔ _
        by_cases hlj : l < j.seqEnd
        · rw [if_pos ⟨hl, hlj⟩]
        · rw [if_neg (by omega), MsgHistory.wf_msgs_none hw (by unfold MsgHistory.Contains; omega)]

/-- A read for recovery returns, at every LSN of its range, a message appended at that LSN and
not truncated. -/
theorem read_is_exact {p : MsgHistory} {tr : List Label} {j j' r : MsgHistory}
    (h : (machine p).Exec tr j) (hc : CleanPuts tr) (hr : Next j (.readForRecovery r) j') :
    j' = j ∧ ∀ l, r.Contains l →
      ∃ km, r.msgs l = some km ∧ Logged p tr l km ∧ ¬ Truncated tr l := by
  obtain ⟨hw, _, hex⟩ := journal_exact h hc
  cases hr with
  | readForRecovery _ hinc =>
    refine ⟨rfl, fun l hl => ?_⟩
    obtain ⟨h1, h2⟩ := hinc.2.2 l hl
    obtain ⟨km, hkm⟩ := MsgHistory.wf_msgs_some hw h1
    exact ⟨km, by rw [← h2, hkm], (hex l km).mp hkm⟩

/-- A frozen journal used for a commit has every message of its range, no gaps. -/
theorem freeze_is_exact {p : MsgHistory} {tr : List Label} {j j' fz : MsgHistory}
    (h : (machine p).Exec tr j) (hc : CleanPuts tr) (hr : Next j (.freezeForCommit fz) j') :
    j' = j ∧ fz.seqStart ≤ fz.seqEnd ∧
    ∀ l km, fz.msgs l = some km ↔
      (fz.seqStart ≤ l ∧ l < fz.seqEnd ∧ Logged p tr l km ∧ ¬ Truncated tr l) := by
  obtain ⟨hw, _, hex⟩ := journal_exact h hc
  cases hr with
  | freezeForCommit _ hfw hinc =>
    refine ⟨rfl, hfw.1, fun l km => ?_⟩
    by_cases hl : fz.Contains l
    · obtain ⟨_, h2⟩ := hinc.2.2 l hl
      rw [← h2, hex l km]
      exact ⟨fun h => ⟨hl.1, hl.2, h⟩, fun h => h.2.2⟩
    · rw [MsgHistory.wf_msgs_none hfw hl]
      constructor
      · intro h; cases h
      · intro h; exact absurd ⟨h.1, h.2.1⟩ hl

/-- An LSN carries one message. -/
theorem logged_unique {p : MsgHistory} {tr : List Label} {j : MsgHistory} {l km km'}
    (h : (machine p).Exec tr j) (hc : CleanPuts tr) (ht : ¬ Truncated tr l)
    (h1 : Logged p tr l km) (h2 : Logged p tr l km') : km = km' := by
  obtain ⟨_, _, hex⟩ := journal_exact h hc
  have := ((hex l km).mpr ⟨h1, ht⟩).symm.trans ((hex l km').mpr ⟨h2, ht⟩)
  simpa using this

/-- A read of everything still in the journal is always possible and returns every appended
message that was not truncated. -/
theorem full_read_possible {p : MsgHistory} {tr : List Label} {j : MsgHistory}
    (h : (machine p).Exec tr j) (hc : CleanPuts tr) :
    ∃ r, Next j (.readForRecovery r) j ∧
      ∀ l km, Logged p tr l km → ¬ Truncated tr l → r.Contains l ∧ r.msgs l = some km := by
  obtain ⟨hw, _, hex⟩ := journal_exact h hc
  refine ⟨j, .readForRecovery hw ⟨Nat.le_refl _, Nat.le_refl _, fun _ hk => ⟨hk, rfl⟩⟩, ?_⟩
  intro l km h1 h2
  have := (hex l km).mpr ⟨h1, h2⟩
  exact ⟨(hw.2 l).mp (by simp [PMap.Has, this]), this⟩

/-- Three appends and a truncation to LSN 1. -/
def demo : List Label :=
  [.put (.singletonAt 0 ⟨1, .define 10⟩), .put (.singletonAt 1 ⟨2, .define 20⟩), .internal,
   .discardOld 1 2, .put (.singletonAt 2 ⟨1, .define 11⟩)]

theorem demo_exec : ∃ j, (machine (.emptyAt 0)).Exec demo j ∧ CleanPuts demo := by
  have w0 := MsgHistory.wf_emptyAt 0
  have w1 := MsgHistory.wf_concat w0 (MsgHistory.wf_singletonAt 0 ⟨1, .define 10⟩) rfl
  have w2 := MsgHistory.wf_concat w1 (MsgHistory.wf_singletonAt 1 ⟨2, .define 20⟩) rfl
  have c3 : MsgHistory.CanDiscardTo _ 1 := (⟨Nat.zero_le _, Nat.le_succ _⟩ :
    (((MsgHistory.emptyAt 0).concat (.singletonAt 0 ⟨1, .define 10⟩)).concat
      (.singletonAt 1 ⟨2, .define 20⟩)).CanDiscardTo 1)
  have w3 := MsgHistory.wf_discardOld w2 c3
  obtain ⟨j, hj⟩ : ∃ j, (machine (.emptyAt 0)).Run (.emptyAt 0) demo j := by
    unfold demo
    refine Machine.Run.econs (.put w0 rfl) ?_
    refine Machine.Run.econs (.put w1 rfl) ?_
    refine Machine.Run.econs (.internal w2) ?_
    refine Machine.Run.econs (.discardOld w2 c3) ?_
    refine Machine.Run.econs (.put w3 rfl) ?_
    exact Machine.Run.enil
  refine ⟨j, ⟨_, ⟨w0, rfl⟩, hj⟩, ?_⟩
  intro m hm
  simp only [demo, List.mem_cons, reduceCtorEq, Label.put.injEq, List.not_mem_nil, or_false, false_or] at hm
  rcases hm with rfl | rfl | rfl <;> exact MsgHistory.wf_singletonAt _ _

/-- In that execution exactly LSNs 1 and 2 remain readable. -/
example : ∃ j, (machine (.emptyAt 0)).Exec demo j ∧ j.msgs 0 = none ∧
    j.msgs 1 = some ⟨2, .define 20⟩ ∧ j.msgs 2 = some ⟨1, .define 11⟩ := by
  obtain ⟨j, hj, hc⟩ := demo_exec
  obtain ⟨_, _, hex⟩ := journal_exact hj hc
  refine ⟨j, hj, ?_, ?_, ?_⟩
  · rw [Option.eq_none_iff_forall_not_mem]
    intro km hkm
    exact ((hex 0 km).mp hkm).2 ⟨1, 2, by simp [demo], by decide⟩
  · refine (hex 1 _).mpr ⟨.inr ⟨.singletonAt 1 ⟨2, .define 20⟩, by simp [demo], ⟨Nat.le_refl _, Nat.lt_succ_self _⟩, rfl⟩, ?_⟩
    rintro ⟨a, e, hm, hl⟩
    simp [demo] at hm; omega
  · refine (hex 2 _).mpr ⟨.inr ⟨.singletonAt 2 ⟨1, .define 11⟩, by simp [demo], ⟨Nat.le_refl _, Nat.lt_succ_self _⟩, rfl⟩, ?_⟩
    rintro ⟨a, e, hm, hl⟩
    simp [demo] at hm; omega

end Verif.C08
