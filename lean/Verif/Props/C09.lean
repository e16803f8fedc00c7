import Verif.Journal.Paged
import Verif.Props.C08
/-
C09. The paged journal behaves like the abstract journal.
-/
namespace Verif.C09
open Verif Paged

/-- What an image (boundary and list of records, newest first) stands for, without recursion: the
flat history from the boundary to the end of the newest record whose messages are those of the
records. -/
def Shows (t : TJ) (h : MsgHistory) : Prop :=
  h.seqStart = t.boundary ∧
  h.seqEnd = (match t.chain with | [] => t.boundary | m :: _ => m.seqEnd) ∧
  (∀ l, h.msgs.Has l ↔ h.seqStart ≤ l ∧ l < h.seqEnd) ∧ h.seqStart ≤ h.seqEnd ∧
  ∀ l km, t.boundary ≤ l → (h.msgs l = some km ↔ ∃ m ∈ t.chain, m.msgs l = some km)

/-- What a journal state stands for: the image followed by the in-memory tail. -/
def StateShows (s : State) (h : MsgHistory) : Prop :=
  h.seqStart = s.tj.boundary ∧ h.seqEnd = s.tail.seqEnd ∧ h.WF ∧
  ∀ l km, s.tj.boundary ≤ l →
    (h.msgs l = some km ↔ (∃ m ∈ s.tj.chain, m.msgs l = some km) ∨ s.tail.msgs l = some km)

theorem shows_unique {t : TJ} {h h' : MsgHistory} (h1 : Shows t h) (h2 : Shows t h') : h = h' := by
  obtain ⟨a1, a2, a3, a4, a5⟩ := h1
  obtain ⟨b1, b2, b3, b4, b5⟩ := h2
  apply MsgHistory.ext_wf ⟨a4, a3⟩ ⟨b4, b3⟩ (by rw [a1, b1]) (by rw [a2, b2])
  intro l hl
  have : t.boundary ≤ l := by have := hl.1; omega
  apply Option.ext; intro km
  show h.msgs l = some km ↔ h'.msgs l = some km
  rw [a5 l km this, b5 l km this]

theorem interp_shows {t : TJ} (h : t.WF) : Shows t t.interp := by
  have f := TJ.interp_facts h
  refine ⟨f.2.1, ?_, f.1.2, f.1.1, fun l km hl => Chain.interp_msgs h hl km⟩
  rw [f.2.2]
  unfold TJ.seqEnd
  cases t.chain <;> rfl

theorem interp_stateShows {s : State} (h : s.WF) : StateShows s s.interp := by
  obtain ⟨f1, f2, f3, f4⟩ := s.interp_facts h
  obtain ⟨h1, h2, h3⟩ := h
  refine ⟨f2, f3, f1, fun l km hl => ?_⟩
  have ft := TJ.interp_facts h1
  rw [← Chain.interp_msgs h1 hl km]
  show (s.tj.interp.concat s.tail).msgs l = some km ↔ s.tj.interp.msgs l = some km ∨ _
  by_cases hlt : l < s.tj.interp.seqEnd
  · rw [MsgHistory.concat_msgs_left h2 f4 hlt]
    have : s.tail.msgs l = none := by
      apply MsgHistory.wf_msgs_none h2
      have : s.tail.seqStart = s.tj.interp.seqEnd := f4
      unfold MsgHistory.Contains; omega
    simp [this]
  · have hn : s.tj.interp.msgs l = none := by
      apply MsgHistory.wf_msgs_none ft.1; unfold MsgHistory.Contains; omega
    rw [hn]
    simp only [reduceCtorEq, false_or]
    by_cases hc : s.tail.Contains l
    · rw [MsgHistory.concat_msgs_right h2 hc]
    · have he : s.tail.msgs l = none := MsgHistory.wf_msgs_none h2 hc
      rw [he]
      have : (s.tj.interp.concat s.tail).msgs l = none := by
        show (PMap.unionRight _ _) l = none
        rw [MsgHistory.unionRight_eq_left he, hn]
      rw [this]

/-- Labels agree: equal except that a frozen image appears as the history it shows. -/
inductive SameLabel : Label TJ → AbstractJournal.Label → Prop
  | read (m) : SameLabel (.readForRecovery m) (.readForRecovery m)
  | freeze {t h} : Shows t h → SameLabel (.freezeForCommit t) (.freezeForCommit h)
  | query (l) : SameLabel (.queryEndLsn l) (.queryEndLsn l)
  | put (m) : SameLabel (.put m) (.put m)
  | discard (a b) : SameLabel (.discardOld a b) (.discardOld a b)
  | internal : SameLabel .internal .internal

/-- Refinement: every execution of the paged journal opened on an image is, label by label, an
execution of the abstract journal opened on the history the image shows. -/
theorem refines {t : TJ} {p : MsgHistory} (hp : Shows t p) {tr s} (h : (machine t).Exec tr s) :
    ∃ tr' j, (C08.machine p).Exec tr' j ∧ Forall2 SameLabel tr tr' ∧ StateShows s j := by
  have key := Machine.exec_invariant (M := machine t)
    (I := fun tr s => s.WF ∧ ∃ tr', (C08.machine t.interp).Exec tr' s.interp ∧
      Forall2 SameLabel tr tr')
    (by
      intro s hs
      obtain ⟨h1, h2⟩ := init_refines hs
      exact ⟨h1, [], ⟨_, h2, .nil _⟩, .nil⟩)
    (by
      rintro tr s l s' ⟨hw, tr', he, hf⟩ hs
      have hl : SameLabel l (l.i TJ.interp).abs := by
        cases l with
        | freezeForCommit z =>
          refine .freeze (interp_shows ?_)
          cases hs with
          | freezeForCommit hz => exact hz.1
        | readForRecovery => exact .read _
        | queryEndLsn => exact .query _
        | put => exact .put _
        | discardOld => exact .discard _ _
        | internal => exact .internal
      obtain ⟨h1, h2⟩ := step_refines hw hs
      exact ⟨h1, tr' ++ [(l.i TJ.interp).abs], he.snoc h2, hf.snoc hl⟩)
    h
  obtain ⟨hw, tr', he, hf⟩ := key
  have ht : t.WF := by
    obtain ⟨_, ⟨hw, _⟩, _⟩ := h
    exact hw
  rw [shows_unique hp (interp_shows ht)]
  exact ⟨tr', _, he, hf, interp_stateShows hw⟩

/-- The messages of image `t` and of the appends of `tr`. -/
def Logged (t : TJ) (tr : List (Label TJ)) (l : LSN) (km : KeyedMessage) : Prop :=
  (t.boundary ≤ l ∧ ∃ m ∈ t.chain, m.msgs l = some km) ∨
  ∃ m, Label.put m ∈ tr ∧ m.Contains l ∧ m.msgs l = some km

def Truncated (tr : List (Label TJ)) (l : LSN) : Prop := ∃ a e, Label.discardOld a e ∈ tr ∧ l < a

theorem wf_init {t : TJ} {tr s} (h : (machine t).Exec tr s) : t.WF := by
  obtain ⟨_, ⟨hw, _⟩, _⟩ := h; exact hw

theorem wf_reach {t : TJ} {tr s} (h : (machine t).Exec tr s) : s.WF :=
  Machine.exec_invariant (M := machine t) (I := fun _ s => s.WF)
    (fun _ hs => (init_refines hs).1) (fun _ _ _ _ hw hs => (step_refines hw hs).1) h

theorem puts_wf {t : TJ} {tr s} (h : (machine t).Exec tr s) : ∀ m, Label.put m ∈ tr → m.WF := by
  refine Machine.exec_invariant (M := machine t) (I := fun tr _ => ∀ m, Label.put m ∈ tr → m.WF)
    (by intro _ _ m hm; simp at hm) ?_ h
  intro tr s l s' ih hs m hm
  rcases List.mem_append.mp hm with hm | hm
  · exact ih m hm
  · have := List.mem_singleton.mp hm
    subst this
    cases hs with
    | put hw _ => exact hw

/-- Records and tail hold, at or above the boundary, exactly what was logged and not truncated;
nothing else can be read. Holds whatever the record layout. -/
theorem journal_exact {t : TJ} {tr s} (h : (machine t).Exec tr s) (l : LSN) (km : KeyedMessage) :
    (s.tj.boundary ≤ l ∧ ((∃ m ∈ s.tj.chain, m.msgs l = some km) ∨ s.tail.msgs l = some km)) ↔
    Logged t tr l km ∧ ¬ Truncated tr l := by
  have ht := wf_init h
  obtain ⟨tr', j, he, hf, hsh⟩ := refines (interp_shows ht) h
  have hclean : C08.CleanPuts tr' := by
    intro m hm
    obtain ⟨x, hx, hr⟩ := hf.mem_right hm
    cases hr with
    | put => exact puts_wf h m hx
  obtain ⟨hjw, _, hex⟩ := C08.journal_exact he hclean
  have hlog : C08.Logged t.interp tr' l km ↔ Logged t tr l km := by
    have f := TJ.interp_facts ht
    unfold C08.Logged Logged
    refine or_congr ?_ ?_
    · constructor
      · rintro ⟨hc, hm⟩
        have : t.boundary ≤ l := by have := hc.1; omega
        exact ⟨this, ((interp_shows ht).2.2.2.2 l km this).mp hm⟩
      · rintro ⟨hb, hm⟩
        have hm := ((interp_shows ht).2.2.2.2 l km hb).mpr hm
        exact ⟨(f.1.2 l).mp (by simp [PMap.Has, hm]), hm⟩
    · constructor
      · rintro ⟨m, hm, hc⟩
        obtain ⟨x, hx, hr⟩ := hf.mem_right hm
        cases hr with
        | put => exact ⟨m, hx, hc⟩
      · rintro ⟨m, hm, hc⟩
        obtain ⟨x, hx, hr⟩ := hf.mem_left hm
        cases hr with
        | put => exact ⟨m, hx, hc⟩
  have htr : C08.Truncated tr' l ↔ Truncated tr l := by
    unfold C08.Truncated Truncated
    constructor
    · rintro ⟨a, e, hm, hl⟩
      obtain ⟨x, hx, hr⟩ := hf.mem_right hm
      cases hr with
      | discard => exact ⟨a, e, hx, hl⟩
    · rintro ⟨a, e, hm, hl⟩
      obtain ⟨x, hx, hr⟩ := hf.mem_left hm
      cases hr with
      | discard => exact ⟨a, e, hx, hl⟩
  rw [← hlog, ← htr, ← hex l km]
  constructor
  · rintro ⟨hb, hm⟩; exact (hsh.2.2.2 l km hb).mpr hm
  · intro hm
    have hb : s.tj.boundary ≤ l := by
      have := (hjw.2 l).mp (by simp [PMap.Has, hm])
      have := this.1; have := hsh.1; omega
    exact ⟨hb, (hsh.2.2.2 l km hb).mp hm⟩

/-- Recovery can read everything that has been marshalled: for each position of the image some
depth returns a page that has it. -/
theorem read_reaches_everything {t : TJ} {tr s} (h : (machine t).Exec tr s) {l : LSN}
    (h1 : s.tj.boundary ≤ l) (h2 : l < s.tj.seqEnd) :
    ∃ m, Next s (.readForRecovery m) s ∧ m.Contains l := by
  have hw := wf_reach h
  suffices hs : ∀ c : Chain, c.OptValid s.tj.boundary → l < c.seqEnd s.tj.boundary →
      ∃ d r rest, c ≠ [] ∧ c.CanCrop s.tj.boundary (d + 1) ∧ c.crop s.tj.boundary d = r :: rest ∧
        (r.maybeDiscardOld s.tj.boundary).Contains l ∧ (r.maybeDiscardOld s.tj.boundary).WF by
    obtain ⟨d, r, rest, a1, a2, a3, a4, a5⟩ := hs s.tj.chain hw.1 h2
    exact ⟨_, .readForRecovery hw a5 ⟨a1, a2, r, rest, a3, rfl⟩, a4⟩
  intro c
  induction c with
  | nil => intro _ hl; simp only [Chain.seqEnd] at hl; omega
  | cons m r ih =>
    intro hv hl
    have hv := hv (by simp)
    have hl : l < m.seqEnd := hl
    by_cases hm : m.seqStart ≤ s.tj.boundary
    · refine ⟨0, m, r, by simp, ⟨hv, ?_⟩, rfl, ?_, ?_⟩
      · simp only [Chain.croppedPrior, if_pos hm]; trivial
      · simp only [MsgHistory.maybeDiscardOld, if_pos hm]
        exact ⟨h1, hl⟩
      · simp only [MsgHistory.maybeDiscardOld, if_pos hm]
        exact MsgHistory.wf_discardOld hv.wf.head (Chain.canDiscard_of hv hm)
    · have hp : Chain.croppedPrior s.tj.boundary (m :: r) = r := by
        simp only [Chain.croppedPrior, if_neg hm]
      have hr := Chain.prior_valid hv hm
      have hcan : Chain.CanCrop s.tj.boundary 0 r := by
        cases r with
        | nil => exact hr.elim
        | cons p r' => exact hr
      by_cases hlm : m.seqStart ≤ l
      · refine ⟨0, m, r, by simp, ⟨hv, by rw [hp]; exact hcan⟩, rfl, ?_, ?_⟩
        · simp only [MsgHistory.maybeDiscardOld, if_neg hm]
          exact ⟨hlm, hl⟩
        · simp only [MsgHistory.maybeDiscardOld, if_neg hm]
          exact hv.wf.head
      · have hle : l < Chain.seqEnd s.tj.boundary r := by
          cases r with
          | nil => exact hr.elim
          | cons p r' =>
            show l < p.seqEnd
            have := hv.wf.link; omega
        obtain ⟨d, x, rest, _, a2, a3, a4⟩ := ih (fun _ => hr) hle
        refine ⟨d + 1, x, rest, by simp, ⟨hv, by rw [hp]; exact a2⟩, ?_, a4⟩
        show Chain.crop s.tj.boundary d (Chain.croppedPrior s.tj.boundary (m :: r)) = _
        rw [hp]; exact a3

/-- Freezing the whole image with any boundary, truncating to any LSN and appending are always
possible. -/
theorem operations_possible {t : TJ} {tr s} (h : (machine t).Exec tr s) :
    (∀ l, s.tj.boundary ≤ l → l ≤ s.tj.seqEnd →
      ∃ z, z.boundary = l ∧ z.seqEnd = s.tj.seqEnd ∧ Next s (.freezeForCommit z) s) ∧
    (∀ l, s.tj.boundary ≤ l → l ≤ s.tail.seqEnd →
      ∃ s', Next s (.discardOld l s.tail.seqEnd) s' ∧ s'.tj.boundary = l) ∧
    (∀ m : MsgHistory, m.WF → m.seqStart = s.tail.seqEnd → ∃ s', Next s (.put m) s') ∧
    Next s (.queryEndLsn s.tail.seqEnd) s := by
  have hw := wf_reach h
  refine ⟨?_, ?_, ?_, .queryEndLsn⟩
  · intro l h1 h2
    have hcrop : s.tj.crop 0 = s.tj := by unfold TJ.crop; rw [Chain.crop_zero]
    obtain ⟨d1, d2, _⟩ := TJ.discardOld_wf hw.1 (l := l) ⟨h1, h2⟩
    refine ⟨s.tj.discardOld l, rfl, d2, .freezeForCommit (d := 0) ⟨d1, ?_, ?_, ?_⟩⟩
    · show Chain.CanCrop s.tj.boundary 0 s.tj.chain
      have hv := hw.1
      unfold TJ.WF at hv
      cases hc : s.tj.chain with
      | nil => trivial
      | cons m r => rw [hc] at hv; exact hv (by simp)
    · rw [hcrop]; exact ⟨h1, h2⟩
    · rw [hcrop]; rfl
  · intro l h1 h2
    refine ⟨_, .discardOld h1 h2, ?_⟩
    split <;> rfl
  · intro m hm hs
    exact ⟨_, .put hm hs⟩

/-- A frozen image shows exactly the logged, untruncated messages of its range: no gaps, nothing
invented. -/
theorem frozen_exact {t : TJ} {tr s z s'} (h : (machine t).Exec tr s)
    (hz : Next s (.freezeForCommit z) s') :
    s.tj.boundary ≤ z.boundary ∧ z.seqEnd ≤ s.tail.seqEnd ∧
    ∃ f, Shows z f ∧ ∀ l km, f.msgs l = some km ↔
      z.boundary ≤ l ∧ l < z.seqEnd ∧ Logged t tr l km ∧ ¬ Truncated tr l := by
  have hw := wf_reach h
  obtain ⟨_, hn⟩ := step_refines hw hz
  have hzw : z.WF := by cases hz with | freezeForCommit hf => exact hf.1
  have fz := TJ.interp_facts hzw
  have hsi := s.interp_facts hw
  have hn : AbstractJournal.Next s.interp (.freezeForCommit z.interp) s'.interp := hn
  generalize s'.interp = j' at hn
  cases hn with
  | freezeForCommit _ _ hinc =>
    have i1 := hinc.1
    have i2 := hinc.2.1
    refine ⟨by omega, by omega, z.interp, interp_shows hzw, fun l km => ?_⟩
    constructor
    · intro hm
      have hc := (fz.1.2 l).mp (by simp [PMap.Has, hm])
      obtain ⟨q1, q2⟩ := hinc.2.2 l hc
      have hb : s.tj.boundary ≤ l := by have := hc.1; omega
      refine ⟨by have := hc.1; omega, by have := hc.2; omega, (journal_exact h l km).mp ⟨hb, ?_⟩⟩
      exact ((interp_stateShows hw).2.2.2 l km hb).mp (by rw [q2]; exact hm)
    · rintro ⟨hb, he, hlog⟩
      have hc : z.interp.Contains l := ⟨by omega, by omega⟩
      obtain ⟨q1, q2⟩ := hinc.2.2 l hc
      rw [← q2]
      obtain ⟨hb', hm⟩ := (journal_exact h l km).mpr hlog
      exact ((interp_stateShows hw).2.2.2 l km hb').mpr hm

/-! ### A concrete run: appends, two marshalled records with a cut inside the tail, a truncation
inside a record, a freeze and a read. -/

def m3 : MsgHistory :=
  ((MsgHistory.singletonAt 0 ⟨1, .define 10⟩).concat (.singletonAt 1 ⟨2, .define 20⟩)).concat
    (.singletonAt 2 ⟨1, .define 11⟩)

theorem m3_wf : m3.WF :=
  MsgHistory.wf_concat (MsgHistory.wf_concat (MsgHistory.wf_singletonAt _ _)
    (MsgHistory.wf_singletonAt _ _) rfl) (MsgHistory.wf_singletonAt _ _) rfl

/-- put 3 messages, marshal 2 of them, truncate inside that record, ask for the end -/
def demo : List (Label TJ) := [.put m3, .internal, .discardOld 1 3, .queryEndLsn 3]

theorem demo_exec : ∃ s, (machine .mkfs).Exec demo s := by
  have hinit : (machine .mkfs).Init ⟨.mkfs, .emptyAt 0⟩ := ⟨by simp [TJ.WF, TJ.mkfs, Chain.OptValid], rfl⟩
  obtain ⟨s, hs⟩ : ∃ s, (machine .mkfs).Run ⟨.mkfs, .emptyAt 0⟩ demo s := by
    unfold demo
    refine Machine.Run.econs (.put m3_wf rfl) ?_
    refine Machine.Run.econs (.marshal (cut := 2) (by decide) ⟨by decide, by decide⟩) ?_
    refine Machine.Run.econs (.discardOld (l := 1) (by decide) (by decide)) ?_
    refine Machine.Run.econs .queryEndLsn ?_
    exact Machine.Run.enil
  exact ⟨s, _, hinit, hs⟩

/-- The theorems apply to it: LSN 0 is gone, LSNs 1 and 2 are held. -/
example : ∃ s, (machine .mkfs).Exec demo s ∧
    (Logged .mkfs demo 1 ⟨2, .define 20⟩ ∧ ¬ Truncated demo 1) ∧ Truncated demo 0 ∧
    (s.tj.boundary ≤ 1 ∧ ((∃ m ∈ s.tj.chain, m.msgs 1 = some ⟨2, .define 20⟩) ∨
      s.tail.msgs 1 = some ⟨2, .define 20⟩)) := by
  obtain ⟨s, hs⟩ := demo_exec
  have h1 : Logged .mkfs demo 1 ⟨2, .define 20⟩ ∧ ¬ Truncated demo 1 := by
    refine ⟨.inr ⟨m3, by simp [demo], ⟨by decide, by decide⟩, rfl⟩, ?_⟩
    rintro ⟨a, e, hm, hl⟩
    simp [demo] at hm; omega
  exact ⟨s, hs, h1, ⟨1, 3, by simp [demo], by decide⟩, (journal_exact hs 1 _).mpr h1⟩

end Verif.C09
