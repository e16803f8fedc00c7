import Verif.Journal.AllocationProof
import Verif.Journal.CrashAware
/-
The crash-aware allocating journal refines the abstract crash-tolerant journal.
-/
namespace Verif.CrashJ
open Verif Linked AllocJ

/-- The history a linked image stands for. -/
def Img (t : TJ) (h : MsgHistory) : Prop := ∃ q, TJRel t q ∧ h = q.interp

/-- The history a linked journal stands for. -/
def Jnl (j : Linked.State) (h : MsgHistory) : Prop := ∃ p, Rel j p ∧ h = p.interp

theorem Img.facts {t h} (hi : Img t h) (hd : t.Decodable) :
    h.WF ∧ h.seqStart = t.seqStart ∧ h.seqEnd = t.seqEnd := by
  obtain ⟨q, hq, rfl⟩ := hi
  have f := Paged.TJ.interp_facts (hq.wf hd.1)
  exact ⟨f.1, by rw [f.2.1, hq.1]; rfl, by rw [f.2.2, hq.seqEnd]⟩

theorem Img.det {t h h'} (h1 : Img t h) (h2 : Img t h') : h = h' := by
  obtain ⟨q, hq, rfl⟩ := h1
  obtain ⟨q', hq', rfl⟩ := h2
  rw [hq.det hq']

theorem Img.exists {t : TJ} (hd : t.Decodable) : ∃ h, Img t h := by
  obtain ⟨q, hq⟩ := TJRel.exists hd
  exact ⟨_, q, hq, rfl⟩

/-- Labels of the allocating and of the abstract journal. -/
inductive AbsLabel : AllocJ.Label → AbstractJournal.Label → Prop
  | read (m) : AbsLabel (.readForRecovery m) (.readForRecovery m)
  | freeze {z h} : Img z.tj h → AbsLabel (.freezeForCommit z) (.freezeForCommit h)
  | query (l) : AbsLabel (.queryEndLsn l) (.queryEndLsn l)
  | put (m) : AbsLabel (.put m) (.put m)
  | discard (a b d) : AbsLabel (.discardOld a b d) (.discardOld a b)
  | internal (a d) : AbsLabel (.internal a d) .internal

/-- AllocationCrashAwareJournalRefinement_v.rs 49-86 `next_refines_abstract` -/
theorem aj_step {g : Geometry} {s s' : AllocJ.State} {l h} (hi : s.Inv g) (hh : Jnl s.j h)
    (hs : AllocJ.Next g s l s') :
    ∃ l' h', AbsLabel l l' ∧ AbstractJournal.Next h l' h' ∧ Jnl s'.j h' := by
  obtain ⟨p, hp, rfl⟩ := hh
  obtain ⟨l1, p', hl, hn, hp'⟩ := Linked.step_refines hp (step_linked hi hs)
  have hr := (Paged.step_refines hp.wf hn).2
  refine ⟨_, _, ?_, hr, p', hp', rfl⟩
  cases l <;> cases hl
  case freezeForCommit.freeze q hq => exact .freeze ⟨q, hq, rfl⟩
  all_goals constructor

/-- AllocationCrashAwareJournal_v.rs 215-221 -/
structure State.Inv (g : Geometry) (s : State) : Prop where
  unk : s.ephemeral = none → s.inflight = none
  known : ∀ j, s.ephemeral = some j → j.Inv g
  infl : ∀ f, s.inflight = some f → f.Valid g
  pers : s.persistent.Valid g

theorem init_inv {g : Geometry} {s} (h : Init s) : s.Inv g := by
  subst h
  refine ⟨fun _ => rfl, (fun _ h => by cases h), (fun _ h => by cases h), ?_⟩
  have hwf : TJ.mkfs.disk.WF :=
    ⟨(fun a r h => by cases h), (fun a r h => by cases h), (fun a r _ _ h => by cases h),
      (fun a r h => by cases h)⟩
  refine ⟨fun a h => absurd rfl h, ⟨⟨hwf, ?_⟩, ⟨fun _ => 0, ?_⟩, ⟨?_, ?_⟩, ?_, ?_, ?_⟩,
    PMap.empty, .nil, ?_, ?_⟩
  · intro a h; cases h
  · intro a r p h; cases h
  · intro a r _ h; cases h
  · intro _ _ _ _ _ _ h; cases h
  · rintro l a b ⟨r, h, _⟩; cases h
  · intro h; exact absurd rfl h
  · intro a h; cases h
  · intro a h; exact absurd rfl h
  · intro a r l h; cases h

theorem step_inv {g : Geometry} {s s' : State} {l} (h : s.Inv g) (hs : Next g s l s') :
    s'.Inv g := by
  cases hs with
  | load he hj =>
    exact ⟨(fun h1 => by cases h1), (fun j hj' => by cases hj'; exact AllocJ.init_inv hj), h.infl, h.pers⟩
  | readForRecovery => exact h
  | queryEndLsn => exact h
  | put he hn =>
    exact ⟨(fun h1 => by cases h1), (fun j hj' => by cases hj'; exact AllocJ.step_inv (h.known _ he) hn),
      h.infl, h.pers⟩
  | internal he _ hn =>
    exact ⟨(fun h1 => by cases h1), (fun j hj' => by cases hj'; exact AllocJ.step_inv (h.known _ he) hn),
      h.infl, h.pers⟩
  | queryLsnPersistence => exact h
  | commitStart he hi _ _ hn =>
    refine ⟨fun h1 => (by rw [he] at h1; cases h1), h.known, ?_, h.pers⟩
    intro f hf; cases hf
    cases hn with
    | freezeForCommit hc hcd hv hnf => exact (freeze_shape (h.known _ he).shape hcd hv hnf).valid
  | commitComplete he hf hn =>
    exact ⟨(fun h1 => by cases h1), (fun j hj' => by cases hj'; exact AllocJ.step_inv (h.known _ he) hn),
      (fun _ h1 => by cases h1), h.infl _ hf⟩
  | @crash keep =>
    refine ⟨fun _ => rfl, (fun _ h => by cases h), (fun _ h => by cases h), ?_⟩
    dsimp only
    split
    · cases hi : s.inflight with
      | none => exact h.pers
      | some f => exact h.infl f hi
    · exact h.pers

/-- AllocationCrashAwareJournalRefinement_v.rs 133-147 `i`, as a relation -/
structure Shows (s : State) (t : CTJournal.State) : Prop where
  pers : Img s.persistent.tj t.persistent
  eph : (s.ephemeral = none ∧ t.ephemeral = none) ∨
    ∃ j h, s.ephemeral = some j ∧ t.ephemeral = some h ∧ Jnl j.j h
  infl : (s.inflight = none ∧ t.inFlight = none) ∨
    ∃ f h, s.inflight = some f ∧ t.inFlight = some h ∧ Img f.tj h

theorem Shows.known {s t j} (h : Shows s t) (hj : s.ephemeral = some j) :
    ∃ k, t.ephemeral = some k ∧ Jnl j.j k := by
  rcases h.eph with ⟨h1, _⟩ | ⟨j', k, h1, h2, h3⟩
  · rw [hj] at h1; cases h1
  · rw [hj] at h1; cases h1; exact ⟨k, h2, h3⟩

theorem Shows.inflight {s t f} (h : Shows s t) (hf : s.inflight = some f) :
    ∃ k, t.inFlight = some k ∧ Img f.tj k := by
  rcases h.infl with ⟨h1, _⟩ | ⟨j', k, h1, h2, h3⟩
  · rw [hf] at h1; cases h1
  · rw [hf] at h1; cases h1; exact ⟨k, h2, h3⟩

theorem init_shows {s} (h : Init s) : ∃ t, CTJournal.Init t ∧ Shows s t := by
  subst h
  exact ⟨_, rfl, ⟨⟨⟨0, []⟩, ⟨rfl, .nil⟩, rfl⟩, .inl ⟨rfl, rfl⟩, .inl ⟨rfl, rfl⟩⟩⟩

/-- AllocationCrashAwareJournalRefinement_v.rs 284-336 `next_refines` -/
theorem step_shows {g : Geometry} {s s' : State} {l t} (hi : s.Inv g) (hr : Shows s t)
    (hs : Next g s l s') : ∃ t', CTJournal.Next t l.abs t' ∧ Shows s' t' := by
  cases hs with
  | @load j he hj =>
    have hte : t.ephemeral = none := by
      rcases hr.eph with ⟨_, h1⟩ | ⟨_, _, h1, _⟩
      · exact h1
      · rw [he] at h1; cases h1
    obtain ⟨hv, hl, _⟩ := hj
    obtain ⟨q, hq, hqi⟩ := hr.pers
    obtain ⟨p, hp1, hp2⟩ := Linked.init_refines hl hq
    have h2 := (Paged.init_refines hp1).2
    rw [← hqi] at h2
    exact ⟨_, .loadEphemeral hte h2, ⟨hr.pers, .inr ⟨j, _, rfl, rfl, p, hp2, rfl⟩, hr.infl⟩⟩
  | readForRecovery he hn =>
    obtain ⟨k, hk1, hk2⟩ := hr.known he
    obtain ⟨l', k', hl, hn', _⟩ := aj_step (hi.known _ he) hk2 hn
    cases hl
    cases hn' with
    | readForRecovery a b => exact ⟨t, .readForRecovery hk1 (.readForRecovery a b), hr⟩
  | queryEndLsn he hn =>
    obtain ⟨k, hk1, hk2⟩ := hr.known he
    obtain ⟨l', k', hl, hn', _⟩ := aj_step (hi.known _ he) hk2 hn
    cases hl
    cases hn' with
    | observeFresh a => exact ⟨t, .queryEndLsn hk1 (.observeFresh a), hr⟩
  | @put j j' m he hn =>
    obtain ⟨k, hk1, hk2⟩ := hr.known he
    obtain ⟨l', k', hl, hn', h3⟩ := aj_step (hi.known _ he) hk2 hn
    cases hl
    exact ⟨_, .put hk1 hn', ⟨hr.pers, .inr ⟨j', k', rfl, rfl, h3⟩, hr.infl⟩⟩
  | @internal j j' al de he _ hn =>
    obtain ⟨k, hk1, hk2⟩ := hr.known he
    obtain ⟨l', k', hl, hn', h3⟩ := aj_step (hi.known _ he) hk2 hn
    cases hl
    exact ⟨_, .internal hk1 hn', ⟨hr.pers, .inr ⟨j', k', rfl, rfl, h3⟩, hr.infl⟩⟩
  | queryLsnPersistence hle =>
    have f := hr.pers.facts (Shape.decodable_of_valid hi.pers)
    exact ⟨t, .queryLsnPersistence (by rw [f.2.2]; exact hle), hr⟩
  | @commitStart j z mx he hno hse hmx hn =>
    obtain ⟨k, hk1, hk2⟩ := hr.known he
    have hzd : z.tj.Decodable := by
      cases hn with
      | freezeForCommit hc hcd hv hnf => exact (freeze_shape (hi.known _ he).shape hcd hv hnf).dec
    obtain ⟨l', k', hl, hn', h3⟩ := aj_step (hi.known _ he) hk2 hn
    have hti : t.inFlight = none := by
      rcases hr.infl with ⟨_, h1⟩ | ⟨_, _, h1, _⟩
      · exact h1
      · rw [hno] at h1; cases h1
    cases hl with
    | @freeze z h hz =>
      cases hn' with
      | freezeForCommit a b c =>
        have f := hz.facts hzd
        have fp := hr.pers.facts (Shape.decodable_of_valid hi.pers)
        refine ⟨_, .commitStart hk1 hti f.1 f.2.1 (by rw [fp.2.2, f.2.2]; exact hse)
          (by rw [f.2.1]; exact hmx) (.freezeForCommit a b c), ?_⟩
        exact ⟨hr.pers, hr.eph, .inr ⟨z, h, rfl, rfl, hz⟩⟩
  | @commitComplete j j' f e d he hf hn =>
    obtain ⟨k, hk1, hk2⟩ := hr.known he
    obtain ⟨kf, hf1, hf2⟩ := hr.inflight hf
    obtain ⟨l', k', hl, hn', h3⟩ := aj_step (hi.known _ he) hk2 hn
    have ff := hf2.facts (Shape.decodable_of_valid (hi.infl f hf))
    cases hl
    rw [← ff.2.1] at hn'
    exact ⟨_, .commitComplete hk1 hf1 hn', ⟨hf2, .inr ⟨j', k', rfl, rfl, h3⟩, .inl ⟨rfl, rfl⟩⟩⟩
  | @crash keep =>
    refine ⟨_, .crash, ⟨?_, .inl ⟨rfl, rfl⟩, .inl ⟨rfl, rfl⟩⟩⟩
    dsimp only
    cases keep
    · exact hr.pers
    · rcases hr.infl with ⟨h1, h2⟩ | ⟨f, h, h1, h2, h3⟩
      · simp only [if_true, h1, h2, Option.getD_none]; exact hr.pers
      · simp only [if_true, h1, h2, Option.getD_some]; exact h3

/-- The abstract crash-tolerant journal as a machine. -/
def absMachine : Machine CTJournal.State CTJournal.Label :=
  { Init := CTJournal.Init, Step := CTJournal.Next }

end Verif.CrashJ
