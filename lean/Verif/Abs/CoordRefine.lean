import Verif.Abs.Coordination
/-
CoordinationSystem (with `commit_start` repaired) refines CrashTolerantAsyncMap, with the same
label on every step. Compare AbstractCrashAwareSystemRefinement_v.rs: there the abstraction
function and `inv` are stated with overlapping history slices; here both are stated against one
ghost history `f` of all messages that survived every crash so far.
-/
namespace Verif.Coord
open Verif

/-- State of the map after the first `n` messages of `f`, from the empty map. -/
def replay (f : PMap LSN KeyedMessage) (n : Nat) : StampedMap :=
  MsgHistory.applyRange f 0 n StampedMap.empty

/-- `h` is a well-formed slice of the first `N` messages of `f`. -/
structure Slice (f : PMap LSN KeyedMessage) (N : Nat) (h : MsgHistory) : Prop where
  wf : h.WF
  le : h.seqEnd ≤ N
  agree : ∀ k, h.Contains k → h.msgs k = f k

/-- The LSN a crash at this moment would recover to. -/
def stable (s : State) : LSN :=
  match s.journal.inFlight with
  | some fj => if s.superblockInFlight then s.journal.persistent.seqEnd else fj.seqEnd
  | none => s.journal.persistent.seqEnd

/-- The CTAM versions that go with `f`. -/
def versionsOf (f : PMap LSN KeyedMessage) (stable N : Nat) : FloatingSeq Version :=
  FloatingSeq.new stable (N + 1) fun i => (replay f i).value

/-- Invariant while the ephemeral state is loaded. -/
structure Loaded (f : PMap LSN KeyedMessage) (N : Nat) (s : State) (t : CTAM.State) (e : Known) :
    Prop where
  eph : s.ephemeral = some e
  jEph : ∃ j, s.journal.ephemeral = some j ∧ Slice f N j ∧ j.seqEnd = N ∧
    j.seqStart = s.journal.persistent.seqStart
  mEph : s.mapadt.ephemeral = some (replay f e.mapLsn)
  lsnLe : s.journal.persistent.seqStart ≤ e.mapLsn ∧ e.mapLsn ≤ N
  mFly : ∀ fm, s.mapadt.inFlight = some fm →
    fm = replay f fm.seqEnd ∧ s.journal.persistent.seqStart ≤ fm.seqEnd ∧ fm.seqEnd ≤ N
  jFly : ∀ fj, s.journal.inFlight = some fj → Slice f N fj ∧
    s.journal.persistent.seqEnd ≤ fj.seqEnd ∧ s.journal.persistent.seqStart ≤ fj.seqStart ∧
    s.mapadt.inFlight = some (replay f fj.seqStart)
  sb : s.superblockInFlight = true → s.journal.inFlight ≠ none
  tEph : t.ephemeral = e.progress
  tSync : t.syncRequests = e.syncReqs

/-- Invariant while it is not. -/
structure Unloaded (N : Nat) (s : State) (t : CTAM.State) : Prop where
  eph : s.ephemeral = none
  jEph : s.journal.ephemeral = none
  mEph : s.mapadt.ephemeral = none
  jFly : s.journal.inFlight = none
  mFly : s.mapadt.inFlight = none
  sb : s.superblockInFlight = false
  end_ : N = s.journal.persistent.seqEnd
  tEph : t.ephemeral = EphemeralState.init
  tSync : t.syncRequests = PMap.empty

/-- Refinement relation and invariant. -/
structure Rel (f : PMap LSN KeyedMessage) (N : Nat) (s : State) (t : CTAM.State) : Prop where
  full : ∀ k, k < N → f k ≠ none
  pj : Slice f N s.journal.persistent
  pm : s.mapadt.persistent = replay f s.journal.persistent.seqStart
  vers : t.versions = versionsOf f (stable s) N
  mode : Unloaded N s t ∨ ∃ e, Loaded f N s t e

theorem replay_congr {f g : PMap LSN KeyedMessage} {n : Nat} (h : ∀ k, k < n → f k = g k) :
    replay f n = replay g n :=
  MsgHistory.applyRange_congr (fun k _ h2 => h k (by omega)) _

theorem replay_seqEnd {f : PMap LSN KeyedMessage} {N n : Nat} (h : ∀ k, k < N → f k ≠ none)
    (hn : n ≤ N) : (replay f n).seqEnd = n := by
  have := MsgHistory.applyRange_seqEnd (f := f) (start := 0) (n := n)
    (fun k _ h2 => h k (by omega)) StampedMap.empty
  simpa [replay, StampedMap.empty] using this

/-- Replaying a slice on top of the replayed prefix is replaying further. -/
theorem mapPlus_slice {f : PMap LSN KeyedMessage} {N : Nat} {h : MsgHistory}
    (hs : Slice f N h) : MsgHistory.mapPlusHistory (replay f h.seqStart) h = replay f h.seqEnd := by
  have hw := hs.wf.1
  have h1 : replay f h.seqEnd = replay f (h.seqStart + h.len) := by
    congr 1; unfold MsgHistory.len; omega
  rw [h1]
  unfold replay
  rw [MsgHistory.applyRange_add, Nat.zero_add]
  unfold MsgHistory.mapPlusHistory MsgHistory.applyTo
  apply MsgHistory.applyRange_congr
  intro k h2 h3
  exact hs.agree k ⟨h2, by unfold MsgHistory.len at h3; omega⟩

theorem Slice.sub {f : PMap LSN KeyedMessage} {N : Nat} {h g : MsgHistory} (hs : Slice f N h)
    (hw : g.WF) (hi : h.IncludesSubseq g) : Slice f N g := by
  refine ⟨hw, Nat.le_trans hi.2.1 hs.le, fun k hk => ?_⟩
  obtain ⟨h1, h2⟩ := hi.2.2 k hk
  rw [← h2]; exact hs.agree k h1

theorem Slice.congr {f g : PMap LSN KeyedMessage} {N N' : Nat} {h : MsgHistory} (hs : Slice f N h)
    (hfg : ∀ k, k < N → f k = g k) (hN : N ≤ N') : Slice g N' h := by
  refine ⟨hs.wf, Nat.le_trans hs.le hN, fun k hk => ?_⟩
  rw [hs.agree k hk, hfg k]
  have := hs.le
  unfold MsgHistory.Contains at hk
  omega

theorem versionsOf_last (f : PMap LSN KeyedMessage) {st N : Nat} (h : st ≤ N) :
    (versionsOf f st N).last? = some (replay f N).value := by
  unfold FloatingSeq.last? versionsOf
  rw [FloatingSeq.get?_new, FloatingSeq.len_new _ _ _ (by omega), if_pos (by omega)]
  simp

theorem versionsOf_prefix (f : PMap LSN KeyedMessage) {st N n : Nat} (h : n ≤ N) (h0 : st ≤ n) :
    (versionsOf f st N).getPrefix (n + 1) = versionsOf f st n := by
  have h1 : (versionsOf f st N).start = st := rfl
  have h2 : (versionsOf f st N).entries.length = N + 1 - st := by simp [versionsOf, FloatingSeq.new]
  have h3 : (versionsOf f st n).len = n + 1 := FloatingSeq.len_new _ _ _ (by omega)
  have h4 : (versionsOf f st N).getPrefix (n + 1) =
      { start := st, entries := (versionsOf f st N).entries.take (n + 1 - st) } := by
    rw [FloatingSeq.getPrefix, if_neg (by omega), h1]
  apply FloatingSeq.ext_get?
  · rw [h4]; rfl
  · rw [h4, h3]
    simp only [FloatingSeq.len, List.length_take, h2]; omega
  · intro i _
    rw [FloatingSeq.get?_getPrefix]
    simp only [versionsOf, FloatingSeq.get?_new]
    grind

theorem versionsOf_suffix (f : PMap LSN KeyedMessage) {st N n : Nat} (h : n ≤ N) (h0 : st ≤ n) :
    (versionsOf f st N).getSuffix n = versionsOf f n N := by
  apply FloatingSeq.ext_get?
  · rfl
  · simp only [versionsOf, FloatingSeq.getSuffix, FloatingSeq.new, FloatingSeq.len]
    simp; omega
  · intro i _
    rw [FloatingSeq.get?_getSuffix _ _ _ (by simpa [versionsOf, FloatingSeq.new] using h0)]
    simp only [versionsOf, FloatingSeq.get?_new]
    grind

theorem versionsOf_congr {f g : PMap LSN KeyedMessage} {st N : Nat} (h : ∀ k, k < N → f k = g k) :
    versionsOf f st N = versionsOf g st N := by
  unfold versionsOf FloatingSeq.new
  congr 1
  apply List.map_congr_left
  intro i hi
  simp only [List.mem_range] at hi
  show (replay f (i + st)).value = (replay g (i + st)).value
  rw [replay_congr (g := g)]
  intro k hk; exact h k (by omega)

theorem stable_bounds {f N s t} (h : Rel f N s t) :
    s.journal.persistent.seqEnd ≤ stable s ∧ stable s ≤ N := by
  have hp := h.pj.le
  unfold stable
  rcases h.mode with u | ⟨e, l⟩
  · rw [u.jFly]; exact ⟨Nat.le_refl _, hp⟩
  · split
    · rename_i fj hfj
      have := (l.jFly fj hfj).1.le
      have := (l.jFly fj hfj).2.1
      split <;> omega
    · exact ⟨Nat.le_refl _, hp⟩

theorem rel_init {s : State} (h : Init s) : ∃ t, CTAM.Init t ∧ Rel PMap.empty 0 s t := by
  obtain ⟨hj, hm, he, hsb⟩ := h
  refine ⟨_, rfl, ?_⟩
  unfold CTJournal.Init at hj
  unfold CTMap.Init at hm
  refine ⟨fun k hk => absurd hk (by omega), ?_, ?_, ?_, .inl ?_⟩
  · rw [hj]
    exact ⟨MsgHistory.wf_emptyAt 0, Nat.le_refl _, fun k hk => by
      simp [MsgHistory.Contains, MsgHistory.emptyAt] at hk⟩
  · rw [hm, hj]; rfl
  · simp only [stable, hj, versionsOf]
    simp only [MsgHistory.emptyAt]
    unfold FloatingSeq.new
    simp [replay, MsgHistory.applyRange, StampedMap.empty]
  · exact ⟨he, by rw [hj], by rw [hm], by rw [hj], by rw [hm], hsb, by rw [hj]; rfl, rfl, rfl⟩

/-- The one-step simulation for the repaired machine. -/
theorem rel_step {f N s t l s'} (h : Rel f N s t)
    (hstep : Base s l s' ∨ CommitStartFixed s l s') :
    ∃ f' N' t', CTAM.Next t l t' ∧ Rel f' N' s' t' := by
  have hstab := stable_bounds h
  rcases hstep with hstep | hstep
  · cases hstep with
    | @loadEphemeral j' m' mapLsn hj hm =>
      refine ⟨f, N, t, .noop, ?_⟩
      cases hj with
      | loadEphemeral hju hji =>
        cases hm with
        | loadEphemeral hmu =>
          obtain ⟨hjw, rfl⟩ := hji
          rcases h.mode with u | ⟨e, l⟩
          · refine ⟨h.full, h.pj, h.pm, ?_, .inr ⟨{ progress := EphemeralState.init, syncReqs := PMap.empty, mapLsn := s.mapadt.persistent.seqEnd }, ?_⟩⟩
            · exact h.vers
            · have hpse : s.mapadt.persistent.seqEnd = s.journal.persistent.seqStart := by
                rw [h.pm]
                exact replay_seqEnd h.full (Nat.le_trans hjw.1 h.pj.le)
              refine ⟨rfl, ⟨_, rfl, h.pj, u.end_.symm, rfl⟩, ?_, ?_, ?_, ?_, ?_, u.tEph, u.tSync⟩
              · show some s.mapadt.persistent = _
                rw [hpse]; congr 1; exact h.pm
              · show s.journal.persistent.seqStart ≤ s.mapadt.persistent.seqEnd ∧ _ ≤ N
                rw [hpse]; exact ⟨Nat.le_refl _, Nat.le_trans hjw.1 h.pj.le⟩
              · intro fm hfm; simp [u.mFly] at hfm
              · intro fj hfj; simp [u.jFly] at hfj
              · intro hsb; simp [u.sb] at hsb
          · obtain ⟨j, hj, _⟩ := l.jEph
            rw [hj] at hju; cases hju
    | @recover e j' m' records he hw hj hm =>
      refine ⟨f, N, t, .noop, ?_⟩
      cases hj with
      | @readForRecovery j r hje hjn =>
        cases hm with
        | @putRecords m m1 r hme hmn =>
          cases hmn with
          | put hcf =>
            cases hjn with
            | readForRecovery hjw hinc =>
              rcases h.mode with u | ⟨e', l⟩
              · rw [u.eph] at he; cases he
              · have := l.eph.symm.trans he; cases this
                obtain ⟨j2, hj2, hsl, hend, hst⟩ := l.jEph
                have := hj2.symm.trans hje; cases this
                have := l.mEph.symm.trans hme; cases this
                have hrs : Slice f N records := hsl.sub hw hinc
                refine ⟨h.full, h.pj, h.pm, h.vers, .inr ⟨{ e with mapLsn := records.seqEnd }, ?_⟩⟩
                have hse : (replay f e.mapLsn).seqEnd = e.mapLsn := replay_seqEnd h.full l.lsnLe.2
                have hcf' : records.seqStart = e.mapLsn := by
                  unfold MsgHistory.CanFollow at hcf; omega
                refine ⟨rfl, ⟨j, hje, hsl, hend, hst⟩, ?_, ?_, l.mFly, l.jFly, l.sb, l.tEph, l.tSync⟩
                · show some _ = some _
                  rw [← hcf', mapPlus_slice hrs]
                · have := hw.1; have := l.lsnLe; have := hrs.le
                  exact ⟨by show s.journal.persistent.seqStart ≤ records.seqEnd; omega, this⟩
    | @acceptRequest e req he hnr =>
      rcases h.mode with u | ⟨e', l⟩
      · rw [u.eph] at he; cases he
      · have := l.eph.symm.trans he; cases this
        refine ⟨f, N, { t with ephemeral := { t.ephemeral with requests := t.ephemeral.requests.insert req } }, ?_, ?_⟩
        · refine .operate (versions' := t.versions) (p := (replay f N).value)
            (p' := (replay f N).value) (.inr rfl) ?_ ?_ (.request ?_)
          · rw [h.vers]; exact versionsOf_last f hstab.2
          · rw [h.vers]; exact versionsOf_last f hstab.2
          · rw [l.tEph]; exact hnr
        · refine ⟨h.full, h.pj, h.pm, h.vers, .inr ?_⟩
          apply Exists.intro
          exact ⟨rfl, l.jEph, l.mEph, l.lsnLe, l.mFly, l.jFly, l.sb, by simp [l.tEph], l.tSync⟩
    | @query e j' m' req reply key value he hin hout hreq hid hnr hj hm =>
      rcases h.mode with u | ⟨e', l⟩
      · rw [u.eph] at he; cases he
      · have := l.eph.symm.trans he; cases this
        obtain ⟨j2, hj2, hsl, hend, hst⟩ := l.jEph
        cases hj with
        | queryEndLsn hje hjn =>
          have := hj2.symm.trans hje; cases this
          generalize hlsn : e.mapLsn = lsn at hjn hm
          cases hjn with
          | observeFresh hjw =>
            have hlsnN : e.mapLsn = N := by omega
            generalize hlsn2 : j2.seqEnd = lsn2 at hm
            cases hm with
            | query hme hmn =>
              have := l.mEph.symm.trans hme; cases this
              cases hmn with
              | query hval =>
                refine ⟨f, N, { t with ephemeral := { requests := t.ephemeral.requests.remove req, replies := t.ephemeral.replies.insert reply } }, ?_, ?_⟩
                · refine .operate (versions' := t.versions) (p := (replay f N).value)
                    (p' := (replay f N).value) (.inr rfl) ?_ ?_ (.execute hid ?_ ?_ ?_)
                  · rw [h.vers]; exact versionsOf_last f hstab.2
                  · rw [h.vers]; exact versionsOf_last f hstab.2
                  · rw [l.tEph]; exact hreq
                  · rw [l.tEph]; exact hnr
                  · rw [hin, hout]; rw [hlsnN] at hval; exact .query hval
                · refine ⟨h.full, h.pj, h.pm, h.vers, .inr ?_⟩
                  apply Exists.intro
                  exact ⟨rfl, l.jEph, l.mEph.trans (by show some _ = some (replay f (replay f e.mapLsn).seqEnd); rw [replay_seqEnd h.full l.lsnLe.2]), by
                    show s.journal.persistent.seqStart ≤ (replay f e.mapLsn).seqEnd ∧ (replay f e.mapLsn).seqEnd ≤ N
                    rw [replay_seqEnd h.full l.lsnLe.2]; exact l.lsnLe, l.mFly, l.jFly, l.sb, by simp [l.tEph], l.tSync⟩
    | @put e j' m' req reply key value he hin hout hreq hid hnr hj hm =>
      rcases h.mode with u | ⟨e', l⟩
      · rw [u.eph] at he; cases he
      · have := l.eph.symm.trans he; cases this
        obtain ⟨j2, hj2, hsl, hend, hst⟩ := l.jEph
        cases hj with
        | put hje hjn =>
          have := hj2.symm.trans hje; cases this
          cases hjn with
          | put hjw hjs =>
            have hlsnN : e.mapLsn = N := by
              simp only [MsgHistory.singletonAt] at hjs; omega
            cases hm with
            | putRecords hme hmn =>
              have := l.mEph.symm.trans hme; cases this
              cases hmn with
              | put hcf =>
                rw [hlsnN] at hjs hcf ⊢
                generalize hkm : ({ key := key, message := Message.define value } : KeyedMessage) = km
                have hfg : ∀ k, k < N → f k = (PMap.insert f N km) k := fun k hk =>
                  (PMap.insert_other f km (by omega)).symm
                have hrep : ∀ n, n ≤ N → replay f n = replay (PMap.insert f N km) n := fun n hn =>
                  replay_congr fun k hk => hfg k (by omega)
                have hnew : replay (PMap.insert f N km) (N + 1) = (replay f N).applyMsg km := by
                  rw [hrep N (Nat.le_refl _)]
                  simp [replay, MsgHistory.applyRange]
                have hpN : s.journal.persistent.seqStart ≤ N := Nat.le_trans h.pj.wf.1 h.pj.le
                have hjwf : (j2.concat (MsgHistory.singletonAt N km)).WF :=
                  MsgHistory.wf_concat hjw (MsgHistory.wf_singletonAt _ _) hjs.symm
                have hv : (replay (PMap.insert f N km) (N + 1)).value =
                    (replay f N).value.insert key (.define value) := by
                  rw [hnew, ← hkm]; simp [StampedMap.applyMsg]
                refine ⟨PMap.insert f N km, N + 1,
                  { t with versions := versionsOf (PMap.insert f N km) (stable s) (N + 1), ephemeral := { requests := t.ephemeral.requests.remove req, replies := t.ephemeral.replies.insert reply } }, ?_, ?_⟩
                · refine .operate (p := (replay f N).value)
                    (p' := (replay (PMap.insert f N km) (N + 1)).value) (.inl ⟨?_, ?_⟩) ?_ ?_
                    (.execute hid ?_ ?_ ?_)
                  · rw [versionsOf, FloatingSeq.len_new _ _ _ (by omega)]; omega
                  · have hl : (versionsOf (PMap.insert f N km) (stable s) (N + 1)).len = N + 2 := by
                      rw [versionsOf, FloatingSeq.len_new _ _ _ (by omega)]
                    unfold FloatingSeq.dropLast
                    rw [hl]
                    show FloatingSeq.getPrefix _ (N + 1) = _
                    rw [versionsOf_prefix _ (by omega) hstab.2, h.vers]
                    exact (versionsOf_congr hfg).symm
                  · rw [h.vers]; exact versionsOf_last f hstab.2
                  · exact versionsOf_last _ (by omega)
                  · rw [l.tEph]; exact hreq
                  · rw [l.tEph]; exact hnr
                  · rw [hin, hout, hv]; exact .put
                · refine ⟨?_, h.pj.congr hfg (by omega), ?_, rfl, .inr (Exists.intro { e with mapLsn := N + 1, progress := { requests := e.progress.requests.remove req, replies := e.progress.replies.insert reply } } ?_)⟩
                  · intro k hk
                    by_cases hkN : k = N
                    · subst hkN; simp
                    · rw [← hfg k (by omega)]; exact h.full k (by omega)
                  · rw [← hrep _ hpN]; exact h.pm
                  · refine ⟨rfl, ⟨_, rfl, ⟨hjwf, ?_, ?_⟩, rfl, hst⟩, ?_, ?_, ?_, ?_, l.sb,
                      by simp [l.tEph], l.tSync⟩
                    · exact Nat.le_refl _
                    · intro k hk
                      by_cases hkN : k = N
                      · subst hkN
                        rw [MsgHistory.concat_msgs_right (MsgHistory.wf_singletonAt _ _)]
                        · simp [MsgHistory.singletonAt]
                        · simp [MsgHistory.Contains, MsgHistory.singletonAt]
                      · have hk' : k < N := by
                          simp only [MsgHistory.Contains, MsgHistory.concat, MsgHistory.singletonAt] at hk
                          omega
                        rw [MsgHistory.concat_msgs_left (MsgHistory.wf_singletonAt _ _)
                          (show MsgHistory.CanConcat j2 (MsgHistory.singletonAt N km) from hjs.symm) (by omega)]
                        rw [hsl.agree k ⟨hk.1, by omega⟩]
                        exact hfg k hk'
                    · show some _ = some (replay (PMap.insert f N km) (N + 1))
                      rw [MsgHistory.mapPlus_singleton, hnew]
                    · exact ⟨by show s.journal.persistent.seqStart ≤ N + 1; omega, Nat.le_refl _⟩
                    · intro fm hfm
                      obtain ⟨h1, h2, h3⟩ := l.mFly fm hfm
                      exact ⟨by rw [← hrep _ h3]; exact h1, h2, by omega⟩
                    · intro fj hfj
                      obtain ⟨h1, h2, h3, h4⟩ := l.jFly fj hfj
                      refine ⟨h1.congr hfg (by omega), h2, h3, ?_⟩
                      rw [← hrep _ (Nat.le_trans h1.wf.1 h1.le)]; exact h4
    | @deliverReply e reply he hr =>
      rcases h.mode with u | ⟨e', l⟩
      · rw [u.eph] at he; cases he
      · have := l.eph.symm.trans he; cases this
        refine ⟨f, N, { t with ephemeral := { t.ephemeral with replies := t.ephemeral.replies.remove reply } }, ?_, ?_⟩
        · refine .operate (versions' := t.versions) (p := (replay f N).value)
            (p' := (replay f N).value) (.inr rfl) ?_ ?_ (.reply ?_)
          · rw [h.vers]; exact versionsOf_last f hstab.2
          · rw [h.vers]; exact versionsOf_last f hstab.2
          · rw [l.tEph]; exact hr
        · refine ⟨h.full, h.pj, h.pm, h.vers, .inr ?_⟩
          apply Exists.intro
          exact ⟨rfl, l.jEph, l.mEph, l.lsnLe, l.mFly, l.jFly, l.sb, by simp [l.tEph], l.tSync⟩
    | @journalInternal e j' he hj =>
      rcases h.mode with u | ⟨e', l⟩
      · rw [u.eph] at he; cases he
      · have := l.eph.symm.trans he; cases this
        obtain ⟨j2, hj2, hsl, hend, hst⟩ := l.jEph
        refine ⟨f, N, t, .noop, ?_⟩
        cases hj with
        | internal hje hjn =>
          have := hj2.symm.trans hje; cases this
          cases hjn
          refine ⟨h.full, h.pj, h.pm, h.vers, .inr ?_⟩
          apply Exists.intro
          exact ⟨l.eph, ⟨_, rfl, hsl, hend, hst⟩, l.mEph, l.lsnLe, l.mFly, l.jFly, l.sb, l.tEph, l.tSync⟩
    | @mapInternal e m' he hm =>
      rcases h.mode with u | ⟨e', l⟩
      · rw [u.eph] at he; cases he
      · have := l.eph.symm.trans he; cases this
        refine ⟨f, N, t, .noop, ?_⟩
        have hse : (replay f e.mapLsn).seqEnd = e.mapLsn := replay_seqEnd h.full l.lsnLe.2
        cases hm with
        | freezeMapInternal hme hfl hmn =>
          have := l.mEph.symm.trans hme; cases this
          cases hmn
          refine ⟨h.full, h.pj, h.pm, h.vers, .inr ?_⟩
          apply Exists.intro
          refine ⟨l.eph, l.jEph, rfl, l.lsnLe, ?_, ?_, l.sb, l.tEph, l.tSync⟩
          · intro fm hfm
            cases hfm
            rw [hse]; exact ⟨rfl, l.lsnLe.1, l.lsnLe.2⟩
          · intro fj hfj
            have := (l.jFly fj hfj).2.2.2
            rw [hfl] at this; cases this
        | ephemeralInternal hme hmn =>
          have := l.mEph.symm.trans hme; cases this
          cases hmn
          refine ⟨h.full, h.pj, h.pm, h.vers, .inr ?_⟩
          apply Exists.intro
          exact ⟨l.eph, l.jEph, rfl, l.lsnLe, l.mFly, l.jFly, l.sb, l.tEph, l.tSync⟩
    | @reqSync e j' id he hnew hj =>
      rcases h.mode with u | ⟨e', l⟩
      · rw [u.eph] at he; cases he
      · have := l.eph.symm.trans he; cases this
        obtain ⟨j2, hj2, hsl, hend, hst⟩ := l.jEph
        generalize hlsn : e.mapLsn = lsn at hj
        cases hj with
        | queryEndLsn hje hjn =>
          have := hj2.symm.trans hje; cases this
          cases hjn with
          | observeFresh hjw =>
            refine ⟨f, N, _, .reqSync (by rw [l.tSync]; exact hnew), ?_⟩
            refine ⟨h.full, h.pj, h.pm, h.vers, .inr ?_⟩
            apply Exists.intro
            refine ⟨rfl, l.jEph, l.mEph.trans (by rw [hlsn]), hlsn ▸ l.lsnLe, l.mFly, l.jFly, l.sb, l.tEph, ?_⟩
            have : t.versions.len - 1 = j2.seqEnd := by
              rw [h.vers, versionsOf, FloatingSeq.len_new _ _ _ (by omega)]; omega
            simp only [this, l.tSync]
    | @replySync e j' id lsn he hid hj =>
      rcases h.mode with u | ⟨e', l⟩
      · rw [u.eph] at he; cases he
      · have := l.eph.symm.trans he; cases this
        cases hj with
        | queryLsnPersistence hle =>
          refine ⟨f, N, _, .replySync (v := lsn) (by rw [l.tSync]; exact hid) ?_, ?_⟩
          · unfold CTAM.State.stableIndex FloatingSeq.firstActiveIndex
            rw [h.vers]
            simp only [versionsOf, FloatingSeq.new]; omega
          · refine ⟨h.full, h.pj, h.pm, h.vers, .inr ?_⟩
            apply Exists.intro
            exact ⟨rfl, l.jEph, l.mEph, l.lsnLe, l.mFly, l.jFly, l.sb, l.tEph, by simp [l.tSync]⟩
    | superblockWriteLands hsb =>
      rcases h.mode with u | ⟨e, l⟩
      · rw [u.sb] at hsb; cases hsb
      · obtain ⟨fj, hfj⟩ := Option.ne_none_iff_exists'.mp (l.sb hsb)
        obtain ⟨h1, h2, h3, h4⟩ := l.jFly fj hfj
        have hst0 : stable s = s.journal.persistent.seqEnd := by
          simp [stable, hfj, hsb]
        have hfN := h1.le
        refine ⟨f, N, _, .sync (newStable := fj.seqEnd) ?_ ?_, ?_⟩
        · unfold CTAM.State.stableIndex FloatingSeq.firstActiveIndex
          rw [h.vers]
          simp only [versionsOf, FloatingSeq.new]; omega
        · rw [h.vers, versionsOf, FloatingSeq.len_new _ _ _ (by omega)]; omega
        · refine ⟨h.full, h.pj, h.pm, ?_, .inr ⟨e, ?_⟩⟩
          · simp only [h.vers]
            rw [versionsOf_suffix _ hfN (by omega)]
            simp [stable, hfj]
          · exact ⟨l.eph, l.jEph, l.mEph, l.lsnLe, l.mFly, l.jFly, by simp, l.tEph, l.tSync⟩
    | @commitComplete e j' m' hsb he hj hm =>
      rcases h.mode with u | ⟨e', l⟩
      · rw [u.eph] at he; cases he
      · have := l.eph.symm.trans he; cases this
        obtain ⟨j2, hj2, hsl, hend, hst⟩ := l.jEph
        refine ⟨f, N, t, .noop, ?_⟩
        generalize hlsn : e.mapLsn = lsn at hj
        cases hj with
        | @commitComplete j j1 fj rq hje hfj hjn =>
          have := hj2.symm.trans hje; cases this
          obtain ⟨h1, h2, h3, h4⟩ := l.jFly fj hfj
          have hfst : fj.seqStart ≤ N := Nat.le_trans h1.wf.1 h1.le
          cases hjn with
          | discardOld hjw hcd =>
            cases hm with
            | commitComplete hfm =>
              have := h4.symm.trans hfm; cases this
              refine ⟨h.full, h1, rfl, ?_, .inr ⟨e, ?_⟩⟩
              · rw [h.vers]
                simp [stable, hfj, hsb]
              · refine ⟨l.eph, ⟨_, rfl, ⟨MsgHistory.wf_discardOld hjw hcd, ?_, ?_⟩, hend, rfl⟩, l.mEph, ?_, by simp, by simp, by simp [hsb], l.tEph, l.tSync⟩
                · exact Nat.le_of_eq hend
                · intro k hk
                  simp only [MsgHistory.Contains, MsgHistory.discardOld] at hk ⊢
                  rw [if_pos hk]
                  exact hsl.agree k ⟨by have := hcd.1; omega, hk.2⟩
                · show fj.seqStart ≤ e.mapLsn ∧ e.mapLsn ≤ N
                  omega
    | @crash j' m' hj hm =>
      have key : ∀ keep : Bool, keep = (s.journal.inFlight.isSome && !s.superblockInFlight) →
          ∃ pj, Slice f N pj ∧ pj.seqEnd = stable s ∧
          j' = { persistent := pj, ephemeral := none, inFlight := none } ∧
          m' = { persistent := replay f pj.seqStart, ephemeral := none, inFlight := none } := by
        intro keep hk
        rw [← hk] at hj hm
        cases hj
        cases hm with
        | @crash _ p hp1 hp2 =>
          cases keep with
          | false =>
            refine ⟨_, h.pj, ?_, by simp, ?_⟩
            · unfold stable
              split
              · rename_i fj hfj
                simp [hfj] at hk; simp [hk]
              · rfl
            · rw [hp1 rfl, h.pm]
          | true =>
            rcases h.mode with u | ⟨e, l⟩
            · rw [u.jFly] at hk; simp at hk
            · simp only [Bool.true_eq, Bool.and_eq_true, Option.isSome_iff_exists,
                Bool.not_eq_true'] at hk
              obtain ⟨⟨fj, hfj⟩, hsb⟩ := hk
              obtain ⟨h1, h2, h3, h4⟩ := l.jFly fj hfj
              refine ⟨fj, h1, by simp [stable, hfj, hsb], by simp [hfj], ?_⟩
              rw [hp2 rfl _ h4]
      obtain ⟨pj, hpj, hend, rfl, rfl⟩ := key _ rfl
      refine ⟨f, stable s, _, .crash, ?_⟩
      refine ⟨fun k hk => h.full k (by omega), ⟨hpj.wf, Nat.le_of_eq hend, hpj.agree⟩, rfl, ?_, .inl ?_⟩
      · simp only [CTAM.State.stableIndex, FloatingSeq.firstActiveIndex, h.vers]
        have : (versionsOf f (stable s) N).start = stable s := rfl
        rw [this, versionsOf_prefix _ hstab.2 (Nat.le_refl _)]
        simp only [stable] at hend ⊢
        simp [hend]
      · exact ⟨rfl, rfl, rfl, rfl, rfl, rfl, hend.symm, rfl, rfl⟩
  · cases hstep with
    | @mk e nb j' he hj hm =>
      rcases h.mode with u | ⟨e', l⟩
      · rw [u.eph] at he; cases he
      · have := l.eph.symm.trans he; cases this
        obtain ⟨j2, hj2, hsl, hend, hst⟩ := l.jEph
        refine ⟨f, N, t, .noop, ?_⟩
        generalize hlsn : e.mapLsn = lsn at hj
        cases hj with
        | commitStart hje hfl hfw hfs hpe hfmax hjn =>
          have := hj2.symm.trans hje; cases this
          cases hjn with
          | freezeForCommit hjw hfw hinc =>
            generalize hmm : s.mapadt = mm at hm
            cases hm with
            | @commitStart m fm hme hfm hle =>
              subst hmm
              obtain ⟨h1, h2, h3⟩ := l.mFly fm hfm
              refine ⟨h.full, h.pj, h.pm, ?_, .inr ⟨e, ?_⟩⟩
              · rw [h.vers]; simp [stable, hfl]
              · refine ⟨l.eph, ⟨_, hje, hsl, hend, hst⟩, l.mEph, l.lsnLe, l.mFly, ?_, by simp, l.tEph, l.tSync⟩
                intro fj hfj
                cases hfj
                refine ⟨hsl.sub hfw hinc, hpe, ?_, ?_⟩
                · show s.journal.persistent.seqStart ≤ _
                  omega
                · rw [hfs, ← h1]; exact hfm

end Verif.Coord
