import Verif.Props.C01
/-
C04. Commits can happen. False for the code as written, true with `commit_start` repaired.
-/
namespace Verif.C04
open Verif

/-- `commit_start` as written (AbstractCrashAwareSystem_v.rs 526-558) is never enabled, in any
state. -/
theorem code_commit_start_never_enabled (s : Coord.State) (l : CTAM.Label) (s' : Coord.State) :
    ¬ Coord.CommitStartCode s l s' := by
  intro h
  cases h with
  | mk he hj hm =>
    have key : ∀ {j j' : CTJournal.State} {a b}, CTJournal.Next j (.commitStart a b) j' → j ≠ j' := by
      intro j j' a b hn hjj
      cases hn with
      | commitStart hje hfl =>
        have h2 := congrArg CTJournal.State.inFlight hjj
        rw [hfl] at h2
        cases h2
    exact key hj rfl

/-- Consequence for the code as written: whatever the clients do, the persistent state stays the
initial empty one forever, so after any crash every put is gone, and no `sync` event ever
happens. -/
theorem code_never_persists {tr : List CTAM.Label} {s} (h : Coord.machine.Exec tr s) :
    s.mapadt.persistent = StampedMap.empty ∧ s.journal.persistent = MsgHistory.emptyAt 0 ∧
    CTAM.Label.sync ∉ tr := by
  suffices h : s.mapadt.persistent = StampedMap.empty ∧
      s.journal.persistent = MsgHistory.emptyAt 0 ∧ s.journal.inFlight = none ∧
      s.superblockInFlight = false ∧ CTAM.Label.sync ∉ tr from ⟨h.1, h.2.1, h.2.2.2.2⟩
  refine Machine.exec_invariant (M := Coord.machine)
    (I := fun tr s => s.mapadt.persistent = StampedMap.empty ∧
      s.journal.persistent = MsgHistory.emptyAt 0 ∧ s.journal.inFlight = none ∧
      s.superblockInFlight = false ∧ CTAM.Label.sync ∉ tr) ?_ ?_ h
  · rintro s ⟨hj, hm, _, hsb⟩
    unfold CTJournal.Init at hj
    unfold CTMap.Init at hm
    simp [hj, hm, hsb]
  · rintro tr s l s' ⟨h1, h2, h3, h4, h5⟩ hs
    rcases hs with hs | hs
    · cases hs with
      | loadEphemeral hj hm => cases hj; cases hm; simp_all
      | recover _ _ hj hm => cases hj; cases hm; simp_all
      | acceptRequest => simp_all
      | query _ _ _ _ _ _ hj hm => cases hj; cases hm; simp_all
      | put _ _ _ _ _ _ hj hm => cases hj; cases hm; simp_all
      | deliverReply => simp_all
      | journalInternal _ hj => cases hj; simp_all
      | mapInternal _ hm => cases hm <;> simp_all
      | reqSync _ _ hj => cases hj; simp_all
      | replySync _ _ hj => cases hj; simp_all
      | superblockWriteLands hsb => rw [h4] at hsb; cases hsb
      | commitComplete _ _ hj hm =>
        cases hj with
        | commitComplete _ hfl => rw [h3] at hfl; cases hfl
      | crash hj hm =>
        rw [h3] at hj hm
        simp only [Option.isSome_none, Bool.false_and] at hj hm
        cases hj
        cases hm with
        | crash hp1 hp2 => simp_all
    · exact absurd hs (code_commit_start_never_enabled _ _ _)

/-- The property, stated for a machine: some execution executes a put of `v` to `k`, requests a
sync after it, has a commit reach the disk after that, and acknowledges the sync. -/
def CommitsHappen (M : Machine Coord.State CTAM.Label) : Prop :=
  ∃ (tr : List CTAM.Label) (s : Coord.State) (p i c j : Nat) (req : Request) (rep : Reply)
    (k : Key) (v : Value) (id : SyncReqId),
    M.Exec tr s ∧ p < i ∧ i < c ∧ c < j ∧
    tr[p]? = some (.operate (.execute req rep)) ∧ req.input = .put k v ∧
    tr[i]? = some (.reqSync id) ∧ tr[c]? = some .sync ∧ tr[j]? = some (.replySync id) ∧
    CTAM.Label.crash ∉ tr.take j

/-- The code as written violates the property. -/
theorem code_commits_never_happen : ¬ CommitsHappen Coord.machine := by
  rintro ⟨tr, s, p, i, c, j, req, rep, k, v, id, h, _, _, _, _, _, _, hc, _⟩
  exact (code_never_persists h).2.2 (List.mem_of_getElem? hc)

/-- Stronger: the code as written never acknowledges a sync that covers a put. -/
theorem code_never_acks_a_put {tr : List CTAM.Label} {s s' : Coord.State} {e id lsn}
    (h : Coord.machine.Exec tr s) (he : s.ephemeral = some e) (hl : e.syncReqs id = some lsn)
    (hs : Coord.machine.Step s (.replySync id) s') : lsn = 0 := by
  have hp := (code_never_persists h).2.1
  rcases hs with hs | hs
  · cases hs with
    | replySync he' hl' hj =>
      rw [he] at he'; cases he'
      rw [hl] at hl'; cases hl'
      cases hj with
      | queryLsnPersistence hle =>
        rw [hp] at hle
        simpa [MsgHistory.emptyAt] using hle
  · cases hs

/-- With `commit_start` repaired the property holds. -/
theorem fixed_commits_happen : CommitsHappen Coord.fixedMachine :=
  ⟨Coord.demoTrace1, _, 3, 4, 6, 8, Coord.demoPut, Coord.demoPutReply, 5, 7, 9, Coord.demo_exec1,
    by decide, by decide, by decide, rfl, rfl, rfl, rfl, rfl, by simp [Coord.demoTrace1]⟩

/-- `code_never_persists` is not vacuous: the code's machine does execute puts. -/
example : ∃ tr s, Coord.machine.Exec tr s ∧
    CTAM.Label.operate (.execute Coord.demoPut Coord.demoPutReply) ∈ tr := by
  have hrun : ∃ s, Coord.machine.Run Coord.demoInit
      [.noop, .operate (.request Coord.demoPut),
       .operate (.execute Coord.demoPut Coord.demoPutReply)] s := by
    refine Machine.Run.econs (.inl (.loadEphemeral
      (.loadEphemeral rfl ⟨MsgHistory.wf_emptyAt 0, rfl⟩) (.loadEphemeral rfl))) ?_
    refine Machine.Run.econs (.inl (.acceptRequest rfl (fun h => h))) ?_
    refine Machine.Run.econs (.inl (.put rfl (key := 5) (value := 7) rfl rfl (.inl rfl) rfl
      (fun h => h) (.put rfl (.put (MsgHistory.wf_emptyAt 0) rfl)) (.putRecords rfl (.put rfl)))) ?_
    exact Machine.Run.enil
  obtain ⟨s, hs⟩ := hrun
  exact ⟨_, s, ⟨Coord.demoInit, ⟨rfl, rfl, rfl, rfl⟩, hs⟩, by simp⟩

end Verif.C04
