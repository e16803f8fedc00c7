import Verif.Props.C01
/-
C03. Recovery shows a prefix: no reordering, no holes, no invention.
-/
namespace Verif.C03
open Verif ClientSpec

/-- Trace form: across a crash the list of puts in effect becomes a prefix of what it was; all
queries before and after are answered from these lists. -/
theorem crash_keeps_prefix {tr : List CTAM.Label} {s} (h : Coord.fixedMachine.Exec tr s) :
    ∃ H, Explains tr H ∧ ∀ i : Nat, tr[i]? = some .crash → ∃ n, H (i + 1) = (H i).take n := by
  obtain ⟨⟨H, hE⟩, _⟩ := C01.fixed_good h
  refine ⟨H, hE, fun i hi => ⟨(H (i + 1)).length, ?_⟩⟩
  exact (List.prefix_iff_eq_take.mp (hE.crash i hi))

/-- What a recovery will rebuild: the persistent map with the persistent journal replayed. -/
def recovered (s : Coord.State) : StampedMap :=
  MsgHistory.mapPlusHistory s.mapadt.persistent s.journal.persistent

/-- State form: let the system crash while running, with in-memory journal `j`. What will be
recovered is the persistent map plus the first messages of the in-memory journal, up to some LSN
`n`, and `n` is at least the end of the last completed commit (the persistent journal's end). If
a commit's superblock has already landed, `n` is exactly the end of that commit. -/
theorem crash_recovers_prefix {tr : List CTAM.Label} {s s' : Coord.State} {j : MsgHistory}
    (h : Coord.fixedMachine.Exec tr s) (hj : s.journal.ephemeral = some j)
    (hc : Coord.fixedMachine.Step s .crash s') :
    ∃ n, s.journal.persistent.seqEnd ≤ n ∧ n ≤ j.seqEnd ∧
      (∀ fj, s.journal.inFlight = some fj → s.superblockInFlight = false → n = fj.seqEnd) ∧
      (recovered s').seqEnd = n ∧
      recovered s' = MsgHistory.mapPlusHistory s.mapadt.persistent (j.discardRecent n) := by
  obtain ⟨t, ht, f, N, hr⟩ := Machine.refine (N := CTAM.machine) (fun l => l)
    (fun s t => ∃ f N, Coord.Rel f N s t)
    (fun s hs => by
      obtain ⟨t, ht, hr⟩ := Coord.rel_init hs
      exact ⟨t, ht, _, _, hr⟩)
    (fun s l s' t hr hs => by
      obtain ⟨f, N, hr⟩ := hr
      obtain ⟨f', N', t', h1, h2⟩ := Coord.rel_step hr hs
      exact ⟨t', h1, f', N', h2⟩) h
  have hb := Coord.stable_bounds hr
  rcases hr.mode with u | ⟨e, l⟩
  · rw [u.jEph] at hj; cases hj
  obtain ⟨j2, hj2, hsl, hend, hst⟩ := l.jEph
  have := hj2.symm.trans hj; cases this
  refine ⟨Coord.stable s, hb.1, by omega, ?_, ?_⟩
  · intro fj hfj hsb; simp [Coord.stable, hfj, hsb]
  have hpw := hr.pj.wf.1
  have hdj : Coord.Slice f N (j.discardRecent (Coord.stable s)) := by
    refine ⟨MsgHistory.wf_discardRecent hsl.wf ⟨by omega, by omega⟩, by exact hb.2, ?_⟩
    intro k hk
    simp only [MsgHistory.Contains, MsgHistory.discardRecent] at hk ⊢
    rw [if_pos hk]; exact hsl.agree k ⟨hk.1, by omega⟩
  have hbase : MsgHistory.mapPlusHistory s.mapadt.persistent (j.discardRecent (Coord.stable s)) =
      Coord.replay f (Coord.stable s) := by
    have := Coord.mapPlus_slice hdj
    rw [hr.pm, ← hst]; exact this
  have hrec : recovered s' = Coord.replay f (Coord.stable s) := by
    rcases hc with hc | hc
    · cases hc with
      | @crash j' m' hjc hmc =>
        unfold recovered
        generalize hk : (s.journal.inFlight.isSome && !s.superblockInFlight) = keep at hjc hmc
        cases hjc
        cases hmc with
        | @crash _ p hp1 hp2 =>
          cases keep with
          | false =>
            simp only [hp1 rfl, hr.pm]
            have : Coord.stable s = s.journal.persistent.seqEnd := by
              unfold Coord.stable
              split
              · rename_i fj hfj
                simp [hfj] at hk; simp [hk]
              · rfl
            rw [this]
            exact Coord.mapPlus_slice hr.pj
          | true =>
            simp only [Bool.and_eq_true, Option.isSome_iff_exists, Bool.not_eq_true'] at hk
            obtain ⟨⟨fj, hfj⟩, hsb⟩ := hk
            obtain ⟨h1, h2, h3, h4⟩ := l.jFly fj hfj
            simp only [hp2 rfl _ h4, hfj, Option.getD_some, if_true]
            have : Coord.stable s = fj.seqEnd := by simp [Coord.stable, hfj, hsb]
            rw [this]
            exact Coord.mapPlus_slice h1
    · cases hc
  rw [hrec, hbase]
  exact ⟨Coord.replay_seqEnd hr.full hb.2, rfl⟩

/-- The demo execution meets the hypotheses: it has a crash at event 9 ... -/
example : ∃ H, Explains (Coord.demoTrace1 ++ Coord.demoTrace2) H ∧ ∃ n, H 10 = (H 9).take n := by
  obtain ⟨s, hs⟩ := Coord.demo_exec
  obtain ⟨H, hE, h⟩ := crash_keeps_prefix hs
  exact ⟨H, hE, h 9 rfl⟩

/-- ... and what is recovered after it is the map holding the synced put. -/
example : (recovered Coord.demoCrashed).value 5 = .define 7 := rfl

end Verif.C03
