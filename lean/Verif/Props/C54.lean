import Verif.Kv.JournalDemo
/-
C54. The journal keeps every synchronised operation, in order, and hands back exactly a prefix of what
was logged.

Specification: the ideal journal in Verif/Kv/Ledger.lean. It is one list of everything logged and a few
positions in it; it knows nothing of blocks, superblocks, rings, freezing in memory or requests in
flight.
-/
namespace Verif.C54
open Verif.Kv Verif.Kv.JournalSystem
open Verif.Kv.JournalCache (select)
variable {loc : Loc}

/-- **Behaves like the ideal journal.** In every execution, with any interleaving of user operations,
writes of journal blocks around the ring, freezes, superblock writes, lost or late answers, failed
reads and crashes that scramble the blocks being written: the trace is one of the ideal journal. So
replay hands back exactly what was logged after the image it starts from, in order; a crash keeps what
was durable and cuts the log there; and a synchronisation request is reported done only when all
that was logged before it is durable. -/
theorem acts_as_ideal_journal {tr : List VOp} {s : State} (h : (machine loc).Exec tr s) :
    ∃ c, (Ledger.machine loc).Exec tr c := by
  obtain ⟨v, h1, _⟩ := exec_rel h
  obtain ⟨c, _, _, _, _, h3, _⟩ := Ledger.exec_view h1
  exact ⟨c, h3⟩

/-- **The durable part of the log can always be recovered.** Whenever the system has just crashed, there
is a run, in which only the disk answers, after which the system is ready: it has asked for the image
the ideal journal says to start from, and is about to replay exactly what was logged after that
image. -/
theorem recoverable {tr : List VOp} {s : State} (h : (machine loc).Exec tr s)
    (hm : s.m = JournalCache.start) :
    ∃ c n s' r, (Ledger.machine loc).Exec tr c ∧
      (machine loc).Run s (List.replicate 4 .journalInternal ++
        .sendPersistentLoc c.loc :: List.replicate n .journalInternal) s' ∧
      s'.m = .ready r ∧ r.replay = c.log.drop c.start := by
  obtain ⟨v, h1, h2⟩ := exec_rel h
  obtain ⟨c, p1, p2, p3, rest, h3, h4⟩ := Ledger.exec_view h1
  obtain ⟨n, s', r, h5, h6, h7, _⟩ := recover h2 hm 0
  have hdn : Down v .empty := by
    obtain ⟨m, d⟩ := s
    change m = _ at hm
    subst hm
    obtain ⟨f, _, _, hdn⟩ := h2
    exact hdn
  refine ⟨c, n, s', r, h3, by rw [h4.loc]; exact h5, h6, ?_⟩
  rw [h7, h4.log, h4.start, hdn.gamma, hdn.delta]
  simp

/-- **Requests in flight never collide.** Two journal writes in flight never touch the same block; no
journal write in flight touches a block that the superblock to be used after a crash describes; while
a superblock is being written no journal write is in flight and no other superblock is being written;
and nothing is read while something is written. -/
theorem no_collision {s : State} (h : (machine loc).Reachable s) :
    (∀ i j v v' p, s.d.writeJ i = some v → s.d.writeJ j = some v' → i ≠ j → p < numJournalBlocks →
      InCyclic p v → ¬ InCyclic p v') ∧
    (∃ f, Holds s.d f ∧ ∀ i v k, s.d.writeJ i = some v → k < (f (select f)).len →
      ¬ InCyclic (posAdd (f (select f)).start k) v) ∧
    (∀ w x, s.d.writeSb w = some x → s.d.writeSb (!w) = none ∧ ∀ i, s.d.writeJ i = none) ∧
    ((∃ w, s.d.writeSb w ≠ none) ∨ (∃ i, s.d.writeJ i ≠ none) →
      (∀ i, s.d.readJ i = none) ∧ ∀ w i, ¬ s.d.readSb w i) := by
  obtain ⟨tr, h⟩ := h
  obtain ⟨v, _, h2⟩ := exec_rel h
  obtain ⟨m, d⟩ := s
  obtain ⟨f, hc, hm⟩ := h2
  have quiet : (∀ w, d.writeSb w = none) → d.writeJ = .empty → _ := fun h1 h2 =>
    And.intro (a := ∀ i j v v' p, d.writeJ i = some v → d.writeJ j = some v' → i ≠ j →
        p < numJournalBlocks → InCyclic p v → ¬ InCyclic p v')
      (by intro i j v v' p hi; rw [h2] at hi; cases hi)
    (And.intro (a := ∃ f, Holds d f ∧ ∀ i v k, d.writeJ i = some v → k < (f (select f)).len →
        ¬ InCyclic (posAdd (f (select f)).start k) v)
      ⟨f, hc.holds, by intro i v k hi; rw [h2] at hi; cases hi⟩
    (And.intro (a := ∀ w x, d.writeSb w = some x → d.writeSb (!w) = none ∧ ∀ i, d.writeJ i = none)
      (by intro w x hw; rw [h1] at hw; cases hw)
      (b := (∃ w, d.writeSb w ≠ none) ∨ (∃ i, d.writeJ i ≠ none) →
        (∀ i, d.readJ i = none) ∧ ∀ w i, ¬ d.readSb w i)
      (by
        rintro (⟨w, hw⟩ | ⟨i, hi⟩)
        · exact absurd (h1 w) hw
        · rw [h2] at hi; exact absurd rfl hi)))
  cases m with
  | loading l => exact quiet hm.1.writeSb hm.1.writeJ
  | other o => exact quiet hm.1.writeSb hm.1.writeJ
  | ready r =>
    obtain ⟨u, W, F, hr⟩ := hm
    refine ⟨hr.wdisj, ⟨f, hc.holds, ?_⟩, ?_, fun _ => ⟨fun i => ?_, hr.readSb⟩⟩
    · intro i iv k hi hk hin
      have hk' : k < numJournalBlocks := Nat.lt_of_lt_of_le hk (hc.holds _).2.2.1
      cases hcm : r.commit with
      | none =>
        obtain ⟨hu, _, _⟩ := hr.idle hcm
        have hidx := hr.idx
        rw [hu] at hidx
        have hse : f (select f) = r.sb := by
          have : select f = r.which := hidx
          rw [this, hr.sb]
        rw [hse] at hk hin
        obtain ⟨k', h1, h2, h3⟩ := hr.wpos i iv _ hi
          (posAdd_lt (hr.start_lt hc) (Nat.le_of_lt hk')) hin
        have := posAdd_inj (hr.start_lt hc) hk' (Nat.lt_of_lt_of_le h2 hr.cap) h3
        omega
      | _ =>
        obtain ⟨_, _, _, _, h3, _⟩ := hr.busy (by rw [hcm]; intro e; cases e)
        exact h3 i (hr.wrec _ _ hi)
    · intro w x hw
      have hcm : r.commit ≠ .none := fun e => by
        have := (hr.idle e).2.2 w; rw [show d.writeSb w = none from this] at hw; cases hw
      obtain ⟨id, n, _, _, h3, _, h5, h6, _⟩ := hr.busy hcm
      refine ⟨?_, fun i => ?_⟩
      · by_cases e : w = r.which
        · rw [e] at hw; rw [show d.writeSb r.which = none from h5] at hw; cases hw
        · have : (!w) = r.which := by cases w <;> cases hx : r.which <;> simp_all
          rw [this]; exact h5
      · cases hi : d.writeJ i with
        | none => rfl
        | some iv => exact absurd (hr.wrec _ _ hi) (h3 i)
    · have := hr.readJ
      rw [show d.readJ = .empty from this]; rfl

/-! ### Concrete case -/

/-- The run of Verif/Kv/JournalDemo.lean: an empty journal is loaded, a put is logged and synchronised,
a second put is logged, and the system crashes while the block with the second put is being written,
which leaves garbage there. The trace is one of the ideal journal, and recovery replays exactly the
first put. -/
theorem demo : ∃ c n s' r, (Ledger.machine StoreDemo.T1).Exec JournalDemo.trace c ∧
    (machine StoreDemo.T1).Exec (JournalDemo.trace ++ (List.replicate 4 .journalInternal ++
        .sendPersistentLoc c.loc :: List.replicate n .journalInternal)) s' ∧
    s'.m = .ready r ∧ r.replay = [.insert [] []] ∧ c.log.drop c.start = [.insert [] []] := by
  obtain ⟨s, hs, hm, hsb, hj, _⟩ := JournalDemo.run0
  obtain ⟨v, h1, h2⟩ := exec_rel hs
  obtain ⟨c, p1, p2, p3, rest, h3, h4⟩ := Ledger.exec_view h1
  obtain ⟨n, s', r, h5, h6, h7, _⟩ := recover h2 hm 0
  obtain ⟨m, d⟩ := s
  change m = _ at hm
  subst hm
  obtain ⟨f, hc, _, hdn⟩ := h2
  have hf : f = setAt JournalDemo.f0 false ⟨2, 0, 1, StoreDemo.T1⟩ := by
    funext w
    have := (hc.holds w).1
    rw [show d.sb = _ from hsb] at this
    cases w <;> simpa [setAt] using this.symm
  have hsel : select f = false := by
    rw [hf]; simp [select, setAt, JournalDemo.f0, JournalCache.incr]
  have hj1 : v.j1 = [.insert [] []] := by
    have := hc.j1
    rw [hsel, hf] at this
    simp only [setAt, if_true, journalAt, blocksAt] at this
    rw [show d.journal 0 = _ from hj] at this
    simp only [Option.bind_some] at this
    rw [JournalDemo.parse1] at this
    exact (Option.some.inj this).symm
  refine ⟨c, n, s', r, h3, hs.append (by rw [h4.loc]; exact h5), h6, h7.trans hj1, ?_⟩
  rw [h4.log, h4.start, hdn.gamma, hdn.delta, hj1]
  simp

end Verif.C54
