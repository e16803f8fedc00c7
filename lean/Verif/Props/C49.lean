import Verif.Bank.Demo
/-
C49. Concurrent transfers cannot deadlock. Specification: steps and runs of the program; `Event.Begins`
marks the events that start a new operation.
-/
namespace Verif.C49
open Verif Bank Simple

variable {n : Nat} {amount : UInt32} {threads : Nat} {tr : List Event} {s : State}

/-- While a thread is inside an operation, some thread can take its next step in an operation. -/
theorem never_stuck (h : (machine n amount threads).Exec tr s) {t : Nat} {p : PC}
    (hp : s.pcs[t]? = some p) (hne : p ≠ .idle) :
    ∃ e s', (machine n amount threads).Step s e s' ∧ ¬ e.Begins :=
  go_of_busy (inv_exec h) hp hne

theorem threads_length (h : (machine n amount threads).Exec tr s) : s.pcs.length = threads := by
  refine Machine.exec_invariant (M := machine n amount threads) (I := fun _ s => s.pcs.length = threads) ?_ ?_ h
  · rintro s rfl; simp [start]
  · intro tr s e s' hl hs
    obtain ⟨p, hp⟩ := pcs_step hs
    rw [hp, List.length_set]; exact hl

theorem run_left (h : (machine n amount threads).Exec tr s) {more : List Event} {s' : State}
    (hr : (machine n amount threads).Run s more s') (hb : ∀ e ∈ more, ¬ e.Begins) :
    more.length + s'.left n ≤ s.left n := by
  induction hr generalizing tr with
  | nil => simp
  | cons hs hr ih =>
    have h1 := ih (h.snoc hs) (fun e he => hb e (by simp [he]))
    have h2 := left_step (inv_exec h) hs (hb _ (by simp))
    simp only [List.length_cons]; omega

/-- Whatever the schedule, only boundedly many steps are possible unless new operations are started. -/
theorem bounded (h : (machine n amount threads).Exec tr s) {more : List Event} {s' : State}
    (hr : (machine n amount threads).Run s more s') (hb : ∀ e ∈ more, ¬ e.Begins) :
    more.length ≤ threads * (2 * n + 7) := by
  have h1 := run_left h hr hb
  have h2 := left_le (n := n) s
  rw [threads_length h] at h2
  omega

/-- A run that cannot be continued without starting new operations has finished all of them. -/
theorem finished (h : (machine n amount threads).Exec tr s) {more : List Event} {s' : State}
    (hr : (machine n amount threads).Run s more s')
    (hmax : ∀ e s'', (machine n amount threads).Step s' e s'' → e.Begins) {t : Nat} {p : PC}
    (hp : s'.pcs[t]? = some p) : p = .idle := by
  by_cases hne : p = .idle
  · exact hne
  · obtain ⟨e, s'', hs, hb⟩ := never_stuck (h.append hr) hp hne
    exact absurd (hmax e s'' hs) hb

/-- From every reachable state all operations can be finished. -/
theorem can_finish (h : (machine n amount threads).Exec tr s) :
    ∃ more s', (machine n amount threads).Run s more s' ∧ (∀ e ∈ more, ¬ e.Begins) ∧
      ∀ (t : Nat) (p : PC), s'.pcs[t]? = some p → p = .idle := by
  generalize hm : s.left n = m
  induction m using Nat.strongRecOn generalizing tr s with
  | ind m ih =>
    by_cases hidle : ∀ (t : Nat) (p : PC), s.pcs[t]? = some p → p = .idle
    · exact ⟨[], s, .nil _, by simp, hidle⟩
    · obtain ⟨t, hidle⟩ := Classical.not_forall.mp hidle
      obtain ⟨p, hidle⟩ := Classical.not_forall.mp hidle
      obtain ⟨hp, hne⟩ := Classical.not_imp.mp hidle
      obtain ⟨e, s', hs, hb⟩ := never_stuck h hp hne
      obtain ⟨more, s'', hr, hb', hd⟩ := ih _ (by rw [← hm]; exact left_step (inv_exec h) hs hb) (h.snoc hs) rfl
      refine ⟨e :: more, s'', .cons hs hr, ?_, hd⟩
      intro e' he'
      rcases List.mem_cons.mp he' with rfl | he'
      · exact hb
      · exact hb' e' he'

/-- Two threads contend for two accounts in opposite directions; one is blocked, yet things go on, to
the end. -/
theorem demo :
    (machine 3 10 2).Exec Demo.half Demo.halfState ∧ Demo.halfState.pcs[1]? = some (.got Demo.r1) ∧
    Demo.halfState.accts[lo Demo.r1]? = some .taken ∧
    (machine 3 10 2).Run Demo.halfState Demo.rest Demo.endState ∧ (∀ e ∈ Demo.rest, ¬ e.Begins) ∧
    Demo.rest.length = 12 := by
  refine ⟨Demo.half_exec, rfl, rfl, Demo.rest_run, ?_, rfl⟩
  intro e he
  simp only [Demo.rest, List.mem_cons, List.not_mem_nil, or_false] at he
  rcases he with rfl | rfl | rfl | rfl | rfl | rfl | rfl | rfl | rfl | rfl | rfl | rfl <;> exact id

end Verif.C49
