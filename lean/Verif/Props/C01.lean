import Verif.Abs.CoordRefine
import Verif.Abs.Demo
import Verif.Spec.ClientSpecProof
/-
C01. Crash-safe key-value store: every execution is one the map specification allows.
Specification: `CTAM.machine` (MapSpec_t.rs, the project's trusted specification) and, below it,
the trace-level client contract `ClientSpec.Good`, which mentions no machine state at all.
-/
namespace Verif.C01
open Verif

/-- Every execution of the coordination layer with `commit_start` repaired is, event for event,
an execution of the crash-tolerant map specification. -/
theorem fixed_refines {tr : List CTAM.Label} {s} (h : Coord.fixedMachine.Exec tr s) :
    ∃ t, CTAM.machine.Exec tr t := by
  obtain ⟨t, ht, _⟩ := Machine.refine (N := CTAM.machine) (fun l => l)
    (fun s t => ∃ f N, Coord.Rel f N s t)
    (fun s hs => by
      obtain ⟨t, ht, hr⟩ := Coord.rel_init hs
      exact ⟨t, ht, _, _, hr⟩)
    (fun s l s' t hr hs => by
      obtain ⟨f, N, hr⟩ := hr
      obtain ⟨f', N', t', h1, h2⟩ := Coord.rel_step hr hs
      exact ⟨t', h1, f', N', h2⟩) h
  exact ⟨t, by simpa using ht⟩

/-- A commit step of the code as written cannot happen (see C04), so the code's machine is
contained in the repaired one. -/
theorem code_step_fixed {s l s'} (h : Coord.machine.Step s l s') : Coord.fixedMachine.Step s l s' := by
  rcases h with h | h
  · exact .inl h
  · cases h with
    | mk he hj hm => exact .inr (.mk he hj hm)

theorem code_exec_fixed {tr : List CTAM.Label} {s} (h : Coord.machine.Exec tr s) :
    Coord.fixedMachine.Exec tr s := by
  obtain ⟨s0, h0, hr⟩ := h
  refine ⟨s0, h0, ?_⟩
  clear h0
  induction hr with
  | nil => exact .nil _
  | cons hs _ ih => exact .cons (code_step_fixed hs) ih

/-- The same for the coordination layer exactly as written in the source. -/
theorem code_refines {tr : List CTAM.Label} {s} (h : Coord.machine.Exec tr s) :
    ∃ t, CTAM.machine.Exec tr t := fixed_refines (code_exec_fixed h)

/-- Hence every execution satisfies the client contract. -/
theorem fixed_good {tr : List CTAM.Label} {s} (h : Coord.fixedMachine.Exec tr s) :
    ClientSpec.Good tr := by
  obtain ⟨t, ht⟩ := fixed_refines h
  exact ClientSpec.ctam_good ht

theorem code_good {tr : List CTAM.Label} {s} (h : Coord.machine.Exec tr s) :
    ClientSpec.Good tr := fixed_good (code_exec_fixed h)

/-- The hypothesis is met by an execution with a put, a sync, a commit, a crash, a recovery and
a query. -/
example : ClientSpec.Good (Coord.demoTrace1 ++ Coord.demoTrace2) := by
  obtain ⟨s, hs⟩ := Coord.demo_exec
  exact fixed_good hs

/-- The contract has content: the same trace with a wrong query answer after the crash is
rejected. -/
example : ¬ ClientSpec.Good (Coord.demoTrace1 ++
    [.noop, .noop, .operate (.request Coord.demoQuery),
     .operate (.execute Coord.demoQuery { output := .query 0, id := 2 })]) := by
  rintro ⟨⟨H, hE⟩, _⟩
  have s0 := hE.start
  have s1 := hE.step 0 _ rfl (by simp)
  have s2 := hE.step 1 _ rfl (by simp)
  have s3 := hE.step 2 _ rfl (by simp)
  have s4 := hE.step 3 _ rfl (by simp)
  have hd := hE.durable 4 8 9 (by decide) rfl rfl (by
    intro m h1 h2 hm
    have : m = 5 ∨ m = 6 ∨ m = 7 := by omega
    rcases this with rfl | rfl | rfl <;> simp [Coord.demoTrace1] at hm) 13 (by decide) (by decide)
  have hc := hE.crash 9 rfl
  have s5 := hE.step 4 _ rfl (by simp)
  have s6 := hE.step 5 _ rfl (by simp)
  have s7 := hE.step 6 _ rfl (by simp)
  have s8 := hE.step 7 _ rfl (by simp)
  have s9 := hE.step 8 _ rfl (by simp)
  have t1 := hE.step 10 _ rfl (by simp)
  have t2 := hE.step 11 _ rfl (by simp)
  have t3 := hE.step 12 _ rfl (by simp)
  have hq := hE.query 13 _ _ 5 rfl rfl
  simp [ClientSpec.putsOf, Coord.demoPut, s0] at s1 s2 s3 s4 s5 s6 s7 s8 s9 t1 t2 t3
  have h4 : H 4 = [(5, 7)] := by simp_all
  have h9 : H 9 = [(5, 7)] := by simp_all
  rw [h4] at hd
  have h13 : H 13 = H 10 := by simp_all
  have : H 13 = [(5, 7)] := by
    rw [h13] at hd ⊢
    rw [h9] at hc
    exact (hd.eq_of_length_le hc.length_le).symm
  rw [this] at hq
  simp [ClientSpec.lookup] at hq

end Verif.C01
