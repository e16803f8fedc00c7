import Verif.Kv.DiskHandlerProof
import Verif.Kv.FullImpl
import Verif.Kv.ByteRecover
/-
The whole of VeriBetrKV as it is coded (Verif/Kv/FullImpl.lean) on its disk driver (Verif/Kv/DiskHandler.lean)
and a file, as `Application` (framework/Framework.cpp:452-790) runs it.
-/
namespace Verif.Kv.Driven
open BlockSystem (Label)
open ByteSystem (ui still)
open DiskHandler (Call Os Complete WaitForOne opened fill maxFile Rel Inv Internals)
open Pivot (Node)

/-- `Application`, framework/Framework.h:212-216: the state of the program and the driver -/
structure State where
  b : BlockImpl.State Node
  s : Committer.State
  h : DiskHandler.State

/-- What happens. -/
inductive Next (c : Codec Node) : State → Option (Label Node) → State → Prop
  /-- A handler of the program is called (`handle_Insert`, `handle_Query`, `maybeDoResponse` and so on,
  Framework.cpp:491-760), and calls the driver. -/
  | machine {s : State} {dop vop step b' s' h'} :
      FullImpl.CacheNext c s.b s.s dop vop step b' s' → Call c.crc s.h dop h' →
      Next c s (some ⟨vop, some step⟩) ⟨b', s', h'⟩
  /-- The operating system goes on with the writes it was given. -/
  | os {s : State} {h'} : Os s.h h' → Next c s none ⟨s.b, s.s, h'⟩
  /-- `completeWriteTasks`, called at Framework.cpp:645 -/
  | complete {s : State} {h'} : Complete s.h (some h') → Next c s none ⟨s.b, s.s, h'⟩
  /-- `waitForOne`, called at Framework.cpp:529, 569 -/
  | waitForOne {s : State} {h'} : WaitForOne s.h (some h') → Next c s none ⟨s.b, s.s, h'⟩
  /-- The machine or the process stops, and the program is started again on the file. (`Application::crash`,
  Framework.cpp:473-482, which starts it again in the same process while writes may be out, is for tests, and not
  modelled.) -/
  | crash {s : State} : Next c s (some ⟨.crash, none⟩) ⟨.unready, Committer.init, opened s.h.file⟩

/-- The machine, on a file that mkfs wrote. -/
def machine (c : Codec Node) (Written : List UInt8 → Prop) : Machine State (Option (Label Node)) where
  Init s := ∃ file, Written file ∧ file.length ≤ maxFile ∧ s = ⟨.unready, Committer.init, opened file⟩
  Step := Next c

/-! ### The driver does what the disk does -/

variable {c : Codec Node}

theorem internals_run {loc : Loc} {b : BlockImpl.State Node} {s : Committer.State} {d d' : ByteDisk.State}
    (h : Internals c.crc d d') :
    ∃ n, (FullImpl.machine c loc ⟨true, true⟩).Run ⟨b, s, d⟩ (List.replicate n none) ⟨b, s, d'⟩ := by
  induction h with
  | nil => exact ⟨0, .nil _⟩
  | cons h1 _ ih =>
    obtain ⟨n, hn⟩ := ih
    exact ⟨n + 1, .cons (FullImpl.Next.disk h1) hn⟩

theorem step_sim (loc : Loc) {s s' : State} {l : Option (Label Node)} {d : ByteDisk.State} (hi : Inv s.h)
    (hr : Rel s.h d) (h : Next c s l s') :
    Inv s'.h ∧ ∃ d' tr, (FullImpl.machine c loc ⟨true, true⟩).Run ⟨s.b, s.s, d⟩ tr ⟨s'.b, s'.s, d'⟩ ∧ Rel s'.h d' ∧
      ((l = none ∧ ∃ n, tr = List.replicate n none) ∨ ∃ n, tr = l :: List.replicate n none) := by
  cases h with
  | machine h1 h2 =>
    obtain ⟨d1, d', k1, k2, k3⟩ := DiskHandler.call_sim hi hr h2
    obtain ⟨n, hn⟩ := internals_run (c := c) (loc := loc) k2
    exact ⟨(hi.call h2).1, d', _, .cons (FullImpl.Next.machine h1 k1) hn, k3, .inr ⟨n, rfl⟩⟩
  | os h1 =>
    obtain ⟨d', k1, k2⟩ := DiskHandler.os_sim c.crc hi hr h1
    exact ⟨(hi.os h1).1, d', [none], .cons (FullImpl.Next.disk k1) (.nil _), k2, .inl ⟨rfl, 1, rfl⟩⟩
  | complete h1 =>
    obtain ⟨d', k1, k2⟩ := DiskHandler.complete_sim c.crc h1 hi hr rfl
    obtain ⟨n, hn⟩ := internals_run (c := c) (loc := loc) k1
    exact ⟨(hi.complete h1 _ rfl).1, d', _, hn, k2, .inl ⟨rfl, n, rfl⟩⟩
  | waitForOne h1 =>
    obtain ⟨d', k1, k2⟩ := DiskHandler.wait_sim c.crc hi hr h1
    obtain ⟨n, hn⟩ := internals_run (c := c) (loc := loc) k1
    exact ⟨(hi.wait h1).1, d', _, hn, k2, .inl ⟨rfl, n, rfl⟩⟩
  | crash =>
    obtain ⟨P, e, hp⟩ := hr
    subst e
    exact ⟨.opened hi.file, _, _, .cons FullImpl.Next.crash (.nil _), .opened _, .inr ⟨0, rfl⟩⟩

/-- What the user sees of a trace: the steps that show. -/
def seen (tr : List (Option (Label Node))) : List UIOp :=
  (tr.map ui).filter fun u => u ≠ .noop

theorem seen_append (a b : List (Option (Label Node))) : seen (a ++ b) = seen a ++ seen b := by
  unfold seen; rw [List.map_append, List.filter_append]

theorem seen_none (n : Nat) : seen (List.replicate n none) = [] := by
  induction n with
  | zero => rfl
  | succ n ih => exact ih

theorem seen_cons (l : Option (Label Node)) (tr : List (Option (Label Node))) : seen (l :: tr) = seen [l] ++ seen tr :=
  seen_append [l] tr

theorem run_sim (loc : Loc) {s s' : State} {tr : List (Option (Label Node))} {w : List UInt8 → Prop}
    (h : (machine c w).Run s tr s') : ∀ {d : ByteDisk.State}, Inv s.h → Rel s.h d →
    Inv s'.h ∧ ∃ d' tr', (FullImpl.machine c loc ⟨true, true⟩).Run ⟨s.b, s.s, d⟩ tr' ⟨s'.b, s'.s, d'⟩ ∧ Rel s'.h d' ∧
      seen tr' = seen tr ∧ ∀ l ∈ tr', l = none ∨ l ∈ tr := by
  induction h with
  | nil => intro d hi hr; exact ⟨hi, d, [], .nil _, hr, rfl, fun _ h => nomatch h⟩
  | @cons s l s1 ls s2 h1 _ ih =>
    intro d hi hr
    obtain ⟨i1, d1, t1, r1, k1, k2⟩ := step_sim loc hi hr h1
    obtain ⟨i2, d2, t2, r2, k3, k4, k5⟩ := ih i1 k1
    have e : seen t1 = seen [l] ∧ ∀ x ∈ t1, x = none ∨ x = l := by
      rcases k2 with ⟨e, n, en⟩ | ⟨n, en⟩
      · subst e en
        exact ⟨seen_none n, fun x hx => .inl (List.eq_of_mem_replicate hx)⟩
      · subst en
        refine ⟨by rw [seen_cons, seen_none, List.append_nil], fun x hx => ?_⟩
        rcases List.mem_cons.mp hx with e | hx
        · exact .inr e
        · exact .inl (List.eq_of_mem_replicate hx)
    refine ⟨i2, d2, t1 ++ t2, r1.append r2, k3, ?_, fun x hx => ?_⟩
    · rw [seen_append, e.1, k4, ← seen_cons]
    · rcases List.mem_append.mp hx with hx | hx
      · rcases e.2 x hx with e | e
        · exact .inl e
        · exact .inr (by rw [e]; exact List.mem_cons_self ..)
      · rcases k5 x hx with e | e
        · exact .inl e
        · exact .inr (List.mem_cons_of_mem _ e)

end Verif.Kv.Driven
