import Verif.Bank.Demo
/-
C47. Concurrent transfers take effect one at a time. Specification: `Spec.machine`, the auditor's bank;
`Turns`, the order of a thread's client events; `ledger`, what the successful transfers of a history
leave; `Payable`, when a transfer can be made (the last three in Bank/History.lean, Bank/Ledger.lean).
Quantified over the number of accounts `n`, the initial `amount`, the number of `threads` and all
interleavings. The number of accepted requests is bounded only where request numbers must not repeat
(the counter has 64 bits).
-/
namespace Verif.C47
open Verif Bank Simple

variable {n : Nat} {amount : UInt32} {threads : Nat} {tr : List Event} {s : State}

/-- The client-visible events of any interleaving are a history of the one-at-a-time specification, and
the accounts of the specification are then the ledger. -/
theorem linearizable (h : (machine n amount threads).Exec tr s) (hk : accepts tr ≤ 2 ^ 64) :
    ∃ sp, (Spec.machine n amount.toNat).Exec (tr.filterMap Event.label) sp ∧
      sp.accounts = fun a => if a < n then some (ledger amount tr a) else none := by
  obtain ⟨y, hy, hsim⟩ := sim_exec h hk
  exact ⟨_, (Sys.refines hy).2, hsim.acc⟩

/-- What the auditor demands of the token machine: every history of it, with request numbers that are
never repeated, is a history of the specification. -/
theorem system_refines {n amount : Nat} {tr : List Label} {y : Sys.State}
    (h : (Sys.machine n amount).Exec tr y) :
    ∃ sp, (Spec.machine n amount).Exec tr sp ∧ sp.accounts = y.bank.accounts ∧
      (∀ r, sp.requests r ↔ 0 < y.bank.requests r) ∧ (∀ r, sp.replies r ↔ 0 < y.bank.replies r) :=
  ⟨_, (Sys.refines h).2, rfl, fun _ => Iff.rfl, fun _ => Iff.rfl⟩

/-- Each thread's client events come in turns: accepted, executed once, replied to; nothing is open when
the thread is outside operations. -/
theorem in_turns (h : (machine n amount threads).Exec tr s) {t : Nat} {p : PC} (hp : s.pcs[t]? = some p) :
    ∃ rest, Turns (tr.filterMap (mine t)) rest ∧ (p = .idle → rest = none) := by
  obtain ⟨ph, h1, h2, h3⟩ := turns h hp
  refine ⟨ph, h1, ?_⟩
  rintro rfl
  match ph, h2, h3 with
  | none, _, _ => rfl
  | some (_, none), h2, _ => cases h2
  | some (_, some _), _, h3 => cases h3

/-- A transfer that succeeds could be made at the moment it took effect. -/
theorem success_payable (h : (machine n amount threads).Exec tr s) {k t : Nat} {r : Request} {p : Reply}
    (hk : tr[k]? = some (.execute t r p)) (hp : p.succeeded = true) :
    Payable n (ledger amount (tr.take k)) r := by
  obtain ⟨s1, s2, h1, hs⟩ := h.at_index hk
  have hI := inv_exec h1
  cases hs with
  | invalid => cases hp
  | fail => cases hp
  | @pay _ _ vs vd hpc hcan =>
    have hv : Valid n r := hI.ok _ _ hpc
    have hne := src_ne_dst hv
    exact (canPay_iff hv (hI.hand _ _ _ _ hpc (by simp [PC.val]))
      (hI.hand _ _ _ _ hpc (by simp [PC.val, Ne.symm hne]))).mp hcan

/-- A transfer that is refused could not be made at some moment `m` between its arrival `i` and the
refusal `k`. -/
theorem refusal_justified (h : (machine n amount threads).Exec tr s) {k t : Nat} {r : Request} {p : Reply}
    (hk : tr[k]? = some (.execute t r p)) (hp : p.succeeded = false) :
    ∃ i m, i < m ∧ m ≤ k ∧ tr[i]? = some (.accept t r) ∧
      (∀ j r', i < j → j < k → tr[j]? ≠ some (.accept t r')) ∧
      ¬ Payable n (ledger amount (tr.take m)) r := by
  obtain ⟨s1, s2, h1, hs⟩ := h.at_index hk
  have hkl := lt_of_get hk
  have hlen : (tr.take k).length = k := by simp; omega
  have fix : ∀ {i}, LastAccept (tr.take k) t i r → i < k ∧ tr[i]? = some (.accept t r) ∧
      (∀ j r', i < j → j < k → tr[j]? ≠ some (.accept t r')) := by
    intro i ⟨h1, h2⟩
    have hi := lt_of_get h1
    rw [hlen] at hi
    rw [List.getElem?_take, if_pos hi] at h1
    refine ⟨hi, h1, ?_⟩
    intro j r' hij hjk
    have := h2 j r' hij
    rwa [List.getElem?_take, if_pos hjk] at this
  cases hs with
  | pay => cases hp
  | invalid hpc hv =>
    obtain ⟨i, hi, _⟩ := past h1 hpc r rfl
    obtain ⟨a, b, c⟩ := fix hi
    refine ⟨i, k, a, Nat.le_refl k, b, c, ?_⟩
    rintro ⟨h1', h2', h3', _⟩
    refine hv ⟨fun e => h1' (by simp [Request.src, Request.dst, e]), ?_, ?_⟩ <;>
      · rw [(inv_exec h1).len]; assumption
  | fail hpc =>
    obtain ⟨i, hi, hm⟩ := past h1 hpc r rfl
    obtain ⟨a, b, c⟩ := fix hi
    obtain ⟨m, hm1, hm2, hm3⟩ := hm rfl
    rw [hlen] at hm2
    refine ⟨i, m, hm1, hm2, b, c, ?_⟩
    rwa [List.take_take, Nat.min_eq_left hm2] at hm3

/-- An account whose lock is free holds exactly its ledger balance. -/
theorem free_exact (h : (machine n amount threads).Exec tr s) {i k : Nat} {v : UInt32}
    (hc : s.accts[i]? = some (.free v k)) : v.toNat = ledger amount tr i :=
  (inv_exec h).cell _ _ _ hc

/-- When no thread is inside an operation, every account is there, unlocked, with its ledger balance. -/
theorem balances_exact (h : (machine n amount threads).Exec tr s)
    (hidle : ∀ (t : Nat) (p : PC), s.pcs[t]? = some p → p = .idle) :
    s.accts.length = n ∧ ∀ i, i < n → ∃ v, s.accts[i]? = some (.free v 0) ∧ v.toNat = ledger amount tr i := by
  have hI := inv_exec h
  refine ⟨hI.len, ?_⟩
  intro i hi
  obtain ⟨c, hc⟩ := get_of_lt (l := s.accts) (i := i) (by rw [hI.len]; exact hi)
  have none : ∀ f : PC → Bool, f .idle = false → s.pcs.countP f = 0 := by
    intro f hf
    rw [List.countP_eq_zero]; intro p hp
    obtain ⟨t, ht⟩ := List.getElem?_of_mem hp
    rw [hidle t p ht, hf]; simp
  have hl := hI.lock _ _ hc
  cases c with
  | taken => have := hl.1; rw [none _ rfl] at this; cases this
  | free v k =>
    have : k = 0 := by have := hl.2; rw [none _ rfl] at this; exact this.symm
    subst this
    exact ⟨v, hc, hI.cell _ _ _ hc⟩

/-- Three accounts, two threads that contend for two of them in opposite directions: the hypotheses
hold with both threads in the middle of their transfers and at the end, one transfer having succeeded and
one been refused. -/
theorem demo :
    (machine 3 10 2).Exec (Demo.half ++ Demo.rest) Demo.endState ∧ accepts (Demo.half ++ Demo.rest) ≤ 2 ^ 64 ∧
    (Demo.half ++ Demo.rest)[4]? = some (.execute 0 Demo.r0 ⟨true, 0⟩) ∧
    (Demo.half ++ Demo.rest)[13]? = some (.execute 1 Demo.r1 ⟨false, 1⟩) ∧
    Demo.half.filterMap (mine 1) = [.accept Demo.r1] ∧
    (∀ (t : Nat) (p : PC), Demo.endState.pcs[t]? = some p → p = .idle) ∧
    (ledger 10 (Demo.half ++ Demo.rest) 0, ledger 10 (Demo.half ++ Demo.rest) 1,
      ledger 10 (Demo.half ++ Demo.rest) 2) = (6, 14, 10) := by
  refine ⟨Demo.end_exec, by decide, rfl, rfl, rfl, ?_, by decide⟩
  intro t p hp
  have hp := List.mem_of_getElem? hp
  simpa [Demo.endState] using hp

/-- The accounts of the specification are really constrained: the final balances of the example. -/
example : ∃ sp, (Spec.machine 3 10).Exec ((Demo.half ++ Demo.rest).filterMap Event.label) sp ∧
    sp.accounts 1 = some 14 := by
  obtain ⟨sp, h1, h2⟩ := linearizable Demo.end_exec (by decide)
  refine ⟨sp, h1, ?_⟩
  rw [h2]; rfl

end Verif.C47
