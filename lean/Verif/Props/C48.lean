import Verif.Bank.Demo
/-
C48. Concurrent transfers neither create nor destroy money. Specification: `State.money` (what lies in
the accounts plus what threads have in hand, Bank/Live.lean), `ledger` and `total` (Bank/Ledger.lean).
The auditor's specification by itself does not promise it (`spec_mints`): it lets an account pay itself
and grow.
-/
namespace Verif.C48
open Verif Bank Simple

variable {n : Nat} {amount : UInt32} {threads : Nat} {tr : List Event} {s : State}

/-- The money in memory, at any moment of any interleaving. -/
theorem conserved (h : (machine n amount threads).Exec tr s) : s.money = n * amount.toNat := by
  have main := Machine.exec_invariant (M := machine n amount threads)
    (I := fun tr s => Inv n (ledger amount tr) s ∧ s.money = n * amount.toNat) ?_ ?_ h
  · exact main.2
  · rintro s rfl
    refine ⟨inv_start n amount threads, ?_⟩
    simp [State.money, start, Cell.money, PC.money, List.sum_replicate_nat]
  · intro tr s e s' ⟨hI, hm⟩ hs
    exact ⟨by rw [ledger_snoc]; exact hI.step hs, (money_step hI hs).trans hm⟩

/-- When no thread is inside an operation, all of it lies in the accounts. -/
theorem conserved_at_rest (h : (machine n amount threads).Exec tr s)
    (hidle : ∀ (t : Nat) (p : PC), s.pcs[t]? = some p → p = .idle) :
    (s.accts.map Cell.money).sum = n * amount.toNat := by
  have := conserved h
  have hz : (s.pcs.map PC.money).sum = 0 := by
    have : ∀ p ∈ s.pcs, p = .idle := by
      intro p hp
      obtain ⟨t, ht⟩ := List.getElem?_of_mem hp
      exact hidle t p ht
    revert this
    induction s.pcs with
    | nil => simp
    | cons p l ih =>
      intro hl
      simp only [List.map_cons, List.sum_cons]
      rw [ih (fun q hq => hl q (by simp [hq])), hl p (by simp)]; rfl
  simp only [State.money, hz] at this
  exact this

theorem total_pay {b r} (hne : r.src ≠ r.dst) (hle : r.amt ≤ b r.src) (m : Nat) :
    total (pay b r) m + (if r.src < m then r.amt else 0) = total b m + (if r.dst < m then r.amt else 0) := by
  induction m with
  | zero => simp [total]
  | succ m ih =>
    simp only [total]
    by_cases h1 : m = r.dst
    · subst h1
      have hs : (r.src < r.dst + 1) = (r.src < r.dst) := by apply propext; omega
      simp only [pay_dst, hs, Nat.lt_irrefl, if_false, Nat.lt_succ_self, if_true] at ih ⊢
      omega
    · by_cases h2 : m = r.src
      · subst h2
        have hd : (r.dst < r.src + 1) = (r.dst < r.src) := by apply propext; omega
        have hp : pay b r r.src = b r.src - r.amt := by simp [pay, hne]
        simp only [hp, hd, Nat.lt_irrefl, if_false, Nat.lt_succ_self, if_true] at ih ⊢
        omega
      · have hs : (r.src < m + 1) = (r.src < m) := by apply propext; omega
        have hd : (r.dst < m + 1) = (r.dst < m) := by apply propext; omega
        rw [pay_other h2 h1]; simp only [hs, hd]; omega

/-- A transfer that can be made leaves the total alone. -/
theorem total_payable {b r} (h : Payable n b r) : total (pay b r) n = total b n := by
  have := total_pay h.1 h.2.2.2.1 n
  simp only [h.2.1, h.2.2.1, if_true] at this
  omega

/-- The balances the successful transfers leave add up to what was there at first. -/
theorem ledger_total (h : (machine n amount threads).Exec tr s) :
    total (ledger amount tr) n = n * amount.toNat := by
  have main := Machine.exec_invariant (M := machine n amount threads)
    (I := fun tr s => Inv n (ledger amount tr) s ∧ total (ledger amount tr) n = n * amount.toNat) ?_ ?_ h
  · exact main.2
  · rintro s rfl
    refine ⟨inv_start n amount threads, ?_⟩
    have : ∀ m, total (fun _ => amount.toNat) m = m * amount.toNat := by
      intro m
      induction m with
      | zero => simp [total]
      | succ m ih => simp only [total, ih, Nat.succ_mul]
    exact this n
  · intro tr s e s' ⟨hI, hm⟩ hs
    refine ⟨by rw [ledger_snoc]; exact hI.step hs, ?_⟩
    rw [ledger_snoc]
    cases hs with
    | @pay t r vs vd hpc hcan =>
      have hv : Valid n r := hI.ok _ _ hpc
      have hne := src_ne_dst hv
      have hp := (canPay_iff hv (hI.hand _ _ _ _ hpc (by simp [PC.val]))
        (hI.hand _ _ _ _ hpc (by simp [PC.val, Ne.symm hne]))).mp hcan
      exact (total_payable hp).trans hm
    | _ => exact hm

/-- Every balance fits its machine word (and, being a natural number that a payment is taken from only
when it covers it, never falls below zero: `C47.success_payable`). -/
theorem balance_fits (h : (machine n amount threads).Exec tr s) {i : Nat} (hi : i < n) :
    ledger amount tr i < 2 ^ 32 := by
  have hI := inv_exec h
  obtain ⟨c, hc⟩ := get_of_lt (l := s.accts) (i := i) (by rw [hI.len]; exact hi)
  cases c with
  | free v k => rw [← hI.cell _ _ _ hc]; exact v.toNat_lt
  | taken =>
    have h1 := (hI.lock _ _ hc).1
    have : 0 < s.pcs.countP (PC.holds i) := by rw [h1]; decide
    obtain ⟨p, hp, hh⟩ := List.countP_pos_iff.mp this
    obtain ⟨t, ht⟩ := List.getElem?_of_mem hp
    obtain ⟨v, hv⟩ := Option.isSome_iff_exists.mp hh
    rw [← hI.hand _ _ _ _ ht hv]; exact v.toNat_lt

/-- Sum of the accounts of a model state (absent accounts count nothing). -/
def held (a : PMap Nat Nat) (n : Nat) : Nat := total (fun i => (a i).getD 0) n

/-- The token machine in the auditor's system conserves money too: its two account tokens cannot be of
one account. -/
theorem tokens_conserve {n amount : Nat} {tr : List Label} {y : Sys.State}
    (h : (Sys.machine n amount).Exec tr y) :
    held y.bank.accounts n = y.bank.totalAmount ∧ y.bank.totalAmount = amount * n := by
  have main := Machine.exec_invariant (M := Sys.machine n amount)
    (I := fun _ y => (∀ i, y.bank.accounts i ≠ none ↔ i < n) ∧
      held y.bank.accounts n = y.bank.totalAmount ∧ y.bank.totalAmount = amount * n) ?_ ?_ h
  · exact main.2
  · rintro y rfl
    refine ⟨?_, ?_, rfl⟩
    · intro i; simp [Tok.init, initAccounts]
    · show held (initAccounts n amount) n = amount * n
      have : ∀ m, m ≤ n → held (initAccounts n amount) m = amount * m := by
        intro m hm
        induction m with
        | zero => rfl
        | succ m ih =>
          have := ih (by omega)
          simp only [held, total] at this ⊢
          rw [this]
          have : m < n := by omega
          simp [initAccounts, this, Nat.mul_succ]
      exact this n (Nat.le_refl n)
  · intro tr y l y' ⟨hdom, hI⟩ hs
    have tok : ∀ {b : Tok.State}, Tok.Next y.bank l b → (∀ i, b.accounts i ≠ none ↔ i < n) ∧
        held b.accounts n = b.totalAmount ∧ b.totalAmount = amount * n := by
      intro b hb
      cases hb with
      | request => exact ⟨hdom, hI⟩
      | failed => exact ⟨hdom, hI⟩
      | reply => exact ⟨hdom, hI⟩
      | @transfer req reply f t hreq hid hok hsrc hdst hamt =>
        have hne : req.dst ≠ req.src := fun e => by rw [e] at hdst; simp at hdst
        rw [PMap.remove_other _ hne] at hdst
        have hs : req.src < n := (hdom _).mp (by rw [hsrc]; simp)
        have hd : req.dst < n := (hdom _).mp (by rw [hdst]; simp)
        refine ⟨?_, ?_, hI.2⟩
        · intro i
          simp only [PMap.insert, PMap.remove]
          split
          · subst_vars; simp [hd]
          · split
            · subst_vars; simp [hs]
            · exact hdom i
        · have e : (fun i => (((((y.bank.accounts.remove req.src).remove req.dst).insert req.src
              (f - req.amt)).insert req.dst (t + req.amt)) i).getD 0) =
              pay (fun i => (y.bank.accounts i).getD 0) req := by
            funext i
            simp only [PMap.insert, PMap.remove, pay]
            split
            · subst_vars; simp [hdst]
            · split
              · subst_vars; simp [hsrc]
              · rfl
          show held _ n = y.bank.totalAmount
          rw [← hI.1]
          unfold held
          rw [e]
          have := total_pay (b := fun i => (y.bank.accounts i).getD 0) (r := req) (Ne.symm hne)
            (by simpa [hsrc] using hamt) n
          simp only [hs, hd, if_true] at this
          omega
    cases hs with
    | accept _ hb => exact tok hb
    | internal _ hb => exact tok hb

/-- The specification does not conserve money: in a bank with a single account of 15 it allows
histories after which that account holds any amount one likes. -/
theorem spec_mints (goal : Nat) :
    ∃ tr sp v, (Spec.machine 1 15).Exec tr sp ∧ sp.accounts 0 = some v ∧ goal ≤ v := by
  let req : Request := ⟨⟨0, 0, 1⟩, 0⟩
  have rounds : ∀ k, ∃ tr sp, (Spec.machine 1 15).Exec tr sp ∧ sp.accounts 0 = some (15 + k) ∧
      (∀ r, ¬ sp.requests r) ∧ (∀ r, ¬ sp.replies r) := by
    intro k
    induction k with
    | zero => exact ⟨[], _, ⟨_, rfl, .nil _⟩, rfl, fun _ h => h, fun _ h => h⟩
    | succ k ih =>
      obtain ⟨tr, sp, hE, hv, hq, hr⟩ := ih
      have e1 := hE.snoc (Spec.Next.request (s := sp) (req := req) (fun r h => absurd h (hq r)))
      have e2 := e1.snoc (Spec.Next.transfer (req := req) (reply := ⟨true, 0⟩) (f := 15 + k) (t := 15 + k)
        rfl rfl (.inl rfl) (fun r h => absurd h (hr r)) hv hv (by show 1 ≤ _; omega))
      have e3 := e2.snoc (Spec.Next.reply (reply := ⟨true, 0⟩) (.inl rfl))
      refine ⟨_, _, e3, ?_, ?_, ?_⟩
      · rfl
      · rintro r ⟨rfl | h, hne⟩
        · exact hne rfl
        · exact hq r h
      · rintro r ⟨rfl | h, hne⟩
        · exact hne rfl
        · exact hr r h
  obtain ⟨tr, sp, hE, hv, _, _⟩ := rounds goal
  exact ⟨tr, sp, _, hE, hv, by omega⟩

/-- Money is conserved with 10 of the 30 in the hand of a thread, and at the end. -/
theorem demo :
    (machine 3 10 2).Exec Demo.half Demo.halfState ∧ (Demo.halfState.accts.map Cell.money).sum = 20 ∧
    (Demo.halfState.pcs.map PC.money).sum = 10 ∧
    (machine 3 10 2).Exec (Demo.half ++ Demo.rest) Demo.endState ∧
    Demo.endState.accts.map Cell.money = [6, 14, 10] ∧
    total (ledger 10 (Demo.half ++ Demo.rest)) 3 = 30 :=
  ⟨Demo.half_exec, by decide, by decide, Demo.end_exec, by decide, by decide⟩

/-- A history of the token machine with a transfer in it. -/
example : ∃ tr y, (Sys.machine 2 15).Exec tr y ∧ y.bank.accounts 0 = some 14 ∧
    y.bank.accounts 1 = some 16 := by
  let req : Request := ⟨⟨0, 1, 1⟩, 0⟩
  have e0 : (Sys.machine 2 15).Exec [] _ := ⟨_, rfl, .nil _⟩
  have e1 := e0.snoc (Sys.Next.accept (req := req) (fun h => h) .request)
  have e2 := e1.snoc (Sys.Next.internal (l := .execute req ⟨true, 0⟩) (fun _ => nofun)
    (Tok.Next.transfer (req := req) (reply := ⟨true, 0⟩) (f := 15) (t := 15) (Nat.zero_lt_one) rfl rfl rfl rfl
      (by decide)))
  exact ⟨_, _, e2, rfl, rfl⟩

end Verif.C48
