import Verif.Bank.Simple
/-
Vocabulary for the properties of the bank: what the successful transfers of a history leave in the
accounts. Nothing of /repo is modelled here.
-/
namespace Verif.Bank
open Verif Simple

/-- Balances after the transfer `r`. -/
def pay (b : Nat → Nat) (r : Request) : Nat → Nat := fun a =>
  if a = r.dst then b a + r.amt else if a = r.src then b a - r.amt else b a

/-- Effect of one event on the balances: a transfer reported as successful, taking effect. -/
def effect (b : Nat → Nat) : Event → Nat → Nat
  | .execute _ r p => if p.succeeded then pay b r else b
  | _ => b

/-- Balances after a history, from `amount` in every account. -/
def ledger (amount : UInt32) (tr : List Event) : Nat → Nat := tr.foldl effect (fun _ => amount.toNat)

/-- The transfer `r` can be made among `n` accounts with balances `b`. -/
def Payable (n : Nat) (b : Nat → Nat) (r : Request) : Prop :=
  r.src ≠ r.dst ∧ r.src < n ∧ r.dst < n ∧ r.amt ≤ b r.src ∧ b r.dst + r.amt < 2 ^ 32

/-- Sum of the first `n` balances. -/
def total (b : Nat → Nat) : Nat → Nat
  | 0 => 0
  | n + 1 => total b n + b n

@[simp] theorem ledger_nil (amount) : ledger amount [] = fun _ => amount.toNat := rfl

theorem ledger_snoc (amount tr e) : ledger amount (tr ++ [e]) = effect (ledger amount tr) e := by
  simp [ledger]

end Verif.Bank
