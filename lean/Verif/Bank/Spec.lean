import Verif.Base.PMap
import Verif.Base.MSet
import Verif.Base.Trace
/-
The bank example: the auditor's specification (example/BankSpec_t.rs), the token machine of the
program (example/Bank_v.rs) and the auditor's system around it (example/BankContract_t.rs,
BankObligations_v.rs).
-/
namespace Verif.Bank
open Verif

/-- BankSpec_t.rs 12-16 `Input` (`usize` is 64 bits wide here; `from`, `to` renamed) -/
structure Input where
  src : UInt64
  dst : UInt64
  amt : UInt32
deriving DecidableEq

/-- BankSpec_t.rs 22-25 `Request` -/
structure Request where
  input : Input
  id : UInt64
deriving DecidableEq

/-- BankSpec_t.rs 18-20, 27-30 `Reply` (with its `Output` flattened) -/
structure Reply where
  succeeded : Bool
  id : UInt64
deriving DecidableEq

/-- BankSpec_t.rs 39-43, Bank_v.rs 36-40, BankContract_t.rs 13-19: the three label types have the same
content, and the label maps of BankObligations_v.rs 12-31 are the identity on it -/
inductive Label
  | accept (req : Request)
  | execute (req : Request) (reply : Reply)
  | deliver (reply : Reply)

/-- Account number of the source / destination, `as nat` -/
def Request.src (r : Request) : Nat := r.input.src.toNat
def Request.dst (r : Request) : Nat := r.input.dst.toNat
def Request.amt (r : Request) : Nat := r.input.amt.toNat

/-- BankSpec_t.rs 46, Bank_v.rs 45: `n` accounts holding `amount` each -/
def initAccounts (n amount : Nat) : PMap Nat Nat := fun a => if a < n then some amount else none

namespace Spec

/-- BankSpec_t.rs 33-37 -/
structure State where
  accounts : PMap Nat Nat
  requests : PSet Request
  replies : PSet Reply

/-- BankSpec_t.rs 51-96 -/
inductive Next : State → Label → State → Prop
  /-- 51-55 `request` -/
  | request {s : State} {req : Request}
      (fresh : ∀ r, s.requests r → r.id ≠ req.id) :
      Next s (.accept req) { s with requests := fun r => r = req ∨ s.requests r }
  /-- 57-78 `transfer` -/
  | transfer {s : State} {req : Request} {reply : Reply} {f t : Nat}
      (hid : req.id = reply.id) (hok : reply.succeeded = true)
      (hreq : s.requests req) (hrep : ∀ r, s.replies r → r.id ≠ reply.id)
      (hsrc : s.accounts req.src = some f) (hdst : s.accounts req.dst = some t)
      (hamt : req.amt ≤ f) :
      Next s (.execute req reply)
        { accounts := (s.accounts.insert req.src (f - req.amt)).insert req.dst (t + req.amt)
          requests := fun r => s.requests r ∧ r ≠ req
          replies := fun r => r = reply ∨ s.replies r }
  /-- 80-90 `failed_transfer` -/
  | failed {s : State} {req : Request} {reply : Reply}
      (hid : req.id = reply.id) (hok : reply.succeeded = false)
      (hreq : s.requests req) (hrep : ∀ r, s.replies r → r.id ≠ reply.id) :
      Next s (.execute req reply)
        { s with requests := fun r => s.requests r ∧ r ≠ req
                 replies := fun r => r = reply ∨ s.replies r }
  /-- 92-96 `reply` -/
  | reply {s : State} {reply : Reply} (hrep : s.replies reply) :
      Next s (.deliver reply) { s with replies := fun r => s.replies r ∧ r ≠ reply }

/-- BankSpec_t.rs 32-97, started (45-49) with `n` accounts of `amount` -/
def machine (n amount : Nat) : Machine State Label where
  Init s := s = { accounts := initAccounts n amount, requests := fun _ => False, replies := fun _ => False }
  Step := Next

end Spec

namespace Tok

/-- Bank_v.rs 14-34. `total_accounts` and `total_amount` (constants) are kept. -/
structure State where
  totalAccounts : Nat
  totalAmount : Nat
  accounts : PMap Nat Nat
  requests : MSet Request
  replies : MSet Reply

/-- Bank_v.rs 50-90. `remove m -= {x}` requires the token to be there and takes it away;
`remove account_map -= [k => let v]` likewise, one after the other, so the two accounts of a transfer are
different. -/
inductive Next : State → Label → State → Prop
  /-- 50-53 `request` -/
  | request {s : State} {req : Request} :
      Next s (.accept req) { s with requests := s.requests.insert req }
  /-- 55-75 `transfer` -/
  | transfer {s : State} {req : Request} {reply : Reply} {f t : Nat}
      (hreq : s.requests.Has req)
      (hid : req.id = reply.id) (hok : reply.succeeded = true)
      (hsrc : s.accounts req.src = some f) (hdst : (s.accounts.remove req.src) req.dst = some t)
      (hamt : req.amt ≤ f) :
      Next s (.execute req reply)
        { s with
          accounts := (((s.accounts.remove req.src).remove req.dst).insert req.src (f - req.amt)).insert
            req.dst (t + req.amt)
          requests := s.requests.remove req
          replies := s.replies.insert reply }
  /-- 77-85 `failed_transfer` -/
  | failed {s : State} {req : Request} {reply : Reply}
      (hreq : s.requests.Has req)
      (hid : req.id = reply.id) (hok : reply.succeeded = false) :
      Next s (.execute req reply)
        { s with requests := s.requests.remove req, replies := s.replies.insert reply }
  /-- 87-90 `reply` -/
  | reply {s : State} {reply : Reply} (hrep : s.replies.Has reply) :
      Next s (.deliver reply) { s with replies := s.replies.remove reply }

/-- Bank_v.rs 42-48 `initialize` -/
def init (n amount : Nat) : State :=
  { totalAccounts := n, totalAmount := amount * n, accounts := initAccounts n amount
    requests := MSet.empty, replies := MSet.empty }

end Tok

namespace Sys

/-- BankContract_t.rs 33-36 `SystemModel<Bank::State>` -/
structure State where
  bank : Tok.State
  history : PSet UInt64

/-- BankContract_t.rs 46-60 -/
inductive Next : State → Label → State → Prop
  /-- 46-54 `accept_request` -/
  | accept {s : State} {req : Request} {b : Tok.State}
      (fresh : ¬ s.history req.id) (h : Tok.Next s.bank (.accept req) b) :
      Next s (.accept req) { bank := b, history := fun x => x = req.id ∨ s.history x }
  /-- 56-60 `bank_internal` -/
  | internal {s : State} {l : Label} {b : Tok.State}
      (hl : ∀ r, l ≠ .accept r) (h : Tok.Next s.bank l b) :
      Next s l { s with bank := b }

/-- BankContract_t.rs 32-61, initial states 40-44 -/
def machine (n amount : Nat) : Machine State Label where
  Init s := s = { bank := Tok.init n amount, history := fun _ => False }
  Step := Next

end Sys

end Verif.Bank
