import Verif.Bank.Spec
/-
The concurrent bank program (example/SimpleBank_v.rs) with its client interface
(example/ClientAPI_t.rs), as threads interleaving at lock operations.

Simplifications. `RwLock` is vstd's, not in /repo: a write acquisition succeeds in one step when the
lock has neither writer nor readers, a read acquisition when it has no writer. Work between two lock
operations touches only what the thread holds and is one step. Requests (`ClientAPI_t.rs` 37-58 makes
them up from a counter) are arbitrary apart from the number taken from the counter. Tokens are ghost and
absent. Threads may also call `check_value` and `get_total` at any time (public functions).
-/
namespace Verif.Bank.Simple
open Verif Bank

/-- One entry of `accounts` (SimpleBank_v.rs 17-20, 35-36): the lock with the balance inside, or the lock
held for writing (`acquire_write` moves the balance out) -/
inductive Cell
  | free (amt : UInt32) (readers : Nat)
  | taken

/-- Where a thread is. `maybe_transfer` (144-199) is `got` … `answered`. -/
inductive PC
  /-- not in an operation -/
  | idle
  /-- has received a request, 156-158 -/
  | got (r : Request)
  /-- holds the lower numbered account, with its balance, 165-170 -/
  | one (r : Request) (v : UInt32)
  /-- holds both accounts, 172 -/
  | both (r : Request) (vs vd : UInt32)
  /-- transfer done (178-188), new balances not yet stored -/
  | paid (r : Request) (vs vd : UInt32)
  /-- source stored, 192 -/
  | paidDst (r : Request) (vd : UInt32)
  /-- transfer refused, 195 -/
  | refused (r : Request) (vs vd : UInt32)
  /-- source stored back, 196 -/
  | refusedDst (r : Request) (vd : UInt32)
  /-- both stored back, 197 -/
  | failing (r : Request)
  /-- `maybe_transfer` has returned, 261 -/
  | answered (p : Reply)
  /-- in `check_value` before the lock, 206 -/
  | check (i : Nat)
  /-- in `check_value` with the lock, 207-208 -/
  | checking (i : Nat)
  /-- at the head of the loop of `get_total`, 219 -/
  | total (i : Nat) (sum : UInt64)
  /-- in the loop with the lock, 224-225 -/
  | totalling (i : Nat) (sum : UInt64)

/-- `accounts` (35-38), the counter of `TrustedAPI` (ClientAPI_t.rs 23-25), and the threads -/
structure State where
  accts : List Cell
  nextId : UInt64
  pcs : List PC

/-- What can be seen of a step. -/
inductive Event
  | accept (t : Nat) (r : Request)
  | execute (t : Nat) (r : Request) (p : Reply)
  | deliver (t : Nat) (p : Reply)
  | startCheck (t i : Nat)
  | checked (t i : Nat) (v : UInt64)
  | startTotal (t : Nat)
  | totalled (t : Nat) (v : UInt64)
  /-- thread `t` acquires or releases a lock or computes -/
  | tau (t : Nat)

/-- Line 158, negated -/
def Valid (n : Nat) (r : Request) : Prop := r.input.src ≠ r.input.dst ∧ r.src < n ∧ r.dst < n

/-- The account locked first / second (165-170) -/
def lo (r : Request) : Nat := if r.input.src < r.input.dst then r.src else r.dst
def hi (r : Request) : Nat := if r.input.src < r.input.dst then r.dst else r.src

/-- Line 172: `from_acc.amt >= amt && to_acc.amt <= u32::MAX - amt` -/
def CanPay (r : Request) (vs vd : UInt32) : Prop :=
  r.input.amt ≤ vs ∧ vd ≤ 0xFFFFFFFF - r.input.amt

instance (r : Request) (vs vd : UInt32) : Decidable (CanPay r vs vd) :=
  inferInstanceAs (Decidable (_ ∧ _))

def State.setPc (s : State) (t : Nat) (p : PC) : State := { s with pcs := s.pcs.set t p }
def State.setCell (s : State) (i : Nat) (c : Cell) : State := { s with accts := s.accts.set i c }

/-- One step of one thread. -/
inductive Next : State → Event → State → Prop
  /-- ClientAPI_t.rs 37-58 `receive_request`: number from `fetch_add` (which wraps) -/
  | accept {s : State} {t : Nat} {inp : Input} (hpc : s.pcs[t]? = some .idle) :
      Next s (.accept t ⟨inp, s.nextId⟩)
        ({ s with nextId := s.nextId + 1 }.setPc t (.got ⟨inp, s.nextId⟩))
  /-- SimpleBank_v.rs 158-160, 137-140: request that names no two accounts -/
  | invalid {s : State} {t : Nat} {r : Request} (hpc : s.pcs[t]? = some (.got r))
      (h : ¬ Valid s.accts.length r) :
      Next s (.execute t r ⟨false, r.id⟩) (s.setPc t (.answered ⟨false, r.id⟩))
  /-- 165-170: first `acquire_write` -/
  | lockFirst {s : State} {t : Nat} {r : Request} {v : UInt32} (hpc : s.pcs[t]? = some (.got r))
      (h : Valid s.accts.length r) (hc : s.accts[lo r]? = some (.free v 0)) :
      Next s (.tau t) ((s.setCell (lo r) .taken).setPc t (.one r v))
  /-- 165-170: second `acquire_write` -/
  | lockSecond {s : State} {t : Nat} {r : Request} {v w : UInt32} (hpc : s.pcs[t]? = some (.one r v))
      (hc : s.accts[hi r]? = some (.free w 0)) :
      Next s (.tau t) ((s.setCell (hi r) .taken).setPc t
        (if r.input.src < r.input.dst then .both r v w else .both r w v))
  /-- 172-190: enough money and room; the transfer takes effect (182-187) -/
  | pay {s : State} {t : Nat} {r : Request} {vs vd : UInt32} (hpc : s.pcs[t]? = some (.both r vs vd))
      (h : CanPay r vs vd) :
      Next s (.execute t r ⟨true, r.id⟩)
        (s.setPc t (.paid r (vs - r.input.amt) (vd + r.input.amt)))
  /-- 191: `from_handle.release_write(new_from_acc)` -/
  | storeSrc {s : State} {t : Nat} {r : Request} {vs vd : UInt32} (hpc : s.pcs[t]? = some (.paid r vs vd)) :
      Next s (.tau t) ((s.setCell r.src (.free vs 0)).setPc t (.paidDst r vd))
  /-- 192-193: `to_handle.release_write(new_to_acc)` and return -/
  | storeDst {s : State} {t : Nat} {r : Request} {vd : UInt32} (hpc : s.pcs[t]? = some (.paidDst r vd)) :
      Next s (.tau t) ((s.setCell r.dst (.free vd 0)).setPc t (.answered ⟨true, r.id⟩))
  /-- 172, 194: not enough money or room -/
  | refuse {s : State} {t : Nat} {r : Request} {vs vd : UInt32} (hpc : s.pcs[t]? = some (.both r vs vd))
      (h : ¬ CanPay r vs vd) :
      Next s (.tau t) (s.setPc t (.refused r vs vd))
  /-- 195 -/
  | backSrc {s : State} {t : Nat} {r : Request} {vs vd : UInt32}
      (hpc : s.pcs[t]? = some (.refused r vs vd)) :
      Next s (.tau t) ((s.setCell r.src (.free vs 0)).setPc t (.refusedDst r vd))
  /-- 196 -/
  | backDst {s : State} {t : Nat} {r : Request} {vd : UInt32}
      (hpc : s.pcs[t]? = some (.refusedDst r vd)) :
      Next s (.tau t) ((s.setCell r.dst (.free vd 0)).setPc t (.failing r))
  /-- 197, 137-140 `failed_reply` -/
  | fail {s : State} {t : Nat} {r : Request} (hpc : s.pcs[t]? = some (.failing r)) :
      Next s (.execute t r ⟨false, r.id⟩) (s.setPc t (.answered ⟨false, r.id⟩))
  /-- ClientAPI_t.rs 61-71 `send_reply` -/
  | deliver {s : State} {t : Nat} {p : Reply} (hpc : s.pcs[t]? = some (.answered p)) :
      Next s (.deliver t p) (s.setPc t .idle)
  /-- 201-205 `check_value` is called (with a valid number) -/
  | startCheck {s : State} {t i : Nat} (hpc : s.pcs[t]? = some .idle) (hi : i < s.accts.length) :
      Next s (.startCheck t i) (s.setPc t (.check i))
  /-- 206 `acquire_read` -/
  | lockCheck {s : State} {t i : Nat} {v : UInt32} {k : Nat} (hpc : s.pcs[t]? = some (.check i))
      (hc : s.accts[i]? = some (.free v k)) :
      Next s (.tau t) ((s.setCell i (.free v (k + 1))).setPc t (.checking i))
  /-- 207-209: read, `release_read`, return -/
  | checked {s : State} {t i : Nat} {v : UInt32} {k : Nat} (hpc : s.pcs[t]? = some (.checking i))
      (hc : s.accts[i]? = some (.free v k)) :
      Next s (.checked t i v.toUInt64) ((s.setCell i (.free v (k - 1))).setPc t .idle)
  /-- 213-218 `get_total` is called -/
  | startTotal {s : State} {t : Nat} (hpc : s.pcs[t]? = some .idle) :
      Next s (.startTotal t) (s.setPc t (.total 0 0))
  /-- 219, 223 `acquire_read` -/
  | lockTotal {s : State} {t i : Nat} {sum : UInt64} {v : UInt32} {k : Nat}
      (hpc : s.pcs[t]? = some (.total i sum)) (hi : i < s.accts.length)
      (hc : s.accts[i]? = some (.free v k)) :
      Next s (.tau t) ((s.setCell i (.free v (k + 1))).setPc t (.totalling i sum))
  /-- 224-227, 231: read, `release_read`, add -/
  | add {s : State} {t i : Nat} {sum : UInt64} {v : UInt32} {k : Nat}
      (hpc : s.pcs[t]? = some (.totalling i sum)) (hc : s.accts[i]? = some (.free v k))
      (h : v.toUInt64 ≤ 0xFFFFFFFFFFFFFFFF - sum) :
      Next s (.tau t) ((s.setCell i (.free v (k - 1))).setPc t (.total (i + 1) (sum + v.toUInt64)))
  /-- 224-225, 228-230: the sum would not fit, return early -/
  | overflow {s : State} {t i : Nat} {sum : UInt64} {v : UInt32} {k : Nat}
      (hpc : s.pcs[t]? = some (.totalling i sum)) (hc : s.accts[i]? = some (.free v k))
      (h : ¬ v.toUInt64 ≤ 0xFFFFFFFFFFFFFFFF - sum) :
      Next s (.totalled t sum) ((s.setCell i (.free v (k - 1))).setPc t .idle)
  /-- 219, 233: the loop is over -/
  | totalled {s : State} {t i : Nat} {sum : UInt64} (hpc : s.pcs[t]? = some (.total i sum))
      (hi : ¬ i < s.accts.length) :
      Next s (.totalled t sum) (s.setPc t .idle)

/-- `_new` (79-123), `new_api` (VerifiedEntry_t.rs 15-20) and `threads` threads that have not begun.
(`new` 59-62 uses 1000 accounts of 15, the test 240-281 ten threads.) -/
def start (n : Nat) (amount : UInt32) (threads : Nat) : State :=
  { accts := List.replicate n (.free amount 0), nextId := 0, pcs := List.replicate threads .idle }

def machine (n : Nat) (amount : UInt32) (threads : Nat) : Machine State Event where
  Init s := s = start n amount threads
  Step := Next

/-- The labels of the auditor's model among the events. -/
def Event.label : Event → Option Label
  | .accept _ r => some (.accept r)
  | .execute _ r p => some (.execute r p)
  | .deliver _ p => some (.deliver p)
  | _ => none

end Verif.Bank.Simple
