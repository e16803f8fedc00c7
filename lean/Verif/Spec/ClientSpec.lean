import Verif.Spec.MapSpec
/-
What a client of a crash-safe key-value store relies on, stated only in terms of the
sequence of events (labels) of an execution. Nothing here mentions versions, journals, LSNs
or any state of the machines; it is the independent specification for C01-C03, C05 and C30.
-/
namespace Verif.ClientSpec
open CTAM

/-- One executed put. -/
abbrev Put := Key × Value

/-- The value of the last put to `k` in `h`, or 0 when there is none. -/
def lookup (h : List Put) (k : Key) : Value :=
  h.foldl (fun acc p => if p.1 = k then p.2 else acc) 0

/-- The puts an event executes. -/
def putsOf : Label → List Put
  | .operate (.execute req _) =>
    match req.input with
    | .put k v => [(k, v)]
    | _ => []
  | _ => []

/-- No crash at positions `i < m < j` of the trace. -/
def NoCrashBetween (tr : List Label) (i j : Nat) : Prop :=
  ∀ m : Nat, i < m → m < j → tr[m]? ≠ some .crash

/-- `H` explains the trace: `H n` is the list of puts in effect after the first `n` events.
* it starts empty, every event other than a crash appends exactly the puts it executes
  (in execution order), and a crash may only drop a suffix;
* every executed query answers with the last put in effect;
* once a sync requested at position `i` has been acknowledged (with no crash in between),
  every put in effect at `i` stays in effect for ever, in the same order, at the front. -/
structure Explains (tr : List Label) (H : Nat → List Put) : Prop where
  start : H 0 = []
  step : ∀ (i : Nat) (l : Label), tr[i]? = some l → l ≠ .crash → H (i + 1) = H i ++ putsOf l
  crash : ∀ i : Nat, tr[i]? = some .crash → H (i + 1) <+: H i
  query : ∀ (i : Nat) (req : Request) (reply : Reply) (k : Key), tr[i]? = some (.operate (.execute req reply)) →
    req.input = .query k → reply.output = .query (lookup (H i) k)
  put : ∀ (i : Nat) (req : Request) (reply : Reply) (k : Key) (v : Value), tr[i]? = some (.operate (.execute req reply)) →
    req.input = .put k v → reply.output = .put
  durable : ∀ (i j : Nat) (id : SyncReqId), i < j → tr[i]? = some (.reqSync id) → tr[j]? = some (.replySync id) →
    NoCrashBetween tr i j → ∀ n, j ≤ n → n ≤ tr.length → H i <+: H n

/-- Requests and replies are matched: an executed request was requested before, since the
last crash, and not executed since; a delivered reply was produced by an execution since the
last crash with the same id and not delivered since. -/
structure Matched (tr : List Label) : Prop where
  executed : ∀ (j : Nat) (req : Request) (reply : Reply), tr[j]? = some (.operate (.execute req reply)) →
    req.id = reply.id ∧
    ∃ i : Nat, i < j ∧ tr[i]? = some (.operate (.request req)) ∧ NoCrashBetween tr i j ∧
      ∀ m : Nat, i < m → m < j → ∀ r, tr[m]? ≠ some (.operate (.execute req r))
  replied : ∀ (j : Nat) (reply : Reply), tr[j]? = some (.operate (.reply reply)) →
    ∃ (i : Nat) (req : Request), i < j ∧ tr[i]? = some (.operate (.execute req reply)) ∧ NoCrashBetween tr i j ∧
      ∀ m : Nat, i < m → m < j → tr[m]? ≠ some (.operate (.reply reply))
  synced : ∀ (j : Nat) (id : SyncReqId), tr[j]? = some (.replySync id) →
    ∃ i : Nat, i < j ∧ tr[i]? = some (.reqSync id) ∧ NoCrashBetween tr i j ∧
      ∀ m : Nat, i < m → m < j → tr[m]? ≠ some (.replySync id)

/-- The whole client contract for one trace. -/
def Good (tr : List Label) : Prop := (∃ H, Explains tr H) ∧ Matched tr

end Verif.ClientSpec
