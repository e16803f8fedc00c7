import Verif.Kv.StatesView
/-
`MapSpec` (MapSpec/MapSpec.s.dfy), the trusted description of what a user sees of VeriBetrKV while it
runs: a map from all keys to values, with range queries and prefix clones.
-/
namespace Verif.Kv.MapSpec

/-- `View`, MapSpec.s.dfy:24. Complete by construction (`ViewComplete`, `WF`, :27-35). -/
abbrev View := Key → Value

/-- `SeqComparison.lte`, lib/Lang/System/SeqComparison.s.dfy:14-28 -/
def lte : List UInt8 → List UInt8 → Bool
  | [], _ => true
  | _ :: _, [] => false
  | a :: as, b :: bs => if a < b then true else if b < a then false else lte as bs

/-- `SeqComparison.lt`, lib/Lang/System/SeqComparison.s.dfy:30-33 -/
def lt (a b : List UInt8) : Prop := lte a b ∧ a ≠ b

/-- `LowerBound`, MapSpec.s.dfy:65-69 -/
def LowerBound (start : RangeStart) (key : Key) : Prop :=
  match start with
  | .incl k => lte k key
  | .excl k => lt k key
  | .negInf => True

/-- `UpperBound`, MapSpec.s.dfy:71-75 -/
def UpperBound (key : Key) (stop : RangeEnd) : Prop :=
  match stop with
  | .incl k => lte key k
  | .excl k => lt key k
  | .posInf => True

/-- `InRange`, MapSpec.s.dfy:77-81 -/
def InRange (start : RangeStart) (key : Key) (stop : RangeEnd) : Prop :=
  LowerBound start key ∧ UpperBound key stop

/-- `NonEmptyRange`, MapSpec.s.dfy:83-89 -/
def NonEmptyRange : RangeStart → RangeEnd → Prop
  | .negInf, _ => True
  | _, .posInf => True
  | .incl a, .incl b => lte a b
  | .incl a, .excl b => lt a b
  | .excl a, .incl b => lt a b
  | .excl a, .excl b => lt a b

/-- `KeyHasPrefix`, MapSpec.s.dfy:127-131 -/
def KeyHasPrefix (key pre : Key) : Bool := pre.length ≤ key.length ∧ key.take pre.length = pre

/-- `CloneMap` (MapSpec.s.dfy:141-145) over `fromkey` (:133-138). The `assume` about the length of keys
is left out. -/
def cloneMap (src dst k : Key) : Option Key :=
  if KeyHasPrefix k dst then some (src ++ k.drop dst.length) else none

/-- `CloneView`, MapSpec.s.dfy:115-119 -/
def cloneView (view : View) (newToOld : Key → Option Key) : View := fun k =>
  match newToOld k with
  | some k' => view k'
  | none => view k

/-- `NextStep`, MapSpec.s.dfy:57-113, 157-191, one constructor per step -/
inductive Next : View → UIOp → View → Prop
  /-- `Query`, :57-63 -/
  | query {s : View} {k v} : v = s k → Next s (.get k v) s
  /-- `Succ`, :91-104 -/
  | succ {s : View} {start stop} {rs : List (Key × Value)} : NonEmptyRange start stop →
      (∀ i (h : i < rs.length), s rs[i].1 = rs[i].2) →
      (∀ i (h : i < rs.length), rs[i].2 ≠ []) →
      (∀ i (h : i < rs.length), InRange start rs[i].1 stop) →
      (∀ i j (hi : i < rs.length) (hj : j < rs.length), i < j → lt rs[i].1 rs[j].1) →
      (∀ k, InRange start k stop → s k ≠ [] → ∃ i, ∃ h : i < rs.length, rs[i].1 = k) →
      Next s (.succ start rs stop) s
  /-- `Write`, :106-113 -/
  | write {s : View} {k v} : Next s (.put k v) (fun x => if x = k then v else s x)
  /-- `Clone`, :157-164 -/
  | clone {s : View} {a b} : Next s (.clone a b) (cloneView s (cloneMap a b))
  /-- `Stutter`, :166-170 -/
  | stutter {s : View} : Next s .noop s

/-- The map as a user-level machine: `Init` is MapSpec.s.dfy:50-54 with `EmptyMap` (:44-48). -/
def sm : SM View := ⟨fun s => s = fun _ => [], Next⟩

end Verif.Kv.MapSpec
