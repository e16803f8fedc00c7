import Verif.Kv.BlockCache
/-
`BlockSystem` / `BetreeSystem` (BlockCacheSystem/BlockSystem.i.dfy, BetreeSystem.i.dfy): the block
cache attached to the block disk, with crashes.
-/
namespace Verif.Kv

/-- `G.Graph`, Betree/Graph.i.dfy:34: nodes by reference. -/
abbrev Graph (Node : Type) := PMap Ref Node

namespace BlockSystem
variable {Node : Type}
open BlockCache

/-- `DiskCacheGraph`, BlockSystem.i.dfy (`DiskCacheLookup`: where the table has a location, the
disk is looked at, otherwise the cache). With the empty cache this is `DiskGraph`. -/
def dcGraph (t : Table) (nodes : PMap Loc Node) (cache : PMap Ref Node) : Graph Node := fun r =>
  match t.graph r with
  | none => none
  | some _ => match t.locs r with
    | some l => nodes l
    | none => cache r

/-- `SuccessorsAgree`, BlockSystem.i.dfy: the references the table keeps for a node are those in
the node. -/
structure SuccAgree (A : App Node) (sg : PMap Ref (List Ref)) (g : Graph Node) : Prop where
  dom : ∀ r, sg r = none ↔ g r = none
  same : ∀ r ss n, sg r = some ss → g r = some n → SameSuccs A ss n

/-- `WFSuccs` and `DiskGraphOfLoc`, BlockSystem.i.dfy: the disk holds a complete image of the graph
`g` at `loc`. Stronger than the code's definition by `Distinct`, the check the block cache makes when
it loads the table (BlockCache.i.dfy:331). -/
def Image (A : App Node) (d : BlockDisk.State Node) (loc : Loc) (g : Graph Node) : Prop :=
  ValidTableLoc loc ∧ ∃ t, d.tables loc = some t ∧ WFComplete t ∧ Distinct t ∧
    g = dcGraph t d.nodes .empty ∧ SuccAgree A t.graph g

open Classical in
/-- `DiskGraphMap`, BlockSystem.i.dfy -/
noncomputable def diskMap (A : App Node) (d : BlockDisk.State Node) : PMap Loc (Graph Node) :=
  fun loc => if h : ∃ g, Image A d loc g then some (Classical.choose h) else none

/-- The whole system: `AsyncSectorDiskModelVariables`. -/
structure State (Node : Type) where
  m : BlockCache.State Node
  d : BlockDisk.State Node

/-- Labels: the VOp, and the step the cache took (`none` for a crash). -/
structure Label (Node : Type) where
  vop : VOp
  step : Option (BlockCache.Step Node)

/-- `Init`, BlockSystem.i.dfy: an empty machine and a disk with an image, at `loc`, of a graph with
just a root that refers to nothing. `ok` says which roots the application starts from (`BT.Init` in
`BetreeSystem.Init`). -/
def Init (A : App Node) (ok : Node → Prop) (loc : Loc) (s : State Node) : Prop :=
  s.m = .unready ∧ BlockDisk.Init s.d ∧
  ∃ n, Image A s.d loc (PMap.insert .empty rootRef n) ∧ ok n ∧ ∀ x, ¬ A.succs n x

/-- `Next`, BlockSystem.i.dfy: `Machine` and `Crash`. `Machine` carries the condition that a
location sent for loading holds an image (the journal side provides it). -/
inductive Next (A : App Node) : State Node → Label Node → State Node → Prop
  | machine {s : State Node} {dop vop step m' d'} :
      BlockCache.Next A s.m dop vop step m' → BlockDisk.Next s.d dop d' →
      (∀ l, vop = .sendPersistentLoc l → diskMap A s.d l ≠ none) →
      Next A s ⟨vop, some step⟩ ⟨m', d'⟩
  | crash {s : State Node} {d'} :
      BlockDisk.Crash s.d d' → Next A s ⟨.crash, none⟩ ⟨.unready, d'⟩

/-- The machine, started from a disk with an image at `loc`. -/
def machine (A : App Node) (ok : Node → Prop) (loc : Loc) :
    Machine (State Node) (Label Node) := ⟨Init A ok loc, Next A⟩

/-- `PersistentLoc`, BlockSystem.i.dfy -/
def persistentLoc (s : State Node) : Option Loc :=
  match s.m with
  | .ready r => some r.persistentLoc
  | .loading l _ => some l
  | .unready => none

/-- `FrozenLoc`, BlockSystem.i.dfy -/
def frozenLoc (s : State Node) : Option Loc :=
  match s.m with
  | .ready r => match r.tableWrite with
    | none => r.frozenLoc
    | some _ => none
  | _ => none

/-- `FrozenGraphOpt`, BlockSystem.i.dfy -/
def frozenGraph (s : State Node) : Option (Graph Node) :=
  match s.m with
  | .ready r => r.frozen.map (dcGraph · s.d.nodes r.cache)
  | _ => none

/-- `EphemeralGraphOpt`, BlockSystem.i.dfy -/
noncomputable def ephGraph (A : App Node) (s : State Node) : Option (Graph Node) :=
  match s.m with
  | .ready r => some (dcGraph r.eph s.d.nodes r.cache)
  | .loading l _ => diskMap A s.d l
  | .unready => none

end BlockSystem
end Verif.Kv
