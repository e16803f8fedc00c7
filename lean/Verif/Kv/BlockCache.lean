import Verif.Kv.BlockDisk
import Verif.Kv.StatesView
/-
`BlockCache` (BlockCacheSystem/BlockCache.i.dfy), the in-memory half of the copy-on-write block
store, and `BetreeCache` (BlockCacheSystem/BetreeCache.i.dfy), which runs an application's
transactions on it. The application (in the repository the betree, PivotBetreeSpec) is a parameter.
-/
namespace Verif.Kv

/-- `Op`, Betree/Graph.i.dfy:37-39 -/
inductive GOp (Node : Type)
  | alloc (ref : Ref) (n : Node)
  | write (ref : Ref) (n : Node)

/-- What the block store needs to know about its application: the references in a node
(`Successors`, Betree/Graph.i.dfy:32), the check made on a node read from disk (`WFNode`,
BetreeCache.i.dfy `BlockCacheMove`) and which transactions serve which user operation
(`ValidBetreeStep`, `BetreeStepReads`, `BetreeStepOps`, `BetreeStepUI`, used by `BetreeMove`). -/
structure App (Node : Type) where
  succs : Node → Ref → Prop
  wf : Node → Prop
  valid : UIOp → List (Ref × Node) → List (GOp Node) → Prop

namespace BlockCache
variable {Node : Type}

/-- `Ready`, BlockCache.i.dfy:43-56. An outstanding write is a pair of reference and location
(`OutstandingWrite`, :39), an outstanding read a reference (`OutstandingRead`, :40). -/
structure Ready (Node : Type) where
  persistent : Table
  frozen : Option Table
  eph : Table
  persistentLoc : Loc
  frozenLoc : Option Loc
  tableWrite : Option ReqId
  writes : PMap ReqId (Ref × Loc)
  reads : PMap ReqId Ref
  cache : PMap Ref Node

/-- `Variables`, BlockCache.i.dfy:42-63 -/
inductive State (Node : Type)
  | ready (r : Ready Node)
  | loading (loc : Loc) (read : Option ReqId)
  | unready

/-- `GraphClosed`, BlockCache.i.dfy:95-100 -/
def GraphClosed (g : PMap Ref (List Ref)) : Prop :=
  ∀ r ss, g r = some ss → ∀ x ∈ ss, g x ≠ none

/-- `WFIndirectionTable`, BlockCache.i.dfy:112-118 -/
structure WFTable (t : Table) : Prop where
  valid : ∀ r l, t.locs r = some l → ValidNodeLoc l
  sub : ∀ r l, t.locs r = some l → t.graph r ≠ none
  root : t.graph rootRef ≠ none
  closed : GraphClosed t.graph

/-- `WFCompleteIndirectionTable`, BlockCache.i.dfy:103-109 -/
structure WFComplete (t : Table) : Prop extends WFTable t where
  complete : ∀ r, t.graph r ≠ none → t.locs r ≠ none

/-- `AllLocationsForDifferentRefsDontOverlap`, BlockCache.i.dfy:579-591 -/
def Distinct (t : Table) : Prop :=
  ∀ r r' l l', t.locs r = some l → t.locs r' = some l' → l.addr = l'.addr → r = r'

/-- `ValidAllocation`, BlockCache.i.dfy:120-132 -/
structure ValidAllocation (r : Ready Node) (loc : Loc) : Prop where
  persistent : ∀ ref l, r.persistent.locs ref = some l → l.addr ≠ loc.addr
  eph : ∀ ref l, r.eph.locs ref = some l → l.addr ≠ loc.addr
  frozen : ∀ t, r.frozen = some t → ∀ ref l, t.locs ref = some l → l.addr ≠ loc.addr
  writes : ∀ id ref l, r.writes id = some (ref, l) → l.addr ≠ loc.addr

/-- `assignRefToLocation`, BlockCache.i.dfy:151-157 -/
def assign (t : Table) (ref : Ref) (loc : Loc) : Table :=
  if t.graph ref ≠ none ∧ t.locs ref = none then { t with locs := t.locs.insert ref loc } else t

/-- The part of the guards of `Dirty` (BlockCache.i.dfy:449), `Unalloc` (:262) and `Evict`
(:371-372) that protects the frozen table: a node that only the cache holds for it must stay. -/
def FrozenSafe (r : Ready Node) (ref : Ref) : Prop :=
  ∀ t, r.frozen = some t → t.graph ref ≠ none → t.locs ref ≠ none

/-- The list of references stored for a node lists exactly its successors
(`(iset r | r in graph[ref]) == G.Successors(block)`, BlockCache.i.dfy:306, :453, :481). -/
def SameSuccs (A : App Node) (ss : List Ref) (n : Node) : Prop := ∀ x, x ∈ ss ↔ A.succs n x

/-- `OpStep` (BlockCache.i.dfy:497-503): `Dirty` (:435-462) and `Alloc` (:464-490). -/
inductive OpStep (A : App Node) : Ready Node → GOp Node → Ready Node → Prop
  | dirty {r : Ready Node} {ref n ss} :
      r.cache ref ≠ none → r.eph.graph ref ≠ none →
      (∀ x, A.succs n x → r.eph.graph x ≠ none) →
      FrozenSafe r ref → SameSuccs A ss n →
      OpStep A r (.write ref n) { r with
        cache := r.cache.insert ref n
        eph := ⟨r.eph.locs.remove ref, r.eph.graph.insert ref ss⟩ }
  | alloc {r : Ready Node} {ref n ss} :
      r.cache ref = none → r.eph.graph ref = none →
      (∀ x, A.succs n x → r.eph.graph x ≠ none) →
      SameSuccs A ss n →
      OpStep A r (.alloc ref n) { r with
        cache := r.cache.insert ref n
        eph := ⟨r.eph.locs, r.eph.graph.insert ref ss⟩ }

/-- `OpTransaction`/`IsStatePath`, Betree/Transactable.i.dfy:43-49: the operations one after the
other. -/
inductive Ops {σ : Type} (step : σ → GOp Node → σ → Prop) : σ → List (GOp Node) → σ → Prop
  | nil {s} : Ops step s [] s
  | cons {s op s' ops s''} : step s op s' → Ops step s' ops s'' → Ops step s (op :: ops) s''

/-- `Step` of BetreeCache (`BetreeMoveStep`, BetreeCache.i.dfy) and of BlockCache
(BlockCache.i.dfy:134-149); a transaction carries what it read. -/
inductive Step (Node : Type)
  | writeBackNodeReq (ref : Ref)
  | writeBackNodeResp
  | writeBackTableReq
  | writeBackTableResp
  | unalloc (ref : Ref)
  | pageInNodeReq (ref : Ref)
  | pageInNodeResp
  | pageInTableReq
  | pageInTableResp
  | receiveLoc
  | evict (ref : Ref)
  | freeze
  | cleanUp
  | noop
  | transaction (reads : List (Ref × Node)) (ops : List (GOp Node))

/-- `NextStep` of BetreeCache (`BetreeMove`, `BlockCacheMove`) over `NextStep` of BlockCache
(BlockCache.i.dfy:164-426, 505-536), one constructor per step. -/
inductive Next (A : App Node) :
    State Node → BlockDisk.Op Node → VOp → Step Node → State Node → Prop
  /-- `WriteBackNodeReq`, :164-194 -/
  | writeBackNodeReq {r : Ready Node} {id loc n ref} :
      r.cache ref = some n → ValidNodeLoc loc → r.tableWrite = none → ValidAllocation r loc →
      Next A (.ready r) (.reqWriteNode id loc n) .statesInternal (.writeBackNodeReq ref)
        (.ready { r with
          eph := assign r.eph ref loc
          frozen := r.frozen.map (assign · ref loc)
          writes := r.writes.insert id (ref, loc) })
  /-- `WriteBackNodeResp`, :196-204 -/
  | writeBackNodeResp {r : Ready Node} {id} : r.writes id ≠ none →
      Next A (.ready r) (.respWriteNode id) .statesInternal .writeBackNodeResp
        (.ready { r with writes := r.writes.remove id })
  /-- `WriteBackIndirectionTableReq`, :206-229 -/
  | writeBackTableReq {r : Ready Node} {id loc t} :
      r.frozen = some t → ValidTableLoc loc → (∀ x, t.graph x ≠ none → t.locs x ≠ none) →
      r.writes = .empty → r.frozenLoc = none → ¬ overlap loc r.persistentLoc →
      Next A (.ready r) (.reqWriteTable id loc t) .statesInternal .writeBackTableReq
        (.ready { r with tableWrite := some id, frozenLoc := some loc })
  /-- `WriteBackIndirectionTableResp`, :231-241 -/
  | writeBackTableResp {r : Ready Node} {id loc} :
      r.frozenLoc = some loc → r.tableWrite = some id →
      Next A (.ready r) (.respWriteTable id) (.sendFrozenLoc loc) .writeBackTableResp
        (.ready { r with tableWrite := none })
  /-- `Unalloc`, :248-278 -/
  | unalloc {r : Ready Node} {b ref} :
      r.eph.graph ref ≠ none → ref ≠ rootRef →
      (∀ x ss, r.eph.graph x = some ss → ref ∉ ss) → FrozenSafe r ref →
      (∀ id x, r.reads id = some x → x ≠ ref) →
      Next A (.ready r) .none (.advance .noop b) (.unalloc ref)
        (.ready { r with
          eph := ⟨r.eph.locs.remove ref, r.eph.graph.remove ref⟩
          cache := r.cache.remove ref })
  /-- `PageInNodeReq`, :280-292 -/
  | pageInNodeReq {r : Ready Node} {id loc ref} :
      r.eph.graph ref ≠ none → r.eph.locs ref = some loc → r.cache ref = none →
      (∀ i x, r.reads i = some x → x ≠ ref) →
      Next A (.ready r) (.reqReadNode id loc) .statesInternal (.pageInNodeReq ref)
        (.ready { r with reads := r.reads.insert id ref })
  /-- `PageInNodeResp`, :294-309, with the check of `BlockCacheMove` -/
  | pageInNodeResp {r : Ready Node} {id ref n ss} :
      r.reads id = some ref → r.cache ref = none → r.eph.graph ref = some ss →
      SameSuccs A ss n → A.wf n →
      Next A (.ready r) (.respReadNode id (some n)) .statesInternal .pageInNodeResp
        (.ready { r with cache := r.cache.insert ref n, reads := r.reads.remove id })
  /-- `PageInIndirectionTableReq`, :311-321 -/
  | pageInTableReq {id loc} :
      Next A (.loading loc none) (.reqReadTable id loc) .statesInternal .pageInTableReq
        (.loading loc (some id))
  /-- `PageInIndirectionTableResp`, :323-345 -/
  | pageInTableResp {id loc t} : WFComplete t → Distinct t →
      Next A (.loading loc (some id)) (.respReadTable id (some t)) .statesInternal .pageInTableResp
        (.ready ⟨t, none, t, loc, none, none, .empty, .empty, .empty⟩)
  /-- `ReceiveLoc`, :347-358 -/
  | receiveLoc {loc} : ValidTableLoc loc →
      Next A .unready .none (.sendPersistentLoc loc) .receiveLoc (.loading loc none)
  /-- `Evict`, :360-374 -/
  | evict {r : Ready Node} {ref} : r.cache ref ≠ none →
      (r.eph.graph ref ≠ none → ∃ l, r.eph.locs ref = some l ∧
        ∀ id, r.writes id ≠ some (ref, l)) →
      FrozenSafe r ref →
      Next A (.ready r) .none .statesInternal (.evict ref)
        (.ready { r with cache := r.cache.remove ref })
  /-- `Freeze`, :376-386 -/
  | freeze {r : Ready Node} : r.tableWrite = none →
      Next A (.ready r) .none .freeze .freeze
        (.ready { r with frozen := some r.eph, frozenLoc := none })
  /-- `CleanUp`, :388-401 -/
  | cleanUp {r : Ready Node} {l t} :
      r.tableWrite = none → r.frozenLoc = some l → r.frozen = some t →
      Next A (.ready r) .none .cleanUp .cleanUp
        (.ready { r with persistent := t, persistentLoc := l, frozen := none, frozenLoc := none })
  /-- `NoOp`, :403-426: nothing happens, or an answer of the disk that is of no use is dropped. -/
  | noop {s : State Node} {dop vop} :
      (vop = .statesInternal ∨ vop = .journalInternal ∨ (∃ i, vop = .pushSync i) ∨
        (∃ i, vop = .popSync i)) →
      (dop = .none ∨ (∃ id t, dop = .respReadTable id t) ∨
        (∃ id n, dop = .respReadNode id n ∧ ∀ x, n = some x → A.wf x) ∨
        (∃ id, dop = .respWriteTable id ∧ ∀ r, s = .ready r → r.tableWrite ≠ some id) ∨
        (∃ id, dop = .respWriteNode id ∧ ∀ r, s = .ready r → r.writes id = none)) →
      Next A s dop vop .noop s
  /-- `BetreeMove` of BetreeCache over `Transaction`, :505-511 -/
  | transaction {r r' : Ready Node} {u b reads ops} :
      A.valid u reads ops →
      (∀ x n, (x, n) ∈ reads → r.eph.graph x ≠ none ∧ r.cache x = some n) →
      Ops (OpStep A) r ops r' →
      Next A (.ready r) .none (.advance u b) (.transaction reads ops) (.ready r')

end BlockCache
end Verif.Kv
