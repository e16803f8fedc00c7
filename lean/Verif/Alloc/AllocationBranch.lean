import Verif.Alloc.MiniAllocator
import Verif.Betree.LinkedBranch
/-
Model of Splinter/src/allocation_layer/AllocationBranch_v.rs: building a B+tree branch page by page
out of allocation units, and sealing it with a summary of the units it occupies.

The events of the code never grow a tree (`BuildEvent` 45-52 has no such case although
`LinkedBranch::grow` exists). The machine below therefore has a switch `w`: with `w := False` it is
the code as written, with `w := True` it has in addition the missing event, which takes a page and
calls `LinkedBranch::grow`. Theorems about every `w` cover both.
-/
namespace Verif.ABr
open Verif

/-- AllocationBranch_v.rs 24: the units occupied by a branch -/
abbrev Summary := PSet Nat

/-- AllocationBranch_v.rs 25 -/
abbrev BranchNode := LBr.Node Summary

/-- MiniAllocator_v.rs 224-227 `reserved_aus` -/
def reservedAus (m : MiniAlloc) : PSet Nat := fun au => ∃ p, m.allocs au = some p ∧ ¬ p.noRefs

/-- MiniAllocator_v.rs 234-237 `all_aus` -/
def allAus (m : MiniAlloc) : PSet Nat := fun au => m.allocs.Has au

/-- AllocationBranch_v.rs 45-52 -/
inductive BuildEvent where
  | initLeaf (addr : Address) (keys : List Key) (msgs : List Message)
  | append (keys : List Key) (msgs : List Message) (path : LBr.Path Summary)
  | split (addr : Address) (path : LBr.Path Summary) (arg : SplitArg)
  | allocFill
  | sealUp (aux : Pointer)

/-- AllocationBranch_v.rs 54-58 -/
structure AllocBranch where
  isSealed : Bool
  branch : Option (LBr.Branch Summary)
  mini : MiniAlloc

/-- AllocationBranch_v.rs 362-371 `get_summary`; a root without a readable summary page (arbitrary
in Rust) gives no units -/
def getSummary (b : LBr.Branch Summary) : Summary :=
  match b.node with
  | .index _ _ (some p) =>
    match b.disk p with
    | some (.auxiliary s) => s
    | _ => fun _ => False
  | .index _ _ none => fun _ => False
  | _ => fun au => au = b.root.au

/-- AllocationBranch_v.rs 373-386 `seal`: the summary page is written at `addr` and the root points
to it -/
def sealWith (b : LBr.Branch Summary) (addr : Address) (s : Summary) : LBr.Branch Summary :=
  ⟨b.root, (b.disk.modify addr (.auxiliary s)).modify b.root
    (.index b.node.pivots b.node.children (some addr))⟩

/-- AllocationBranch_v.rs 388-396 -/
def SealedRoot (b : LBr.Branch Summary) : Prop :=
  b.HasRoot ∧ ∀ ps cs x, b.node = .index ps cs x →
    ∃ p s, x = some p ∧ b.disk p = some (.auxiliary s)

/-- AllocationBranch_v.rs 398-405 `full_repr` -/
def FullRepr (b : LBr.Branch Summary) (a : Address) : Prop :=
  LBr.Reach b.disk b.root a ∨ ∃ ps cs, b.node = .index ps cs (some a)

/-- AllocationBranch_v.rs 407-410 -/
def TightWithSummary (b : LBr.Branch Summary) : Prop := ∀ a, b.disk.Has a ↔ FullRepr b a

/-- AllocationBranch_v.rs 412-419, with Likes_v.rs `addrs_closed` (every address lies in the units)
and `restrict_domain_au` (the entries lying in the units) -/
def ValidSealedBranch (b : LBr.Branch Summary) : Prop :=
  b.Inv ∧ SealedRoot b ∧ (∀ a, FullRepr b a → getSummary b a.au) ∧
  ∀ a, (b.disk.Has a ∧ getSummary b a.au) ↔ FullRepr b a

namespace AllocBranch

/-- AllocationBranch_v.rs 61-67 -/
noncomputable def new (free : PSet Nat) : AllocBranch := ⟨false, none, MiniAlloc.empty.addAus free⟩

/-- AllocationBranch_v.rs 69-78 -/
def CanInitialize (g : Geometry) (s : AllocBranch) (addr : Address) (ks : List Key)
    (ms : List Message) : Prop :=
  s.isSealed = false ∧ (∀ au, ¬ reservedAus s.mini au) ∧ s.mini.canAllocate g addr ∧
  0 < ks.length ∧ ks.length = ms.length ∧ KeyT.StrictlySorted ks

/-- AllocationBranch_v.rs 80-94 -/
noncomputable def initBranch (g : Geometry) (s : AllocBranch) (addr : Address) (ks : List Key)
    (ms : List Message) : AllocBranch :=
  { s with
    branch := some ⟨addr, PMap.empty.insert addr (.leaf ks ms)⟩
    mini := s.mini.allocate g addr }

/-- AllocationBranch_v.rs 103-108 -/
def CanAppend (s : AllocBranch) (b : LBr.Branch Summary) (ks : List Key) (ms : List Message)
    (p : LBr.Path Summary) : Prop :=
  s.isSealed = false ∧ s.branch = some b ∧ b.CanAppend ks ms p

/-- AllocationBranch_v.rs 110-118 -/
def append (s : AllocBranch) (b : LBr.Branch Summary) (ks : List Key) (ms : List Message)
    (p : LBr.Path Summary) : AllocBranch :=
  { s with branch := some (b.append ks ms p) }

/-- AllocationBranch_v.rs 120-126 -/
def CanSplit (g : Geometry) (s : AllocBranch) (b : LBr.Branch Summary) (addr : Address)
    (p : LBr.Path Summary) (a : SplitArg) : Prop :=
  s.isSealed = false ∧ s.branch = some b ∧ s.mini.canAllocate g addr ∧ b.CanSplit addr p a

/-- AllocationBranch_v.rs 128-137 -/
noncomputable def split (g : Geometry) (s : AllocBranch) (b : LBr.Branch Summary) (addr : Address)
    (p : LBr.Path Summary) (a : SplitArg) : AllocBranch :=
  { s with branch := some (b.split addr p a), mini := s.mini.allocate g addr }

/-- AllocationBranch_v.rs 139-143 -/
def CanFill (s : AllocBranch) (aus : PSet Nat) : Prop :=
  s.isSealed = false ∧ ∀ au, s.mini.allocs.Has au → ¬ aus au

/-- AllocationBranch_v.rs 145-153 -/
noncomputable def fill (s : AllocBranch) (aus : PSet Nat) : AllocBranch :=
  { s with mini := s.mini.addAus aus }

/-- AllocationBranch_v.rs 155-167, with MiniAllocator_v.rs 229-232 `removable_aus` -/
def CanSeal (g : Geometry) (s : AllocBranch) (b : LBr.Branch Summary) (ptr : Pointer)
    (dealloc : PSet Nat) : Prop :=
  s.isSealed = false ∧ s.branch = some b ∧ (ptr.isSome ↔ b.node.IsIndex) ∧
  (∀ p, ptr = some p → s.mini.canAllocate g p ∧ ¬ dealloc p.au) ∧
  ∀ au, s.mini.canRemove au ↔ dealloc au

/-- AllocationBranch_v.rs 171-191 -/
noncomputable def sealBranch (g : Geometry) (s : AllocBranch) (b : LBr.Branch Summary) (ptr : Pointer)
    (dealloc : PSet Nat) : AllocBranch :=
  match ptr with
  | some p => ⟨true, some (sealWith b p (reservedAus s.mini)), (s.mini.allocate g p).prune dealloc⟩
  | none => { s with isSealed := true, mini := s.mini.prune dealloc }

/-- Not in AllocationBranch_v.rs: the condition of a growth event, in the style of `can_split`
120-126, with LinkedBranch_v.rs 281-285. -/
def CanGrow (g : Geometry) (s : AllocBranch) (b : LBr.Branch Summary) (addr : Address) : Prop :=
  s.isSealed = false ∧ s.branch = some b ∧ s.mini.canAllocate g addr ∧ b.CanGrow addr

/-- Not in AllocationBranch_v.rs: the effect of a growth event, in the style of `branch_split`
128-137, with LinkedBranch_v.rs 287-293. -/
noncomputable def grow (g : Geometry) (s : AllocBranch) (b : LBr.Branch Summary) (addr : Address) :
    AllocBranch :=
  { s with branch := some (b.grow addr), mini := s.mini.allocate g addr }

/-- AllocationBranch_v.rs 245-250 `addrs_closed_under_mini_allocator` -/
def AddrsClosed (s : AllocBranch) (b : LBr.Branch Summary) : Prop :=
  ∀ a, b.disk.Has a ↔ s.mini.pageIsReserved a

/-- AllocationBranch_v.rs 423-440 -/
def Inv (g : Geometry) (s : AllocBranch) : Prop :=
  s.mini.wf g ∧ (s.isSealed = true → s.branch.isSome) ∧
  ∀ b, s.branch = some b →
    (s.isSealed = true → ValidSealedBranch b ∧ TightWithSummary b ∧
      ∀ au, getSummary b au ↔ allAus s.mini au) ∧
    (s.isSealed = false → b.Inv ∧ s.AddrsClosed b ∧ b.Tight)

end AllocBranch

/-- AllocationBranch_v.rs 193-230 `build_next`, with the units taken and given back -/
inductive BuildNext (g : Geometry) :
    AllocBranch → BuildEvent → PSet Nat → PSet Nat → AllocBranch → Prop
  | initLeaf {s : AllocBranch} {addr ks ms allocs deallocs} (ha : ∀ au, ¬ allocs au)
      (hd : ∀ au, ¬ deallocs au) (h : s.CanInitialize g addr ks ms) :
      BuildNext g s (.initLeaf addr ks ms) allocs deallocs (s.initBranch g addr ks ms)
  | append {s : AllocBranch} {b ks ms p allocs deallocs} (ha : ∀ au, ¬ allocs au)
      (hd : ∀ au, ¬ deallocs au) (h : s.CanAppend b ks ms p) :
      BuildNext g s (.append ks ms p) allocs deallocs (s.append b ks ms p)
  | split {s : AllocBranch} {b addr p a allocs deallocs} (ha : ∀ au, ¬ allocs au)
      (hd : ∀ au, ¬ deallocs au) (h : s.CanSplit g b addr p a) :
      BuildNext g s (.split addr p a) allocs deallocs (s.split g b addr p a)
  | allocFill {s : AllocBranch} {allocs deallocs} (hd : ∀ au, ¬ deallocs au)
      (h : s.CanFill allocs) : BuildNext g s .allocFill allocs deallocs (s.fill allocs)
  | sealUp {s : AllocBranch} {b ptr allocs deallocs} (ha : ∀ au, ¬ allocs au)
      (h : s.CanSeal g b ptr deallocs) :
      BuildNext g s (.sealUp ptr) allocs deallocs (s.sealBranch g b ptr deallocs)

/-- What happens to a branch: an event of the code, or a growth -/
inductive Act where
  | build (e : BuildEvent) (allocs deallocs : PSet Nat)
  | grow (a : Address)

/-- The steps: those of the code and, when `w`, growth. -/
inductive Next (g : Geometry) (w : Prop) : AllocBranch → Act → AllocBranch → Prop
  | build {s e allocs deallocs s'} (h : BuildNext g s e allocs deallocs s') :
      Next g w s (.build e allocs deallocs) s'
  | grow {s : AllocBranch} {b a} (hw : w) (h : s.CanGrow g b a) :
      Next g w s (.grow a) (s.grow g b a)

/-- A branch begun with the units `free` (AllocationBranchBetree_v.rs 219-226 `branch_begin`). -/
noncomputable def machine (g : Geometry) (w : Prop) (free : PSet Nat) : Machine AllocBranch Act :=
  ⟨fun s => s = AllocBranch.new free, Next g w⟩

/-- AllocationBranch_v.rs 29-32 `linked_contains` of a branch -/
def LinkedContains (b : LBr.Branch Summary) (k : Key) : Prop := b.query k = .nop

/-! ### Bookkeeping by hand (no code is modelled here) -/

/-- the page an action takes -/
def Act.page : Act → List Address
  | .build (.initLeaf a _ _) _ _ => [a]
  | .build (.split a _ _) _ _ => [a]
  | .build (.sealUp (some a)) _ _ => [a]
  | .grow a => [a]
  | _ => []

/-- the pages taken in a history -/
def taken (tr : List Act) : List Address := tr.flatMap Act.page

/-- the units held after an action, given those held before -/
def Act.hold (s : PSet Nat) : Act → PSet Nat
  | .build _ allocs deallocs => fun au => (s au ∨ allocs au) ∧ ¬ deallocs au
  | .grow _ => s

/-- the units held after a history that began with `free` -/
def held (free : PSet Nat) (tr : List Act) : PSet Nat := tr.foldl Act.hold free

/-- the keys and messages an action writes -/
def Act.entries : Act → List (Key × Message)
  | .build (.initLeaf _ ks ms) _ _ => ks.zip ms
  | .build (.append ks ms _) _ _ => ks.zip ms
  | _ => []

/-- what was written in a history, the last message for a key -/
def written (tr : List Act) : PMap Key Message :=
  tr.foldl (fun f a => f.unionRight fun k => a.entries.lookup k) PMap.empty

/-- whether a seal occurred -/
def Act.isSeal : Act → Prop
  | .build (.sealUp _) _ _ => True
  | _ => False

end Verif.ABr
