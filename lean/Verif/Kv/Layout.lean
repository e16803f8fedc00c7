/-
Where things live on the disk of VeriBetrKV (the Dafny system of the repository).
Models PivotBetree/Bounds.i.dfy and BlockCacheSystem/DiskLayout.i.dfy.
Simplification: `uint64` addresses and lengths are natural numbers. The predicates below only
compare them, so every `uint64` location is a location of the model.
-/
namespace Verif.Kv

/-- `NodeBlockSizeUint64`, PivotBetree/Bounds.i.dfy:16 -/
def nodeBlockSize : Nat := 2 * 1024 * 1024
/-- `SuperblockSizeUint64`, PivotBetree/Bounds.i.dfy:40 -/
def superblockSize : Nat := 4096
/-- `JournalBlockSizeUint64`, PivotBetree/Bounds.i.dfy:42 -/
def journalBlockSize : Nat := 4096
/-- `DiskNumJournalBlocksUint64` (PivotBetree/Bounds.i.dfy:43), `NumJournalBlocks`
(DiskLayout.i.dfy:18-20) -/
def numJournalBlocks : Nat := 64 * 1024
/-- `IndirectionTableBlockSizeUint64` (PivotBetree/Bounds.i.dfy:45), `IndirectionTableMaxLength`
(DiskLayout.i.dfy:22-24) -/
def tableMaxLength : Nat := 24 * 1024 * 1024
/-- `MinNodeBlockIndexUint64`, PivotBetree/Bounds.i.dfy:20-27 -/
def minNodeBlockIndex : Nat :=
  (2 * superblockSize + numJournalBlocks * journalBlockSize + 2 * tableMaxLength
    + nodeBlockSize - 1) / nodeBlockSize

/-- `Location`, DiskLayout.i.dfy:14 -/
structure Loc where
  addr : Nat
  len : Nat
deriving DecidableEq, Repr

/-- `IndirectionTable1Addr`, DiskLayout.i.dfy:26-28 -/
def table1Addr : Nat := 2 * 4096 + numJournalBlocks * 4096
/-- `IndirectionTable2Addr`, DiskLayout.i.dfy:30-32 -/
def table2Addr : Nat := table1Addr + tableMaxLength
/-- `JournalStartAddr`, DiskLayout.i.dfy:34-37 -/
def journalStartAddr : Nat := 2 * 4096
/-- `JournalPoint`, DiskLayout.i.dfy:44-48 -/
def journalPoint (p : Nat) : Nat := journalStartAddr + p * 4096

/-- `ValidIndirectionTableAddr`, DiskLayout.i.dfy:52-57 -/
def ValidTableAddr (a : Nat) : Prop := a = table1Addr ∨ a = table2Addr
/-- `ValidNodeAddr`, DiskLayout.i.dfy:59-64 -/
def ValidNodeAddr (a : Nat) : Prop :=
  a % nodeBlockSize = 0 ∧ nodeBlockSize * minNodeBlockIndex ≤ a
/-- `ValidJournalLocation`, DiskLayout.i.dfy:66-75 -/
def ValidJournalLoc (l : Loc) : Prop :=
  l.addr % 4096 = 0 ∧ l.len % 4096 = 0 ∧ 2 * 4096 ≤ l.addr ∧
  (l.addr - 2 * 4096) / 4096 < numJournalBlocks ∧
  l.addr + l.len ≤ (2 + numJournalBlocks) * 4096
/-- `ValidIndirectionTableLocation`, DiskLayout.i.dfy:86-94 -/
def ValidTableLoc (l : Loc) : Prop := ValidTableAddr l.addr ∧ 0 < l.len ∧ l.len ≤ tableMaxLength
/-- `ValidNodeLocation`, DiskLayout.i.dfy:104-113 -/
def ValidNodeLoc (l : Loc) : Prop := ValidNodeAddr l.addr ∧ l.len ≤ nodeBlockSize
/-- `Superblock1Location`, DiskLayout.i.dfy:115-124 -/
def superblock1Loc : Loc := ⟨0, 4096⟩
/-- `Superblock2Location`, DiskLayout.i.dfy:126-135 -/
def superblock2Loc : Loc := ⟨4096, 4096⟩
/-- `ValidLocation`, DiskLayout.i.dfy:168-175 -/
def ValidLoc (l : Loc) : Prop :=
  l = superblock1Loc ∨ l = superblock2Loc ∨ ValidJournalLoc l ∨ ValidTableLoc l ∨ ValidNodeLoc l

/-- `overlap`, DiskLayout.i.dfy:188-191 -/
def overlap (a b : Loc) : Prop := b.addr < a.addr + a.len ∧ a.addr < b.addr + b.len

instance (a b : Loc) : Decidable (overlap a b) := inferInstanceAs (Decidable (_ ∧ _))

theorem overlap_symm {a b : Loc} (h : overlap a b) : overlap b a := ⟨h.2, h.1⟩

/-- `overlappingNodesSameAddr`, DiskLayout.i.dfy:217-224 -/
theorem node_overlap_addr {a b : Loc} (ha : ValidNodeLoc a) (hb : ValidNodeLoc b)
    (h : overlap a b) : a.addr = b.addr := by
  obtain ⟨⟨ha1, ha2⟩, ha3⟩ := ha
  obtain ⟨⟨hb1, hb2⟩, hb3⟩ := hb
  obtain ⟨h1, h2⟩ := h
  unfold nodeBlockSize at *
  omega

/-- `overlappingIndirectionTablesSameAddr`, DiskLayout.i.dfy:226-232 -/
theorem table_overlap_addr {a b : Loc} (ha : ValidTableLoc a) (hb : ValidTableLoc b)
    (h : overlap a b) : a.addr = b.addr := by
  obtain ⟨ha1, ha2, ha3⟩ := ha
  obtain ⟨hb1, hb2, hb3⟩ := hb
  obtain ⟨h1, h2⟩ := h
  unfold ValidTableAddr table2Addr at *
  omega

theorem table_node_disjoint {a b : Loc} (ha : ValidTableLoc a) (hb : ValidNodeLoc b) :
    ¬ overlap a b := by
  obtain ⟨ha1, ha2, ha3⟩ := ha
  obtain ⟨⟨hb1, hb2⟩, hb3⟩ := hb
  rintro ⟨h1, h2⟩
  unfold ValidTableAddr table2Addr table1Addr at ha1
  unfold nodeBlockSize minNodeBlockIndex superblockSize journalBlockSize at hb2
  unfold nodeBlockSize at hb2
  unfold numJournalBlocks tableMaxLength at *
  omega

theorem table_addr_overlap {a b : Loc} (ha : ValidTableLoc a) (hb : ValidTableLoc b)
    (h : a.addr = b.addr) : overlap a b := by
  obtain ⟨ha1, ha2, ha3⟩ := ha
  obtain ⟨hb1, hb2, hb3⟩ := hb
  unfold overlap; omega

end Verif.Kv
