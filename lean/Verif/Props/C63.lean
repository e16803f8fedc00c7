import Verif.Kv.Mkfs
import Verif.Kv.PivotDemo
/-
C63. What VeriBetrKV writes to its disk it reads back.

Specification: a value of a grammar is put into bytes by `Marshal.marshal` and got back by `Marshal.parse`.
A sector (superblock, indirection table or node) is read by `codec`; `superblockBytes`, `tableBytes` and
`nodeBytes` are what is written for one. Reading back means that the result is the very same superblock, map
of references or node.
-/
namespace Verif.C63
open Verif.Kv Verif.Kv.SectorBytes
open Verif.Kv.Marshal (InG Valid ValidG V G marshal parse size)
open Verif.Kv.Pivot (Node)

/-- **Every value of a grammar is read back**, and what follows it is left over. -/
theorem reads_back {v : V} {g : G} (hg : InG v g) (hv : Valid v) (rest : List UInt8) :
    parse g (marshal v ++ rest) = some (v, rest) := Marshal.parse_marshal hg hv rest

/-- **There is one encoding.** Whatever bytes are read as a value are the bytes written for that value, and the
value is of the grammar. -/
theorem one_encoding {g : G} (hg : ValidG g) {s r : List UInt8} {v : V} (h : parse g s = some (v, r)) :
    InG v g ∧ Valid v ∧ s = marshal v ++ r := Marshal.parse_good g hg _ _ _ h

/-- **The announced size is right**: `size` bytes are written. -/
theorem size_right (v : V) : (marshal v).length = size v := Marshal.marshal_length v

/-- **Superblocks are read back**, from exactly 4096 bytes. -/
theorem superblock_reads_back {sb : Superblock} (h : SuperblockBytes.SbOk sb) :
    (superblockBytes sb).length = 4096 ∧ codec.sector (superblockBytes sb) = some (.superblock sb) := by
  refine ⟨Mkfs.superblockBytes_length sb, ?_⟩
  unfold superblockBytes
  rw [checked_back (Mkfs.inG_case (g := superblockG) rfl (superblockVal_inG _))
    (.case (by decide) (superblockVal_valid h))]
  unfold sectorOfVal
  dsimp only
  rw [if_pos rfl, superblock_back h.1]
  rfl

/-- **Indirection tables are read back**, in whatever order the hash table gives the rows. If a table takes
more than the 24 MB set aside for it nothing is written. -/
theorem table_reads_back {rows : List Row} {t : Table} (h : Describes rows t) (hw : BlockCache.WFComplete t)
    (ho : ∀ x ∈ rows, RowOk x) (hm : rows.length ≤ maxTable) {b : List UInt8} (hb : tableBytes rows = some b) :
    b.length ≤ tableMaxLength ∧ codec.sector b = some (.table t) := by
  unfold tableBytes at hb
  dsimp only at hb
  split at hb
  · cases hb
  · rename_i hs
    cases hb
    refine ⟨by rw [checked_length (Nat.le_refl _)]; omega, ?_⟩
    rw [checked_back (Mkfs.inG_case (g := tableG) rfl (tableVal_inG _)) (.case (by decide) (tableVal_valid ho
      (fun x hx => hw.valid _ _ (h.row x hx).1) hm))]
    unfold sectorOfVal
    dsimp only
    rw [if_neg (by decide), if_pos rfl, table_back h hw ho hm]
    rfl

/-- **Nodes are read back, and fit.** A node within its bounds and with sorted buckets is always written, takes
at most one node block of 2 MB, and is read back. -/
theorem node_reads_back {n : Node} (h : NodeOk n) (hs : ∀ b ∈ n.buckets, b.Sorted) :
    ∃ b, nodeBytes n = some b ∧ b.length ≤ nodeBlockSize ∧ codec.sector b = some (.node n) := by
  refine ⟨_, if_pos hs, ?_, ?_⟩
  · rw [checked_length (Nat.le_refl _)]; exact nodeVal_size h
  · rw [checked_back (Mkfs.inG_case (g := nodeG) rfl (nodeVal_inG _)) (.case (by decide) (nodeVal_valid h))]
    unfold sectorOfVal
    dsimp only
    rw [if_neg (by decide), if_neg (by decide), node_back h]
    rfl

/-- **What is read is well-formed**, whatever the bytes: a superblock, a table with a place for each node and
closed under references, or a node within its bounds. -/
theorem reads_well_formed {s : List UInt8} {x : Sector Node} (h : codec.sector s = some x) :
    (∀ sb, x = .superblock sb → SuperblockBytes.SbOk sb) ∧ (∀ t, x = .table t → BlockCache.WFComplete t) ∧
      (∀ n, x = .node n → NodeOk n) := by
  have hp := h
  unfold Codec.sector at h
  split at h
  · change parseSector _ = _ at h
    unfold parseSector at h
    split at h
    · rename_i v r hv
      obtain ⟨_, hval, _⟩ := Marshal.parse_good _ sectorG_valid _ _ _ hv
      unfold sectorOfVal at h
      cases hval with
      | @case c v _ hv' =>
        dsimp only at h
        split at h
        · obtain ⟨sb, e, rfl⟩ := Option.map_eq_some_iff.mp h
          refine ⟨fun sb' k => ?_, fun t k => (by cases k), fun n k => (by cases k)⟩
          cases k
          refine SuperblockBytes.ofBytes_ok (crc := codec.crc) (s := s) ?_
          rw [← codec_superblock, Codec.superblock, hp]
        · split at h
          · obtain ⟨t, e, rfl⟩ := Option.map_eq_some_iff.mp h
            refine ⟨fun sb' k => (by cases k), fun t' k => ?_, fun n k => (by cases k)⟩
            cases k
            exact tableOfVal_some e
          · obtain ⟨n, e, rfl⟩ := Option.map_eq_some_iff.mp h
            refine ⟨fun sb' k => (by cases k), fun t k => (by cases k), fun n' k => ?_⟩
            cases k
            exact nodeOfVal_some hv' e
      | _ => cases h
    · cases h
  · cases h

/-! ### Concrete cases -/

/-- A value with a part of every kind. -/
def v0 : V := .tuple [.const, .u32 5, .array [.u64 6, .u64 7], .bytes [1, 2], .u32s [8], .u64s [9, 10],
  .case 1 (.bytes [])]
def g0 : G := .tuple [.const, .u32, .array .u64, .bytes, .u32s, .u64s, .union [.u64, .bytes]]

theorem demo_value : InG v0 g0 ∧ Valid v0 ∧ size v0 = 90 := by
  refine ⟨.tuple rfl ?_, .tuple (by simp) ?_, by simp [v0, size, Marshal.sizes]⟩
  · intro i v g hv hg
    match i, hv, hg with
    | 0, hv, hg => cases hv; cases hg; exact .const
    | 1, hv, hg => cases hv; cases hg; exact .u32
    | 2, hv, hg =>
      cases hv; cases hg
      refine .array fun v hv => ?_
      simp only [List.mem_cons, List.not_mem_nil, or_false] at hv
      rcases hv with rfl | rfl <;> exact .u64
    | 3, hv, hg => cases hv; cases hg; exact .bytes
    | 4, hv, hg => cases hv; cases hg; exact .u32s
    | 5, hv, hg => cases hv; cases hg; exact .u64s
    | 6, hv, hg => cases hv; cases hg; exact .case (g := .bytes) rfl .bytes
  · intro v hv
    simp only [List.mem_cons, List.not_mem_nil, or_false] at hv
    rcases hv with rfl | rfl | rfl | rfl | rfl | rfl | rfl
    · exact .const
    · exact .u32 (by decide)
    · refine .array (by simp) fun v hv => ?_
      simp only [List.mem_cons, List.not_mem_nil, or_false] at hv
      rcases hv with rfl | rfl <;> exact .u64 (by decide)
    · exact .bytes (by decide)
    · exact .u32s (by decide) (by simp)
    · exact .u64s (by decide) (by simp)
    · exact .case (by decide) (.bytes (by decide))

/-- So it is read back, and these bytes of a grammar with one array show the order of the bytes. -/
theorem demo_bytes : parse g0 (marshal v0 ++ [7]) = some (v0, [7]) ∧
    marshal (.array [.u64 258]) = [1, 0, 0, 0, 0, 0, 0, 0, 2, 1, 0, 0, 0, 0, 0, 0] :=
  ⟨reads_back demo_value.1 demo_value.2.1 _, by decide⟩

/-- A node with three ranges, one of them translated, and entries. -/
def n0 : Node :=
  ⟨[.key [], .key [6], .key [7], .top], [none, some [5], none], some [2, 2, 3],
    [[([1], .define [4]), ([5], .define [])], [], [([9, 9], .define [1, 2])]]⟩

theorem n0_ok : NodeOk n0 where
  wf := by
    refine { sorted := by decide, two := by decide, buckets := by decide, edges := by decide,
             children := ?_, lcps := ?_, msgs := ?_ }
    · intro cs h; cases h; rfl
    · intro i e h
      match i, h with
      | 0, h => cases h
      | 1, h => decide
      | 2, h => cases h
    · intro i b x h hx
      have hb := List.mem_of_getElem? h
      simp only [n0, List.mem_cons, List.not_mem_nil, or_false] at hb
      rcases hb with rfl | rfl | rfl
      · simp only [List.mem_cons, List.not_mem_nil, or_false] at hx
        rcases hx with rfl | rfl <;> simp
      · cases hx
      · simp only [List.mem_cons, List.not_mem_nil, or_false] at hx
        subst hx; simp
  many := by decide
  weight := by decide
  pivots := by
    intro k hk
    simp only [n0, List.mem_cons, Elem.key.injEq, reduceCtorEq, List.not_mem_nil, or_false] at hk
    rcases hk with rfl | rfl | rfl <;> decide
  edges := by
    intro k hk
    simp [n0] at hk
    subst hk; decide
  keys := by
    intro b hb x hx
    simp only [n0, List.mem_cons, List.not_mem_nil, or_false] at hb
    rcases hb with rfl | rfl | rfl
    · simp only [List.mem_cons, List.not_mem_nil, or_false] at hx
      rcases hx with rfl | rfl <;> decide
    · cases hx
    · simp only [List.mem_cons, List.not_mem_nil, or_false] at hx
      subst hx; decide
  values := by
    intro b hb x hx v hv
    simp only [n0, List.mem_cons, List.not_mem_nil, or_false] at hb
    rcases hb with rfl | rfl | rfl
    · simp only [List.mem_cons, List.not_mem_nil, or_false] at hx
      rcases hx with rfl | rfl <;> cases hv <;> decide
    · cases hx
    · simp only [List.mem_cons, List.not_mem_nil, or_false] at hx
      subst hx; cases hv; decide
  refs := by
    intro cs h r hr
    cases h
    simp only [List.mem_cons, List.not_mem_nil, or_false] at hr
    rcases hr with rfl | rfl | rfl <;> decide

theorem demo_node : ∃ b, nodeBytes n0 = some b ∧ codec.sector b = some (.node n0) := by
  obtain ⟨b, h1, _, h2⟩ := node_reads_back n0_ok (by
    intro b hb
    simp only [n0, List.mem_cons, List.not_mem_nil, or_false] at hb
    rcases hb with rfl | rfl | rfl <;> unfold Pivot.Bucket.Sorted <;> decide)
  exact ⟨b, h1, h2⟩

/-- Two rows: the root and the node it refers to. -/
def rows0 : List Row :=
  [⟨1, ⟨nodeBlockSize * (minNodeBlockIndex + 1), 200⟩, []⟩, ⟨0, ⟨nodeBlockSize * minNodeBlockIndex, 100⟩, [1]⟩]
/-- The table they describe. -/
def t0 : Table := ⟨(PMap.insert .empty 1 ⟨nodeBlockSize * (minNodeBlockIndex + 1), 200⟩).insert 0
  ⟨nodeBlockSize * minNodeBlockIndex, 100⟩, (PMap.insert .empty 1 []).insert 0 [1]⟩

theorem ins2 {W : Type} {a b : W} {r : Ref} {w : W} (h : ((PMap.insert PMap.empty 1 b).insert 0 a) r = some w) :
    r = 0 ∧ w = a ∨ r = 1 ∧ w = b := by
  by_cases e : r = 0
  · subst e; rw [PMap.insert_same] at h; cases h; exact .inl ⟨rfl, rfl⟩
  · rw [PMap.insert_other _ _ e] at h
    by_cases e' : r = 1
    · subst e'; rw [PMap.insert_same] at h; cases h; exact .inr ⟨rfl, rfl⟩
    · rw [PMap.insert_other _ _ e'] at h; cases h

theorem describes0 : Describes rows0 t0 where
  distinct := by simp [rows0]
  row x hx := by
    simp only [rows0, List.mem_cons, List.not_mem_nil, or_false] at hx
    rcases hx with rfl | rfl <;> exact ⟨rfl, rfl⟩
  locs r h := by
    cases e : t0.locs r with
    | none => exact absurd e h
    | some l =>
      rcases ins2 e with ⟨rfl, _⟩ | ⟨rfl, _⟩
      · exact ⟨_, .tail _ (.head _), rfl⟩
      · exact ⟨_, .head _, rfl⟩
  graph r h := by
    cases e : t0.graph r with
    | none => exact absurd e h
    | some l =>
      rcases ins2 e with ⟨rfl, _⟩ | ⟨rfl, _⟩
      · exact ⟨_, .tail _ (.head _), rfl⟩
      · exact ⟨_, .head _, rfl⟩

theorem t0_wf : BlockCache.WFComplete t0 where
  valid r l h := by
    rcases ins2 h with ⟨_, rfl⟩ | ⟨_, rfl⟩
    · exact ⟨⟨Nat.mul_mod_right _ _, Nat.le_refl _⟩, by show 100 ≤ nodeBlockSize; decide⟩
    · exact ⟨⟨Nat.mul_mod_right _ _, Nat.mul_le_mul_left _ (Nat.le_succ _)⟩,
        by show 200 ≤ nodeBlockSize; decide⟩
  sub r l h := by rcases ins2 h with ⟨rfl, _⟩ | ⟨rfl, _⟩ <;> (intro k; cases k)
  root := by intro k; cases k
  closed r ss h x hx := by
    rcases ins2 h with ⟨rfl, rfl⟩ | ⟨rfl, rfl⟩
    · rw [List.mem_singleton.mp hx]; intro k; cases k
    · cases hx
  complete r h := by
    cases e : t0.graph r with
    | none => exact absurd e h
    | some l => rcases ins2 e with ⟨rfl, _⟩ | ⟨rfl, _⟩ <;> (intro k; cases k)

theorem rows0_ok : ∀ x ∈ rows0, RowOk x := by
  intro x hx
  simp only [rows0, List.mem_cons, List.not_mem_nil, or_false] at hx
  rcases hx with rfl | rfl
  · exact ⟨by decide, by show nodeBlockSize * (minNodeBlockIndex + 1) < 2 ^ 64; decide, by decide,
      fun r hr => by cases hr⟩
  · exact ⟨by decide, by show nodeBlockSize * minNodeBlockIndex < 2 ^ 64; decide, by decide,
      fun r hr => by rw [List.mem_singleton.mp hr]; decide⟩

theorem demo_table : ∃ b, tableBytes rows0 = some b ∧ codec.sector b = some (.table t0) := by
  have h : ∃ b, tableBytes rows0 = some b := by
    have hz : size (.case 1 (tableVal rows0)) = 88 := by
      simp [tableVal, rows0, rowVal, Marshal.size, Marshal.sizes]
    unfold tableBytes
    dsimp only
    rw [if_neg (by rw [hz]; decide)]
    exact ⟨_, rfl⟩
  obtain ⟨b, hb⟩ := h
  exact ⟨b, hb, (table_reads_back describes0 t0_wf rows0_ok (by show 2 ≤ maxTable; decide) hb).2⟩

/-- A superblock with something in every field. -/
theorem demo_superblock : ∃ sb : Superblock, SuperblockBytes.SbOk sb ∧ sb.counter = 2 ^ 64 - 1 ∧
    codec.sector (superblockBytes sb) = some (.superblock sb) :=
  have h : SuperblockBytes.SbOk ⟨2 ^ 64 - 1, 65535, 65536, ⟨table2Addr, 4096⟩⟩ :=
    ⟨⟨by decide, by decide, .inr rfl, by decide, by decide⟩, by decide⟩
  ⟨_, h, rfl, (superblock_reads_back h).2⟩

end Verif.C63
