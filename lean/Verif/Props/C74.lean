import Verif.Kv.TableLimits
import Verif.Props.C63
import Verif.Kv.FullImplDemo
/-
C74. In every run of the store no node in memory has more than eight children or holds more than 2 MB less
64 KB of messages, and the table of nodes never has more than 2^32 rows: what is in memory always fits the
format on the disk.

Specification: the numbers of children and of bytes of messages (`bytesOf` below) and of rows, in the states
reached by the runs of the store with its disk, crashes included.
-/
namespace Verif.C74
open Verif.Kv Verif.Kv.Pivot Verif.Kv.TreeImpl
open SectorBytes (codec NodeOk nodeBytes)
open Betree (Message)

/-- The bytes of one message with its key: four for each length, and the bytes themselves. -/
def bytesOf : Key × Message → Nat
  | (k, .define v) => 4 + k.length + (4 + v.length)
  | (k, .update) => 4 + k.length

/-- The bytes of all messages of a node. -/
def nodeSize (n : Node) : Nat := (n.buckets.map (fun b => (b.map bytesOf).sum)).sum

theorem nodeSize_eq (n : Node) : nodeSize n = SectorBytes.weight n.buckets := by
  unfold nodeSize SectorBytes.weight
  congr 1
  refine List.map_congr_left (fun b _ => ?_)
  unfold SectorBytes.bucketWeight
  congr 1
  refine List.map_congr_left (fun x _ => ?_)
  obtain ⟨k, m⟩ := x
  cases m <;> rfl

section
variable {loc : Loc} {kind : ByteDisk.Kind} {tr : List (Option (BlockSystem.Label Node))} {s : FullImpl.State} {r : S}

/-- **Nodes stay within their limits**: in every run, every node in memory has at most eight buffers (and as
many children as buffers, if any), and at most 2 MB less 64 KB of messages. -/
theorem nodes_within_limits (h : (FullImpl.machine codec loc kind).Exec tr s) (hr : s.b = .ready r) {x : Ref}
    {n : Node} (hn : r.cache.get x = some n) :
    n.buckets.length ≤ 8 ∧ (∀ cs, n.children = some cs → cs.length ≤ 8) ∧
      nodeSize n ≤ 2 * 1024 * 1024 - 65536 := by
  obtain ⟨h1, h2⟩ := exec_lim h
  rw [hr] at h1
  have hl := h1.1 x n hn
  refine ⟨hl.many, fun cs hc => ?_, ?_⟩
  · rw [(h2 r hr x n hn).children cs hc]; exact hl.many
  · rw [nodeSize_eq]; exact hl.weight

/-- **The table stays within its limit**: in every run it has at most 2^32 rows. -/
theorem table_within_limit (h : (FullImpl.machine codec loc kind).Exec tr s) (hr : s.b = .ready r) :
    r.eph.t.length ≤ 2 ^ 32 := by
  have h1 := (exec_lim h).1
  rw [hr] at h1
  exact h1.2

/-- **What is in memory fits a block**: in every run, a node in memory with keys, pivots, edges and values of
at most 1024 bytes and references of 64 bits is always written, takes at most one block, and reads back. -/
theorem can_be_written (h : (FullImpl.machine codec loc kind).Exec tr s) (hr : s.b = .ready r) {x : Ref}
    {n : Node} (hn : r.cache.get x = some n)
    (pivots : ∀ k, Elem.key k ∈ n.pivots → k.length ≤ 1024) (edges : ∀ k, some k ∈ n.edges → k.length ≤ 1024)
    (keys : ∀ b ∈ n.buckets, ∀ x ∈ b, x.1.length ≤ 1024)
    (values : ∀ b ∈ n.buckets, ∀ x ∈ b, ∀ v, x.2 = .define v → v.length ≤ 1024)
    (refs : ∀ cs, n.children = some cs → ∀ r ∈ cs, r < 2 ^ 64) :
    ∃ b, nodeBytes n = some b ∧ b.length ≤ 2 * 1024 * 1024 ∧ codec.sector b = some (.node n) := by
  obtain ⟨h1, h2⟩ := exec_lim h
  rw [hr] at h1
  have hl := h1.1 x n hn
  have hg := h2 r hr x n hn
  have ok : NodeOk n := ⟨(inv_iff.mpr hg).wf, hl.many, hl.weight, pivots, edges, keys, values, refs⟩
  exact C63.node_reads_back ok (fun b hb => by
    obtain ⟨i, hi⟩ := List.mem_iff_getElem?.mp hb
    obtain ⟨lo, hi', e, b', hs⟩ := hg.slot (List.getElem?_eq_some_iff.mp hi).1
    have := hs.b.symm.trans hi
    cases this
    exact (hg.slots _ _ _ _ _ hs).sorted)
end

/-- A run with a node in memory that is not as it was on the disk: the store is opened on a fresh file, the
root is read, and a put changes it. -/
theorem demo : ∃ tr s r, (FullImpl.machine codec Mkfs.tableLoc true).Exec tr s ∧ s.b = .ready r ∧
    r.cache.get 0 = some MkfsDemo.n1 ∧ nodeSize MkfsDemo.n1 = 10 ∧ r.eph.t.length = 1 := by
  obtain ⟨tr, bm, s', h1, h2⟩ := FullImplDemo.run_to Mkfs.image_written
  exact ⟨_, _, _, ⟨⟨.unready, Committer.init, ByteSystem.still Mkfs.image⟩,
    ⟨rfl, Mkfs.init Mkfs.image_written true⟩, h2⟩, rfl, rfl, by decide, rfl⟩

end Verif.C74
