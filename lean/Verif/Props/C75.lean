import Verif.Kv.LenLimits
import Verif.Props.C74
/-
C75. If clients clone only between prefixes of one length, then in every run every node in memory can be
written at any time, takes at most one block, and is read back as it is. A clone to a longer prefix can make a
node that no bytes are read as.

Specification: `nodeBytes` is what is written for a node, `codec.sector` is what is read from bytes; the only
thing asked of a run is about its clients' clones. `advance op false` is the label of an operation of a client
(`true`: of one taken from the journal when the store is opened).
-/
namespace Verif.C75
open Verif.Kv Verif.Kv.Pivot Verif.Kv.TreeImpl
open SectorBytes (codec nodeBytes)

section
variable {loc : Loc} {kind : ByteDisk.Kind} {tr : List (Option (BlockSystem.Label Node))} {s : FullImpl.State} {r : S}

/-- **Every node in memory can be written and is read back**, whatever the run, the crashes and the answers of
the disk, if clients clone only between prefixes of one length. -/
theorem always_writable (h : (FullImpl.machine codec loc kind).Exec tr s)
    (hc : ∀ src dst st, some ⟨.advance (.clone src dst) false, st⟩ ∈ tr → src.length = dst.length)
    (hr : s.b = .ready r) {x : Ref} {n : Node} (hn : r.cache.get x = some n) :
    ∃ b, nodeBytes n = some b ∧ b.length ≤ 2 * 1024 * 1024 ∧ codec.sector b = some (.node n) := by
  have ok := exec_ok h hc hr hn
  exact C74.can_be_written h hr hn ok.pivots ok.edges ok.keys ok.values ok.refs

/-- **Keys, values, pivots and edges in memory stay short**, under the same condition. -/
theorem lengths (h : (FullImpl.machine codec loc kind).Exec tr s)
    (hc : ∀ src dst st, some ⟨.advance (.clone src dst) false, st⟩ ∈ tr → src.length = dst.length)
    (hr : s.b = .ready r) {x : Ref} {n : Node} (hn : r.cache.get x = some n) :
    (∀ k, Elem.key k ∈ n.pivots → k.length ≤ 1024) ∧ (∀ k, some k ∈ n.edges → k.length ≤ 1024) ∧
      ∀ b ∈ n.buckets, ∀ x ∈ b, x.1.length ≤ 1024 ∧ ∀ v, x.2 = .define v → v.length ≤ 1024 :=
  have ok := exec_ok h hc hr hn
  ⟨ok.pivots, ok.edges, fun b hb x hx => ⟨ok.keys b hb x hx, ok.values b hb x hx⟩⟩
end

/-- A run that meets the hypotheses, with a node in memory that is not as it was on the disk. -/
theorem demo : ∃ tr s r, (FullImpl.machine codec Mkfs.tableLoc true).Exec tr s ∧
    (∀ src dst st, some ⟨.advance (.clone src dst) false, st⟩ ∈ tr → src.length = dst.length) ∧
    s.b = .ready r ∧ r.cache.get 0 = some MkfsDemo.n1 := by
  obtain ⟨tr, bm, s', h1, h2⟩ := FullImplDemo.run_to Mkfs.image_written
  refine ⟨_, _, _, ⟨⟨.unready, Committer.init, ByteSystem.still Mkfs.image⟩,
    ⟨rfl, Mkfs.init Mkfs.image_written true⟩, h2⟩, fun src dst st h => ?_, rfl, rfl⟩
  rcases List.mem_append.mp h with h | h
  · cases h1 _ h
  · cases List.mem_singleton.mp h

/-! ### Clones to a longer prefix -/

/-- A root with two children and nothing in its buffers. -/
def root : Node := ⟨[.key [], .key [1, 5], .top], [none, none], some [1, 2], [[], []]⟩

/-- `root` is within all bounds, and the code clones on it from `[1]` to any prefix. -/
theorem root_ok : SectorBytes.NodeOk root ∧ ∀ dst, dst ≠ [] → ValidClone root [1] dst := by
  have wf : WFNode root := by
    refine ⟨by decide, by decide, rfl, rfl, fun cs h => by cases h; rfl, fun i e h => ?_, fun i b x h hx => ?_⟩
    · rcases i with _ | _ | i <;> simp [root] at h
    · rcases i with _ | _ | i <;> simp [root] at h <;> subst h <;> cases hx
  have empty : ∀ b ∈ root.buckets, b = [] := by simp [root]
  refine ⟨⟨wf, by decide, by decide, fun k hk => ?_, fun k hk => ?_, fun b hb x hx => ?_, fun b hb x hx => ?_,
    fun cs hcs r hr => ?_⟩, fun dst hd => ⟨wf, ⟨rfl, rfl⟩, by simp [root], hd, fun i b x _ _ hb hx => ?_⟩⟩
  · simp only [root, List.mem_cons, List.not_mem_nil, or_false] at hk
    rcases hk with hk | hk | hk <;> cases hk <;> decide
  · simp [root] at hk
  · rw [empty b hb] at hx; cases hx
  · rw [empty b hb] at hx; cases hx
  · cases hcs
    simp only [List.mem_cons, List.not_mem_nil, or_false] at hr
    rcases hr with rfl | rfl <;> decide
  · rw [empty b (List.mem_of_getElem? hb)] at hx; cases hx

/-- **A clone to a longer prefix can make a node that cannot be read**: whatever the prefix of 1024 bytes, the
new root is not what is read from any bytes. -/
theorem longer_clone_unreadable (dst : Key) (h : dst.length = 1024) (b : List UInt8) :
    codec.sector b ≠ some (.node (root.cloneRoot [1] dst)) := by
  intro hb
  have ok := (C63.reads_well_formed hb).2.2 _ rfl
  have : Elem.key (dst ++ [5]) ∈ (root.cloneRoot [1] dst).pivots := by
    have ht : Elem.key (dst ++ [5]) ∈ (root.cloned [1] dst).pivots := by
      change _ ∈ ([Elem.key [1], .key [1, 5]] : List Elem).map (translateElem [1] dst) ++ [prefixEnd dst]
      simp [translateElem, changePrefix]
    unfold Node.cloneRoot
    dsimp only
    split
    · exact List.mem_append_right _ ht
    · exact List.mem_append_left _ (List.mem_append_right _ ht)
  have := ok.pivots _ this
  simp only [List.length_append, SectorBytes.maxLen] at this
  simp at this
  omega

end Verif.C75
