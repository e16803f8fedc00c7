import Verif.Alloc.BranchBuild
/-
A run of Alloc/AllocationBranchBetree.lean: one key is put, the memtable is written out, and the
branch is compacted. Used by C45 and C46. No code is modelled here.
-/
namespace Verif.ABB
open Verif LinkedBetree LikesBetree ABr

namespace Demo
def geo : Geometry := ⟨4, 16⟩
def image : Stamped BLinked := ⟨⟨none, PMap.empty, PMap.empty⟩, 0⟩
def puts : MsgHistory := .singletonAt 0 ⟨1, .define 10⟩
/-- the first branch, the node above it, the compacted branch, the node above that -/
def x0 : Address := ⟨5, 0⟩
def n0 : Address := ⟨6, 0⟩
def x1 : Address := ⟨7, 0⟩
def n1 : Address := ⟨8, 0⟩

def start : State := ⟨⟨.emptyAt 0, image.value⟩, 0, 0, PMap.empty, [], []⟩

theorem empty_reach {a : Address} (h : Reach (PMap.empty : LinkedBetree.Disk) none a) : False := by
  generalize hp : (none : Pointer) = p at h
  cases h <;> cases hp

theorem init : Init image start := by
  have hi := C17.empty_inv
  have hl : transitiveLikes image.value.tree = (0, 0) := by
    rw [transitive_eq (l := image.value.tree) hi.1]
    obtain ⟨_, hs, _⟩ := inv_sees hi
    refine Prod.ext (Multiset.eq_zero_of_forall_notMem fun a ha => ?_)
      (Multiset.eq_zero_of_forall_notMem fun a ha => ?_)
    · exact empty_reach ((mem_likesAt hs).mp ha)
    · obtain ⟨b, n, h1, _⟩ := (mem_bufferLikes (l := C17.emptyImage.value) hs).mp ha
      exact empty_reach h1
  have hno : ∀ a, ¬ a ∈ (transitiveLikes image.value.tree).2 := by rw [hl]; intro a h; cases h
  have hb : buildSummary image.value.bdv (fun a => a ∈ (transitiveLikes image.value.tree).2) =
      PMap.empty := by
    funext u
    refine Option.ext fun s => ?_
    rw [buildSummary_some fun a b h => absurd h (hno a)]
    exact ⟨fun ⟨a, h, _⟩ => absurd h (hno a), fun h => by cases h⟩
  refine ⟨hi.1, ?_, hi.2.2, fun a h => absurd h (hno a), fun a b h => absurd h (hno a), ?_, ?_, ?_,
    ?_, ?_⟩
  · rintro b ⟨a, n, h, _⟩; exact (empty_reach h).elim
  · intro u v s t h; rw [hb] at h; cases h
  · intro a h
    obtain ⟨n, hn⟩ := (PMap.has_iff _ _).mp h
    cases hn
  · intro a h
    obtain ⟨n, hn⟩ := (PMap.has_iff _ _).mp h
    cases hn
  · intro u h; rw [hl] at h; cases h
  · rw [hb, hl]; rfl

variable {w : Prop} {cp : Check}

theorem put1 : ∃ s, (machine geo w cp image).Exec [.ext (.put puts)] s ∧
    s = { start with betree := ⟨⟨PMap.empty.insert 1 (.define 10), 1⟩, image.value⟩ } := by
  refine ⟨_, Machine.Exec.snoc (tr := []) ⟨_, init, .nil _⟩
    (.noop (by intro h; cases h) (.put (MsgHistory.wf_singletonAt _ _) rfl)), ?_⟩
  have : (start.betree.memtable.applyPuts puts) = ⟨PMap.empty.insert 1 (.define 10), 1⟩ := by
    rfl
  rw [this]; rfl

theorem fresh_of {s : State} {al : PSet Nat} (h : ∀ u, Units s u → ¬ al u) : s.IsFresh al :=
  ⟨fun u a b => h u (.inl a) b, fun u a b => h u (.inr (.inl a)) b, fun u a b => h u (.inr (.inr a)) b⟩

theorem image_units (u : Nat) : ¬ imageUnits image.value u := by
  rintro (⟨a, h, _⟩ | ⟨b, ⟨a, n, h, _⟩, _⟩)
  · obtain ⟨n, hn⟩ := (PMap.has_iff _ _).mp h
    cases hn
  · exact empty_reach h

def rootNode (b : Address) : LNode := ⟨[b], .ofDomain .total, [none], [0]⟩

theorem in_domain (b : Address) (k : Key) : (rootNode b).KeyInDomain k := by
  refine ⟨⟨PivotTable.total_wf, rfl, rfl, ?_⟩, ?_⟩
  · intro i hi
    have : i = 0 := by simp [rootNode] at hi; omega
    subst this
    simp [rootNode]
  · exact (Domain.total_contains k)

/-- After the memtable is written out: one node with one branch. -/
theorem pushed : ∃ de s, (machine geo w cp image).Exec
      ([.ext (.put puts)] ++ buildLabels 5 ++ [.internal (fun u => u = 6) de]) s ∧
    s.betree.memtable = .emptyAt 1 ∧ s.betree.linked.root = some n0 ∧
    s.betree.linked.dv n0 = some (rootNode x0) ∧ Alone s.betree.linked.dv ∧
    iBuf s.betree.linked.bdv x0 = PMap.empty.insert 1 (.define 10) ∧
    ∀ u, Units s u → u = 5 ∨ u = 6 := by
  obtain ⟨s, hs, e⟩ := put1 (w := w) (cp := cp)
  have hal : Alone s.betree.linked.dv := by
    rw [e]
    intro a b h
    obtain ⟨n, hn⟩ := (PMap.has_iff _ _).mp h
    cases hn
  have hno : ∀ u, ¬ Units s u := by
    intro u h
    have h := ((run_good hs).2 u).mp h
    exact image_units u h
  obtain ⟨de, s', nt, ks, ms, r1, r2, r3, r4, _, _, r5⟩ := flush_run hs hal (x := x0) (addr := n0) (by
      rw [e]
      intro h
      have := congrFun h 1
      cases this) ⟨by decide, by decide⟩ (by decide) (fresh_of fun u h _ => hno u h)
  have hroot : s'.betree.linked.root = some n0 := by rw [r3]; rfl
  have hpost : (s.betree.linked.tree.pushMemtable Buffer.empty ⟨n0, x0⟩).dv n0 = some (rootNode x0) := by
    rw [e]
    have hr : ¬ (BLinked.tree image.value).HasRoot := by rintro ⟨a, h, _⟩; cases h
    simp only [LinkedBetree.Linked.pushMemtable, if_neg hr, start]
    exact PMap.insert_same _ _ _
  have hdv : s'.betree.linked.dv n0 = some (rootNode x0) := by
    obtain ⟨n, hn⟩ := (PMap.has_iff _ _).mp ((r5 n0).mpr (.here hpost))
    have h2 := hn
    rw [r3] at h2
    rw [hn, ← hpost, trim_sub h2]
  refine ⟨de, s', r1, ?_, hroot, hdv, ?_, ?_, ?_⟩
  · rw [r2, e]; rfl
  · refine alone_run ?_ r1
    intro a b h
    obtain ⟨n, hn⟩ := (PMap.has_iff _ _).mp h
    cases hn
  · have : s'.betree.linked.bdv x0 = some (.leaf ks ms) := by
      rw [r3]
      have h : (PMap.unionRight s.betree.linked.bdv (leafBranch x0 ks ms).disk) x0 = some (.leaf ks ms) :=
        PMap.unionRight_some.mpr (.inl (leaf_at _ _ _))
      exact h
    rw [leaf_iBuf this, r4, e]
  · intro u h
    have h := ((run_good r1).2 u).mp h
    simp only [held, buildLabels, List.foldl_append, List.foldl_cons, List.foldl_nil, Label.hold] at h
    have hi := image_units u
    rcases h with ⟨h | h, _⟩
    · left
      by_contra hne
      have hne' : u ≠ x0.au := hne
      simp [hi, hne'] at h
    · exact .inr h

theorem sorted_one : KeyT.StrictlySorted ([1] : List Key) := by
  intro i j h1 h2
  have : j < 1 := h1
  omega

theorem flushed_zero (b : Address) (k : Key) : (rootNode b).flushedOfs k = 0 := by
  unfold LNode.flushedOfs rootNode
  cases (PivotTable.route (.ofDomain .total) k).toNat <;> rfl

/-- A leaf root with one branch of one entry: what a query answers. -/
theorem ask {s : State} (hg : Good geo w s) {n b : Address} {v : Value}
    (hroot : s.betree.linked.root = some n) (hdv : s.betree.linked.dv n = some (rootNode b))
    (hb : s.betree.linked.bdv b = some (.leaf [1] [.define v])) (hm : s.betree.memtable = .emptyAt 1) :
    Next geo w cp s (.ext (.query 1 1 v)) s := by
  have hi := good_inv hg
  have hac : s.betree.linked.tree.Acyclic := hi.1
  have hr : s.betree.linked.tree.HasRoot := ⟨n, hroot, (PMap.has_iff _ _).mpr ⟨_, hdv⟩⟩
  have hn : s.betree.linked.tree.node = rootNode b := by
    show ((s.betree.linked.root).bind s.betree.linked.dv).getD _ = _
    rw [hroot]; show (s.betree.linked.dv n).getD _ = _; rw [hdv]; rfl
  have hc : (s.betree.linked.childForKey 1).tree.root = none := by
    show s.betree.linked.tree.node.childPtr 1 = none
    rw [hn]
    unfold LNode.childPtr LNode.childAt rootNode
    cases (PivotTable.route (.ofDomain .total) 1).toNat <;> rfl
  have hl : Answers BLinked.shape 1 (s.betree.linked.childForKey 1) .empty := by
    refine .leaf (by rintro ⟨a, h, _⟩; rw [hc] at h; cases h) ?_
    obtain ⟨h1, r, _, h2, _⟩ := hac
    have hw : (s.betree.linked.childForKey 1).tree.WF := ⟨h1.1, by intro a h; rw [hc] at h; cases h⟩
    exact ⟨hw, r, hw, h2, by intro _ a h; rw [hc] at h; cases h⟩
  have hq : query s.betree.linked.bdv b 1 = .define v :=
    leaf_query hg.br.wf hb (by decide) rfl sorted_one 1
  have ha := Answers.node (S := BLinked.shape) (n := s.betree.linked) hr hac (by
    refine ⟨?_, ?_⟩
    · rw [hn]; intro a h
      cases List.mem_singleton.mp h
      exact (PMap.has_iff _ _).mpr ⟨_, hb⟩
    · rw [hn]; exact in_domain _ _) hl
  have hmsg : BLinked.shape.msg s.betree.linked 1 = .define v := by
    show queryFrom _ s.betree.linked.tree.node.buffers 1 (s.betree.linked.tree.node.flushedOfs 1) = _
    rw [hn, flushed_zero]
    show (query _ b 1).merge .nop = _
    rw [hq, Message.merge_nop]
  rw [hmsg] at ha
  obtain ⟨r, h1, h2⟩ := Receipt.valid_iff.mpr ha
  have hq : ExtNext s.betree (.query s.betree.memtable.seqEnd 1 v) s.betree :=
    .query h1 (by rw [h2, hm]; rfl)
  rw [show s.betree.memtable.seqEnd = 1 by rw [hm]; rfl] at hq
  exact .noop (by intro h; cases h) hq

/-- The whole run: the branch is compacted into one holding `v` if the check allows that. -/
theorem compacted {v : Value} (hcp : ∀ (d : BrDisk) (d' : BrDisk) (x : Address),
      (∀ k, query d x0 k = Buffer.query (PMap.empty.insert 1 (.define 10)) k) → d.Has x0 →
      iBuf d x0 = PMap.empty.insert 1 (.define 10) →
      (∀ k, query d' x k = Buffer.query (PMap.empty.insert 1 (.define v)) k) →
      iBuf d' x = PMap.empty.insert 1 (.define v) → cp d (rootNode x0) 0 1 d' x) :
    ∃ de de' s, (machine geo w cp image).Exec
      ([.ext (.put puts)] ++ buildLabels 5 ++ [.internal (fun u => u = 6) de] ++
        [.internal (fun _ => False) (fun _ => False)] ++ buildLabels 7 ++
        [.internal (fun u => u = 8) de'] ++ [.ext (.query 1 1 v)]) s := by
  obtain ⟨de, s, h, hm, hroot, hdv, hal, hb, hu⟩ := pushed (w := w) (cp := cp)
  obtain ⟨hg, _⟩ := run_good h
  have hr : s.betree.linked.tree.HasRoot := ⟨n0, hroot, (PMap.has_iff _ _).mpr ⟨_, hdv⟩⟩
  have hn : s.betree.linked.tree.node = rootNode x0 := by
    show ((s.betree.linked.root).bind s.betree.linked.dv).getD _ = _
    rw [hroot]; show (s.betree.linked.dv n0).getD _ = _; rw [hdv]; rfl
  have hlook : (fun k => (([1] : List Key).zip [Message.define v]).lookup k) =
      (PMap.empty.insert 1 (.define v) : Buffer) := by
    funext k
    by_cases hk : k = 1
    · subst hk; rfl
    · rw [PMap.insert_other _ _ hk]; have : (k == 1) = false := by simpa using hk
      simp only [List.zip_cons_cons, List.lookup, this]; rfl
  have hx : s.betree.linked.tree.ReachableBuffer x0 := ⟨n0, rootNode x0, by
    rw [show s.betree.linked.tree.root = some n0 from hroot]; exact .here hdv, hdv, by simp [rootNode]⟩
  have hval := hg.br.valid x0 (.inl hx)
  obtain ⟨de', s', nt, d, q1, q2, q3, _, _, q4⟩ := compact_run h hal (p := ⟨s.betree.linked.tree, 1, 0⟩)
    (a := 0) (b := 1) (x := x1) (addr := n1) (pa := []) (ks := [1]) (ms := [.define v])
    ⟨hr, (good_inv hg).1, by rw [hn]; exact in_domain _ _⟩ rfl (by decide)
    (by show 1 ≤ s.betree.linked.tree.node.buffers.length; rw [hn]; exact Nat.le_refl _) rfl
    (by decide) rfl sorted_one ⟨by decide, by decide⟩ (by decide)
    (by rintro ⟨a, h, _⟩; cases h) (by rintro ⟨a, h, _⟩; cases h) (by intro i j a b h; simp at h)
    (fresh_of (by
      rintro u h (rfl | rfl | ⟨a, h, _⟩)
      · rcases hu _ h with h | h <;> cases h
      · rcases hu _ h with h | h <;> cases h
      · cases h)) (by
      intro d' hw hd'
      show cp _ s.betree.linked.tree.node 0 1 d' x1
      rw [hn]
      refine hcp _ d' x1 ?_ (hg.br.has ?_) hb ?_ ?_
      · intro k
        exact (query_iBuf hval.1 k).trans (by rw [← hb])
      · exact .inl hx
      · intro k; rw [leaf_query hw hd' (by decide) rfl sorted_one, hlook]
      · rw [leaf_iBuf hd', hlook])
  have hpost : (postCompact ⟨s.betree.linked.tree, 1, 0⟩ 0 1 Buffer.empty ⟨n1, x1⟩ []).dv n1 =
      some (rootNode x1) := by
    have : (postCompact ⟨s.betree.linked.tree, 1, 0⟩ 0 1 Buffer.empty ⟨n1, x1⟩ []).dv n1 =
      some { s.betree.linked.tree.node with
        buffers := s.betree.linked.tree.node.buffers.take 0 ++ [x1] ++
          s.betree.linked.tree.node.buffers.drop 1
        flushed := BufferOffsets.adjustCompact s.betree.linked.tree.node.flushed 0 1 } :=
      PMap.insert_same s.betree.linked.tree.dv n1 _
    rw [this, hn]
    rfl
  have hroot' : s'.betree.linked.root = some n1 := by rw [q2]; rfl
  have hdv' : s'.betree.linked.dv n1 = some (rootNode x1) := by
    obtain ⟨n, hn⟩ := (PMap.has_iff _ _).mp ((q4 n1).mpr (.here hpost))
    have h2 := hn
    rw [q2] at h2
    rw [hn, ← hpost, trim_sub h2]
  have hal' : (fun u => u = n1.au ∨ unitsOf (fun a => a ∈ ([] : List Address)) u) = fun u => u = 8 := by
    funext u
    refine propext ⟨?_, .inl⟩
    rintro (h | ⟨a, h, _⟩)
    · exact h
    · cases h
  rw [hal'] at q1
  refine ⟨de, de', s', q1.snoc (ask (run_good q1).1 hroot' hdv' ?_ ?_)⟩
  · rw [q2]; exact q3
  · rw [q2]; exact hm

end Demo
end Verif.ABB
