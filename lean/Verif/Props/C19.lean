import Verif.Props.C18
/-
C19. B+tree splits and growth never change an answer.
Specification: `BNode.entries` (the pairs in the leaves, left to right), `BNode.Height` (every leaf
equally far down).
-/
namespace Verif.C19
open Verif BNode

/-- Splitting a leaf or an index child of the node at the end of any legal path keeps the tree
well formed, and leaves the stored pairs, in order, and every answer as they were. -/
theorem split_invisible {t : BNode} {p : BPath} {a : SplitArg} (h : t.CanSplit p a) :
    (t.split p a).WF ∧ (t.split p a).entries = t.entries ∧
    ∀ k, (t.split p a).query k = t.query k := by
  obtain ⟨h1, h2⟩ := split_spec h
  refine ⟨h1, h2, fun k => ?_⟩
  rw [query_contents h1, query_contents h.1]
  unfold contents; rw [h2]

/-- Growing by one level likewise. -/
theorem grow_invisible {t : BNode} (h : t.WF) :
    t.grow.WF ∧ t.grow.entries = t.entries ∧ ∀ k, t.grow.query k = t.query k := by
  obtain ⟨h1, h2⟩ := grow_spec h
  refine ⟨h1, h2, fun k => ?_⟩
  rw [query_contents h1, query_contents h]
  unfold contents; rw [h2]

/-- The split really separates: the two halves replace the child, the left one holding the pairs
below the pivot and the right one the others. -/
theorem split_separates {c : BNode} {a : SplitArg} (h : c.WF) (ha : a.WF c) :
    (c.splitNode a).1.WF ∧ (c.splitNode a).2.WF ∧
    c.entries = (c.splitNode a).1.entries ++ (c.splitNode a).2.entries ∧
    (∀ k m, (k, m) ∈ (c.splitNode a).1.entries → KeyT.Lt k a.pivot) ∧
    (∀ k m, (k, m) ∈ (c.splitNode a).2.entries → KeyT.Lte a.pivot k) ∧
    (c.splitNode a).1.entries ≠ [] ∧ (c.splitNode a).2.entries ≠ [] := by
  have H := splitNode_halves h ha
  refine ⟨H.lwf, H.rwf, H.entries, fun k m hm => (H.left k (entry_key hm)).2,
    fun k m hm => (H.right k (entry_key hm)).2, ?_, ?_⟩
  · obtain ⟨k, m, hk⟩ := exists_entry H.lwf
    intro e; unfold Holds at hk; rw [e] at hk; simp at hk
  · obtain ⟨k, m, hk⟩ := exists_entry H.rwf
    intro e; unfold Holds at hk; rw [e] at hk; simp at hk

/-- Splits, insertions and appends keep all leaves equally far down; growing adds one level. -/
theorem balance_kept {t : BNode} {h : Nat} (hh : t.Height h) :
    (∀ p a, t.CanSplit p a → (t.split p a).Height h) ∧
    (∀ k m p, t.CanInsert k p → (t.insert k m p).Height h) ∧
    (∀ ks ms p, t.CanAppend ks ms p → (t.append ks ms p).Height h) ∧
    t.grow.Height (h + 1) :=
  ⟨fun _ _ hc => split_height hc hh, fun _ _ _ hc => insert_height hc hh,
    fun _ _ _ hc => append_height hc hh, grow_height hh⟩

/-- A leaf child with at least two pairs can be split at any key but its least, and an index child
at any of its pivots. -/
theorem split_possible {ps cs} (h : (index ps cs).WF) (k : Key) :
    (∀ ks ms (i : Nat) p, (index ps cs).child k = leaf ks ms → 0 < i → ks[i]? = some p →
      (index ps cs).CanSplit ⟨index ps cs, p, 0⟩ (.leaf p)) ∧
    (∀ qs ds (i : Nat) p, (index ps cs).child k = index qs ds → qs[i]? = some p →
      (index ps cs).CanSplit ⟨index ps cs, p, 0⟩ (.index p i)) := by
  have same : ∀ p, ((index ps cs).child k).AllKeys p →
      (index ps cs).child p = (index ps cs).child k := by
    intro p hp
    rw [child_index, child_index, (wf_index.mp h).2.2.2 _ _ p (child_some h k) hp]
  constructor
  · intro ks ms i p hc hi hp
    refine ⟨h, h, rfl, rfl, h, trivial, ?_⟩
    have hw := child_wf h k
    rw [hc] at hw
    show (SplitArg.leaf p).WF ((index ps cs).child p)
    rw [same p (by rw [hc, AllKeys]; exact List.mem_of_getElem? hp), hc]
    exact leaf_splittable hw hi hp
  · intro qs ds i p hc hp
    refine ⟨h, h, rfl, rfl, h, trivial, ?_⟩
    have hw := child_wf h k
    rw [hc] at hw
    show (SplitArg.index p i).WF ((index ps cs).child p)
    rw [same p (by rw [hc]; exact allKeys_index.mpr (.inl (List.mem_of_getElem? hp))), hc]
    exact ⟨trivial, hw, hp⟩

/-! ### On the tree of C18 -/

example : (C18.demo.split ⟨C18.demo, 7, 0⟩ (.leaf 7)).query 7 = .define 70 := by
  rw [(split_invisible C18.demo_split).2.2]; exact C18.demo_query7

example : C18.demo.Height 1 := by
  unfold C18.demo Height
  intro c hc
  simp only [List.mem_cons, List.not_mem_nil, or_false] at hc
  rcases hc with rfl | rfl | rfl <;> exact leaf_height.mpr rfl

/-- An index split: after growing, the old root is cut at its pivot 5. -/
example : C18.demo.grow.CanSplit ⟨C18.demo.grow, 5, 0⟩ (.index 5 0) :=
  (split_possible (grow_invisible C18.demo_wf).1 5).2 [5, 8] _ 0 5 rfl rfl

example : C18.demo.grow.split ⟨C18.demo.grow, 5, 0⟩ (.index 5 0) = .index [5]
    [.index [] [.leaf [1, 3] [.define 10, .define 30]],
     .index [8] [.leaf [5, 7] [.define 50, .define 70], .leaf [9] [.define 90]]] := rfl

end Verif.C19
