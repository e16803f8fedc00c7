import Verif.Betree.BranchProof
/-
C18. B+tree insert and append are exactly map updates.
Specification: `BNode.entries` (the pairs in the leaves, left to right) and `BNode.contents` (looking
a key up in that list).
-/
namespace Verif.C18
open Verif BNode

/-- In a well-formed tree the stored pairs are strictly sorted by key, and the query descends to
exactly the pair stored for the key. -/
theorem query_is_lookup {t : BNode} (h : t.WF) :
    t.entries.Pairwise (fun a b => KeyT.Lt a.1 b.1) ∧
    ∀ k, t.query k = (t.entries.lookup k).getD .nop :=
  ⟨entries_sorted h, query_contents h⟩

/-- Inserting at the end of any legal path is a map insertion, and the tree stays well formed. -/
theorem insert_is_update {t : BNode} {k : Key} {m : Message} {p : BPath} (h : t.CanInsert k p) :
    (t.insert k m p).WF ∧ (t.insert k m p).contents = t.contents.insert k m := by
  obtain ⟨h1, h2⟩ := insert_spec (m := m) h
  refine ⟨h1, contents_eq h1 fun k' m' => ?_⟩
  rw [h2]
  unfold PMap.insert
  by_cases hk : k' = k
  · simp [hk, eq_comm]
  · simp [hk, contents_iff h.1]

/-- The same in terms of queries. -/
theorem insert_query {t : BNode} {k : Key} {m : Message} {p : BPath} (h : t.CanInsert k p) :
    (t.insert k m p).query k = m ∧ ∀ k', k' ≠ k → (t.insert k m p).query k' = t.query k' := by
  obtain ⟨h1, h2⟩ := insert_is_update (m := m) h
  refine ⟨?_, fun k' hk => ?_⟩
  · rw [query_contents h1, h2]; simp
  · rw [query_contents h1, h2, query_contents h.1, PMap.insert_other _ _ hk]

/-- Every key has a legal path to insert it at. -/
theorem insert_always_possible {t : BNode} (h : t.WF) (k : Key) : ∃ p, t.CanInsert k p :=
  insert_possible h k

/-- Appending a run adds exactly the run: it is put between two parts of the stored pairs,
none of its keys was stored before, and the answers are those of the run and of the old tree. -/
theorem append_is_update {t : BNode} {ks : List Key} {ms : List Message} {p : BPath}
    (h : t.CanAppend ks ms p) :
    (t.append ks ms p).WF ∧
    (∃ pre post, t.entries = pre ++ post ∧
      (t.append ks ms p).entries = pre ++ ks.zip ms ++ post) ∧
    (∀ k ∈ ks, t.contents k = none) ∧
    (t.append ks ms p).contents = t.contents.unionRight (fun k => (ks.zip ms).lookup k) := by
  obtain ⟨h1, h2, h3⟩ := append_spec h
  have hw : t.WF := by obtain ⟨hv, rfl, _⟩ := h; exact BPath.valid_wf hv
  have hnew : ∀ k ∈ ks, t.contents k = none := by
    intro k hk
    cases e : t.contents k with
    | none => rfl
    | some m => exact absurd ((contents_iff hw).mp e) (h3 k hk m)
  refine ⟨h1, h2, hnew, contents_eq h1 fun k m => ?_⟩
  obtain ⟨pre, post, e1, e2⟩ := h2
  have hrun : (leaf ks ms).WF := by
    obtain ⟨_, _, a1, a2, a3, _⟩ := h
    exact wf_leaf.mpr ⟨a1, a2, a3⟩
  have hr := fun m => contents_iff hrun (k := k) (m := m)
  have hl : (leaf ks ms).contents k = (ks.zip ms).lookup k := by unfold contents; rw [entries]
  have hz : ∀ m, (leaf ks ms).Holds k m ↔ (k, m) ∈ ks.zip ms := by
    intro m; unfold Holds; rw [entries]
  have hh : (t.append ks ms p).Holds k m ↔ t.Holds k m ∨ (k, m) ∈ ks.zip ms := by
    unfold Holds; rw [e1, e2]; simp only [List.mem_append]
    constructor
    · rintro ((h | h) | h)
      · exact .inl (.inl h)
      · exact .inr h
      · exact .inl (.inr h)
    · rintro ((h | h) | h)
      · exact .inl (.inl h)
      · exact .inr h
      · exact .inl (.inr h)
  rw [hh]
  unfold PMap.unionRight
  simp only
  rw [hl] at hr
  cases e : (ks.zip ms).lookup k with
  | none =>
    rw [e] at hr
    simp only
    rw [contents_iff hw, ← hz, ← hr]
    simp
  | some m' =>
    have hm' := (hz m').mp ((hr m').mp e)
    have hno := h3 k (List.of_mem_zip hm').1
    rw [← hz, ← hr, e]
    constructor
    · rintro (h | h)
      · exact absurd h (hno m)
      · exact h
    · intro h; exact .inr h

/-- The operations on a branch. -/
inductive Op : BNode → (PMap Key Message → PMap Key Message) → BNode → Prop
  | insert {t k p} (m : Message) : t.CanInsert k p →
      Op t (fun f => f.insert k m) (t.insert k m p)
  | append {t ks ms p} : t.CanAppend ks ms p →
      Op t (fun f => f.unionRight (fun k => (ks.zip ms).lookup k)) (t.append ks ms p)
  | split {t p a} : t.CanSplit p a → Op t id (t.split p a)
  | grow {t} : Op t id t.grow

/-- Any number of operations, with the map updates they stand for in order. -/
inductive Ops : BNode → List (PMap Key Message → PMap Key Message) → BNode → Prop
  | nil {t} : Ops t [] t
  | snoc {t us t' u t''} : Ops t us t' → Op t' u t'' → Ops t (us ++ [u]) t''

/-- Any sequence of legal operations keeps the tree well formed, and its contents are those of a
map to which the updates were applied in order (splits and growth change nothing). -/
theorem any_sequence {t us t'} (hw : t.WF) (h : Ops t us t') :
    t'.WF ∧ t'.contents = us.foldl (fun f u => u f) t.contents ∧
    ∀ k, t'.query k = ((us.foldl (fun f u => u f) t.contents) k).getD .nop := by
  have main : t'.WF ∧ t'.contents = us.foldl (fun f u => u f) t.contents := by
    induction h with
    | nil => exact ⟨hw, rfl⟩
    | snoc _ ho ih =>
      obtain ⟨i1, i2⟩ := ih
      rw [List.foldl_append, ← i2]
      cases ho with
      | insert m hc => exact insert_is_update hc
      | append hc =>
        obtain ⟨a, _, _, d⟩ := append_is_update hc
        exact ⟨a, d⟩
      | split hc =>
        obtain ⟨a, b⟩ := split_spec hc
        exact ⟨a, by unfold contents; rw [b]; rfl⟩
      | grow =>
        obtain ⟨a, b⟩ := grow_spec i1
        exact ⟨a, by unfold contents; rw [b]; rfl⟩
  refine ⟨main.1, main.2, fun k => ?_⟩
  rw [query_contents main.1, main.2]

/-! ### A tree of height two -/

instance (a b : Key) : Decidable (KeyT.Lt a b) := by unfold KeyT.Lt KeyT.Lte; infer_instance

/-- Three leaves under one root: keys 1 3 | 5 7 | 9 with pivots 5 and 8. -/
def demo : BNode := .index [5, 8] [.leaf [1, 3] [.define 10, .define 30],
  .leaf [5, 7] [.define 50, .define 70], .leaf [9] [.define 90]]

theorem demo_wf : demo.WF := by
  refine wf_index.mpr ⟨rfl, (KeyT.strictlySorted_iff _).mpr (by decide), ?_, ?_⟩
  · intro c hc
    simp only [List.mem_cons, List.not_mem_nil, or_false] at hc
    rcases hc with rfl | rfl | rfl <;>
      exact wf_leaf.mpr ⟨by decide, rfl, (KeyT.strictlySorted_iff _).mpr (by decide)⟩
  · intro i c x hc hx
    match i, hc with
    | 0, hc => cases hc; simp [AllKeys] at hx; rcases hx with rfl | rfl <;> decide
    | 1, hc => cases hc; simp [AllKeys] at hx; rcases hx with rfl | rfl <;> decide
    | 2, hc => cases hc; simp [AllKeys] at hx; subst hx; decide
    | i + 3, hc => cases hc

theorem demo_query7 : demo.query 7 = .define 70 := by
  have h : demo.Holds 7 (.define 70) :=
    holds_index.mpr ⟨.leaf [5, 7] [.define 50, .define 70], by simp, holds_leaf.mpr ⟨1, rfl, rfl⟩⟩
  exact (query_spec demo_wf).1 _ h

def path (k : Key) : BPath := ⟨demo, k, 1⟩

theorem demo_child6 : demo.child 6 = .leaf [5, 7] [.define 50, .define 70] := rfl

theorem demo_insert : demo.CanInsert 6 (path 6) :=
  ⟨demo_wf, ⟨demo_wf, trivial, child_wf demo_wf 6⟩, rfl, rfl, trivial⟩

example : (demo.insert 6 (.define 60) (path 6)).query 6 = .define 60 ∧
    (demo.insert 6 (.define 60) (path 6)).query 5 = demo.query 5 :=
  ⟨(insert_query demo_insert).1, (insert_query demo_insert).2 5 (by decide)⟩

example : demo.insert 6 (.define 60) (path 6) = .index [5, 8]
    [.leaf [1, 3] [.define 10, .define 30],
     .leaf [5, 6, 7] [.define 50, .define 60, .define 70], .leaf [9] [.define 90]] := rfl

/-- The run 10, 12 is appended to the last leaf. -/
theorem demo_append : demo.CanAppend [10, 12] [.define 1, .define 2] (path 10) := by
  refine ⟨⟨demo_wf, trivial, child_wf demo_wf 10⟩, rfl, by decide, rfl,
    (KeyT.strictlySorted_iff _).mpr (by decide), trivial, ?_, rfl, ?_⟩
  · intro last first h1 h2
    cases (show some (9 : Key) = some last from h1)
    cases (show some (10 : Key) = some first from h2)
    decide
  · intro last h
    cases (show some (12 : Key) = some last from h)
    exact ⟨rfl, rfl⟩

example : (demo.append [10, 12] [.define 1, .define 2] (path 10)).contents 12 = some (.define 2) ∧
    demo.contents 12 = none := by
  obtain ⟨_, _, h1, h2⟩ := append_is_update demo_append
  exact ⟨by rw [h2]; rfl, h1 12 (by decide)⟩

/-- The splitting argument: cut the leaf 5 7 at 7. -/
theorem demo_split : demo.CanSplit ⟨demo, 7, 0⟩ (.leaf 7) :=
  ⟨demo_wf, demo_wf, rfl, rfl, demo_wf, trivial, leaf_splittable
    (ks := [5, 7]) (ms := [.define 50, .define 70]) (child_wf demo_wf 7) (i := 1) (by decide) rfl⟩

example : demo.split ⟨demo, 7, 0⟩ (.leaf 7) = .index [5, 7, 8]
    [.leaf [1, 3] [.define 10, .define 30], .leaf [5] [.define 50], .leaf [7] [.define 70],
     .leaf [9] [.define 90]] := rfl

/-- A run of all four operations: grow, split the root in two, insert. -/
theorem demo_ops : ∃ t, Ops demo [id, id, fun f => f.insert 6 (.define 60)] t := by
  have h1 : demo.grow.WF := (grow_spec demo_wf).1
  have h2 : demo.grow.CanSplit ⟨demo.grow, 5, 0⟩ (.index 5 0) :=
    ⟨h1, h1, rfl, rfl, h1, trivial, trivial, demo_wf, rfl⟩
  obtain ⟨p, h3⟩ := insert_possible (split_spec h2).1 6
  exact ⟨_, .snoc (.snoc (.snoc .nil .grow) (.split h2)) (.insert (.define 60) h3)⟩

example : ∃ t us, Ops demo us t ∧ t.query 6 = .define 60 ∧ t.query 7 = .define 70 := by
  obtain ⟨t, h⟩ := demo_ops
  obtain ⟨_, _, h3⟩ := any_sequence demo_wf h
  refine ⟨t, _, h, by rw [h3]; rfl, ?_⟩
  rw [h3]
  show ((demo.contents.insert 6 (.define 60)) 7).getD .nop = _
  rw [PMap.insert_other _ _ (by decide), ← query_contents demo_wf, demo_query7]

end Verif.C18
