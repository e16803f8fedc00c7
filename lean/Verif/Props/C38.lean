import Verif.Alloc.LikesTree
import Verif.Props.C17
/-
C38. The betree with reference counting records, for every node page and every buffer page, the
number of references to it from the root and from pages reached from the root; a page may be
released exactly when that number is zero.
Specification: `CountIs`, `CountRefs.NodeRef`, `CountRefs.BufRef` (Alloc/LikesSpec.lean): a list
without repetition of all references. `Reach` and `ReachableBuffer` are those of C17.
-/
namespace Verif.C38
open LinkedBetree CountRefs LikesBetree MapBehaviour

theorem exec_inv {img : Stamped Linked} {tr s} (h : (LikesBetree.machine img).Exec tr s) :
    LikesBetree.Inv s :=
  Machine.exec_invariant (M := LikesBetree.machine img) (I := fun _ s => LikesBetree.Inv s)
    (fun _ hs => LikesBetree.init_inv hs) (fun _ _ _ _ hi hs => (LikesBetree.step hi hs).2) h

/-- The recorded counts are the numbers of references. -/
theorem counts_exact {img : Stamped Linked} {tr s} (h : (LikesBetree.machine img).Exec tr s)
    (b : Address) :
    CountIs (NodeRef s.betree.linked b) (s.betreeLikes.count b) ∧
    CountIs (BufRef s.betree.linked b) (s.bufferLikes.count b) := by
  have hi := exec_inv h
  obtain ⟨hw, hs, _⟩ := inv_sees hi.linked
  rw [hi.tree, hi.buf]
  exact ⟨count_node hw hs b, count_buf hw hs b⟩

/-- `CountIs` fixes the number, so `counts_exact` leaves no choice. -/
theorem countIs_unique {α : Type} {P : α → Prop} {k k' : Nat} (h : CountIs P k) (h' : CountIs P k') :
    k = k' := h.unique h'

/-- A page is counted exactly when something reached from the root refers to it, and exactly when
it is itself reached. -/
theorem counted_iff {img : Stamped Linked} {tr s} (h : (LikesBetree.machine img).Exec tr s)
    (b : Address) :
    (0 < s.betreeLikes.count b ↔ ∃ x, NodeRef s.betree.linked b x) ∧
    (0 < s.betreeLikes.count b ↔ Reach s.betree.linked.dv s.betree.linked.root b) ∧
    (0 < s.bufferLikes.count b ↔ s.betree.linked.ReachableBuffer b) := by
  have hi := exec_inv h
  obtain ⟨hw, hs, _⟩ := inv_sees hi.linked
  refine ⟨(counts_exact h b).1.pos, ?_, ?_⟩
  · rw [Multiset.count_pos, hi.tree]; exact mem_likesAt hs
  · rw [Multiset.count_pos, hi.buf]; exact mem_bufferLikes hs

/-- Node pages are never shared: one reference each. -/
theorem nodes_unshared {img : Stamped Linked} {tr s} (h : (LikesBetree.machine img).Exec tr s)
    (b : Address) : s.betreeLikes.count b ≤ 1 := by
  have hi := exec_inv h
  obtain ⟨hw, hs, _⟩ := inv_sees hi.linked
  obtain ⟨A, h1, _, h3⟩ := pages_exist hw hs
  rw [hi.tree, h3, Multiset.coe_count]
  exact List.nodup_iff_count_le_one.mp h1 b

/-- Counted pages are on their disks. -/
theorem counted_kept {img : Stamped Linked} {tr s} (h : (LikesBetree.machine img).Exec tr s)
    (b : Address) :
    (0 < s.betreeLikes.count b → s.betree.linked.dv.Has b) ∧
    (0 < s.bufferLikes.count b → s.betree.linked.bdv.Has b) := by
  have hi := exec_inv h
  obtain ⟨_, h1, h2⟩ := counted_iff h b
  exact ⟨fun h => reach_has (h1.mp h), fun h => hi.linked.2.1 b (h2.mp h)⟩

/-- What a step drops is not referred to any more. -/
theorem dropped_unreferenced {img : Stamped Linked} {tr s l s'}
    (h : (LikesBetree.machine img).Exec tr s) (hs : LikesBetree.Next s l s') (b : Address) :
    (¬ s'.betree.linked.dv.Has b → s'.betreeLikes.count b = 0 ∧ ∀ x, ¬ NodeRef s'.betree.linked b x) ∧
    (¬ s'.betree.linked.bdv.Has b → s'.bufferLikes.count b = 0 ∧ ∀ x, ¬ BufRef s'.betree.linked b x) := by
  have h' : (LikesBetree.machine img).Exec (tr ++ [l]) s' := h.snoc hs
  obtain ⟨c1, c2⟩ := counts_exact h' b
  obtain ⟨k1, k2⟩ := counted_kept h' b
  refine ⟨fun hn => ?_, fun hn => ?_⟩
  · have h0 : s'.betreeLikes.count b = 0 := Nat.eq_zero_of_not_pos fun hp => hn (k1 hp)
    exact ⟨h0, fun x hx => by have := c1.pos.mpr ⟨x, hx⟩; omega⟩
  · have h0 : s'.bufferLikes.count b = 0 := Nat.eq_zero_of_not_pos fun hp => hn (k2 hp)
    exact ⟨h0, fun x hx => by have := c2.pos.mpr ⟨x, hx⟩; omega⟩

/-- Every uncounted page can be released: some step leaves exactly the counted pages on the disks,
with all counts as before. -/
theorem release {img : Stamped Linked} {tr s} (h : (LikesBetree.machine img).Exec tr s) :
    ∃ s', LikesBetree.Next s .internal s' ∧
      s'.betreeLikes = s.betreeLikes ∧ s'.bufferLikes = s.bufferLikes ∧
      (∀ b, s'.betree.linked.dv.Has b ↔ 0 < s'.betreeLikes.count b) ∧
      (∀ b, s'.betree.linked.bdv.Has b ↔ 0 < s'.bufferLikes.count b) := by
  have hi := exec_inv h
  obtain ⟨g1, g2, _⟩ := gc_step hi.linked
  have hs' : LikesBetree.Next s .internal
      { s with betree := { s.betree with linked := collect s.betree.linked } } := .bufferNoop g1
  refine ⟨_, hs', rfl, rfl, fun b => ⟨fun hb => ?_, (counted_kept (h.snoc hs') b).1⟩,
    fun b => ⟨fun hb => ?_, (counted_kept (h.snoc hs') b).2⟩⟩
  · refine (counted_iff h b).2.1.mpr ?_
    by_cases hr : Reach s.betree.linked.dv s.betree.linked.root b
    · exact hr
    · exact absurd (by simp only [collect, if_neg hr]) hb
  · refine (counted_iff h b).2.2.mpr ?_
    by_cases hr : s.betree.linked.ReachableBuffer b
    · exact hr
    · exact absurd (by simp only [collect, if_neg hr]) hb

/-- Counting neither adds nor removes behaviour: the runs are exactly those of the linked betree. -/
theorem same_runs {img : Stamped Linked} {tr} {b : LinkedBetree.State} :
    (∃ s, (LikesBetree.machine img).Exec tr s ∧ s.betree = b) ↔
      (LinkedBetree.machine img).Exec tr b := by
  constructor
  · rintro ⟨s, h, rfl⟩
    obtain ⟨t, h1, h2, rfl⟩ := Machine.refine (M := LikesBetree.machine img)
      (N := LinkedBetree.machine img) id (fun s t => LikesBetree.Inv s ∧ t = s.betree)
      (fun s hs => ⟨_, hs.1, LikesBetree.init_inv hs, rfl⟩)
      (fun s l s' t ht hs => by
        obtain ⟨hi, rfl⟩ := ht
        obtain ⟨g1, g2⟩ := LikesBetree.step hi hs
        exact ⟨_, g1, g2, rfl⟩) h
    rwa [List.map_id] at h1
  · intro h
    refine Machine.exec_invariant (M := LinkedBetree.machine img)
      (I := fun tr b => ∃ s, (LikesBetree.machine img).Exec tr s ∧ s.betree = b) ?_ ?_ h
    · intro b hb
      have hi : LikesBetree.Init img
          ⟨b, (transitiveLikes b.linked).1, (transitiveLikes b.linked).2⟩ := ⟨hb, rfl, rfl⟩
      exact ⟨_, ⟨_, hi, .nil _⟩, rfl⟩
    · rintro tr b l b' ⟨s, hs, rfl⟩ hn
      obtain ⟨s', h1, h2⟩ := LikesBetree.lift (exec_inv hs) hn
      exact ⟨s', hs.snoc h1, h2⟩

/-- So it is a map. -/
theorem acts_as_map {img : Stamped Linked} {tr s} (h : (LikesBetree.machine img).Exec tr s) :
    ActsAsMap C17.answer (C17.answer img.value) img.seqEnd tr :=
  C17.acts_as_map (same_runs.mp ⟨s, h, rfl⟩)

/-- The run of C17 (push, grow, split, push, flush, compact, collect, freeze, queries), counted. -/
theorem demo : ∃ l s, (LikesBetree.machine C17.emptyImage).Exec
    [.put C16.demoPuts1, .internal, .internal, .internal, .put C16.demoPuts2, .internal, .internal,
     .internal, .internal, .freezeAs ⟨l, 3⟩, .query 3 1 11, .query 3 9 20] s := by
  obtain ⟨l, b, h⟩ := C17.demo
  obtain ⟨s, hs, _⟩ := same_runs.mpr h
  exact ⟨l, s, hs⟩

/-! ### Two leaves that share a buffer page, as after splitting a leaf -/

def rootPage : Address := ⟨1, 0⟩
def leftPage : Address := ⟨1, 1⟩
def rightPage : Address := ⟨2, 0⟩
def bufPage : Address := ⟨3, 0⟩

def rootNode : LNode :=
  { buffers := [], pivots := ⟨[.elem 0, .elem 5, .max]⟩, children := [some leftPage, some rightPage],
    flushed := [0, 0] }
def leaf (a b : Element) : LNode :=
  { buffers := [bufPage], pivots := ⟨[a, b]⟩, children := [none], flushed := [0] }

def sharedImage : Stamped Linked :=
  { value :=
      { root := some rootPage
        dv := fun a => if a = rootPage then some rootNode
          else if a = leftPage then some (leaf (.elem 0) (.elem 5))
          else if a = rightPage then some (leaf (.elem 5) .max) else none
        bdv := fun a => if a = bufPage then some PMap.empty else none }
    seqEnd := 0 }

theorem shared_pages {a n} (h : sharedImage.value.dv a = some n) :
    (a = rootPage ∧ n = rootNode) ∨ (a = leftPage ∧ n = leaf (.elem 0) (.elem 5)) ∨
      (a = rightPage ∧ n = leaf (.elem 5) .max) := by
  simp only [sharedImage] at h
  split at h
  · cases h; exact .inl ⟨by assumption, rfl⟩
  · split at h
    · cases h; exact .inr (.inl ⟨by assumption, rfl⟩)
    · split at h
      · cases h; exact .inr (.inr ⟨by assumption, rfl⟩)
      · cases h

theorem leaf_sees {a : Address} {x y : Element} (h : sharedImage.value.dv a = some (leaf x y)) :
    Sees sharedImage.value.dv sharedImage.value.bdv (some a)
      (.node ⟨[PMap.empty], [0]⟩ ⟨[x, y]⟩ [.nil]) := by
  refine Sees.node (n := leaf x y) h (Looks.single rfl) rfl ?_
  intro i hi
  have hi : i < 1 := hi
  obtain rfl : i = 0 := by omega
  exact .nil

theorem shared_sees : Sees sharedImage.value.dv sharedImage.value.bdv sharedImage.value.root
    (.node ⟨[], [0, 0]⟩ ⟨[.elem 0, .elem 5, .max]⟩
      [.node ⟨[PMap.empty], [0]⟩ ⟨[.elem 0, .elem 5]⟩ [.nil],
       .node ⟨[PMap.empty], [0]⟩ ⟨[.elem 5, .max]⟩ [.nil]]) := by
  refine Sees.node (n := rootNode) rfl Looks.nil rfl ?_
  intro i hi
  have hi : i < 2 := hi
  rcases (show i = 0 ∨ i = 1 by omega) with rfl | rfl
  · exact leaf_sees rfl
  · exact leaf_sees rfl

theorem pivots_wf {x y : Element} (h : Element.Lt x y) (hx : x ≠ .max) : (⟨[x, y]⟩ : PivotTable).WF :=
  PivotTable.wf_of (by simp) (by simpa using h) (by simpa using hx)

theorem root_pivots : (⟨[.elem 0, .elem 5, .max]⟩ : PivotTable).WF :=
  PivotTable.wf_of (by simp) (by simp [Element.lt_iff, Element.rank]) (by simp)

theorem left_pivots : (⟨[.elem 0, .elem 5]⟩ : PivotTable).WF :=
  pivots_wf (by simp [Element.lt_iff, Element.rank]) (by simp)

theorem right_pivots : (⟨[.elem 5, .max]⟩ : PivotTable).WF :=
  pivots_wf (by simp [Element.lt_iff, Element.rank]) (by simp)

theorem leaf_wf {x y : Element} (h : (⟨[x, y]⟩ : PivotTable).WF) : (leaf x y).WF :=
  ⟨h, rfl, rfl, by
    intro i hi
    have hi : i < 1 := hi
    obtain rfl : i = 0 := by omega
    exact Nat.zero_le _⟩

theorem shared_wf : sharedImage.value.dv.WF := by
  refine ⟨?_, ?_, [rootPage, leftPage, rightPage], ?_⟩
  · intro a n h
    rcases shared_pages h with ⟨_, rfl⟩ | ⟨_, rfl⟩ | ⟨_, rfl⟩
    · exact ⟨root_pivots, rfl, rfl, by
        intro i hi
        have hi : i < 2 := hi
        rcases (show i = 0 ∨ i = 1 by omega) with rfl | rfl <;> exact Nat.zero_le _⟩
    · exact leaf_wf left_pivots
    · exact leaf_wf right_pivots
  · intro a n h
    have hleaf : ∀ x y, sharedImage.value.dv.NodeNondangling (leaf x y) ∧
        sharedImage.value.dv.NodeLinked (leaf x y) := by
      intro x y
      constructor
      · intro i hi c hc
        have hi : i < 1 := hi
        obtain rfl : i = 0 := by omega
        cases hc
      · intro i hi c m hc
        have hi : i < 1 := hi
        obtain rfl : i = 0 := by omega
        cases hc
    rcases shared_pages h with ⟨_, rfl⟩ | ⟨_, rfl⟩ | ⟨_, rfl⟩
    · constructor
      · intro i hi c hc
        have hi : i < 2 := hi
        rcases (show i = 0 ∨ i = 1 by omega) with rfl | rfl
        · cases hc; exact (PMap.has_iff _ _).mpr ⟨_, rfl⟩
        · cases hc; exact (PMap.has_iff _ _).mpr ⟨_, rfl⟩
      · intro i hi c m hc hm
        have hi : i < 2 := hi
        rcases (show i = 0 ∨ i = 1 by omega) with rfl | rfl
        · cases hc; cases hm; rfl
        · cases hc; cases hm; rfl
    · exact hleaf _ _
    · exact hleaf _ _
  · intro a ha
    obtain ⟨n, hn⟩ := (PMap.has_iff _ _).mp ha
    rcases shared_pages hn with ⟨rfl, _⟩ | ⟨rfl, _⟩ | ⟨rfl, _⟩ <;> simp

theorem shared_inv : sharedImage.value.Inv := by
  refine (inv_iff _).mpr ⟨shared_wf, _, shared_sees, shared_sees.wf shared_wf, fun _ => rfl⟩

/-- A run starts from this image; its buffer page is counted twice, its node pages once. -/
theorem shared_counts : ∃ s, (LikesBetree.machine sharedImage).Exec [] s ∧
    s.bufferLikes.count bufPage = 2 ∧ s.betreeLikes.count rootPage = 1 ∧
    s.betreeLikes.count leftPage = 1 ∧ s.betreeLikes.count rightPage = 1 := by
  obtain ⟨h1, h2, h3⟩ := shared_inv
  have hex : (LinkedBetree.machine sharedImage).Exec [] ⟨.emptyAt 0, sharedImage.value⟩ :=
    ⟨_, ⟨h1, h2, h3, rfl⟩, .nil _⟩
  obtain ⟨s, hs, hb⟩ := same_runs.mpr hex
  have hl : s.betree.linked = sharedImage.value := by rw [hb]
  have rr : Reach sharedImage.value.dv sharedImage.value.root rootPage := .here (n := rootNode) rfl
  have rl : Reach sharedImage.value.dv sharedImage.value.root leftPage :=
    .down (n := rootNode) (i := 0) rfl (by exact Nat.succ_pos 1)
      (.here (n := leaf (.elem 0) (.elem 5)) rfl)
  have rt : Reach sharedImage.value.dv sharedImage.value.root rightPage :=
    .down (n := rootNode) (i := 1) rfl (by exact Nat.lt_succ_self 1)
      (.here (n := leaf (.elem 5) .max) rfl)
  have one : ∀ b, Reach sharedImage.value.dv sharedImage.value.root b →
      s.betreeLikes.count b = 1 := by
    intro b hr
    have a1 := nodes_unshared hs b
    have a2 := (counted_iff hs b).2.1.mpr (by rw [hl]; exact hr)
    omega
  refine ⟨s, hs, ?_, one _ rr, one _ rl, one _ rt⟩
  have hc := (counts_exact hs bufPage).2
  rw [hl] at hc
  refine hc.unique ⟨[(leftPage, 0), (rightPage, 0)], by decide, ?_, rfl⟩
  rintro ⟨a, j⟩
  constructor
  · intro h
    simp only [List.mem_cons, List.not_mem_nil, or_false, Prod.mk.injEq] at h
    rcases h with ⟨rfl, rfl⟩ | ⟨rfl, rfl⟩
    · exact ⟨rl, _, rfl, rfl⟩
    · exact ⟨rt, _, rfl, rfl⟩
  · rintro ⟨_, n, hn, hj⟩
    have pos : ∀ x y, (leaf x y).buffers[j]? = some bufPage → j = 0 := by
      intro x y h
      cases j with
      | zero => rfl
      | succ j => simp [leaf] at h
    rcases shared_pages hn with ⟨_, rfl⟩ | ⟨rfl, rfl⟩ | ⟨rfl, rfl⟩
    · simp [rootNode] at hj
    · rw [pos _ _ hj]; simp
    · rw [pos _ _ hj]; simp

end Verif.C38
