import Verif.Props.C38
/-
C42. The betree with unit counts records, for every allocation unit, the number of references to
pages of that unit; a unit is free exactly when nothing reached from the root is in it, and pages
of units in use are kept.
Specification: as C38, with references grouped by the unit of the page they refer to.
-/
namespace Verif.C42
open LinkedBetree CountRefs LikesBetree MapBehaviour
open AllocationBetree (Rel KeepsUnits)

theorem exec_rel {img : Stamped Linked} {tr s} (h : (AllocationBetree.machine img).Exec tr s) :
    ∃ t, (LikesBetree.machine img).Exec tr t ∧ Rel s t := by
  obtain ⟨t, h1, h2⟩ := Machine.refine (M := AllocationBetree.machine img)
    (N := LikesBetree.machine img) id Rel (fun s hs => AllocationBetree.init_rel hs)
    (fun s l s' t ht hs => AllocationBetree.step ht hs) h
  rw [List.map_id] at h1
  exact ⟨t, h1, h2⟩

/-- The recorded unit counts are the numbers of references to pages of the unit. -/
theorem unit_counts_exact {img : Stamped Linked} {tr s}
    (h : (AllocationBetree.machine img).Exec tr s) (u : Nat) :
    CountIs (fun x => ∃ b, b.au = u ∧ NodeRef s.betree.linked b x) (s.betreeAus.count u) ∧
    CountIs (fun x => ∃ b, b.au = u ∧ BufRef s.betree.linked b x) (s.bufferAus.count u) := by
  obtain ⟨t, ht, hr⟩ := exec_rel h
  rw [hr.tree, hr.buf, ← hr.betree]
  exact ⟨count_unit (R := NodeRef t.betree.linked) nodeRef_target (fun b => (C38.counts_exact ht b).1) u,
    count_unit (R := BufRef t.betree.linked) bufRef_target (fun b => (C38.counts_exact ht b).2) u⟩

/-- A unit is counted exactly when a page in it is reached. -/
theorem unit_used_iff {img : Stamped Linked} {tr s}
    (h : (AllocationBetree.machine img).Exec tr s) (u : Nat) :
    (0 < s.betreeAus.count u ↔ ∃ b, b.au = u ∧ Reach s.betree.linked.dv s.betree.linked.root b) ∧
    (0 < s.bufferAus.count u ↔ ∃ b, b.au = u ∧ s.betree.linked.ReachableBuffer b) := by
  obtain ⟨t, ht, hr⟩ := exec_rel h
  rw [Multiset.count_pos, Multiset.count_pos, hr.tree, hr.buf, ← hr.betree]
  constructor
  · constructor
    · intro hu
      obtain ⟨b, hb, e⟩ := AllocationBetree.mem_au hu
      exact ⟨b, e, (C38.counted_iff ht b).2.1.mp (Multiset.count_pos.mpr hb)⟩
    · rintro ⟨b, rfl, hb⟩
      exact Multiset.mem_map_of_mem _ (Multiset.count_pos.mp ((C38.counted_iff ht b).2.1.mpr hb))
  · constructor
    · intro hu
      obtain ⟨b, hb, e⟩ := AllocationBetree.mem_au hu
      exact ⟨b, e, (C38.counted_iff ht b).2.2.mp (Multiset.count_pos.mpr hb)⟩
    · rintro ⟨b, rfl, hb⟩
      exact Multiset.mem_map_of_mem _ (Multiset.count_pos.mp ((C38.counted_iff ht b).2.2.mpr hb))

/-- A unit counted neither for nodes nor for buffers can be given away: nothing reached lies in it,
and every page reached from the root, node or buffer, is on its disk. -/
theorem free_unit_unused {img : Stamped Linked} {tr s}
    (h : (AllocationBetree.machine img).Exec tr s) {u : Nat}
    (h1 : s.betreeAus.count u = 0) (h2 : s.bufferAus.count u = 0) (b : Address) :
    (Reach s.betree.linked.dv s.betree.linked.root b → b.au ≠ u ∧ s.betree.linked.dv.Has b) ∧
    (s.betree.linked.ReachableBuffer b → b.au ≠ u ∧ s.betree.linked.bdv.Has b) := by
  obtain ⟨g1, g2⟩ := unit_used_iff h u
  obtain ⟨t, ht, hr⟩ := exec_rel h
  have hi := C38.exec_inv ht
  rw [← hr.betree] at g1 g2 ⊢
  refine ⟨fun hb => ⟨fun e => ?_, reach_has hb⟩, fun hb => ⟨fun e => ?_, hi.linked.2.1 b hb⟩⟩
  · have := g1.mpr ⟨b, e, hb⟩; omega
  · have := g2.mpr ⟨b, e, hb⟩; omega

/-- Every run is a run of the linked betree (and of the betree with page counts, `exec_rel`). -/
theorem runs_linked {img : Stamped Linked} {tr s} (h : (AllocationBetree.machine img).Exec tr s) :
    (LinkedBetree.machine img).Exec tr s.betree := by
  obtain ⟨t, ht, hr⟩ := exec_rel h
  exact C38.same_runs.mp ⟨t, ht, hr.betree⟩

/-- So it is a map. -/
theorem acts_as_map {img : Stamped Linked} {tr s} (h : (AllocationBetree.machine img).Exec tr s) :
    ActsAsMap C17.answer (C17.answer img.value) img.seqEnd tr :=
  C17.acts_as_map (runs_linked h)

/-- Every step of the linked betree that keeps the pages of the units in use afterwards can be
taken. -/
theorem step_possible {img : Stamped Linked} {tr s l b}
    (h : (AllocationBetree.machine img).Exec tr s) (hn : LinkedBetree.Next s.betree l b)
    (hk : KeepsUnits s.betree.linked b.linked) :
    ∃ s', AllocationBetree.Next s l s' ∧ s'.betree = b := by
  obtain ⟨t, _, hr⟩ := exec_rel h
  exact AllocationBetree.lift hr hn hk

/-- All garbage can be dropped at any time; then a unit holds pages exactly when it is counted. -/
theorem release {img : Stamped Linked} {tr s} (h : (AllocationBetree.machine img).Exec tr s) :
    ∃ s', AllocationBetree.Next s .internal s' ∧
      s'.betree = { s.betree with linked := collect s.betree.linked } ∧
      s'.betreeAus = s.betreeAus ∧ s'.bufferAus = s.bufferAus ∧
      (∀ u, 0 < s'.betreeAus.count u ↔ ∃ b, b.au = u ∧ s'.betree.linked.dv.Has b) ∧
      (∀ u, 0 < s'.bufferAus.count u ↔ ∃ b, b.au = u ∧ s'.betree.linked.bdv.Has b) := by
  obtain ⟨t, ht, hr⟩ := exec_rel h
  have hl : s.betree.linked.Inv := by rw [← hr.betree]; exact (C38.exec_inv ht).linked
  have hs' : AllocationBetree.Next s .internal
      { s with betree := { s.betree with linked := collect s.betree.linked } } :=
    .bufferNoop (gc_step hl).1
  refine ⟨_, hs', rfl, rfl, rfl, fun u => ?_, fun u => ?_⟩
  · constructor
    · intro hu
      obtain ⟨b, e, hb⟩ := (unit_used_iff (h.snoc hs') u).1.mp hu
      exact ⟨b, e, reach_has hb⟩
    · rintro ⟨b, e, hb⟩
      refine (unit_used_iff h u).1.mpr ⟨b, e, ?_⟩
      by_cases hr : Reach s.betree.linked.dv s.betree.linked.root b
      · exact hr
      · exact absurd (by simp only [collect, if_neg hr]) hb
  · constructor
    · intro hu
      obtain ⟨b, e, hb⟩ := (unit_used_iff (h.snoc hs') u).2.mp hu
      exact ⟨b, e, (gc_step hl).2.1.2.1 b hb⟩
    · rintro ⟨b, e, hb⟩
      refine (unit_used_iff h u).2.mpr ⟨b, e, ?_⟩
      by_cases hr : s.betree.linked.ReachableBuffer b
      · exact hr
      · exact absurd (by simp only [collect, if_neg hr]) hb

/-! ### A concrete run -/

open FilteredBetree (layer)

/-- A run from the empty disk ends in a state that shows `t`. -/
def At (tr : List (BLabel Linked)) (t : FilteredBetree.State) : Prop :=
  ∃ s, (AllocationBetree.machine C17.emptyImage).Exec tr s ∧ Ready s.betree ∧ abs s.betree = t

theorem At.base {tr t} (h : At tr t) : C17.At tr t := by
  obtain ⟨s, he, h⟩ := h
  exact ⟨s.betree, runs_linked he, h⟩

theorem At.start : At [] ⟨.emptyAt 0, .nil⟩ := by
  obtain ⟨b, ⟨_, h0, hr⟩, h⟩ := C17.At.start
  cases hr
  have hi : AllocationBetree.Init C17.emptyImage ⟨b, toAuLikes (transitiveLikes b.linked).1,
    toAuLikes (transitiveLikes b.linked).2⟩ := ⟨h0, rfl, rfl⟩
  exact ⟨_, ⟨_, hi, .nil _⟩, h⟩

/-- From any reorganisation that keeps all pages. -/
theorem At.next {tr t} {s : AllocationBetree.State}
    (he : (AllocationBetree.machine C17.emptyImage).Exec tr s)
    (h : ∃ b, LinkedBetree.Next s.betree .internal b ∧ Ready b ∧ abs b = t ∧ Keeps s.betree b) :
    At (tr ++ [.internal]) t := by
  obtain ⟨b, h1, h2, h3, h4, h5⟩ := h
  obtain ⟨s', g1, rfl⟩ := step_possible he h1
    ⟨fun a _ ha _ _ => by
        obtain ⟨n, hn⟩ := (PMap.has_iff _ _).mp ha
        exact (PMap.has_iff _ _).mpr ⟨n, h4 a n hn⟩,
     fun a _ ha _ _ => by
        obtain ⟨n, hn⟩ := (PMap.has_iff _ _).mp ha
        exact (PMap.has_iff _ _).mpr ⟨n, h5 a n hn⟩⟩
  exact ⟨s', he.snoc g1, h2, h3⟩

theorem At.put {tr t} (h : At tr t) {p : MsgHistory} (hw : p.WF)
    (hs : p.seqStart = t.memtable.seqEnd) :
    At (tr ++ [.put p]) ⟨t.memtable.applyPuts p, t.root⟩ := by
  obtain ⟨s, he, hr, rfl⟩ := h
  have : AllocationBetree.Next s (.put p)
      { s with betree := { s.betree with memtable := s.betree.memtable.applyPuts p } } :=
    .noop (by intro h; cases h) ⟨_, .put hw hs⟩
  exact ⟨_, he.snoc this, hr, rfl⟩

/-- A run that pushes, grows, splits a leaf, pushes again, flushes into the left child and drops
all garbage. In the end a unit holds pages exactly when it is counted, and some unit is counted. -/
theorem demo : ∃ s, (AllocationBetree.machine C17.emptyImage).Exec
    [.put C16.demoPuts1, .internal, .internal, .internal, .put C16.demoPuts2, .internal, .internal,
     .internal] s ∧
    (∀ u, 0 < s.betreeAus.count u ↔ ∃ b, b.au = u ∧ s.betree.linked.dv.Has b) ∧
    ∃ u, 0 < s.betreeAus.count u := by
  have w1 : C16.demoPuts1.WF :=
    MsgHistory.wf_concat (MsgHistory.wf_singletonAt _ _) (MsgHistory.wf_singletonAt _ _) rfl
  obtain ⟨s1, e1, r1, a1⟩ := At.start.put w1 rfl
  have e2 := At.next e1 (C17.possible r1).1
  rw [show treeOf s1.betree.linked = _ from congrArg FilteredBetree.State.root a1,
    show s1.betree.memtable = _ from congrArg FilteredBetree.State.memtable a1] at e2
  obtain ⟨s2, e2', r2, a2⟩ := e2
  have e3 := At.next e2' (C17.possible r2).2.1
  rw [show treeOf s2.betree.linked = _ from congrArg FilteredBetree.State.root a2,
    show s2.betree.memtable = _ from congrArg FilteredBetree.State.memtable a2] at e3
  have h3 := e3.base.ok
  have h3' := (Tree.wf_node.mp h3.1).2.2.2 0 _ rfl
  obtain ⟨s3, e3', r3, a3⟩ := e3
  have t3 : treeOf s3.betree.linked = _ := congrArg FilteredBetree.State.root a3
  have m3 : s3.betree.memtable = _ := congrArg FilteredBetree.State.memtable a3
  have e4 := At.next e3' (((C17.possible r3).2.2.1 1 0 (by
      rw [t3]; exact C16.rootPath h3.1 (by exact trivial) h3.2 1)).1 (.leaf 0 5) (by
      rw [t3]
      exact ⟨h3.1, by exact trivial, _, rfl, h3'.1, ⟨by rfl, ⟨by rfl, by rfl⟩⟩,
        by rw [h3'.2 (by exact trivial)]; exact Domain.total_contains 5, by intro h; cases h⟩))
  rw [t3, m3] at e4
  have e5 := e4.put (MsgHistory.wf_singletonAt 2 ⟨1, .define 11⟩) rfl
  obtain ⟨s5, e5', r5, a5⟩ := e5
  have e6 := At.next e5' (C17.possible r5).1
  rw [show treeOf s5.betree.linked = _ from congrArg FilteredBetree.State.root a5,
    show s5.betree.memtable = _ from congrArg FilteredBetree.State.memtable a5] at e6
  have h6 := e6.base.ok
  obtain ⟨s6, e6', r6, a6⟩ := e6
  have t6 : treeOf s6.betree.linked = _ := congrArg FilteredBetree.State.root a6
  have m6 : s6.betree.memtable = _ := congrArg FilteredBetree.State.memtable a6
  have e7 := At.next e6' (((C17.possible r6).2.2.1 1 0 (by
      rw [t6]; exact C16.rootPath h6.1 (by exact trivial) h6.2 1)).2.1 0 0 (by
      rw [t6]
      exact ⟨h6.1, by exact trivial, by exact Nat.succ_pos 1, fun i _ => Nat.zero_le _⟩)
      (by rw [t6]; exact trivial))
  rw [t6, m6] at e7
  obtain ⟨s7, e7', r7, a7⟩ := e7
  obtain ⟨s8, h8, hb, _, _, hu, _⟩ := release e7'
  refine ⟨s8, e7'.snoc h8, hu, ?_⟩
  have t7 : treeOf s7.betree.linked = _ := congrArg FilteredBetree.State.root a7
  have hroot : s7.betree.linked.HasRoot := by
    rw [hasRoot_iff (inv_sees r7.1).2.1, t7]; exact trivial
  obtain ⟨a, ha, hd⟩ := hroot
  obtain ⟨n, hn⟩ := (PMap.has_iff _ _).mp hd
  refine ⟨a.au, ?_⟩
  have e8 := e7'.snoc h8
  refine (unit_used_iff e8 a.au).1.mpr ⟨a, rfl, ?_⟩
  have hr7 : Reach s7.betree.linked.dv s7.betree.linked.root a := by rw [ha]; exact .here hn
  rw [hb]
  show Reach (collect s7.betree.linked).dv s7.betree.linked.root a
  rw [ha]
  refine .here (n := n) ?_
  simp only [collect, if_pos hr7]
  exact hn

end Verif.C42
