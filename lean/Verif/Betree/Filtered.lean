import Verif.Betree.Tree
import Verif.Betree.BufferSeq
import Verif.Betree.Pivot
/-
Model of Splinter/src/betree/FilteredBetree_v.rs: trees of `Tree.lean` whose nodes hold a stack of
buffers and, per child, how many of them were flushed to that child.
-/
namespace Verif.FilteredBetree
open Verif Classical

/-- FilteredBetree_v.rs 40, 43 -/
@[ext] structure Payload where
  buffers : BufferSeq
  flushed : BufferOffsets

/-- The payload functions of FilteredBetree_v.rs (see `Layer` for the lines). `msg` is 506-508 with
`flushed_ofs` 151-158. -/
def layer : Layer Payload where
  Ok p n := n = p.flushed.length ∧ BufferOffsets.AllLte p.flushed p.buffers.length
  msg p i k := p.buffers.queryFrom k (p.flushed.getD i 0)
  empty := { buffers := [], flushed := [0] }
  LeafOk p := p.flushed.length = 1 ∧ p.flushed.getD 0 0 = 0
  splitLeaf p _ _ _ := (p, p)
  splitIndex p _ _ _ i :=
    ({ buffers := p.buffers, flushed := BufferOffsets.slice p.flushed 0 i },
     { buffers := p.buffers, flushed := BufferOffsets.slice p.flushed i p.flushed.length })
  splitParent p i := { buffers := p.buffers, flushed := BufferOffsets.dup p.flushed i }

/-- FilteredBetree_v.rs 37-45 -/
abbrev Node := Tree Payload

namespace Node

/-- FilteredBetree_v.rs 129-138 (`Nil` unchanged, arbitrary in Rust) -/
def extendBufferSeq : Node → BufferSeq → Node
  | .nil, _ => .nil
  | .node p pv ch, new => .node { buffers := p.buffers.extend new, flushed := p.flushed } pv ch

/-- FilteredBetree_v.rs 121-127 -/
def pushMemtable (t : Node) (m : Memtable) : Node :=
  extendBufferSeq (t.promote layer .total) [m.buffer]

/-- FilteredBetree_v.rs 151-158 -/
def flushedOfs (t : Node) (k : Key) : Nat :=
  (t.payload layer).flushed.getD (t.pivots.route k).toNat 0

/-- FilteredBetree_v.rs 313-320 -/
def CanFlush (t : Node) (idx gc : Nat) : Prop :=
  t.WF layer ∧ t.IsNode ∧ idx < t.children.length ∧
  BufferOffsets.AllGte
    (BufferOffsets.update (t.payload layer).flushed idx (t.payload layer).buffers.length) gc

/-- FilteredBetree_v.rs 322-357 -/
def flush (t : Node) (idx gc : Nat) : Node :=
  match t with
  | .nil => .nil
  | .node p pv ch =>
    let upto := p.buffers.length
    let toChild := p.buffers.slice (p.flushed.getD idx 0) upto
    let newChild := extendBufferSeq
      ((ch.getD idx .nil).promote layer ((Tree.node p pv ch).childDomain idx)) toChild
    .node { buffers := p.buffers.slice gc upto,
            flushed := BufferOffsets.shiftLeft (BufferOffsets.update p.flushed idx upto) gc }
      pv (ch.set idx newChild)

/-- FilteredBetree_v.rs 424-435 -/
noncomputable def makeOffsetMap (t : Node) (k : Key) : Nat :=
  if t.KeyInDomain layer k then flushedOfs t k else (t.payload layer).buffers.length

/-- FilteredBetree_v.rs 359-367; `decrement` is OffsetMap_v.rs 37-42 (truncated subtraction) -/
def ValidCompactKeyDomain (t : Node) (a b : Nat) (k : Key) : Prop :=
  t.KeyInDomain layer k ∧ flushedOfs t k ≤ b ∧
  ∃ i, ((t.payload layer).buffers.slice a b).KeyInBufferFiltered
    (fun k => makeOffsetMap t k - a) 0 k i

/-- FilteredBetree_v.rs 369-379 -/
def CanCompact (t : Node) (a b : Nat) (c : Buffer) : Prop :=
  t.WF layer ∧ t.IsNode ∧ a < b ∧ b ≤ (t.payload layer).buffers.length ∧
  (∀ k, c.Contains k ↔ ValidCompactKeyDomain t a b k) ∧
  ∀ k, c.Contains k → c.query k = ((t.payload layer).buffers.slice a b).queryFrom k
    (if flushedOfs t k ≤ a then 0 else flushedOfs t k - a)

/-- FilteredBetree_v.rs 381-404 -/
def compact (t : Node) (a b : Nat) (c : Buffer) : Node :=
  match t with
  | .nil => .nil
  | .node p pv ch =>
    .node { buffers := p.buffers.updateSubrange a b c,
            flushed := BufferOffsets.adjustCompact p.flushed a b } pv ch

end Node

/-- FilteredBetree_v.rs 612-615 -/
structure State where
  memtable : Memtable
  root : Node

/-- FilteredBetree_v.rs 692-696 `initialize` -/
def Init (image : Stamped Node) (s : State) : Prop :=
  image.value.WF layer ∧ s = { memtable := .emptyAt image.seqEnd, root := image.value }

/-- FilteredBetree_v.rs 629-690 -/
inductive Next : State → BLabel Node → State → Prop
  /-- 629-634 -/
  | query {s : State} {k v} {r : Receipt Node} : r.ValidFor (Tree.shape layer) s.root k →
      .define v = r.result.merge (s.memtable.query k) →
      Next s (.query s.memtable.seqEnd k v) s
  /-- 636-641 -/
  | put {s : State} {puts : MsgHistory} : puts.WF → puts.seqStart = s.memtable.seqEnd →
      Next s (.put puts) { s with memtable := s.memtable.applyPuts puts }
  /-- 643-648 -/
  | freezeAs {s : State} : s.root.WF layer → s.memtable.IsEmpty →
      Next s (.freezeAs { value := s.root, seqEnd := s.memtable.seqEnd }) s
  /-- 650-655 -/
  | flushMemtable {s : State} : s.root.WF layer →
      Next s .internal { memtable := s.memtable.drain, root := Node.pushMemtable s.root s.memtable }
  /-- 657-661 -/
  | grow {s : State} : s.root.WF layer →
      Next s .internal { s with root := s.root.grow layer }
  /-- 663-669 -/
  | split {s : State} {p : TreePath Payload} {r : SplitRequest} : p.Valid layer →
      p.target.CanSplitParent layer r → p.node = s.root →
      Next s .internal { s with root := p.substitute layer (p.target.splitParent layer r) }
  /-- 671-677 -/
  | flush {s : State} {p : TreePath Payload} {idx gc : Nat} : p.Valid layer →
      Node.CanFlush p.target idx gc → p.node = s.root →
      Next s .internal { s with root := p.substitute layer (Node.flush p.target idx gc) }
  /-- 679-685 -/
  | compact {s : State} {p : TreePath Payload} {a b : Nat} {c : Buffer} : p.Valid layer →
      Node.CanCompact p.target a b c → p.node = s.root →
      Next s .internal { s with root := p.substitute layer (Node.compact p.target a b c) }
  /-- 687-690 -/
  | noop {s : State} : s.root.WF layer → Next s .internal s

def machine (image : Stamped Node) : Machine State (BLabel Node) := ⟨Init image, Next⟩

/-! ### Proofs -/

theorem lawful : layer.Lawful where
  empty_ok := ⟨rfl, by intro i hi; simp [layer] at *; subst hi; rfl⟩
  empty_msg i k := by simp [layer, BufferSeq.queryFrom, BufferSeq.query]
  splitLeaf := by
    intro p s e k h _
    exact ⟨h, h, fun _ _ => rfl, fun _ _ => rfl⟩
  splitIndex := by
    intro p s m e n i h h0 hi
    obtain ⟨hn, hl⟩ := h
    refine ⟨⟨?_, ?_⟩, ⟨?_, ?_⟩, ?_, ?_⟩
    · simp [layer, BufferOffsets.slice]; omega
    · intro j hj
      simp only [layer] at hj ⊢
      have hji : j < i := by simp [BufferOffsets.slice] at hj; omega
      rw [BufferOffsets.getD_slice_left _ hji]
      exact hl j (by omega)
    · simp [layer, BufferOffsets.slice]; omega
    · intro j hj
      simp only [layer] at hj ⊢
      rw [BufferOffsets.getD_slice_right]
      exact hl _ (by simp [BufferOffsets.slice] at hj; omega)
    · intro j k hj _
      simp only [layer, BufferOffsets.getD_slice_left _ hj]
    · intro j k hj _
      simp only [layer, BufferOffsets.getD_slice_right]
  splitParent := by
    intro p n i h hi
    obtain ⟨hn, hl⟩ := h
    have hi' : i < p.flushed.length := by omega
    refine ⟨⟨?_, ?_⟩, ?_⟩
    · simp only [layer, BufferOffsets.dup_length _ hi']; omega
    · intro j hj
      simp only [layer, BufferOffsets.dup_length _ hi'] at hj
      simp only [layer, BufferOffsets.getD_dup _ hi']
      exact hl _ (by split <;> omega)
    · intro j k _
      simp only [layer, BufferOffsets.getD_dup _ hi']

open Tree

theorem at_extend {t : Node} {bs : BufferSeq} (hw : t.WF layer) (hn : t.IsNode) :
    (Node.extendBufferSeq t bs).WF layer ∧ (Node.extendBufferSeq t bs).IsNode ∧
    (Node.extendBufferSeq t bs).myDomain = t.myDomain ∧
    ∀ k, t.myDomain.Contains k →
      at_ layer (Node.extendBufferSeq t bs) k = (at_ layer t k).merge (bs.query k) := by
  cases t with
  | nil => exact absurd hn (fun h => h)
  | node p pv ch =>
    obtain ⟨_, _, ⟨ho1, ho2⟩, _⟩ := wf_node.mp hw
    obtain ⟨h1, h2⟩ := at_add (p' := { buffers := p.buffers.extend bs, flushed := p.flushed })
      (fun k => bs.query k) hw
      ⟨ho1, fun i hi => by
        have := ho2 i hi
        simp only [BufferSeq.extend, List.length_append]; omega⟩
      (fun j k hj => by
        have := ho2 j (by omega)
        simp only [layer, BufferSeq.queryFrom, BufferSeq.extend]
        rw [List.drop_append_of_le_length this, BufferSeq.query_append])
    exact ⟨h1, trivial, rfl, h2⟩

theorem pushMemtable_spec {t : Node} (h : RootOk layer t) (m : Memtable) :
    RootOk layer (Node.pushMemtable t m) ∧
      at_ layer (Node.pushMemtable t m) = fun k => (at_ layer t k).merge (m.query k) := by
  obtain ⟨h1, h2, h3, h4⟩ := promote_same lawful h.1 (d := .total) rfl PivotBetree.total_dwf h.2
  obtain ⟨h5, h6, h7, h8⟩ := at_extend (bs := [m.buffer]) h1 h2
  refine ⟨⟨h5, fun _ => h7.trans h3⟩, ?_⟩
  funext k
  have := h8 k (by rw [h3]; exact Domain.total_contains k)
  rw [h4 k (Domain.total_contains k), BufferSeq.query_single] at this
  exact this

theorem flush_same {t : Node} {idx gc : Nat} (h : Node.CanFlush t idx gc) :
    Same layer t (Node.flush t idx gc) := by
  obtain ⟨hw, hn, hi, hgc⟩ := h
  cases t with
  | nil => exact absurd hn (fun h => h)
  | node p pv ch =>
  simp only [children, payload] at hi hgc
  have hc : ch[idx]? = some ch[idx] := List.getElem?_eq_getElem hi
  generalize ch[idx] = c at hc
  obtain ⟨w1, w2, ⟨o1, o2⟩, w4⟩ := wf_node.mp hw
  have hpl := w1.len
  have hdw : (Domain.range (pv.get idx) (pv.get (idx + 1))).WF := by
    have hnr : pv.numRanges = pv.pivots.length - 1 := rfl
    refine ⟨?_, ((PivotTable.wf_iff pv).mp w1).2.2 idx (by omega)⟩
    rw [Element.lt_iff]
    exact w1.lt (by omega) (by omega)
  obtain ⟨h1, h2, h3, h4⟩ := promote_same lawful (w4 idx c hc).1
    (d := .range (pv.get idx) (pv.get (idx + 1))) rfl hdw (w4 idx c hc).2
  obtain ⟨h5, h6, h7, h8⟩ := at_extend
    (bs := p.buffers.slice (p.flushed.getD idx 0) p.buffers.length) h1 h2
  have hg : ch.getD idx .nil = c := by simp [List.getD, hc]
  have hlen : (BufferOffsets.update p.flushed idx p.buffers.length).length = p.flushed.length := by
    simp [BufferOffsets.update]
  have hif : idx < p.flushed.length := by omega
  have hge : ∀ j < p.flushed.length,
      gc ≤ (BufferOffsets.update p.flushed idx p.buffers.length).getD j 0 := by
    intro j hj; exact hgc j (by omega)
  have hslice : p.buffers.slice gc p.buffers.length = p.buffers.drop gc := by
    simp [BufferSeq.slice]
  have hget : ∀ j < p.flushed.length,
      (BufferOffsets.shiftLeft (BufferOffsets.update p.flushed idx p.buffers.length) gc).getD j 0 =
      (if j = idx then p.buffers.length else p.flushed.getD j 0) - gc := by
    intro j hj
    unfold BufferOffsets.shiftLeft
    rw [BufferOffsets.getD_map _ _ (by omega), BufferOffsets.getD_update _ hif]
  simp only [Node.flush, hg, childDomain]
  refine same_modify hw hc ⟨?_, ?_⟩ h5 (fun _ => h7.trans h3) ?_ ?_
  · simp [BufferOffsets.shiftLeft, BufferOffsets.update]; omega
  · intro j hj
    have hj' : j < p.flushed.length := by
      simpa [BufferOffsets.shiftLeft, BufferOffsets.update] using hj
    have := o2 j hj'
    simp only [hget j hj', hslice, List.length_drop]
    split <;> omega
  · intro k hk
    rw [h8 k (by rw [h3]; exact hk), h4 k hk]
    simp only [layer, hget idx hif, hslice, if_true]
    have : BufferSeq.queryFrom (p.buffers.drop gc) k (p.buffers.length - gc) = .nop := by
      unfold BufferSeq.queryFrom
      rw [List.drop_eq_nil_of_le (by simp)]; rfl
    rw [this, Message.merge_nop]
    simp [BufferSeq.slice, BufferSeq.queryFrom]
  · intro j k hj hji hk _ _
    have hj' : j < p.flushed.length := by omega
    have hg2 := hge j hj'
    rw [BufferOffsets.getD_update _ hif, if_neg hji] at hg2
    simp only [layer, hget j hj', hslice, if_neg hji, BufferSeq.queryFrom, List.drop_drop]
    rw [show gc + (p.flushed.getD j 0 - gc) = p.flushed.getD j 0 by omega]

theorem compact_same {t : Node} {a b : Nat} {c : Buffer} (h : Node.CanCompact t a b c) :
    Same layer t (Node.compact t a b c) := by
  obtain ⟨hw, hn, hab, hb, hk, hq⟩ := h
  cases t with
  | nil => exact absurd hn (fun h => h)
  | node p pv ch =>
  simp only [payload] at hb hq
  obtain ⟨w1, w2, ⟨o1, o2⟩, w4⟩ := wf_node.mp hw
  have hlen : (BufferOffsets.adjustCompact p.flushed a b).length = p.flushed.length := by
    simp [BufferOffsets.adjustCompact]
  have hget : ∀ j < p.flushed.length, (BufferOffsets.adjustCompact p.flushed a b).getD j 0 =
      BufferOffsets.adjust1 a b (p.flushed.getD j 0) := by
    intro j hj
    unfold BufferOffsets.adjustCompact
    rw [BufferOffsets.getD_map _ _ hj]
  refine same_payload hw ⟨by rw [hlen]; exact o1, ?_⟩ ?_
  · intro j hj
    rw [hlen] at hj
    have := o2 j hj
    simp only [hget j hj, BufferSeq.updateSubrange, BufferOffsets.adjust1]
    generalize p.flushed.getD j 0 = x at this
    simp
    split
    · omega
    · split <;> omega
  · intro j k hj hbk hr
    have hj' : j < p.flushed.length := by omega
    have hdom : (node p pv ch).KeyInDomain layer k := ⟨hw, trivial, hbk⟩
    have hfo : Node.flushedOfs (node p pv ch) k = p.flushed.getD j 0 := by
      simp only [Node.flushedOfs, payload, pivots, hr, Int.toNat_natCast]
    have hmo : Node.makeOffsetMap (node p pv ch) k = p.flushed.getD j 0 := by
      unfold Node.makeOffsetMap; rw [if_pos hdom, hfo]
    simp only [layer, hget j hj']
    apply BufferSeq.compact_query hab hb
    · rw [hk k]
      unfold Node.ValidCompactKeyDomain
      rw [hfo]
      simp only [BufferSeq.KeyInBufferFiltered, hmo, payload]
      exact ⟨fun ⟨_, h2, h3⟩ => ⟨h2, h3⟩, fun ⟨h2, h3⟩ => ⟨hdom, h2, h3⟩⟩
    · intro hck
      rw [hq k hck, hfo]
      congr 1
      split <;> omega

/-- The map a state stands for. -/
def interp (s : State) : StampedMap := s.memtable.over (at_ layer s.root)

def Inv (s : State) : Prop := RootOk layer s.root

theorem step {s s' : State} {l : BLabel Node} (hi : Inv s) (h : Next s l s') :
    Inv s' ∧ MapBehaviour.MapStep (at_ layer) (interp s) l (interp s') := by
  have internal : ∀ root', RootOk layer root' ∧ at_ layer root' = at_ layer s.root →
      Inv { s with root := root' } ∧ MapBehaviour.MapStep (at_ layer) (interp s) .internal
        (interp { s with root := root' }) := by
    rintro root' ⟨h1, h2⟩
    refine ⟨h1, ?_⟩
    show interp _ = interp s
    unfold interp
    rw [h2]
  cases h with
  | query hr hv =>
    refine ⟨hi, rfl, rfl, ?_⟩
    rw [hi.receipt hr] at hv
    exact hv.symm
  | put hw hs => exact ⟨hi, hw, hs, Memtable.over_applyPuts _ _ _⟩
  | freezeAs _ he =>
    refine ⟨hi, rfl, fun k => ?_, rfl⟩
    have : s.memtable.query k = .nop := by unfold Memtable.query; rw [he]; rfl
    simp [interp, Memtable.over, this]
  | flushMemtable _ =>
    obtain ⟨h1, h2⟩ := pushMemtable_spec hi s.memtable
    refine ⟨h1, ?_⟩
    show interp _ = interp s
    unfold interp
    rw [show s.memtable.drain = .emptyAt s.memtable.seqEnd from rfl, Memtable.over_emptyAt]
    simp only [h2]
    rfl
  | grow _ => exact internal _ (hi.grow lawful)
  | split hp hc hr =>
    rw [Inv, ← hr] at hi
    rw [← hr] at internal
    exact internal _ (hi.path hp (splitParent_same lawful hc))
  | flush hp hc hr =>
    rw [Inv, ← hr] at hi
    rw [← hr] at internal
    exact internal _ (hi.path hp (flush_same hc))
  | compact hp hc hr =>
    rw [Inv, ← hr] at hi
    rw [← hr] at internal
    exact internal _ (hi.path hp (compact_same hc))
  | noop _ => exact ⟨hi, rfl⟩

end Verif.FilteredBetree
