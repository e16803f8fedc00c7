import Verif.Betree.Tree
/-
Model of Splinter/src/betree/PivotBetree_v.rs: trees of `Tree.lean` whose nodes hold one buffer.
-/
namespace Verif.PivotBetree
open Verif Classical

/-- The payload functions of PivotBetree_v.rs (see `Layer` for the lines). -/
noncomputable def layer : Layer Buffer where
  Ok _ _ := True
  msg b _ k := b.query k
  empty := Buffer.empty
  LeafOk _ := True
  splitLeaf b s k e :=
    (b.applyFilter (fun x => (Domain.range s (.ofKey k)).Contains x),
     b.applyFilter (fun x => (Domain.range (.ofKey k) e).Contains x))
  splitIndex b s m e _ :=
    (b.applyFilter (fun x => (Domain.range s m).Contains x),
     b.applyFilter (fun x => (Domain.range m e).Contains x))
  splitParent b _ := b

/-- PivotBetree_v.rs 29-36 -/
abbrev Node := Tree Buffer

namespace Node

/-- PivotBetree_v.rs 110-118 (`Nil` unchanged, arbitrary in Rust) -/
def mergeBuffer : Node → Buffer → Node
  | .nil, _ => .nil
  | .node b pv ch, new => .node (b.merge new) pv ch

/-- PivotBetree_v.rs 120-124 -/
noncomputable def pushMemtable (t : Node) (m : Memtable) : Node :=
  mergeBuffer (t.promote layer .total) m.buffer

/-- PivotBetree_v.rs 275-280 -/
def CanFlush (t : Node) (idx : Nat) : Prop :=
  t.WF layer ∧ t.IsNode ∧ idx < t.children.length

/-- PivotBetree_v.rs 282-299 -/
noncomputable def flush (t : Node) (idx : Nat) : Node :=
  match t with
  | .nil => .nil
  | .node b pv ch =>
    let d := (Tree.node b pv ch).childDomain idx
    let kept := b.applyFilter (fun k => ¬ d.Contains k)
    let moved := b.applyFilter (fun k => d.Contains k)
    .node kept pv (ch.set idx (mergeBuffer ((ch.getD idx .nil).promote layer d) moved))

end Node

/-- PivotBetree_v.rs 487-490 -/
structure State where
  memtable : Memtable
  root : Node

/-- PivotBetree_v.rs 559-563 `initialize` -/
def Init (image : Stamped Node) (s : State) : Prop :=
  image.value.WF layer ∧ s = { memtable := .emptyAt image.seqEnd, root := image.value }

/-- PivotBetree_v.rs 504-557 -/
inductive Next : State → BLabel Node → State → Prop
  /-- 504-509 -/
  | query {s : State} {k v} {r : Receipt Node} : r.ValidFor (Tree.shape layer) s.root k →
      .define v = r.result.merge (s.memtable.query k) →
      Next s (.query s.memtable.seqEnd k v) s
  /-- 511-516 -/
  | put {s : State} {puts : MsgHistory} : puts.WF → puts.seqStart = s.memtable.seqEnd →
      Next s (.put puts) { s with memtable := s.memtable.applyPuts puts }
  /-- 518-523 -/
  | freezeAs {s : State} : s.root.WF layer → s.memtable.IsEmpty →
      Next s (.freezeAs { value := s.root, seqEnd := s.memtable.seqEnd }) s
  /-- 525-530 -/
  | flushMemtable {s : State} : s.root.WF layer →
      Next s .internal { memtable := s.memtable.drain, root := Node.pushMemtable s.root s.memtable }
  /-- 532-536 -/
  | grow {s : State} : s.root.WF layer →
      Next s .internal { s with root := s.root.grow layer }
  /-- 538-544 -/
  | split {s : State} {p : TreePath Buffer} {r : SplitRequest} : p.Valid layer →
      p.target.CanSplitParent layer r → p.node = s.root →
      Next s .internal { s with root := p.substitute layer (p.target.splitParent layer r) }
  /-- 546-552 -/
  | flush {s : State} {p : TreePath Buffer} {idx : Nat} : p.Valid layer →
      Node.CanFlush p.target idx → p.node = s.root →
      Next s .internal { s with root := p.substitute layer (Node.flush p.target idx) }
  /-- 554-557 -/
  | noop {s : State} : s.root.WF layer → Next s .internal s

noncomputable def machine (image : Stamped Node) : Machine State (BLabel Node) := ⟨Init image, Next⟩

/-! ### Proofs -/

theorem lawful : layer.Lawful where
  empty_ok := trivial
  empty_msg _ k := Buffer.query_empty k
  splitLeaf := by
    intro p s e k _ _
    refine ⟨trivial, trivial, fun k' h => ?_, fun k' h => ?_⟩ <;>
      exact (Buffer.query_applyFilter _ _ _).trans (if_pos h)
  splitIndex := by
    intro p s m e n i _ _ _
    refine ⟨trivial, trivial, fun j k' _ h => ?_, fun j k' _ h => ?_⟩ <;>
      exact (Buffer.query_applyFilter _ _ _).trans (if_pos h)
  splitParent := by
    intro p n i _ _
    exact ⟨trivial, fun j k' _ => rfl⟩

open Tree

theorem at_mergeBuffer {t : Node} {b : Buffer} (hw : t.WF layer) (hn : t.IsNode) :
    (Node.mergeBuffer t b).WF layer ∧ (Node.mergeBuffer t b).IsNode ∧
    (Node.mergeBuffer t b).myDomain = t.myDomain ∧
    ∀ k, t.myDomain.Contains k →
      at_ layer (Node.mergeBuffer t b) k = (at_ layer t k).merge (b.query k) := by
  cases t with
  | nil => exact absurd hn (fun h => h)
  | node p pv ch =>
    obtain ⟨h1, h2⟩ := at_add (p' := p.merge b) (fun k => b.query k) hw trivial
      (fun j k _ => Buffer.query_merge _ _ _)
    exact ⟨h1, trivial, rfl, h2⟩

theorem total_dwf : Domain.total.WF := by
  constructor
  · rw [Element.lt_iff, Element.rank_min, Element.rank_max]; decide
  · intro h; cases h

theorem pushMemtable_spec {t : Node} (h : RootOk layer t) (m : Memtable) :
    RootOk layer (Node.pushMemtable t m) ∧
      at_ layer (Node.pushMemtable t m) = fun k => (at_ layer t k).merge (m.query k) := by
  obtain ⟨h1, h2, h3, h4⟩ := promote_same lawful h.1 (d := .total) rfl total_dwf h.2
  obtain ⟨h5, h6, h7, h8⟩ := at_mergeBuffer (b := m.buffer) h1 h2
  refine ⟨⟨h5, fun _ => h7.trans h3⟩, ?_⟩
  funext k
  have := h8 k (by rw [h3]; exact Domain.total_contains k)
  rw [h4 k (Domain.total_contains k)] at this
  exact this

theorem flush_same {t : Node} {idx : Nat} (h : Node.CanFlush t idx) :
    Same layer t (Node.flush t idx) := by
  obtain ⟨hw, hn, hi⟩ := h
  cases t with
  | nil => exact absurd hn (fun h => h)
  | node b pv ch =>
  simp only [children] at hi
  have hc : ch[idx]? = some ch[idx] := List.getElem?_eq_getElem hi
  generalize ch[idx] = c at hc
  obtain ⟨w1, w2, _, w4⟩ := wf_node.mp hw
  have hpl := w1.len
  have hdw : (Domain.range (pv.get idx) (pv.get (idx + 1))).WF := by
    have hnr : pv.numRanges = pv.pivots.length - 1 := rfl
    refine ⟨?_, ((PivotTable.wf_iff pv).mp w1).2.2 idx (by omega)⟩
    rw [Element.lt_iff]
    exact w1.lt (by omega) (by omega)
  obtain ⟨h1, h2, h3, h4⟩ := promote_same lawful (w4 idx c hc).1
    (d := .range (pv.get idx) (pv.get (idx + 1))) rfl hdw (w4 idx c hc).2
  obtain ⟨h5, h6, h7, h8⟩ := at_mergeBuffer
    (b := b.applyFilter (fun k => (Domain.range (pv.get idx) (pv.get (idx + 1))).Contains k)) h1 h2
  have hg : ch.getD idx .nil = c := by simp [List.getD, hc]
  simp only [Node.flush, hg, childDomain]
  refine same_modify hw hc trivial h5 (fun _ => h7.trans h3) ?_ ?_
  · intro k hk
    rw [h8 k (by rw [h3]; exact hk), h4 k hk]
    simp only [layer, Buffer.query_applyFilter]
    rw [if_pos hk, if_neg (fun h => h hk), Message.merge_nop]
  · intro j k hj hji hk _ _
    simp only [layer, Buffer.query_applyFilter]
    rw [if_pos]
    intro hk2
    rw [range_contains] at hk hk2
    have hnr : pv.numRanges = pv.pivots.length - 1 := rfl
    rcases Nat.lt_or_gt_of_ne hji with h | h
    · have := w1.le (show j + 1 ≤ idx by omega) (by omega); omega
    · have := w1.le (show idx + 1 ≤ j by omega) (by omega); omega

/-- The map a state stands for. -/
noncomputable def interp (s : State) : StampedMap := s.memtable.over (at_ layer s.root)

def Inv (s : State) : Prop := RootOk layer s.root

theorem step {s s' : State} {l : BLabel Node} (hi : Inv s) (h : Next s l s') :
    Inv s' ∧ MapBehaviour.MapStep (at_ layer) (interp s) l (interp s') := by
  have internal : ∀ root', RootOk layer root' ∧ at_ layer root' = at_ layer s.root →
      Inv { s with root := root' } ∧ MapBehaviour.MapStep (at_ layer) (interp s) .internal
        (interp { s with root := root' }) := by
    rintro root' ⟨h1, h2⟩
    refine ⟨h1, ?_⟩
    show interp _ = interp s
    unfold interp
    rw [h2]
  cases h with
  | query hr hv =>
    refine ⟨hi, rfl, rfl, ?_⟩
    rw [hi.receipt hr] at hv
    exact hv.symm
  | put hw hs => exact ⟨hi, hw, hs, Memtable.over_applyPuts _ _ _⟩
  | freezeAs _ he =>
    refine ⟨hi, rfl, fun k => ?_, rfl⟩
    have : s.memtable.query k = .nop := by unfold Memtable.query; rw [he]; rfl
    simp [interp, Memtable.over, this]
  | flushMemtable _ =>
    obtain ⟨h1, h2⟩ := pushMemtable_spec hi s.memtable
    refine ⟨h1, ?_⟩
    show interp _ = interp s
    unfold interp
    rw [show s.memtable.drain = .emptyAt s.memtable.seqEnd from rfl, Memtable.over_emptyAt]
    simp only [h2]
    rfl
  | grow _ => exact internal _ (hi.grow lawful)
  | split hp hc hr =>
    rw [Inv, ← hr] at hi
    rw [← hr] at internal
    exact internal _ (hi.path hp (splitParent_same lawful hc))
  | flush hp hc hr =>
    rw [Inv, ← hr] at hi
    rw [← hr] at internal
    exact internal _ (hi.path hp (flush_same hc))
  | noop _ => exact ⟨hi, rfl⟩

end Verif.PivotBetree
