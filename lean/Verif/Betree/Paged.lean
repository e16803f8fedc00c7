import Verif.Betree.MapBehaviour
import Verif.Betree.Receipt
/-
Model of Splinter/src/betree/PagedBetree_v.rs. Children are total maps (`ChildMap.wf` 48-54 is
built into the type), so every node is well formed. Sets of keys are predicates.
-/
namespace Verif.PagedBetree
open Verif Classical

/-- PagedBetree_v.rs 39-66 `ChildMap`, `BetreeNode` -/
inductive Node where
  | nil
  | node (buffer : Buffer) (children : Key → Node)

namespace Node

/-- `self is Node` -/
def IsNode : Node → Prop
  | nil => False
  | node _ _ => True

/-- `self->buffer` (empty on `Nil`, arbitrary in Rust) -/
def buffer : Node → Buffer
  | nil => Buffer.empty
  | node b _ => b

/-- PagedBetree_v.rs 76-82 (`Nil` on `Nil`, arbitrary in Rust) -/
def child : Node → Key → Node
  | nil, _ => nil
  | node _ c, k => c k

/-- PagedBetree_v.rs 84-89 with 43-45, 57-59 -/
def emptyRoot : Node := node Buffer.empty (fun _ => nil)

/-- PagedBetree_v.rs 91-97 -/
def promote : Node → Node
  | nil => emptyRoot
  | n => n

/-- PagedBetree_v.rs 99-104 -/
def mergeBuffer (n : Node) (b : Buffer) : Node := node (n.buffer.merge b) n.child

/-- PagedBetree_v.rs 106-111; only `.value` is used by the state machine -/
def pushMemtable (n : Node) (t : Memtable) : Stamped Node :=
  { value := n.promote.mergeBuffer t.buffer, seqEnd := t.seqEnd }

/-- PagedBetree_v.rs 113-125 -/
noncomputable def filterBufferAndChildren (n : Node) (f : PSet Key) : Node :=
  match n with
  | nil => nil
  | node b c => node (b.applyFilter f) (fun k => if f k then c k else nil)

/-- PagedBetree_v.rs 127-139 -/
noncomputable def split (n : Node) (left right : PSet Key) : Node :=
  node n.buffer (fun k =>
    if left k then (n.child k).filterBufferAndChildren left
    else if right k then (n.child k).filterBufferAndChildren right
    else n.child k)

/-- PagedBetree_v.rs 141-152 -/
noncomputable def flush (n : Node) (down : PSet Key) : Node :=
  node (n.buffer.applyFilter (fun k => ¬ down k)) (fun k =>
    if down k then (n.child k).promote.mergeBuffer (n.buffer.applyFilter down)
    else n.child k)

end Node

/-- The nodes of this layer as seen by query receipts (PagedBetree_v.rs 157-244). -/
def shape : Shape Node where
  IsNode := Node.IsNode
  WF _ := True
  KeyIn _ _ := True
  child := Node.child
  msg n k := n.buffer.query k

/-- PagedBetree_v.rs 247-251. The node is the first field, the recursion goes down `routing`. -/
structure Path where
  node : Node
  key : Key
  routing : List (PSet Key)

namespace Path

/-- PagedBetree_v.rs 254-281 `valid`, with `subpath` and `common_children` -/
def ValidFrom (n : Node) (key : Key) : List (PSet Key) → Prop
  | [] => n.IsNode
  | r :: rs => n.IsNode ∧ ValidFrom (n.child key) key rs ∧
      ∀ k, r k → n.child k = n.child key

/-- PagedBetree_v.rs 283-292 -/
def targetFrom (n : Node) (key : Key) : List (PSet Key) → Node
  | [] => n
  | _ :: rs => targetFrom (n.child key) key rs

/-- PagedBetree_v.rs 294-323 `replaced_children`, `substitute` -/
noncomputable def substituteFrom (n : Node) (key : Key) (replacement : Node) :
    List (PSet Key) → Node
  | [] => replacement
  | r :: rs => .node n.buffer (fun k =>
      if r k then substituteFrom (n.child key) key replacement rs else n.child k)

def Valid (p : Path) : Prop := ValidFrom p.node p.key p.routing
def target (p : Path) : Node := targetFrom p.node p.key p.routing
noncomputable def substitute (p : Path) (replacement : Node) : Node :=
  substituteFrom p.node p.key replacement p.routing

end Path

/-- PagedBetree_v.rs 328-331 -/
structure State where
  memtable : Memtable
  root : Node

/-- PagedBetree_v.rs 401-405 `initialize` -/
def Init (image : Stamped Node) (s : State) : Prop :=
  s = { memtable := .emptyAt image.seqEnd, root := image.value }

/-- PagedBetree_v.rs 345-399 -/
inductive Next : State → BLabel Node → State → Prop
  /-- 345-350 -/
  | query {s : State} {k v} {r : Receipt Node} : r.ValidFor shape s.root k →
      .define v = r.result.merge (s.memtable.query k) →
      Next s (.query s.memtable.seqEnd k v) s
  /-- 352-357 -/
  | put {s : State} {puts : MsgHistory} : puts.WF → puts.seqStart = s.memtable.seqEnd →
      Next s (.put puts) { s with memtable := s.memtable.applyPuts puts }
  /-- 359-364 -/
  | freezeAs {s : State} : s.memtable.IsEmpty →
      Next s (.freezeAs { value := s.root, seqEnd := s.memtable.seqEnd }) s
  /-- 366-371 -/
  | flushMemtable {s : State} :
      Next s .internal { memtable := s.memtable.drain, root := (s.root.pushMemtable s.memtable).value }
  /-- 373-380 -/
  | grow {s : State} :
      Next s .internal { s with root := .node Buffer.empty (fun _ => s.root) }
  /-- 382-387 -/
  | split {s : State} {p : Path} {left right} : p.Valid → p.node = s.root →
      Next s .internal { s with root := p.substitute (p.target.split left right) }
  /-- 389-394 -/
  | flush {s : State} {p : Path} {down} : p.Valid → p.node = s.root →
      Next s .internal { s with root := p.substitute (p.target.flush down) }
  /-- 396-399 -/
  | noop {s : State} : Next s .internal s

def machine (image : Stamped Node) : Machine State (BLabel Node) := ⟨Init image, Next⟩

/-! ### Proofs -/

namespace Node

/-- The message a walk down along `k` collects: bottom first, newer buffers on top. -/
def at_ : Node → Key → Message
  | nil, _ => .empty
  | node b c, k => ((c k).at_ k).merge (b.query k)

theorem at_isDefine (n : Node) (k : Key) : (n.at_ k).IsDefine := by
  induction n with
  | nil => exact ⟨_, rfl⟩
  | node b c ih => exact Message.isDefine_merge _ (ih k)

theorem at_answers (n : Node) (k : Key) : Answers shape k n (n.at_ k) := by
  induction n with
  | nil => exact .leaf (fun h => h) trivial
  | node b c ih =>
    exact Answers.node (S := shape) (n := node b c) trivial trivial trivial (ih k)

theorem at_promote (n : Node) (k : Key) : n.promote.at_ k = n.at_ k := by
  cases n with
  | nil => simp [promote, emptyRoot, at_]
  | node => rfl

theorem isNode_promote (n : Node) : n.promote.IsNode := by
  cases n <;> exact trivial

theorem at_of_isNode {n : Node} (h : n.IsNode) (k : Key) :
    n.at_ k = ((n.child k).at_ k).merge (n.buffer.query k) := by
  cases n with
  | nil => exact absurd h (fun h => h)
  | node b c => rfl

theorem at_mergeBuffer {n : Node} (h : n.IsNode) (b : Buffer) (k : Key) :
    (n.mergeBuffer b).at_ k = (n.at_ k).merge (b.query k) := by
  rw [at_of_isNode h]
  simp only [mergeBuffer, at_, Buffer.query_merge, Message.merge_assoc]

theorem at_pushMemtable (n : Node) (t : Memtable) (k : Key) :
    (n.pushMemtable t).value.at_ k = (n.at_ k).merge (t.query k) := by
  unfold pushMemtable
  rw [at_mergeBuffer (isNode_promote n), at_promote]
  rfl

theorem at_filter (n : Node) {f : PSet Key} {k : Key} (hk : f k) :
    (n.filterBufferAndChildren f).at_ k = n.at_ k := by
  cases n with
  | nil => rfl
  | node b c =>
    simp only [filterBufferAndChildren, at_, if_pos hk, Buffer.query_applyFilter]

theorem at_split {n : Node} (h : n.IsNode) (left right : PSet Key) (k : Key) :
    (n.split left right).at_ k = n.at_ k := by
  rw [at_of_isNode h]
  simp only [split, at_]
  congr 1
  split
  · rename_i hl; exact at_filter _ hl
  · split
    · rename_i hr; exact at_filter _ hr
    · rfl

theorem at_flush {n : Node} (h : n.IsNode) (down : PSet Key) (k : Key) :
    (n.flush down).at_ k = n.at_ k := by
  rw [at_of_isNode h]
  simp only [flush, at_, Buffer.query_applyFilter]
  by_cases hd : down k
  · simp only [hd, not_true_eq_false, if_true, if_false, Message.merge_nop]
    rw [at_mergeBuffer (isNode_promote _), at_promote, Buffer.query_applyFilter, if_pos hd]
  · simp only [hd, not_false_eq_true, if_true, if_false]

end Node

namespace Path

theorem targetFrom_isNode {n : Node} {key : Key} {rs : List (PSet Key)}
    (h : ValidFrom n key rs) : (targetFrom n key rs).IsNode := by
  induction rs generalizing n with
  | nil => exact h
  | cons r rs ih => exact ih h.2.1

/-- Replacing the target of a path by a node with the same answers keeps all answers. -/
theorem at_substituteFrom {n : Node} {key : Key} {rs : List (PSet Key)} {t : Node}
    (h : ValidFrom n key rs) (ht : ∀ k, t.at_ k = (targetFrom n key rs).at_ k) (k : Key) :
    (substituteFrom n key t rs).at_ k = n.at_ k := by
  induction rs generalizing n with
  | nil => exact ht k
  | cons r rs ih =>
    obtain ⟨h1, h2, h3⟩ := h
    rw [Node.at_of_isNode h1]
    simp only [substituteFrom, Node.at_]
    congr 1
    split
    · rename_i hr; rw [ih h2 ht, h3 k hr]
    · rfl

end Path

/-- The map a state stands for. -/
def interp (s : State) : StampedMap := s.memtable.over s.root.at_

theorem receipt_at {r : Receipt Node} {n : Node} {k : Key} (h : r.ValidFor shape n k) :
    r.result = n.at_ k :=
  (Receipt.valid_iff.mp ⟨r, h, rfl⟩).functional (n.at_answers k)

theorem step {s s' : State} {l : BLabel Node} (h : Next s l s') :
    MapBehaviour.MapStep Node.at_ (interp s) l (interp s') := by
  cases h with
  | query hr hv =>
    refine ⟨rfl, rfl, ?_⟩
    rw [receipt_at hr] at hv
    exact hv.symm
  | put hw hs => exact ⟨hw, hs, Memtable.over_applyPuts _ _ _⟩
  | freezeAs he =>
    refine ⟨rfl, fun k => ?_, rfl⟩
    have : s.memtable.query k = .nop := by unfold Memtable.query; rw [he]; rfl
    simp [interp, Memtable.over, this]
  | flushMemtable =>
    show interp _ = interp s
    unfold interp
    rw [show s.memtable.drain = .emptyAt s.memtable.seqEnd from rfl, Memtable.over_emptyAt]
    ext1
    · funext k; exact Node.at_pushMemtable _ _ k
    · rfl
  | grow =>
    show interp _ = interp s
    unfold interp
    congr 1
    funext k
    simp [Node.at_]
  | split hp hr =>
    rename_i p left right
    show interp _ = interp s
    unfold interp
    congr 1
    funext k
    rw [← hr]
    exact Path.at_substituteFrom hp (Node.at_split (Path.targetFrom_isNode hp) left right) k
  | flush hp hr =>
    rename_i p down
    show interp _ = interp s
    unfold interp
    congr 1
    funext k
    rw [← hr]
    exact Path.at_substituteFrom hp (Node.at_flush (Path.targetFrom_isNode hp) down) k
  | noop => rfl

end Verif.PagedBetree
