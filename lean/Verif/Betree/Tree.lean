import Verif.Betree.Keys
import Verif.Betree.MapBehaviour
import Verif.Betree.Receipt
/-
The part common to PivotBetree_v.rs and FilteredBetree_v.rs. The two files declare the same tree
of pivots and children, with the same functions on it; they differ in what a node holds besides
(one buffer, or a stack of buffers with flush offsets). The model declares the tree once, over a
payload type `P` and a `Layer P` giving the payload's functions. Line numbers below are
PivotBetree_v.rs / FilteredBetree_v.rs.
-/
namespace Verif

/-- What differs between the two layers. -/
structure Layer (P : Type) where
  /-- the payload part of `local_structure`: 39-45 (nothing) / 49-57 (54-55), for `n` children -/
  Ok : P → Nat → Prop
  /-- the message a node's payload holds for a key routed to child `i`: 385 / 506-508 -/
  msg : P → Nat → Key → Message
  /-- payload of `empty_root` and `grow`: 246-250, 255-259 / 282-287, 292-297 -/
  empty : P
  /-- payload part of `is_leaf`: 126-131 (nothing) / 160-167 (165-166) -/
  LeafOk : P → Prop
  /-- payloads of the halves of `split_leaf`: 147-166 / 183-201; arguments: payload, start of the
  node's domain, split key, end of the domain -/
  splitLeaf : P → Element → Key → Element → P × P
  /-- payloads of the halves of `split_index`: 175-195 / 210-229; arguments: payload, start of the
  domain, split element, end of the domain, pivot index -/
  splitIndex : P → Element → Element → Element → Nat → P × P
  /-- payload of the parent in `split_parent`: 222-226 (unchanged) / 256-261 (`dup`) -/
  splitParent : P → Nat → P

/-- 29-36 / 37-45 `BetreeNode` -/
inductive Tree (P : Type) where
  | nil
  | node (payload : P) (pivots : PivotTable) (children : List (Tree P))

/-- SplitRequest_v.rs 10-13 -/
inductive SplitRequest where
  | leaf (childIdx : Nat) (splitKey : Key)
  | index (childIdx childPivotIdx : Nat)

namespace Tree
variable {P : Type}

/-- `self is Node` -/
def IsNode : Tree P → Prop
  | nil => False
  | node _ _ _ => True

/-- `self->pivots` (no pivots on `Nil`, arbitrary in Rust) -/
def pivots : Tree P → PivotTable
  | nil => ⟨[]⟩
  | node _ pv _ => pv

/-- `self->children` (none on `Nil`, arbitrary in Rust) -/
def children : Tree P → List (Tree P)
  | nil => []
  | node _ _ ch => ch

/-- 53-63 / 65-74 -/
def myDomain : Tree P → Domain
  | nil => .empty
  | node _ pv _ => .range (pv.get 0) (pv.get (pv.pivots.length - 1))

/-- 66-76 / 77-87 -/
def childDomain : Tree P → Nat → Domain
  | nil, _ => .empty
  | node _ pv _, i => .range (pv.get i) (pv.get (i + 1))

variable (L : Layer P)

/-- the node's own payload (empty on `Nil`, arbitrary in Rust) -/
def payload : Tree P → P
  | nil => L.empty
  | node p _ _ => p

/-- 39-45 / 49-57 -/
def LocalStructure : Tree P → Prop
  | nil => True
  | node p pv ch => pv.WF ∧ ch.length = pv.numRanges ∧ L.Ok p ch.length

/-- 100-108 / 111-119, with `linked_children` 78-90 / 89-101 and `wf_children` 92-98 / 103-109 -/
def WF : Tree P → Prop
  | nil => True
  | node p pv ch => LocalStructure L (node p pv ch) ∧ (∀ c, (_h : c ∈ ch) → WF c) ∧
      ∀ (i : Nat) c, ch[i]? = some c → c.IsNode → c.LocalStructure L →
        c.myDomain = childDomain (node p pv ch) i

/-- 126-131 / 160-167 -/
def IsLeaf : Tree P → Prop
  | nil => False
  | node p _ ch => ch = [nil] ∧ L.LeafOk p

/-- 133-137 / 169-173 -/
def IsIndex : Tree P → Prop
  | nil => False
  | node _ _ ch => ∀ c ∈ ch, c.IsNode

/-- 301-306 / 406-411 -/
def KeyInDomain (t : Tree P) (k : Key) : Prop := t.WF L ∧ t.IsNode ∧ t.pivots.BoundedKey k

/-- 308-316 / 413-422 (`Nil` where Rust is arbitrary) -/
def child (t : Tree P) (k : Key) : Tree P := t.children.getD (t.pivots.route k).toNat nil

/-- 243-251 / 279-288 -/
def emptyRoot (d : Domain) : Tree P := node L.empty (.ofDomain d) [nil]

/-- 253-260 / 290-298 -/
def grow (t : Tree P) : Tree P := node L.empty (.ofDomain .total) [t]

/-- 262-273 / 300-311 -/
def promote (t : Tree P) (d : Domain) : Tree P :=
  match t with
  | nil => emptyRoot L d
  | t => t

/-- 139-145 / 175-181 -/
def CanSplitLeaf (t : Tree P) (k : Key) : Prop :=
  t.WF L ∧ t.IsLeaf L ∧ t.myDomain.Contains k ∧ t.pivots.get 0 ≠ .ofKey k

/-- 147-166 / 183-201 -/
def splitLeaf : Tree P → Key → Tree P × Tree P
  | nil, _ => (nil, nil)
  | node p pv ch, k =>
    let ps := L.splitLeaf p (pv.get 0) k (pv.get (pv.pivots.length - 1))
    (node ps.1 (pv.update 1 (.ofKey k)) ch, node ps.2 (pv.update 0 (.ofKey k)) ch)

/-- 168-173 / 203-208 -/
def CanSplitIndex (t : Tree P) (i : Nat) : Prop :=
  t.WF L ∧ t.IsIndex ∧ 0 < i ∧ i < t.pivots.numRanges

/-- 175-195 / 210-229 -/
def splitIndex : Tree P → Nat → Tree P × Tree P
  | nil, _ => (nil, nil)
  | node p pv ch, i =>
    let ps := L.splitIndex p (pv.get 0) (pv.get i) (pv.get (pv.pivots.length - 1)) i
    (node ps.1 (pv.subrange 0 (i + 1)) (ch.take i),
     node ps.2 (pv.subrange i pv.pivots.length) (ch.drop i))

/-- 197-211 / 231-245 -/
def CanSplitParent (t : Tree P) : SplitRequest → Prop
  | .leaf idx k => t.WF L ∧ t.IsNode ∧ ∃ c, t.children[idx]? = some c ∧ c.CanSplitLeaf L k
  | .index idx i => t.WF L ∧ t.IsNode ∧ ∃ c, t.children[idx]? = some c ∧ c.CanSplitIndex L i

/-- 213-241 / 247-277 -/
def splitParent (t : Tree P) (r : SplitRequest) : Tree P :=
  match t with
  | nil => nil
  | node p pv ch =>
    match r with
    | .leaf idx k =>
      let lr := splitLeaf L (ch.getD idx nil) k
      node (L.splitParent p idx) (pv.insert (idx + 1) (.ofKey k))
        ((ch.set idx lr.1).insertIdx (idx + 1) lr.2)
    | .index idx i =>
      let lr := splitIndex L (ch.getD idx nil) i
      node (L.splitParent p idx) (pv.insert (idx + 1) ((ch.getD idx nil).pivots.get i))
        ((ch.set idx lr.1).insertIdx (idx + 1) lr.2)

/-- The nodes as seen by query receipts: 319-409 / 438-532. -/
def shape : Shape (Tree P) where
  IsNode := IsNode
  WF := WF L
  KeyIn := KeyInDomain L
  child := child
  msg t k := L.msg (t.payload L) (t.pivots.route k).toNat k

end Tree

/-- 411-415 / 534-538 -/
structure TreePath (P : Type) where
  node : Tree P
  key : Key
  depth : Nat

namespace TreePath
variable {P : Type} (L : Layer P)
open Tree

/-- 427-434 / 550-557, with `subpath` 418-425 / 541-548 -/
def ValidFrom (t : Tree P) (key : Key) : Nat → Prop
  | 0 => t.WF L ∧ t.KeyInDomain L key
  | d + 1 => t.WF L ∧ t.KeyInDomain L key ∧ t.IsIndex ∧ ValidFrom (t.child key) key d

/-- 436-446 / 559-570 -/
def targetFrom (t : Tree P) (key : Key) : Nat → Tree P
  | 0 => t
  | d + 1 => targetFrom (t.child key) key d

/-- 457-482 / 581-607 `replaced_children`, `substitute` -/
def substituteFrom (t : Tree P) (key : Key) (repl : Tree P) : Nat → Tree P
  | 0 => repl
  | d + 1 => .node (t.payload L) t.pivots
      (t.children.set (t.pivots.route key).toNat (substituteFrom (t.child key) key repl d))

def Valid (p : TreePath P) : Prop := ValidFrom L p.node p.key p.depth
def target (p : TreePath P) : Tree P := targetFrom p.node p.key p.depth
def substitute (p : TreePath P) (repl : Tree P) : Tree P :=
  substituteFrom L p.node p.key repl p.depth

end TreePath

/-! ### Laws of a layer and proofs -/

/-- The laws the generic proofs use; proved for each layer. -/
structure Layer.Lawful {P : Type} (L : Layer P) : Prop where
  empty_ok : L.Ok L.empty 1
  empty_msg : ∀ i k, L.msg L.empty i k = .nop
  splitLeaf : ∀ {p s e} {k : Key}, L.Ok p 1 → L.LeafOk p →
    L.Ok (L.splitLeaf p s k e).1 1 ∧ L.Ok (L.splitLeaf p s k e).2 1 ∧
    (∀ k', (Domain.range s (.ofKey k)).Contains k' →
      L.msg (L.splitLeaf p s k e).1 0 k' = L.msg p 0 k') ∧
    (∀ k', (Domain.range (.ofKey k) e).Contains k' →
      L.msg (L.splitLeaf p s k e).2 0 k' = L.msg p 0 k')
  splitIndex : ∀ {p s m e n i}, L.Ok p n → 0 < i → i < n →
    L.Ok (L.splitIndex p s m e i).1 i ∧ L.Ok (L.splitIndex p s m e i).2 (n - i) ∧
    (∀ j k', j < i → (Domain.range s m).Contains k' →
      L.msg (L.splitIndex p s m e i).1 j k' = L.msg p j k') ∧
    (∀ j k', j < n - i → (Domain.range m e).Contains k' →
      L.msg (L.splitIndex p s m e i).2 j k' = L.msg p (i + j) k')
  splitParent : ∀ {p n i}, L.Ok p n → i < n → L.Ok (L.splitParent p i) (n + 1) ∧
    ∀ j k', j < n + 1 → L.msg (L.splitParent p i) j k' = L.msg p (if j ≤ i then j else j - 1) k'

namespace Tree
variable {P : Type} {L : Layer P}

/-- Induction over trees. -/
theorem ind {motive : Tree P → Prop} (hnil : motive nil)
    (hnode : ∀ p pv ch, (∀ c ∈ ch, motive c) → motive (node p pv ch)) : ∀ t, motive t
  | nil => hnil
  | node p pv ch => hnode p pv ch (fun c _ => ind hnil hnode c)

theorem local_of_wf {t : Tree P} (h : t.WF L) : t.LocalStructure L := by
  cases t with
  | nil => trivial
  | node p pv ch => rw [WF] at h; exact h.1

/-- Well-formedness of a node, spelled out. -/
theorem wf_node {p : P} {pv ch} : (node p pv ch).WF L ↔
    pv.WF ∧ ch.length = pv.numRanges ∧ L.Ok p ch.length ∧
    ∀ (i : Nat) c, ch[i]? = some c → c.WF L ∧
      (c.IsNode → c.myDomain = .range (pv.get i) (pv.get (i + 1))) := by
  rw [WF]
  constructor
  · rintro ⟨⟨h1, h2, h3⟩, h4, h5⟩
    refine ⟨h1, h2, h3, fun i c hc => ?_⟩
    have hw := h4 c (List.mem_of_getElem? hc)
    exact ⟨hw, fun hn => h5 i c hc hn (local_of_wf hw)⟩
  · rintro ⟨h1, h2, h3, h4⟩
    refine ⟨⟨h1, h2, h3⟩, fun c hc => ?_, fun i c hc hn _ => (h4 i c hc).2 hn⟩
    obtain ⟨i, hi⟩ := List.getElem?_of_mem hc
    exact (h4 i c hi).1

theorem wf_nil : (nil : Tree P).WF L := by rw [WF]; trivial

theorem contains_node {p : P} {pv ch} {k : Key} :
    (node p pv ch).myDomain.Contains k ↔ pv.BoundedKey k := Iff.rfl

theorem range_contains {a b : Element} {k : Key} :
    (Domain.range a b).Contains k ↔ a.rank ≤ k.toNat ∧ k.toNat < b.rank := by
  simp only [Domain.Contains, Element.lte_iff, Element.lt_iff, Element.rank_ofKey]

variable (L) in
/-- The message a walk down along `k` collects. -/
def at_ : Tree P → Key → Message
  | nil, _ => .empty
  | node p pv ch, k =>
    (at_ (ch.getD (pv.route k).toNat nil) k).merge (L.msg p (pv.route k).toNat k)
termination_by t => sizeOf t
decreasing_by
  simp only [List.getD]
  cases h : ch[(pv.route k).toNat]? with
  | none =>
    have : 0 < sizeOf ch := by cases ch <;> simp <;> omega
    simp; omega
  | some c =>
    have := List.sizeOf_lt_of_mem (List.mem_of_getElem? h)
    simp; omega

theorem at_nil (k : Key) : at_ L nil k = .empty := by rw [at_]

/-- At a covered key, the answer is the routed child's answer with the node's message on top. -/
theorem at_node {p : P} {pv ch} {k : Key} (hw : (node p pv ch).WF L) (hk : pv.BoundedKey k) :
    ∃ i c, pv.route k = (i : Nat) ∧ ch[i]? = some c ∧
      (pv.get i).rank ≤ k.toNat ∧ k.toNat < (pv.get (i + 1)).rank ∧ (i < pv.numRanges) ∧
      at_ L (node p pv ch) k = (at_ L c k).merge (L.msg p i k) := by
  rw [wf_node] at hw
  obtain ⟨h1, h2, _, _⟩ := hw
  obtain ⟨i, hi, hlt, ha, hb⟩ := PivotTable.route_lemma h1 hk
  have hc : ch[i]? = some ch[i] := List.getElem?_eq_getElem (by omega)
  refine ⟨i, ch[i], hi, hc, ha, hb, hlt, ?_⟩
  rw [at_, hi]
  simp only [Int.toNat_natCast, List.getD, hc, Option.getD_some]

/-- Same, when the range of the key is known. -/
theorem at_node_of {p : P} {pv ch} {k : Key} {i : Nat} {c} (hw : (node p pv ch).WF L)
    (hc : ch[i]? = some c)
    (h1 : (pv.get i).rank ≤ k.toNat) (h2 : k.toNat < (pv.get (i + 1)).rank) :
    pv.BoundedKey k ∧ pv.route k = i ∧
      at_ L (node p pv ch) k = (at_ L c k).merge (L.msg p i k) := by
  have hw' := wf_node.mp hw
  have hi : i < pv.numRanges := by
    have := (List.getElem?_eq_some_iff.mp hc).1; omega
  obtain ⟨hb, hr⟩ := PivotTable.route_is hw'.1 hi h1 h2
  refine ⟨hb, hr, ?_⟩
  rw [at_, hr]
  simp only [Int.toNat_natCast, List.getD, hc, Option.getD_some]

theorem at_isDefine (t : Tree P) (k : Key) : (at_ L t k).IsDefine := by
  induction t using ind with
  | hnil => exact ⟨_, at_nil k⟩
  | hnode p pv ch ih =>
    rw [at_]
    apply Message.isDefine_merge
    simp only [List.getD]
    cases h : ch[(pv.route k).toNat]? with
    | none => exact ⟨_, at_nil k⟩
    | some c => exact ih c (List.mem_of_getElem? h)

/-- Every covered key of a well-formed tree has a walk, collecting `at_`. -/
theorem at_answers (t : Tree P) {k : Key} (hw : t.WF L) (hk : t.IsNode → t.myDomain.Contains k) :
    Answers (shape L) k t (at_ L t k) := by
  induction t using ind with
  | hnil => rw [at_nil]; exact .leaf (fun h => h) hw
  | hnode p pv ch ih =>
    have hb : pv.BoundedKey k := hk trivial
    obtain ⟨i, c, hr, hc, h1, h2, _, he⟩ := at_node hw hb
    have hw' := (wf_node.mp hw).2.2.2 i c hc
    have hch : (node p pv ch).child k = c := by
      simp only [child, children, pivots, hr, Int.toNat_natCast, List.getD, hc, Option.getD_some]
    have hrec : Answers (shape L) k ((shape L).child (node p pv ch) k) (at_ L c k) := by
      show Answers (shape L) k ((node p pv ch).child k) (at_ L c k)
      rw [hch]
      refine ih c (List.mem_of_getElem? hc) hw'.1 (fun hn => ?_)
      rw [hw'.2 hn, range_contains]
      exact ⟨h1, h2⟩
    have := Answers.node (S := shape L) (n := node p pv ch) (k := k) trivial hw ⟨hw, trivial, hb⟩ hrec
    rw [he]
    have hm : (shape L).msg (node p pv ch) k = L.msg p i k := by
      simp only [shape, payload, pivots, hr, Int.toNat_natCast]
    rw [hm] at this
    exact this

theorem receipt_at {r : Receipt (Tree P)} {t : Tree P} {k : Key} (hw : t.WF L)
    (hk : t.IsNode → t.myDomain.Contains k) (h : r.ValidFor (shape L) t k) :
    r.result = at_ L t k :=
  (Receipt.valid_iff.mp ⟨r, h, rfl⟩).functional (at_answers t hw hk)

/-! #### Two trees with the same domain and the same answers on it -/

variable (L) in
/-- `t'` can stand in for `t`. -/
structure Same (t t' : Tree P) : Prop where
  wf : t'.WF L
  isNode : t'.IsNode
  domain : t'.myDomain = t.myDomain
  answers : ∀ k, t.myDomain.Contains k → at_ L t' k = at_ L t k

theorem child_in_domain {p : P} {pv ch} {i : Nat} {c} {k : Key} (hw : (node p pv ch).WF L)
    (hc : ch[i]? = some c) (hn : c.IsNode) :
    c.myDomain.Contains k ↔ (pv.get i).rank ≤ k.toNat ∧ k.toNat < (pv.get (i + 1)).rank := by
  rw [((wf_node.mp hw).2.2.2 i c hc).2 hn, range_contains]

/-- Replacing one child and the payload: the node stays well formed with the same domain, and its
answers are the answers of the new children under the new payload. -/
theorem wf_set_child {p p' : P} {pv ch} {i : Nat} {c'} (hw : (node p pv ch).WF L)
    (hi : i < ch.length) (hp : L.Ok p' ch.length) (hc' : c'.WF L)
    (hd : c'.IsNode → c'.myDomain = .range (pv.get i) (pv.get (i + 1))) :
    (node p' pv (ch.set i c')).WF L := by
  rw [wf_node] at hw ⊢
  obtain ⟨h1, h2, h3, h4⟩ := hw
  refine ⟨h1, by simpa using h2, by simpa using hp, ?_⟩
  intro j c hj
  rw [List.getElem?_set] at hj
  by_cases hji : i = j
  · subst hji
    rw [if_pos rfl, if_pos hi] at hj
    cases hj
    exact ⟨hc', hd⟩
  · rw [if_neg hji] at hj
    exact h4 j c hj

/-- Replacing a child by one that can stand in for it. -/
theorem same_set_child {p : P} {pv ch} {i : Nat} {c c'} (hw : (node p pv ch).WF L)
    (hc : ch[i]? = some c) (hn : c.IsNode) (hs : Same L c c') :
    Same L (node p pv ch) (node p pv (ch.set i c')) := by
  have hi := (List.getElem?_eq_some_iff.mp hc).1
  have hw' := wf_node.mp hw
  have hwn : (node p pv (ch.set i c')).WF L :=
    wf_set_child hw hi hw'.2.2.1 hs.wf
      (fun _ => by rw [hs.domain]; exact (hw'.2.2.2 i c hc).2 hn)
  refine ⟨hwn, trivial, rfl, ?_⟩
  intro k hk
  obtain ⟨j, cj, hr, hcj, h1, h2, _, he⟩ := at_node hw hk
  rw [he]
  by_cases hji : i = j
  · subst hji
    have : cj = c := by rw [hc] at hcj; exact (Option.some.inj hcj).symm
    subst this
    have h3 : (ch.set i c')[i]? = some c' := by rw [List.getElem?_set, if_pos rfl, if_pos hi]
    rw [(at_node_of hwn h3 h1 h2).2.2, hs.answers k ((child_in_domain hw hc hn).mpr ⟨h1, h2⟩)]
  · have h3 : (ch.set i c')[j]? = some cj := by rw [List.getElem?_set, if_neg hji]; exact hcj
    rw [(at_node_of hwn h3 h1 h2).2.2]

/-- Promoting, and growing. -/
theorem promote_same {t : Tree P} (hl : L.Lawful) (hw : t.WF L) {d : Domain} {a b : Element}
    (hd : d = .range a b) (hdw : d.WF) (ht : t.IsNode → t.myDomain = d) :
    (t.promote L d).WF L ∧ (t.promote L d).IsNode ∧ (t.promote L d).myDomain = d ∧
      ∀ k, d.Contains k → at_ L (t.promote L d) k = at_ L t k := by
  cases t with
  | node p pv ch => exact ⟨hw, trivial, ht trivial, fun _ _ => rfl⟩
  | nil =>
    subst hd
    have hpv : (PivotTable.ofDomain (.range a b)).WF :=
      PivotTable.wf_of (by simp [PivotTable.ofDomain]) (by simpa [PivotTable.ofDomain] using hdw.1)
        (by simpa [PivotTable.ofDomain] using hdw.2)
    have hwn : (emptyRoot L (.range a b)).WF L := by
      unfold emptyRoot
      rw [wf_node]
      refine ⟨hpv, rfl, hl.empty_ok, ?_⟩
      intro i c hc
      have : c = nil := by
        have := List.mem_of_getElem? hc
        simpa using this
      subst this
      exact ⟨wf_nil, fun h => absurd h (fun h => h)⟩
    refine ⟨hwn, trivial, rfl, ?_⟩
    intro k hk
    rw [range_contains] at hk
    show at_ L (emptyRoot L (.range a b)) k = at_ L nil k
    unfold emptyRoot at hwn ⊢
    rw [(at_node_of (i := 0) (c := nil) hwn rfl hk.1 hk.2).2.2, hl.empty_msg, Message.merge_nop]

theorem grow_same {t : Tree P} (hl : L.Lawful) (hw : t.WF L)
    (ht : t.IsNode → t.myDomain = .total) :
    (t.grow L).WF L ∧ (t.grow L).IsNode ∧ (t.grow L).myDomain = .total ∧
      ∀ k, at_ L (t.grow L) k = at_ L t k := by
  have hwn : (t.grow L).WF L := by
    unfold grow
    rw [wf_node]
    refine ⟨PivotTable.total_wf, rfl, hl.empty_ok, ?_⟩
    intro i c hc
    cases i with
    | zero => cases hc; exact ⟨hw, ht⟩
    | succ i => simp at hc
  refine ⟨hwn, trivial, rfl, ?_⟩
  intro k
  have hk := range_contains.mp (Domain.total_contains k)
  unfold grow at hwn ⊢
  rw [(at_node_of (i := 0) (c := t) hwn rfl hk.1 hk.2).2.2, hl.empty_msg, Message.merge_nop]

/-! #### Splitting -/

/-- Splitting child `idx` of a node at an element inside its range, into two nodes that answer as
the child did. -/
theorem split_same {p : P} {pv ch} {idx : Nat} {c l r : Tree P} {e : Element} (hl : L.Lawful)
    (hw : (node p pv ch).WF L) (hc : ch[idx]? = some c) (hn : c.IsNode)
    (he1 : (pv.get idx).rank < e.rank) (he2 : e.rank < (pv.get (idx + 1)).rank)
    (hlw : l.WF L) (hrw : r.WF L)
    (hld : l.myDomain = .range (pv.get idx) e) (hrd : r.myDomain = .range e (pv.get (idx + 1)))
    (hla : ∀ k, l.myDomain.Contains k → at_ L l k = at_ L c k)
    (hra : ∀ k, r.myDomain.Contains k → at_ L r k = at_ L c k) :
    Same L (node p pv ch) (node (L.splitParent p idx) (pv.insert (idx + 1) e)
      ((ch.set idx l).insertIdx (idx + 1) r)) := by
  obtain ⟨w1, w2, w3, w4⟩ := wf_node.mp hw
  have hi : idx < ch.length := (List.getElem?_eq_some_iff.mp hc).1
  have hpl : pv.pivots.length = ch.length + 1 := by
    have := w1.len; unfold PivotTable.numRanges at w2; omega
  have hins : pv.CanInsert (idx + 1) e := by
    refine ⟨w1, ?_, by omega, fun h => by omega, fun h => by omega, fun _ => ?_⟩
    · apply PivotTable.rank_lt_ne_max
      have : (pv.get (idx + 1)).rank ≤ 2 ^ 64 := by
        cases pv.get (idx + 1) with
        | max => exact Nat.le_refl _
        | elem x => exact Nat.le_of_lt (Element.rank_elem_lt x)
      omega
    · rw [Element.lt_iff, Element.lt_iff]
      exact ⟨he1, he2⟩
  have hile : idx + 1 ≤ pv.pivots.length := by omega
  obtain ⟨sp1, sp2⟩ := hl.splitParent w3 hi
  have hlen : ((ch.set idx l).insertIdx (idx + 1) r).length = ch.length + 1 := by
    rw [List.length_insertIdx_of_le_length (by simp; omega)]; simp
  have hget : ∀ j, ((ch.set idx l).insertIdx (idx + 1) r)[j]? =
      if j < idx then ch[j]? else if j = idx then some l else if j = idx + 1 then some r
      else ch[j - 1]? := by
    intro j
    rw [List.getElem?_insertIdx]
    by_cases h1 : j < idx
    · rw [if_pos (by omega), List.getElem?_set, if_neg (by omega), if_pos h1]
    · by_cases h2 : j = idx
      · subst h2; rw [if_pos (by omega), List.getElem?_set, if_pos rfl, if_pos hi]; simp
      · by_cases h3 : j = idx + 1
        · rw [if_neg (by omega), if_pos h3, if_neg h1, if_neg h2, if_pos h3,
            if_pos (by simp; omega)]
        · rw [if_neg (by omega), if_neg h3, if_neg h1, if_neg h2, if_neg h3,
            List.getElem?_set, if_neg (by omega)]
  have hwn : (node (L.splitParent p idx) (pv.insert (idx + 1) e)
      ((ch.set idx l).insertIdx (idx + 1) r)).WF L := by
    rw [wf_node]
    refine ⟨PivotTable.insert_wf hins, ?_, by rw [hlen]; exact sp1, ?_⟩
    · rw [hlen]; unfold PivotTable.numRanges; rw [PivotTable.insert_length hile]; omega
    · intro j d hd
      rw [hget] at hd
      rw [PivotTable.insert_get hile, PivotTable.insert_get hile]
      by_cases h1 : j < idx
      · rw [if_pos h1] at hd
        rw [if_pos (by omega), if_pos (by omega)]
        exact w4 j d hd
      · rw [if_neg h1] at hd
        by_cases h2 : j = idx
        · rw [if_pos h2] at hd
          cases hd
          subst h2
          rw [if_pos (by omega), if_neg (by omega), if_pos rfl]
          exact ⟨hlw, fun _ => hld⟩
        · rw [if_neg h2] at hd
          by_cases h3 : j = idx + 1
          · rw [if_pos h3] at hd
            cases hd
            subst h3
            rw [if_neg (by omega), if_pos rfl, if_neg (by omega), if_neg (by omega)]
            exact ⟨hrw, fun _ => hrd⟩
          · rw [if_neg h3] at hd
            rw [if_neg (by omega), if_neg (by omega), if_neg (by omega), if_neg (by omega)]
            have := w4 (j - 1) d hd
            rw [show j - 1 + 1 = j by omega] at this
            exact this
  refine ⟨hwn, trivial, ?_, ?_⟩
  · have h1 := w1.len
    simp only [myDomain, PivotTable.insert_length hile, PivotTable.insert_get hile]
    rw [if_pos (by omega), if_neg (by omega), if_neg (by omega)]
    simp
  · intro k hk
    obtain ⟨j, d, hr, hcj, h1, h2, hjn, he⟩ := at_node hw hk
    rw [he]
    have hjl : j < ch.length := by omega
    rcases Nat.lt_trichotomy j idx with hlt | heq | hgt
    · have a : ((ch.set idx l).insertIdx (idx + 1) r)[j]? = some d := by
        rw [hget, if_pos hlt]; exact hcj
      rw [(at_node_of hwn a (by rw [PivotTable.insert_get hile, if_pos (by omega)]; exact h1)
        (by rw [PivotTable.insert_get hile, if_pos (by omega)]; exact h2)).2.2,
        sp2 j k (by omega), if_pos (by omega)]
    · subst heq
      have hdc : d = c := by rw [hc] at hcj; exact (Option.some.inj hcj).symm
      subst hdc
      by_cases hke : k.toNat < e.rank
      · have a : ((ch.set j l).insertIdx (j + 1) r)[j]? = some l := by
          rw [hget, if_neg (by omega), if_pos rfl]
        rw [(at_node_of hwn a (by rw [PivotTable.insert_get hile, if_pos (by omega)]; exact h1)
          (by rw [PivotTable.insert_get hile, if_neg (by omega), if_pos rfl]; exact hke)).2.2,
          sp2 j k (by omega), if_pos (Nat.le_refl _),
          hla k (by rw [hld, range_contains]; exact ⟨h1, hke⟩)]
      · have a : ((ch.set j l).insertIdx (j + 1) r)[j + 1]? = some r := by
          rw [hget, if_neg (by omega), if_neg (by omega), if_pos rfl]
        rw [(at_node_of hwn a
          (by rw [PivotTable.insert_get hile, if_neg (by omega), if_pos rfl]; omega)
          (by rw [PivotTable.insert_get hile, if_neg (by omega), if_neg (by omega)]; exact h2)).2.2,
          sp2 (j + 1) k (by omega), if_neg (by omega), Nat.add_sub_cancel,
          hra k (by rw [hrd, range_contains]; exact ⟨by omega, h2⟩)]
    · have a : ((ch.set idx l).insertIdx (idx + 1) r)[j + 1]? = some d := by
        rw [hget, if_neg (by omega), if_neg (by omega), if_neg (by omega)]; exact hcj
      rw [(at_node_of hwn a
        (by rw [PivotTable.insert_get hile, if_neg (by omega), if_neg (by omega)]; exact h1)
        (by rw [PivotTable.insert_get hile, if_neg (by omega), if_neg (by omega)]; exact h2)).2.2,
        sp2 (j + 1) k (by omega), if_neg (by omega), Nat.add_sub_cancel]

/-- The halves of a leaf. -/
theorem splitLeaf_spec {t : Tree P} {k : Key} (hl : L.Lawful) (h : t.CanSplitLeaf L k)
    {a b : Element} (hd : t.myDomain = .range a b) :
    a.rank < k.toNat ∧ k.toNat < b.rank ∧
    (t.splitLeaf L k).1.WF L ∧ (t.splitLeaf L k).2.WF L ∧
    (t.splitLeaf L k).1.myDomain = .range a (.ofKey k) ∧
    (t.splitLeaf L k).2.myDomain = .range (.ofKey k) b ∧
    (∀ k', (Domain.range a (.ofKey k)).Contains k' → at_ L (t.splitLeaf L k).1 k' = at_ L t k') ∧
    (∀ k', (Domain.range (.ofKey k) b).Contains k' → at_ L (t.splitLeaf L k).2 k' = at_ L t k') := by
  obtain ⟨hw, hleaf, hk, hne⟩ := h
  cases t with
  | nil => exact absurd hleaf (fun h => h)
  | node p pv ch =>
  obtain ⟨rfl, hlo⟩ := hleaf
  obtain ⟨w1, w2, w3, w4⟩ := wf_node.mp hw
  have hlen : pv.pivots.length = 2 := by
    have := w1.len; unfold PivotTable.numRanges at w2; simp at w2; omega
  obtain ⟨l⟩ := pv
  match l, hlen with
  | [x, y], _ =>
  have hxy := hd
  simp only [myDomain] at hxy
  have hx : a = x := by cases hxy; rfl
  have hy : b = y := by cases hxy; rfl
  subst hx; subst hy
  have hk' : a.rank ≤ k.toNat ∧ k.toNat < b.rank := by
    have := range_contains.mp hk; exact this
  have hne' : a ≠ .ofKey k := hne
  have hlt : a.rank < k.toNat := by
    rcases Nat.lt_or_eq_of_le hk'.1 with h | h
    · exact h
    · exact absurd (Element.rank_inj h) hne'
  obtain ⟨s1, s2, s3, s4⟩ := hl.splitLeaf (s := a) (e := b) (k := k) w3 hlo
  have hb := PivotTable.wf_iff _ |>.mp w1
  have hamax : a ≠ .max := hb.2.2 0 (by simp)
  have e1 : (node p ⟨[a, b]⟩ [nil]).splitLeaf L k =
      (node (L.splitLeaf p a k b).1 ⟨[a, .ofKey k]⟩ [nil],
       node (L.splitLeaf p a k b).2 ⟨[.ofKey k, b]⟩ [nil]) := rfl
  have pw : ∀ x y : Element, x.rank < y.rank → x ≠ .max → (⟨[x, y]⟩ : PivotTable).WF := by
    intro x y h1 h2
    exact PivotTable.wf_of (by simp) (by simpa [Element.lt_iff] using h1) (by simpa using h2)
  have kids : ∀ (q : PivotTable) (i : Nat) (c : Tree P), ([nil] : List (Tree P))[i]? = some c →
      c.WF L ∧ (c.IsNode → c.myDomain = .range (q.get i) (q.get (i + 1))) := by
    intro q i c hc
    have : c = nil := by simpa using List.mem_of_getElem? hc
    subst this
    exact ⟨wf_nil, fun h => absurd h (fun h => h)⟩
  have wl : (node (L.splitLeaf p a k b).1 ⟨[a, .ofKey k]⟩ [nil]).WF L := by
    rw [wf_node]
    exact ⟨pw _ _ hlt hamax, rfl, s1, kids _⟩
  have wr : (node (L.splitLeaf p a k b).2 ⟨[.ofKey k, b]⟩ [nil]).WF L := by
    rw [wf_node]
    exact ⟨pw _ _ hk'.2 (by intro h; cases h), rfl, s2, kids _⟩
  rw [e1]
  refine ⟨hlt, hk'.2, wl, wr, rfl, rfl, ?_, ?_⟩
  · intro k' hk2
    have c1 := range_contains.mp hk2
    rw [(at_node_of (i := 0) (c := nil) wl rfl c1.1 c1.2).2.2,
      (at_node_of (i := 0) (c := nil) hw rfl c1.1 (Nat.lt_trans c1.2 hk'.2)).2.2, s3 k' hk2]
  · intro k' hk2
    have c1 := range_contains.mp hk2
    rw [(at_node_of (i := 0) (c := nil) wr rfl c1.1 c1.2).2.2,
      (at_node_of (i := 0) (c := nil) hw rfl (Nat.le_trans hk'.1 c1.1) c1.2).2.2, s4 k' hk2]

end Tree

namespace PivotTable

theorem subrange_left {t : PivotTable} (h : t.WF) {i : Nat} (h0 : 0 < i) (hi : i < t.numRanges) :
    (t.subrange 0 (i + 1)).WF ∧ (t.subrange 0 (i + 1)).pivots.length = i + 1 ∧
      ∀ j, j ≤ i → (t.subrange 0 (i + 1)).get j = t.get j := by
  unfold numRanges at hi
  have hlen : (t.subrange 0 (i + 1)).pivots.length = i + 1 := by
    simp [subrange]; omega
  have hget : ∀ j, j ≤ i → (t.subrange 0 (i + 1)).get j = t.get j := by
    intro j hj
    simp only [get, List.getD, subrange, List.drop_zero, List.getElem?_take]
    rw [if_pos (by omega)]
  refine ⟨?_, hlen, hget⟩
  obtain ⟨w1, w2, w3⟩ := (wf_iff t).mp h
  rw [wf_iff, hlen]
  refine ⟨by omega, ?_, ?_⟩
  · intro a b hab hb
    rw [hget a (by omega), hget b (by omega)]
    exact w2 a b hab (by omega)
  · intro a ha
    rw [hget a (by omega)]
    exact w3 a (by omega)

theorem subrange_right {t : PivotTable} (h : t.WF) {i : Nat} (hi : i < t.numRanges) :
    (t.subrange i t.pivots.length).WF ∧
      (t.subrange i t.pivots.length).pivots.length = t.pivots.length - i ∧
      ∀ j, (t.subrange i t.pivots.length).get j = t.get (i + j) := by
  unfold numRanges at hi
  have hlen : (t.subrange i t.pivots.length).pivots.length = t.pivots.length - i := by
    simp [subrange]
  have hget : ∀ j, (t.subrange i t.pivots.length).get j = t.get (i + j) := by
    intro j
    simp only [get, List.getD, subrange, List.take_length, List.getElem?_drop]
  refine ⟨?_, hlen, hget⟩
  obtain ⟨w1, w2, w3⟩ := (wf_iff t).mp h
  rw [wf_iff, hlen]
  refine ⟨by omega, ?_, ?_⟩
  · intro a b hab hb
    rw [hget, hget]
    exact w2 _ _ (by omega) (by omega)
  · intro a ha
    rw [hget]
    exact w3 _ (by omega)

end PivotTable

namespace Tree
variable {P : Type} {L : Layer P}

/-- The halves of an index node. -/
theorem splitIndex_spec {t : Tree P} {i : Nat} (hl : L.Lawful) (h : t.CanSplitIndex L i)
    {a b : Element} (hd : t.myDomain = .range a b) :
    a.rank < (t.pivots.get i).rank ∧ (t.pivots.get i).rank < b.rank ∧
    (t.splitIndex L i).1.WF L ∧ (t.splitIndex L i).2.WF L ∧
    (t.splitIndex L i).1.myDomain = .range a (t.pivots.get i) ∧
    (t.splitIndex L i).2.myDomain = .range (t.pivots.get i) b ∧
    (∀ k', (Domain.range a (t.pivots.get i)).Contains k' →
      at_ L (t.splitIndex L i).1 k' = at_ L t k') ∧
    (∀ k', (Domain.range (t.pivots.get i) b).Contains k' →
      at_ L (t.splitIndex L i).2 k' = at_ L t k') := by
  obtain ⟨hw, hix, h0, hi⟩ := h
  cases t with
  | nil => exact absurd hix (fun h => h)
  | node p pv ch =>
  simp only [pivots] at hi ⊢
  obtain ⟨w1, w2, w3, w4⟩ := wf_node.mp hw
  have hpl := w1.len
  have hnr : pv.numRanges = pv.pivots.length - 1 := rfl
  have ha : a = pv.get 0 := by simp only [myDomain] at hd; cases hd; rfl
  have hb : b = pv.get (pv.pivots.length - 1) := by simp only [myDomain] at hd; cases hd; rfl
  have hil : i < ch.length := by omega
  obtain ⟨s1, s2, s3, s4⟩ := hl.splitIndex (s := pv.get 0) (m := pv.get i)
    (e := pv.get (pv.pivots.length - 1)) w3 h0 hil
  obtain ⟨l1, l2, l3⟩ := PivotTable.subrange_left w1 h0 hi
  obtain ⟨r1, r2, r3⟩ := PivotTable.subrange_right w1 hi
  have ctl : ∀ j, j < i → (ch.take i)[j]? = ch[j]? := by
    intro j hj; rw [List.getElem?_take, if_pos hj]
  have wl : ((node p pv ch).splitIndex L i).1.WF L := by
    simp only [splitIndex]
    rw [wf_node]
    have hlt : (ch.take i).length = i := by simp; omega
    refine ⟨l1, by rw [hlt]; unfold PivotTable.numRanges; omega, by rw [hlt]; exact s1, ?_⟩
    intro j c hj
    have hji : j < i := by have := (List.getElem?_eq_some_iff.mp hj).1; omega
    rw [ctl j hji] at hj
    rw [l3 j (by omega), l3 (j + 1) (by omega)]
    exact w4 j c hj
  have wr : ((node p pv ch).splitIndex L i).2.WF L := by
    simp only [splitIndex]
    rw [wf_node]
    have hlt : (ch.drop i).length = ch.length - i := by simp
    refine ⟨r1, by rw [hlt]; unfold PivotTable.numRanges; omega, by rw [hlt]; exact s2, ?_⟩
    intro j c hj
    rw [List.getElem?_drop] at hj
    rw [r3, r3]
    exact w4 (i + j) c hj
  refine ⟨by rw [ha]; exact w1.lt h0 (by omega), by rw [hb]; exact w1.lt (by omega) (by omega), wl, wr,
    ?_, ?_, ?_, ?_⟩
  · simp only [splitIndex, myDomain]
    rw [l2, l3 0 (by omega), l3 (i + 1 - 1) (by omega), ha]
    simp
  · simp only [splitIndex, myDomain]
    rw [r2, r3, r3, hb]
    congr 2; omega
  · intro k hk
    have c1 := range_contains.mp hk
    have hkb : pv.BoundedKey k := by
      rw [PivotTable.boundedKey_iff, ← ha]
      refine ⟨c1.1, Nat.lt_of_lt_of_le c1.2 (w1.le (by omega) (by omega))⟩
    obtain ⟨j, c, hr, hcj, h1, h2, hjn, he⟩ := at_node hw hkb
    have hji : j < i := by
      apply Nat.lt_of_not_le
      intro hle
      have := w1.le hle (by omega : j < pv.pivots.length)
      omega
    rw [he]
    simp only [splitIndex] at wl ⊢
    rw [(at_node_of wl (by rw [ctl j hji]; exact hcj) (by rw [l3 j (by omega)]; exact h1)
      (by rw [l3 (j + 1) (by omega)]; exact h2)).2.2,
      s3 j k hji (by rw [← ha]; exact hk)]
  · intro k hk
    have c1 := range_contains.mp hk
    have hkb : pv.BoundedKey k := by
      rw [PivotTable.boundedKey_iff, ← hb]
      refine ⟨Nat.le_trans (w1.le (Nat.zero_le i) (by omega)) c1.1, c1.2⟩
    obtain ⟨j, c, hr, hcj, h1, h2, hjn, he⟩ := at_node hw hkb
    have hji : i ≤ j := by
      apply Nat.le_of_not_lt
      intro hlt
      have := w1.le (show j + 1 ≤ i by omega) (by omega : i < pv.pivots.length)
      omega
    obtain ⟨m, rfl⟩ : ∃ m, j = i + m := ⟨j - i, by omega⟩
    rw [he]
    simp only [splitIndex] at wr ⊢
    rw [(at_node_of (i := m) wr (by rw [List.getElem?_drop]; exact hcj) (by rw [r3]; exact h1)
      (by rw [r3]; exact h2)).2.2,
      s4 m k (by omega) (by rw [← hb]; exact hk)]

theorem isLeaf_isNode {t : Tree P} (h : t.IsLeaf L) : t.IsNode := by
  cases t with
  | nil => exact h
  | node => trivial

theorem isIndex_isNode {t : Tree P} (h : t.IsIndex) : t.IsNode := by
  cases t with
  | nil => exact h
  | node => trivial

/-- Any legal split keeps domain, well-formedness and all answers. -/
theorem splitParent_same {t : Tree P} {r : SplitRequest} (hl : L.Lawful)
    (h : t.CanSplitParent L r) : Same L t (t.splitParent L r) := by
  cases r with
  | leaf idx k =>
    obtain ⟨hw, hn, c, hc, hcs⟩ := h
    cases t with
    | nil => exact absurd hn (fun h => h)
    | node p pv ch =>
    simp only [children] at hc
    have hcn := isLeaf_isNode hcs.2.1
    have hd := ((wf_node.mp hw).2.2.2 idx c hc).2 hcn
    obtain ⟨s1, s2, s3, s4, s5, s6, s7, s8⟩ := splitLeaf_spec hl hcs hd
    have hg : ch.getD idx nil = c := by simp [List.getD, hc]
    simp only [splitParent, hg]
    exact split_same hl hw hc hcn s1 s2 s3 s4 s5 s6 (by rw [s5]; exact s7) (by rw [s6]; exact s8)
  | index idx i =>
    obtain ⟨hw, hn, c, hc, hcs⟩ := h
    cases t with
    | nil => exact absurd hn (fun h => h)
    | node p pv ch =>
    simp only [children] at hc
    have hcn := isIndex_isNode hcs.2.1
    have hd := ((wf_node.mp hw).2.2.2 idx c hc).2 hcn
    obtain ⟨s1, s2, s3, s4, s5, s6, s7, s8⟩ := splitIndex_spec hl hcs hd
    have hg : ch.getD idx nil = c := by simp [List.getD, hc]
    simp only [splitParent, hg]
    exact split_same hl hw hc hcn s1 s2 s3 s4 s5 s6 (by rw [s5]; exact s7) (by rw [s6]; exact s8)

end Tree

namespace TreePath
open Tree
variable {P : Type} {L : Layer P}

theorem target_spec {t : Tree P} {key : Key} {d : Nat} (h : ValidFrom L t key d) :
    (targetFrom t key d).WF L ∧ (targetFrom t key d).IsNode := by
  induction d generalizing t with
  | zero => exact ⟨h.1, h.2.2.1⟩
  | succ d ih => exact ih h.2.2.2

/-- Substituting a stand-in for the target gives a stand-in for the root. -/
theorem substitute_same {t : Tree P} {key : Key} {d : Nat} {repl : Tree P}
    (h : ValidFrom L t key d) (hs : Same L (targetFrom t key d) repl) :
    Same L t (substituteFrom L t key repl d) := by
  induction d generalizing t with
  | zero => exact hs
  | succ d ih =>
    obtain ⟨hw, ⟨_, hn, hb⟩, hix, hv⟩ := h
    cases t with
    | nil => exact absurd hn (fun h => h)
    | node p pv ch =>
    obtain ⟨i, c, hr, hc, _, _, _, _⟩ := at_node hw hb
    have hch : (Tree.node p pv ch).child key = c := by
      simp only [child, children, pivots, hr, Int.toNat_natCast, List.getD, hc, Option.getD_some]
    simp only [targetFrom, hch] at hs
    rw [hch] at hv
    have := same_set_child hw hc (hix c (List.mem_of_getElem? hc)) (ih hv hs)
    simp only [substituteFrom, hch, payload, pivots, children, hr, Int.toNat_natCast]
    exact this

end TreePath
/-! #### Changing a payload, flushing and pushing, in general -/

namespace Tree
variable {P : Type} {L : Layer P}

/-- Changing the payload and one child together. -/
theorem same_modify {p p' : P} {pv ch} {i : Nat} {c c'} (hw : (node p pv ch).WF L)
    (hc : ch[i]? = some c) (hp : L.Ok p' ch.length) (hc' : c'.WF L)
    (hd : c'.IsNode → c'.myDomain = .range (pv.get i) (pv.get (i + 1)))
    (hi : ∀ k, (Domain.range (pv.get i) (pv.get (i + 1))).Contains k →
      (at_ L c' k).merge (L.msg p' i k) = (at_ L c k).merge (L.msg p i k))
    (hj : ∀ j k, j < ch.length → j ≠ i → (Domain.range (pv.get j) (pv.get (j + 1))).Contains k →
      pv.BoundedKey k → pv.route k = j → L.msg p' j k = L.msg p j k) :
    Same L (node p pv ch) (node p' pv (ch.set i c')) := by
  have hil := (List.getElem?_eq_some_iff.mp hc).1
  have hwn := wf_set_child hw hil hp hc' hd
  refine ⟨hwn, trivial, rfl, ?_⟩
  intro k hk
  obtain ⟨j, cj, hr, hcj, h1, h2, _, he⟩ := at_node hw hk
  rw [he]
  by_cases hji : i = j
  · subst hji
    have : cj = c := by rw [hc] at hcj; exact (Option.some.inj hcj).symm
    subst this
    have h3 : (ch.set i c')[i]? = some c' := by rw [List.getElem?_set, if_pos rfl, if_pos hil]
    rw [(at_node_of hwn h3 h1 h2).2.2, hi k (range_contains.mpr ⟨h1, h2⟩)]
  · have h3 : (ch.set i c')[j]? = some cj := by rw [List.getElem?_set, if_neg hji]; exact hcj
    rw [(at_node_of hwn h3 h1 h2).2.2,
      hj j k ((List.getElem?_eq_some_iff.mp hcj).1) (Ne.symm hji) (range_contains.mpr ⟨h1, h2⟩) hk hr]

/-- Changing only the payload. -/
theorem same_payload {p p' : P} {pv ch} (hw : (node p pv ch).WF L) (hp : L.Ok p' ch.length)
    (hj : ∀ j k, j < ch.length → pv.BoundedKey k → pv.route k = (j : Nat) →
      L.msg p' j k = L.msg p j k) :
    Same L (node p pv ch) (node p' pv ch) := by
  have hwn : (node p' pv ch).WF L := by
    rw [wf_node] at hw ⊢
    exact ⟨hw.1, hw.2.1, hp, hw.2.2.2⟩
  refine ⟨hwn, trivial, rfl, ?_⟩
  intro k hk
  obtain ⟨j, cj, hr, hcj, h1, h2, _, he⟩ := at_node hw hk
  rw [he, (at_node_of hwn hcj h1 h2).2.2, hj j k (List.getElem?_eq_some_iff.mp hcj).1 hk hr]

/-- Adding newer messages to a node's payload. -/
theorem at_add {p p' : P} {pv ch} (x : Key → Message) (hw : (node p pv ch).WF L)
    (hp : L.Ok p' ch.length)
    (hm : ∀ j k, j < ch.length → L.msg p' j k = (L.msg p j k).merge (x k)) :
    (node p' pv ch).WF L ∧ ∀ k, pv.BoundedKey k →
      at_ L (node p' pv ch) k = (at_ L (node p pv ch) k).merge (x k) := by
  have hwn : (node p' pv ch).WF L := by
    rw [wf_node] at hw ⊢
    exact ⟨hw.1, hw.2.1, hp, hw.2.2.2⟩
  refine ⟨hwn, ?_⟩
  intro k hk
  obtain ⟨j, cj, hr, hcj, h1, h2, _, he⟩ := at_node hw hk
  rw [he, (at_node_of hwn hcj h1 h2).2.2, hm j k (List.getElem?_eq_some_iff.mp hcj).1,
    Message.merge_assoc]

variable (L) in
/-- The root condition kept by both layers: well formed, and empty or covering all keys. -/
def RootOk (t : Tree P) : Prop := t.WF L ∧ (t.IsNode → t.myDomain = .total)

theorem RootOk.covers {t : Tree P} (h : RootOk L t) (k : Key) (hn : t.IsNode) :
    t.myDomain.Contains k := by rw [h.2 hn]; exact Domain.total_contains k

theorem RootOk.answers {t : Tree P} (h : RootOk L t) (k : Key) :
    Answers (shape L) k t (at_ L t k) := at_answers t h.1 (h.covers k)

theorem RootOk.receipt {t : Tree P} (h : RootOk L t) {k : Key} {r : Receipt (Tree P)}
    (hr : r.ValidFor (shape L) t k) : r.result = at_ L t k := receipt_at h.1 (h.covers k) hr

theorem RootOk.same {t t' : Tree P} (h : RootOk L t) (hs : Same L t t') (hn : t.IsNode) :
    RootOk L t' ∧ at_ L t' = at_ L t := by
  refine ⟨⟨hs.wf, fun _ => by rw [hs.domain]; exact h.2 hn⟩, ?_⟩
  funext k
  exact hs.answers k (h.covers k hn)

theorem RootOk.grow {t : Tree P} (hl : L.Lawful) (h : RootOk L t) :
    RootOk L (t.grow L) ∧ at_ L (t.grow L) = at_ L t := by
  obtain ⟨h1, _, h3, h4⟩ := grow_same hl h.1 h.2
  exact ⟨⟨h1, fun _ => h3⟩, funext h4⟩

theorem RootOk.path {p : TreePath P} {t' : Tree P} (h : RootOk L p.node) (hp : p.Valid L)
    (hs : Same L p.target t') :
    RootOk L (p.substitute L t') ∧ at_ L (p.substitute L t') = at_ L p.node := by
  have hn : p.node.IsNode := by
    obtain ⟨node, key, depth⟩ := p
    cases depth with
    | zero => exact hp.2.2.1
    | succ d => exact hp.2.1.2.1
  exact h.same (TreePath.substitute_same hp hs) hn

/-- A well-formed table is bounded at every key exactly if it spans the total domain. -/
theorem rootOk_of {n : Tree P} (hw : n.WF L)
    (hc : n = .nil ∨ ∀ k : Key, n.pivots.BoundedKey k) : RootOk L n := by
  refine ⟨hw, fun hn => ?_⟩
  cases n with
  | nil => exact absurd hn (fun h => h)
  | node b pv ch =>
    rcases hc with h | h
    · cases h
    have h0 := (PivotTable.boundedKey_iff _ _).mp (h 0)
    have h1 := (PivotTable.boundedKey_iff _ _).mp (h (UInt64.ofNat (2 ^ 64 - 1)))
    have e0 : pv.get 0 = Element.minElem := by
      apply Element.rank_inj
      rw [Element.rank_min]
      have := h0.1
      simp only [Tree.pivots] at this
      have z : (0 : Key).toNat = 0 := rfl
      omega
    have e1 : pv.get (pv.pivots.length - 1) = Element.max := by
      have h2 := h1.2
      simp only [Tree.pivots] at h2
      rw [show (UInt64.ofNat (2 ^ 64 - 1)).toNat = 2 ^ 64 - 1 from rfl] at h2
      cases hm : pv.get (pv.pivots.length - 1) with
      | max => rfl
      | elem x =>
        rw [hm] at h2
        have := Element.rank_elem_lt x
        omega
    simp only [Tree.myDomain, e0, e1]
    rfl

theorem covers_of {n : Tree P} (h : RootOk L n) :
    n = .nil ∨ ∀ k : Key, n.pivots.BoundedKey k := by
  cases n with
  | nil => exact .inl rfl
  | node b pv ch => exact .inr fun k => h.covers k trivial

end Tree
end Verif
