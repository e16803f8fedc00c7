import Verif.Betree.Pivot
/-
C15. The pivot betree is a map.
Specification: `MapBehaviour.ActsAsMap` (a plain map to which messages are applied one by one).
-/
namespace Verif.C15
open Verif PivotBetree MapBehaviour

/-- How an image is read: the message collected on the walk along the key. `answer_unique` pins
this to query receipts. -/
noncomputable def answer (n : Node) (k : Key) : Message := n.at_ layer k

/-- The images the theorems start from: empty, or a root that covers every key. -/
def Covers (n : Node) : Prop := n = .nil ∨ ∀ k : Key, n.pivots.BoundedKey k

theorem rootOk_of {n : Node} (hw : n.WF layer) (hc : Covers n) : Tree.RootOk layer n :=
  Tree.rootOk_of hw hc

theorem covers_of {n : Node} (h : Tree.RootOk layer n) : Covers n := Tree.covers_of h

/-- Every key of every well-formed covering tree has a valid receipt, and all valid receipts agree
with `answer`, which is always a value. An empty tree answers with the default value. -/
theorem answer_unique {n : Node} (hw : n.WF layer) (hc : Covers n) (k : Key) :
    (∃ r : Receipt Node, r.ValidFor (Tree.shape layer) n k) ∧
    (∀ r : Receipt Node, r.ValidFor (Tree.shape layer) n k → r.result = answer n k) ∧
    (∃ v, answer n k = .define v) ∧ answer .nil k = .define 0 := by
  have h := rootOk_of hw hc
  refine ⟨?_, fun r hr => h.receipt hr, Tree.at_isDefine n k, Tree.at_nil k⟩
  obtain ⟨r, h, _⟩ := Receipt.answers_valid (h.answers k)
  exact ⟨r, h⟩

theorem main {img : Stamped Node} (hc : Covers img.value) {tr s} (h : (machine img).Exec tr s) :
    Inv s ∧ ActsAsMap answer (answer img.value) img.seqEnd tr ∧
      (interp s).value = expected (answer img.value) tr ∧
      (interp s).seqEnd = img.seqEnd + (putsOf tr).length :=
  of_steps (M := machine img) (answer := answer) (base := answer img.value)
    (start := img.seqEnd) (Inv := Inv) interp
    (fun s hs => by
      obtain ⟨hw, rfl⟩ := hs
      exact ⟨rootOk_of hw hc, Memtable.over_emptyAt _ _⟩)
    (fun s l s' hi hs => step hi hs) h

/-- Every execution from every empty or covering image behaves as a plain map; internal steps
(pushing the write buffer, growing, splitting leaves and index nodes, flushing) leave no trace in
the answers. -/
theorem acts_as_map {img : Stamped Node} (hc : Covers img.value) {tr s}
    (h : (machine img).Exec tr s) : ActsAsMap answer (answer img.value) img.seqEnd tr :=
  (main hc h).2.1

/-- In every reachable state the tree is well formed and empty or covering. -/
theorem wf_kept {img : Stamped Node} (hc : Covers img.value) {tr s}
    (h : (machine img).Exec tr s) : s.root.WF layer ∧ Covers s.root :=
  ⟨(main hc h).1.1, covers_of (main hc h).1⟩

/-- In every reachable state every key can be queried, and only with the map's answer. -/
theorem query_exact {img : Stamped Node} (hc : Covers img.value) {tr s}
    (h : (machine img).Exec tr s) (k : Key) :
    ∃ v, expected (answer img.value) tr k = .define v ∧
      ∀ e v' s', Next s (.query e k v') s' ↔
        e = img.seqEnd + (putsOf tr).length ∧ v' = v ∧ s' = s := by
  obtain ⟨hi, _, hv, he⟩ := main hc h
  have hd : ((interp s).value k).IsDefine := Message.isDefine_merge _ (s.root.at_isDefine k)
  obtain ⟨v, hd⟩ := hd
  refine ⟨v, by rw [← hv]; exact hd, ?_⟩
  intro e v' s'
  rw [← he]
  constructor
  · intro hn
    cases hn with
    | query hr hv' =>
      rw [hi.receipt hr] at hv'
      refine ⟨rfl, ?_, rfl⟩
      have : Message.define v' = .define v := hv'.trans hd
      cases this; rfl
  · rintro ⟨rfl, rfl, rfl⟩
    obtain ⟨r, hr, hrr⟩ := Receipt.answers_valid (hi.answers k)
    exact .query hr (by rw [hrr]; exact hd.symm)

/-- One internal step from a covering state changes no answer at all. -/
theorem internal_invisible {s s'} (hw : s.root.WF layer) (hc : Covers s.root)
    (h : Next s .internal s') (k : Key) :
    (answer s'.root k).merge (s'.memtable.query k) = (answer s.root k).merge (s.memtable.query k) ∧
      s'.memtable.seqEnd = s.memtable.seqEnd := by
  have h2 : interp s' = interp s := (step (rootOk_of hw hc) h).2
  exact ⟨congrFun (congrArg StampedMap.value h2) k, congrArg StampedMap.seqEnd h2⟩

/-- A frozen tree reopened continues as the map that was frozen. -/
theorem reopen {img : Stamped Node} (hc : Covers img.value) {tr s} (h : (machine img).Exec tr s)
    {i : Nat} {im : Stamped Node} (hi : tr[i]? = some (.freezeAs im)) {tr' s'}
    (h' : (machine im).Exec tr' s') :
    ActsAsMap answer (expected (answer img.value) (tr.take i))
      (img.seqEnd + (putsOf (tr.take i)).length) tr' := by
  obtain ⟨h1, h2⟩ := (acts_as_map hc h).freeze hi
  rw [← funext h1, ← h2]
  refine acts_as_map ?_ h'
  obtain ⟨s0, _, h0, hs⟩ := h.at_index hi
  cases hs with
  | freezeAs _ _ => exact (wf_kept hc h0).2

/-- The layer refines AbstractMap, label by label. -/
theorem refines_map {img : Stamped Node} (hc : Covers img.value) {tr s}
    (h : (machine img).Exec tr s) :
    (⟨AbstractMap.Init { value := answer img.value, seqEnd := img.seqEnd }, AbstractMap.Next⟩ :
      Machine StampedMap AbstractMap.Label).Exec (tr.map (absLabel answer)) (interp s) := by
  obtain ⟨t, h1, _, rfl⟩ := Machine.refine (M := machine img)
    (N := ⟨AbstractMap.Init { value := answer img.value, seqEnd := img.seqEnd }, AbstractMap.Next⟩)
    (absLabel answer) (fun s t => Inv s ∧ t = interp s)
    (fun s hs => by
      obtain ⟨hw, rfl⟩ := hs
      exact ⟨_, Memtable.over_emptyAt _ _, rootOk_of hw hc, rfl⟩)
    (fun s l s' t ht hs => by
      obtain ⟨hi, rfl⟩ := ht
      exact ⟨interp s', (step hi hs).2.abstract, (step hi hs).1, rfl⟩) h
  exact h1

/-- If clients only overwrite, starting from an empty tree, a query answers with the last put. -/
theorem query_last_put {tr s} (h : (machine { value := .nil, seqEnd := 0 }).Exec tr s)
    (hd : ∀ km ∈ putsOf tr, km.message.IsDefine) {i : Nat} {e k v}
    (hi : tr[i]? = some (.query e k v)) :
    Message.define v = (lastPut (putsOf (tr.take i)) k).getD (.define 0) := by
  have h1 := ((acts_as_map (.inl rfl) h).query hi).1
  rw [← h1, show (Message.define 0) = answer .nil k from (Tree.at_nil k).symm]
  apply expected_lastPut
  intro km hkm
  apply hd
  have : tr = tr.take i ++ tr.drop i := (List.take_append_drop i tr).symm
  rw [this]
  unfold putsOf at *
  rw [List.flatMap_append]
  exact List.mem_append.mpr (.inl hkm)

/-! ### A concrete run, and what goes wrong without `Covers` -/

theorem exec_step {img : Stamped Node} {tr s l s'} (h : (machine img).Exec tr s)
    (hs : Next s l s') : (machine img).Exec (tr ++ [l]) s' := h.snoc hs

def demoPuts1 : MsgHistory :=
  (MsgHistory.singletonAt 0 ⟨1, .define 10⟩).concat (MsgHistory.singletonAt 1 ⟨9, .define 20⟩)
def demoPuts2 : MsgHistory := MsgHistory.singletonAt 2 ⟨1, .define 11⟩

/-- A path to the root itself. -/
theorem rootPath {n : Node} (hw : n.WF layer) (hn : n.IsNode) (hc : Covers n) (k : Key) :
    TreePath.Valid layer ⟨n, k, 0⟩ := by
  refine ⟨hw, hw, hn, ?_⟩
  rcases hc with rfl | h
  · exact absurd hn (fun h => h)
  · exact h k

theorem index2 {b : Buffer} {pv : PivotTable} {x y : Node} (hx : x.IsNode) (hy : y.IsNode) :
    (Tree.node b pv [x, y]).IsIndex := by
  intro c hc
  simp only [List.mem_cons, List.not_mem_nil, or_false] at hc
  rcases hc with rfl | rfl
  · exact hx
  · exact hy

/-- A run with puts separated by a push, growth, a flush into a leaf, a leaf split, growth, an
index split, a flush at the root and a flush one level down, then a freeze and a query. It exists,
and the query answers 11. -/
theorem demo : ∃ s, (machine { value := .nil, seqEnd := 0 }).Exec
    [.put demoPuts1, .internal, .internal, .internal, .internal, .internal, .internal,
     .put demoPuts2, .internal, .internal, .internal,
     .freezeAs { value := s.root, seqEnd := 3 }, .query 3 1 11] s := by
  have w1 : demoPuts1.WF :=
    MsgHistory.wf_concat (MsgHistory.wf_singletonAt _ _) (MsgHistory.wf_singletonAt _ _) rfl
  have cov : Covers (Stamped.mk (I := Node) Tree.nil 0).value := .inl rfl
  have e0 : (machine { value := .nil, seqEnd := 0 }).Exec [] { memtable := .emptyAt 0, root := .nil } :=
    ⟨_, ⟨Tree.wf_nil, rfl⟩, .nil _⟩
  have e1 := exec_step e0 (.put w1 rfl)
  have e2 := exec_step e1 (.flushMemtable (wf_kept cov e1).1)
  have e3 := exec_step e2 (.grow (wf_kept cov e2).1)
  obtain ⟨h3, c3⟩ := wf_kept cov e3
  have e4 := exec_step e3 (.flush (p := ⟨_, 1, 0⟩) (idx := 0)
    (rootPath h3 (by exact trivial) c3 1) ⟨h3, by exact trivial, by exact Nat.one_pos⟩ rfl)
  obtain ⟨h4, c4⟩ := wf_kept cov e4
  have h4' := (Tree.wf_node.mp h4).2.2.2 0 _ rfl
  have e5 := exec_step e4 (.split (p := ⟨_, 1, 0⟩) (r := .leaf 0 5)
    (rootPath h4 (by exact trivial) c4 1)
    ⟨h4, by exact trivial, _, rfl, h4'.1, ⟨by rfl, trivial⟩,
      by rw [h4'.2 (by exact trivial)]; exact Domain.total_contains 5,
      by intro h; cases h⟩ rfl)
  have e6 := exec_step e5 (.grow (wf_kept cov e5).1)
  obtain ⟨h6, c6⟩ := wf_kept cov e6
  have e7 := exec_step e6 (.split (p := ⟨_, 1, 0⟩) (r := .index 0 1)
    (rootPath h6 (by exact trivial) c6 1)
    ⟨h6, by exact trivial, _, rfl, (wf_kept cov e5).1,
      by exact index2 trivial trivial,
      Nat.one_pos, by exact Nat.lt_succ_self 1⟩ rfl)
  have e8 := exec_step e7 (.put (MsgHistory.wf_singletonAt 2 ⟨1, .define 11⟩) rfl)
  have e9 := exec_step e8 (.flushMemtable (wf_kept cov e8).1)
  obtain ⟨h9, c9⟩ := wf_kept cov e9
  have e10 := exec_step e9 (.flush (p := ⟨_, 1, 0⟩) (idx := 0)
    (rootPath h9 (by exact trivial) c9 1) ⟨h9, by exact trivial, by exact Nat.succ_pos 1⟩ rfl)
  obtain ⟨h10, c10⟩ := wf_kept cov e10
  have h10' := ((Tree.wf_node.mp h10).2.2.2 0 _ rfl).1
  have e11 := exec_step e10 (.flush (p := ⟨_, 1, 1⟩) (idx := 0)
    ⟨h10, (rootPath h10 (by exact trivial) c10 1).2,
      by exact index2 trivial trivial,
      h10', h10', by exact trivial, by constructor <;> decide⟩
    ⟨h10', by exact trivial, by exact Nat.one_pos⟩ rfl)
  have e12 := exec_step e11 (.freezeAs (wf_kept cov e11).1 rfl)
  obtain ⟨v, hv, hq⟩ := query_exact cov e12 1
  have : v = 11 := by
    have : Message.define 11 = .define v := hv
    cases this; rfl
  subst this
  exact ⟨_, exec_step e12 ((hq _ 11 _).mpr ⟨rfl, rfl, rfl⟩)⟩

/-- A well-formed image whose root covers keys 0 to 9 only. `initialize` accepts it. -/
def shortImage : Stamped Node :=
  { value := .node Buffer.empty ⟨[.elem 0, .elem 10]⟩ [.nil], seqEnd := 0 }

/-- Finding: `initialize` (559-563) accepts images with a root that does not cover all keys. From
such an image a put key can never be queried, and `internal_grow` breaks well-formedness. The
theorems above therefore assume `Covers`, which every image frozen by a run from a covering image
satisfies (`reopen`). -/
theorem short_root : ∃ s, (machine shortImage).Exec [] s ∧
    (∀ e v s', ¬ Next s (.query e 50 v) s') ∧
    ∃ s', Next s .internal s' ∧ ¬ s'.root.WF layer := by
  have hw : shortImage.value.WF layer := by
    unfold shortImage
    rw [Tree.wf_node]
    refine ⟨PivotTable.wf_of (by decide) (by decide) (by decide), rfl, trivial, ?_⟩
    intro i c hc
    have : c = .nil := by simpa using List.mem_of_getElem? hc
    subst this
    exact ⟨Tree.wf_nil, fun h => absurd h (fun h => h)⟩
  refine ⟨_, ⟨_, ⟨hw, rfl⟩, .nil _⟩, ?_, _, .grow hw, ?_⟩
  · intro e v s' h
    cases h with
    | query hr hv =>
      rename_i r
      have ha := Receipt.valid_iff.mp ⟨r, hr, rfl⟩
      generalize r.result = m at ha
      cases ha with
      | leaf hn _ => exact hn trivial
      | node _ _ hk _ => exact absurd hk.2.2 (by
          intro h
          have := ((PivotTable.boundedKey_iff _ _).mp h).2
          revert this
          decide)
  · intro h
    have h2 := ((Tree.wf_node.mp h).2.2.2 0 _ rfl).2 trivial
    revert h2
    decide

end Verif.C15
