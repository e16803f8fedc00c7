import Verif.Betree.Paged
/-
C14. The paged betree is a map.
Specification: `MapBehaviour.ActsAsMap` (a plain map to which messages are applied one by one).
-/
namespace Verif.C14
open Verif PagedBetree MapBehaviour

/-- How an image is read: the message collected on the walk along the key. `answer_unique` pins
this to query receipts. -/
def answer (n : Node) (k : Key) : Message := n.at_ k

/-- Every key of every tree has a valid receipt, and all valid receipts agree with `answer`, which
is always a value (`Define`). An empty tree answers with the default value. -/
theorem answer_unique (n : Node) (k : Key) :
    (∃ r : Receipt Node, r.ValidFor shape n k) ∧
    (∀ r : Receipt Node, r.ValidFor shape n k → r.result = answer n k) ∧
    (∃ v, answer n k = .define v) ∧ answer .nil k = .define 0 := by
  refine ⟨?_, fun r h => receipt_at h, n.at_isDefine k, rfl⟩
  obtain ⟨r, h, _⟩ := Receipt.answers_valid (n.at_answers k)
  exact ⟨r, h⟩

/-- Every execution from every image behaves as a plain map; internal steps (pushing the write
buffer, growing, splitting, flushing) leave no trace in the answers. -/
theorem acts_as_map {img : Stamped Node} {tr s} (h : (machine img).Exec tr s) :
    ActsAsMap answer (answer img.value) img.seqEnd tr := by
  have := of_steps (M := machine img) (answer := answer) (base := answer img.value)
    (start := img.seqEnd) (Inv := fun _ => True) interp
    (fun s hs => ⟨trivial, by cases hs; exact Memtable.over_emptyAt _ _⟩)
    (fun s l s' _ hs => ⟨trivial, step hs⟩) h
  exact this.2.1

/-- In every reachable state every key can be queried, and only with the map's answer. -/
theorem query_exact {img : Stamped Node} {tr s} (h : (machine img).Exec tr s) (k : Key) :
    ∃ v, expected (answer img.value) tr k = .define v ∧
      ∀ e v' s', Next s (.query e k v') s' ↔
        e = img.seqEnd + (putsOf tr).length ∧ v' = v ∧ s' = s := by
  obtain ⟨_, _, hv, he⟩ := of_steps (M := machine img) (answer := answer)
    (base := answer img.value) (start := img.seqEnd) (Inv := fun _ => True) interp
    (fun s hs => ⟨trivial, by cases hs; exact Memtable.over_emptyAt _ _⟩)
    (fun s l s' _ hs => ⟨trivial, step hs⟩) h
  have hd : ((interp s).value k).IsDefine := Message.isDefine_merge _ (s.root.at_isDefine k)
  obtain ⟨v, hd⟩ := hd
  refine ⟨v, by rw [← hv]; exact hd, ?_⟩
  intro e v' s'
  rw [← he]
  constructor
  · intro hn
    cases hn with
    | query hr hv' =>
      rw [receipt_at hr] at hv'
      refine ⟨rfl, ?_, rfl⟩
      have : Message.define v' = .define v := hv'.trans hd
      cases this; rfl
  · rintro ⟨rfl, rfl, rfl⟩
    obtain ⟨r, hr, hrr⟩ := Receipt.answers_valid (s'.root.at_answers k)
    exact .query hr (by rw [hrr]; exact hd.symm)

/-- One internal step changes no answer at all. -/
theorem internal_invisible {s s'} (h : Next s .internal s') (k : Key) :
    (answer s'.root k).merge (s'.memtable.query k) = (answer s.root k).merge (s.memtable.query k) ∧
      s'.memtable.seqEnd = s.memtable.seqEnd := by
  have h2 : interp s' = interp s := step h
  exact ⟨congrFun (congrArg StampedMap.value h2) k, congrArg StampedMap.seqEnd h2⟩

/-- A frozen tree reopened continues as the map that was frozen. -/
theorem reopen {img : Stamped Node} {tr s} (h : (machine img).Exec tr s) {i : Nat} {im : Stamped Node}
    (hi : tr[i]? = some (.freezeAs im)) {tr' s'} (h' : (machine im).Exec tr' s') :
    ActsAsMap answer (expected (answer img.value) (tr.take i))
      (img.seqEnd + (putsOf (tr.take i)).length) tr' := by
  obtain ⟨h1, h2⟩ := (acts_as_map h).freeze hi
  rw [← funext h1, ← h2]
  exact acts_as_map h'

/-- The layer refines AbstractMap, label by label. -/
theorem refines_map {img : Stamped Node} {tr s} (h : (machine img).Exec tr s) :
    (⟨AbstractMap.Init { value := answer img.value, seqEnd := img.seqEnd }, AbstractMap.Next⟩ :
      Machine StampedMap AbstractMap.Label).Exec (tr.map (absLabel answer)) (interp s) := by
  obtain ⟨t, h1, rfl⟩ := Machine.refine (M := machine img)
    (N := ⟨AbstractMap.Init { value := answer img.value, seqEnd := img.seqEnd }, AbstractMap.Next⟩)
    (absLabel answer) (fun s t => t = interp s)
    (fun s hs => ⟨interp s, by cases hs; exact Memtable.over_emptyAt _ _, rfl⟩)
    (fun s l s' t ht hs => ⟨interp s', by subst ht; exact (step hs).abstract, rfl⟩) h
  exact h1

/-- If clients only overwrite, starting from an empty tree, a query answers with the last put. -/
theorem query_last_put {tr s} (h : (machine { value := .nil, seqEnd := 0 }).Exec tr s)
    (hd : ∀ km ∈ putsOf tr, km.message.IsDefine) {i : Nat} {e k v}
    (hi : tr[i]? = some (.query e k v)) :
    Message.define v = (lastPut (putsOf (tr.take i)) k).getD (.define 0) := by
  have h1 := ((acts_as_map h).query hi).1
  rw [← h1]
  apply expected_lastPut
  intro km hkm
  apply hd
  have : tr = tr.take i ++ tr.drop i := (List.take_append_drop i tr).symm
  rw [this]
  unfold putsOf at *
  rw [List.flatMap_append]
  exact List.mem_append.mpr (.inl hkm)

theorem exec_step {img : Stamped Node} {tr s l s'} (h : (machine img).Exec tr s)
    (hs : Next s l s') : (machine img).Exec (tr ++ [l]) s' := h.snoc hs

/-- A run with two puts to one key separated by a push, growth, a flush, a split at the root and a
split one level down, then a query. It exists, and the query can only answer 11. -/
def demoPuts1 : MsgHistory :=
  (MsgHistory.singletonAt 0 ⟨1, .define 10⟩).concat (MsgHistory.singletonAt 1 ⟨2, .define 20⟩)
def demoPuts2 : MsgHistory := MsgHistory.singletonAt 2 ⟨1, .define 11⟩

theorem demo : ∃ s, (machine { value := .nil, seqEnd := 0 }).Exec
    [.put demoPuts1, .internal, .internal, .internal, .put demoPuts2, .internal, .internal, .internal,
     .freezeAs { value := s.root, seqEnd := 3 }, .query 3 1 11] s := by
  have w1 : demoPuts1.WF :=
    MsgHistory.wf_concat (MsgHistory.wf_singletonAt _ _) (MsgHistory.wf_singletonAt _ _) rfl
  have e0 : (machine { value := .nil, seqEnd := 0 }).Exec [] { memtable := .emptyAt 0, root := .nil } :=
    ⟨_, rfl, .nil _⟩
  have e1 := exec_step e0 (.put w1 rfl)
  have e2 := exec_step e1 .flushMemtable
  have e3 := exec_step e2 .grow
  have e4 := exec_step e3 (Next.flush (p := ⟨_, 1, []⟩) (down := fun k => k < 5) (by exact trivial) rfl)
  have e5 := exec_step e4 (.put (MsgHistory.wf_singletonAt 2 ⟨1, .define 11⟩) rfl)
  have e6 := exec_step e5 .flushMemtable
  have e7 := exec_step e6 (Next.split (p := ⟨_, 1, []⟩) (left := fun k => k < 2)
    (right := fun k => 2 ≤ k) (by exact trivial) rfl)
  have e8 := exec_step e7 (Next.flush (p := ⟨_, 1, []⟩) (down := fun k => k = 1) (by exact trivial) rfl)
  have e9 := exec_step e8 (.freezeAs rfl)
  obtain ⟨v, hv, hq⟩ := query_exact e9 1
  have : v = 11 := by
    have : Message.define 11 = .define v := hv
    cases this; rfl
  subst this
  exact ⟨_, exec_step e9 ((hq _ 11 _).mpr ⟨rfl, rfl, rfl⟩)⟩

/-- A valid path of depth one, used by a split below the root. -/
example : Path.Valid ⟨.node Buffer.empty (fun _ => Node.emptyRoot), 7, [fun k => k < 100]⟩ :=
  ⟨trivial, trivial, fun _ _ => rfl⟩

end Verif.C14
