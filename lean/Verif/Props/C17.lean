import Verif.Betree.LinkedPossible
import Verif.Props.C16
/-
C17. The linked betree (pages reached through addresses, copy on write) is a map.
Specification: `MapBehaviour.ActsAsMap` and the filtered betree of C16.
-/
namespace Verif.C17
open LinkedBetree MapBehaviour
open FilteredBetree (layer)

/-- How an image is read: the message collected on the walk along the key. `answer_unique` pins
this to query receipts. -/
noncomputable def answer (l : Linked) (k : Key) : Message := (treeOf l).at_ layer k

/-- Every key of every image allowed by `initialize` has a valid receipt, and all valid receipts
agree with `answer`, which is always a value. -/
theorem answer_unique {l : Linked} (h : l.Inv) (k : Key) :
    (∃ r : Receipt Linked, r.ValidFor Linked.shape l k) ∧
    (∀ r : Receipt Linked, r.ValidFor Linked.shape l k → r.result = answer l k) ∧
    ∃ v, answer l k = .define v := by
  refine ⟨?_, fun r hr => receipt_at h hr, Tree.at_isDefine _ k⟩
  obtain ⟨r, h, _⟩ := Receipt.answers_valid (answers_root h k)
  exact ⟨r, h⟩

/-- The map a state stands for. -/
noncomputable def interp (s : State) : StampedMap := FilteredBetree.interp (abs s)

theorem init_inv {img : Stamped Linked} {s} (h : (machine img).Init s) :
    s.linked.Inv ∧ interp s = { value := answer img.value, seqEnd := img.seqEnd } := by
  obtain ⟨h1, h2, h3, rfl⟩ := h
  exact ⟨⟨h1, h2, h3⟩, Memtable.over_emptyAt _ _⟩

theorem map_step {s l s'} (hi : s.linked.Inv) (hs : Next s l s') :
    s'.linked.Inv ∧ MapStep answer (interp s) l (interp s') := by
  obtain ⟨h1, h2⟩ := LinkedBetree.step hi hs
  refine ⟨h1, ?_⟩
  have h3 := (FilteredBetree.step (s := abs s) (inv_sees hi).2.2 h2).2
  cases l <;> exact h3

theorem main {img : Stamped Linked} {tr s} (h : (machine img).Exec tr s) :
    s.linked.Inv ∧ ActsAsMap answer (answer img.value) img.seqEnd tr ∧
      (interp s).value = expected (answer img.value) tr ∧
      (interp s).seqEnd = img.seqEnd + (putsOf tr).length :=
  of_steps (M := machine img) (answer := answer) (base := answer img.value)
    (start := img.seqEnd) (fun s => s.linked.Inv) interp
    (fun _ hs => init_inv hs) (fun _ _ _ hi hs => map_step hi hs) h

/-- Every execution from every image `initialize` accepts behaves as a plain map; pushing the write
buffer, growing, splitting, flushing, compacting and dropping unreachable pages leave no trace in
the answers. -/
theorem acts_as_map {img : Stamped Linked} {tr s} (h : (machine img).Exec tr s) :
    ActsAsMap answer (answer img.value) img.seqEnd tr := (main h).2.1

/-- Every execution is one of the filtered betree of C16, image for image: same queries, same puts,
and the trees seen from the roots of frozen images. -/
theorem refines_filtered {img : Stamped Linked} {tr s} (h : (machine img).Exec tr s) :
    (FilteredBetree.machine ⟨treeOf img.value, img.seqEnd⟩).Exec (tr.map label) (abs s) ∧
      Tree.RootOk layer (treeOf img.value) := by
  refine ⟨?_, ?_⟩
  · obtain ⟨t, h1, _, rfl⟩ := Machine.refine (M := machine img)
      (N := FilteredBetree.machine ⟨treeOf img.value, img.seqEnd⟩)
      label (fun s t => s.linked.Inv ∧ t = abs s)
      (fun s hs => by
        obtain ⟨h1, h2, h3, rfl⟩ := hs
        exact ⟨_, ⟨(inv_sees ⟨h1, h2, h3⟩).2.2.1, rfl⟩, ⟨h1, h2, h3⟩, rfl⟩)
      (fun s l s' t ht hs => by
        obtain ⟨hi, rfl⟩ := ht
        exact ⟨abs s', (LinkedBetree.step hi hs).2, (LinkedBetree.step hi hs).1, rfl⟩) h
    exact h1
  · obtain ⟨s0, ⟨h1, h2, h3, _⟩, _⟩ := h
    exact (inv_sees ⟨h1, h2, h3⟩).2.2

/-- In every reachable state: the pages form no cycle, no pointer and no buffer reference dangles,
and the root covers every key. -/
theorem inv_kept {img : Stamped Linked} {tr s} (h : (machine img).Exec tr s) :
    s.linked.Acyclic ∧ s.linked.NoDanglingBuffer ∧
    (s.linked.HasRoot → ∀ k : Key, s.linked.node.pivots.BoundedKey k) := by
  refine ⟨(main h).1.1, (main h).1.2.1, fun hr k => ?_⟩
  obtain ⟨hw, hs, hok⟩ := inv_sees (main h).1
  obtain ⟨_, bs, ts, _, hnode, ht, _⟩ := sees_root hs hr
  rcases Tree.covers_of hok with h0 | h0
  · rw [h0] at ht; cases ht
  · have := h0 k; rw [ht] at this; exact this

/-- In every reachable state every key can be queried, and only with the map's answer. -/
theorem query_exact {img : Stamped Linked} {tr s} (h : (machine img).Exec tr s) (k : Key) :
    ∃ v, expected (answer img.value) tr k = .define v ∧
      ∀ e v' s', Next s (.query e k v') s' ↔
        e = img.seqEnd + (putsOf tr).length ∧ v' = v ∧ s' = s := by
  obtain ⟨hi, _, hv, he⟩ := main h
  have hd : ((interp s).value k).IsDefine := Message.isDefine_merge _ (Tree.at_isDefine _ k)
  obtain ⟨v, hd⟩ := hd
  refine ⟨v, by rw [← hv]; exact hd, ?_⟩
  intro e v' s'
  rw [← he]
  constructor
  · rintro ⟨st, hn, _⟩
    cases hn with
    | query hr hv' =>
      rw [receipt_at hi hr] at hv'
      refine ⟨rfl, ?_, rfl⟩
      have : Message.define v' = .define v := hv'.trans hd
      cases this; rfl
  · rintro ⟨rfl, rfl, rfl⟩
    obtain ⟨r, hr, hrr⟩ := Receipt.answers_valid (answers_root hi k)
    exact ⟨.query r, .query hr (by rw [hrr]; exact hd.symm), trivial⟩

/-- One internal step changes no answer at all. -/
theorem internal_invisible {s s'} (hi : s.linked.Inv) (h : Next s .internal s') (k : Key) :
    (answer s'.linked k).merge (s'.memtable.query k) =
      (answer s.linked k).merge (s.memtable.query k) ∧
      s'.memtable.seqEnd = s.memtable.seqEnd := by
  have h2 : interp s' = interp s := (map_step hi h).2
  exact ⟨congrFun (congrArg StampedMap.value h2) k, congrArg StampedMap.seqEnd h2⟩

/-- Dropping pages: any well-formed part of the node disk with the same root, together with any
buffer disk that keeps the reachable buffers and does not change contents, answers the same. -/
theorem drop_invisible {l l' : Linked} (hi : l.Inv) (hw : l'.WF) (hr : l'.root = l.root)
    (hd : ∀ a n, l'.dv a = some n → l.dv a = some n)
    (hb : ∀ b x y, l'.bdv b = some x → l.bdv b = some y → x = y)
    (hk : ∀ b, l.ReachableBuffer b → ∃ x, l'.bdv b = some x) : l'.Inv ∧ answer l' = answer l := by
  obtain ⟨_, hs, hok⟩ := inv_sees hi
  have hsee := view_sees hs ⟨hw, hr.symm, hd, hb⟩ (fun b h => (PMap.has_iff _ _).mpr (hk b h))
  refine ⟨(inv_iff _).mpr ⟨hw.1, _, hsee, hok⟩, ?_⟩
  unfold answer
  rw [treeOf_eq hsee]

/-- Copy on write: no step changes the contents of a page that it keeps, node or buffer. -/
theorem copy_on_write {s l s'} (hi : s.linked.Inv) (h : Next s l s') (a : Address) :
    (∀ n n', s.linked.dv a = some n → s'.linked.dv a = some n' → n' = n) ∧
    (∀ b b', s.linked.bdv a = some b → s'.linked.bdv a = some b' → b' = b) := by
  obtain ⟨hw, hs, hok⟩ := inv_sees hi
  have same : (∀ n n', s.linked.dv a = some n → s.linked.dv a = some n' → n' = n) ∧
      (∀ b b', s.linked.bdv a = some b → s.linked.bdv a = some b' → b' = b) :=
    ⟨fun n n' h1 h2 => by rw [h1] at h2; cases h2; rfl,
     fun n n' h1 h2 => by rw [h1] at h2; cases h2; rfl⟩
  have fin : ∀ {p new : Linked} {as t}, Writes s.linked p as t → p.ValidView new →
      (∀ n n', s.linked.dv a = some n → new.dv a = some n' → n' = n) ∧
      (∀ b b', s.linked.bdv a = some b → new.bdv a = some b' → b' = b) := by
    intro p new as t hp hv
    refine ⟨fun n n' h1 h2 => ?_, fun b b' h1 h2 => hv.2.2.2 a _ _ h2 (hp.bdv a _ h1)⟩
    have h3 := hp.dv a _ h1
    rw [hv.2.2.1 a _ h2] at h3
    cases h3; rfl
  obtain ⟨st, h, hst⟩ := h
  cases h with
  | query _ _ => exact same
  | put _ _ => exact same
  | freezeAs _ => exact same
  | noop => exact same
  | flushMemtable h1 h2 h3 =>
    subst h2
    exact fin (push_spec (m := s.memtable) hs hst.1) h3
  | @grow a' =>
    have hg := grow_spec hs hst
    refine ⟨fun n n' h1 h2 => ?_, same.2⟩
    have h2 : (s.linked.grow a').dv a = some n' := h2
    rw [hg.dv a _ h1] at h2; cases h2; rfl
  | split h1 h2 h3 =>
    obtain ⟨t1, t2, t3, t4⟩ := target_sees hs h2
    exact fin (path_writes hs h2 hst.2.1 (split_spec t4
      ⟨by rw [t2]; exact hst.1.1, by rw [t3]; exact hst.1.2⟩ h2.2.2.2.1 h1).2) h3
  | flush h1 h2 h3 =>
    obtain ⟨t1, t2, t3, t4⟩ := target_sees hs h2
    exact fin (path_writes hs h2 hst.2.1 (flush_spec t4
      ⟨by rw [t2]; exact hst.1.1, by rw [t3]; exact hst.1.2⟩ h2.2.2.2.1 h1).2) h3
  | compact h1 h2 h3 =>
    obtain ⟨t1, t2, t3, t4⟩ := target_sees hs h2
    exact fin (path_writes hs h2 hst.2.1 (compact_spec t4
      ⟨by rw [t2]; exact hst.1.1, by rw [t3]; exact hst.1.2⟩ h1).2) h3
  | bufferNoop h1 h2 =>
    exact fin (as := fun _ => False) ⟨sub_refl _, sub_refl _, fun _ h => .inl h, id, hs⟩ h1

/-- A frozen tree reopened continues as the map that was frozen. -/
theorem reopen {img : Stamped Linked} {tr s} (h : (machine img).Exec tr s)
    {i : Nat} {im : Stamped Linked} (hi : tr[i]? = some (.freezeAs im)) {tr' s'}
    (h' : (machine im).Exec tr' s') :
    ActsAsMap answer (expected (answer img.value) (tr.take i))
      (img.seqEnd + (putsOf (tr.take i)).length) tr' := by
  obtain ⟨h1, h2⟩ := (acts_as_map h).freeze hi
  rw [← funext h1, ← h2]
  exact acts_as_map h'

/-- Every frozen image is accepted by `initialize`. -/
theorem freeze_opens {img : Stamped Linked} {tr s} (h : (machine img).Exec tr s)
    {i : Nat} {im : Stamped Linked} (hi : tr[i]? = some (.freezeAs im)) :
    ∃ s', (machine im).Exec [] s' := by
  obtain ⟨s0, _, h0, _, hs, _⟩ := h.at_index hi
  cases hs with
  | freezeAs _ =>
    obtain ⟨h1, h2, h3⟩ := (main h0).1
    exact ⟨_, _, ⟨h1, h2, h3, rfl⟩, .nil _⟩

/-- The layer refines AbstractMap, label by label. -/
theorem refines_map {img : Stamped Linked} {tr s} (h : (machine img).Exec tr s) :
    (⟨AbstractMap.Init { value := answer img.value, seqEnd := img.seqEnd }, AbstractMap.Next⟩ :
      Machine StampedMap AbstractMap.Label).Exec (tr.map (absLabel answer)) (interp s) := by
  obtain ⟨t, h1, _, rfl⟩ := Machine.refine (M := machine img)
    (N := ⟨AbstractMap.Init { value := answer img.value, seqEnd := img.seqEnd }, AbstractMap.Next⟩)
    (absLabel answer) (fun s t => s.linked.Inv ∧ t = interp s)
    (fun s hs => ⟨_, (init_inv hs).2, (init_inv hs).1, rfl⟩)
    (fun s l s' t ht hs => by
      obtain ⟨hi, rfl⟩ := ht
      exact ⟨interp s', (map_step hi hs).2.abstract, (map_step hi hs).1, rfl⟩) h
  exact h1

/-- The empty disk. -/
def emptyImage : Stamped Linked :=
  { value := { root := none, dv := PMap.empty, bdv := PMap.empty }, seqEnd := 0 }

theorem empty_inv : emptyImage.value.Inv := by
  refine (inv_iff _).mpr ⟨⟨?_, ?_, ⟨[], ?_⟩⟩, .nil, .nil, Tree.rootOk_of Tree.wf_nil (.inl rfl)⟩
  · intro a n h; cases h
  · intro a n h; cases h
  · intro a h; exact absurd rfl h

theorem empty_answer (k : Key) : answer emptyImage.value k = .define 0 := by
  unfold answer
  rw [treeOf_eq (t := .nil) .nil]
  exact Tree.at_nil k

/-- If clients only overwrite, starting from the empty disk, a query answers with the last put. -/
theorem query_last_put {tr s} (h : (machine emptyImage).Exec tr s)
    (hd : ∀ km ∈ putsOf tr, km.message.IsDefine) {i : Nat} {e k v}
    (hi : tr[i]? = some (.query e k v)) :
    Message.define v = (lastPut (putsOf (tr.take i)) k).getD (.define 0) := by
  have h1 := ((acts_as_map h).query hi).1
  rw [← h1, ← empty_answer k]
  apply expected_lastPut
  intro km hkm
  apply hd
  have : tr = tr.take i ++ tr.drop i := (List.take_append_drop i tr).symm
  rw [this]
  unfold putsOf at *
  rw [List.flatMap_append]
  exact List.mem_append.mpr (.inl hkm)

/-! ### The guarded steps are possible

`push_possible`, `grow_possible`, `split_possible`, `flush_possible`, `compact_possible` and
`gc_possible` (LinkedPossible.lean) are restated for reachable states. -/

/-- In every state with the invariant on a finite buffer disk, fresh addresses exist and every
reorganisation of the tree seen from the root can be carried out without dropping a page; all unreachable pages can be
dropped. -/
theorem possible {s : State} (h : Ready s) :
    (∃ s', Next s .internal s' ∧ Ready s' ∧
      abs s' = ⟨s.memtable.drain, FilteredBetree.Node.pushMemtable (treeOf s.linked) s.memtable⟩ ∧
      Keeps s s') ∧
    (∃ s', Next s .internal s' ∧ Ready s' ∧
      abs s' = ⟨s.memtable, (treeOf s.linked).grow layer⟩ ∧ Keeps s s') ∧
    (∀ key depth, TreePath.Valid layer ⟨treeOf s.linked, key, depth⟩ →
      let tgt := TreePath.target ⟨treeOf s.linked, key, depth⟩
      let put := fun n => TreePath.substitute layer ⟨treeOf s.linked, key, depth⟩ n
      (∀ r, tgt.CanSplitParent layer r → ∃ s', Next s .internal s' ∧ Ready s' ∧
        abs s' = ⟨s.memtable, put (tgt.splitParent layer r)⟩ ∧ Keeps s s') ∧
      (∀ i gc, FilteredBetree.Node.CanFlush tgt i gc → (tgt.children.getD i .nil).IsNode →
        ∃ s', Next s .internal s' ∧ Ready s' ∧
          abs s' = ⟨s.memtable, put (FilteredBetree.Node.flush tgt i gc)⟩ ∧ Keeps s s') ∧
      (∀ a b c, FilteredBetree.Node.CanCompact tgt a b c → ∃ s', Next s .internal s' ∧ Ready s' ∧
        abs s' = ⟨s.memtable, put (FilteredBetree.Node.compact tgt a b c)⟩ ∧ Keeps s s')) ∧
    (∃ s', Next s .internal s' ∧ Ready s' ∧ abs s' = abs s ∧
      (∀ a, s'.linked.dv.Has a → Reach s.linked.dv s.linked.root a) ∧
      (∀ b, s'.linked.bdv.Has b → s.linked.ReachableBuffer b)) := by
  refine ⟨push_possible h, grow_possible h, fun key depth hp => ⟨fun r hc => split_possible h hp hc,
    fun i gc hc hn => flush_possible h hp hc hn, fun a b c hc => compact_possible h hp hc⟩, ?_⟩
  obtain ⟨h1, h2, h3⟩ := gc_possible h
  refine ⟨_, h1, h2, h3, fun a ha => ?_, fun b hb => ?_⟩
  · by_cases hr : Reach s.linked.dv s.linked.root a
    · exact hr
    · exact absurd (by simp only [collect, if_neg hr]) ha
  · by_cases hr : s.linked.ReachableBuffer b
    · exact hr
    · exact absurd (by simp only [collect, if_neg hr]) hb

/-! ### A concrete run, and what goes wrong without fresh addresses -/

theorem exec_step {img : Stamped Linked} {tr s l s'} (h : (machine img).Exec tr s)
    (hs : Next s l s') : (machine img).Exec (tr ++ [l]) s' := h.snoc hs

/-- A run from the empty disk ends in a state that shows `t`. -/
def At (tr : List (BLabel Linked)) (t : FilteredBetree.State) : Prop :=
  ∃ s, (machine emptyImage).Exec tr s ∧ Ready s ∧ abs s = t

theorem At.ok {tr t} (h : At tr t) : t.root.WF layer ∧ C16.Covers t.root := by
  obtain ⟨s, _, hr, rfl⟩ := h
  exact ⟨(inv_sees hr.1).2.2.1, C16.covers_of (inv_sees hr.1).2.2⟩

theorem At.start : At [] ⟨.emptyAt 0, .nil⟩ := by
  obtain ⟨h1, h2, h3⟩ := empty_inv
  refine ⟨_, ⟨_, ⟨h1, h2, h3, rfl⟩, .nil _⟩, ⟨⟨h1, h2, h3⟩, ⟨[], fun a h => absurd rfl h⟩⟩, ?_⟩
  exact congrArg (FilteredBetree.State.mk _) (treeOf_eq .nil)

theorem At.put {tr t} (h : At tr t) {p : MsgHistory} (hw : p.WF)
    (hs : p.seqStart = t.memtable.seqEnd) :
    At (tr ++ [.put p]) ⟨t.memtable.applyPuts p, t.root⟩ := by
  obtain ⟨s, he, hr, rfl⟩ := h
  exact ⟨_, exec_step he ⟨_, .put hw hs, trivial⟩, hr, rfl⟩

theorem At.push {tr t} (h : At tr t) : At (tr ++ [.internal])
    ⟨t.memtable.drain, FilteredBetree.Node.pushMemtable t.root t.memtable⟩ := by
  obtain ⟨s, he, hr, rfl⟩ := h
  obtain ⟨s', h1, h2, h3, _⟩ := (possible hr).1
  exact ⟨_, exec_step he h1, h2, h3⟩

theorem At.grow {tr t} (h : At tr t) : At (tr ++ [.internal]) ⟨t.memtable, t.root.grow layer⟩ := by
  obtain ⟨s, he, hr, rfl⟩ := h
  obtain ⟨s', h1, h2, h3, _⟩ := (possible hr).2.1
  exact ⟨_, exec_step he h1, h2, h3⟩

theorem At.split {tr t} (h : At tr t) {key depth r}
    (hp : TreePath.Valid layer ⟨t.root, key, depth⟩)
    (hc : (TreePath.target ⟨t.root, key, depth⟩).CanSplitParent layer r) :
    At (tr ++ [.internal]) ⟨t.memtable, TreePath.substitute layer ⟨t.root, key, depth⟩
      ((TreePath.target ⟨t.root, key, depth⟩).splitParent layer r)⟩ := by
  obtain ⟨s, he, hr, rfl⟩ := h
  obtain ⟨s', h1, h2, h3, _⟩ := ((possible hr).2.2.1 key depth hp).1 r hc
  exact ⟨_, exec_step he h1, h2, h3⟩

theorem At.flush {tr t} (h : At tr t) {key depth i gc}
    (hp : TreePath.Valid layer ⟨t.root, key, depth⟩)
    (hc : FilteredBetree.Node.CanFlush (TreePath.target ⟨t.root, key, depth⟩) i gc)
    (hn : ((TreePath.target ⟨t.root, key, depth⟩).children.getD i .nil).IsNode) :
    At (tr ++ [.internal]) ⟨t.memtable, TreePath.substitute layer ⟨t.root, key, depth⟩
      (FilteredBetree.Node.flush (TreePath.target ⟨t.root, key, depth⟩) i gc)⟩ := by
  obtain ⟨s, he, hr, rfl⟩ := h
  obtain ⟨s', h1, h2, h3, _⟩ := ((possible hr).2.2.1 key depth hp).2.1 i gc hc hn
  exact ⟨_, exec_step he h1, h2, h3⟩

theorem At.compact {tr t} (h : At tr t) {key depth a b c}
    (hp : TreePath.Valid layer ⟨t.root, key, depth⟩)
    (hc : FilteredBetree.Node.CanCompact (TreePath.target ⟨t.root, key, depth⟩) a b c) :
    At (tr ++ [.internal]) ⟨t.memtable, TreePath.substitute layer ⟨t.root, key, depth⟩
      (FilteredBetree.Node.compact (TreePath.target ⟨t.root, key, depth⟩) a b c)⟩ := by
  obtain ⟨s, he, hr, rfl⟩ := h
  obtain ⟨s', h1, h2, h3, _⟩ := ((possible hr).2.2.1 key depth hp).2.2 a b c hc
  exact ⟨_, exec_step he h1, h2, h3⟩

theorem At.gc {tr t} (h : At tr t) : At (tr ++ [.internal]) t := by
  obtain ⟨s, he, hr, rfl⟩ := h
  obtain ⟨s', h1, h2, h3, _⟩ := (possible hr).2.2.2
  exact ⟨_, exec_step he h1, h2, h3⟩

/-- A run that pushes, grows, splits a leaf, pushes again, flushes into the left child, compacts
that child below the root, drops all garbage, freezes and queries both sides. -/
theorem demo : ∃ l s, (machine emptyImage).Exec
    [.put C16.demoPuts1, .internal, .internal, .internal, .put C16.demoPuts2, .internal, .internal,
     .internal, .internal, .freezeAs ⟨l, 3⟩, .query 3 1 11, .query 3 9 20] s := by
  have w1 : C16.demoPuts1.WF :=
    MsgHistory.wf_concat (MsgHistory.wf_singletonAt _ _) (MsgHistory.wf_singletonAt _ _) rfl
  have e1 := At.start.put w1 rfl
  have e2 := e1.push
  have e3 := e2.grow
  have h3 := e3.ok
  have h3' := (Tree.wf_node.mp h3.1).2.2.2 0 _ rfl
  have e4 := e3.split (key := 1) (depth := 0) (r := .leaf 0 5)
    (C16.rootPath h3.1 (by exact trivial) h3.2 1)
    ⟨h3.1, by exact trivial, _, rfl, h3'.1, ⟨by rfl, ⟨by rfl, by rfl⟩⟩,
      by rw [h3'.2 (by exact trivial)]; exact Domain.total_contains 5, by intro h; cases h⟩
  have e5 := e4.put (MsgHistory.wf_singletonAt 2 ⟨1, .define 11⟩) rfl
  have e6 := e5.push
  have h6 := e6.ok
  have e7 := e6.flush (key := 1) (depth := 0) (i := 0) (gc := 0)
    (C16.rootPath h6.1 (by exact trivial) h6.2 1)
    ⟨h6.1, by exact trivial, by exact Nat.succ_pos 1, fun i _ => Nat.zero_le _⟩ (by exact trivial)
  have h7 := e7.ok
  have h7' := ((Tree.wf_node.mp h7.1).2.2.2 0 _ rfl).1
  obtain ⟨c, hc⟩ := C16.compact_possible (a := 0) (b := 2) h7' (by omega) (by exact Nat.le_refl 2)
  have e8 := e7.compact (key := 1) (depth := 1)
    ⟨h7.1, (C16.rootPath h7.1 (by exact trivial) h7.2 1).2, by exact C16.index2 trivial trivial,
      h7', h7', by exact trivial,
      (show (⟨[.elem 0, .elem 5]⟩ : PivotTable).BoundedKey 1 from by constructor <;> decide)⟩ hc
  obtain ⟨s, he, hr, habs⟩ := e8.gc
  have hm : s.memtable = _ := congrArg FilteredBetree.State.memtable habs
  have hempty : s.memtable.IsEmpty := by rw [hm]; rfl
  have hend : s.memtable.seqEnd = 3 := by rw [hm]; rfl
  have e10 := exec_step he ⟨_, .freezeAs hempty, trivial⟩
  rw [hend] at e10
  obtain ⟨v, hv, hq⟩ := query_exact e10 1
  have : v = 11 := by
    have : Message.define 11 = .define v := hv
    cases this; rfl
  subst this
  have e11 := exec_step e10 ((hq 3 11 s).mpr ⟨rfl, rfl, rfl⟩)
  obtain ⟨v, hv, hq⟩ := query_exact e11 9
  have : v = 20 := by
    have : Message.define 20 = .define v := hv
    cases this; rfl
  subst this
  exact ⟨_, _, exec_step e11 ((hq 3 20 s).mpr ⟨rfl, rfl, rfl⟩)⟩

/-- Finding: the transitions as written (without `strong_step`) do not ask for fresh addresses.
From a disk with one leaf, growing at the address of that leaf overwrites it with a node that
points to itself; after that no key can be queried. The theorems above are therefore about the
transitions with `strong_step`, as in `inv_next_by` (1242-1269) and all layers above. -/
theorem stale_address : ∃ s s', s.linked.Inv ∧ (∃ tr, (machine emptyImage).Exec tr s) ∧
    WeakNext s .internal s' ∧ ¬ s'.linked.Acyclic ∧
    ∀ e k v s'', ¬ WeakNext s' (.query e k v) s'' := by
  obtain ⟨s, he, hr, habs⟩ := At.start.push
  have hroot : s.linked.HasRoot := by
    rw [hasRoot_iff (inv_sees hr.1).2.1]
    rw [show treeOf s.linked = _ from congrArg FilteredBetree.State.root habs]
    trivial
  obtain ⟨a, ha, _⟩ := hroot
  have hcyc : ¬ (s.linked.grow a).Acyclic := by
    rintro ⟨hw, r, _, ⟨_, hrank⟩, hroot⟩
    have hn : (s.linked.grow a).dv a = some ⟨[], .ofDomain .total, [s.linked.root], [0]⟩ :=
      PMap.insert_same _ _ _
    obtain ⟨ra, hra⟩ := (PMap.has_iff _ _).mp
      (hroot ⟨a, rfl, (PMap.has_iff _ _).mpr ⟨_, hn⟩⟩ a rfl)
    obtain ⟨rc, h1, h2⟩ := hrank a _ ra hn hra 0 a (by exact Nat.one_pos) ha
    rw [hra] at h1
    cases h1
    exact Nat.lt_irrefl _ h2
  refine ⟨s, _, hr.1, ⟨_, he⟩, ⟨.grow a, .grow⟩, hcyc, ?_⟩
  rintro e k v s'' ⟨st, h⟩
  cases h with
  | @query _ _ r hr hv =>
    have ha := Receipt.valid_iff.mp ⟨r, hr, rfl⟩
    generalize r.result = m at ha
    cases ha with
    | leaf _ hw => exact hcyc hw
    | node _ hw _ _ => exact hcyc hw

end Verif.C17
