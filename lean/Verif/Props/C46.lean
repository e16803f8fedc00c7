import Verif.Props.C45
/-
C46. The betree over branches is a map: whatever it does internally (writing the memtable out as a
branch, growing, splitting, flushing, compacting), a query answers what the puts so far leave.

Specification: `MapBehaviour.ActsAsMap`, as C14-C17; what an image answers is what a walk along the
key from its root collects (`image_answer`).

False for the code (`code_wrong`): the check of a finished compaction (`can_compact`) uses
`linked_contains` of AllocationBranch_v.rs 29-32, which is the wrong way round, so a compaction may
replace a value by any other; and compaction of branches with different keys is refused
(`code_refuses`). The theorems marked `_partial` hold for every machine whose check compares the
entries stored: the one with `storedCheck`, and the code when it never completes a compaction.
Missing is the code's own check, for which the claim is false.
-/
namespace Verif.C46
open LinkedBetree (Reach)
open ABB MapBehaviour
open C45 (ledger fresh)
open BranchLedger (ImageUnit)

section
variable {g : Geometry} {w : Prop} {cp : Check} {image : Stamped BLinked} {tr : List Label}
  {s s' : ABB.State}

/-- For every state a walk from the root for any key exists, and all collect the same message, a
value: the one C17 reads off the tree. -/
theorem state_answer (h : (machine g w cp image).Exec tr s) (k : Key) :
    (∃ v, C17.answer s.betree.linked.iBdv k = .define v) ∧
    ∀ m, (∃ r : Receipt BLinked, r.ValidFor BLinked.shape s.betree.linked k ∧ r.result = m) ↔
      m = C17.answer s.betree.linked.iBdv k := by
  obtain ⟨hg, _⟩ := run_good h
  have hi : s.betree.linked.iBdv.Inv := by
    obtain ⟨h1, h2, h3⟩ := good_inv hg
    exact ⟨h1, fun b hb => (jd_has _ _ _).mpr (hg.br.has (.inl hb)), h3⟩
  obtain ⟨⟨r, hr⟩, hu, hd⟩ := C17.answer_unique hi k
  refine ⟨hd, fun m => ?_⟩
  rw [Receipt.valid_iff, answers_jd (fun b hb => hg.br.valid b (.inl hb)), ← iBdv_eq, ← Receipt.valid_iff]
  constructor
  · rintro ⟨r, h1, rfl⟩; exact hu r h1
  · rintro rfl; exact ⟨r, hr, hu r hr⟩

/-- The same for the image. -/
theorem image_answer (h : (machine g w cp image).Exec tr s) (k : Key) (m : Message) :
    (∃ r : Receipt BLinked, r.ValidFor BLinked.shape image.value k ∧ r.result = m) ↔
      m = C17.answer image.value.iBdv k := by
  obtain ⟨s0, h0, _⟩ := h
  have h := (state_answer (cp := cp) (g := g) (w := w) ⟨s0, h0, .nil _⟩ k).2 m
  have e : s0.betree.linked = image.value := by
    obtain ⟨_, _, _, _, _, _, _, _, _, rfl⟩ := h0; rfl
  rw [e] at h
  exact h

/-- A map, if the check compares the entries stored. -/
theorem acts_as_map_partial (hcp : ∀ d n a b d' x, cp d n a b d' x → storedCheck d n a b d' x)
    (h : (machine g w cp image).Exec tr s) :
    ActsAsMap C17.answer (C17.answer image.value.iBdv) image.seqEnd (tr.map Label.seen) :=
  C42.acts_as_map (run_lift hcp h)

/-- Every key can be queried at any time, with the map's answer and no other. -/
theorem query_exact_partial (hcp : ∀ d n a b d' x, cp d n a b d' x → storedCheck d n a b d' x)
    (h : (machine g w cp image).Exec tr s) (k : Key) :
    ∃ v, expected (C17.answer image.value.iBdv) (tr.map Label.seen) k = .define v ∧
      ∀ e v' s', Next g w cp s (.ext (.query e k v')) s' ↔
        e = image.seqEnd + (putsOf (tr.map Label.seen)).length ∧ v' = v ∧ s' = s := by
  obtain ⟨hg, _⟩ := run_good h
  have hr := run_lift hcp h
  obtain ⟨v, h1, h2⟩ := C17.query_exact (C42.runs_linked hr) k
  refine ⟨v, h1, fun e v' s' => ⟨fun hs => ?_, ?_⟩⟩
  · have hm := acts_as_map_partial hcp (h.snoc hs)
    rw [List.map_append] at hm
    obtain ⟨e1, e2⟩ := hm.query (i := (tr.map Label.seen).length) (l := e) (k := k) (v := v')
      (by rw [List.getElem?_append_right (Nat.le_refl _), Nat.sub_self]; rfl)
    rw [List.take_left] at e1 e2
    have h1 : expected (C17.answer image.value.iBdv) (tr.map Label.seen) k = .define v := h1
    rw [h1] at e1
    cases e1
    refine ⟨e2, rfl, ?_⟩
    cases hs with
    | noop _ hx => cases hx; rfl
  · rintro ⟨rfl, rfl, rfl⟩
    obtain ⟨st, hn, _⟩ := (h2 _ _ _).mpr ⟨rfl, rfl, rfl⟩
    obtain ⟨s2, h3, _⟩ := ext_lift (cp := cp) hg (by intro h; cases h)
      (AllocationBetree.Next.noop (s := over iBuf s'.betree.memtable s') (by intro h; cases h) ⟨st, hn⟩)
    have same : ∀ {e v}, Next g w cp s' (.ext (.query e k v)) s2 → s2 = s' := by
      intro e v h
      cases h with
      | noop _ hx => cases hx; rfl
    have := same h3
    rw [this] at h3
    exact h3

/-- Internal steps change no answer. -/
theorem internal_invisible_partial
    (hcp : ∀ d n a b d' x, cp d n a b d' x → storedCheck d n a b d' x)
    (h : (machine g w cp image).Exec tr s) {al de : PSet Nat} (hs : Next g w cp s (.internal al de) s')
    (e : LSN) (k : Key) (v : Value) :
    Next g w cp s' (.ext (.query e k v)) s' ↔ Next g w cp s (.ext (.query e k v)) s := by
  obtain ⟨v1, h1, h2⟩ := query_exact_partial hcp h k
  obtain ⟨v2, h3, h4⟩ := query_exact_partial hcp (h.snoc hs) k
  rw [h2, h4]
  have e1 : putsOf ((tr ++ [Label.internal al de]).map Label.seen) = putsOf (tr.map Label.seen) := by
    simp only [List.map_append, List.map_cons, List.map_nil, Label.seen]
    unfold putsOf
    rw [List.flatMap_append]
    exact List.append_nil _
  have : v1 = v2 := by
    unfold expected at h1 h3
    rw [e1, h1] at h3
    cases h3; rfl
  rw [this, e1]
  exact ⟨fun h => ⟨h.1, h.2.1, rfl⟩, fun h => ⟨h.1, h.2.1, rfl⟩⟩

/-- The code is a map as long as no compaction is completed. -/
theorem without_compaction_partial {check : Check} (hno : ∀ d n a b d' x, ¬ check d n a b d' x)
    (h : (machine g w check image).Exec tr s) :
    ActsAsMap C17.answer (C17.answer image.value.iBdv) image.seqEnd (tr.map Label.seen) :=
  acts_as_map_partial (fun d n a b d' x hx => absurd hx (hno d n a b d' x)) h

/-! ### Compactions can be carried out with the repaired check -/

open Classical in
/-- Any range of buffers of any node, if some active entry is in it, can be compacted, given units that are not
held: one for the new branch, one for each node replaced. -/
theorem can_compact_partial (hi : Alone image.value.dv)
    (h : (machine g w storedCheck image).Exec tr s) {p : LinkedBetree.Path} {a b : Nat}
    {x addr : Address} {pa : List Address} (hv : p.Valid) (hl : p.linked = s.betree.linked.tree)
    (hab : a < b) (hbl : b ≤ p.target.node.buffers.length) (hd : p.depth = pa.length) (hx : x.wf g)
    (hxa : x.au ≠ addr.au) (hxp : ¬ unitsOf (fun a => a ∈ pa) x.au)
    (hap : ¬ unitsOf (fun a => a ∈ pa) addr.au) (hpa : ListUnitsDistinct pa)
    (hf : ∀ u, u = x.au ∨ u = addr.au ∨ unitsOf (fun a => a ∈ pa) u →
      ¬ held (ImageUnit image.value) tr u)
    (hne : ∃ k, ValidCompactKeyDomain Stored s.betree.linked.bdv p.target.node a b k) :
    ∃ more s', (machine g w storedCheck image).Exec (tr ++ more) s' ∧
      (∀ l ∈ more, ∃ al de, l = .internal al de) ∧
      s'.betree.memtable = s.betree.memtable ∧
      s'.betree.linked.root = (LinkedBetree.postCompact p a b Buffer.empty ⟨addr, x⟩ pa).root ∧
      ∀ y n, s'.betree.linked.dv y = some n ↔
        (LinkedBetree.postCompact p a b Buffer.empty ⟨addr, x⟩ pa).dv y = some n ∧
        Reach (LinkedBetree.postCompact p a b Buffer.empty ⟨addr, x⟩ pa).dv
          (LinkedBetree.postCompact p a b Buffer.empty ⟨addr, x⟩ pa).root y := by
  obtain ⟨m, hm⟩ : ∃ m : Buffer, m = fun k =>
      if ValidCompactKeyDomain Stored s.betree.linked.bdv p.target.node a b k then
        some (compactKeyValue s.betree.linked.bdv p.target.node a b k) else none := ⟨_, rfl⟩
  obtain ⟨ks, ms, h1, h2, h3⟩ := buffer_list m
  have h0 : 0 < ks.length := by
    refine Nat.pos_of_ne_zero fun e => ?_
    have : ks = [] := List.eq_nil_of_length_eq_zero e
    subst this
    obtain ⟨k, hk⟩ := hne
    have := congrFun h3 k
    rw [hm] at this
    dsimp only at this
    rw [if_pos hk] at this
    cases this
  obtain ⟨de, s', nt, d, q1, q2, _, _, _, q4⟩ := compact_run h (alone_run hi h) (x := x) (addr := addr)
    (ks := ks) (ms := ms) hv hl hab hbl hd h0 h1 h2 hx hxa hxp hap hpa (fresh h hf) (by
      intro d' hw hd'
      have hs : ∀ k, Stored (getBranch d' x) k ↔
          ValidCompactKeyDomain Stored s.betree.linked.bdv p.target.node a b k := by
        intro k
        show (iBuf d' x).Contains k ↔ _
        rw [leaf_iBuf hd', h3, hm]
        unfold Buffer.Contains
        rw [PMap.has_iff]
        split
        · exact ⟨fun _ => by assumption, fun _ => ⟨_, rfl⟩⟩
        · exact ⟨(fun ⟨_, h⟩ => by cases h), fun h => absurd h (by assumption)⟩
      refine ⟨hs, fun k hk => ?_⟩
      rw [leaf_query hw hd' h0 h1 h2, h3, hm]
      unfold Buffer.query
      simp only [if_pos ((hs k).mp hk)])
  refine ⟨_, s', by rw [List.append_assoc, List.append_assoc] at q1; exact q1, ?_, by rw [q2],
    by rw [q2]; rfl, fun y n => ⟨fun hn => ?_, ?_⟩⟩
  · intro l hl
    simp only [buildLabels, List.cons_append, List.nil_append, List.mem_cons, List.not_mem_nil,
      or_false] at hl
    rcases hl with rfl | rfl | rfl | rfl | rfl <;> exact ⟨_, _, rfl⟩
  · refine ⟨?_, (q4 y).mp ((PMap.has_iff _ _).mpr ⟨n, hn⟩)⟩
    rw [q2] at hn; exact trim_sub hn
  · rintro ⟨k1, k2⟩
    obtain ⟨m, hm⟩ := (PMap.has_iff _ _).mp ((q4 y).mpr k2)
    have hm' := hm
    rw [q2] at hm'
    rw [hm, ← k1, trim_sub hm']
end

/-! ### The code's check -/

/-- Key 1 is put as 10, written out, compacted, and then answers 99. -/
theorem code_wrong : ∃ tr s, (code Demo.geo Demo.image).Exec tr s ∧
    tr.map Label.seen = [.put Demo.puts, .internal, .internal, .internal, .internal, .internal,
      .internal, .internal, .internal, .internal, .query 1 1 99] ∧
    ¬ ActsAsMap C17.answer (C17.answer Demo.image.value.iBdv) 0 (tr.map Label.seen) := by
  obtain ⟨de, de', s, h⟩ := Demo.compacted (w := False) (cp := codeCheck) (v := 99) (by
    intro d d' x h1 hh h2 h3 h4
    have q : ∀ (v : Value) (k : Key), Buffer.query (PMap.empty.insert 1 (.define v)) k = .nop ↔ k ≠ 1 := by
      intro v k
      unfold Buffer.query
      by_cases hk : k = 1
      · subst hk
        rw [PMap.insert_same]
        simp [Message.nop]
      · rw [PMap.insert_other _ _ hk]
        simp [PMap.empty, hk]
    have hc : ∀ k, ABr.LinkedContains (getBranch d' x) k ↔ k ≠ 1 := by
      intro k
      show query d' x k = .nop ↔ _
      rw [h3, q]
    refine ⟨fun k => ?_, fun k hk => ?_⟩
    · rw [hc]
      unfold ValidCompactKeyDomain KeyInBufferFiltered QueryableContains
      constructor
      · intro hk
        refine ⟨Demo.in_domain _ _, by rw [Demo.flushed_zero]; omega, 0, ⟨Nat.le_refl _, Demo.x0, rfl,
          hh, ?_⟩, ?_⟩
        · show query d Demo.x0 k = .nop
          rw [h1, q]; exact hk
        · show (Demo.rootNode Demo.x0).makeOffsetMap k - 0 ≤ 0
          unfold LinkedBetree.LNode.makeOffsetMap
          rw [if_pos (Demo.in_domain _ _), Demo.flushed_zero]
      · rintro ⟨_, _, i, ⟨_, a, ha, _, hb⟩, _⟩
        cases i with
        | succ i => cases ha
        | zero =>
          cases ha
          have hb : query d Demo.x0 k = .nop := hb
          rw [h1, q] at hb
          exact hb
    · have hk := (hc k).mp hk
      rw [h3, (q 99 k).mpr hk]
      unfold compactKeyValue
      rw [Demo.flushed_zero]
      show _ = (query d Demo.x0 k).merge .nop
      rw [h1, (q 10 k).mpr hk, Message.merge_nop])
  refine ⟨_, s, h, rfl, fun hm => ?_⟩
  have := (hm.query (i := 10) (l := 1) (k := 1) (v := 99) rfl).1
  have e : expected (C17.answer Demo.image.value.iBdv) ((([.ext (.put Demo.puts)] ++ buildLabels 5 ++ [.internal (fun u => u = 6) de] ++
        [.internal (fun _ => False) (fun _ => False)] ++ buildLabels 7 ++
        [.internal (fun u => u = 8) de'] ++ [.ext (.query 1 1 99)] : List Label).map Label.seen).take 10) 1 = .define 10 := rfl
  rw [e] at this
  exact absurd this (by decide)

theorem merge_nop_iff (a b : Message) : a.merge b = .nop ↔ a = .nop ∧ b = .nop := by
  cases a <;> cases b <;> simp [Message.merge, Message.nop, Message.combineDeltas, nopDelta]
  grind

theorem queryAll_nop {d : BrDisk} {k : Key} : ∀ {as : List Address},
    queryAll d as k = .nop ↔ ∀ r ∈ as, query d r k = .nop
  | [] => by simp [queryAll]
  | a :: as => by
    show (query d a k).merge (queryAll d as k) = .nop ↔ _
    rw [merge_nop_iff, queryAll_nop (as := as)]
    simp

/-- The code's check refuses every result of compacting branches of which, for some key of the
node, one holds an entry and another does not (counting only branches from which the key has not
been flushed yet). -/
theorem code_refuses {d d' : BrDisk} {n : LinkedBetree.LNode} {a b : Nat} {x : Address} {k : Key}
    (hk : n.KeyInDomain k) (hfl : n.flushedOfs k ≤ b) {i j : Nat} {r t : Address}
    (hi : ((n.buffers.take b).drop a)[i]? = some r) (hia : n.flushedOfs k - a ≤ i) (hr : d.Has r)
    (hrn : query d r k = .nop)
    (hj : ((n.buffers.take b).drop a)[j]? = some t) (hja : n.flushedOfs k - a ≤ j)
    (htn : query d t k ≠ .nop) : ¬ codeCheck d n a b d' x := by
  rintro ⟨h1, h2⟩
  have hc : ABr.LinkedContains (getBranch d' x) k := (h1 k).mpr ⟨hk, hfl, i, ⟨Nat.zero_le _, r, hi, hr, hrn⟩, by
    show n.makeOffsetMap k - a ≤ i
    unfold LinkedBetree.LNode.makeOffsetMap
    rw [if_pos hk]; exact hia⟩
  have h3 := h2 k hc
  rw [show query d' x k = .nop from hc] at h3
  unfold compactKeyValue queryFrom at h3
  rw [show (if n.flushedOfs k ≤ a then 0 else n.flushedOfs k - a) = n.flushedOfs k - a by
    split <;> omega] at h3
  refine htn (queryAll_nop.mp h3.symm t ?_)
  refine List.mem_of_getElem? (i := j - (n.flushedOfs k - a)) ?_
  rw [List.getElem?_drop, Nat.add_sub_cancel' hja]
  exact hj

/-! ### Concrete cases -/

/-- Two branches, one with key 1 and one with key 2, under one node: no result is accepted. -/
theorem two_refused (d' : BrDisk) (x : Address) :
    ¬ codeCheck ((PMap.empty.insert ⟨2, 0⟩ (.leaf [2] [.define 20])).insert ⟨1, 0⟩ (.leaf [1] [.define 10]))
      ⟨[⟨1, 0⟩, ⟨2, 0⟩], .ofDomain .total, [none], [0]⟩ 0 2 d' x := by
  generalize hd : ((PMap.empty.insert ⟨2, 0⟩ (.leaf [2] [.define 20])).insert ⟨1, 0⟩
    (.leaf [1] [.define 10]) : BrDisk) = d
  have h1 : d ⟨1, 0⟩ = some (.leaf [1] [.define 10]) := by rw [← hd]; exact PMap.insert_same _ _ _
  have h2 : d ⟨2, 0⟩ = some (.leaf [2] [.define 20]) := by
    rw [← hd, PMap.insert_other _ _ (by decide)]; exact PMap.insert_same _ _ _
  have all : ∀ a n, d a = some n → ∃ (k : Key) (m : Message), n = .leaf [k] [m] := by
    intro a n h
    rw [← hd] at h
    by_cases e1 : a = ⟨1, 0⟩
    · subst e1; rw [PMap.insert_same] at h; cases h; exact ⟨_, _, rfl⟩
    · rw [PMap.insert_other _ _ e1] at h
      by_cases e2 : a = ⟨2, 0⟩
      · subst e2; rw [PMap.insert_same] at h; cases h; exact ⟨_, _, rfl⟩
      · rw [PMap.insert_other _ _ e2] at h; cases h
  have hw : LBr.Disk.WF d := by
    refine ⟨fun a n h => ?_, fun a n h c hc => ?_⟩
    · obtain ⟨k, m, rfl⟩ := all a n h
      exact ⟨by simp, rfl⟩
    · obtain ⟨k, m, rfl⟩ := all a n h
      cases hc
  have sorted : ∀ k : Key, KeyT.StrictlySorted [k] := by
    intro k i j h1 h2
    have : j < 1 := h1
    omega
  have hk : LinkedBetree.LNode.KeyInDomain ⟨[⟨1, 0⟩, ⟨2, 0⟩], .ofDomain .total, [none], [0]⟩ 1 := by
    refine ⟨⟨PivotTable.total_wf, rfl, rfl, ?_⟩, Domain.total_contains 1⟩
    intro i hi
    have : i = 0 := by simp at hi; omega
    subst this
    simp
  have hf : LinkedBetree.LNode.flushedOfs ⟨[⟨1, 0⟩, ⟨2, 0⟩], .ofDomain .total, [none], [0]⟩ 1 = 0 := by
    unfold LinkedBetree.LNode.flushedOfs
    cases (PivotTable.route (.ofDomain .total) 1).toNat <;> rfl
  refine code_refuses (k := 1) (i := 1) (j := 0) (r := ⟨2, 0⟩) (t := ⟨1, 0⟩) hk (by rw [hf]; omega) rfl
    (by rw [hf]; omega) ((PMap.has_iff _ _).mpr ⟨_, h2⟩) ?_ rfl (by rw [hf]) ?_
  · rw [leaf_query hw h2 (by decide) rfl (sorted 2)]; rfl
  · rw [leaf_query hw h1 (by decide) rfl (sorted 1)]; exact fun h => by cases h

/-- The same compaction into a branch with the right entry, under the repaired check. -/
theorem demo : ∃ tr s, (machine Demo.geo False storedCheck Demo.image).Exec tr s ∧
    tr.map Label.seen = [.put Demo.puts, .internal, .internal, .internal, .internal, .internal,
      .internal, .internal, .internal, .internal, .query 1 1 10] := by
  obtain ⟨de, de', s, h⟩ := Demo.compacted (w := False) (cp := storedCheck) (v := 10) (by
    intro d d' x h1 hh h2 h3 h4
    have q : ∀ k : Key, Buffer.Contains (PMap.empty.insert 1 (.define 10)) k ↔ k = 1 := by
      intro k
      unfold Buffer.Contains
      rw [PMap.has_iff]
      by_cases hk : k = 1
      · subst hk
        rw [PMap.insert_same]
        simp
      · rw [PMap.insert_other _ _ hk]
        simp [PMap.empty, hk]
    have hc : ∀ k, Stored (getBranch d' x) k ↔ k = 1 := by
      intro k
      show (iBuf d' x).Contains k ↔ _
      rw [h4, q]
    refine ⟨fun k => ?_, fun k _ => ?_⟩
    · rw [hc]
      unfold ValidCompactKeyDomain KeyInBufferFiltered QueryableContains
      constructor
      · intro hk
        refine ⟨Demo.in_domain _ _, by rw [Demo.flushed_zero]; omega, 0, ⟨Nat.le_refl _, Demo.x0, rfl,
          hh, ?_⟩, ?_⟩
        · show (iBuf d Demo.x0).Contains k
          rw [h2, q]; exact hk
        · show (Demo.rootNode Demo.x0).makeOffsetMap k - 0 ≤ 0
          unfold LinkedBetree.LNode.makeOffsetMap
          rw [if_pos (Demo.in_domain _ _), Demo.flushed_zero]
      · rintro ⟨_, _, i, ⟨_, a, ha, _, hb⟩, _⟩
        cases i with
        | succ i => cases ha
        | zero =>
          cases ha
          have hb : (iBuf d Demo.x0).Contains k := hb
          rw [h2, q] at hb
          exact hb
    · rw [h3]
      unfold compactKeyValue
      rw [Demo.flushed_zero]
      show _ = (query d Demo.x0 k).merge .nop
      rw [h1, Message.merge_nop])
  exact ⟨_, s, h, rfl⟩

/-- The hypothesis of `acts_as_map_partial` is met by the repaired check. -/
example : ∀ d n a b d' x, storedCheck d n a b d' x → storedCheck d n a b d' x :=
  fun _ _ _ _ _ _ h => h

end Verif.C46
