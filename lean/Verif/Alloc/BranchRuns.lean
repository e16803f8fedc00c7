import Verif.Alloc.AllocationBranchBetreeProof
import Verif.Props.C42
/-
Runs of Alloc/AllocationBranchBetree.lean. Proofs only; no code is modelled here.
-/
namespace Verif.ABB
open Verif LinkedBetree LikesBetree ABr

/-! ### Start -/

/-- The units in an image: those of its node pages, and those its branches list. -/
def imageUnits (l : BLinked) : PSet Nat := fun u =>
  (∃ a : Address, l.dv.Has a ∧ a.au = u) ∨
  ∃ b, l.tree.ReachableBuffer b ∧ getSummary (getBranch l.bdv b) u

theorem buildSummary_some {d : BrDisk} {roots : PSet Address} (h : UnitsDistinct roots) (u : Nat)
    (s : Summary) : buildSummary d roots u = some s ↔
      ∃ a : Address, roots a ∧ a.au = u ∧ getSummary ⟨a, d⟩ = s := by
  classical
  unfold buildSummary
  generalize hm : (fun a => if roots a then some a.au else none : PMap Address Nat) = m
  have hms : ∀ (a : Address) v, m a = some v ↔ roots a ∧ a.au = v := by
    intro a v
    rw [← hm]; dsimp only
    by_cases hr : roots a
    · simp [hr]
    · simp [hr]
  have hinj : PMap.Injective m := by
    intro a b v h1 h2
    obtain ⟨h3, h4⟩ := (hms _ _).mp h1
    obtain ⟨h5, h6⟩ := (hms _ _).mp h2
    by_contra hne
    exact h a b h3 h5 hne (h4.trans h6.symm)
  unfold PMap.mapVal
  rw [Option.map_eq_some_iff]
  constructor
  · rintro ⟨a, h1, h2⟩
    obtain ⟨h3, h4⟩ := (hms _ _).mp ((PMap.invert_iff (m := m) hinj).mp h1)
    exact ⟨a, h3, h4, h2⟩
  · rintro ⟨a, h1, h2, h3⟩
    exact ⟨a, (PMap.invert_iff (m := m) hinj).mpr ((hms _ _).mpr ⟨h1, h2⟩), h3⟩

theorem init_good {g : Geometry} {w : Prop} {image : Stamped BLinked} {s : State}
    (h : Init image s) : Good g w s ∧ ∀ u, Units s u ↔ imageUnits image.value u := by
  obtain ⟨h1, h2, h3, h4, h5, h6, h7, h8, h9, rfl⟩ := h
  generalize image.seqEnd = e
  generalize image.value = l at *
  have hrel : ∃ t, AllocationBetree.Rel (blank ⟨⟨.emptyAt e, l⟩,
      toAuLikes (transitiveLikes l.tree).1, toAuLikes (transitiveLikes l.tree).2,
      buildSummary l.bdv (fun a => a ∈ (transitiveLikes l.tree).2), [], []⟩) t := by
    obtain ⟨t, _, ht⟩ := AllocationBetree.init_rel (img := ⟨lk blankJ l, 0⟩)
      (s := blank ⟨⟨.emptyAt e, l⟩,
        toAuLikes (transitiveLikes l.tree).1, toAuLikes (transitiveLikes l.tree).2,
        buildSummary l.bdv (fun a => a ∈ (transitiveLikes l.tree).2), [], []⟩)
      ⟨⟨h1, fun b hb => (jd_has _ _ _).mpr (h2 b hb), h3, rfl⟩, rfl, rfl⟩
    exact ⟨t, ht⟩
  obtain ⟨hinv, ⟨t, hs⟩, hti, _⟩ := rel_facts hrel
  have hr : ∀ a, a ∈ (transitiveLikes l.tree).2 ↔ l.tree.ReachableBuffer a := by
    intro a
    rw [transitive_eq h1]
    exact mem_bufferLikes (l := lk blankJ l) hs
  have hR : (fun a => a ∈ (transitiveLikes l.tree).2) = l.tree.ReachableBuffer :=
    funext fun a => propext (hr a)
  dsimp only at h4 h5 h6 h7 h8 h9
  replace h4 := fun a (ha : l.tree.ReachableBuffer a) => h4 a ((hr a).mpr ha)
  rw [hR] at h5 h6 h8 h9
  have hb : Br l.bdv l.tree.ReachableBuffer (buildSummary l.bdv l.tree.ReachableBuffer) := by
    refine ⟨h4, ?_, buildSummary_some h5, ?_, h8⟩
    · intro a b ha hb e
      by_contra hne
      exact h5 a b ha hb hne e
    · intro a b u ha hb h10 h11
      by_contra hne
      exact h6 a.au b.au _ _ ((buildSummary_some h5 _ _).mpr ⟨a, ha, rfl, rfl⟩)
        ((buildSummary_some h5 _ _).mpr ⟨b, hb, rfl, rfl⟩) (h5 a b ha hb hne) u h10 h11
  refine ⟨⟨hrel, ?_, h7, by dsimp only; rw [hR]; exact h9, fun u _ => alloc_nil u,
    fun u _ => alloc_nil u, wips_nil⟩, fun u => ?_⟩
  · dsimp only; rw [hR]
    refine hb.congr fun a => ⟨?_, .inl⟩
    rintro (h | ⟨c, hc, _⟩)
    · exact h
    · cases hc
  · unfold Units imageUnits
    dsimp only
    rw [hR]
    have e1 : u ∈ toAuLikes (transitiveLikes l.tree).1 ↔ ∃ a : Address, l.dv.Has a ∧ a.au = u := by
      constructor
      · intro hu
        obtain ⟨a, ha, hu⟩ := (hti u).mp hu
        exact ⟨a, reach_has ha, hu⟩
      · rintro ⟨a, ha, rfl⟩; exact h7 a ha
    have e2 := hb.aus u
    have e3 := alloc_nil u
    rw [e1, e2]
    exact or_congr Iff.rfl ⟨fun h => h.resolve_right e3, .inl⟩

/-! ### Runs -/

section
variable {g : Geometry} {w : Prop} {cp : Check} {image : Stamped BLinked} {tr : List Label}
  {s s' : State} {l : BLabel Linked}

/-- Queries, puts and freezing leave the disks alone. -/
theorem ext_same (h : Next g w cp s (.ext l) s') :
    s' = { s with betree := ⟨s'.betree.memtable, s.betree.linked⟩ } := by
  cases h with
  | noop hl h => cases h <;> rfl

theorem good_ext (hg : Good g w s) (h : Next g w cp s (.ext l) s') : Good g w s' := by
  rw [ext_same h]
  exact ⟨hg.rel, hg.br, hg.dv, hg.node_branch, hg.node_wip, hg.branch_wip, hg.wip⟩

theorem held_snoc (h : PSet Nat) (tr : List Label) (a : Label) :
    held h (tr ++ [a]) = a.hold (held h tr) := by
  simp [held, List.foldl_append]

theorem good_step (hg : Good g w s) {a : Label} (h : Next g w cp s a s') :
    Good g w s' ∧ (∀ u, Units s' u ↔ a.hold (Units s) u) ∧
    PMap.Agrees s.betree.linked.bdv s'.betree.linked.bdv := by
  cases a with
  | ext l =>
    refine ⟨good_ext hg h, fun u => ?_, ?_⟩
    · rw [ext_same h]; exact Iff.rfl
    · rw [ext_same h]
      intro k v w h1 h2
      have h2 : s.betree.linked.bdv k = some w := h2
      rw [h1] at h2; exact Option.some.inj h2
  | internal al de => exact internal_step hg h

theorem run_good (h : (machine g w cp image).Exec tr s) :
    Good g w s ∧ ∀ u, Units s u ↔ held (imageUnits image.value) tr u := by
  refine Machine.exec_invariant (M := machine g w cp image)
    (I := fun tr s => Good g w s ∧ ∀ u, Units s u ↔ held (imageUnits image.value) tr u)
    (fun s hs => init_good hs) ?_ h
  rintro tr s a s' ⟨hg, hu⟩ hs
  obtain ⟨h1, h2, _⟩ := good_step hg hs
  refine ⟨h1, fun u => ?_⟩
  rw [held_snoc, h2]
  cases a with
  | ext l => exact hu u
  | internal al de =>
    show (Units s u ∨ al u) ∧ ¬ de u ↔ (held (imageUnits image.value) tr u ∨ al u) ∧ ¬ de u
    rw [hu u]

/-! ### Reading the branches -/

theorem query_jd {d : BrDisk} {a : Address} (h : ValidSealedBranch ⟨a, d⟩) (k : Key) :
    query d a k = (jd iBuf d).query a k := by
  have hh : d.Has a := (valid_has h (.inl .here)).1
  have : jd iBuf d a = some (iBuf d a) := jd_some.mpr ⟨hh, rfl⟩
  unfold BDisk.query
  rw [this]
  exact query_iBuf h.1 k

theorem queryAll_jd {d : BrDisk} (k : Key) : ∀ {as : List Address},
    (∀ a ∈ as, ValidSealedBranch ⟨a, d⟩) → queryAll d as k = (jd iBuf d).queryAll as k
  | [], _ => rfl
  | a :: as, h => by
    show (query d a k).merge (queryAll d as k) = _
    rw [query_jd (h a (List.mem_cons_self ..)), queryAll_jd k fun b hb => h b (List.mem_cons_of_mem _ hb)]
    rfl

theorem queryFrom_jd {d : BrDisk} {as : List Address} (h : ∀ a ∈ as, ValidSealedBranch ⟨a, d⟩)
    (k : Key) (i : Nat) : queryFrom d as k i = (jd iBuf d).queryFrom as k i :=
  queryAll_jd k fun a ha => h a (List.mem_of_mem_drop ha)

/-- Branches are read as the buffers they stand for. -/
noncomputable def mapReading (hcp : ∀ d n a b d' x, cp d n a b d' x → storedCheck d n a b d' x) :
    Reading cp where
  strict := True
  J := iBuf
  M := id
  drain := fun _ => rfl
  same := fun hw hs ha => iBuf_sub (hw trivial) hs ha
  flush := fun h => h
  compact := by
    intro d n a b d' x hv hx h
    obtain ⟨h1, h2⟩ := hcp _ _ _ _ _ _ h
    have hdom : ∀ k, (iBuf d' x).Contains k ↔ (jd iBuf d).ValidCompactKeyDomain n a b k := by
      intro k
      refine (h1 k).trans ?_
      unfold ValidCompactKeyDomain BDisk.ValidCompactKeyDomain KeyInBufferFiltered
        BDisk.KeyInBufferFiltered
      refine and_congr Iff.rfl (and_congr Iff.rfl (exists_congr fun i => and_congr (and_congr Iff.rfl
        (exists_congr fun y => and_congr Iff.rfl ?_)) Iff.rfl))
      unfold QueryableContains BDisk.QueryableContains
      constructor
      · rintro ⟨h3, h4⟩; exact ⟨_, jd_some.mpr ⟨h3, rfl⟩, h4⟩
      · rintro ⟨z, h3, h4⟩
        obtain ⟨h5, rfl⟩ := jd_some.mp h3
        exact ⟨h5, h4⟩
    refine ⟨hdom, fun k hk => ?_⟩
    have h3 := h2 k hk
    rw [show (iBuf d' x).query k = query d' x k from (query_iBuf (hx trivial).1 k).symm, h3]
    unfold compactKeyValue BDisk.compactKeyValue
    exact queryFrom_jd (fun y hy => hv trivial y (List.mem_of_mem_take (List.mem_of_mem_drop hy))) _ _

/-! ### Queries -/

/-- Walking through branches and walking through the buffers they stand for. -/
theorem answers_jd {k : Key} {l : BLinked} {m : Message}
    (hv : ∀ b, l.tree.ReachableBuffer b → ValidSealedBranch ⟨b, l.bdv⟩) :
    Answers BLinked.shape k l m ↔ Answers Linked.shape k (lk iBuf l) m := by
  have node_bufs : ∀ {l : BLinked}, l.tree.HasRoot → (∀ b, l.tree.ReachableBuffer b →
      ValidSealedBranch ⟨b, l.bdv⟩) → ∀ b ∈ l.tree.node.buffers, ValidSealedBranch ⟨b, l.bdv⟩ := by
    intro l hr hv b hb
    obtain ⟨a, ha, hn⟩ := node_at hr
    refine hv b ⟨a, _, ?_, hn, hb⟩
    rw [ha]; exact .here hn
  have child : ∀ {l : BLinked}, l.tree.HasRoot → l.tree.node.KeyInDomain k →
      (∀ b, l.tree.ReachableBuffer b → ValidSealedBranch ⟨b, l.bdv⟩) →
      ∀ b, (l.childForKey k).tree.ReachableBuffer b → ValidSealedBranch ⟨b, l.bdv⟩ := by
    intro l hr hk hv b ⟨a, n, h1, h2, h3⟩
    obtain ⟨r, hr1, hr2⟩ := node_at hr
    obtain ⟨i, hi, hlt⟩ := route_child hk
    refine hv b ⟨a, n, ?_, h2, h3⟩
    rw [hr1]
    refine .down hr2 hlt ?_
    have : (l.childForKey k).tree.root = l.tree.node.childAt i := by
      show l.tree.node.childAt (l.tree.node.pivots.route k).toNat = _
      rw [hi]; rfl
    rw [← this]; exact h1
  constructor
  · intro h
    induction h with
    | leaf h1 h2 => exact .leaf h1 h2
    | @node l m h1 h2 h3 _ ih =>
      have := ih (child h1 h3.2 hv)
      have hm : BLinked.shape.msg l k = Linked.shape.msg (lk iBuf l) k :=
        queryFrom_jd (node_bufs h1 hv) _ _
      rw [hm]
      exact .node h1 h2 ⟨fun a ha => (jd_has _ _ _).mpr (h3.1 a ha), h3.2⟩ this
  · intro h
    generalize hn : lk iBuf l = n at h
    induction h generalizing l with
    | leaf h1 h2 => subst hn; exact .leaf h1 h2
    | @node n m h1 h2 h3 _ ih =>
      subst hn
      have hk : l.tree.node.KeyInDomain k := h3.2
      have := ih (l := l.childForKey k) (child h1 hk hv) rfl
      have hm : BLinked.shape.msg l k = Linked.shape.msg (lk iBuf l) k :=
        queryFrom_jd (node_bufs h1 hv) _ _
      rw [← hm]
      exact .node h1 h2 ⟨fun a ha => (jd_has iBuf l.bdv a).mp (h3.1 a ha), hk⟩ this

/-- Queries, puts and freezing, seen over buffers. -/
theorem lift_ext (hg : Good g w s) (h : Next g w cp s (.ext l) s') :
    AllocationBetree.Next (over iBuf s.betree.memtable s) l (over iBuf s'.betree.memtable s') := by
  have hv := fun b hb => hg.br.valid b (.inl hb)
  cases h with
  | noop hl h =>
    cases h with
    | @query k v r hr hm =>
      obtain ⟨r', h1, h2⟩ := Receipt.valid_iff.mpr ((answers_jd hv).mp (Receipt.valid_iff.mp ⟨r, hr, rfl⟩))
      have hm' : .define v = r'.result.merge (s.betree.memtable.query k) := by rw [h2]; exact hm
      exact .noop (s := over iBuf s.betree.memtable s) hl ⟨_, .query h1 hm'⟩
    | put h1 h2 => exact .noop (s := over iBuf s.betree.memtable s) hl ⟨_, .put h1 h2⟩
    | freezeAs h1 => exact .noop (s := over iBuf s.betree.memtable s) hl ⟨_, .freezeAs h1⟩

/-- Conversely. -/
theorem ext_lift (hg : Good g w s) (hl : l ≠ .internal) {t : AllocationBetree.State}
    (h : AllocationBetree.Next (over iBuf s.betree.memtable s) l t) :
    ∃ s', Next g w cp s (.ext l) s' ∧ t = over iBuf s'.betree.memtable s' := by
  have hv := fun b hb => hg.br.valid b (.inl hb)
  cases h with
  | noop _ h =>
    obtain ⟨st, h⟩ := h
    cases h with
    | @query k v r hr hm =>
      obtain ⟨r', h1, h2⟩ := Receipt.valid_iff.mpr ((answers_jd hv).mpr (Receipt.valid_iff.mp ⟨r, hr, rfl⟩))
      have hm' : .define v = r'.result.merge (s.betree.memtable.query k) := by rw [h2]; exact hm
      exact ⟨_, .noop hl (.query h1 hm'), rfl⟩
    | put h1 h2 => exact ⟨_, .noop hl (.put h1 h2), rfl⟩
    | freezeAs h1 => exact ⟨_, .noop hl (.freezeAs h1), rfl⟩
    | _ => exact absurd rfl hl
  | _ => exact absurd rfl hl

/-- With a check that compares the entries stored, every run is one of the betree over buffers. -/
theorem run_lift (hcp : ∀ d n a b d' x, cp d n a b d' x → storedCheck d n a b d' x)
    (h : (machine g w cp image).Exec tr s) :
    (AllocationBetree.machine ⟨image.value.iBdv, image.seqEnd⟩).Exec (tr.map Label.seen)
      (over iBuf s.betree.memtable s) := by
  have hinit : ∀ s, (machine g w cp image).Init s → ∃ t,
      (AllocationBetree.machine ⟨image.value.iBdv, image.seqEnd⟩).Init t ∧
      Good g w s ∧ t = over iBuf s.betree.memtable s := by
    intro s hs
    have hg := (init_good (g := g) (w := w) hs).1
    obtain ⟨h1, h2, h3, _, _, _, _, _, _, rfl⟩ := hs
    exact ⟨_, ⟨⟨h1, fun b hb => (jd_has _ _ _).mpr (h2 b hb), h3, rfl⟩, rfl, rfl⟩, hg, rfl⟩
  obtain ⟨t, h1, _, rfl⟩ := Machine.refine (M := machine g w cp image)
    (N := AllocationBetree.machine ⟨image.value.iBdv, image.seqEnd⟩) Label.seen
    (fun s t => Good g w s ∧ t = over iBuf s.betree.memtable s) hinit (by
      rintro s a s' t ⟨hg, rfl⟩ hs
      have hg' := (good_step hg hs).1
      cases a with
      | ext l => exact ⟨_, lift_ext hg hs, hg', rfl⟩
      | internal al de => exact ⟨_, lift (mapReading hcp) hg hs (fun _ => hg'.br.wf), hg', rfl⟩) h
  exact h1

end
end Verif.ABB
