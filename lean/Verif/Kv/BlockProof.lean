import Verif.Kv.BlockSystem
/-
The inductive invariant of the block system and what each step does to the graphs. No code is
modelled here (the invariant plays the part of `Inv` in BlockSystem.i.dfy).
-/
namespace Verif.Kv.BlockSystem
open BlockCache
variable {Node : Type} {A : App Node}

section graph
variable {t : Table} {nodes nodes' : PMap Loc Node} {c c' : PMap Ref Node}

theorem dc_nodes_congr (h : ∀ r l, t.locs r = some l → nodes' l = nodes l) :
    dcGraph t nodes' c = dcGraph t nodes c := by
  funext r
  unfold dcGraph
  cases hg : t.graph r <;> simp only
  cases hl : t.locs r <;> simp only
  exact h _ _ hl

theorem dc_cache_congr (h : ∀ r, t.graph r ≠ none → t.locs r = none → c' r = c r) :
    dcGraph t nodes c' = dcGraph t nodes c := by
  funext r
  unfold dcGraph
  cases hg : t.graph r <;> simp only
  cases hl : t.locs r <;> simp only
  exact h _ (by simp [hg]) hl

theorem dc_complete (h : ∀ r, t.graph r ≠ none → t.locs r ≠ none) :
    dcGraph t nodes c = dcGraph t nodes c' :=
  dc_cache_congr (fun r hg hl => absurd hl (h r hg))

theorem dc_none {r : Ref} (h : t.graph r = none) : dcGraph t nodes c r = none := by
  unfold dcGraph; rw [h]

theorem dc_loc {r : Ref} {l} (h : t.graph r ≠ none) (hl : t.locs r = some l) :
    dcGraph t nodes c r = nodes l := by
  unfold dcGraph
  cases hg : t.graph r with
  | none => exact absurd hg h
  | some ss => simp only [hl]

theorem dc_cache {r : Ref} (h : t.graph r ≠ none) (hl : t.locs r = none) :
    dcGraph t nodes c r = c r := by
  unfold dcGraph
  cases hg : t.graph r with
  | none => exact absurd hg h
  | some ss => simp only [hl]

theorem assign_graph (t : Table) (ref : Ref) (loc : Loc) : (assign t ref loc).graph = t.graph := by
  unfold assign; split <;> rfl

theorem assign_locs {t : Table} {ref : Ref} {loc : Loc} {r l}
    (h : (assign t ref loc).locs r = some l) :
    t.locs r = some l ∨ (r = ref ∧ l = loc ∧ t.graph ref ≠ none ∧ t.locs ref = none) := by
  unfold assign at h
  split at h
  next hc =>
    by_cases hr : r = ref
    · subst hr
      simp at h
      exact .inr ⟨rfl, h.symm, hc⟩
    · left; simpa [PMap.insert, hr] using h
  next => exact .inl h

theorem assign_complete {t : Table} {ref : Ref} {loc : Loc}
    (h : ∀ r, t.graph r ≠ none → t.locs r ≠ none) : assign t ref loc = t := by
  unfold assign; split
  next hc => exact absurd hc.2 (h _ hc.1)
  next => rfl

theorem dc_assign {ref : Ref} {loc : Loc} {n : Node} (hc : c ref = some n)
    (hn : nodes' loc = some n) (hk : ∀ r l, t.locs r = some l → nodes' l = nodes l) :
    dcGraph (assign t ref loc) nodes' c = dcGraph t nodes c := by
  rw [← dc_nodes_congr hk]
  unfold assign
  split
  next h =>
    funext r
    by_cases hr : r = ref
    · subst hr
      rw [dc_loc (t := { t with locs := t.locs.insert r loc }) h.1
        (show (t.locs.insert r loc) r = some loc by simp), dc_cache h.1 h.2, hn, hc]
    · unfold dcGraph; simp [PMap.insert, hr]
  next => rfl

end graph

/-- A table is well formed and describes a full graph over the given disk and cache. -/
structure TableOk (A : App Node) (nodes : PMap Loc Node) (cache : PMap Ref Node) (t : Table) :
    Prop where
  wf : WFTable t
  dist : Distinct t
  agree : SuccAgree A t.graph (dcGraph t nodes cache)

theorem TableOk.node {nodes : PMap Loc Node} {cache : PMap Ref Node} {t : Table}
    (h : TableOk A nodes cache t) {r l} (hl : t.locs r = some l) : ∃ n, nodes l = some n := by
  have hg := h.wf.sub _ _ hl
  have := mt (h.agree.dom r).mpr hg
  rw [dc_loc hg hl] at this
  exact Option.ne_none_iff_exists'.mp this

theorem TableOk.kept {nodes nodes' : PMap Loc Node} {cache : PMap Ref Node} {t : Table}
    (h : TableOk A nodes cache t) {loc : Loc} {n : Node} (hu : BlockDisk.MapUpdate nodes nodes' loc n)
    (hv : ValidNodeLoc loc) (ha : ∀ r l, t.locs r = some l → l.addr ≠ loc.addr) :
    ∀ r l, t.locs r = some l → nodes' l = nodes l := by
  intro r l hl
  obtain ⟨x, hx⟩ := h.node hl
  rw [hx]
  exact hu.2 _ _ hx (fun ho => ha _ _ hl (node_overlap_addr (h.wf.valid _ _ hl) hv ho))

theorem TableOk.congr {nodes nodes' : PMap Loc Node} {cache cache' : PMap Ref Node} {t : Table}
    (h : TableOk A nodes cache t)
    (he : dcGraph t nodes' cache' = dcGraph t nodes cache) : TableOk A nodes' cache' t :=
  ⟨h.wf, h.dist, he ▸ h.agree⟩

theorem TableOk.assign {nodes nodes' : PMap Loc Node} {cache : PMap Ref Node} {t : Table}
    (h : TableOk A nodes cache t) {ref : Ref} {loc : Loc} {n : Node}
    (hc : cache ref = some n) (hv : ValidNodeLoc loc)
    (hu : BlockDisk.MapUpdate nodes nodes' loc n)
    (ha : ∀ r l, t.locs r = some l → l.addr ≠ loc.addr) :
    TableOk A nodes' cache (assign t ref loc) ∧
      dcGraph (BlockCache.assign t ref loc) nodes' cache = dcGraph t nodes cache := by
  have he := dc_assign hc hu.1 (h.kept hu hv ha)
  refine ⟨⟨⟨?_, ?_, ?_, ?_⟩, ?_, ?_⟩, he⟩
  · intro r l hl
    rcases assign_locs hl with hl | ⟨_, rfl, _⟩
    · exact h.wf.valid _ _ hl
    · exact hv
  · intro r l hl
    rw [assign_graph]
    rcases assign_locs hl with hl | ⟨rfl, _, hg, _⟩
    · exact h.wf.sub _ _ hl
    · exact hg
  · rw [assign_graph]; exact h.wf.root
  · rw [assign_graph]; exact h.wf.closed
  · intro r r' l l' hl hl' hadd
    rcases assign_locs hl with k | ⟨e1, e2, _⟩ <;> rcases assign_locs hl' with k' | ⟨e1', e2', _⟩
    · exact h.dist _ _ _ _ k k' hadd
    · exact absurd (e2' ▸ hadd) (ha _ _ k)
    · exact absurd (e2 ▸ hadd.symm) (ha _ _ k')
    · rw [e1, e1']
  · rw [he, assign_graph]; exact h.agree

/-- The invariant while the table is loaded. -/
structure InvReady (A : App Node) (r : Ready Node) (d : BlockDisk.State Node) : Prop where
  pers : TableOk A d.nodes .empty r.persistent
  pcomplete : ∀ x, r.persistent.graph x ≠ none → r.persistent.locs x ≠ none
  ptable : d.tables r.persistentLoc = some r.persistent
  ploc : ValidTableLoc r.persistentLoc
  eph : TableOk A d.nodes r.cache r.eph
  clean : ∀ x n l, r.cache x = some n → r.eph.locs x = some l → d.nodes l = some n
  frz : ∀ t, r.frozen = some t → TableOk A d.nodes r.cache t
  frzLoc : ∀ l, r.frozenLoc = some l → ∃ t, r.frozen = some t ∧
    (∀ x, t.graph x ≠ none → t.locs x ≠ none) ∧ d.tables l = some t ∧ ValidTableLoc l ∧
    ¬ overlap l r.persistentLoc
  tw : ∀ id, r.tableWrite = some id → r.frozenLoc ≠ none
  wvalid : ∀ id x l, r.writes id = some (x, l) → ValidNodeLoc l
  weph : ∀ id x l, r.writes id = some (x, l) → ∀ y l', r.eph.locs y = some l' → l'.addr = l.addr →
    y = x ∧ l' = l ∧ r.cache x ≠ none
  wfrz : ∀ id x l, r.writes id = some (x, l) → r.frozenLoc ≠ none → ∀ t, r.frozen = some t →
    ∀ y l', t.locs y = some l' → l'.addr ≠ l.addr
  wpers : ∀ id x l, r.writes id = some (x, l) → ∀ y l', r.persistent.locs y = some l' →
    l'.addr ≠ l.addr
  wuniq : ∀ id id' x x' l l', r.writes id = some (x, l) → r.writes id' = some (x', l') →
    l.addr = l'.addr → id = id'
  wrec : ∀ id l, d.writeN id = some l → ∃ x, r.writes id = some (x, l)
  reads : ∀ id x, r.reads id = some x → r.cache x = none ∧ r.eph.locs x ≠ none
  runiq : ∀ id id' x, r.reads id = some x → r.reads id' = some x → id = id'
  rrec : ∀ id l, d.readN id = some l → ∃ x, r.reads id = some x ∧ r.eph.locs x = some l
  twrec : ∀ id l, d.writeT id = some l → r.tableWrite = some id ∧ r.frozenLoc = some l
  readT : ∀ id, d.readT id = none

/-- The invariant of the whole system. -/
def Inv (A : App Node) (s : State Node) : Prop :=
  match s.m with
  | .ready r => InvReady A r s.d
  | .loading l rd => (∃ g, Image A s.d l g) ∧ (∀ id l', s.d.readT id = some l' →
      l' = l ∧ rd = some id) ∧ s.d.readN = .empty ∧ s.d.writeN = .empty ∧ s.d.writeT = .empty
  | .unready => s.d.readT = .empty ∧ s.d.readN = .empty ∧ s.d.writeN = .empty ∧ s.d.writeT = .empty

/-! ### Images -/

theorem Image.unique {d : BlockDisk.State Node} {loc g g'} (h : Image A d loc g)
    (h' : Image A d loc g') : g = g' := by
  obtain ⟨_, t, ht, _, _, hg, _⟩ := h
  obtain ⟨_, t', ht', _, _, hg', _⟩ := h'
  rw [ht] at ht'; cases ht'
  rw [hg, hg']

theorem diskMap_some {d : BlockDisk.State Node} {loc g} :
    diskMap A d loc = some g ↔ Image A d loc g := by
  unfold diskMap
  constructor
  · intro h
    split at h
    next he => cases h; exact Classical.choose_spec he
    next => cases h
  · intro h
    rw [dif_pos ⟨g, h⟩]
    exact congrArg some ((Classical.choose_spec (⟨g, h⟩ : ∃ g, Image A d loc g)).unique h)

theorem diskMap_ne {d : BlockDisk.State Node} {loc} (h : diskMap A d loc ≠ none) :
    ∃ g, Image A d loc g := by
  obtain ⟨g, hg⟩ := Option.ne_none_iff_exists'.mp h
  exact ⟨g, diskMap_some.mp hg⟩

theorem Image.ofTable {d : BlockDisk.State Node} {loc : Loc} {t : Table} (hv : ValidTableLoc loc)
    (ht : d.tables loc = some t) (hok : TableOk A d.nodes .empty t)
    (hc : ∀ x, t.graph x ≠ none → t.locs x ≠ none) :
    Image A d loc (dcGraph t d.nodes .empty) :=
  ⟨hv, t, ht, ⟨hok.wf, hc⟩, hok.dist, rfl, hok.agree⟩

theorem Image.toTable {d : BlockDisk.State Node} {loc : Loc} {g} (h : Image A d loc g) :
    ∃ t, d.tables loc = some t ∧ TableOk A d.nodes .empty t ∧
      (∀ x, t.graph x ≠ none → t.locs x ≠ none) ∧ g = dcGraph t d.nodes .empty := by
  obtain ⟨_, t, ht, hwf, hd, hg, ha⟩ := h
  exact ⟨t, ht, ⟨hwf.toWFTable, hd, hg ▸ ha⟩, hwf.complete, hg⟩

/-- An image survives if its table and the nodes it points to do. -/
theorem Image.keep {d d' : BlockDisk.State Node} {loc : Loc} {g} (h : Image A d loc g)
    (ht : ∀ t, d.tables loc = some t → d'.tables loc = some t ∧
      ∀ r l, t.locs r = some l → d'.nodes l = d.nodes l) : Image A d' loc g := by
  obtain ⟨hv, t, htab, hwf, hd, hg, ha⟩ := h
  obtain ⟨h1, h2⟩ := ht t htab
  exact ⟨hv, t, h1, hwf, hd, by rw [hg, dc_nodes_congr h2], ha⟩

theorem Image.havoc {d d' : BlockDisk.State Node} {loc : Loc} {g} (h : Image A d loc g)
    (ht : ∀ t, d.tables loc = some t → d'.tables loc = some t)
    (hn : ∀ l n, d.nodes l = some n → (∃ t r, d.tables loc = some t ∧ t.locs r = some l) →
      d'.nodes l = some n) : Image A d' loc g := by
  obtain ⟨t, htab, hok, _, _⟩ := h.toTable
  refine h.keep fun t' ht' => ⟨ht _ ht', fun r l hl => ?_⟩
  rw [htab] at ht'; cases ht'
  obtain ⟨n, hn'⟩ := hok.node hl
  rw [hn', hn _ _ hn' ⟨t, r, htab, hl⟩]

theorem InvReady.pimage {r : Ready Node} {d : BlockDisk.State Node} (h : InvReady A r d) :
    Image A d r.persistentLoc (dcGraph r.persistent d.nodes .empty) :=
  .ofTable h.ploc h.ptable h.pers h.pcomplete

theorem InvReady.fimage {r : Ready Node} {d : BlockDisk.State Node} (h : InvReady A r d) {l t}
    (hl : r.frozenLoc = some l) (ht : r.frozen = some t) :
    Image A d l (dcGraph t d.nodes r.cache) := by
  obtain ⟨t', ht', hc, htab, hv, _⟩ := h.frzLoc l hl
  rw [ht] at ht'; cases ht'
  rw [dc_complete (c' := .empty) hc]
  refine .ofTable hv htab ?_ hc
  exact (h.frz _ ht).congr (dc_complete hc)

/-! ### Graph operations -/

/-- `OpStep` of the block interface (Betree/BlockInterface.i.dfy:66-91): allocate a fresh reference or
overwrite an existing one, with pointers only to existing nodes. -/
inductive GStep (A : App Node) : Graph Node → GOp Node → Graph Node → Prop
  | alloc {g : Graph Node} {ref n} : (∀ x, A.succs n x → g x ≠ none) → g ref = none →
      GStep A g (.alloc ref n) (g.insert ref n)
  | write {g : Graph Node} {ref n} : (∀ x, A.succs n x → g x ≠ none) → g ref ≠ none →
      GStep A g (.write ref n) (g.insert ref n)

/-- What stays the same in a transaction. -/
structure SameFrame (r r' : Ready Node) : Prop where
  persistent : r'.persistent = r.persistent
  frozen : r'.frozen = r.frozen
  persistentLoc : r'.persistentLoc = r.persistentLoc
  frozenLoc : r'.frozenLoc = r.frozenLoc
  tableWrite : r'.tableWrite = r.tableWrite

theorem InvReady.graphDom {r : Ready Node} {d : BlockDisk.State Node} (h : InvReady A r d) (x : Ref) :
    r.eph.graph x = none ↔ dcGraph r.eph d.nodes r.cache x = none := h.eph.agree.dom x

theorem insertGraph_agree {sg : PMap Ref (List Ref)} {g : Graph Node} {ref : Ref} {ss : List Ref}
    {n : Node} (h : SuccAgree A sg g) (hs : SameSuccs A ss n) :
    SuccAgree A (sg.insert ref ss) (g.insert ref n) := by
  constructor
  · intro r
    by_cases hr : r = ref
    · subst hr; simp
    · simpa [PMap.insert, hr] using h.dom r
  · intro r ss' n' h1 h2
    by_cases hr : r = ref
    · subst hr
      simp at h1 h2
      subst h1; subst h2; exact hs
    · simp only [PMap.insert, hr, if_false] at h1 h2
      exact h.same _ _ _ h1 h2

theorem insertGraph_closed {sg : PMap Ref (List Ref)} {ref : Ref} {ss : List Ref} {n : Node}
    (h : GraphClosed sg) (hs : SameSuccs A ss n) (hp : ∀ x, A.succs n x → sg x ≠ none) :
    GraphClosed (sg.insert ref ss) := by
  intro r ss' hr x hx
  have aux : sg x ≠ none → sg.insert ref ss x ≠ none := by
    intro hx'
    by_cases he : x = ref
    · subst he; simp
    · simpa [PMap.insert, he] using hx'
  by_cases he : r = ref
  · subst he
    simp at hr
    subst hr
    exact aux (hp _ ((hs x).mp hx))
  · simp only [PMap.insert, he, if_false] at hr
    exact aux (h _ _ hr x hx)

/-- The frozen graph does not see a change of the cache at a protected reference. -/
theorem frozen_cache {r : Ready Node} {nodes : PMap Loc Node} {ref : Ref} {c : PMap Ref Node}
    (hf : FrozenSafe r ref) (hc : ∀ x, x ≠ ref → c x = r.cache x) {t} (ht : r.frozen = some t) :
    dcGraph t nodes c = dcGraph t nodes r.cache := by
  apply dc_cache_congr
  intro x hg hl
  apply hc
  rintro rfl
  exact hf t ht hg hl

theorem OpStep.preserves {r r' : Ready Node} {d : BlockDisk.State Node} {op : GOp Node}
    (h : InvReady A r d) (hs : OpStep A r op r') :
    InvReady A r' d ∧ SameFrame r r' ∧
    GStep A (dcGraph r.eph d.nodes r.cache) op (dcGraph r'.eph d.nodes r'.cache) ∧
    (∀ t, r.frozen = some t → dcGraph t d.nodes r'.cache = dcGraph t d.nodes r.cache) := by
  cases hs with
  | @dirty ref n ss hc hg hp hf hss =>
    have hgraph : dcGraph ⟨r.eph.locs.remove ref, r.eph.graph.insert ref ss⟩ d.nodes
        (r.cache.insert ref n) = (dcGraph r.eph d.nodes r.cache).insert ref n := by
      funext x
      by_cases hx : x = ref
      · subst hx
        rw [dc_cache (by simp) (by simp)]; simp
      · unfold dcGraph; simp [PMap.insert, PMap.remove, hx]
    have hfr : ∀ t, r.frozen = some t → dcGraph t d.nodes (r.cache.insert ref n)
        = dcGraph t d.nodes r.cache := fun t ht =>
      frozen_cache hf (fun x hx => by simp [PMap.insert, hx]) ht
    have hlocs : ∀ {x l}, (r.eph.locs.remove ref) x = some l → x ≠ ref ∧ r.eph.locs x = some l := by
      intro x l hx
      by_cases he : x = ref
      · subst he; simp at hx
      · exact ⟨he, by simpa [PMap.remove, he] using hx⟩
    have hrd : ∀ id x, r.reads id = some x → x ≠ ref := by
      rintro id x hid rfl
      exact hc (h.reads _ _ hid).1
    refine ⟨⟨h.pers, h.pcomplete, h.ptable, h.ploc, ⟨⟨?_, ?_, ?_, ?_⟩, ?_, ?_⟩, ?_, ?_, h.frzLoc, h.tw,
      h.wvalid, ?_, h.wfrz, h.wpers, h.wuniq, h.wrec, ?_, h.runiq, ?_, h.twrec, h.readT⟩,
      ⟨rfl, rfl, rfl, rfl, rfl⟩, ?_, hfr⟩
    · intro x l hx; exact h.eph.wf.valid _ _ (hlocs hx).2
    · intro x l hx
      have := h.eph.wf.sub _ _ (hlocs hx).2
      simpa [PMap.insert, (hlocs hx).1] using this
    · show (r.eph.graph.insert ref ss) rootRef ≠ none
      by_cases he : rootRef = ref
      · rw [he]; simp
      · simpa [PMap.insert, he] using h.eph.wf.root
    · exact insertGraph_closed h.eph.wf.closed hss hp
    · intro x x' l l' hl hl'
      exact h.eph.dist _ _ _ _ (hlocs hl).2 (hlocs hl').2
    · rw [hgraph]; exact insertGraph_agree h.eph.agree hss
    · intro x m l hx hl
      obtain ⟨hne, hl⟩ := hlocs hl
      exact h.clean x m l (by simpa [PMap.insert, hne] using hx) hl
    · intro t ht
      exact (h.frz t ht).congr (hfr t ht)
    · intro id x l hw y l' hl hadd
      obtain ⟨hne, hl⟩ := hlocs hl
      obtain ⟨h1, h2, h3⟩ := h.weph id x l hw y l' hl hadd
      refine ⟨h1, h2, ?_⟩
      subst h1
      simpa [PMap.insert, hne] using h3
    · intro id x hid
      have hne := hrd _ _ hid
      have := h.reads _ _ hid
      simpa [PMap.insert, PMap.remove, hne] using this
    · intro id l hid
      obtain ⟨x, hx, hl⟩ := h.rrec _ _ hid
      exact ⟨x, hx, by simpa [PMap.remove, hrd _ _ hx] using hl⟩
    · show GStep A _ _ (dcGraph _ _ _)
      rw [hgraph]
      exact .write (fun x hx => mt (h.graphDom x).mpr (hp x hx)) (mt (h.graphDom ref).mpr hg)
  | @alloc ref n ss hc hg hp hss =>
    have hnl : r.eph.locs ref = none := by
      cases hl : r.eph.locs ref with
      | none => rfl
      | some l => exact absurd hg (h.eph.wf.sub _ _ hl)
    have hgraph : dcGraph ⟨r.eph.locs, r.eph.graph.insert ref ss⟩ d.nodes
        (r.cache.insert ref n) = (dcGraph r.eph d.nodes r.cache).insert ref n := by
      funext x
      by_cases hx : x = ref
      · subst hx
        rw [dc_cache (t := ⟨r.eph.locs, r.eph.graph.insert x ss⟩) (by simp) hnl]; simp
      · unfold dcGraph; simp [PMap.insert, hx]
    have hfr : ∀ t, r.frozen = some t → dcGraph t d.nodes (r.cache.insert ref n)
        = dcGraph t d.nodes r.cache := by
      intro t ht
      apply dc_cache_congr
      intro x hgx hlx
      have hx : x ≠ ref := by
        rintro rfl
        have := mt ((h.frz t ht).agree.dom x).mpr hgx
        rw [dc_cache hgx hlx] at this
        exact this hc
      simp [PMap.insert, hx]
    have hln : ∀ {x l}, r.eph.locs x = some l → x ≠ ref := by
      rintro x l hx rfl; rw [hnl] at hx; cases hx
    have hrd : ∀ id x, r.reads id = some x → x ≠ ref := by
      rintro id x hid rfl
      exact (h.reads _ _ hid).2 hnl
    refine ⟨⟨h.pers, h.pcomplete, h.ptable, h.ploc, ⟨⟨h.eph.wf.valid, ?_, ?_, ?_⟩, h.eph.dist, ?_⟩,
      ?_, ?_, h.frzLoc, h.tw,
      h.wvalid, ?_, h.wfrz, h.wpers, h.wuniq, h.wrec, ?_, h.runiq, h.rrec, h.twrec, h.readT⟩,
      ⟨rfl, rfl, rfl, rfl, rfl⟩, ?_, hfr⟩
    · intro x l hx
      have := h.eph.wf.sub _ _ hx
      simpa [PMap.insert, hln hx] using this
    · show (r.eph.graph.insert ref ss) rootRef ≠ none
      by_cases he : rootRef = ref
      · rw [he]; simp
      · simpa [PMap.insert, he] using h.eph.wf.root
    · exact insertGraph_closed h.eph.wf.closed hss hp
    · rw [hgraph]; exact insertGraph_agree h.eph.agree hss
    · intro x m l hx hl
      exact h.clean x m l (by simpa [PMap.insert, hln hl] using hx) hl
    · intro t ht
      exact (h.frz t ht).congr (hfr t ht)
    · intro id x l hw y l' hl hadd
      obtain ⟨h1, h2, h3⟩ := h.weph id x l hw y l' hl hadd
      refine ⟨h1, h2, ?_⟩
      subst h1
      simpa [PMap.insert, hln hl] using h3
    · intro id x hid
      have hne := hrd _ _ hid
      have := h.reads _ _ hid
      simpa [PMap.insert, hne] using this
    · show GStep A _ _ (dcGraph _ _ _)
      rw [hgraph]
      exact .alloc (fun x hx => mt (h.graphDom x).mpr (hp x hx)) ((h.graphDom ref).mp hg)

theorem Ops.preserves {r r' : Ready Node} {d : BlockDisk.State Node} {ops : List (GOp Node)}
    (h : InvReady A r d) (hs : Ops (OpStep A) r ops r') :
    InvReady A r' d ∧ SameFrame r r' ∧
    Ops (GStep A) (dcGraph r.eph d.nodes r.cache) ops (dcGraph r'.eph d.nodes r'.cache) ∧
    (∀ t, r.frozen = some t → dcGraph t d.nodes r'.cache = dcGraph t d.nodes r.cache) := by
  induction hs with
  | nil => exact ⟨h, ⟨rfl, rfl, rfl, rfl, rfl⟩, .nil, fun _ _ => rfl⟩
  | cons h1 _ ih =>
    obtain ⟨hi, hf, hg, hz⟩ := OpStep.preserves h h1
    obtain ⟨hi', hf', hg', hz'⟩ := ih hi
    refine ⟨hi', ⟨?_, ?_, ?_, ?_, ?_⟩, .cons hg hg', ?_⟩
    · rw [hf'.persistent, hf.persistent]
    · rw [hf'.frozen, hf.frozen]
    · rw [hf'.persistentLoc, hf.persistentLoc]
    · rw [hf'.frozenLoc, hf.frozenLoc]
    · rw [hf'.tableWrite, hf.tableWrite]
    · intro t ht
      rw [hz' t (by rw [hf.frozen]; exact ht), hz t ht]

end Verif.Kv.BlockSystem
