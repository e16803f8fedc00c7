import Verif.Kv.StoreDemo
/-
C53. The copy-on-write block store never loses an image and never mixes two.

Specification: the ideal store of graphs in Verif/Kv/Store.lean. It knows the current graph, a frozen
copy and the images a crash may be recovered from; it knows nothing of caches, indirection tables,
allocation or requests in flight.
-/
namespace Verif.C53
open Verif.Kv Verif.Kv.BlockSystem
open Verif.Kv.BlockCache (Ready)
variable {Node : Type} {A : App Node} {ok : Node → Prop} {loc : Loc}

/-- **Behaves like the ideal store.** In every execution, with any interleaving of transactions, write
backs, page-ins, evictions, freezes, failed reads, answers in any order and crashes that scramble what
was being written, in which everyone who loads asks for an image announced as good: the trace is one of
the ideal store. So every transaction reads from the current graph and nothing else, allocates only
unused references and never creates a dangling pointer, the frozen copy is what was frozen, what is
announced is the frozen copy, and what is loaded is what was announced. -/
theorem acts_as_ideal_store {tr : List (Label Node)} {s : State Node}
    (h : (machine A ok loc).Exec tr s) (hd : (Book.start loc).Disciplined (tr.map (·.vop))) :
    ∃ t, (Store.machine A ok loc).Exec tr t ∧ t.cur = ephGraph A s ∧
      t.book = (Book.start loc).after (tr.map (·.vop)) := by
  obtain ⟨t, h1, h2, h3⟩ := exec_sim h hd
  exact ⟨t, h1, h2.cur, h3⟩

/-- **Every image in the book can be recovered.** Whenever the system is down, each good location can be
loaded: the cache accepts what is there, in three steps, and the graph it then has is the one the ideal
store keeps for that location. -/
theorem recoverable {tr : List (Label Node)} {s : State Node} (h : (machine A ok loc).Exec tr s)
    (hd : (Book.start loc).Disciplined (tr.map (·.vop))) (hm : s.m = .unready) {l : Loc}
    (hl : ((Book.start loc).after (tr.map (·.vop))).ok l) (id : ReqId) :
    ∃ t g s' r, (Store.machine A ok loc).Exec tr t ∧ t.image l = some g ∧
      diskMap A s.d l = some g ∧ (machine A ok loc).Run s [⟨.sendPersistentLoc l, some .receiveLoc⟩,
        ⟨.statesInternal, some .pageInTableReq⟩, ⟨.statesInternal, some .pageInTableResp⟩] s' ∧
      s'.m = .ready r ∧ ephGraph A s' = some g := by
  obtain ⟨t, h1, h2, h3⟩ := exec_sim h hd
  obtain ⟨g, hg, hdl⟩ := h2.image l (h3 ▸ hl)
  have hinv := reachable_inv ⟨tr, h⟩
  have hi := diskMap_some.mp hdl
  obtain ⟨m, d⟩ := s
  change m = _ at hm
  subst hm
  obtain ⟨k1, k2, k3, k4⟩ := hinv
  obtain ⟨hv, tb, htb, hwf, hdist, rfl, hsa⟩ := hi
  change d.readT = _ at k1
  refine ⟨t, _, ⟨.ready ⟨tb, none, tb, l, none, none, .empty, .empty, .empty⟩,
    { d with readT := (d.readT.insert id l).remove id }⟩, _, h1, hg, hdl, ?_, rfl, rfl⟩
  refine .cons (.machine (.receiveLoc hv) .stutter ?_) (.cons
    (.machine (dop := .reqReadTable id l) .pageInTableReq (.recvReadTable (by rw [k1]; rfl)) ?_)
    (.cons (.machine (dop := .respReadTable id (some tb)) (.pageInTableResp hwf hdist)
      (.ackReadTable (loc := l) (by simp) ?_) ?_) (.nil _)))
  · intro x hx; cases hx; rw [show diskMap A d l = _ from hdl]; simp
  · intro x hx; cases hx
  · intro x hx; cases hx; exact htb
  · intro x hx; cases hx

/-- **No dangling pointers.** The current graph always has its root, and every pointer in it leads to a
node. -/
theorem no_dangling {s : State Node} (h : (machine A ok loc).Reachable s) {r : Ready Node}
    (hm : s.m = .ready r) : ∃ g, ephGraph A s = some g ∧ g rootRef ≠ none ∧
      ∀ x n y, g x = some n → A.succs n y → g y ≠ none := by
  have hinv := reachable_inv h
  obtain ⟨m, d⟩ := s
  change m = _ at hm
  subst hm
  change InvReady A r d at hinv
  refine ⟨_, rfl, mt (hinv.graphDom _).mpr hinv.eph.wf.root, fun x n y hx hs => ?_⟩
  have hgx : r.eph.graph x ≠ none := fun hc => by
    have := (hinv.graphDom x).mp hc; rw [this] at hx; cases hx
  obtain ⟨ss, hss⟩ := Option.ne_none_iff_exists'.mp hgx
  exact mt (hinv.graphDom y).mpr
    (hinv.eph.wf.closed _ _ hss y ((hinv.eph.agree.same _ _ _ hss hx y).mpr hs))

/-- **Requests in flight never collide.** Two writes in flight never touch the same bytes, no read in
flight touches bytes being written, and a table being written is not the one the system is based on. -/
theorem no_collision {s : State Node} (h : (machine A ok loc).Reachable s) :
    (∀ i j l l', s.d.writeN i = some l → s.d.writeN j = some l' → overlap l l' → i = j) ∧
    (∀ i j l l', s.d.readN i = some l → s.d.writeN j = some l' → ¬ overlap l l') ∧
    (∀ i j l l', s.d.writeT i = some l → s.d.writeT j = some l' → i = j) ∧
    (∀ i j l l', s.d.readT i = some l → s.d.writeT j = some l' → ¬ overlap l l') ∧
    (∀ i l l', s.d.writeT i = some l → persistentLoc s = some l' → ¬ overlap l l') ∧
    (∀ i j l l', s.d.writeT i = some l → s.d.writeN j = some l' ∨ s.d.readN j = some l' →
      ¬ overlap l l') := by
  have hinv := reachable_inv h
  obtain ⟨m, d⟩ := s
  cases m with
  | unready =>
    obtain ⟨h1, h2, h3, h4⟩ := hinv
    refine ⟨?_, ?_, ?_, ?_, ?_, ?_⟩
    · intro i j l l' hi; rw [h3] at hi; cases hi
    · intro i j l l' hi; rw [h2] at hi; cases hi
    · intro i j l l' hi; rw [h4] at hi; cases hi
    · intro i j l l' hi; rw [h1] at hi; cases hi
    · intro i l l' hi; rw [h4] at hi; cases hi
    · intro i j l l' hi; rw [h4] at hi; cases hi
  | loading x rd =>
    obtain ⟨_, h1, h2, h3, h4⟩ := hinv
    refine ⟨?_, ?_, ?_, ?_, ?_, ?_⟩
    · intro i j l l' hi; rw [h3] at hi; cases hi
    · intro i j l l' hi; rw [h2] at hi; cases hi
    · intro i j l l' hi; rw [h4] at hi; cases hi
    · intro i j l l' _ hi; rw [h4] at hi; cases hi
    · intro i l l' hi; rw [h4] at hi; cases hi
    · intro i j l l' hi; rw [h4] at hi; cases hi
  | ready r =>
    change InvReady A r d at hinv
    have htv : ∀ i l, d.writeT i = some l → ValidTableLoc l ∧ ¬ overlap l r.persistentLoc := by
      intro i l hi
      obtain ⟨_, hl⟩ := hinv.twrec _ _ hi
      obtain ⟨_, _, _, _, h1, h2⟩ := hinv.frzLoc _ hl
      exact ⟨h1, h2⟩
    refine ⟨?_, ?_, ?_, ?_, ?_, ?_⟩
    · intro i j l l' hi hj ho
      obtain ⟨x, hx⟩ := hinv.wrec _ _ hi
      obtain ⟨y, hy⟩ := hinv.wrec _ _ hj
      exact hinv.wuniq _ _ _ _ _ _ hx hy
        (node_overlap_addr (hinv.wvalid _ _ _ hx) (hinv.wvalid _ _ _ hy) ho)
    · intro i j l l' hi hj ho
      obtain ⟨x, hx, hl⟩ := hinv.rrec _ _ hi
      obtain ⟨y, hy⟩ := hinv.wrec _ _ hj
      obtain ⟨e, _, hc⟩ := hinv.weph _ _ _ hy _ _ hl
        (node_overlap_addr (hinv.eph.wf.valid _ _ hl) (hinv.wvalid _ _ _ hy) ho)
      subst e
      exact hc (hinv.reads _ _ hx).1
    · intro i j l l' hi hj
      have h1 := (hinv.twrec _ _ hi).1
      have h2 := (hinv.twrec _ _ hj).1
      exact Option.some.inj (h1.symm.trans h2)
    · intro i j l l' hi
      have := hinv.readT i
      rw [show d.readT i = none from this] at hi; cases hi
    · intro i l l' hi hp
      cases hp
      exact (htv i l hi).2
    · intro i j l l' hi hj ho
      have hv : ValidNodeLoc l' := by
        rcases hj with hj | hj
        · obtain ⟨y, hy⟩ := hinv.wrec _ _ hj
          exact hinv.wvalid _ _ _ hy
        · obtain ⟨x, _, hl⟩ := hinv.rrec _ _ hj
          exact hinv.eph.wf.valid _ _ hl
      exact table_node_disjoint (htv i l hi).1 hv ho

/-- **Every node can be paged in.** If the application only ever writes nodes that pass its own check,
then in every disciplined execution each node of the current graph that is not cached and not being
read can be brought into the cache in two steps, and what arrives is the node of the current graph. -/
theorem page_in {tr : List (Label Node)} {s : State Node} (h : (machine A ok loc).Exec tr s)
    (hd : (Book.start loc).Disciplined (tr.map (·.vop)))
    (hok : ∀ n, ok n → A.wf n)
    (hwf : ∀ u reads ops, A.valid u reads ops → ∀ x n, GOp.alloc x n ∈ ops ∨ GOp.write x n ∈ ops →
      A.wf n)
    {r : Ready Node} (hm : s.m = .ready r) {g : Graph Node} (hg : ephGraph A s = some g) {x : Ref}
    {n : Node} (hx : g x = some n) (hc : r.cache x = none) (hnr : ∀ i y, r.reads i = some y → y ≠ x)
    {id : ReqId} (hid : s.d.readN id = none) :
    ∃ s' r', (machine A ok loc).Run s [⟨.statesInternal, some (.pageInNodeReq x)⟩,
        ⟨.statesInternal, some .pageInNodeResp⟩] s' ∧ s'.m = .ready r' ∧ r'.cache x = some n ∧
      ephGraph A s' = some g := by
  obtain ⟨t, h1, h2, h3⟩ := exec_sim h hd
  have hcur : t.cur = some g := h2.cur.trans hg
  have hwn : A.wf n := (Store.all_wf hok hwf ⟨tr, h1⟩).cur g hcur x n hx
  have hinv := reachable_inv ⟨tr, h⟩
  obtain ⟨m, d⟩ := s
  change m = _ at hm
  subst hm
  change InvReady A r d at hinv
  cases hg
  have hgx : r.eph.graph x ≠ none := fun hc => by
    have := (hinv.graphDom x).mp hc; rw [this] at hx; cases hx
  obtain ⟨ss, hss⟩ := Option.ne_none_iff_exists'.mp hgx
  cases hl : r.eph.locs x with
  | none => rw [dc_cache hgx hl, hc] at hx; cases hx
  | some l =>
    have hnode : d.nodes l = some n := by rw [dc_loc hgx hl] at hx; exact hx
    have run : (machine A ok loc).Run ⟨.ready r, d⟩ [⟨.statesInternal, some (.pageInNodeReq x)⟩,
        ⟨.statesInternal, some .pageInNodeResp⟩] _ :=
      .cons (.machine (dop := .reqReadNode id l) (.pageInNodeReq hgx hl hc hnr) (.recvReadNode hid)
        (fun x hx => by cases hx))
      (.cons (.machine (dop := .respReadNode id (some n)) (.pageInNodeResp (ref := x)
        (show r.reads.insert id x id = some x by simp) hc hss
        (fun y => hinv.eph.agree.same x ss n hss hx y) hwn)
        (.ackReadNode (loc := l) (by simp) (by intro y hy; cases hy; exact hnode))
        (fun x hx => by cases hx)) (.nil _))
    refine ⟨_, _, run, rfl, by simp, ?_⟩
    refine congrArg some (dc_cache_congr (t := r.eph) ?_)
    intro y hgy hly
    have : y ≠ x := by rintro rfl; rw [hl] at hly; cases hly
    simp [PMap.insert, this]

/-! ### Concrete case -/

open Verif.Kv.StoreDemo in
/-- A run of 16 steps: load an image, page in the root, add a leaf and change the root, freeze, write both
nodes and the table out, adopt the new image, start writing over the old root, crash in the middle of
that write. The trace is one of the ideal store, the new image can be loaded and holds the change, and
the root can be paged in again. -/
theorem demo : (∃ t, (Store.machine app (fun n => n = n0) T1).Exec trace t) ∧
    ∃ tr s' r', (machine app (fun n => n = n0) T1).Exec (trace ++ tr) s' ∧ s'.m = .ready r' ∧
      r'.cache 0 = some n1 := by
  obtain ⟨t, ht, _⟩ := acts_as_ideal_store exec_crash disciplined
  refine ⟨⟨t, ht⟩, ?_⟩
  obtain ⟨t, g, s', r, h1, h2, h3, h4, h5, h6⟩ := recoverable exec_crash disciplined rfl book 3
  have hx := exec_crash.append h4
  have hd : (Book.start T1).Disciplined ((trace ++ ([⟨.sendPersistentLoc T2, some .receiveLoc⟩,
        ⟨.statesInternal, some .pageInTableReq⟩,
        ⟨.statesInternal, some .pageInTableResp⟩] : List (Label Nd))).map (fun x => x.vop)) := by
    simp [trace, before, Book.Disciplined, Book.start, Book.step]
  obtain ⟨h7, h8⟩ := reload_empty h4 h5
  obtain ⟨s2, r2, h9, h10, h11, _⟩ := page_in (id := 0) hx hd (fun _ _ => trivial)
    (fun _ _ _ _ _ _ _ => trivial) h5 h6 (image_T2 h3).1 (by rw [h7]; rfl)
    (by intro i y hy; rw [h8.1] at hy; cases hy) (by rw [h8.2]; rfl)
  exact ⟨_, s2, r2, by simpa using hx.append h9, h10, h11⟩

end Verif.C53
