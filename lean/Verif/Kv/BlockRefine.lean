import Verif.Kv.BlockProof
/-
Every step of the block system keeps the invariant and moves the graphs the way StatesView says
(the part of `StepGraphs` in BlockSystem_Refines_StatesView.i.dfy). No code is modelled here.
-/
namespace Verif.Kv.BlockSystem
open BlockCache
variable {Node : Type} {A : App Node}

/-- The view of the block system as a StatesView over graphs. -/
noncomputable def view (A : App Node) (s : State Node) : StatesView.State (Graph Node) :=
  ⟨diskMap A s.d, persistentLoc s, frozenLoc s, frozenGraph s, ephGraph A s⟩

/-- A machine without moves, for the steps of StatesView that are not `Advance`. -/
def still : SM (Graph Node) := ⟨fun _ => True, fun _ _ _ => False⟩

/-- What a step does to the graphs: a transaction applies its operations to the current graph and
reads from it, `Unalloc` removes a node nothing points to, any other step is a step of StatesView
that does not advance. -/
inductive GraphNext (A : App Node) : StatesView.State (Graph Node) → Label Node →
    StatesView.State (Graph Node) → Prop
  | txn {v : StatesView.State (Graph Node)} {u b reads ops g g'} : v.ephemeral = some g →
      A.valid u reads ops → (∀ x n, (x, n) ∈ reads → g x = some n) → Ops (GStep A) g ops g' →
      GraphNext A v ⟨.advance u b, some (.transaction reads ops)⟩ { v with ephemeral := some g' }
  | free {v : StatesView.State (Graph Node)} {b ref} {g : Graph Node} : v.ephemeral = some g →
      g ref ≠ none → ref ≠ rootRef → (∀ x n, g x = some n → ¬ A.succs n ref) →
      GraphNext A v ⟨.advance .noop b, some (.unalloc ref)⟩
        { v with ephemeral := some (g.remove ref) }
  | other {v v' : StatesView.State (Graph Node)} {l : Label Node} :
      StatesView.Next still v l.vop v' →
      (hc : l.vop = .cleanUp → v.frozenLoc ≠ none := by intro h; cases h) → GraphNext A v l v'

theorem image_congr {d d' : BlockDisk.State Node} (ht : d'.tables = d.tables)
    (hn : d'.nodes = d.nodes) : diskMap A d' = diskMap A d := by
  funext l
  unfold diskMap Image
  rw [ht, hn]

/-- The invariant does not mind answered requests. -/
theorem InvReady.answered {r : Ready Node} {d d' : BlockDisk.State Node} (h : InvReady A r d)
    (ht : d'.tables = d.tables) (hn : d'.nodes = d.nodes)
    (h1 : ∀ id l, d'.writeN id = some l → d.writeN id = some l)
    (h2 : ∀ id l, d'.readN id = some l → d.readN id = some l)
    (h3 : ∀ id l, d'.writeT id = some l → d.writeT id = some l)
    (h4 : ∀ id, d'.readT id = none) : InvReady A r d' := by
  refine ⟨?_, h.pcomplete, ?_, h.ploc, ?_, ?_, ?_, ?_, h.tw, h.wvalid, h.weph, h.wfrz, h.wpers,
    h.wuniq, fun id l hl => h.wrec _ _ (h1 _ _ hl), h.reads, h.runiq,
    fun id l hl => h.rrec _ _ (h2 _ _ hl), fun id l hl => h.twrec _ _ (h3 _ _ hl), h4⟩
  · rw [hn]; exact h.pers
  · rw [ht]; exact h.ptable
  · rw [hn]; exact h.eph
  · rw [hn]; exact h.clean
  · rw [hn]; exact h.frz
  · rw [ht]; exact h.frzLoc

theorem remove_some {m : PMap ReqId β} {id x : ReqId} {l : β} (h : m.remove id x = some l) :
    m x = some l ∧ x ≠ id := by
  unfold PMap.remove at h
  split at h
  · cases h
  · next hne => exact ⟨h, hne⟩

theorem insert_some {m : PMap ReqId β} {id x : ReqId} {l v : β} (h : m.insert id v x = some l) :
    (x = id ∧ l = v) ∨ (x ≠ id ∧ m x = some l) := by
  unfold PMap.insert at h
  split at h
  · next he => cases h; exact .inl ⟨he, rfl⟩
  · next hne => exact .inr ⟨hne, h⟩

/-- A write of a node. -/
theorem writeBackNodeReq_inv {r : Ready Node} {d : BlockDisk.State Node} {id : ReqId} {loc : Loc}
    {n : Node} {ref : Ref} {ns : PMap Loc Node} (h : InvReady A r d)
    (hc : r.cache ref = some n) (hv : ValidNodeLoc loc) (htw : r.tableWrite = none)
    (ha : ValidAllocation r loc) (hid : d.writeN id = none)
    (hu : BlockDisk.MapUpdate d.nodes ns loc n) :
    let r' : Ready Node := { r with
          eph := assign r.eph ref loc
          frozen := r.frozen.map (assign · ref loc)
          writes := r.writes.insert id (ref, loc) }
    let d' : BlockDisk.State Node := { d with writeN := d.writeN.insert id loc, nodes := ns }
    InvReady A r' d' ∧ StatesView.Next still (view A ⟨.ready r, d⟩) .statesInternal
      (view A ⟨.ready r', d'⟩) := by
  intro r' d'
  have hpk := h.pers.kept hu hv ha.persistent
  obtain ⟨heok, heg⟩ := h.eph.assign hc hv hu ha.eph
  have hfz : ∀ t, r.frozen = some t → TableOk A ns r.cache (assign t ref loc) ∧
      dcGraph (assign t ref loc) ns r.cache = dcGraph t d.nodes r.cache := fun t ht =>
    (h.frz t ht).assign hc hv hu (ha.frozen t ht)
  have hinv : InvReady A r' d' := by
    refine ⟨h.pers.congr (dc_nodes_congr hpk), h.pcomplete, h.ptable, h.ploc, heok, ?_, ?_, ?_, ?_,
      ?_, ?_, ?_, ?_, ?_, ?_, ?_, h.runiq, ?_, h.twrec, h.readT⟩
    · intro x m l hx hl
      rcases assign_locs hl with hl | ⟨rfl, rfl, _, _⟩
      · have := h.clean x m l hx hl
        exact (h.eph.kept hu hv ha.eph x l hl).trans this
      · have : some n = some m := hc.symm.trans hx
        cases this
        exact hu.1
    · intro t ht
      change r.frozen.map _ = some t at ht
      cases hf : r.frozen with
      | none => rw [hf] at ht; cases ht
      | some t0 =>
        rw [hf] at ht; cases ht
        exact (hfz t0 hf).1
    · intro l hl
      obtain ⟨t, ht, hcm, htab, hvl, ho⟩ := h.frzLoc l hl
      refine ⟨t, ?_, hcm, htab, hvl, ho⟩
      show r.frozen.map _ = some t
      rw [ht, Option.map_some, assign_complete hcm]
    · intro i hi; change r.tableWrite = some i at hi; rw [htw] at hi; cases hi
    · intro i x l hw
      rcases insert_some hw with ⟨_, h2⟩ | ⟨_, hw⟩
      · cases h2; exact hv
      · exact h.wvalid _ _ _ hw
    · intro i x l hw y l' hl hadd
      rcases insert_some hw with ⟨_, h2⟩ | ⟨_, hw⟩
      · cases h2
        rcases assign_locs hl with hl | ⟨rfl, rfl, _, _⟩
        · exact absurd hadd (ha.eph _ _ hl)
        · exact ⟨rfl, rfl, by show r.cache y ≠ none; rw [hc]; simp⟩
      · rcases assign_locs hl with hl | ⟨_, e2, _, _⟩
        · exact h.weph _ _ _ hw _ _ hl hadd
        · exact absurd (e2 ▸ hadd.symm) (ha.writes _ _ _ hw)
    · intro i x l hw hfl t ht y l' hl
      change r.frozen.map _ = some t at ht
      obtain ⟨fl, hfl⟩ := Option.ne_none_iff_exists'.mp hfl
      obtain ⟨t0, ht0, hcm, _, _, _⟩ := h.frzLoc fl hfl
      rw [ht0, Option.map_some, assign_complete hcm] at ht
      cases ht
      rcases insert_some hw with ⟨_, h2⟩ | ⟨_, hw⟩
      · cases h2; exact ha.frozen _ ht0 _ _ hl
      · exact h.wfrz _ _ _ hw (by rw [hfl]; simp) _ ht0 _ _ hl
    · intro i x l hw y l' hl
      rcases insert_some hw with ⟨_, h2⟩ | ⟨_, hw⟩
      · cases h2; exact ha.persistent _ _ hl
      · exact h.wpers _ _ _ hw _ _ hl
    · intro i i' x x' l l' hw hw' hadd
      rcases insert_some hw with ⟨e, h2⟩ | ⟨_, k⟩ <;> rcases insert_some hw' with ⟨e', h2'⟩ | ⟨_, k'⟩
      · rw [e, e']
      · cases h2; exact absurd hadd.symm (ha.writes _ _ _ k')
      · cases h2'; exact absurd hadd (ha.writes _ _ _ k)
      · exact h.wuniq _ _ _ _ _ _ k k' hadd
    · intro i l hl
      by_cases he : i = id
      · subst he
        change d.writeN.insert i loc i = some l at hl
        simp at hl; subst hl
        exact ⟨ref, by show r.writes.insert i (ref, loc) i = _; simp⟩
      · change d.writeN.insert id loc i = some l at hl
        rw [PMap.insert_other _ _ he] at hl
        obtain ⟨x, hx⟩ := h.wrec _ _ hl
        exact ⟨x, by show r.writes.insert id (ref, loc) i = _; rw [PMap.insert_other _ _ he, hx]⟩
    · intro i x hi
      obtain ⟨h1, h2⟩ := h.reads _ _ hi
      refine ⟨h1, ?_⟩
      show (assign r.eph ref loc).locs x ≠ none
      unfold assign; split
      · by_cases he : x = ref
        · subst he; simp
        · simpa [PMap.insert, he] using h2
      · exact h2
    · intro i l hl
      obtain ⟨x, hx, hlx⟩ := h.rrec _ _ hl
      refine ⟨x, hx, ?_⟩
      show (assign r.eph ref loc).locs x = some l
      unfold assign; split
      · next hcond =>
        have he : x ≠ ref := by rintro rfl; rw [hcond.2] at hlx; cases hlx
        simpa [PMap.insert, he] using hlx
      · exact hlx
  refine ⟨hinv, ?_⟩
  have hv' : view A ⟨.ready r', d'⟩ = { view A ⟨.ready r, d⟩ with disk := diskMap A d' } := by
    unfold view
    congr 1
    · show (r.frozen.map _).map _ = r.frozen.map _
      cases hf : r.frozen with
      | none => rfl
      | some t => exact congrArg some (hfz t hf).2
    · exact congrArg some heg
  rw [hv']
  refine .diskChange ⟨?_, ?_, ?_⟩
  · intro hp; cases hp
  · intro l hl
    cases hl
    refine ⟨_, diskMap_some.mpr h.pimage, diskMap_some.mpr ?_⟩
    exact h.pimage.keep fun t ht => ⟨ht, by
      have : some r.persistent = some t := h.ptable.symm.trans ht
      cases this; exact hpk⟩
  · intro l hl
    change (match r.tableWrite with | none => r.frozenLoc | some _ => none) = some l at hl
    rw [htw] at hl
    obtain ⟨t, ht, hcm, htab, hvl, ho⟩ := h.frzLoc l hl
    have him := h.fimage hl ht
    refine ⟨_, diskMap_some.mpr him, diskMap_some.mpr ?_⟩
    exact him.keep fun t' ht' => ⟨ht', by
      have : some t = some t' := htab.symm.trans ht'
      cases this
      exact (h.frz t ht).kept hu hv (ha.frozen t ht)⟩

/-- A write of a table. -/
theorem writeBackTableReq_inv {r : Ready Node} {d : BlockDisk.State Node} {id : ReqId} {loc : Loc}
    {t : Table} {ts : PMap Loc Table} (h : InvReady A r d)
    (hf : r.frozen = some t) (hv : ValidTableLoc loc)
    (hcm : ∀ x, t.graph x ≠ none → t.locs x ≠ none) (hw : r.writes = .empty)
    (hfl : r.frozenLoc = none) (ho : ¬ overlap loc r.persistentLoc) (hid : d.writeT id = none)
    (hu : BlockDisk.MapUpdate d.tables ts loc t) :
    let r' : Ready Node := { r with tableWrite := some id, frozenLoc := some loc }
    let d' : BlockDisk.State Node := { d with writeT := d.writeT.insert id loc, tables := ts }
    InvReady A r' d' ∧ StatesView.Next still (view A ⟨.ready r, d⟩) .statesInternal
      (view A ⟨.ready r', d'⟩) := by
  intro r' d'
  have hp : ts r.persistentLoc = some r.persistent :=
    hu.2 _ _ h.ptable (fun hc => ho (overlap_symm hc))
  refine ⟨⟨h.pers, h.pcomplete, hp, h.ploc, h.eph, h.clean, h.frz, ?_, ?_, h.wvalid, h.weph, ?_,
    h.wpers, h.wuniq, h.wrec, h.reads, h.runiq, h.rrec, ?_, h.readT⟩, ?_⟩
  · intro l hl
    cases hl
    exact ⟨t, hf, hcm, hu.1, hv, ho⟩
  · intro i hi; show some loc ≠ none; simp
  · intro i x l hwi
    change r.writes i = _ at hwi
    rw [hw] at hwi; cases hwi
  · intro i l hl
    rcases insert_some hl with ⟨rfl, rfl⟩ | ⟨_, hl⟩
    · exact ⟨rfl, rfl⟩
    · have := (h.twrec _ _ hl).2
      rw [hfl] at this; cases this
  · have hv' : view A ⟨.ready r', d'⟩ = { view A ⟨.ready r, d⟩ with disk := diskMap A d' } := by
      unfold view
      congr 1
      show (none : Option Loc) = (match r.tableWrite with | none => r.frozenLoc | some _ => none)
      cases r.tableWrite <;> simp [hfl]
    rw [hv']
    refine .diskChange ⟨?_, ?_, ?_⟩
    · intro hp; cases hp
    · intro l hl
      cases hl
      refine ⟨_, diskMap_some.mpr h.pimage, diskMap_some.mpr ?_⟩
      exact h.pimage.keep fun t ht => ⟨by
        have : some r.persistent = some t := h.ptable.symm.trans ht
        cases this; exact hp, fun _ _ _ => rfl⟩
    · intro l hl
      change (match r.tableWrite with | none => r.frozenLoc | some _ => none) = some l at hl
      cases htw : r.tableWrite <;> rw [htw] at hl <;> simp [hfl] at hl

theorem InvReady.noTableWrite {r : Ready Node} {d : BlockDisk.State Node} (h : InvReady A r d)
    (ht : r.tableWrite = none) (id : ReqId) : d.writeT id = none := by
  cases hl : d.writeT id with
  | none => rfl
  | some l => have := (h.twrec _ _ hl).1; rw [ht] at this; cases this

/-- A crash. -/
theorem crash_inv {s : State Node} {d' : BlockDisk.State Node} (h : Inv A s)
    (hc : BlockDisk.Crash s.d d') :
    Inv A ⟨.unready, d'⟩ ∧ StatesView.Next still (view A s) .crash (view A ⟨.unready, d'⟩) := by
  refine ⟨⟨hc.readT, hc.readN, hc.writeN, hc.writeT⟩, ?_⟩
  show StatesView.Next still (view A s) .crash ⟨diskMap A d', none, none, none, none⟩
  obtain ⟨m, d⟩ := s
  have hall : d.writeN = .empty → d.writeT = .empty → ∀ l g, diskMap A d l = some g →
      diskMap A d' l = some g := by
    intro h1 h2 l g hl
    refine diskMap_some.mpr ((diskMap_some.mp hl).havoc ?_ ?_)
    · intro t ht
      exact hc.tables _ _ ht (fun i l' hi => by change d.writeT i = _ at hi; rw [h2] at hi; cases hi)
    · intro l n hn _
      exact hc.nodes _ _ hn (fun i l' hi => by change d.writeN i = _ at hi; rw [h1] at hi; cases hi)
  cases m with
  | unready =>
    obtain ⟨_, _, h1, h2⟩ := h
    exact .crash (s := view A ⟨.unready, d⟩)
      ⟨fun _ => hall h1 h2, fun _ hl => (by cases hl), fun _ hl => (by cases hl)⟩
  | loading loc rd =>
    obtain ⟨⟨g, hg⟩, _, _, h1, h2⟩ := h
    refine .crash (s := view A ⟨.loading loc rd, d⟩)
      ⟨fun hl => (by cases hl), fun l hl => ?_, fun _ hl => (by cases hl)⟩
    cases hl
    exact ⟨g, diskMap_some.mpr hg, hall h1 h2 _ _ (diskMap_some.mpr hg)⟩
  | ready r =>
    change InvReady A r d at h
    refine .crash (s := view A ⟨.ready r, d⟩) ⟨fun hl => (by cases hl), fun l hl => ?_, fun l hl => ?_⟩
    · cases hl
      refine ⟨_, diskMap_some.mpr h.pimage, diskMap_some.mpr (h.pimage.havoc ?_ ?_)⟩
      · intro t ht
        refine hc.tables _ _ ht fun i l' hi ho => ?_
        obtain ⟨_, hfl⟩ := h.twrec _ _ hi
        obtain ⟨_, _, _, _, _, hno⟩ := h.frzLoc _ hfl
        exact hno (overlap_symm ho)
      · rintro l n hn ⟨t, x, ht, hl⟩
        have : some r.persistent = some t := h.ptable.symm.trans ht
        cases this
        refine hc.nodes _ _ hn fun i l' hi ho => ?_
        obtain ⟨y, hy⟩ := h.wrec _ _ hi
        exact h.wpers _ _ _ hy _ _ hl
          (node_overlap_addr (h.pers.wf.valid _ _ hl) (h.wvalid _ _ _ hy) ho)
    · change (match r.tableWrite with | none => r.frozenLoc | some _ => none) = some l at hl
      cases htw : r.tableWrite with
      | some i => rw [htw] at hl; cases hl
      | none =>
        rw [htw] at hl
        change r.frozenLoc = some l at hl
        obtain ⟨t, ht, hcm, htab, hvl, _⟩ := h.frzLoc l hl
        have him := h.fimage hl ht
        refine ⟨_, diskMap_some.mpr him, diskMap_some.mpr (him.havoc ?_ ?_)⟩
        · intro t ht
          refine hc.tables _ _ ht fun i l' hi ho => ?_
          have := h.noTableWrite htw i
          change d.writeT i = _ at hi
          rw [this] at hi; cases hi
        · rintro l' n hn ⟨t', x, ht', hl'⟩
          have : some t = some t' := htab.symm.trans ht'
          cases this
          refine hc.nodes _ _ hn fun i l'' hi ho => ?_
          obtain ⟨y, hy⟩ := h.wrec _ _ hi
          exact h.wfrz _ _ _ hy (by rw [hl]; simp) _ ht _ _ hl'
            (node_overlap_addr ((h.frz t ht).wf.valid _ _ hl') (h.wvalid _ _ _ hy) ho)

/-- An answer of the disk that the cache drops, or no disk operation. -/
theorem noop_inv {s : State Node} {dop : BlockDisk.Op Node} {d' : BlockDisk.State Node} (h : Inv A s)
    (hd : BlockDisk.Next s.d dop d')
    (hk : dop = .none ∨ (∃ id t, dop = .respReadTable id t) ∨
        (∃ id n, dop = .respReadNode id n ∧ ∀ x, n = some x → A.wf x) ∨
        (∃ id, dop = .respWriteTable id ∧ ∀ r, s.m = .ready r → r.tableWrite ≠ some id) ∨
        (∃ id, dop = .respWriteNode id ∧ ∀ r, s.m = .ready r → r.writes id = none)) :
    Inv A ⟨s.m, d'⟩ ∧ view A ⟨s.m, d'⟩ = view A s := by
  obtain ⟨m, d⟩ := s
  have key : d'.tables = d.tables ∧ d'.nodes = d.nodes ∧
      (∀ id l, d'.writeN id = some l → d.writeN id = some l) ∧
      (∀ id l, d'.readN id = some l → d.readN id = some l) ∧
      (∀ id l, d'.writeT id = some l → d.writeT id = some l) ∧
      (∀ id l, d'.readT id = some l → d.readT id = some l) := by
    rcases hk with rfl | ⟨_, _, rfl⟩ | ⟨_, _, rfl, _⟩ | ⟨_, rfl, _⟩ | ⟨_, rfl, _⟩ <;> cases hd
    · simp
    · exact ⟨rfl, rfl, fun _ _ h => h, fun _ _ h => h, fun _ _ h => h, fun _ _ h => (remove_some h).1⟩
    · exact ⟨rfl, rfl, fun _ _ h => h, fun _ _ h => (remove_some h).1, fun _ _ h => h, fun _ _ h => h⟩
    · exact ⟨rfl, rfl, fun _ _ h => h, fun _ _ h => h, fun _ _ h => (remove_some h).1, fun _ _ h => h⟩
    · exact ⟨rfl, rfl, fun _ _ h => (remove_some h).1, fun _ _ h => h, fun _ _ h => h, fun _ _ h => h⟩
  obtain ⟨k1, k2, k3, k4, k5, k6⟩ := key
  have hnone : ∀ {m m' : PMap ReqId Loc}, (∀ id l, m' id = some l → m id = some l) → m = .empty →
      m' = .empty := by
    intro m m' h1 h2
    funext i
    cases hl : m' i with
    | none => rfl
    | some l => have := h1 _ _ hl; rw [h2] at this; cases this
  have hdm : diskMap A d' = diskMap A d := image_congr k1 k2
  constructor
  · cases m with
    | unready =>
      obtain ⟨h1, h2, h3, h4⟩ := h
      exact ⟨hnone k6 h1, hnone k4 h2, hnone k3 h3, hnone k5 h4⟩
    | loading l rd =>
      obtain ⟨⟨g, hg⟩, h1, h2, h3, h4⟩ := h
      refine ⟨⟨g, ?_⟩, fun i l' hi => h1 _ _ (k6 _ _ hi), hnone k4 h2, hnone k3 h3, hnone k5 h4⟩
      have := diskMap_some.mpr hg
      exact diskMap_some.mp (by rw [hdm]; exact this)
    | ready r =>
      refine InvReady.answered h k1 k2 k3 k4 k5 fun i => ?_
      cases hl : d'.readT i with
      | none => rfl
      | some l => have := h.readT i; rw [k6 _ _ hl] at this; cases this
  · unfold view
    congr 1
    · unfold frozenGraph; cases m <;> simp only [k2]
    · unfold ephGraph; cases m <;> simp only [k2, hdm]

/-- **Every step keeps the invariant and moves the graphs as StatesView says.** -/
theorem Next.sound {s s' : State Node} {l : Label Node} (h : Inv A s) (hn : Next A s l s') :
    Inv A s' ∧ GraphNext A (view A s) l (view A s') := by
  cases hn with
  | crash hc =>
    obtain ⟨h1, h2⟩ := crash_inv h hc
    exact ⟨h1, .other h2⟩
  | machine hm hd hl =>
    obtain ⟨m, d⟩ := s
    cases hm with
    | writeBackNodeReq hc hv htw ha =>
      cases hd with
      | recvWriteNode hid hu =>
        obtain ⟨h1, h2⟩ := writeBackNodeReq_inv h hc hv htw ha hid hu
        exact ⟨h1, .other h2⟩
    | @writeBackNodeResp r id hw =>
      cases hd with
      | ackWriteNode hid =>
        change InvReady A r d at h
        refine ⟨?_, .other ?_⟩
        · refine ⟨h.pers, h.pcomplete, h.ptable, h.ploc, h.eph, h.clean, h.frz, h.frzLoc, h.tw,
            fun i x l hi => h.wvalid _ _ _ (remove_some hi).1,
            fun i x l hi => h.weph _ _ _ (remove_some hi).1,
            fun i x l hi => h.wfrz _ _ _ (remove_some hi).1,
            fun i x l hi => h.wpers _ _ _ (remove_some hi).1,
            fun i i' x x' l l' hi hi' => h.wuniq _ _ _ _ _ _ (remove_some hi).1 (remove_some hi').1,
            ?_, h.reads, h.runiq, h.rrec, h.twrec, h.readT⟩
          intro i l hi
          obtain ⟨hi, hne⟩ := remove_some hi
          obtain ⟨x, hx⟩ := h.wrec _ _ hi
          exact ⟨x, by show r.writes.remove id i = _; rw [PMap.remove_other _ hne, hx]⟩
        · exact .stutterS
    | writeBackTableReq hf hv hcm hw hfl ho =>
      cases hd with
      | recvWriteTable hid hu =>
        obtain ⟨h1, h2⟩ := writeBackTableReq_inv h hf hv hcm hw hfl ho hid hu
        exact ⟨h1, .other h2⟩
    | @writeBackTableResp r id loc hfl htw =>
      cases hd with
      | ackWriteTable hid =>
        change InvReady A r d at h
        refine ⟨⟨h.pers, h.pcomplete, h.ptable, h.ploc, h.eph, h.clean, h.frz, h.frzLoc,
          fun i hi => (by cases hi), h.wvalid, h.weph, h.wfrz, h.wpers, h.wuniq, h.wrec, h.reads,
          h.runiq, h.rrec, ?_, h.readT⟩, .other ?_⟩
        · intro i l hi
          obtain ⟨hi, hne⟩ := remove_some hi
          have := (h.twrec _ _ hi).1
          rw [htw] at this; cases this
          exact absurd rfl hne
        · obtain ⟨t, ht, _⟩ := h.frzLoc loc hfl
          have := StatesView.Next.provideFrozen (M := still) (s := view A ⟨.ready r, d⟩) (l := loc)
            (g := dcGraph t d.nodes r.cache)
            (by show (match r.tableWrite with | none => r.frozenLoc | some _ => none) = none
                rw [htw])
            (by show r.frozen.map _ = _; rw [ht]; rfl) (diskMap_some.mpr (h.fimage hfl ht))
          have e : view A ⟨.ready { r with tableWrite := none }, { d with writeT := d.writeT.remove id }⟩
              = { view A ⟨.ready r, d⟩ with frozenLoc := some loc } := by
            unfold view
            congr 1
          rw [e]; exact this
    | @unalloc r b ref hg hroot hnp hfs hrd =>
      cases hd with
      | stutter =>
        change InvReady A r d at h
        have hlocs : ∀ {x l}, (r.eph.locs.remove ref) x = some l → x ≠ ref ∧ r.eph.locs x = some l := by
          intro x l hx; exact ⟨(remove_some hx).2, (remove_some hx).1⟩
        have hgraph : dcGraph ⟨r.eph.locs.remove ref, r.eph.graph.remove ref⟩ d.nodes
            (r.cache.remove ref) = (dcGraph r.eph d.nodes r.cache).remove ref := by
          funext x
          by_cases hx : x = ref
          · subst hx; rw [dc_none (by simp)]; simp
          · unfold dcGraph; simp [PMap.remove, hx]
        have hfr : ∀ t, r.frozen = some t → dcGraph t d.nodes (r.cache.remove ref)
            = dcGraph t d.nodes r.cache := fun t ht =>
          frozen_cache hfs (fun x hx => by simp [PMap.remove, hx]) ht
        refine ⟨⟨h.pers, h.pcomplete, h.ptable, h.ploc, ⟨⟨?_, ?_, ?_, ?_⟩, ?_, ?_⟩, ?_, ?_, h.frzLoc,
          h.tw, h.wvalid, ?_, h.wfrz, h.wpers, h.wuniq, h.wrec, ?_, h.runiq, ?_, h.twrec, h.readT⟩, ?_⟩
        · intro x l hx; exact h.eph.wf.valid _ _ (hlocs hx).2
        · intro x l hx
          have := h.eph.wf.sub _ _ (hlocs hx).2
          simpa [PMap.remove, (hlocs hx).1] using this
        · show (r.eph.graph.remove ref) rootRef ≠ none
          rw [PMap.remove_other _ (Ne.symm hroot)]; exact h.eph.wf.root
        · intro x ss hx y hy
          obtain ⟨k, hne⟩ := remove_some hx
          have hy' := h.eph.wf.closed _ _ k y hy
          have : y ≠ ref := fun e => hnp _ _ k (e ▸ hy)
          show (r.eph.graph.remove ref) y ≠ none
          rw [PMap.remove_other _ this]; exact hy'
        · intro x x' l l' hl hl'
          exact h.eph.dist _ _ _ _ (hlocs hl).2 (hlocs hl').2
        · show SuccAgree A (r.eph.graph.remove ref) _
          rw [hgraph]
          constructor
          · intro x
            by_cases hx : x = ref
            · subst hx; simp
            · simpa [PMap.remove, hx] using h.eph.agree.dom x
          · intro x ss n h1 h2
            exact h.eph.agree.same _ _ _ (remove_some h1).1 (remove_some h2).1
        · intro x n l hx hl
          exact h.clean _ _ _ (remove_some hx).1 (hlocs hl).2
        · intro t ht; exact (h.frz t ht).congr (hfr t ht)
        · intro i x l hw y l' hl hadd
          obtain ⟨hne, hl⟩ := hlocs hl
          obtain ⟨h1, h2, h3⟩ := h.weph _ _ _ hw _ _ hl hadd
          refine ⟨h1, h2, ?_⟩
          subst h1
          simpa [PMap.remove, hne] using h3
        · intro i x hi
          have hne := hrd _ _ hi
          have := h.reads _ _ hi
          simpa [PMap.remove, hne] using this
        · intro i l hi
          obtain ⟨x, hx, hl⟩ := h.rrec _ _ hi
          exact ⟨x, hx, by
            show (r.eph.locs.remove ref) x = some l
            rw [PMap.remove_other _ (hrd _ _ hx)]; exact hl⟩
        · have := GraphNext.free (A := A) (v := view A ⟨.ready r, d⟩) (b := b) (ref := ref)
            (g := dcGraph r.eph d.nodes r.cache) rfl (mt (h.graphDom ref).mpr hg) hroot (by
              intro x n hx hs
              have hgx : r.eph.graph x ≠ none := fun hc => by
                have := (h.graphDom x).mp hc; rw [this] at hx; cases hx
              obtain ⟨ss, hss⟩ := Option.ne_none_iff_exists'.mp hgx
              exact hnp _ _ hss ((h.eph.agree.same _ _ _ hss hx ref).mpr hs))
          have e : view A ⟨.ready { r with
              eph := ⟨r.eph.locs.remove ref, r.eph.graph.remove ref⟩
              cache := r.cache.remove ref }, d⟩ = { view A ⟨.ready r, d⟩ with
                ephemeral := some ((dcGraph r.eph d.nodes r.cache).remove ref) } := by
            unfold view
            congr 1
            · show r.frozen.map _ = r.frozen.map _
              cases hf : r.frozen with
              | none => rfl
              | some t => exact congrArg some (hfr t hf)
            · exact congrArg some hgraph
          rw [e]; exact this
    | @pageInNodeReq r id loc ref hg hlr hc hnr =>
      cases hd with
      | recvReadNode hid =>
        change InvReady A r d at h
        refine ⟨⟨h.pers, h.pcomplete, h.ptable, h.ploc, h.eph, h.clean, h.frz, h.frzLoc, h.tw, h.wvalid,
          h.weph, h.wfrz, h.wpers, h.wuniq, h.wrec, ?_, ?_, ?_, h.twrec, h.readT⟩, .other .stutterS⟩
        · intro i x hi
          rcases insert_some hi with ⟨_, rfl⟩ | ⟨_, hi⟩
          · exact ⟨hc, by show r.eph.locs x ≠ none; rw [hlr]; simp⟩
          · exact h.reads _ _ hi
        · intro i i' x hi hi'
          rcases insert_some hi with ⟨e, e2⟩ | ⟨_, hi⟩ <;> rcases insert_some hi' with ⟨e', e2'⟩ | ⟨_, hi'⟩
          · rw [e, e']
          · exact absurd e2 (hnr _ _ hi')
          · exact absurd e2' (hnr _ _ hi)
          · exact h.runiq _ _ _ hi hi'
        · intro i l hi
          by_cases he : i = id
          · subst he
            change d.readN.insert i loc i = some l at hi
            simp at hi; subst hi
            exact ⟨ref, by show r.reads.insert i ref i = _; simp, hlr⟩
          · change d.readN.insert id loc i = some l at hi
            rw [PMap.insert_other _ _ he] at hi
            obtain ⟨x, hx, hlx⟩ := h.rrec _ _ hi
            exact ⟨x, by show r.reads.insert id ref i = _; rw [PMap.insert_other _ _ he, hx], hlx⟩
    | @pageInNodeResp r id ref n ss hid hc hg hss hwf =>
      cases hd with
      | @ackReadNode _ loc _ hrd hread =>
        change InvReady A r d at h
        obtain ⟨x, hx, hlx⟩ := h.rrec _ _ hrd
        rw [hid] at hx; cases hx
        have hnode : d.nodes loc = some n := hread n rfl
        have hfr : ∀ (t : Table), (t.graph ref ≠ none → t.locs ref ≠ none) →
            dcGraph t d.nodes (r.cache.insert ref n) = dcGraph t d.nodes r.cache := by
          intro t ht
          apply dc_cache_congr
          intro y hgy hly
          have : y ≠ ref := by rintro rfl; exact ht hgy hly
          simp [PMap.insert, this]
        have hfz : ∀ t, r.frozen = some t → t.graph ref ≠ none → t.locs ref ≠ none := by
          intro t ht hg hl
          have := mt ((h.frz t ht).agree.dom ref).mpr hg
          rw [dc_cache hg hl] at this
          exact this hc
        have heph := hfr r.eph (fun _ => by rw [hlx]; simp)
        refine ⟨⟨h.pers, h.pcomplete, h.ptable, h.ploc, h.eph.congr heph, ?_, ?_, h.frzLoc, h.tw,
          h.wvalid, ?_, h.wfrz, h.wpers, h.wuniq, h.wrec, ?_, ?_, ?_, h.twrec, h.readT⟩, .other ?_⟩
        · intro y m l hy hl
          rcases insert_some hy with ⟨rfl, rfl⟩ | ⟨_, hy⟩
          · change r.eph.locs y = some l at hl
            rw [hlx] at hl; cases hl; exact hnode
          · exact h.clean _ _ _ hy hl
        · intro t ht; exact (h.frz t ht).congr (hfr t (hfz t ht))
        · intro i y l hw z l' hl hadd
          obtain ⟨h1, h2, h3⟩ := h.weph _ _ _ hw _ _ hl hadd
          refine ⟨h1, h2, ?_⟩
          show r.cache.insert ref n y ≠ none
          by_cases he : y = ref
          · subst he; simp
          · rw [PMap.insert_other _ _ he]; exact h3
        · intro i y hi
          obtain ⟨k, hne⟩ := remove_some hi
          obtain ⟨h1, h2⟩ := h.reads _ _ k
          have : y ≠ ref := fun e => hne (h.runiq _ _ _ k (e ▸ hid))
          exact ⟨by show r.cache.insert ref n y = none; rw [PMap.insert_other _ _ this]; exact h1, h2⟩
        · intro i i' y hi hi'
          exact h.runiq _ _ _ (remove_some hi).1 (remove_some hi').1
        · intro i l hi
          obtain ⟨hi, hne⟩ := remove_some hi
          obtain ⟨y, hy, hly⟩ := h.rrec _ _ hi
          exact ⟨y, by show r.reads.remove id i = _; rw [PMap.remove_other _ hne, hy], hly⟩
        · have e : view A ⟨.ready { r with cache := r.cache.insert ref n, reads := r.reads.remove id },
              { d with readN := d.readN.remove id }⟩ = view A ⟨.ready r, d⟩ := by
            unfold view
            congr 1
            · show r.frozen.map _ = r.frozen.map _
              cases hf : r.frozen with
              | none => rfl
              | some t => exact congrArg some (hfr t (hfz t hf))
            · exact congrArg some heph
          rw [e]; exact .stutterS
    | @pageInTableReq id loc =>
      cases hd with
      | recvReadTable hid =>
        obtain ⟨hg, h1, h2, h3, h4⟩ := h
        refine ⟨⟨hg, ?_, h2, h3, h4⟩, .other .stutterS⟩
        intro i l hi
        rcases insert_some hi with ⟨rfl, rfl⟩ | ⟨_, hi⟩
        · exact ⟨rfl, rfl⟩
        · have := (h1 _ _ hi).2; cases this
    | @pageInTableResp id loc t hwf hdist =>
      cases hd with
      | @ackReadTable _ loc' _ hrd hread =>
        obtain ⟨⟨g, hg⟩, h1, h2, h3, h4⟩ := h
        obtain ⟨rfl, _⟩ := h1 _ _ hrd
        obtain ⟨t', ht', hok, hcm, hgg⟩ := hg.toTable
        have : some t' = some t := ht'.symm.trans (hread t rfl)
        cases this
        change d.readN = _ at h2
        change d.writeN = _ at h3
        change d.writeT = _ at h4
        refine ⟨⟨hok, hcm, ht', hg.1, hok, ?_, ?_, ?_, ?_, ?_, ?_, ?_, ?_, ?_, ?_, ?_, ?_, ?_, ?_, ?_⟩,
          .other ?_⟩
        · intro x n l hx; cases hx
        · intro t ht; cases ht
        · intro l hl; cases hl
        · intro i hi; cases hi
        · intro i x l hi; cases hi
        · intro i x l hi; cases hi
        · intro i x l hi; cases hi
        · intro i x l hi; cases hi
        · intro i i' x x' l l' hi; cases hi
        · intro i l hi; change d.writeN i = _ at hi; rw [h3] at hi; cases hi
        · intro i x hi; cases hi
        · intro i i' x hi; cases hi
        · intro i l hi; change d.readN i = _ at hi; rw [h2] at hi; cases hi
        · intro i l hi; change d.writeT i = _ at hi; rw [h4] at hi; cases hi
        · intro i
          show d.readT.remove id i = none
          cases hi : d.readT.remove id i with
          | none => rfl
          | some l =>
            obtain ⟨hi, hne⟩ := remove_some hi
            have := (h1 _ _ hi).2
            cases this
            exact absurd rfl hne
        · have e : view A ⟨.ready ⟨t, none, t, loc', none, none, .empty, .empty, .empty⟩,
              { d with readT := d.readT.remove id }⟩ = view A ⟨.loading loc' (some id), d⟩ := by
            unfold view
            congr 1
            show some (dcGraph t d.nodes .empty) = diskMap A d loc'
            rw [diskMap_some.mpr hg, hgg]
          rw [e]; exact .stutterS
    | @receiveLoc loc hv =>
      cases hd with
      | stutter =>
        obtain ⟨h1, h2, h3, h4⟩ := h
        obtain ⟨g, hg⟩ := diskMap_ne (hl loc rfl)
        refine ⟨⟨⟨g, hg⟩, ?_, h2, h3, h4⟩, .other ?_⟩
        · intro i l hi; change d.readT i = _ at hi; rw [h1] at hi; cases hi
        · have e : view A ⟨.loading loc none, d⟩ = { view A ⟨.unready, d⟩ with
              persistentLoc := some loc, ephemeral := some g } := by
            unfold view
            congr 1
            exact diskMap_some.mpr hg
          rw [e]
          exact .obtain_ rfl (diskMap_some.mpr hg)
    | @evict r ref hc he hfs =>
      cases hd with
      | stutter =>
        change InvReady A r d at h
        have hfr : ∀ (t : Table), (t.graph ref ≠ none → t.locs ref ≠ none) →
            dcGraph t d.nodes (r.cache.remove ref) = dcGraph t d.nodes r.cache := by
          intro t ht
          apply dc_cache_congr
          intro y hgy hly
          have : y ≠ ref := by rintro rfl; exact ht hgy hly
          simp [PMap.remove, this]
        have heph := hfr r.eph (fun hg => by obtain ⟨l, hl, _⟩ := he hg; rw [hl]; simp)
        refine ⟨⟨h.pers, h.pcomplete, h.ptable, h.ploc, h.eph.congr heph, ?_, ?_, h.frzLoc, h.tw,
          h.wvalid, ?_, h.wfrz, h.wpers, h.wuniq, h.wrec, ?_, h.runiq, h.rrec, h.twrec, h.readT⟩,
          .other ?_⟩
        · intro y m l hy hl; exact h.clean _ _ _ (remove_some hy).1 hl
        · intro t ht; exact (h.frz t ht).congr (hfr t (hfs t ht))
        · intro i y l hw z l' hl hadd
          obtain ⟨h1, h2, h3⟩ := h.weph _ _ _ hw _ _ hl hadd
          refine ⟨h1, h2, ?_⟩
          show r.cache.remove ref y ≠ none
          have : y ≠ ref := by
            rintro rfl
            subst h1; subst h2
            obtain ⟨l2, hl2, hno⟩ := he (h.eph.wf.sub _ _ hl)
            change r.eph.locs z = some l' at hl
            rw [hl] at hl2; cases hl2
            exact hno _ hw
          rw [PMap.remove_other _ this]; exact h3
        · intro i y hi
          obtain ⟨h1, h2⟩ := h.reads _ _ hi
          refine ⟨?_, h2⟩
          show r.cache.remove ref y = none
          unfold PMap.remove; split
          · rfl
          · exact h1
        · have e : view A ⟨.ready { r with cache := r.cache.remove ref }, d⟩ = view A ⟨.ready r, d⟩ := by
            unfold view
            congr 1
            · show r.frozen.map _ = r.frozen.map _
              cases hf : r.frozen with
              | none => rfl
              | some t => exact congrArg some (hfr t (hfs t hf))
            · exact congrArg some heph
          rw [e]; exact .stutterS
    | @freeze r htw =>
      cases hd with
      | stutter =>
        change InvReady A r d at h
        refine ⟨⟨h.pers, h.pcomplete, h.ptable, h.ploc, h.eph, h.clean, ?_, ?_, ?_, h.wvalid, h.weph,
          ?_, h.wpers, h.wuniq, h.wrec, h.reads, h.runiq, h.rrec, ?_, h.readT⟩, .other ?_⟩
        · intro t ht; cases ht; exact h.eph
        · intro l hl; cases hl
        · intro i hi; change r.tableWrite = _ at hi; rw [htw] at hi; cases hi
        · intro i x l _ hl; exact absurd rfl hl
        · intro i l hi; have := h.noTableWrite htw i; change d.writeT i = _ at hi; rw [this] at hi; cases hi
        · have e : view A ⟨.ready { r with frozen := some r.eph, frozenLoc := none }, d⟩ =
              { view A ⟨.ready r, d⟩ with
                frozenLoc := none, frozen := (view A ⟨.ready r, d⟩).ephemeral } := by
            unfold view
            congr 1
            show (match r.tableWrite with | none => none | some _ => none) = none
            cases r.tableWrite <;> rfl
          rw [e]; exact .freeze
    | @cleanUp r l t htw hfl hf =>
      cases hd with
      | stutter =>
        change InvReady A r d at h
        obtain ⟨t', ht', hcm, htab, hvl, ho⟩ := h.frzLoc l hfl
        rw [hf] at ht'; cases ht'
        refine ⟨⟨(h.frz t hf).congr (dc_complete hcm), hcm, htab, hvl, h.eph, h.clean, ?_, ?_, ?_,
          h.wvalid, h.weph, ?_, ?_, h.wuniq, h.wrec, h.reads, h.runiq, h.rrec, ?_, h.readT⟩, .other ?_ ?_⟩
        · intro t ht; cases ht
        · intro l hl; cases hl
        · intro i hi; change r.tableWrite = _ at hi; rw [htw] at hi; cases hi
        · intro i x l _ hl; exact absurd rfl hl
        · intro i x l' hw y l'' hl
          exact h.wfrz _ _ _ hw (by rw [hfl]; simp) _ hf _ _ hl
        · intro i l hi; have := h.noTableWrite htw i; change d.writeT i = _ at hi; rw [this] at hi; cases hi
        · have e : view A ⟨.ready { r with
              persistent := t, persistentLoc := l, frozen := none, frozenLoc := none }, d⟩ =
              { view A ⟨.ready r, d⟩ with
                persistentLoc := (view A ⟨.ready r, d⟩).frozenLoc, frozenLoc := none,
                frozen := none } := by
            unfold view
            congr 1
            · show some l = (match r.tableWrite with | none => r.frozenLoc | some _ => none)
              rw [htw, hfl]
            · show (match r.tableWrite with | none => none | some _ => none) = none
              cases r.tableWrite <;> rfl
          rw [e]; exact .forgetOld
        · intro _
          show (match r.tableWrite with | none => r.frozenLoc | some _ => none) ≠ none
          rw [htw, hfl]; simp
    | noop hvop hdop =>
      obtain ⟨h1, h2⟩ := noop_inv h hd hdop
      refine ⟨h1, ?_⟩
      rw [h2]
      rcases hvop with rfl | rfl | ⟨i, rfl⟩ | ⟨i, rfl⟩
      · exact .other .stutterS
      · exact .other .stutterJ
      · exact .other .stutterPush
      · exact .other .stutterPop
    | @transaction r r' u b reads ops hval hreads hops =>
      cases hd with
      | stutter =>
        change InvReady A r d at h
        obtain ⟨h1, hfr, hgs, hz⟩ := Ops.preserves h hops
        refine ⟨h1, ?_⟩
        have := GraphNext.txn (A := A) (v := view A ⟨.ready r, d⟩) (b := b) (reads := reads)
          (g := dcGraph r.eph d.nodes r.cache) rfl hval (by
            intro x n hx
            obtain ⟨hg, hc⟩ := hreads x n hx
            cases hl : r.eph.locs x with
            | none => rw [dc_cache hg hl, hc]
            | some l => rw [dc_loc hg hl, h.clean _ _ _ hc hl]) hgs
        have e : view A ⟨.ready r', d⟩ = { view A ⟨.ready r, d⟩ with
            ephemeral := some (dcGraph r'.eph d.nodes r'.cache) } := by
          unfold view
          congr 1
          · show some r'.persistentLoc = some r.persistentLoc
            rw [hfr.persistentLoc]
          · show (match r'.tableWrite with | none => r'.frozenLoc | some _ => none) = _
            rw [hfr.tableWrite, hfr.frozenLoc]; rfl
          · show r'.frozen.map _ = r.frozen.map _
            rw [hfr.frozen]
            cases hf : r.frozen with
            | none => rfl
            | some t => exact congrArg some (hz t hf)
        rw [e]; exact this

theorem Init.inv {ok : Node → Prop} {loc : Loc} {s : State Node} (h : Init A ok loc s) : Inv A s := by
  obtain ⟨hm, ⟨h1, h2, h3, h4⟩, _⟩ := h
  unfold Inv; rw [hm]; exact ⟨h1, h2, h4, h3⟩

theorem reachable_inv {ok : Node → Prop} {loc : Loc} {s : State Node}
    (h : (machine A ok loc).Reachable s) : Inv A s :=
  Machine.reachable_invariant (I := Inv A) (fun _ h => Init.inv h)
    (fun _ _ _ h hn => (Next.sound h hn).1) h

end Verif.Kv.BlockSystem
