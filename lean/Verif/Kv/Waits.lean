import Verif.Kv.Driven
import Verif.Kv.FullImplProof
/-
What `Sync` waits for: `wait` of `popSync` (Impl/CoordinationImpl.i.dfy:223-320, 346-372), and the writes it
stands for.
-/
namespace Verif.Kv

/-- `wait` of `sync`, SyncImpl.i.dfy:449-520 -/
def BlockImpl.Ready.syncWaits (s : BlockImpl.Ready Node) : Bool :=
  if s.frozenLoc ≠ none then true
  else match s.frozen with
    | none => false
    | some t => match t.findNoLoc.1 with
      | some _ => false
      | none => if s.writes ≠ [] then true else false

/-- `wait` of `tryAdvanceLog`, CommitterImpl.i.dfy:840-873, and of `tryAdvanceLocation`, :875-909 -/
def Committer.State.advanceWaits (s : Committer.State) : Bool :=
  if s.sbWrite = none then
    if s.journalist.hasFrozen ∨ s.journalist.hasMem then false
    else if s.writes = [] then false
    else true
  else true

/-- `wait` of `doSync`, CoordinationImpl.i.dfy:223-320 -/
def doSyncWaits (b : BlockImpl.Ready Node) (s : Committer.State) (graphSync : Bool) : Bool :=
  if s.isFrozen = true then
    if s.frozenLoc ≠ none then s.advanceWaits else b.syncWaits
  else if s.sbWrite ≠ none then true
  else if graphSync = true then b.syncWaits
  else s.advanceWaits

/-- `wait` of `popSync`, CoordinationImpl.i.dfy:346-383, with `isInitialized`, :335-345 -/
def popSyncWaits (b : BlockImpl.State Node) (s : Committer.State) (id : Nat) (graphSync : Bool) : Bool :=
  if Committer.get s.syncReqs id = some .s1 then false
  else match b with
    | .ready r =>
      if s.status = .ready ∧ s.journalist.replayEmpty = true then doSyncWaits r s graphSync else false
    | _ => false

namespace KvSystem
variable {Node : Type} {A : App Node}

/-- A write the block side waits for is at the disk. -/
structure BOut (b : BlockCache.State Node) (d : BlockDisk.State Node) : Prop where
  nodes : ∀ r, b = .ready r → ∀ id, r.writes id ≠ none → d.writeN id ≠ none
  table : ∀ r, b = .ready r → ∀ id, r.tableWrite = some id → d.writeT id ≠ none

/-- A write of the journal the committer waits for is at the disk. -/
def JOut (j : JournalCache.State) (d : JournalDisk.State) : Prop :=
  ∀ r, j = .ready r → ∀ id, r.writes id → d.writeJ id ≠ none

/-- When the frozen table has a place, it is being written or the committer knows the place. -/
def FOut (b : BlockCache.State Node) (j : JournalCache.State) : Prop :=
  ∀ r, b = .ready r → r.frozenLoc ≠ none → r.tableWrite = none → ∃ q, j = .ready q ∧ q.frozenLoc ≠ none

theorem ops_same {r r' : BlockCache.Ready Node} {ops : List (GOp Node)}
    (h : BlockCache.Ops (BlockCache.OpStep A) r ops r') :
    r'.writes = r.writes ∧ r'.tableWrite = r.tableWrite ∧ r'.frozenLoc = r.frozenLoc := by
  induction h with
  | nil => exact ⟨rfl, rfl, rfl⟩
  | cons h1 _ ih => cases h1 <;> exact ih

theorem BOut.step {b b' : BlockCache.State Node} {d d' : BlockDisk.State Node} {dop : BlockDisk.Op Node} {vop : VOp}
    {step : BlockCache.Step Node} (h : BOut b d) (hb : BlockCache.Next A b dop vop step b')
    (hd : BlockDisk.Next d dop d') : BOut b' d' := by
  cases hb with
  | writeBackNodeReq h1 h2 h3 h4 =>
    cases hd
    refine ⟨fun r hr id hw => ?_, fun r hr id hw => ?_⟩ <;> cases hr
    · have := h.nodes _ rfl id
      simp only [PMap.insert] at hw ⊢
      split <;> simp_all
    · exact h.table _ rfl id hw
  | writeBackNodeResp h1 =>
    cases hd
    refine ⟨fun r hr id hw => ?_, fun r hr id hw => ?_⟩ <;> cases hr
    · have := h.nodes _ rfl id
      simp only [PMap.remove] at hw ⊢
      split <;> simp_all
    · exact h.table _ rfl id hw
  | writeBackTableReq h1 =>
    cases hd
    refine ⟨fun r hr id hw => ?_, fun r hr id hw => ?_⟩ <;> cases hr
    · exact h.nodes _ rfl id hw
    · cases hw; simp [PMap.insert]
  | writeBackTableResp h1 h2 =>
    cases hd
    refine ⟨fun r hr id hw => ?_, fun r hr id hw => ?_⟩ <;> cases hr
    · exact h.nodes _ rfl id hw
    · cases hw
  | transaction h1 h2 h3 =>
    cases hd
    obtain ⟨e1, e2, _⟩ := ops_same h3
    refine ⟨fun r hr id hw => ?_, fun r hr id hw => ?_⟩ <;> cases hr
    · exact h.nodes _ rfl id (by rw [← e1]; exact hw)
    · exact h.table _ rfl id (by rw [← e2]; exact hw)
  | pageInTableReq => exact ⟨(fun r hr => nomatch hr), fun r hr => nomatch hr⟩
  | receiveLoc => exact ⟨(fun r hr => nomatch hr), fun r hr => nomatch hr⟩
  | pageInTableResp =>
    refine ⟨fun r hr id hw => ?_, fun r hr id hw => ?_⟩ <;> cases hr
    · exact absurd rfl hw
    · cases hw
  | noop h1 h2 =>
    rcases h2 with rfl | ⟨id, t, rfl⟩ | ⟨id, n, rfl, _⟩ | ⟨id, rfl, k⟩ | ⟨id, rfl, k⟩
    · cases hd; exact h
    · cases hd; exact ⟨h.nodes, h.table⟩
    · cases hd; exact ⟨h.nodes, h.table⟩
    · cases hd
      refine ⟨h.nodes, fun r hr i hw => ?_⟩
      simp only [PMap.remove]
      rw [if_neg (fun e : i = id => k r hr (e ▸ hw))]
      exact h.table r hr i hw
    · cases hd
      refine ⟨fun r hr i hw => ?_, h.table⟩
      simp only [PMap.remove]
      rw [if_neg (fun e : i = id => hw (e ▸ k r hr))]
      exact h.nodes r hr i hw
  | _ =>
    cases hd
    refine ⟨fun r hr id hw => ?_, fun r hr id hw => ?_⟩ <;> cases hr
    · exact h.nodes _ rfl id hw
    · exact h.table _ rfl id hw

theorem JOut.step {j j' : JournalCache.State} {d d' : JournalDisk.State} {dop : JournalDisk.Op} {vop : VOp}
    (h : JOut j d) (hj : JournalCache.Next j dop vop j') (hd : JournalDisk.Next d dop d') : JOut j' d' := by
  have keep : ∀ {r : JournalCache.Ready} {id1 : ReqId} {id2 : Option ReqId} {start bs}, JOut (.ready r) d →
      JournalDisk.Next d (.reqWriteJ id1 id2 start bs) d' → ∀ id, (r.writes id ∨ JournalCache.ids id1 id2 id) →
      d'.writeJ id ≠ none := by
    intro r id1 id2 start bs h hd id hw
    have h0 := h _ rfl id
    unfold JournalCache.ids at hw
    cases hd <;> simp only [PMap.insert] <;> grind
  cases hj with
  | writeJournal => intro r hr; cases hr; exact keep h hd
  | writeFrozen => intro r hr; cases hr; exact keep h hd
  | writeJournalResp h1 =>
    cases hd
    intro r hr id hw; cases hr
    simp only [PMap.remove]
    rw [if_neg hw.2]
    exact h _ rfl id hw.1
  | finishOther => intro r hr id hw; cases hr; exact hw.elim
  | noop h1 h2 =>
    rcases h2 with rfl | ⟨id, w, sb, rfl⟩ | ⟨id, bs, rfl⟩ | ⟨id, w, rfl, _⟩ | ⟨id, rfl, k⟩
    · cases hd; exact h
    · cases hd; exact h
    · cases hd; exact h
    · cases hd; exact h
    · cases hd
      intro r hr i hw
      simp only [PMap.remove]
      rw [if_neg (fun e : i = id => k r hr (e ▸ hw))]
      exact h r hr i hw
  | pushSync =>
    cases hd
    intro r hr id hw
    cases j with
    | ready x => cases hr; exact h _ rfl id hw
    | other => cases hr
    | loading => cases hr
  | popSync =>
    cases hd
    intro r hr id hw
    cases j with
    | ready x => cases hr; exact h _ rfl id hw
    | other => cases hr
    | loading => cases hr
  | _ =>
    cases hd
    intro r hr id hw
    cases hr
    try exact h _ rfl id hw

theorem keeps_frozen {j j' : JournalCache.State} {dop : JournalDisk.Op} {vop : VOp} {q : JournalCache.Ready}
    (h : JournalCache.Next j dop vop j') (h1 : vop ≠ .cleanUp) (h2 : vop ≠ .freeze) (e : j = .ready q)
    (hq : q.frozenLoc ≠ none) : ∃ q', j' = .ready q' ∧ q'.frozenLoc ≠ none := by
  cases h with
  | locationResp => exact absurd rfl h1
  | freeze => exact absurd rfl h2
  | receiveFrozen => exact ⟨_, rfl, nofun⟩
  | pushSync => subst e; exact ⟨_, rfl, hq⟩
  | popSync => subst e; exact ⟨_, rfl, hq⟩
  | noop => exact ⟨q, e, hq⟩
  | _ => cases e <;> exact ⟨_, rfl, hq⟩

theorem FOut.step {b b' : BlockCache.State Node} {j j' : JournalCache.State} {bop : BlockDisk.Op Node}
    {jop : JournalDisk.Op} {vop : VOp} {step : BlockCache.Step Node} (h : FOut b j)
    (hb : BlockCache.Next A b bop vop step b') (hj : JournalCache.Next j jop vop j') : FOut b' j' := by
  cases hb with
  | writeBackTableReq => intro r hr _ k; cases hr; cases k
  | writeBackTableResp =>
    intro r hr _ _
    generalize hv : VOp.sendFrozenLoc _ = v at hj
    cases hj with
    | receiveFrozen => exact ⟨_, rfl, nofun⟩
    | noop k => subst hv; simp at k
    | _ => cases hv
  | freeze => intro r hr k; cases hr; exact absurd rfl k
  | cleanUp => intro r hr k; cases hr; exact absurd rfl k
  | pageInTableResp => intro r hr k; cases hr; exact absurd rfl k
  | pageInTableReq => exact fun r hr => nomatch hr
  | receiveLoc => exact fun r hr => nomatch hr
  | transaction _ _ h3 =>
    obtain ⟨_, e2, e3⟩ := ops_same h3
    intro r hr k1 k2
    cases hr
    obtain ⟨q, hq, k⟩ := h _ rfl (by rw [← e3]; exact k1) (by rw [← e2]; exact k2)
    exact keeps_frozen hj nofun nofun hq k
  | noop h1 =>
    intro r hr k1 k2
    obtain ⟨q, hq, k⟩ := h r hr k1 k2
    refine keeps_frozen hj ?_ ?_ hq k <;> (rintro rfl; simp at h1)
  | _ =>
    intro r hr k1 k2
    cases hr
    obtain ⟨q, hq, k⟩ := h _ rfl k1 k2
    exact keeps_frozen hj nofun nofun hq k

/-- In every state that can be reached, what either side waits for is at the disk. -/
theorem out {ok : Node → Prop} {loc : Loc} {tr : List (BlockSystem.Label Node)} {s : State Node}
    (h : (machine A ok loc).Exec tr s) : BOut s.b.m s.b.d ∧ JOut s.j.m s.j.d ∧ FOut s.b.m s.j.m := by
  refine Machine.exec_invariant (M := machine A ok loc)
    (I := fun _ s => BOut s.b.m s.b.d ∧ JOut s.j.m s.j.d ∧ FOut s.b.m s.j.m) ?_ ?_ h
  · rintro s ⟨h1, h2⟩
    refine ⟨⟨fun r hr => ?_, fun r hr => ?_⟩, fun r hr => ?_, fun r hr => ?_⟩
    · rw [h1.1] at hr; cases hr
    · rw [h1.1] at hr; cases hr
    · rw [h2.1] at hr; cases hr
    · rw [h1.1] at hr; cases hr
  · rintro tr s l s' ⟨h1, h2, h3⟩ hs
    cases hs with
    | machine k1 k2 k3 k4 => exact ⟨h1.step k1 k2, h2.step k3 k4, h3.step k1 k3⟩
    | disk k =>
      refine ⟨h1, ?_, h3⟩
      cases k
      exact h2
    | crash => exact ⟨⟨(fun r hr => nomatch hr), fun r hr => nomatch hr⟩, (fun r hr => nomatch hr), fun r hr => nomatch hr⟩

end KvSystem

namespace FullImpl
open Pivot (Node)
open TreeImpl (kids)

/-- **When `popSync` says to wait, a write is at the disk.** -/
theorem waits_out {c : Codec Node} {loc : Loc} {kind : ByteDisk.Kind} (hcrc : ∀ x, (c.crc x).length = 32)
    (hsb : ∀ x, c.superblock x = SuperblockBytes.ofBytes c.crc x)
    (hwf : ∀ b n, c.node b = some n → Pivot.WFNode n) {tr : List (Option (BlockSystem.Label Node))} {s : State}
    (h : (machine c loc kind).Exec tr s) {id : Nat} {g : Bool} (hw : popSyncWaits s.b s.s id g = true) :
    ∃ i, s.d.reqWrites i ≠ none ∨ s.d.respWrites i ≠ none := by
  obtain ⟨h1, hB⟩ := exec_refines hcrc hsb hwf h
  obtain ⟨h2, hI, hJ⟩ := Full.exec_refines hcrc hsb h1
  obtain ⟨tr', bd, jd, E, h3, hD, _⟩ := ByteSystem.exec_sim Pivot.isMap h2
  obtain ⟨_, v, _, _, _, _, hok, _⟩ := KvSystem.exec_ok Pivot.isMap h3
  obtain ⟨hbo, hjo, hfo⟩ := KvSystem.out h3
  have hb0 : bd = ByteSystem.blk c s.d E := hD.block
  have hjt : ByteSystem.JTie c s.d E jd := hD.journal
  have get_wl : ∀ i, wl s.d i ≠ none → ∃ i, s.d.reqWrites i ≠ none ∨ s.d.respWrites i ≠ none := by
    intro i hi
    refine ⟨i, ?_⟩
    unfold wl at hi
    cases e : s.d.reqWrites i with
    | some x => exact .inl nofun
    | none => rw [e] at hi; exact .inr hi
  have get_sel : ∀ {T : Type} (k : Loc → Option T) i, sel k (wl s.d) i ≠ none →
      ∃ i, s.d.reqWrites i ≠ none ∨ s.d.respWrites i ≠ none := by
    intro T k i hi
    refine get_wl i fun e => hi ?_
    unfold sel
    rw [e]; rfl
  unfold popSyncWaits at hw
  split at hw
  · cases hw
  · split at hw
    rotate_left
    · cases hw
    rename_i r hr
    split at hw
    rotate_left
    · cases hw
    rename_i hst
    have hbv : (view s).b = .ready r.view := by show bview s.b = _; rw [hr]; rfl
    have hjv : (Full.view (view s)).j = .ready (Committer.readyOf s.s) := by
      show Committer.view s.s = _
      exact Committer.view_ready hst.1
    have hsbw : s.s.sbWrite ≠ none → ∃ i, s.d.reqWrites i ≠ none ∨ s.d.respWrites i ≠ none := by
      intro hn
      have hr := hok.journal
      change JournalSystem.RelM (Full.view (view s)).j jd v at hr
      rw [hjv] at hr
      obtain ⟨f, _, u, W, F, hr⟩ := hr
      have hc : (Committer.readyOf s.s).commit ≠ .none := fun e => hn (hr.idle e).2.1
      obtain ⟨i, n, _, _, _, _, _, k, _⟩ := hr.busy hc
      rcases (hjt.writeSb _ _ _).mp k with ⟨x, hx, _⟩ | ⟨hx, _⟩
      · exact ⟨i, .inl (by rw [hx]; exact nofun)⟩
      · exact ⟨i, .inr (by rw [hx]; exact nofun)⟩
    have hjw : s.s.writes ≠ [] → ∃ i, s.d.reqWrites i ≠ none ∨ s.d.respWrites i ≠ none := by
      intro hn
      obtain ⟨i, hi⟩ := List.exists_mem_of_ne_nil _ hn
      have := hjo _ hjv i hi
      change jd.writeJ i ≠ none at this
      rw [hjt.writeJ] at this
      exact get_sel _ i this
    have hadv : s.s.advanceWaits = true → ∃ i, s.d.reqWrites i ≠ none ∨ s.d.respWrites i ≠ none := by
      intro ha
      unfold Committer.State.advanceWaits at ha
      split at ha
      · split at ha
        · cases ha
        · split at ha
          · cases ha
          · exact hjw ‹_›
      · exact hsbw ‹_›
    have hsync : s.s.frozenLoc = none → r.syncWaits = true →
        ∃ i, s.d.reqWrites i ≠ none ∨ s.d.respWrites i ≠ none := by
      intro hf ha
      unfold BlockImpl.Ready.syncWaits at ha
      split at ha
      · rename_i hl
        cases ht : r.tableWrite with
        | some i =>
          have := hbo.table _ hbv i ht
          change bd.writeT i ≠ none at this
          rw [hb0] at this
          exact get_sel _ i this
        | none =>
          obtain ⟨q, hq, k⟩ := hfo _ hbv hl ht
          have hq' : (Full.view (view s)).j = .ready q := hq
          rw [hjv] at hq'
          cases hq'
          exact absurd hf k
      · split at ha
        · cases ha
        · split at ha
          · cases ha
          · split at ha
            · rename_i hn
              obtain ⟨x, hx⟩ := List.exists_mem_of_ne_nil _ hn
              have hk : r.writes.get x.1 ≠ none := AList.get_keys.mpr (List.mem_map_of_mem hx)
              have := hbo.nodes _ hbv x.1 hk
              change bd.writeN x.1 ≠ none at this
              rw [hb0] at this
              exact get_sel _ x.1 this
            · cases ha
    unfold doSyncWaits at hw
    split at hw
    · split at hw
      · exact hadv hw
      · rename_i hf
        exact hsync (Classical.not_not.mp hf) hw
    · rename_i hfz
      have hf : s.s.frozenLoc = none := by
        apply Classical.byContradiction
        intro k
        exact hfz (hJ.frozenLoc_isFrozen k)
      split at hw
      · exact hsbw ‹_›
      · split at hw
        · exact hsync hf hw
        · exact hadv hw

end FullImpl

/-! ### On the driver -/

namespace Driven
open Pivot (Node)

/-- The driver under the program is in a state it can come to by itself. -/
theorem handler_reachable {c : Codec Node} {w : List UInt8 → Prop} {s : State} (h : (machine c w).Reachable s) :
    (DiskHandler.machine c.crc).Reachable s.h := by
  obtain ⟨tr, s0, ⟨file, _, hf, rfl⟩, hr⟩ := h
  have h0 : (DiskHandler.machine c.crc).Reachable (DiskHandler.opened file) := ⟨[], _, ⟨file, hf, rfl⟩, .nil _⟩
  have hs : ∀ {h h' : DiskHandler.State} {dop}, (DiskHandler.machine c.crc).Reachable h →
      DiskHandler.Step c.crc h dop h' → (DiskHandler.machine c.crc).Reachable h' := by
    rintro h h' dop ⟨t, s0, i0, r0⟩ k
    exact ⟨_, s0, i0, r0.snoc k⟩
  generalize hz : (⟨.unready, Committer.init, DiskHandler.opened file⟩ : State) = z at hr
  have h0 : (DiskHandler.machine c.crc).Reachable z.h := by rw [← hz]; exact h0
  clear hz
  induction hr with
  | nil => exact h0
  | cons h1 _ ih =>
    refine ih ?_
    cases h1 with
    | machine _ k => exact hs h0 (.call k)
    | os k => exact hs h0 (.os k)
    | complete k => exact hs h0 (.complete k)
    | waitForOne k => exact hs h0 (.waitForOne k)
    | crash => exact ⟨[], _, ⟨_, (DiskHandler.Inv.reachable h0).1.file, rfl⟩, .nil _⟩

/-- A write at the disk is one of the driver's. -/
theorem rel_writes {h : DiskHandler.State} {d : ByteDisk.State} (hr : DiskHandler.Rel h d) {i : ReqId}
    (hi : d.reqWrites i ≠ none ∨ d.respWrites i ≠ none) : h.writes ≠ [] := by
  obtain ⟨P, rfl, _⟩ := hr
  intro e
  unfold DiskHandler.disk at hi
  rw [e] at hi
  rcases hi with hi | hi <;> exact hi rfl

end Driven
end Verif.Kv
