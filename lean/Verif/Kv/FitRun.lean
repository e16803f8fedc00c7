import Verif.Kv.PivotFit
import Verif.Kv.FullImplProof
/-
Lengths along the runs of the store (see `Kv/PivotFit`). No code is modelled here.
-/
namespace Verif.Kv.Pivot
open BlockCache (Ops)
open BlockSystem (Label)

variable {L : Nat}

/-- What is asked of an entry of the journal. -/
def ShortEntry (L : Nat) : Entry → Prop
  | .insert k v => k.length ≤ L ∧ v.length ≤ L
  | .clone a b => a.length = b.length ∧ b.length ≤ L

theorem shortOp_iff (u : UIOp) : ShortOp L u ↔ ∀ e ∈ u.entries, ShortEntry L e := by
  cases u <;> simp [ShortOp, UIOp.entries, ShortEntry]

/-- What the client does is short. -/
def ShortCall (L : Nat) (v : VOp) : Prop := ∀ u, v = .advance u false → ShortOp L u

/-- What is done, by the client or again by a replay, is short. -/
def ShortDone (L : Nat) (v : VOp) : Prop := ∀ u b, v = .advance u b → ShortOp L u

/-- What is replayed was logged. -/
theorem ledger_short {c c' : Ledger} {v : VOp} (h : Ledger.Next c v c') (hl : ∀ e ∈ c.log, ShortEntry L e)
    (hv : ShortCall L v) : ShortDone L v ∧ ∀ e ∈ c'.log, ShortEntry L e := by
  cases h with
  | @append u hc =>
    have := hv u rfl
    refine ⟨fun w b e => by cases e; exact this, fun e he => ?_⟩
    rcases List.mem_append.mp he with h | h
    · exact hl e h
    · exact (shortOp_iff u).mp this e h
  | @replay u rest hd =>
    refine ⟨fun w b e => ?_, hl⟩
    cases e
    refine (shortOp_iff u).mpr (fun e he => hl e ?_)
    exact List.mem_of_mem_drop (hd ▸ List.mem_append_left _ he)
  | crash => exact ⟨(fun w b e => nomatch e), fun e he => hl e (List.mem_of_mem_take he)⟩
  | _ => exact ⟨(fun w b e => nomatch e), hl⟩

theorem kv_short {loc : Loc} {tr : List (Label Node)} {s : KvSystem.State Node}
    (h : (KvSystem.machine app (fun n => n = emptyNode) loc).Exec tr s)
    (hc : ∀ l ∈ tr, ShortCall L l.vop) : ∀ l ∈ tr, ShortDone L l.vop := by
  have := Machine.exec_invariant (M := KvSystem.machine app (fun n => n = emptyNode) loc)
    (I := fun tr s => (∀ l ∈ tr, ShortCall L l.vop) → (∀ l ∈ tr, ShortDone L l.vop) ∧
      ∃ c v p1 p2 p3 rest, KvSystem.Ok app Abs s c v p1 p2 p3 rest ∧ ∀ e ∈ c.log, ShortEntry L e) ?_ ?_ h
  · exact (this hc).1
  · rintro s hs _
    obtain ⟨b, j⟩ := s
    have hs' := hs
    obtain ⟨h1, h2⟩ := hs
    have hr := JournalSystem.Init.rel h2
    exact ⟨by simp, Ledger.initial loc, _, [], [], [], [], ⟨BlockSystem.Init.inv h1, hr, ⟨rfl, rfl, rfl, rfl,
      rfl, rfl, rfl, rfl, rfl, rfl, fun id => .inl ⟨rfl, rfl⟩⟩,
      Composite.init_rel isMap (KvSystem.init_states h1)⟩, (fun e he => by cases he)⟩
  · rintro tr s l s' ih hs hc
    obtain ⟨h1, c, v, p1, p2, p3, rest, h2, h3⟩ := ih (fun x hx => hc x (List.mem_append_left _ hx))
    obtain ⟨c', v', q1, q2, q3, r', k1, k2, _⟩ := KvSystem.step_ok isMap hs h2
    obtain ⟨k3, k4⟩ := ledger_short k2 h3 (hc l (List.mem_append_right _ (List.mem_singleton.mpr rfl)))
    refine ⟨fun x hx => ?_, c', v', q1, q2, q3, r', k1, k4⟩
    rcases List.mem_append.mp hx with hx | hx
    · exact h1 x hx
    · rw [List.mem_singleton.mp hx]; exact k3

theorem ops_appFit {r r' : BlockCache.Ready Node} {ops : List (GOp Node)}
    (h : Ops (BlockCache.OpStep app) r ops r') : Ops (BlockCache.OpStep (appFit L)) r ops r' := by
  induction h with
  | nil => exact .nil
  | cons h1 _ ih =>
    refine .cons ?_ ih
    cases h1 with
    | dirty a b c d e => exact .dirty a b c d e
    | alloc a b c d => exact .alloc a b c d

theorem next_appFit {b b' : BlockCache.State Node} {dop : BlockDisk.Op Node} {vop : VOp}
    {step : BlockCache.Step Node} (h : BlockCache.Next app b dop vop step b') (hv : ShortDone L vop) :
    BlockCache.Next (appFit L) b dop vop step b' := by
  cases h with
  | writeBackNodeReq a b c d => exact .writeBackNodeReq a b c d
  | writeBackNodeResp a => exact .writeBackNodeResp a
  | writeBackTableReq a b c d e f => exact .writeBackTableReq a b c d e f
  | writeBackTableResp a b => exact .writeBackTableResp a b
  | unalloc a b c d e => exact .unalloc a b c d e
  | pageInNodeReq a b c d => exact .pageInNodeReq a b c d
  | pageInNodeResp a b c d e => exact .pageInNodeResp a b c d e
  | pageInTableReq => exact .pageInTableReq
  | pageInTableResp a b => exact .pageInTableResp a b
  | receiveLoc a => exact .receiveLoc a
  | evict a b c => exact .evict a b c
  | freeze a => exact .freeze a
  | cleanUp a b c => exact .cleanUp a b c
  | noop a b => exact .noop a b
  | transaction a b c => exact .transaction ⟨a, hv _ _ rfl⟩ b (ops_appFit c)

theorem full_appFit {c : Codec Node} {loc : Loc} {kind : ByteDisk.Kind} {tr : List (Option (Label Node))}
    {s : Full.State Node} (h : (Full.machine app c (fun n => n = emptyNode) loc kind).Exec tr s)
    (hd : ∀ l, some l ∈ tr → ShortDone L l.vop) :
    (Full.machine (appFit L) c (fun n => n = emptyNode) loc kind).Exec tr s := by
  refine Machine.exec_invariant (M := Full.machine app c (fun n => n = emptyNode) loc kind)
    (I := fun tr s => (∀ l, some l ∈ tr → ShortDone L l.vop) →
      (Full.machine (appFit L) c (fun n => n = emptyNode) loc kind).Exec tr s) ?_ ?_ h hd
  · rintro s ⟨h1, h2, ⟨h3, h4, n, ⟨h5, t, h6, h7, h8, h9, h10⟩, h11, h12⟩, h13⟩ _
    exact ⟨s, ⟨h1, h2, ⟨h3, h4, n, ⟨h5, t, h6, h7, h8, h9, ⟨h10.dom, h10.same⟩⟩, h11, h12⟩, h13⟩, .nil _⟩
  · intro tr s l s' ih hs hd
    refine (ih (fun x hx => hd x (List.mem_append_left _ hx))).snoc ?_
    cases hs with
    | disk k => exact .disk k
    | crash => exact .crash
    | machine k1 k2 =>
      refine .machine ?_ k2
      cases k1 with
      | invalid a b => exact .invalid a b
      | valid a b c =>
        exact .valid a (next_appFit b (hd _ (List.mem_append_right _ (List.mem_singleton.mpr rfl)))) c

/-- Keys and values given by the client have at most 1024 bytes, by their type (`Ok` in `Committer.Next`), so
only that a clone's prefixes have one length has to be asked for. -/
theorem full_short {c : Codec Node} {loc : Loc} {kind : ByteDisk.Kind} (hcrc : ∀ x, (c.crc x).length = 32)
    (hsb : ∀ x, c.superblock x = SuperblockBytes.ofBytes c.crc x) {tr : List (Option (Label Node))}
    {s : Full.State Node} (h : (Full.machine app c (fun n => n = emptyNode) loc kind).Exec tr s)
    (hc : ∀ src dst st, some ⟨.advance (.clone src dst) false, st⟩ ∈ tr → src.length = dst.length) :
    ∀ l, l ∈ tr → ShortCall 1024 (ByteSystem.up l) := by
  refine (Machine.exec_invariant (M := Full.machine app c (fun n => n = emptyNode) loc kind)
    (I := fun tr s => (Full.machine app c (fun n => n = emptyNode) loc kind).Exec tr s ∧ ((∀ src dst st, some ⟨.advance (.clone src dst) false, st⟩ ∈ tr → src.length = dst.length) →
      ∀ l, l ∈ tr → ShortCall 1024 (ByteSystem.up l))) ?_ ?_ h).2 hc
  · intro s hs
    exact ⟨⟨s, hs, .nil _⟩, fun _ l hl => by cases hl⟩
  · rintro tr s l s' ⟨hex, ih⟩ hs
    refine ⟨hex.snoc hs, fun hc x hx => ?_⟩
    rcases List.mem_append.mp hx with hx | hx
    · exact ih (fun a b st hm => hc a b st (List.mem_append_left _ hm)) x hx
    rw [List.mem_singleton.mp hx]
    cases hs with
    | disk k => intro u e; cases e
    | crash => intro u e; cases e
    | machine k1 k2 =>
      intro u e
      cases k1 with
      | invalid a b =>
        exfalso
        obtain ⟨h1, _, _⟩ := Full.exec_refines hcrc hsb hex
        obtain ⟨_, _, _, _, _, h2, _⟩ := ByteSystem.exec_sim isMap h1
        cases k2 with
        | ackRead e => exact b (h2.sane.rv _ _ (h2.sane.rl_resp e).2)
        | ackWrite e => exact b (h2.sane.wv _ _ (h2.sane.wl_resp e).2)
        | stutter => exact b trivial
        | _ => exact a trivial
      | valid _ _ k =>
        cases k with
        | append _ _ _ h e' =>
          cases e
          cases u with
          | put k v => cases e'; exact h
          | clone src dst =>
            cases e'
            exact ⟨hc src dst _ (List.mem_append_right _ (List.mem_singleton.mpr rfl)), h.2⟩
          | _ => trivial
        | look _ _ e' =>
          cases e
          refine (shortOp_iff u).mpr ?_
          rw [e']; simp
        | rest h =>
          rcases h with h | h | ⟨h, _⟩ <;> subst h <;> cases e
        | readAway _ h => rcases h with h | h <;> subst h <;> cases e
        | writtenAway _ h => rcases h with h | h <;> subst h <;> cases e
        | pushSync => simp only [ByteSystem.up] at e; split at e <;> cases e
        | writtenSb => simp only [ByteSystem.up] at e; split at e <;> cases e
        | _ => cases e

/-- What is done in a run is short. -/
theorem done_of_exec {c : Codec Node} {loc : Loc} {kind : ByteDisk.Kind} (hcrc : ∀ x, (c.crc x).length = 32)
    (hsb : ∀ x, c.superblock x = SuperblockBytes.ofBytes c.crc x) {tr : List (Option (Label Node))}
    {s : Full.State Node}
    (h : (Full.machine app c (fun n => n = emptyNode) loc kind).Exec tr s)
    (hc : ∀ src dst st, some ⟨.advance (.clone src dst) false, st⟩ ∈ tr → src.length = dst.length) :
    ∀ l, some l ∈ tr → ShortDone 1024 l.vop := by
  have hs := full_short hcrc hsb h hc
  obtain ⟨h1, _, _⟩ := Full.exec_refines hcrc hsb h
  obtain ⟨tr', bd, jd, E, h2, _, h3⟩ := ByteSystem.exec_sim isMap h1
  have := kv_short (L := 1024) h2 (fun l hl => by
    have : l.vop ∈ tr.map ByteSystem.up := h3 ▸ List.mem_map_of_mem hl
    obtain ⟨y, h4, h5⟩ := List.mem_map.mp this
    rw [← h5]; exact hs y h4)
  intro l hl
  have h4 : l.vop ∈ tr'.map (·.vop) := h3 ▸ List.mem_map.mpr ⟨some l, hl, rfl⟩
  obtain ⟨y, h5, h6⟩ := List.mem_map.mp h4
  rw [← h6]; exact this y h5

/-- **Lengths are kept.** -/
theorem fit_of_exec {c : Codec Node} {loc : Loc} {kind : ByteDisk.Kind} (hcrc : ∀ x, (c.crc x).length = 32)
    (hsb : ∀ x, c.superblock x = SuperblockBytes.ofBytes c.crc x) {tr : List (Option (Label Node))}
    {s : Full.State Node}
    (h : (Full.machine app c (fun n => n = emptyNode) loc kind).Exec tr s)
    (hc : ∀ src dst st, some ⟨.advance (.clone src dst) false, st⟩ ∈ tr → src.length = dst.length)
    {r : BlockCache.Ready Node} (hr : s.b = .ready r) {x : Ref} {n : Node} (hx : r.eph.graph x ≠ none)
    (hn : r.cache x = some n) : Fit 1024 n := by
  have hd := done_of_exec hcrc hsb h hc
  obtain ⟨h1, _, _⟩ := Full.exec_refines hcrc hsb (full_appFit h hd)
  obtain ⟨tr', bd, jd, E, h2, _, _⟩ := ByteSystem.exec_sim (isMapFit 1024) h1
  obtain ⟨cl, v, p1, p2, p3, rest, h3, _⟩ := KvSystem.exec_ok (isMapFit 1024) h2
  have hi := h3.block
  have ht := h3.states.three
  change BlockSystem.Inv (appFit 1024) ⟨s.b, bd⟩ at hi
  change ∀ g, (BlockSystem.view (appFit 1024) ⟨s.b, bd⟩).ephemeral = some g → _ at ht
  rw [hr] at hi ht
  have hg := (ht _ rfl).2
  refine hg x n ?_
  have hi : BlockSystem.InvReady (appFit 1024) r bd := hi
  show BlockSystem.dcGraph r.eph bd.nodes r.cache x = some n
  cases hl : r.eph.locs x with
  | none => rw [BlockSystem.dc_cache hx hl]; exact hn
  | some l => rw [BlockSystem.dc_loc hx hl]; exact hi.clean x n l hn hl

end Verif.Kv.Pivot
