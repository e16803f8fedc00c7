import Verif.Kv.FullImpl
import Verif.Kv.FullProof
import Verif.Kv.ByteProof
import Verif.Kv.PivotMap
/-
Every run of the code of VeriBetrKV is one with the specification of its block side. No code is modelled
here.
-/
namespace Verif.Kv.FullImpl
open BlockImpl (Env EnvOk Out Ready)
open IndTable (TRow ofRows rowsView)
open BlockSystem (Label)
open ByteDisk (Op)
open ByteSystem (ValidOp ValidWrite blockOp IsReq)
open Pivot (Node)
open TreeImpl (S kids Sound)

/-- What the specification sees of the block side. -/
def bview : BlockImpl.State Node → BlockCache.State Node
  | .ready r => .ready r.view
  | .loading loc id => .loading loc id
  | .unready => .unready

/-- What the specification sees. -/
def view (s : State) : Full.State Node := ⟨bview s.b, s.s, s.d⟩

/-- The invariant of the block side (`Inv`, StateBCImpl.i.dfy). -/
def BInv : BlockImpl.State Node → Prop
  | .ready r => BlockImpl.Inv kids r
  | .loading loc _ => ValidTableLoc loc
  | .unready => True

/-- A call does a step of the specification. -/
theorem call_good {s : S} (h : BlockImpl.Inv kids s) (hS : Sound s) {io : Env Node} (hio : EnvOk io)
    (call : Call) (hn : ∀ id n, call = .readNode id (some n) → Pivot.app.wf n)
    (hc : (run s io call).vop = .cleanUp → s.tableWrite = none) :
    BlockImpl.Good Pivot.app kids s (run s io call) := by
  cases call with
  | query k => exact TreeImpl.query_good h hS hio k
  | succ start max => exact TreeImpl.succ_good h hS io start max
  | insert k v replay => exact TreeImpl.insert_good h hS hio k v replay
  | clone src dst replay => exact TreeImpl.clone_good h hS io src dst replay
  | sync => exact BlockImpl.sync_good h hio
  | readNode id node =>
    exact BlockImpl.pageInResp_good TreeImpl.kids_iff h (fun n e => hn id n (by rw [e]))
  | wroteNode id => exact BlockImpl.writeNodeResp_good h id
  | wroteTable id => exact BlockImpl.writeTableResp_good h id
  | cleanUp =>
    show BlockImpl.Good Pivot.app kids s s.cleanUp
    change s.cleanUp.vop = _ → _ at hc
    cases hf : s.frozen with
    | none =>
      have : s.cleanUp = s.noop := by unfold Ready.cleanUp; rw [hf]
      rw [this]; exact BlockImpl.noop_good h
    | some t =>
      cases hl : s.frozenLoc with
      | none =>
        have : s.cleanUp = s.noop := by unfold Ready.cleanUp; rw [hf, hl]
        rw [this]; exact BlockImpl.noop_good h
      | some l =>
        exact BlockImpl.cleanUp_good h (hc (by unfold Ready.cleanUp; rw [hf, hl]))

/-- What the block side is handed for a node is what the bytes hold. -/
theorem blockOp_readNode {c : Codec Node} {dop : Op} {id : ReqId} {n : Node}
    (h : blockOp c dop = .respReadNode id (some n)) : ∃ b, c.node b = some n := by
  cases dop with
  | respRead i r =>
    simp only [blockOp] at h
    split at h
    · injection h with _ h; exact ⟨r.bytes, h⟩
    · split at h <;> cases h
  | reqRead i l => simp only [blockOp] at h; split at h <;> [skip; split at h] <;> cases h
  | reqWrite i w =>
    simp only [blockOp] at h
    split at h
    · split at h <;> cases h
    · split at h
      · split at h <;> cases h
      · cases h
  | respWrite i l => simp only [blockOp] at h; split at h <;> [skip; split at h] <;> cases h
  | reqWrite2 => cases h
  | none => cases h

theorem run_readNode (s : S) (io : Env Node) (id : ReqId) (n : Node) :
    (run s io (.readNode id (some n))).dop = .respReadNode id (some n) := by
  show (s.pageInResp kids id (some n)).dop = _
  unfold Ready.pageInResp
  split
  · split
    · split
      · rfl
      · split
        · rfl
        · dsimp only; split <;> rfl
    · rfl
  · rfl

/-- A handler of the block side does a step of the specification. -/
theorem block_good {b b' : BlockImpl.State Node} {dop : BlockDisk.Op Node} {vop : VOp}
    {step : BlockCache.Step Node} (h : BInv b) (hS : ∀ r, b = .ready r → Sound r)
    (hn : ∀ id n, dop = .respReadNode id (some n) → Pivot.app.wf n)
    (hc : vop = .cleanUp → ∀ r, b = .ready r → r.tableWrite = none)
    (hb : BlockNext b dop vop step b') :
    BlockCache.Next Pivot.app (bview b) dop vop step (bview b') ∧ BInv b' := by
  cases hb with
  | receiveLoc hl => exact ⟨.receiveLoc hl, hl⟩
  | pageInTable => exact ⟨.pageInTableReq, h⟩
  | @opened loc id rows tab s k1 k2 k3 k4 =>
    obtain ⟨g1, g2, g3, g4⟩ := BlockImpl.opened_inv (kids := kids) k1 k2 h k3 k4
    have e : tab.view = rowsView rows := (IndTable.ofRows_inv k1 k3).2.1
    refine ⟨?_, g1⟩
    show BlockCache.Next _ (.loading loc (some id)) _ _ _ (.ready s.view)
    rw [g4, e]
    rw [e] at g2 g3
    exact .pageInTableResp g2 g3
  | refused _ => exact ⟨.noop (.inl rfl) (.inr (.inl ⟨_, _, rfl⟩)), h⟩
  | @call s io call hio =>
    exact call_good h (hS s rfl) hio call (fun id n e => hn id n (by rw [e]; exact run_readNode s io id n))
      (fun e => hc e s rfl)
  | early k1 k2 =>
    have nr : ∀ r, bview b ≠ .ready r := fun r e => by
      cases b with
      | ready x => exact k1 x rfl
      | loading => cases e
      | unready => cases e
    refine ⟨.noop (.inl rfl) (.inr (.inr ?_)), h⟩
    rcases k2 with ⟨id, n, rfl⟩ | ⟨id, rfl⟩ | ⟨id, rfl⟩
    · exact .inl ⟨id, n, rfl, fun x e => hn id x (by rw [e])⟩
    · exact .inr (.inr ⟨id, rfl, fun r e => absurd e (nr r)⟩)
    · exact .inr (.inl ⟨id, rfl, fun r e => absurd e (nr r)⟩)
  | rest k => exact ⟨.noop k (.inl rfl), h⟩

/-- What is cached is in order, since it is part of the tree. -/
theorem sound_of_exec {c : Codec Node} {loc : Loc} {kind : ByteDisk.Kind} (hcrc : ∀ x, (c.crc x).length = 32)
    (hsb : ∀ x, c.superblock x = SuperblockBytes.ofBytes c.crc x) {tr : List (Option (Label Node))}
    {s : Full.State Node}
    (h : (Full.machine Pivot.app c (fun n => n = Pivot.emptyNode) loc kind).Exec tr s)
    {r : BlockCache.Ready Node} (hr : s.b = .ready r) {x : Ref} {n : Node} (hx : r.eph.graph x ≠ none)
    (hn : r.cache x = some n) : Pivot.Good n := by
  obtain ⟨h1, _, _⟩ := Full.exec_refines hcrc hsb h
  obtain ⟨tr', bd, jd, E, h2, _, _⟩ := ByteSystem.exec_sim Pivot.isMap h1
  obtain ⟨cl, v, p1, p2, p3, rest, h3, _⟩ := KvSystem.exec_ok Pivot.isMap h2
  have hi := h3.block
  have ht := h3.states.three
  change BlockSystem.Inv Pivot.app ⟨s.b, bd⟩ at hi
  change ∀ g, (BlockSystem.view Pivot.app ⟨s.b, bd⟩).ephemeral = some g → _ at ht
  rw [hr] at hi ht
  have hg := (ht _ rfl).good
  refine hg x n ?_
  have hi : BlockSystem.InvReady Pivot.app r bd := hi
  show BlockSystem.dcGraph r.eph bd.nodes r.cache x = some n
  cases hl : r.eph.locs x with
  | none => rw [BlockSystem.dc_cache hx hl]; exact hn
  | some l => rw [BlockSystem.dc_loc hx hl]; exact hi.clean x n l hn hl

/-- **The code refines the store with the specification of its block side.** -/
theorem exec_refines {c : Codec Node} {loc : Loc} {kind : ByteDisk.Kind} (hcrc : ∀ x, (c.crc x).length = 32)
    (hsb : ∀ x, c.superblock x = SuperblockBytes.ofBytes c.crc x)
    (hwf : ∀ b n, c.node b = some n → Pivot.WFNode n) {tr : List (Option (Label Node))} {s : State}
    (h : (machine c loc kind).Exec tr s) :
    (Full.machine Pivot.app c (fun n => n = Pivot.emptyNode) loc kind).Exec tr (view s) ∧ BInv s.b := by
  refine Machine.exec_invariant (M := machine c loc kind)
    (I := fun tr s => (Full.machine Pivot.app c (fun n => n = Pivot.emptyNode) loc kind).Exec tr (view s) ∧
      BInv s.b) ?_ ?_ h
  · rintro ⟨b, s, d⟩ ⟨h1, h2⟩
    dsimp only at h1 h2 ⊢
    subst h1
    exact ⟨⟨_, h2, .nil _⟩, trivial⟩
  · rintro tr s l s' ⟨h1, h2⟩ hs
    cases hs with
    | disk hd => exact ⟨h1.snoc (Full.Next.disk (s := view s) hd), h2⟩
    | crash => exact ⟨h1.snoc (Full.Next.crash (s := view s)), trivial⟩
    | machine hc hd =>
      cases hc with
      | invalid k1 k2 => exact ⟨h1.snoc (Full.Next.machine (s := view s) (.invalid k1 k2) hd), h2⟩
      | valid k1 k2 k3 =>
        obtain ⟨_, hi, hj⟩ := Full.exec_refines hcrc hsb h1
        obtain ⟨g1, g2⟩ := block_good h2 (fun r hr x n hn => by
            refine sound_of_exec hcrc hsb h1 (r := r.view) (by show bview s.b = _; rw [hr]; rfl) (x := x) ?_ hn
            have : BlockImpl.Inv kids r := by rw [hr] at h2; exact h2
            have hk := this.kids x n hn
            show r.eph.view.graph x ≠ none
            rw [hk]; simp)
          (fun id n e => by obtain ⟨b, hb⟩ := blockOp_readNode e; exact hwf b n hb)
          (fun e r hr => by
            have : s.s.status = .ready ∧ s.s.commit = .location := by
              rw [e] at k3
              generalize hv : VOp.cleanUp = v at k3
              cases k3 with
              | pushSync => split at hv <;> cases hv
              | writtenSb =>
                split at hv
                · assumption
                · cases hv
              | rest k => subst hv; simp at k
              | readAway _ k => subst hv; simp at k
              | writtenAway _ k => subst hv; simp at k
              | _ => cases hv
            obtain ⟨r', l, t, e1, e2, _⟩ := Full.cleanUp_enabled hi hj this.1 this.2
            have e1' : bview s.b = .ready r' := e1
            rw [hr] at e1'
            cases e1'
            exact e2)
          k2
        exact ⟨h1.snoc (Full.Next.machine (s := view s) (.valid k1 g1 k3) hd), g2⟩

end Verif.Kv.FullImpl
