import Verif.Kv.Full
import Verif.Kv.CommitterProof
/-
The block side and the committer agree on what is frozen, so every execution of `Full` is one of
`ByteSystem`.
-/
namespace Verif.Kv
open ByteDisk (Op)

namespace Committer
variable {s s' : State} {crc : List UInt8 → List UInt8} {dop : Op} {vop : VOp}

theorem writeOut_frozen (id1 id2 : ReqId) : (s.writeOutJournal crc id1 id2).2.isFrozen = s.isFrozen ∧
    (s.writeOutJournal crc id1 id2).2.frozenLoc = s.frozenLoc := ⟨rfl, rfl⟩

/-- Only the three labels about freezing change what is frozen. -/
theorem frozen_same (h : Next crc s dop vop s') (h1 : vop ≠ .freeze) (h2 : vop ≠ .cleanUp)
    (h3 : ∀ loc, vop ≠ .sendFrozenLoc loc)
    (h4 : s.status ≠ .ready → s.isFrozen = false ∧ s.frozenLoc = none) :
    s'.isFrozen = s.isFrozen ∧ s'.frozenLoc = s.frozenLoc := by
  cases h with
  | finishSb => exact ⟨rfl, rfl⟩
  | pageSb _ k => unfold State.pageInSb; rw [if_pos k]; exact ⟨rfl, rfl⟩
  | tryFinishOther k =>
    obtain ⟨q1, q2⟩ := h4 (by rw [k]; decide)
    unfold State.tryFinishOther
    dsimp only
    split
    · exact ⟨rfl, rfl⟩
    · split
      · exact ⟨rfl, rfl⟩
      · split
        · unfold State.finishOther
          split
          · exact ⟨q1.symm, q2.symm⟩
          · exact ⟨rfl, rfl⟩
        · exact ⟨rfl, rfl⟩
  | replay => exact ⟨rfl, rfl⟩
  | rest => exact ⟨rfl, rfl⟩
  | away => exact ⟨rfl, rfl⟩
  | look => exact ⟨rfl, rfl⟩
  | append => exact ⟨rfl, rfl⟩
  | syncLocation => unfold State.tryAdvanceLocation; (repeat' split) <;> exact ⟨rfl, rfl⟩
  | freeze => exact absurd rfl h1
  | syncLog => unfold State.tryAdvanceLog; (repeat' split) <;> exact ⟨rfl, rfl⟩
  | pushSync => unfold State.pushSync; dsimp only; split <;> exact ⟨rfl, rfl⟩
  | popSync => exact ⟨rfl, rfl⟩
  | readAway => exact ⟨rfl, rfl⟩
  | readJournal => unfold State.pageInResp; (repeat' split) <;> exact ⟨rfl, rfl⟩
  | readSb => unfold State.readSbResp; dsimp only; (repeat' split) <;> exact ⟨rfl, rfl⟩
  | writtenAway => exact ⟨rfl, rfl⟩
  | receiveFrozenLoc => exact absurd rfl (h3 _)
  | writtenJournal => exact ⟨rfl, rfl⟩
  | writtenSb =>
    unfold State.writeBackSbResp
    split
    · rename_i k; rw [if_pos k] at h2; exact absurd rfl h2
    · split <;> exact ⟨rfl, rfl⟩
  | writtenLate => exact ⟨rfl, rfl⟩

theorem frozen_freeze (h : Next crc s dop .freeze s') : s'.isFrozen = true ∧ s'.frozenLoc = none := by
  generalize hv : VOp.freeze = v at h
  cases h with
  | freeze => exact ⟨rfl, rfl⟩
  | pushSync => split at hv <;> cases hv
  | writtenSb => split at hv <;> cases hv
  | rest k => subst hv; simp at k
  | readAway _ k => subst hv; simp at k
  | writtenAway _ k => subst hv; simp at k
  | _ => cases hv

theorem frozen_cleanUp (h : Next crc s dop .cleanUp s') :
    s'.isFrozen = false ∧ s'.frozenLoc = none := by
  generalize hv : VOp.cleanUp = v at h
  cases h with
  | pushSync => split at hv <;> cases hv
  | writtenSb =>
    split at hv
    · rename_i k
      unfold State.writeBackSbResp
      rw [if_pos k]
      exact ⟨rfl, rfl⟩
    · cases hv
  | rest k => subst hv; simp at k
  | readAway _ k => subst hv; simp at k
  | writtenAway _ k => subst hv; simp at k
  | _ => cases hv

theorem frozen_send {loc : Loc} (h : Next crc s dop (.sendFrozenLoc loc) s') :
    s'.isFrozen = s.isFrozen ∧ s'.frozenLoc = some loc := by
  generalize hv : VOp.sendFrozenLoc loc = v at h
  cases h with
  | pushSync => split at hv <;> cases hv
  | writtenSb => split at hv <;> cases hv
  | receiveFrozenLoc => cases hv; exact ⟨rfl, rfl⟩
  | rest k => subst hv; simp at k
  | readAway _ k => subst hv; simp at k
  | writtenAway _ k => subst hv; simp at k
  | _ => cases hv

theorem view_init : view init = JournalCache.start := rfl

end Committer

namespace Full
open BlockSystem (Label)
open Committer (Inv)
variable {Node : Type} {A : App Node} {c : Codec Node}

/-- What the two sides hold in common (`Inv` of FullImpl.i.dfy:38-44 with `Inv` of BlockCache and
JournalCache). -/
structure Joint (b : BlockCache.State Node) (s : Committer.State) : Prop where
  frozen : s.isFrozen = true ↔ ∃ r, b = .ready r ∧ r.frozen ≠ none
  write : ∀ r, b = .ready r → r.tableWrite ≠ none → r.frozenLoc ≠ none ∧ s.frozenLoc = none
  loc : ∀ r l, b = .ready r → r.frozenLoc = some l → r.frozen ≠ none ∧ ValidTableLoc l
  same : ∀ l, s.frozenLoc = some l → ∃ r, b = .ready r ∧ r.tableWrite = none ∧ r.frozenLoc = some l

theorem joint_init (s : Committer.State) (h1 : s.isFrozen = false) (h2 : s.frozenLoc = none) :
    Joint (.unready : BlockCache.State Node) s := by
  refine ⟨⟨fun h => ?_, ?_⟩, (fun r h => nomatch h), (fun r l h => nomatch h), fun l h => ?_⟩
  · rw [h1] at h; cases h
  · rintro ⟨r, hr, _⟩; cases hr
  · rw [h2] at h; cases h

/-- What the common invariant says of a block side that is not ready. -/
theorem Joint.early {b : BlockCache.State Node} {s : Committer.State} (h : Joint b s)
    (hb : ∀ r, b ≠ .ready r) : s.isFrozen = false ∧ s.frozenLoc = none := by
  constructor
  · cases e : s.isFrozen with
    | false => rfl
    | true => obtain ⟨r, hr, _⟩ := h.frozen.mp e; exact absurd hr (hb r)
  · cases e : s.frozenLoc with
    | none => rfl
    | some l => obtain ⟨r, hr, _⟩ := h.same l e; exact absurd hr (hb r)

theorem Joint.frozenLoc_isFrozen {b : BlockCache.State Node} {s : Committer.State} (h : Joint b s)
    (hf : s.frozenLoc ≠ none) : s.isFrozen = true := by
  cases e : s.frozenLoc with
  | none => exact absurd e hf
  | some l =>
    obtain ⟨r, hr, _, h3⟩ := h.same l e
    exact h.frozen.mpr ⟨r, hr, (h.loc r l hr h3).1⟩

/-- A step that moves neither side's idea of what is frozen. -/
theorem Joint.of_same {r r' : BlockCache.Ready Node} {s s' : Committer.State} (h : Joint (.ready r) s)
    (h1 : s'.isFrozen = s.isFrozen ∧ s'.frozenLoc = s.frozenLoc)
    (h2 : r'.frozen = none ↔ r.frozen = none) (h3 : r'.tableWrite = r.tableWrite)
    (h4 : r'.frozenLoc = r.frozenLoc) : Joint (.ready r') s' := by
  refine ⟨?_, ?_, ?_, ?_⟩
  · rw [h1.1, h.frozen]
    constructor
    · rintro ⟨x, hx, k⟩; cases hx; exact ⟨r', rfl, fun e => k (h2.mp e)⟩
    · rintro ⟨x, hx, k⟩; cases hx; exact ⟨r, rfl, fun e => k (h2.mpr e)⟩
  · intro x hx k; cases hx
    rw [h4, h1.2]; exact h.write r rfl (by rw [← h3]; exact k)
  · intro x l hx k; cases hx
    have := h.loc r l rfl (by rw [← h4]; exact k)
    exact ⟨fun e => this.1 (h2.mp e), this.2⟩
  · intro l k
    rw [h1.2] at k
    obtain ⟨x, hx, k1, k2⟩ := h.same l k
    cases hx
    exact ⟨r', rfl, by rw [h3]; exact k1, by rw [h4]; exact k2⟩

theorem ops_frozen {r r' : BlockCache.Ready Node} {ops : List (GOp Node)}
    (h : BlockCache.Ops (BlockCache.OpStep A) r ops r') :
    r'.frozen = r.frozen ∧ r'.tableWrite = r.tableWrite ∧ r'.frozenLoc = r.frozenLoc := by
  induction h with
  | nil => exact ⟨rfl, rfl, rfl⟩
  | cons h1 _ ih => cases h1 <;> exact ih

theorem joint_step {b b' : BlockCache.State Node} {s s' : Committer.State} {dop : Op}
    {bop : BlockDisk.Op Node} {vop : VOp} {step : BlockCache.Step Node} (h : Joint b s)
    (hr : s.isFrozen = true → s.status = .ready)
    (hb : BlockCache.Next A b bop vop step b') (hs : Committer.Next c.crc s dop vop s') : Joint b' s' := by
  have h4 : s.status ≠ .ready → s.isFrozen = false ∧ s.frozenLoc = none := by
    intro k
    have e : s.isFrozen = false := by
      cases e : s.isFrozen with
      | false => rfl
      | true => exact absurd (hr e) k
    refine ⟨e, ?_⟩
    cases e2 : s.frozenLoc with
    | none => rfl
    | some l =>
      have := h.frozenLoc_isFrozen (by rw [e2]; exact fun k => nomatch k)
      rw [e] at this; cases this
  cases hb with
  | @writeBackNodeReq r id loc n ref h1 h2 h3 h5 =>
    have := Committer.frozen_same hs (fun k => nomatch k) (fun k => nomatch k) (fun _ k => nomatch k) h4
    exact h.of_same this (by dsimp only; cases r.frozen <;> simp) rfl rfl
  | writeBackNodeResp =>
    have := Committer.frozen_same hs (fun k => nomatch k) (fun k => nomatch k) (fun _ k => nomatch k) h4
    exact h.of_same this Iff.rfl rfl rfl
  | @writeBackTableReq r id loc t h1 h2 h3 h5 h6 h7 =>
    obtain ⟨q1, q2⟩ := Committer.frozen_same hs (fun k => nomatch k) (fun k => nomatch k) (fun _ k => nomatch k) h4
    have hn : s.frozenLoc = none := by
      cases e : s.frozenLoc with
      | none => rfl
      | some l =>
        obtain ⟨x, hx, _, k⟩ := h.same l e
        cases hx; rw [h6] at k; cases k
    refine ⟨?_, ?_, ?_, ?_⟩
    · rw [q1, h.frozen]
      constructor
      · rintro ⟨x, hx, k⟩; cases hx; exact ⟨_, rfl, k⟩
      · rintro ⟨x, hx, k⟩; cases hx; exact ⟨r, rfl, k⟩
    · intro x hx k; cases hx
      exact ⟨fun k => (nomatch k), by rw [q2, hn]⟩
    · intro x l hx k; cases hx; cases k
      exact ⟨by dsimp only; rw [h1]; exact fun k => (nomatch k), h2⟩
    · intro l k; rw [q2, hn] at k; cases k
  | @writeBackTableResp r id loc h1 h2 =>
    obtain ⟨q1, q2⟩ := Committer.frozen_send hs
    refine ⟨?_, ?_, ?_, ?_⟩
    · rw [q1, h.frozen]
      constructor
      · rintro ⟨x, hx, k⟩; cases hx; exact ⟨_, rfl, k⟩
      · rintro ⟨x, hx, k⟩; cases hx; exact ⟨r, rfl, k⟩
    · intro x hx k; cases hx; exact absurd rfl k
    · intro x l hx k; cases hx; exact h.loc r l rfl k
    · intro l k; rw [q2] at k; cases k; exact ⟨_, rfl, rfl, h1⟩
  | unalloc =>
    have := Committer.frozen_same hs (fun k => nomatch k) (fun k => nomatch k) (fun _ k => nomatch k) h4
    exact h.of_same this Iff.rfl rfl rfl
  | pageInNodeReq =>
    have := Committer.frozen_same hs (fun k => nomatch k) (fun k => nomatch k) (fun _ k => nomatch k) h4
    exact h.of_same this Iff.rfl rfl rfl
  | pageInNodeResp =>
    have := Committer.frozen_same hs (fun k => nomatch k) (fun k => nomatch k) (fun _ k => nomatch k) h4
    exact h.of_same this Iff.rfl rfl rfl
  | pageInTableReq =>
    obtain ⟨q1, q2⟩ := Committer.frozen_same hs (fun k => nomatch k) (fun k => nomatch k) (fun _ k => nomatch k) h4
    obtain ⟨e1, e2⟩ := h.early (fun _ k => nomatch k)
    refine ⟨⟨fun k => ?_, ?_⟩, (fun r k => nomatch k), (fun r l k => nomatch k), fun l k => ?_⟩
    · rw [q1, e1] at k; cases k
    · rintro ⟨r, k, _⟩; cases k
    · rw [q2, e2] at k; cases k
  | pageInTableResp =>
    obtain ⟨q1, q2⟩ := Committer.frozen_same hs (fun k => nomatch k) (fun k => nomatch k) (fun _ k => nomatch k) h4
    obtain ⟨e1, e2⟩ := h.early (fun _ k => nomatch k)
    refine ⟨⟨fun k => ?_, ?_⟩, ?_, ?_, fun l k => ?_⟩
    · rw [q1, e1] at k; cases k
    · rintro ⟨r, hx, k⟩; cases hx; exact absurd rfl k
    · intro x hx k; cases hx; exact absurd rfl k
    · intro x l hx k; cases hx; cases k
    · rw [q2, e2] at k; cases k
  | receiveLoc =>
    obtain ⟨q1, q2⟩ := Committer.frozen_same hs (fun k => nomatch k) (fun k => nomatch k) (fun _ k => nomatch k) h4
    obtain ⟨e1, e2⟩ := h.early (fun _ k => nomatch k)
    refine ⟨⟨fun k => ?_, ?_⟩, (fun r k => nomatch k), (fun r l k => nomatch k), fun l k => ?_⟩
    · rw [q1, e1] at k; cases k
    · rintro ⟨r, k, _⟩; cases k
    · rw [q2, e2] at k; cases k
  | evict =>
    have := Committer.frozen_same hs (fun k => nomatch k) (fun k => nomatch k) (fun _ k => nomatch k) h4
    exact h.of_same this Iff.rfl rfl rfl
  | @freeze r h1 =>
    obtain ⟨q1, q2⟩ := Committer.frozen_freeze hs
    refine ⟨⟨fun _ => ⟨_, rfl, fun k => nomatch k⟩, fun _ => q1⟩, ?_, ?_, ?_⟩
    · intro x hx k; cases hx; exact absurd h1 k
    · intro x l hx k; cases hx; cases k
    · intro l k; rw [q2] at k; cases k
  | @cleanUp r l t h1 h2 h3 =>
    obtain ⟨q1, q2⟩ := Committer.frozen_cleanUp hs
    refine ⟨⟨fun k => ?_, ?_⟩, ?_, ?_, ?_⟩
    · rw [q1] at k; cases k
    · rintro ⟨x, hx, k⟩; cases hx; exact absurd rfl k
    · intro x hx k; cases hx; exact absurd h1 k
    · intro x l hx k; cases hx; cases k
    · intro l k; rw [q2] at k; cases k
  | noop hv =>
    obtain ⟨q1, q2⟩ := Committer.frozen_same hs (by rintro rfl; simp at hv) (by rintro rfl; simp at hv)
      (by rintro _ rfl; simp at hv) h4
    exact ⟨by rw [q1]; exact h.frozen, fun r k1 k2 => by rw [q2]; exact h.write r k1 k2, h.loc,
      fun l k => h.same l (by rw [← q2]; exact k)⟩
  | transaction _ _ ho =>
    have := Committer.frozen_same hs (fun k => nomatch k) (fun k => nomatch k) (fun _ k => nomatch k) h4
    obtain ⟨k1, k2, k3⟩ := ops_frozen ho
    exact h.of_same this (by rw [k1]) k2 k3

/-- What `ByteSystem` sees of `Full` (`I`, FullImpl.i.dfy:26-30) -/
def view (s : State Node) : ByteSystem.State Node := ⟨s.b, Committer.view s.s, s.d⟩

theorem cache_step {b b' : BlockCache.State Node} {s s' : Committer.State} {dop : Op} {vop : VOp}
    {step : BlockCache.Step Node} (hcrc : ∀ x, (c.crc x).length = 32)
    (hsb : ∀ x, c.superblock x = SuperblockBytes.ofBytes c.crc x) (h : Inv s) (hj : Joint b s)
    (hn : CacheNext A c b s dop vop step b' s') :
    ByteSystem.CacheNext A c b (Committer.view s) dop vop step b' (Committer.view s') ∧ Inv s' ∧
      Joint b' s' := by
  cases hn with
  | invalid h1 h2 => exact ⟨.invalid h1 h2, h, hj⟩
  | valid hw hb hs =>
    have hj' := joint_step hj h.froze hb hs
    have g := Committer.step_good hcrc hsb h hw (by
      rintro loc rfl
      generalize hbop : ByteSystem.blockOp c dop = bop at hb
      cases hb with
      | @writeBackTableResp r id _ h1 h2 =>
        obtain ⟨k1, k2⟩ := hj.write r rfl (by rw [h2]; exact fun k => nomatch k)
        obtain ⟨k3, k4⟩ := hj.loc r loc rfl h1
        have k5 := hj.frozen.mpr ⟨r, rfl, k3⟩
        exact ⟨h.froze k5, k5, k2, k4⟩
      | noop hv => simp at hv) hs
    exact ⟨.valid g.valid hb g.step, g.inv, hj'⟩

/-- **Every execution of the code is one of the specification it is written against.** -/
theorem exec_refines {ok : Node → Prop} {loc : Loc} {kind : ByteDisk.Kind} (hcrc : ∀ x, (c.crc x).length = 32)
    (hsb : ∀ x, c.superblock x = SuperblockBytes.ofBytes c.crc x) {tr : List (Option (Label Node))}
    {s : State Node} (h : (machine A c ok loc kind).Exec tr s) :
    (ByteSystem.machine A c ok loc kind).Exec tr (view s) ∧ Inv s.s ∧ Joint s.b s.s := by
  refine Machine.exec_invariant (M := machine A c ok loc kind)
    (I := fun tr s => (ByteSystem.machine A c ok loc kind).Exec tr (view s) ∧ Inv s.s ∧ Joint s.b s.s)
    ?_ ?_ h
  · rintro ⟨b, s, d⟩ ⟨h1, h2⟩
    dsimp only at h1 h2 ⊢
    subst h1
    refine ⟨⟨_, h2, .nil _⟩, Committer.init_inv, ?_⟩
    have : b = .unready := h2.2.1.1
    subst this
    exact joint_init _ rfl rfl
  · rintro tr s o s' ⟨h1, h2, h3⟩ hstep
    cases hstep with
    | machine hc hd =>
      obtain ⟨k1, k2, k3⟩ := cache_step hcrc hsb h2 h3 hc
      have st : ByteSystem.Next A c kind (view s) _ (view ⟨_, _, _⟩) := .machine (s := view s) k1 hd
      exact ⟨h1.snoc st, k2, k3⟩
    | disk hd =>
      have st := ByteSystem.Next.disk (A := A) (c := c) (s := view s) hd
      exact ⟨h1.snoc st, h2, h3⟩
    | crash =>
      have st : ByteSystem.Next A c kind (view s) _ (view ⟨_, Committer.init, _⟩) := .crash (s := view s)
      exact ⟨h1.snoc st, Committer.init_inv, joint_init _ rfl rfl⟩

/-- When the committer takes a new table into use, the block side is in the state that `cleanUp`
(IOImpl.i.dfy) asks for. -/
theorem cleanUp_enabled {b : BlockCache.State Node} {s : Committer.State} (h : Inv s) (hj : Joint b s)
    (hs : s.status = .ready) (hc : s.commit = .location) :
    ∃ r l t, b = .ready r ∧ r.tableWrite = none ∧ r.frozenLoc = some l ∧ r.frozen = some t ∧
      s.frozenLoc = some l := by
  obtain ⟨h1, _⟩ := h.location hs hc
  cases e : s.frozenLoc with
  | none => exact absurd e h1
  | some l =>
    obtain ⟨r, hr, k1, k2⟩ := hj.same l e
    cases e2 : r.frozen with
    | none => exact absurd e2 (hj.loc r l hr k2).1
    | some t => exact ⟨r, l, t, hr, k1, k2, e2, rfl⟩

end Full
end Verif.Kv
