import Verif.Props.C30
import Verif.Spec.ClientSpecProof
/-
C32. The system (program, disk with one superblock, client queues) refines the crash-tolerant map.
Specification: `CTAM.machine` (MapSpec_t.rs), the translation of events `Sys.toSpec`
(RefinementObligation_t.rs 34-62), and the trace contract `ClientSpec.Good`.
-/
namespace Verif.C32
open Verif Sys

/-- Every execution of the system in which the program takes sync requests from the client's
queue and answers ones it has taken is, event for event, an execution of the specification.
Missing for the full claim: the system as written does not impose that discipline, and without it
the claim is false (`as_written_not_refined`). -/
theorem refines_partial {c g tr s} (h : (strictMachine c g).Exec tr s) :
    ∃ t, CTAM.machine.Exec (tr.map toSpec) t := by
  obtain ⟨t, ht, _⟩ := Machine.refine (M := strictMachine c g) (N := CTAM.machine) toSpec (Rel c) (fun _ => rel_init)
    (fun s l s' t hr hs => rel_step hr hs.1 hs.2) h
  exact ⟨t, ht⟩

/-- Hence such executions satisfy the client contract: queries see the last put, crashes only drop
a suffix of the puts, acknowledged syncs make puts permanent, replies answer requests. -/
theorem good_partial {c g tr s} (h : (strictMachine c g).Exec tr s) :
    ClientSpec.Good (tr.map toSpec) := by
  obtain ⟨t, ht⟩ := refines_partial h
  exact ClientSpec.ctam_good ht

/-- Durability as the client sees it: when a sync the client sent at position `i` is answered to the
client at position `j`, all puts in effect at `i` stay in effect at every later moment, even if the
system crashed between producing the answer and handing it over. -/
theorem client_sync_durable_partial {c g tr s} (h : (strictMachine c g).Exec tr s) :
    ∃ H, ClientSpec.Explains (tr.map toSpec) H ∧
      ∀ (i j : Nat) (id : SyncReqId), tr[i]? = some (.acceptSync id) → tr[j]? = some (.deliverSync id) →
        i < j ∧ ∀ n, j ≤ n → n ≤ tr.length → H i <+: H n := by
  obtain ⟨⟨H, hE⟩, _⟩ := good_partial h
  refine ⟨H, hE, ?_⟩
  intro i j id hi hj
  obtain ⟨i', a, b, hia, hab, hbj, hi', ha, hb, hnc⟩ := (C30.syncs_match h).answered j id hj
  have : i' = i := (C30.replies_match (strict_exec h)).issuedOnce id i' i _ _ hi' hi (.inr rfl) (.inr rfl)
  subst this
  refine ⟨by omega, ?_⟩
  have map : ∀ {k : Nat} {l : Label}, tr[k]? = some l → (tr.map toSpec)[k]? = some (toSpec l) := by
    intro k l hk; rw [List.getElem?_map, hk]; rfl
  have nocr : ∀ m, i' < m → m < b → (tr.map toSpec)[m]? ≠ some .crash := by
    intro m h1 h2 hm
    rw [List.getElem?_map] at hm
    cases hx : tr[m]? with
    | none => rw [hx] at hm; cases hm
    | some l =>
      rw [hx] at hm
      cases l <;> simp [toSpec] at hm
      exact hnc m h1 h2 hx
  -- from the client's request to the program's
  have grow : ∀ k, i' ≤ k → k ≤ a → H i' <+: H k := by
    intro k hk
    induction k with
    | zero => intro _; have : i' = 0 := by omega
              subst this; exact List.prefix_refl _
    | succ k ih =>
      intro hk'
      by_cases he : i' = k + 1
      · subst he; exact List.prefix_refl _
      · refine (ih (by omega) (by omega)).trans ?_
        have hlt : k < tr.length := by
          have := (List.getElem?_eq_some_iff.mp ha).1; omega
        have hk1 := map (List.getElem?_eq_getElem hlt)
        rw [hE.step k _ hk1 ?_]
        · exact List.prefix_append _ _
        · by_cases hki : k = i'
          · subst hki
            have := map hi'
            rw [this] at hk1; injection hk1 with hk1; rw [← hk1]; simp [toSpec]
          · intro hc; rw [hc] at hk1; exact nocr k (by omega) (by omega) hk1
  intro n h1 h2
  refine (grow a (by omega) (Nat.le_refl _)).trans ?_
  exact hE.durable a b id hab (map ha) (map hb) (fun m h1 h2 => nocr m (by omega) h2) n (by omega)
    (by simpa using h2)

/-- The hypothesis is met by an execution with a recovery, a put, a sync, a crash before the sync
reply is handed over, a second recovery and a query. -/
example (c : Codec) (g : Geometry) (hg : sbAddr.wf g) : ClientSpec.Good ((demoTrace c).map toSpec) := by
  obtain ⟨s, hs⟩ := demo_exec c g hg
  exact good_partial hs

/-- In it, the put of position 4 is in effect for ever after the sync reply at position 13. -/
example (c : Codec) (g : Geometry) (hg : sbAddr.wf g) :
    ∃ H, ClientSpec.Explains ((demoTrace c).map toSpec) H ∧ H 6 = [(1, 7)] ∧ [(1, 7)] <+: H 20 := by
  obtain ⟨s, hs⟩ := demo_exec c g hg
  obtain ⟨H, hE, hd⟩ := client_sync_durable_partial hs
  have h0 := hE.start
  have h1 := hE.step 0 _ rfl (by simp [toSpec])
  have h2 := hE.step 1 _ rfl (by simp [toSpec])
  have h3 := hE.step 2 _ rfl (by simp [toSpec])
  have h4 := hE.step 3 _ rfl (by simp [toSpec])
  have h5 := hE.step 4 _ rfl (by simp [toSpec])
  have h6 := hE.step 5 _ rfl (by simp [toSpec])
  have h7 : H 6 = [(1, 7)] := by
    rw [h6, h5, h4, h3, h2, h1, h0]
    simp [toSpec, ClientSpec.putsOf, demoPut]
  refine ⟨H, hE, h7, ?_⟩
  rw [← h7]
  exact (hd 6 13 11 rfl rfl).2 20 (by omega) (by simp [demoTrace, recoverTrace, commitTrace])

/-! ### The system as written -/

/-- RefinementObligation_t.rs 23-29 `externally_visible` -/
def visible : CTAM.Label → Bool
  | .operate (.request _) => true
  | .operate (.reply _) => true
  | .reqSync _ => true
  | .replySync _ => true
  | .crash => true
  | _ => false

/-- The refinement the source claims (RefinementObligation_t.rs, `next_refines`) does not hold of
the model as written: some execution has visible events no execution of the specification has. -/
theorem as_written_not_refined (c : Codec) (g : Geometry) (hg : sbAddr.wf g) :
    ∃ tr s, (machine c g).Exec tr s ∧
      ¬ ∃ tr' t, CTAM.machine.Exec tr' t ∧ tr'.filter visible = (tr.map toSpec).filter visible := by
  have h1 := run_recover (c := c) hg (s := fresh c)
    (page := c.marshall ⟨TotalKMMap.empty, 0⟩) 0 rfl rfl rfl (by simp [fresh])
  rw [c.roundTrip] at h1
  have h2 := strict_exec ⟨fresh c, fresh_init c, h1⟩
  have h3 := h2.snoc (.programDeliverSync (id := 5) (.mk rfl (by intro v hv; cases hv)))
  refine ⟨_, _, h3, ?_⟩
  rintro ⟨tr', t, ht, hf⟩
  have hf : tr'.filter visible = [.replySync 5] := by
    rw [hf]; simp [recoverTrace, toSpec, visible]
  have hm : CTAM.Label.replySync 5 ∈ tr' := by
    have : CTAM.Label.replySync 5 ∈ tr'.filter visible := by rw [hf]; simp
    exact (List.mem_filter.mp this).1
  obtain ⟨j, hj⟩ := List.getElem?_of_mem hm
  obtain ⟨i, _, hi, _⟩ := (ClientSpec.ctam_matched ht).synced j 5 hj
  have : CTAM.Label.reqSync 5 ∈ tr'.filter visible :=
    List.mem_filter.mpr ⟨List.mem_of_getElem? hi, rfl⟩
  rw [hf] at this
  simp at this

/-- ModelRefinement_v.rs 103-109 `sync_requests_inv`, second conjunct: while the program runs, the ids
it has recorded are the ids of the queued sync requests. -/
def SourceSyncInv (s : State) : Prop :=
  s.program.recovery = .complete → ∀ id, s.program.syncReqs.Has id ↔ s.syncRequests.Has id

/-- That stated invariant does not survive the program accepting a sync request it was sent, even
under the discipline. -/
theorem source_sync_inv_not_inductive (c : Codec) (g : Geometry) (hg : sbAddr.wf g) :
    ∃ s, (strictMachine c g).Reachable s ∧ ¬ SourceSyncInv s := by
  refine ⟨demoMid c, ⟨_, demo_mid c g hg⟩, ?_⟩
  intro h
  have := (h rfl 11).mp (by simp [demoMid, PMap.Has])
  simp [demoMid, fresh] at this

end Verif.C32
