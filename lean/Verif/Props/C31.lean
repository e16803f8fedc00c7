import Verif.Impl.SystemDemo
/-
C31. A sync reply is only produced when the disk holds what the sync asked for.
Specification: two moments of one execution of the system as written, the program accepting a sync
and later answering it with no crash in between; what the superblock page on the disk then decodes
to is the map that was current at some moment at or after the acceptance.
-/
namespace Verif.C31
open Verif Sys

/-- The map current in a state and its version number. -/
def Current (s : State) (n : Nat) (m : Version) : Prop :=
  s.program.history.len - 1 = n ∧ s.program.history.last? = some m

/-- What is known during a crash-free stretch after a sync was accepted at version `n0`. -/
structure Waiting (c : Codec) (g : Geometry) (id : SyncReqId) (n0 : Nat) (s0 : State) (u : List Label)
    (s : State) : Prop where
  disk : ∃ v, DiskRel c s.program s.disk v
  run : (machine c g).Run s0 u s
  ready : s.program.recovery = .complete
  len : n0 + 1 ≤ s.program.history.len
  ids : s.program.syncReqs id = some n0
  moments : ∀ k m, n0 ≤ k → s.program.history.get? k = some m →
    ∃ u1 u2 s', u = u1 ++ u2 ∧ (machine c g).Run s0 u1 s' ∧ Current s' k m

theorem Waiting.keep {c g id n0 s0 u s l s'} (h : Waiting c g id n0 s0 u s)
    (hs : (machine c g).Step s l s') (hr : s'.program.recovery = .complete)
    (hid : s'.program.syncReqs id = some n0) (hlen : s.program.history.len ≤ s'.program.history.len)
    (hsub : ∀ k m, s'.program.history.get? k = some m →
      s.program.history.get? k = some m ∨ Current s' k m) :
    Waiting c g id n0 s0 (u ++ [l]) s' := by
  refine ⟨disk_inv_step h.disk hs, h.run.snoc hs, hr, Nat.le_trans h.len hlen, hid, ?_⟩
  intro k m hk hm
  rcases hsub k m hm with hm | hm
  · obtain ⟨u1, u2, s1, rfl, h1, h2⟩ := h.moments k m hk hm
    exact ⟨u1, u2 ++ [l], s1, by simp, h1, h2⟩
  · exact ⟨u ++ [l], [], s', by simp, h.run.snoc hs, hm⟩

theorem waiting_step {c g id n0 s0 u s l s'} (h : Waiting c g id n0 s0 u s)
    (hs : (machine c g).Step s l s') (h1 : l ≠ .crash) (h2 : l ≠ .programAcceptSync id)
    (h3 : l ≠ .programDeliverSync id) : Waiting c g id n0 s0 (u ++ [l]) s' := by
  have hs0 := hs
  obtain ⟨v, hd⟩ := h.disk
  have hready := hd.ready h.ready
  cases hs with
  | acceptRequest => exact h.keep hs0 h.ready h.ids (Nat.le_refl _) (fun _ _ h => .inl h)
  | deliverReply => exact h.keep hs0 h.ready h.ids (Nat.le_refl _) (fun _ _ h => .inl h)
  | @execute req reply p' hq hp =>
    cases hp with
    | @mk h' m m' hr hlo hhi hpre hid hm hm' hn =>
      refine h.keep hs0 hr h.ids hlo ?_
      intro k x hx
      have hne : s.program.history.start < s.program.history.len := by omega
      rcases FloatingSeq.same_or_append hne hpre hlo hhi with rfl | ⟨y, rfl⟩
      · exact .inl hx
      · by_cases hk : k < s.program.history.len
        · left
          have hx : (s.program.history.append [y]).get? k = some x := hx
          unfold FloatingSeq.get? FloatingSeq.append FloatingSeq.len at *
          simp only at hx
          split at hx
          · rw [if_pos (by assumption)]
            rwa [List.getElem?_append_left (by omega)] at hx
          · cases hx
        · right
          have hx : (s.program.history.append [y]).get? k = some x := hx
          have hact := active_of_get? hx
          have hlen : (s.program.history.append [y]).len = s.program.history.len + 1 := by
            unfold FloatingSeq.append FloatingSeq.len; simp; omega
          have hk' : k = s.program.history.len := by omega
          subst hk'
          refine ⟨by show (s.program.history.append [y]).len - 1 = _; omega, ?_⟩
          show FloatingSeq.get? _ _ = _
          rw [show (s.program.history.append [y]).len - 1 = s.program.history.len by omega]
          exact hx
  | acceptSync => exact h.keep hs0 h.ready h.ids (Nat.le_refl _) (fun _ _ h => .inl h)
  | @programAcceptSync id' p' hp =>
    cases hp with
    | mk hr =>
      refine h.keep hs0 hr ?_ (Nat.le_refl _) (fun _ _ h => .inl h)
      show PMap.insert _ _ _ _ = _
      rw [PMap.insert_other _ _ (by rintro rfl; exact h2 rfl)]; exact h.ids
  | @programDeliverSync id' p' hp =>
    cases hp with
    | mk hr =>
      refine h.keep hs0 hr ?_ (Nat.le_refl _) (fun _ _ h => .inl h)
      show PMap.remove _ _ _ = _
      rw [PMap.remove_other _ (by rintro rfl; exact h3 rfl)]; exact h.ids
  | deliverSync => exact h.keep hs0 h.ready h.ids (Nat.le_refl _) (fun _ _ h => .inl h)
  | @programDisk rq rs p' d' hp hdd =>
    have hd' := (hd.ops hp hdd)
    cases hp with
    | initiateRecovery hb => rw [h.ready] at hb; cases hb
    | completeRecovery hb => rw [h.ready] at hb; cases hb
    | syncBegin hr hf hm => exact h.keep hs0 hr h.ids (Nat.le_refl _) (fun _ _ h => .inl h)
    | @syncEnd i hr hf =>
      have hlen := (hd'.1.ready rfl).2.1
      refine h.keep hs0 rfl h.ids ?_ ?_
      · show s.program.history.len ≤ (s.program.history.getSuffix i.version).len
        have : (s.program.history.getSuffix i.version).len = v.len := hlen.symm
        rw [this, hready.2.1]; exact Nat.le_refl _
      · intro k x hx
        left
        have hx : (s.program.history.getSuffix i.version).get? k = some x := hx
        have hi : s.program.history.start ≤ i.version := by
          cases hd with
          | begin hp' => rw [h.ready] at hp'; cases hp'
          | reading hp' => rw [h.ready] at hp'; cases hp'
          | read hp' => rw [h.ready] at hp'; cases hp'
          | idle _ _ hf' => rw [hf] at hf'; cases hf'
          | writing _ _ hf' hi => rw [hf] at hf'; cases hf'; exact (active_of_get? hi).1
          | written _ _ hf' hi => rw [hf] at hf'; cases hf'; exact (active_of_get? hi).1
        rw [FloatingSeq.get?_getSuffix _ _ _ hi] at hx
        split at hx
        · exact hx
        · cases hx
  | programInternal => exact h.keep hs0 h.ready h.ids (Nat.le_refl _) (fun _ _ h => .inl h)
  | diskRead => exact h.keep hs0 h.ready h.ids (Nat.le_refl _) (fun _ _ h => .inl h)
  | diskWrite => exact h.keep hs0 h.ready h.ids (Nat.le_refl _) (fun _ _ h => .inl h)
  | crash => exact absurd rfl h1
  | noop => exact h.keep hs0 h.ready h.ids (Nat.le_refl _) (fun _ _ h => .inl h)

theorem waiting_run {c g id n0 s0} {u s} (h0 : Waiting c g id n0 s0 [] s0)
    (hr : (machine c g).Run s0 u s)
    (hu : ∀ l ∈ u, l ≠ .crash ∧ l ≠ .programAcceptSync id ∧ l ≠ .programDeliverSync id) :
    Waiting c g id n0 s0 u s := by
  have aux : ∀ {s1 w s2}, (machine c g).Run s1 w s2 → ∀ pre, Waiting c g id n0 s0 pre s1 →
      (∀ l ∈ w, l ≠ .crash ∧ l ≠ .programAcceptSync id ∧ l ≠ .programDeliverSync id) →
      Waiting c g id n0 s0 (pre ++ w) s2 := by
    intro s1 w s2 hr
    induction hr with
    | nil => intro pre h _; simpa using h
    | cons hs _ ih =>
      intro pre h hl
      obtain ⟨a, b, e⟩ := hl _ (List.mem_cons_self ..)
      have := ih _ (waiting_step h hs a b e) (fun l hm => hl l (List.mem_cons_of_mem _ hm))
      rwa [List.append_assoc, List.singleton_append] at this
  simpa using aux hr [] h0 hu

/-- The program accepts sync `id` in state `s1` and answers it in `s2`, with no crash and no other
accepting or answering of `id` in between. Then the version recorded as persistent is at least the
version current in `s1`; and the superblock page on the disk decodes to a version number and a map
that were current together at some moment at or after the acceptance. -/
theorem sync_reply_persistent {c g tr s1 id s1' u s2 s3} (h : (machine c g).Exec tr s1)
    (ha : (machine c g).Step s1 (.programAcceptSync id) s1') (hr : (machine c g).Run s1' u s2)
    (hu : ∀ l ∈ u, l ≠ .crash ∧ l ≠ .programAcceptSync id ∧ l ≠ .programDeliverSync id)
    (hd : (machine c g).Step s2 (.programDeliverSync id) s3) :
    s1.program.history.len - 1 ≤ s2.program.persistent ∧
    ∃ page u1 u2 s, s2.disk.content sbAddr = some page ∧ u = u1 ++ u2 ∧ (machine c g).Run s1' u1 s ∧
      Current s (c.unmarshall page).version (c.unmarshall page).store ∧
      s1.program.history.len - 1 ≤ (c.unmarshall page).version := by
  have hd1 : ∃ v, DiskRel c s1.program s1.disk v :=
    Machine.reachable_invariant (M := machine c g) (I := fun s => ∃ v, DiskRel c s.program s.disk v)
      (fun _ hs => ⟨_, disk_inv_init hs⟩) (fun _ _ _ h hs => disk_inv_step h hs) ⟨_, h⟩
  have hd1' := disk_inv_step hd1 ha
  have hw : Waiting c g id (s1.program.history.len - 1) s1' [] s1' := by
    cases ha with
    | programAcceptSync hp =>
      cases hp with
      | mk hrd =>
        obtain ⟨v, hd1⟩ := hd1
        have := hd1.ready hrd
        refine ⟨hd1', .nil _, hrd, ?_, PMap.insert_same _ _ _, ?_⟩
        · show _ ≤ s1.program.history.len; omega
        · intro k m hk hm
          have hm : s1.program.history.get? k = some m := hm
          have hact := active_of_get? hm
          refine ⟨[], [], _, rfl, .nil _, ?_⟩
          have hk' : k = s1.program.history.len - 1 := by omega
          subst hk'
          exact ⟨rfl, hm⟩
  have hw := waiting_run hw hr hu
  cases hd with
  | programDeliverSync hp =>
    cases hp with
    | mk hrd hv =>
      have hle : s1.program.history.len - 1 ≤ s2.program.history.start := hv _ hw.ids
      obtain ⟨v, hd⟩ := hw.disk
      have hre := hd.ready hrd
      obtain ⟨page, hc, hs, hg⟩ := hd.stable
      have hget : s2.program.history.get? (c.unmarshall page).version = some (c.unmarshall page).store := by
        rw [← hs]
        cases hd with
        | begin hp' => rw [hw.ready] at hp'; cases hp'
        | reading hp' => rw [hw.ready] at hp'; cases hp'
        | read hp' => rw [hw.ready] at hp'; cases hp'
        | idle => exact hg
        | writing => exact hg
        | written _ _ _ hi =>
          have := (active_of_get? hi).1
          rw [FloatingSeq.get?_getSuffix _ _ _ this] at hg
          split at hg
          · exact hg
          · cases hg
      have hle2 : s1.program.history.len - 1 ≤ (c.unmarshall page).version := by
        rw [← hs]; exact Nat.le_trans hle hre.1
      obtain ⟨u1, u2, s', hu', hr', hcur⟩ := hw.moments _ _ hle2 hget
      exact ⟨by rw [hre.2.2.2.2]; exact hle, page, u1, u2, s', hc, hu', hr', hcur, hle2⟩

/-- The hypotheses are met: a put, the sync accepted, the superblock written, the sync answered. At
acceptance the version was 1, and it is what the disk holds. -/
example (c : Codec) (g : Geometry) (hg : sbAddr.wf g) :
    ∃ tr s1 s1' u s2 s3, (machine c g).Exec tr s1 ∧ (machine c g).Step s1 (.programAcceptSync 11) s1' ∧
      (machine c g).Run s1' u s2 ∧
      (∀ l ∈ u, l ≠ .crash ∧ l ≠ .programAcceptSync 11 ∧ l ≠ .programDeliverSync 11) ∧
      (machine c g).Step s2 (.programDeliverSync 11) s3 ∧
      s1.program.history.len - 1 = 1 ∧ s1.program.persistent = 0 ∧
      s2.disk.content sbAddr = some (c.marshall ⟨demoMap, 1⟩) := by
  obtain ⟨s0, h0, hrun⟩ := strict_exec (demo_mid c g hg)
  have hsplit : (machine c g).Run s0
      (([.acceptRequest demoPut] ++ recoverTrace 0 (c.marshall ⟨TotalKMMap.empty, 0⟩) ++
       [.execute demoPut demoPutReply, .deliverReply demoPutReply, .acceptSync 11]) ++
        [.programAcceptSync 11]) (demoMid c) := by
    simpa only [List.append_assoc, List.cons_append, List.nil_append] using hrun
  obtain ⟨s1, h1, h2⟩ := hsplit.split
  have ha : (machine c g).Step s1 (.programAcceptSync 11) (demoMid c) := by
    cases h2 with
    | cons hs hn => cases hn; exact hs
  have h3 := run_commit (c := c) hg (s := demoMid c) (m := demoMap) 1 rfl rfl rfl rfl rfl
  have h3' := strict_run h3
  have hprog : s1.program = { (demoMid c).program with syncReqs := s1.program.syncReqs } := by
    have hs := ha
    generalize hm : demoMid c = sm at hs
    cases hs with
    | @programAcceptSync _ p' hp =>
      cases hp with
      | mk hr => rfl
  refine ⟨_, s1, demoMid c, _, _, _, ⟨s0, h0, h1⟩, ha, h3', ?_,
    .programDeliverSync (id := 11) (.mk rfl ?_), ?_, ?_, ?_⟩
  · simp [commitTrace]
  · intro v hv
    have hv : (PMap.empty.insert 11 1 : PMap SyncReqId Nat) 11 = some v := hv
    rw [PMap.insert_same] at hv; cases hv; exact Nat.le_refl 1
  · rw [hprog]; rfl
  · rw [hprog]; rfl
  · show (PMap.insert (demoMid c).disk.content sbAddr _) sbAddr = _
    rw [PMap.insert_same]; rfl

end Verif.C31
