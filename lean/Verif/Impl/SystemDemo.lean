import Verif.Impl.SystemProof
/-
Concrete executions of the system: recovery, an executed put, a committed superblock, a sync
reply, a crash and a second recovery that answers a query. They are the witnesses that the
hypotheses of C30-C32 can be met. No code is modelled here.
-/
namespace Verif.Sys
open AsyncDisk (Req Resp)

/-- A freshly formatted disk and a program that has not started. -/
def fresh (c : Codec) : State :=
  { program := ⟨.begin, ⟨0, []⟩, 0, none, PMap.empty⟩
    disk := ⟨PMap.empty, PMap.empty, PMap.empty.insert sbAddr (c.marshall ⟨TotalKMMap.empty, 0⟩)⟩
    requests := MSet.empty
    replies := MSet.empty
    syncRequests := MSet.empty
    syncReplies := MSet.empty
    idHistory := MSet.empty }

theorem fresh_init (c : Codec) : Init c (fresh c) := by
  refine ⟨?_, rfl, rfl, rfl, rfl, rfl, rfl, rfl, rfl⟩
  simp [fresh]

/-- The three events of a recovery. -/
def recoverTrace (id : AsyncDisk.ID) (page : RawPage) : List Label :=
  [.programDisk (one id (.read sbAddr)) PMap.empty, .diskRead id sbAddr page,
   .programDisk PMap.empty (one id (.read page))]

/-- The three events of a superblock write. -/
def commitTrace (id : AsyncDisk.ID) (page : RawPage) : List Label :=
  [.programDisk (one id (.write sbAddr page)) PMap.empty, .diskWrite id sbAddr page,
   .programDisk PMap.empty (one id .write)]

theorem run_recover {c : Codec} {g : Geometry} (hg : sbAddr.wf g) {s : State} {page} (id : AsyncDisk.ID)
    (hp : s.program.recovery = .begin) (hq : s.disk.requests = PMap.empty)
    (hr : s.disk.responses = PMap.empty) (hc : s.disk.content sbAddr = some page) :
    (strictMachine c g).Run s (recoverTrace id page)
      { s with
        program :=
          { recovery := .complete
            history := singletonSeq (c.unmarshall page).version (c.unmarshall page).store
            persistent := (c.unmarshall page).version
            inFlight := none
            syncReqs := PMap.empty } } := by
  obtain ⟨p, ⟨q, r, ct⟩, rest⟩ := s
  simp only at hq hr hc hp; subst hq; subst hr
  have h1 : AsyncDisk.Next g ⟨PMap.empty, PMap.empty, ct⟩ (.ops (one id (.read sbAddr)) PMap.empty)
      ⟨one id (.read sbAddr), PMap.empty, ct⟩ := by
    have := AsyncDisk.Next.ops (g := g) (s := ⟨PMap.empty, PMap.empty, ct⟩)
      (rq := one id (.read sbAddr)) (rs := PMap.empty) (by simp [PMap.Has]) (by simp [PMap.Has])
      (by simp)
    simpa only [union_one, take_empty] using this
  have h2 : AsyncDisk.Next g ⟨one id (.read sbAddr), PMap.empty, ct⟩ (.didRead id sbAddr page)
      ⟨PMap.empty, one id (.read page), ct⟩ := by
    have := AsyncDisk.Next.read (g := g) (s := ⟨one id (.read sbAddr), PMap.empty, ct⟩)
      (id := id) (a := sbAddr) (d := page) (by simp) hg
      (by simp only; intro x hx; rw [hc] at hx; cases hx; rfl)
    simp only [remove_one] at this; exact this
  have h3 : AsyncDisk.Next g ⟨PMap.empty, one id (.read page), ct⟩
      (.ops PMap.empty (one id (.read page))) ⟨PMap.empty, PMap.empty, ct⟩ := by
    have := AsyncDisk.Next.ops (g := g) (s := ⟨PMap.empty, one id (.read page), ct⟩)
      (rq := PMap.empty) (rs := one id (.read page)) (by simp [PMap.Has]) (by simp [PMap.Has])
      (fun _ _ h => h)
    simpa only [union_empty, take_one] using this
  refine .cons ⟨.programDisk (.initiateRecovery hp) h1, trivial⟩ ?_
  refine .cons ⟨.diskRead h2, trivial⟩ ?_
  refine .cons ⟨.programDisk (.completeRecovery rfl) h3, trivial⟩ ?_
  exact .nil _

theorem run_commit {c : Codec} {g : Geometry} (hg : sbAddr.wf g) {s : State} {m} (id : AsyncDisk.ID)
    (hp : s.program.recovery = .complete) (hf : s.program.inFlight = none)
    (hm : s.program.history.last? = some m)
    (hq : s.disk.requests = PMap.empty) (hr : s.disk.responses = PMap.empty) :
    (strictMachine c g).Run s (commitTrace id (c.marshall ⟨m, s.program.history.len - 1⟩))
      { s with
        program :=
          { s.program with
            recovery := .complete
            history := s.program.history.getSuffix (s.program.history.len - 1)
            inFlight := none
            persistent := s.program.history.len - 1 }
        disk :=
          { s.disk with
            content := s.disk.content.insert sbAddr (c.marshall ⟨m, s.program.history.len - 1⟩) } } := by
  obtain ⟨p, ⟨q, r, ct⟩, rest⟩ := s
  simp only at hq hr hm hp hf; subst hq; subst hr
  generalize hpage : c.marshall ⟨m, p.history.len - 1⟩ = page
  have h1 : AsyncDisk.Next g ⟨PMap.empty, PMap.empty, ct⟩ (.ops (one id (.write sbAddr page)) PMap.empty)
      ⟨one id (.write sbAddr page), PMap.empty, ct⟩ := by
    have := AsyncDisk.Next.ops (g := g) (s := ⟨PMap.empty, PMap.empty, ct⟩)
      (rq := one id (.write sbAddr page)) (rs := PMap.empty) (by simp [PMap.Has]) (by simp [PMap.Has])
      (by simp)
    simpa only [union_one, take_empty] using this
  have h2 : AsyncDisk.Next g ⟨one id (.write sbAddr page), PMap.empty, ct⟩ (.didWrite id sbAddr page)
      ⟨PMap.empty, one id .write, ct.insert sbAddr page⟩ := by
    have := AsyncDisk.Next.write (g := g) (s := ⟨one id (.write sbAddr page), PMap.empty, ct⟩)
      (id := id) (a := sbAddr) (d := page) (by simp) hg
    simp only [remove_one] at this; exact this
  have h3 : AsyncDisk.Next g ⟨PMap.empty, one id .write, ct.insert sbAddr page⟩
      (.ops PMap.empty (one id .write)) ⟨PMap.empty, PMap.empty, ct.insert sbAddr page⟩ := by
    have := AsyncDisk.Next.ops (g := g) (s := ⟨PMap.empty, one id .write, ct.insert sbAddr page⟩)
      (rq := PMap.empty) (rs := one id .write) (by simp [PMap.Has]) (by simp [PMap.Has])
      (fun _ _ h => h)
    simpa only [union_empty, take_one] using this
  refine .cons ⟨.programDisk (hpage ▸ AtomicState.DiskTransition.syncBegin (c := c) (id := id) hp hf hm) h1, trivial⟩ ?_
  refine .cons ⟨.diskWrite h2, trivial⟩ ?_
  refine .cons ⟨.programDisk (.syncEnd (i := ⟨p.history.len - 1, id⟩) hp rfl) h3, trivial⟩ ?_
  exact .nil _

def demoPut : Request := { input := .put 1 7, id := 10 }
def demoPutReply : Reply := { output := .put, id := 10 }
def demoQuery : Request := { input := .query 1, id := 12 }
def demoQueryReply : Reply := { output := .query 7, id := 12 }
def demoMap : Version := TotalKMMap.empty.insert 1 (.define 7)

/-- Recovery, a put, its reply, a sync request, a commit, the sync reply, a crash before the
reply is delivered, its delivery, a second recovery and a query. -/
def demoTrace (c : Codec) : List Label :=
  [.acceptRequest demoPut] ++
  recoverTrace 0 (c.marshall ⟨TotalKMMap.empty, 0⟩) ++
  [.execute demoPut demoPutReply, .deliverReply demoPutReply, .acceptSync 11, .programAcceptSync 11] ++
  commitTrace 1 (c.marshall ⟨demoMap, 1⟩) ++
  [.programDeliverSync 11, .crash, .deliverSync 11] ++
  recoverTrace 0 (c.marshall ⟨demoMap, 1⟩) ++
  [.acceptRequest demoQuery, .execute demoQuery demoQueryReply, .deliverReply demoQueryReply]

/-- the state after the put is executed, answered, and the sync accepted -/
def demoMid (c : Codec) : State :=
  { fresh c with
    program := ⟨.complete, ⟨0, [TotalKMMap.empty, demoMap]⟩, 0, none, PMap.empty.insert 11 1⟩
    idHistory := (MSet.empty.insert 10).insert 11 }

theorem insert_remove {α : Type} [DecidableEq α] (m : MSet α) (x : α) : (m.insert x).remove x = m := by
  funext y; unfold MSet.insert MSet.remove; split <;> simp_all

theorem demo_mid (c : Codec) (g : Geometry) (hg : sbAddr.wf g) :
    (strictMachine c g).Exec
      ([.acceptRequest demoPut] ++ recoverTrace 0 (c.marshall ⟨TotalKMMap.empty, 0⟩) ++
       [.execute demoPut demoPutReply, .deliverReply demoPutReply, .acceptSync 11,
        .programAcceptSync 11])
      (demoMid c) := by
  refine ⟨fresh c, fresh_init c, ?_⟩
  have h1 : (strictMachine c g).Run (fresh c) [.acceptRequest demoPut]
      { fresh c with requests := MSet.empty.insert demoPut, idHistory := MSet.empty.insert 10 } :=
    .single ⟨.acceptRequest (by simp [State.freshId, fresh]), trivial⟩
  have h2 := run_recover (c := c) hg (s := { fresh c with
    requests := MSet.empty.insert demoPut, idHistory := MSet.empty.insert 10 })
    (page := c.marshall ⟨TotalKMMap.empty, 0⟩) 0 rfl rfl rfl (by simp [fresh])
  rw [c.roundTrip, singletonSeq_eq] at h2
  refine (h1.append h2).append ?_
  refine .cons ⟨.execute (req := demoPut) (reply := demoPutReply) (MSet.has_insert.mpr (.inl rfl))
    (.mk (h' := ⟨0, [TotalKMMap.empty, demoMap]⟩) (m := TotalKMMap.empty) (m' := demoMap)
      rfl ?_ ?_ ?_ rfl ?_ ?_ .put), trivial⟩ ?_
  · simp [FloatingSeq.len]
  · simp [FloatingSeq.len]
  · simp [FloatingSeq.len, FloatingSeq.getPrefix]
  · simp [FloatingSeq.last?, FloatingSeq.get?, FloatingSeq.len]
  · simp [FloatingSeq.last?, FloatingSeq.get?, FloatingSeq.len]
  refine .cons ⟨.deliverReply (reply := demoPutReply) (MSet.has_insert.mpr (.inl rfl)), trivial⟩ ?_
  refine .cons ⟨.acceptSync (id := 11) ?_, trivial⟩ ?_
  · unfold State.freshId; simp only [MSet.has_insert]; simp
  refine .cons ⟨.programAcceptSync (id := 11) (.mk rfl), ?_⟩ ?_
  · show MSet.Has _ _; exact MSet.has_insert.mpr (.inl rfl)
  simp only [insert_remove]
  exact .nil _

/-- The whole demonstration is an execution, of the strict system (hence of the system as
written). -/
theorem demo_exec (c : Codec) (g : Geometry) (hg : sbAddr.wf g) :
    ∃ s, (strictMachine c g).Exec (demoTrace c) s := by
  obtain ⟨s0, h0, hrun⟩ := demo_mid c g hg
  have h2 := run_commit (c := c) hg (s := demoMid c) (m := demoMap) 1 rfl rfl rfl rfl rfl
  have h3 := hrun.append h2
  -- the sync reply, the crash, its delivery
  let s3 : State := { demoMid c with
    program := ⟨.complete, ⟨1, [demoMap]⟩, 1, none, PMap.empty.insert 11 1⟩
    disk := ⟨PMap.empty, PMap.empty,
      ((fresh c).disk.content).insert sbAddr (c.marshall ⟨demoMap, 1⟩)⟩ }
  have h3 : (strictMachine c g).Run s0 (_ ++ commitTrace 1 (c.marshall ⟨demoMap, 1⟩)) s3 := h3
  have h4 : ∃ s4, (strictMachine c g).Run s3 ([.programDeliverSync 11, .crash, .deliverSync 11] ++
      recoverTrace 0 (c.marshall ⟨demoMap, 1⟩) ++
      [.acceptRequest demoQuery, .execute demoQuery demoQueryReply, .deliverReply demoQueryReply]) s4 := by
    have h5 : ∃ s5, (strictMachine c g).Run s3 [.programDeliverSync 11, .crash, .deliverSync 11] s5 ∧
        s5.program.recovery = .begin ∧ s5.disk = s3.disk ∧
        s5.idHistory = (MSet.empty.insert 10).insert 11 ∧ s5.requests = MSet.empty := by
      refine ⟨_, .cons ⟨.programDeliverSync (id := 11) (.mk rfl ?_), ?_⟩
        (.cons ⟨.crash (p' := (fresh c).program) rfl .crash, trivial⟩
          (.cons ⟨.deliverSync (id := 11) (MSet.has_insert.mpr (.inl rfl)), trivial⟩ (.nil _))),
        rfl, rfl, rfl, rfl⟩
      · intro v hv; simp [s3] at hv; subst hv; exact Nat.le_refl 1
      · show PMap.Has _ _; simp [s3, PMap.Has]
    obtain ⟨s5, hr5, hb, hd, hid, hrq⟩ := h5
    have h6 := run_recover (c := c) hg (s := s5) (page := c.marshall ⟨demoMap, 1⟩) 0 hb
      (by rw [hd]) (by rw [hd]) (by rw [hd]; simp [s3])
    rw [c.roundTrip, singletonSeq_eq] at h6
    refine ⟨_, (hr5.append h6).append (.cons ⟨.acceptRequest (req := demoQuery) ?_, trivial⟩
      (.cons ⟨.execute (req := demoQuery) (reply := demoQueryReply) (MSet.has_insert.mpr (.inl rfl))
        (.mk (m := demoMap) (m' := demoMap) (h' := ⟨1, [demoMap]⟩) rfl ?_ ?_ ?_ rfl ?_ ?_
          (.query ?_)), trivial⟩
        (.cons ⟨.deliverReply (reply := demoQueryReply) (MSet.has_insert.mpr (.inl rfl)), trivial⟩ (.nil _))))⟩
    · unfold State.freshId; simp only [hid, MSet.has_insert, demoQuery]; simp
    · simp [FloatingSeq.len]
    · simp [FloatingSeq.len]
    · simp [FloatingSeq.len, FloatingSeq.getPrefix]
    · simp [FloatingSeq.last?, FloatingSeq.get?, FloatingSeq.len]
    · simp [FloatingSeq.last?, FloatingSeq.get?, FloatingSeq.len]
    · simp [demoMap]
  obtain ⟨s4, h4⟩ := h4
  refine ⟨s4, s0, h0, ?_⟩
  have := h3.append h4
  simpa only [demoTrace, List.append_assoc] using this

theorem strict_run {c g a w b} (h : (strictMachine c g).Run a w b) : (machine c g).Run a w b := by
  induction h with
  | nil => exact .nil _
  | cons hs _ ih => exact .cons hs.1 ih

/-- Every strict execution is an execution of the system as written. -/
theorem strict_exec {c g tr s} (h : (strictMachine c g).Exec tr s) : (machine c g).Exec tr s := by
  obtain ⟨s0, h0, hr⟩ := h
  exact ⟨s0, h0, strict_run hr⟩

end Verif.Sys
