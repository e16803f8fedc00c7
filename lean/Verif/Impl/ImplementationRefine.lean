import Verif.Impl.ImplementationProof
/-
The executable program, with recovery finished, refines the program model: every execution of
`Impl` is an execution of `Sys.strictMachine` with the same events. Proof support for C41.
-/
namespace Verif.Impl
open AsyncDisk (Req Resp)
open Verif.Sys (one_inj one_self union_one union_empty take_empty take_one remove_one DiskRel)

variable {c : Codec} {ic : ICodec c} {w : Variant} {g : Geometry}

/-- the map after a list of messages -/
def mapAfter (l : List KeyedMessage) : StampedMap := l.foldl StampedMap.applyMsg StampedMap.empty

theorem mapAfter_snoc (l : List KeyedMessage) (km) : mapAfter (l ++ [km]) = (mapAfter l).applyMsg km := by
  simp [mapAfter]

theorem mapAfter_seqEnd (l : List KeyedMessage) : (mapAfter l).seqEnd = l.length := by
  have aux : ∀ (l : List KeyedMessage) (m : StampedMap),
      (l.foldl StampedMap.applyMsg m).seqEnd = m.seqEnd + l.length := by
    intro l
    induction l with
    | nil => intro m; rfl
    | cons km l ih => intro m; rw [List.foldl_cons, ih]; simp [StampedMap.applyMsg]; omega
  have := aux l StampedMap.empty
  simpa [mapAfter, StampedMap.empty] using this

theorem applyRange_view {j : Journal} (h0 : j.seqStart = 0) (n : Nat) (hn : n ≤ j.msgs.length) :
    MsgHistory.applyRange j.view.msgs 0 n StampedMap.empty = mapAfter (j.msgs.take n) := by
  induction n with
  | zero => rfl
  | succ n ih =>
    have hlt : n < j.msgs.length := by omega
    simp only [MsgHistory.applyRange]
    have : j.view.msgs (0 + n) = some j.msgs[n] := by
      simp [Journal.view, h0, List.getElem?_eq_getElem hlt]
    rw [this, ih (by omega), List.take_succ_eq_append_getElem hlt, mapAfter_snoc]

theorem toStampedMap_eq {j : Journal} (h0 : j.seqStart = 0) : j.toStampedMap = mapAfter j.msgs := by
  have := applyRange_view h0 j.msgs.length (Nat.le_refl _)
  rw [List.take_length] at this
  rw [← this]
  unfold Journal.toStampedMap MsgHistory.mapPlusHistory MsgHistory.applyTo MsgHistory.len
  simp [Journal.view, h0]

theorem superblock_eq {j : Journal} (h0 : j.seqStart = 0) :
    j.superblock = ⟨(mapAfter j.msgs).value, j.msgs.length⟩ := by
  unfold Journal.superblock
  rw [toStampedMap_eq h0, mapAfter_seqEnd]

/-- Superblock pages, on the disk or being written, encode journals that start at 0. -/
structure Pages (c : Codec) (d : AsyncDisk.State) : Prop where
  stored : ∀ page, d.content sbAddr = some page → ∃ j : Journal, j.seqStart = 0 ∧ page = c.marshall j.superblock
  coming : ∀ id page, d.requests id = some (.write sbAddr page) →
    ∃ j : Journal, j.seqStart = 0 ∧ page = c.marshall j.superblock

/-- The running program and its model. -/
structure Running (s : State) (p : AtomicState) : Prop where
  start : s.journal.seqStart = 0
  len : p.history.len = s.journal.msgs.length + 1
  get : ∀ k, p.history.start ≤ k → k ≤ s.journal.msgs.length →
    p.history.get? k = some (mapAfter (s.journal.msgs.take k)).value
  has : ∀ id, p.syncReqs.Has id ↔ id ∈ s.pending
  bound : ∀ id v, p.syncReqs id = some v → v ≤ s.journal.msgs.length
  sat : ∀ i, p.inFlight = some i → ∀ id ∈ s.satisfied, ∀ v, p.syncReqs id = some v → v ≤ i.version
  ready : ∀ id ∈ s.ready, ∀ v, p.syncReqs id = some v → v ≤ p.history.start

structure Rel (c : Codec) (s : State) (t : Sys.State) : Prop where
  disk : t.disk = s.disk
  requests : t.requests = s.requests
  replies : t.replies = s.replies
  syncRequests : t.syncRequests = s.syncRequests
  syncReplies : t.syncReplies = s.syncReplies
  idHistory : t.idHistory = s.idHistory
  recovery : t.program.recovery = s.recovery
  drel : ∃ v, DiskRel c t.program t.disk v
  pages : Pages c s.disk
  inv : Inv s
  run : s.recovery = .complete → Running s t.program

theorem rel_init {s : State} (h : Init c s) : ∃ t, Sys.Init c t ∧ Rel c s t := by
  let t : Sys.State := ⟨⟨.begin, ⟨0, []⟩, 0, none, PMap.empty⟩, s.disk, s.requests, s.replies,
    s.syncRequests, s.syncReplies, s.idHistory⟩
  have ht : Sys.Init c t := ⟨h.mkfs, h.noReqs, h.noResps, rfl, h.requests, h.replies, h.syncRequests,
    h.syncReplies, h.idHistory⟩
  refine ⟨t, ht, rfl, rfl, rfl, rfl, rfl, rfl, h.recovery.symm, ⟨_, Sys.disk_inv_init ht⟩, ?_, inv_init h, ?_⟩
  · refine ⟨?_, ?_⟩
    · intro page hp
      rw [h.mkfs] at hp; injection hp with hp
      exact ⟨Journal.newEmpty, rfl, by rw [← hp, superblock_eq rfl]; rfl⟩
    · intro id page hp; rw [h.noReqs] at hp; cases hp
  · rw [h.recovery]; intro hc; cases hc

/-- the history gives the current map -/
theorem Running.last {s : State} {p : AtomicState} (h : Running s p) (hne : p.history.start < p.history.len) :
    p.history.last? = some (mapAfter s.journal.msgs).value := by
  unfold FloatingSeq.last?
  rw [h.len, Nat.add_sub_cancel, h.get _ (by have := h.len; omega) (Nat.le_refl _), List.take_length]

theorem Running.keep {s s' : State} {p : AtomicState} (h : Running s p) (h1 : s'.journal = s.journal)
    (h2 : s'.satisfied = s.satisfied) (h3 : s'.deferred = s.deferred) (h4 : s'.pc = s.pc) :
    Running s' p := by
  have hpe : s'.pending = s.pending := by simp [State.pending, State.ready, h2, h3, h4]
  have hre : s'.ready = s.ready := by simp [State.ready, h4]
  obtain ⟨a1, a2, a3, a4, a5, a6, a7⟩ := h
  exact ⟨by rw [h1]; exact a1, by rw [h1]; exact a2, by rw [h1]; exact a3, by rw [hpe]; exact a4,
    by rw [h1]; exact a5, by rw [h2]; exact a6, by rw [hre]; exact a7⟩

/-- an execution that does not change the journal -/
theorem mapTransition_same {p : AtomicState} {req : Request} {reply : Reply} {m} (hr : p.recovery = .complete)
    (hid : req.id = reply.id) (hm : p.history.last? = some m)
    (hn : MapSpec.Next m req.input reply.output m) : AtomicState.MapTransition p req reply p := by
  have hp : p.history.getPrefix p.history.len = p.history := by
    have hne : p.history.entries ≠ [] := by
      intro he
      unfold FloatingSeq.last? FloatingSeq.get? at hm
      rw [he] at hm; simp at hm
    have := List.length_pos_iff.mpr hne
    unfold FloatingSeq.getPrefix FloatingSeq.len
    rw [if_neg (by omega)]
    ext1
    · rfl
    · simp
  exact .mk (s := p) (h' := p.history) hr (Nat.le_refl _) (by omega) hp hid hm hm hn

theorem rel_step (hw : ∀ own read, w.restore own read = read) {s l s'} {t : Sys.State} (h : Rel c s t)
    (hs0 : Next c ic w g s l s') : ∃ t', (Sys.strictMachine c g).Step t l t' ∧ Rel c s' t' := by
  have hinv := inv_step h.inv hs0
  obtain ⟨tp, td, trq, trp, tsq, tsp, tid⟩ := t
  obtain ⟨e1, e2, e3, e4, e5, e6, e7, ⟨v, hv⟩, hpg, hi, hrun⟩ := h
  simp only at e1 e2 e3 e4 e5 e6 e7 hv hrun
  subst e1; subst e2; subst e3; subst e4; subst e5; subst e6
  -- finish: a step of the model whose surroundings are already those of `s'`
  have hs := hs0
  cases hs with
  | @acceptRequest req hf =>
    refine ⟨_, ⟨.acceptRequest hf, trivial⟩, rfl, rfl, rfl, rfl, rfl, rfl, e7, ⟨v, hv⟩, hpg, hinv, ?_⟩
    exact fun hr => (hrun hr).keep rfl rfl rfl rfl
  | @deliverReply reply hq =>
    refine ⟨_, ⟨.deliverReply hq, trivial⟩, rfl, rfl, rfl, rfl, rfl, rfl, e7, ⟨v, hv⟩, hpg, hinv, ?_⟩
    exact fun hr => (hrun hr).keep rfl rfl rfl rfl
  | @acceptSync id hf =>
    refine ⟨_, ⟨.acceptSync hf, trivial⟩, rfl, rfl, rfl, rfl, rfl, rfl, e7, ⟨v, hv⟩, hpg, hinv, ?_⟩
    exact fun hr => (hrun hr).keep rfl rfl rfl rfl
  | @deliverSync id hq =>
    refine ⟨_, ⟨.deliverSync hq, trivial⟩, rfl, rfl, rfl, rfl, rfl, rfl, e7, ⟨v, hv⟩, hpg, hinv, ?_⟩
    exact fun hr => (hrun hr).keep rfl rfl rfl rfl
  | @diskRead id a d d' hd =>
    refine ⟨_, ⟨.diskRead hd, trivial⟩, rfl, rfl, rfl, rfl, rfl, rfl, e7, ⟨v, hv.didRead hd⟩, ?_, hinv, ?_⟩
    · cases hd with
      | read hreq hwf hx =>
        refine ⟨hpg.stored, ?_⟩
        intro i page hp
        simp only [PMap.remove] at hp
        split at hp
        · cases hp
        · exact hpg.coming i page hp
    · exact fun hr => (hrun hr).keep rfl rfl rfl rfl
  | @diskWrite id a d d' hd =>
    obtain ⟨n, _, _, hv'⟩ := hv.didWrite hd
    refine ⟨_, ⟨.diskWrite hd, trivial⟩, rfl, rfl, rfl, rfl, rfl, rfl, e7, ⟨_, hv'⟩, ?_, hinv, ?_⟩
    · cases hd with
      | write hreq hwf =>
        refine ⟨?_, ?_⟩
        · intro page hp
          simp only [PMap.insert] at hp
          split at hp
          · injection hp with hp; subst hp
            rename_i ha; subst ha
            exact hpg.coming id _ hreq
          · exact hpg.stored page hp
        · intro i page hp
          simp only [PMap.remove] at hp
          split at hp
          · cases hp
          · exact hpg.coming i page hp
    · exact fun hr => (hrun hr).keep rfl rfl rfl rfl
  | @crash d' hd =>
    let p' : AtomicState := ⟨.begin, ⟨0, []⟩, 0, none, PMap.empty⟩
    have hp' : p'.Init := rfl
    refine ⟨_, ⟨.crash (p' := p') hp' hd, trivial⟩, rfl, rfl, rfl, rfl, rfl, rfl, rfl,
      ⟨_, hv.crash hp' hd⟩, ?_, hinv, ?_⟩
    · cases hd
      exact ⟨hpg.stored, fun i page hp => by cases hp⟩
    · intro hc; cases hc
  | @recoverBegin id d' hb hd =>
    have hp := AtomicState.DiskTransition.initiateRecovery (c := c) (s := tp) (id := id) (e7.trans hb)
    refine ⟨_, ⟨.programDisk hp hd, trivial⟩, rfl, rfl, rfl, rfl, rfl, rfl, rfl,
      ⟨_, (hv.ops hp hd).1⟩, ?_, hinv, ?_⟩
    · cases hd with
      | ops newReq newResp sub =>
        refine ⟨hpg.stored, ?_⟩
        intro i page hpp
        simp only [PMap.unionRight] at hpp
        split at hpp
        · rename_i y hy
          have := (one_inj hy).2
          subst this
          cases hpp
        · exact hpg.coming i page hpp
    · intro hc; cases hc
  | @recoverEnd id raw d' hb hd =>
    have hp := AtomicState.DiskTransition.completeRecovery (c := c) (s := tp) (id := id) (raw := raw)
      (e7.trans hb)
    obtain ⟨q1, q2, q3⟩ := hi.quiet (by rw [hb]; simp)
    have hraw : s.disk.content sbAddr = some raw := by
      cases hd with
      | ops newReq newResp sub =>
        have hsub := sub id _ (one_self id _)
        cases hv with
        | begin hp => rw [e7.trans hb] at hp; cases hp
        | reading hp hc hq hr => rw [hr] at hsub; cases hsub
        | read hp hc hq hr =>
          rw [hr] at hsub
          have := (one_inj hsub).2; cases this; exact hc
        | idle hp => rw [e7.trans hb] at hp; cases hp
        | writing hp => rw [e7.trans hb] at hp; cases hp
        | written hp => rw [e7.trans hb] at hp; cases hp
    obtain ⟨j, hj0, hj⟩ := hpg.stored raw hraw
    have hst := ic.start j hj0
    have hsb := ic.roundTrip j hj0
    rw [← hj] at hst hsb
    have hun : c.unmarshall raw = ⟨(mapAfter (ic.unmarshall raw).msgs).value, (ic.unmarshall raw).msgs.length⟩ := by
      rw [hj, c.roundTrip, ← hj, ← hsb, superblock_eq hst]
    refine ⟨_, ⟨.programDisk hp hd, trivial⟩, rfl, rfl, rfl, rfl, rfl, rfl, rfl,
      ⟨_, (hv.ops hp hd).1⟩, ?_, hinv, ?_⟩
    · cases hd with
      | ops newReq newResp sub =>
        refine ⟨hpg.stored, ?_⟩
        intro i page hpp
        simp only [union_empty] at hpp
        exact hpg.coming i page hpp
    · intro _
      have hss := singletonSeq_eq (c.unmarshall raw).version (c.unmarshall raw).store
      have hv1 : (c.unmarshall raw).version = (ic.unmarshall raw).msgs.length := by rw [hun]
      refine ⟨?_, ?_, ?_, ?_, ?_, ?_, ?_⟩
      · show (w.restore _ _).seqStart = 0; rw [hw]; exact hst
      · show (singletonSeq _ _).len = (w.restore _ _).msgs.length + 1
        rw [hw, hss, hv1]; rfl
      · intro k
        show (singletonSeq _ _).start ≤ k → k ≤ (w.restore _ _).msgs.length →
          (singletonSeq _ _).get? k = some (mapAfter ((w.restore _ _).msgs.take k)).value
        rw [hw, hss, hv1]
        intro h1 h2
        have : k = (ic.unmarshall raw).msgs.length := by simp only at h1; omega
        subst this
        simp [FloatingSeq.get?, hun]
      · intro i
        simp [PMap.Has, State.pending, State.ready, q1, q2, q3]
      · intro i v hx; cases hx
      · intro i hx; cases hx
      · intro i hx; simp [State.ready, q1] at hx
  | @noop id hr hpc hq =>
    have R := hrun hr
    have hne := (hv.last).1
    have hrd := hv.ready (e7.trans hr)
    have hl := R.last (by omega)
    refine ⟨_, ⟨.execute hq (mapTransition_same (e7.trans hr) rfl hl .noop), trivial⟩, rfl, rfl, rfl, rfl,
      rfl, rfl, e7, ⟨v, hv⟩, hpg, hinv, fun hr => (hrun hr).keep rfl rfl rfl rfl⟩
  | @put k x id hr hpc hq =>
    have R := hrun hr
    have hne := (hv.last).1
    have hrd := hv.ready (e7.trans hr)
    have hlt : tp.history.start < tp.history.len := by omega
    have hl := R.last hlt
    let m' : Version := TotalKMMap.insert (mapAfter s.journal.msgs).value k (.define x)
    have hm' : (mapAfter (s.journal.msgs ++ [⟨k, .define x⟩])).value = m' := by
      rw [mapAfter_snoc]
      simp [StampedMap.applyMsg, m', Message.merge]
    have hlen' : (tp.history.append [m']).len = tp.history.len + 1 := by
      unfold FloatingSeq.append FloatingSeq.len; simp; omega
    have hpre : (tp.history.append [m']).getPrefix tp.history.len = tp.history := by
      have := FloatingSeq.dropLast_append tp.history hlt m'
      unfold FloatingSeq.dropLast at this
      rwa [hlen', Nat.add_sub_cancel] at this
    have hmt : AtomicState.MapTransition tp ⟨.put k x, id⟩ ⟨.put, id⟩
        { tp with history := tp.history.append [m'] } :=
      .mk (e7.trans hr) (by omega) (by omega) hpre rfl hl (FloatingSeq.last?_append _ _) .put
    obtain ⟨v', _, _, _, hv', _⟩ := hv.map hmt
    refine ⟨_, ⟨.execute hq hmt, trivial⟩, rfl, rfl, rfl, rfl, rfl, rfl, e7, ⟨v', hv'⟩, hpg, hinv, ?_⟩
    intro _
    have hmsgs : (s.journal.insert k x).msgs = s.journal.msgs ++ [⟨k, .define x⟩] := rfl
    refine ⟨R.start, ?_, ?_, R.has, ?_, R.sat, R.ready⟩
    · show (tp.history.append [m']).len = (s.journal.insert k x).msgs.length + 1
      rw [hlen', R.len, hmsgs]; simp
    · intro n
      show tp.history.start ≤ n → n ≤ (s.journal.insert k x).msgs.length →
        (tp.history.append [m']).get? n = some (mapAfter ((s.journal.insert k x).msgs.take n)).value
      rw [hmsgs]
      intro h1 h2
      by_cases hn : n ≤ s.journal.msgs.length
      · rw [List.take_append_of_le_length hn, ← R.get n h1 hn]
        have h3 := R.len
        unfold FloatingSeq.get? FloatingSeq.append
        simp only
        rw [if_pos h1, if_pos h1, List.getElem?_append_left]
        unfold FloatingSeq.len at h3; omega
      · have hn : n = (s.journal.msgs ++ [(⟨k, .define x⟩ : KeyedMessage)]).length := by
          simp at h2 ⊢; omega
        rw [List.take_of_length_le (by omega), hm']
        have h3 := FloatingSeq.last?_append tp.history m'
        unfold FloatingSeq.last? at h3
        rw [hlen', R.len] at h3
        rw [← h3]
        congr 1
        rw [hn]; simp
    · intro i y hy
      have := R.bound i y hy
      show y ≤ (s.journal.insert k x).msgs.length
      rw [hmsgs]; simp; omega
  | @query k x id hwq hr hpc hq hx =>
    have R := hrun hr
    have hne := (hv.last).1
    have hrd := hv.ready (e7.trans hr)
    have hl := R.last (by omega)
    rw [toStampedMap_eq R.start] at hx
    refine ⟨_, ⟨.execute hq (mapTransition_same (e7.trans hr) rfl hl (.query hx)), trivial⟩, rfl, rfl, rfl, rfl,
      rfl, rfl, e7, ⟨v, hv⟩, hpg, hinv, fun hr => (hrun hr).keep rfl rfl rfl rfl⟩
  | queryIgnored =>
    exact ⟨_, ⟨.noop, trivial⟩, rfl, rfl, rfl, rfl, rfl, rfl, e7, ⟨v, hv⟩, hpg, hinv, hrun⟩
  | @syncRequest id hr hpc hq =>
    have R := hrun hr
    have hdj : id ∉ s.pending := hi.disj id hq
    refine ⟨_, ⟨.programAcceptSync (.mk (e7.trans hr)), hq⟩, rfl, rfl, rfl, rfl, rfl, rfl, e7,
      ⟨v, hv.syncs _⟩, hpg, hinv, ?_⟩
    intro _
    refine ⟨R.start, R.len, R.get, ?_, ?_, ?_, ?_⟩
    · intro i
      show (tp.syncReqs.insert id _).Has i ↔ _
      rw [Sys.has_map_insert, R.has]
      simp only [State.pending, State.ready, hpc, List.mem_append, List.mem_singleton, List.not_mem_nil]
      grind
    · intro i y hy
      simp only [PMap.insert] at hy
      split at hy
      · injection hy with hy; have := R.len; show y ≤ s.journal.msgs.length; omega
      · exact R.bound i y hy
    · intro n hn i hin y hy
      simp only [PMap.insert] at hy
      split at hy
      · rename_i he; subst he
        exact absurd (by simp [State.pending, show i ∈ s.satisfied from hin]) hdj
      · exact R.sat n hn i hin y hy
    · intro i hin; simp [State.ready] at hin
  | launchSkip hr hpc =>
    have R := hrun hr
    refine ⟨_, ⟨.noop, trivial⟩, rfl, rfl, rfl, rfl, rfl, rfl, e7, ⟨v, hv⟩, hpg, hinv, ?_⟩
    intro _
    refine ⟨R.start, R.len, R.get, ?_, R.bound, R.sat, ?_⟩
    · intro i; rw [R.has]; simp [State.pending, State.ready, hpc]
    · intro i hin; simp [State.ready] at hin
  | @launchWrite id d' hr hpc h1 h2 hd =>
    have R := hrun hr
    have hrd := hv.ready (e7.trans hr)
    have hne := (hv.last).1
    have hl := R.last (by omega)
    have hno : tp.inFlight = none := by
      have hph := hi.phase
      cases hv with
      | begin hp => rw [e7.trans hr] at hp; cases hp
      | reading hp => rw [e7.trans hr] at hp; cases hp
      | read hp => rw [e7.trans hr] at hp; cases hp
      | idle _ _ hf => exact hf
      | @writing _ i _ _ _ _ _ _ _ _ hq' _ =>
        cases hph with
        | begin hp => rw [hr] at hp; cases hp
        | reading hp => rw [hr] at hp; cases hp
        | read hp => rw [hr] at hp; cases hp
        | idle _ _ hq =>
          rw [hq] at hq'
          have := congrFun hq' i.reqId
          rw [one_self] at this; cases this
        | writing _ h' => exact absurd h2 h'
        | written _ h' => exact absurd h2 h'
      | @written i _ _ _ _ _ _ _ hq' =>
        cases hph with
        | begin hp => rw [hr] at hp; cases hp
        | reading hp => rw [hr] at hp; cases hp
        | read hp => rw [hr] at hp; cases hp
        | idle _ _ _ hq =>
          rw [hq] at hq'
          have := congrFun hq' i.reqId
          rw [one_self] at this; cases this
        | writing _ h' => exact absurd h2 h'
        | written _ h' => exact absurd h2 h'
    have hp := AtomicState.DiskTransition.syncBegin (c := c) (id := id) (e7.trans hr) hno hl
    have hsb : s.journal.superblock = ⟨(mapAfter s.journal.msgs).value, tp.history.len - 1⟩ := by
      rw [superblock_eq R.start, R.len, Nat.add_sub_cancel]
    rw [← hsb] at hp
    refine ⟨_, ⟨.programDisk hp hd, trivial⟩, rfl, rfl, rfl, rfl, rfl, rfl, e7,
      ⟨_, (hv.ops hp hd).1⟩, ?_, hinv, ?_⟩
    · cases hd with
      | ops newReq newResp sub =>
        refine ⟨hpg.stored, ?_⟩
        intro i page hpp
        simp only [PMap.unionRight] at hpp
        split at hpp
        · rename_i y hy
          have := (one_inj hy).2
          subst this
          cases hpp
          exact ⟨_, R.start, rfl⟩
        · exact hpg.coming i page hpp
    · intro _
      refine ⟨R.start, R.len, R.get, ?_, R.bound, ?_, ?_⟩
      · intro i; rw [R.has]; simp [State.pending, State.ready, hpc, h2]
      · intro n hn i hin y hy
        injection hn with hn; subst hn
        have := R.bound i y hy
        show y ≤ tp.history.len - 1
        rw [R.len]; omega
      · intro i hin; simp [State.ready] at hin
  | @diskResponse id resp d' hr hpc hd =>
    have R := hrun hr
    have hfl : ∃ i, tp.inFlight = some i ∧ i.reqId = id ∧ resp = .write ∧ tp.history.start ≤ i.version ∧
        i.version < tp.history.len := by
      cases hd with
      | ops newReq newResp sub =>
        have hsub := sub id _ (one_self id _)
        cases hv with
        | begin hp => rw [e7.trans hr] at hp; cases hp
        | reading hp => rw [e7.trans hr] at hp; cases hp
        | read hp => rw [e7.trans hr] at hp; cases hp
        | idle _ _ _ _ _ _ _ hq => rw [hq] at hsub; cases hsub
        | writing _ _ _ _ _ _ _ _ hq => rw [hq] at hsub; cases hsub
        | written _ _ hf hg _ _ hq =>
          rw [hq] at hsub
          obtain ⟨h1, h2⟩ := one_inj hsub
          have := Sys.active_of_get? hg
          exact ⟨_, hf, h1.symm, h2, this⟩
    obtain ⟨i, hf, rfl, rfl, hlo, hhi⟩ := hfl
    have hp := AtomicState.DiskTransition.syncEnd (c := c) (e7.trans hr) hf
    refine ⟨_, ⟨.programDisk hp hd, trivial⟩, rfl, rfl, rfl, rfl, rfl, rfl, hr.symm,
      ⟨_, (hv.ops hp hd).1⟩, ?_, hinv, ?_⟩
    · cases hd with
      | ops newReq newResp sub =>
        refine ⟨hpg.stored, ?_⟩
        intro i page hpp
        simp only [union_empty] at hpp
        exact hpg.coming i page hpp
    · intro _
      refine ⟨R.start, ?_, ?_, ?_, R.bound, ?_, ?_⟩
      · show (tp.history.getSuffix i.version).len = _
        rw [FloatingSeq.len_getSuffix hlo (by omega)]; exact R.len
      · intro k
        show (tp.history.getSuffix i.version).start ≤ k → _ → (tp.history.getSuffix i.version).get? k = _
        intro h1 h2
        have h1 : i.version ≤ k := h1
        rw [FloatingSeq.get?_getSuffix _ _ _ hlo, if_pos h1]
        exact R.get k (by omega) h2
      · intro x; rw [R.has]
        simp only [State.pending, State.ready, hpc, List.mem_append]
        grind
      · intro n hn; cases hn
      · intro x hx y hy
        exact R.sat i hf x hx y hy
  | @reply ready id hr hpc =>
    have R := hrun hr
    have hin : id ∈ s.pending := by simp [State.pending, State.ready, hpc]
    refine ⟨_, ⟨.programDeliverSync (.mk (e7.trans hr) ?_), (R.has id).mpr hin⟩, rfl, rfl, rfl, rfl, rfl, rfl,
      e7, ⟨v, hv.syncs _⟩, hpg, hinv, ?_⟩
    · intro y hy
      exact R.ready id (by simp [State.ready, hpc]) y hy
    · intro _
      have hrm : ∀ {x y}, (tp.syncReqs.remove id) x = some y → tp.syncReqs x = some y := by
        intro x y hy
        simp only [PMap.remove] at hy
        split at hy
        · cases hy
        · exact hy
      refine ⟨R.start, R.len, R.get, ?_, fun x y hy => R.bound x y (hrm hy),
        fun n hn x hx y hy => R.sat n hn x hx y (hrm hy), ?_⟩
      · intro x
        show (tp.syncReqs.remove id).Has x ↔ _
        rw [Sys.has_map_remove, R.has]
        have hn := hi.nodup
        simp only [State.pending, State.ready, hpc] at hn ⊢
        rw [← List.append_assoc, List.nodup_append] at hn
        have := hn.2.2
        simp only [List.mem_append, List.mem_singleton] at this ⊢
        grind
      · intro x hx y hy
        have hx : x ∈ ready := hx
        exact R.ready x (by simp [State.ready, hpc, hx]) y (hrm hy)
  | repliesDone hr hpc =>
    have R := hrun hr
    refine ⟨_, ⟨.noop, trivial⟩, rfl, rfl, rfl, rfl, rfl, rfl, e7, ⟨v, hv⟩, hpg, hinv, ?_⟩
    intro _
    refine ⟨R.start, R.len, R.get, ?_, R.bound, R.sat, ?_⟩
    · intro i; rw [R.has]; simp [State.pending, State.ready, hpc]
    · intro i hin; simp [State.ready] at hin

end Verif.Impl
