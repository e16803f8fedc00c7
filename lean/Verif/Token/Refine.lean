import Verif.Token.Proof
/-
The simulation: each event at the client API, in the program or in the disk is a step of the system
model.
-/
namespace Verif.Tok
open AsyncDisk (Req Resp)

/-! ### The disk as the system model sees it -/

/-- Requests not sent yet and responses already received count as being at the disk. -/
noncomputable def view {P : Type} (t : Tokens P) (real : AsyncDisk.State) : AsyncDisk.State :=
  { requests := t.diskRequests.toMap.unionRight real.requests
    responses := t.diskResponses.toMap.unionRight real.responses
    content := real.content }

section
variable {P : Type} {prog : Program P} {g : Geometry} {w : World P}

theorem Ids.no_req (h : Ids w) {id : Nat} (hi : id < w.next) : w.tok.diskRequests.toMap id = none :=
  MSet.toMap_none.mpr fun v hv => by have := h.dreqNew _ hv; simp only at this; omega

theorem Ids.no_resp (h : Ids w) {id : Nat} (hi : w.disk.requests.Has id ∨ w.disk.responses.Has id) :
    w.tok.diskResponses.toMap id = none :=
  MSet.toMap_none.mpr fun v hv => by
    have := h.drespOut _ hv
    rcases hi with hi | hi
    · exact this.1 hi
    · exact this.2 hi

theorem not_has {K V : Type} {m : PMap K V} {k : K} : ¬ m.Has k ↔ m k = none := by
  unfold PMap.Has; simp

theorem Ids.disk_none (h : Ids w) {id : Nat} (hi : w.next ≤ id) :
    w.disk.requests id = none ∧ w.disk.responses id = none := by
  constructor
  · rw [← not_has]; intro hc; have := h.diskOld id (.inl hc); omega
  · rw [← not_has]; intro hc; have := h.diskOld id (.inr hc); omega

/-- the program's disk step is a step of the disk the system model sees -/
theorem view_disk {rq : MSet (Nat × Req)} {rs : MSet (Nat × Resp)} {m' : P} (h : Ids w)
    (hp : Predicted w (.disk rq rs)) (hle : rs.Le w.tok.diskResponses) :
    AsyncDisk.Next g (view w.tok w.disk) (.ops rq.toMap rs.toMap)
      (view { w.tok with
        model := m'
        diskRequests := w.tok.diskRequests.add rq
        diskResponses := w.tok.diskResponses.sub rs } w.disk) := by
  have hnew : ∀ id : Nat, rq.toMap.Has id → w.next ≤ id ∧ w.tok.diskRequests.toMap id = none := by
    intro id hid
    obtain ⟨v, hv⟩ := (PMap.has_iff _ _).mp hid
    have hv := MSet.toMap_some hv
    refine ⟨hp.1 _ hv, MSet.toMap_none.mpr ?_⟩
    intro v' hv'
    have he := hp.2.2 (id, v) (id, v') (MSet.has_add.mpr (.inr hv)) (MSet.has_add.mpr (.inl hv')) rfl
    have h2 := hp.2.1 (id, v)
    rw [← he] at hv'
    unfold MSet.Has at hv hv'
    unfold MSet.add at h2
    omega
  have hst := AsyncDisk.Next.ops (g := g) (s := view w.tok w.disk) (rq := rq.toMap) (rs := rs.toMap) ?_ ?_ ?_
  · refine Eq.mp ?_ hst
    congr 1
    simp only [view, AsyncDisk.State.mk.injEq, and_true]
    constructor
    · funext id
      rw [MSet.toMap_add hp.2]
      simp only [PMap.unionRight]
      cases hq : rq.toMap id with
      | none => rfl
      | some v => rw [(h.disk_none (hnew id (by simp [PMap.Has, hq])).1).1]
    · funext id
      simp only [PMap.unionRight]
      rw [MSet.toMap_sub h.dresp hle]
      cases hd : w.disk.responses id with
      | none => rfl
      | some v =>
        have : w.tok.diskResponses.toMap id = none := h.no_resp (.inr (by simp [PMap.Has, hd]))
        have h0 : rs.toMap id = none := MSet.toMap_none.mpr fun v hv =>
          MSet.toMap_none.mp this v (Nat.lt_of_lt_of_le hv (hle _))
        simp [h0]
  · intro id hid
    obtain ⟨h1, h2⟩ := hnew id hid
    rw [not_has]
    simp [view, PMap.unionRight, (h.disk_none h1).1, h2]
  · intro id hid
    obtain ⟨h1, h2⟩ := hnew id hid
    rw [not_has]
    simp only [view, PMap.unionRight, (h.disk_none h1).2]
    rw [MSet.toMap_none]
    intro v hv; have := h.drespOld _ hv; simp only at this; omega
  · intro id r hr
    have hh : w.tok.diskResponses.Has (id, r) := Nat.lt_of_lt_of_le (MSet.toMap_some hr) (hle _)
    have := (h.drespOut _ hh).2
    rw [not_has] at this
    simp only [view, PMap.unionRight, this]
    exact MSet.toMap_of_has h.dresp hh

theorem view_send {r : Req} {d'} (h : Ids w) (hh : w.tok.diskRequests.Has (w.next, r))
    (hd : AsyncDisk.Next g w.disk (.ops (one w.next r) PMap.empty) d') :
    view { w.tok with diskRequests := w.tok.diskRequests.remove (w.next, r) } d' = view w.tok w.disk := by
  cases hd
  simp only [view, AsyncDisk.State.mk.injEq, and_true]
  constructor
  · funext id
    rw [MSet.toMap_remove h.dreq hh]
    simp only [PMap.unionRight, one]
    by_cases hi : id = w.next
    · subst hi
      rw [PMap.insert_same, (h.disk_none (Nat.le_refl _)).1]
      exact (MSet.toMap_of_has h.dreq hh).symm
    · rw [PMap.insert_other _ _ hi, PMap.remove_other _ hi]; rfl
  · funext id; simp [PMap.unionRight]

theorem view_receive {id : Nat} {r : Resp} {d'} (h : Ids w)
    (hd : AsyncDisk.Next g w.disk (.ops PMap.empty (one id r)) d') :
    view { w.tok with diskResponses := w.tok.diskResponses.insert (id, r) } d' = view w.tok w.disk := by
  cases hd with
  | ops hq hr hsub =>
    have hresp : w.disk.responses id = some r := hsub id r (by simp [one])
    have hin : w.disk.responses.Has id := by simp [PMap.Has, hresp]
    simp only [view, AsyncDisk.State.mk.injEq, and_true]
    constructor
    · funext i; simp [PMap.unionRight]
    · funext i
      rw [MSet.toMap_insert h.dresp (fun p hp he => (h.drespOut p hp).2 (he ▸ hin))]
      simp only [PMap.unionRight, one]
      by_cases hi : i = id
      · subst hi; simp [hresp]
      · simp [PMap.insert, hi]

theorem view_read {id : Nat} {a d d'} (h : Ids w) (hd : AsyncDisk.Next g w.disk (.didRead id a d) d') :
    AsyncDisk.Next g (view w.tok w.disk) (.didRead id a d) (view w.tok d') := by
  cases hd with
  | read hreq hwf hx =>
    have hin : w.disk.requests.Has id := by simp [PMap.Has, hreq]
    have hst := AsyncDisk.Next.read (g := g) (s := view w.tok w.disk) (id := id) (a := a) (d := d)
      (by simp [view, PMap.unionRight, hreq]) hwf hx
    refine Eq.mp ?_ hst
    congr 1
    simp only [view, AsyncDisk.State.mk.injEq, and_true]
    constructor <;> funext i <;> by_cases hi : i = id
    · subst hi; simp [PMap.unionRight, h.no_req (h.diskOld i (.inl hin))]
    · simp [PMap.unionRight, PMap.remove, hi]
    · subst hi; simp [PMap.unionRight]
    · simp [PMap.unionRight, PMap.insert, hi]

theorem view_write {id : Nat} {a d d'} (h : Ids w) (hd : AsyncDisk.Next g w.disk (.didWrite id a d) d') :
    AsyncDisk.Next g (view w.tok w.disk) (.didWrite id a d) (view w.tok d') := by
  cases hd with
  | write hreq hwf =>
    have hin : w.disk.requests.Has id := by simp [PMap.Has, hreq]
    have hst := AsyncDisk.Next.write (g := g) (s := view w.tok w.disk) (id := id) (a := a) (d := d)
      (by simp [view, PMap.unionRight, hreq]) hwf
    refine Eq.mp ?_ hst
    congr 1
    simp only [view, AsyncDisk.State.mk.injEq, and_true]
    constructor <;> funext i <;> by_cases hi : i = id
    · subst hi; simp [PMap.unionRight, h.no_req (h.diskOld i (.inl hin))]
    · simp [PMap.unionRight, PMap.remove, hi]
    · subst hi; simp [PMap.unionRight]
    · simp [PMap.unionRight, PMap.insert, hi]

theorem view_clear {t : Tokens P} {d : AsyncDisk.State} (ht : TokInit prog t)
    (h1 : d.requests = PMap.empty) (h2 : d.responses = PMap.empty) : view t d = d := by
  obtain ⟨a, b, c⟩ := d
  simp only at h1 h2
  subst h1; subst h2
  simp only [view, AsyncDisk.State.mk.injEq, and_true, ht.diskRequests, ht.diskResponses, MSet.toMap_empty]
  constructor <;> (funext i; simp [PMap.unionRight])

theorem view_crash {t' : Tokens P} {d'} (ht : TokInit prog t')
    (hd : AsyncDisk.Next g w.disk .crash d') :
    AsyncDisk.Next g (view w.tok w.disk) .crash (view t' d') := by
  cases hd
  rw [view_clear ht rfl rfl]
  exact .crash

end

/-! ### Requests and replies -/

/-- the client's form of a map request -/
def lift (q : Request) : TRequest :=
  { id := q.id
    input := match q.input with
      | .query k => .query k
      | .put k v => .put k v
      | .noop => .noop }

/-- the client's form of a map reply -/
def liftR (r : Reply) : TReply :=
  { id := r.id
    output := match r.output with
      | .query v => .query v
      | .put => .put
      | .noop => .noop }

theorem lift_eq {q : Request} {r : TRequest} : lift q = r ↔ r.input ≠ .sync ∧ q = r.mapspec := by
  obtain ⟨i, id⟩ := q; obtain ⟨i', id'⟩ := r
  cases i <;> cases i' <;> simp [lift, TRequest.mapspec]

theorem liftR_eq {q : Reply} {r : TReply} : liftR q = r ↔ r.output ≠ .sync ∧ q = r.mapspec := by
  obtain ⟨i, id⟩ := q; obtain ⟨i', id'⟩ := r
  cases i <;> cases i' <;> simp [liftR, TReply.mapspec]

@[simp] theorem lift_id (q : Request) : (lift q).id = q.id := rfl
@[simp] theorem mapspec_id (q : TRequest) : q.mapspec.id = q.id := rfl

/-- Everything but the replies. `x` is the id of a request token that the system model takes to be a
sync request, whatever it is. -/
structure Core {P : Type} (x : Option ReqId) (w : World P) (s : SysState P) : Prop where
  program : s.program = w.tok.model
  disk : s.disk = view w.tok w.disk
  reqs : ∀ q : Request, s.requests q = if x = some q.id then 0 else w.tok.requests (lift q)
  syncs : ∀ id, s.syncRequests id = if x = some id then 1 else w.tok.requests ⟨.sync, id⟩
  hist : ∀ id, s.idHistory.Has id → id.toNat < w.next

/-- The replies. After a crash the system model still has sync replies that were lost. -/
structure Ans {P : Type} (w : World P) (s : SysState P) : Prop where
  replies : ∀ r, s.replies r = w.tok.replies (liftR r)
  syncs : ∀ id, w.tok.replies ⟨.sync, id⟩ ≤ s.syncReplies id

/-- the id is that of a request token -/
def Held {P : Type} (w : World P) (x : Option ReqId) : Prop :=
  ∀ id, x = some id → ∃ q, q.id = id ∧ w.tok.requests.Has q

/-- No other request than a sync is answered as a sync is. -/
def Plain : Event → Prop
  | .prog (.execute _ reply) => reply.output ≠ .sync
  | _ => True

section
variable {P : Type} {prog : Program P} {g : Geometry}

theorem core_init {w : World P} (h : WorldInit prog w) :
    ∃ s, SysInit prog s ∧ Core none w s ∧ Ans w s := by
  refine ⟨⟨w.tok.model, view w.tok w.disk, MSet.empty, MSet.empty, MSet.empty, MSet.empty, MSet.empty⟩, ?_, ?_, ?_⟩
  · refine ⟨?_, h.tok.model, rfl, rfl, rfl, rfl, rfl⟩
    show prog.mkfs (view w.tok w.disk)
    rw [view_clear h.tok h.idle.1 h.idle.2]; exact h.mkfs
  · refine ⟨rfl, rfl, ?_, ?_, fun _ h => absurd h (MSet.not_has_empty _)⟩
    · intro q; simp [h.tok.requests, MSet.empty]
    · intro id; simp [h.tok.requests, MSet.empty]
  · exact ⟨fun r => by simp [h.tok.replies, MSet.empty], fun id => by simp [h.tok.replies, MSet.empty]⟩

/-- receiving a request that is taken for a sync request -/
theorem core_receive_as_sync {w : World P} {s : SysState P} {req : TRequest} (hids : Ids w)
    (h : Core none w s) (hid : req.id.toNat = w.next) :
    ∃ s', SysNext prog g s (.acceptSync req.id) s' ∧
      Core (some req.id) { w with
        tok := { w.tok with requests := w.tok.requests.insert req }
        next := w.next + 1 } s' := by
  have hno : ∀ q : TRequest, q.id = req.id → w.tok.requests q = 0 := by
    intro q hq
    have : ¬ w.tok.requests.Has q := fun hc => by
      have := hids.reqOld q hc; rw [hq, hid] at this; omega
    unfold MSet.Has at this; omega
  refine ⟨_, .acceptSync (fun hc => by have := h.hist _ hc; omega), h.program, h.disk, ?_, ?_, ?_⟩
  · intro q
    have := h.reqs q
    by_cases hq : q.id = req.id
    · simp only [hq, if_true]; rw [this]; simp [hno (lift q) hq]
    · have h1 : ¬ (lift q = req) := fun hc => hq (hc ▸ rfl)
      simp only [MSet.insert, Option.some.injEq, if_neg (Ne.symm hq), if_neg h1]; simpa using this
  · intro id
    have := h.syncs id
    by_cases hq : id = req.id
    · subst hq; simp [MSet.insert, this, hno ⟨.sync, req.id⟩ rfl]
    · have h1 : ¬ ((⟨.sync, id⟩ : TRequest) = req) := fun hc => hq (hc ▸ rfl)
      simp only [MSet.insert, Option.some.injEq, if_neg (Ne.symm hq), if_neg hq, if_neg h1]; simpa using this
  · intro id hc
    rcases MSet.has_insert.mp hc with rfl | hc
    · show req.id.toNat < w.next + 1; omega
    · have := h.hist id hc; show id.toNat < w.next + 1; omega

theorem Held.before {w : World P} {x : Option ReqId} {req : TRequest} {n}
    (h : Held { w with tok := { w.tok with requests := w.tok.requests.insert req }, next := n } x)
    (hx : x ≠ some req.id) : Held w x := by
  intro id hid
  obtain ⟨q, hq, hh⟩ := h id hid
  rcases MSet.has_insert.mp hh with rfl | hh
  · exact absurd (hq ▸ hid) hx
  · exact ⟨q, hq, hh⟩

/-- receiving a request -/
theorem core_receive {w : World P} {s : SysState P} {req : TRequest} {x}
    (h : Core x w s) (hid : req.id.toNat = w.next) (hx : x ≠ some req.id) :
    ∃ s', SysNext prog g s (toSys (.receive req)) s' ∧
      Core x { w with
        tok := { w.tok with requests := w.tok.requests.insert req }
        next := w.next + 1 } s' ∧ s'.replies = s.replies ∧ s'.syncReplies = s.syncReplies := by
  have hf : ¬ s.idHistory.Has req.id := fun hc => by have := h.hist _ hc; omega
  have hist : ∀ id, (s.idHistory.insert req.id).Has id → id.toNat < w.next + 1 := by
    intro id hc
    rcases MSet.has_insert.mp hc with rfl | hc
    · omega
    · have := h.hist id hc; omega
  obtain ⟨i, rid⟩ := req
  by_cases hi : i = .sync
  · subst hi
    refine ⟨_, .acceptSync hf, ⟨h.program, h.disk, ?_, ?_, hist⟩, rfl, rfl⟩
    · intro q
      have h1 : ¬ (lift q = ⟨.sync, rid⟩) := fun hc => (lift_eq.mp hc).1 rfl
      simp only [MSet.insert, if_neg h1]; exact h.reqs q
    · intro id
      have := h.syncs id
      by_cases hq : id = rid
      · subst hq; simp only [if_neg hx] at this; simp [MSet.insert, this, if_neg hx]
      · simp [MSet.insert, hq, this]
  · have hst : toSys (.receive ⟨i, rid⟩) = .acceptRequest (TRequest.mapspec ⟨i, rid⟩) := by
      cases i <;> first | rfl | exact absurd rfl hi
    rw [hst]
    refine ⟨_, .acceptRequest hf, ⟨h.program, h.disk, ?_, ?_, hist⟩, rfl, rfl⟩
    · intro q
      have := h.reqs q
      by_cases hq : q = TRequest.mapspec ⟨i, rid⟩
      · have hl : lift q = ⟨i, rid⟩ := lift_eq.mpr ⟨hi, hq⟩
        have hqx : ¬ x = some q.id := by rw [hq]; exact hx
        simp only [if_neg hqx] at this ⊢
        simp [MSet.insert, hl, ← hq, this]
      · have hl : ¬ lift q = ⟨i, rid⟩ := fun hc => hq (lift_eq.mp hc).2
        simp only [MSet.insert, if_neg hl, if_neg hq]; exact this
    · intro id
      have hne : ¬ ((⟨.sync, id⟩ : TRequest) = ⟨i, rid⟩) := fun hc => hi (by cases hc; rfl)
      simp only [MSet.insert, if_neg hne]; exact h.syncs id

theorem core_prog {w : World P} {s : SysState P} {x l t'} (hids : Ids w) (h : Core x w s)
    (hp : Predicted w l) (ht : TokNext prog w.tok l t') (hx : Held { w with tok := t' } x) :
    ∃ s', SysNext prog g s (toSys (.prog l)) s' ∧ Core x { w with tok := t' } s' ∧
      (Plain (.prog l) → Ans w s → Ans { w with tok := t' } s') := by
  cases ht with
  | internal hn =>
    rw [← h.program] at hn
    exact ⟨_, .programInternal hn, ⟨rfl, h.disk, h.reqs, h.syncs, h.hist⟩, fun _ ha => ⟨ha.1, ha.2⟩⟩
  | @execute req reply p' hi hh hn =>
    rw [← h.program] at hn
    have hl : lift req.mapspec = req := lift_eq.mpr ⟨hi, rfl⟩
    have hrx : ¬ x = some req.id := by
      intro hc
      obtain ⟨q, hq, hh'⟩ := hx _ hc
      have hh' := (MSet.has_remove hids.reqs).mp hh'
      exact hh'.1 (hids.reqId q req hh'.2 hh hq)
    have hs : s.requests.Has req.mapspec := by
      unfold MSet.Has; rw [h.reqs, mapspec_id, if_neg hrx, hl]; exact hh
    refine ⟨_, .execute hs hn, ⟨rfl, h.disk, ?_, ?_, h.hist⟩, ?_⟩
    · intro q
      have := h.reqs q
      by_cases hq : q = req.mapspec
      · have hq' : lift q = req := lift_eq.mpr ⟨hi, hq⟩
        have hqx : ¬ x = some q.id := by rw [hq]; exact hrx
        simp only [if_neg hqx] at this ⊢
        simp [MSet.remove, hq', ← hq, this]
      · have hq' : ¬ lift q = req := fun hc => hq (lift_eq.mp hc).2
        simp only [MSet.remove, if_neg hq', if_neg hq]; exact this
    · intro id
      have hne : ¬ ((⟨.sync, id⟩ : TRequest) = req) := fun hc => hi (by rw [← hc])
      simp only [MSet.remove, if_neg hne]; exact h.syncs id
    · intro hpl ha
      refine ⟨?_, ?_⟩
      · intro r
        have := ha.replies r
        by_cases hr : r = reply.mapspec
        · have hr' : liftR r = reply := liftR_eq.mpr ⟨hpl, hr⟩
          simp [MSet.insert, hr', ← hr, this]
        · have hr' : ¬ liftR r = reply := fun hc => hr (liftR_eq.mp hc).2
          simp only [MSet.insert, if_neg hr', if_neg hr]; exact this
      · intro id
        have hne : ¬ ((⟨.sync, id⟩ : TReply) = reply) := fun hc => hpl (by rw [← hc])
        simp only [MSet.insert, if_neg hne]; exact ha.syncs id
  | @disk rq rs p' hle hn =>
    rw [← h.program] at hn
    have hd := view_disk (g := g) (m' := p') hids hp hle
    rw [← h.disk] at hd
    exact ⟨_, .programDisk hn hd, ⟨rfl, rfl, h.reqs, h.syncs, h.hist⟩, fun _ ha => ⟨ha.1, ha.2⟩⟩
  | @requestSync id p' hh hn =>
    rw [← h.program] at hn
    have hrx : ¬ x = some id := by
      intro hc
      obtain ⟨q, hq, hh'⟩ := hx _ hc
      have hh' := (MSet.has_remove hids.reqs).mp hh'
      exact hh'.1 (hids.reqId q _ hh'.2 hh hq)
    refine ⟨_, .programAcceptSync hn, ⟨rfl, h.disk, ?_, ?_, h.hist⟩, fun _ ha => ⟨ha.1, ha.2⟩⟩
    · intro q
      have h1 : ¬ (lift q = ⟨.sync, id⟩) := fun hc => (lift_eq.mp hc).1 rfl
      simp only [MSet.remove, if_neg h1]; exact h.reqs q
    · intro id'
      have := h.syncs id'
      by_cases hq : id' = id
      · subst hq; simp only [if_neg hrx] at this; simp [MSet.remove, this, if_neg hrx]
      · simp [MSet.remove, hq, this]
  | @replySync id p' hn =>
    rw [← h.program] at hn
    refine ⟨_, .programDeliverSync hn, ⟨rfl, h.disk, h.reqs, h.syncs, h.hist⟩, fun _ ha => ⟨?_, ?_⟩⟩
    · intro r
      have hne : ¬ (liftR r = ⟨.sync, id⟩) := fun hc => (liftR_eq.mp hc).1 rfl
      simp only [MSet.insert, if_neg hne]; exact ha.replies r
    · intro id'
      have := ha.syncs id'
      by_cases hq : id' = id
      · subst hq; simp [MSet.insert, this]
      · simp [MSet.insert, hq, this]

/-- sending a reply -/
theorem core_send {w : World P} {s : SysState P} {x reply} (h : Core x w s) (ha : Ans w s)
    (hh : w.tok.replies.Has reply) :
    ∃ s', SysNext prog g s (toSys (.send reply)) s' ∧
      Core x { w with tok := { w.tok with replies := w.tok.replies.remove reply } } s' ∧
      Ans { w with tok := { w.tok with replies := w.tok.replies.remove reply } } s' := by
  obtain ⟨o, id⟩ := reply
  by_cases ho : o = .sync
  · subst ho
    have hs : s.syncReplies.Has id := Nat.lt_of_lt_of_le hh (ha.syncs id)
    refine ⟨_, .deliverSync hs, ⟨h.program, h.disk, h.reqs, h.syncs, h.hist⟩, ?_, ?_⟩
    · intro r
      have hne : ¬ (liftR r = ⟨.sync, id⟩) := fun hc => (liftR_eq.mp hc).1 rfl
      simp only [MSet.remove, if_neg hne]; exact ha.replies r
    · intro id'
      have := ha.syncs id'
      by_cases hq : id' = id
      · subst hq; simp only [MSet.remove, if_true]; omega
      · simp [MSet.remove, hq, this]
  · have hst : toSys (.send ⟨o, id⟩) = .deliverReply (TReply.mapspec ⟨o, id⟩) := by
      cases o <;> first | rfl | exact absurd rfl ho
    rw [hst]
    have hl : liftR (TReply.mapspec ⟨o, id⟩) = ⟨o, id⟩ := liftR_eq.mpr ⟨ho, rfl⟩
    have hs : s.replies.Has (TReply.mapspec ⟨o, id⟩) := by
      unfold MSet.Has; rw [ha.replies, hl]; exact hh
    refine ⟨_, .deliverReply hs, ⟨h.program, h.disk, h.reqs, h.syncs, h.hist⟩, ?_, ?_⟩
    · intro r
      have := ha.replies r
      by_cases hr : r = TReply.mapspec ⟨o, id⟩
      · have hr' : liftR r = ⟨o, id⟩ := liftR_eq.mpr ⟨ho, hr⟩
        simp [MSet.remove, hr', ← hr, this]
      · have hr' : ¬ liftR r = ⟨o, id⟩ := fun hc => hr (liftR_eq.mp hc).2
        simp only [MSet.remove, if_neg hr', if_neg hr]; exact this
    · intro id'
      have hne : ¬ ((⟨.sync, id'⟩ : TReply) = ⟨o, id⟩) := fun hc => ho (by cases hc; rfl)
      simp only [MSet.remove, if_neg hne]; exact ha.syncs id'

theorem core_send_quiet {w : World P} {s : SysState P} {x reply} (h : Core x w s) :
    Core x { w with tok := { w.tok with replies := w.tok.replies.remove reply } } s :=
  ⟨h.program, h.disk, h.reqs, h.syncs, h.hist⟩

/-- all events but receiving and sending of requests and replies -/
theorem core_other {restart} {w w' : World P} {s : SysState P} {x e} (hids : Ids w) (h : Core x w s)
    (hs : Step prog g restart w e w') (hx : Held w' x) (hr : ∀ req, e ≠ .receive req)
    (hd : ∀ reply, e ≠ .send reply) (hc : e = .crash → w.next ≤ restart w.next) :
    ∃ s', SysNext prog g s (toSys e) s' ∧ Core x w' s' ∧ (Plain e → Ans w s → Ans w' s') := by
  cases hs with
  | receive _ _ => exact absurd rfl (hr _)
  | send _ => exact absurd rfl (hd _)
  | sendDisk hh hdisk =>
    refine ⟨s, .noop, ⟨h.program, ?_, h.reqs, h.syncs, ?_⟩, fun _ ha => ⟨ha.1, ha.2⟩⟩
    · rw [h.disk]; exact (view_send hids hh hdisk).symm
    · intro id hi; have := h.hist id hi; show id.toNat < w.next + 1; omega
  | receiveDisk hdisk =>
    refine ⟨s, .noop, ⟨h.program, ?_, h.reqs, h.syncs, h.hist⟩, fun _ ha => ⟨ha.1, ha.2⟩⟩
    rw [h.disk]; exact (view_receive hids hdisk).symm
  | prog hp ht => exact core_prog hids h hp ht hx
  | didRead hdisk =>
    have := view_read hids hdisk
    rw [← h.disk] at this
    exact ⟨_, .diskRead this, ⟨h.program, rfl, h.reqs, h.syncs, h.hist⟩, fun _ ha => ⟨ha.1, ha.2⟩⟩
  | didWrite hdisk =>
    have := view_write hids hdisk
    rw [← h.disk] at this
    exact ⟨_, .diskWrite this, ⟨h.program, rfl, h.reqs, h.syncs, h.hist⟩, fun _ ha => ⟨ha.1, ha.2⟩⟩
  | @crash t' d' ht hdisk =>
    have hv := view_crash ht hdisk
    rw [← h.disk] at hv
    have hx : x = none := by
      cases x with
      | none => rfl
      | some id =>
        obtain ⟨q, _, hq⟩ := hx id rfl
        rw [ht.requests] at hq; exact absurd hq (MSet.not_has_empty _)
    subst hx
    refine ⟨_, .crash ht.model hv, ⟨rfl, rfl, ?_, ?_, ?_⟩, fun _ ha => ⟨?_, ?_⟩⟩
    · intro q; simp [ht.requests, MSet.empty]
    · intro id; simp [ht.requests, MSet.empty]
    · intro id hi; exact Nat.lt_of_lt_of_le (h.hist id hi) (hc rfl)
    · intro r; simp [ht.replies, MSet.empty]
    · intro id; simp [ht.replies, MSet.empty]

/-- The counter never goes back, or nothing ever restarts. -/
def Forward (restart : Nat → Nat) (tr : List Event) : Prop := (∀ n, n ≤ restart n) ∨ .crash ∉ tr

theorem Forward.of_snoc {restart tr e} (h : Forward restart (tr ++ [e])) : Forward restart tr := by
  rcases h with h | h
  · exact .inl h
  · exact .inr fun hc => h (by simp [hc])

theorem Forward.last {restart tr e} (h : Forward restart (tr ++ [e])) (n : Nat) (he : e = .crash) :
    n ≤ restart n := by
  rcases h with h | h
  · exact h n
  · exact absurd (by simp [he]) h

/-- a held request survives in the world before the step, unless it is the one just received -/
theorem held_before {restart} {w w' : World P} {e x} (hs : Step prog g restart w e w') (hx : Held w' x)
    (hr : ∀ req, e = .receive req → x ≠ some req.id) : Held w x := by
  intro id hid
  obtain ⟨q, hq, hh⟩ := hx id hid
  refine ⟨q, hq, ?_⟩
  cases hs with
  | receive hi hp =>
    rcases MSet.has_insert.mp hh with rfl | hh
    · exact absurd (hq ▸ hid) (hr _ rfl)
    · exact hh
  | prog hp ht =>
    cases ht with
    | internal _ => exact hh
    | execute _ _ _ => exact MSet.has_of_remove hh
    | disk _ _ => exact hh
    | requestSync _ _ => exact MSet.has_of_remove hh
    | replySync _ => exact hh
  | crash ht _ =>
    rw [ht.requests] at hh; exact absurd hh (MSet.not_has_empty _)
  | _ => exact hh

/-- Whatever the program holds, some run of the system model has led to its state; in that run any one
of the requests held may be taken for a sync request. -/
theorem core_reachable {restart tr} {w : World P} (h : (machine prog g restart).Exec tr w)
    (hf : Forward restart tr) : ∀ x, Held w x → ∃ s, (sysMachine prog g).Reachable s ∧ Core x w s := by
  refine (Machine.exec_invariant (M := machine prog g restart)
    (I := fun tr w => Ids w ∧
      (Forward restart tr → ∀ x, Held w x → ∃ s, (sysMachine prog g).Reachable s ∧ Core x w s))
    ?_ ?_ h).2 hf
  · intro w hw
    refine ⟨ids_clear hw.tok hw.idle.1 hw.idle.2, ?_⟩
    intro _ x hx
    obtain ⟨s, hi, hc, _⟩ := core_init hw
    have : x = none := by
      cases x with
      | none => rfl
      | some id =>
        obtain ⟨q, _, hq⟩ := hx id rfl
        rw [hw.tok.requests] at hq; exact absurd hq (MSet.not_has_empty _)
    subst this
    exact ⟨s, ⟨[], s, hi, .nil _⟩, hc⟩
  · intro tr w e w' ⟨hids, hI⟩ hs
    refine ⟨hids.step hs, ?_⟩
    intro hf x hx
    have hI := hI hf.of_snoc
    by_cases hr : ∃ req, e = .receive req ∧ x = some req.id
    · obtain ⟨req, rfl, rfl⟩ := hr
      obtain ⟨s, ⟨tr', hex'⟩, hc⟩ := hI none (fun _ h => by cases h)
      cases hs with
      | receive hid hp =>
        obtain ⟨s', hs', hc'⟩ := core_receive_as_sync (prog := prog) (g := g) hids hc hid
        exact ⟨s', ⟨_, hex'.snoc hs'⟩, hc'⟩
    · have hr : ∀ req, e = .receive req → x ≠ some req.id := fun req h1 h2 => hr ⟨req, h1, h2⟩
      obtain ⟨s, ⟨tr', hex'⟩, hc⟩ := hI x (held_before hs hx hr)
      by_cases hrc : ∃ req, e = .receive req
      · obtain ⟨req, rfl⟩ := hrc
        cases hs with
        | receive hid hp =>
          obtain ⟨s', hs', hc', _⟩ := core_receive (prog := prog) (g := g) hc hid (hr _ rfl)
          exact ⟨s', ⟨_, hex'.snoc hs'⟩, hc'⟩
      · by_cases hsd : ∃ reply, e = .send reply
        · obtain ⟨reply, rfl⟩ := hsd
          cases hs with
          | send hh => exact ⟨s, ⟨_, hex'⟩, core_send_quiet hc⟩
        · obtain ⟨s', hs', hc', _⟩ := core_other hids hc hs hx (fun req h => hrc ⟨req, h⟩)
            (fun reply h => hsd ⟨reply, h⟩) (hf.last _)
          exact ⟨s', ⟨_, hex'.snoc hs'⟩, hc'⟩

/-- one event -/
theorem core_step {restart} {w w' : World P} {s : SysState P} {e} (hids : Ids w) (hc : Core none w s)
    (ha : Ans w s) (hs : Step prog g restart w e w') (hple : Plain e)
    (hf : e = .crash → w.next ≤ restart w.next) :
    ∃ s', SysNext prog g s (toSys e) s' ∧ Core none w' s' ∧ Ans w' s' := by
  by_cases hrc : ∃ req, e = .receive req
  · obtain ⟨req, rfl⟩ := hrc
    cases hs with
    | receive hid hp =>
      obtain ⟨s', hs', hc', h1, h2⟩ := core_receive (prog := prog) (g := g) hc hid (by simp)
      exact ⟨s', hs', hc', by rw [h1]; exact ha.1, by rw [h2]; exact ha.2⟩
  · by_cases hsd : ∃ reply, e = .send reply
    · obtain ⟨reply, rfl⟩ := hsd
      cases hs with
      | send hh => exact core_send hc ha hh
    · obtain ⟨s', hs', hc', ha'⟩ := core_other hids hc hs (fun _ h => by cases h)
        (fun req h => hrc ⟨req, h⟩) (fun reply h => hsd ⟨reply, h⟩) hf
      exact ⟨s', hs', hc', ha' hple ha⟩

/-- Event for event a run of the system model. -/
theorem core_exec {restart tr} {w : World P} (h : (machine prog g restart).Exec tr w)
    (hf : Forward restart tr) (hpl : ∀ e ∈ tr, Plain e) :
    ∃ s, (sysMachine prog g).Exec (tr.map toSys) s ∧ Core none w s ∧ Ans w s := by
  refine (Machine.exec_invariant (M := machine prog g restart)
    (I := fun tr w => Ids w ∧ (Forward restart tr → (∀ e ∈ tr, Plain e) →
      ∃ s, (sysMachine prog g).Exec (tr.map toSys) s ∧ Core none w s ∧ Ans w s))
    ?_ ?_ h).2 hf hpl
  · intro w hw
    refine ⟨ids_clear hw.tok hw.idle.1 hw.idle.2, ?_⟩
    intro _ _
    obtain ⟨s, hi, hc, ha⟩ := core_init hw
    exact ⟨s, ⟨s, hi, .nil _⟩, hc, ha⟩
  · intro tr w e w' ⟨hids, hI⟩ hs
    refine ⟨hids.step hs, ?_⟩
    intro hf hpl
    obtain ⟨s, hex', hc, ha⟩ := hI hf.of_snoc (fun e he => hpl e (by simp [he]))
    obtain ⟨s', hs', h1, h2⟩ := core_step hids hc ha hs (hpl e (by simp)) (hf.last _)
    rw [List.map_append]
    exact ⟨s', hex'.snoc hs', h1, h2⟩

end
end Verif.Tok
