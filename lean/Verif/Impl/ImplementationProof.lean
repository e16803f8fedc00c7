import Verif.Impl.Implementation
import Verif.Impl.SystemProof
import Verif.Props.C30
/-
Invariants of the executable program: what the disk is doing in each phase, the buffer of sync
requests, and the past of every request in it. Proof support for C33.
-/
namespace Verif.Impl
open AsyncDisk (Req Resp)
open Verif.Sys (one_inj one_self union_one union_empty take_empty take_one remove_one)

variable {c : Codec} {ic : ICodec c} {w : Variant} {g : Geometry}

/-- the requests being answered -/
def State.ready (s : State) : List SyncReqId :=
  match s.pc with
  | .delivering l => l
  | _ => []

/-- all requests accepted and not answered -/
def State.pending (s : State) : List SyncReqId := s.satisfied ++ s.deferred ++ s.ready

/-- What the disk is doing, by phase. -/
inductive Phase : State → Prop
  | begin {s : State} (hp : s.recovery = .begin) (hq : s.disk.requests = PMap.empty)
      (hr : s.disk.responses = PMap.empty) : Phase s
  | reading {s : State} {id} (hp : s.recovery = .awaitingSuperblock)
      (hq : s.disk.requests = one id (.read sbAddr)) (hr : s.disk.responses = PMap.empty) : Phase s
  | read {s : State} {id d} (hp : s.recovery = .awaitingSuperblock)
      (hq : s.disk.requests = PMap.empty) (hr : s.disk.responses = one id (.read d)) : Phase s
  | idle {s : State} (hp : s.recovery = .complete) (hs : s.satisfied = [])
      (hq : s.disk.requests = PMap.empty) (hr : s.disk.responses = PMap.empty) : Phase s
  | writing {s : State} {id page} (hp : s.recovery = .complete) (hs : s.satisfied ≠ [])
      (hpc : ∀ l, s.pc ≠ .delivering l)
      (hq : s.disk.requests = one id (.write sbAddr page)) (hr : s.disk.responses = PMap.empty) : Phase s
  | written {s : State} {id} (hp : s.recovery = .complete) (hs : s.satisfied ≠ [])
      (hpc : ∀ l, s.pc ≠ .delivering l)
      (hq : s.disk.requests = PMap.empty) (hr : s.disk.responses = one id .write) : Phase s

theorem Phase.cong {s s' : State} (h : Phase s) (h1 : s'.recovery = s.recovery)
    (h2 : s'.satisfied = s.satisfied) (h3 : s'.disk = s.disk)
    (h4 : ∀ l, s'.pc = .delivering l → ∃ l', s.pc = .delivering l') : Phase s' := by
  cases h with
  | begin hp hq hr => exact .begin (h1.trans hp) (h3 ▸ hq) (h3 ▸ hr)
  | reading hp hq hr => exact .reading (h1.trans hp) (h3 ▸ hq) (h3 ▸ hr)
  | read hp hq hr => exact .read (h1.trans hp) (h3 ▸ hq) (h3 ▸ hr)
  | idle hp hs hq hr => exact .idle (h1.trans hp) (h2.trans hs) (h3 ▸ hq) (h3 ▸ hr)
  | writing hp hs hpc hq hr =>
    exact .writing (h1.trans hp) (h2 ▸ hs) (fun l hl => (h4 l hl).elim hpc) (h3 ▸ hq) (h3 ▸ hr)
  | written hp hs hpc hq hr =>
    exact .written (h1.trans hp) (h2 ▸ hs) (fun l hl => (h4 l hl).elim hpc) (h3 ▸ hq) (h3 ▸ hr)

/-- The state invariant. -/
structure Inv (s : State) : Prop where
  phase : Phase s
  quiet : s.recovery ≠ .complete → s.pc = .idle ∧ s.satisfied = [] ∧ s.deferred = []
  reqOnce : s.syncRequests.Single
  reqSeen : ∀ i, s.syncRequests.Has i → s.idHistory.Has i
  pendSeen : ∀ i ∈ s.pending, s.idHistory.Has i
  disj : ∀ i, s.syncRequests.Has i → i ∉ s.pending
  nodup : s.pending.Nodup

theorem phase_init {s : State} (h : Init c s) : Phase s := .begin h.recovery h.noReqs h.noResps

theorem phase_step {s l s'} (hi : Phase s)
    (hquiet : s.recovery ≠ .complete → s.satisfied = []) (hs : Next c ic w g s l s') : Phase s' := by
  cases hs with
  | acceptRequest => exact hi.cong rfl rfl rfl (fun l h => ⟨l, h⟩)
  | deliverReply => exact hi.cong rfl rfl rfl (fun l h => ⟨l, h⟩)
  | acceptSync => exact hi.cong rfl rfl rfl (fun l h => ⟨l, h⟩)
  | deliverSync => exact hi.cong rfl rfl rfl (fun l h => ⟨l, h⟩)
  | diskRead hd =>
    cases hd with
    | read hreq hwf hx =>
      cases hi with
      | begin hp hq hr => rw [hq] at hreq; cases hreq
      | reading hp hq hr =>
        rw [hq] at hreq
        obtain ⟨rfl, heq⟩ := one_inj hreq
        exact .read hp (by simp only [hq, remove_one]) (by simp only [hr]; rfl)
      | read hp hq hr => rw [hq] at hreq; cases hreq
      | idle hp hs hq hr => rw [hq] at hreq; cases hreq
      | writing hp hs hpc hq hr => rw [hq] at hreq; have := (one_inj hreq).2; cases this
      | written hp hs hpc hq hr => rw [hq] at hreq; cases hreq
  | diskWrite hd =>
    cases hd with
    | write hreq hwf =>
      cases hi with
      | begin hp hq hr => rw [hq] at hreq; cases hreq
      | reading hp hq hr => rw [hq] at hreq; have := (one_inj hreq).2; cases this
      | read hp hq hr => rw [hq] at hreq; cases hreq
      | idle hp hs hq hr => rw [hq] at hreq; cases hreq
      | writing hp hs hpc hq hr =>
        rw [hq] at hreq
        obtain ⟨rfl, heq⟩ := one_inj hreq
        exact .written hp hs hpc (by simp only [hq, remove_one]) (by simp only [hr]; rfl)
      | written hp hs hpc hq hr => rw [hq] at hreq; cases hreq
  | crash hd => cases hd; exact .begin rfl rfl rfl
  | @recoverBegin id _ hb hd =>
    cases hd with
    | ops newReq newResp sub =>
      cases hi with
      | begin hp hq hr =>
        exact .reading (id := id) rfl (by simp only [hq, union_one]) (by simp only [hr, take_empty])
      | reading hp => rw [hb] at hp; cases hp
      | read hp => rw [hb] at hp; cases hp
      | idle hp => rw [hb] at hp; cases hp
      | writing hp => rw [hb] at hp; cases hp
      | written hp => rw [hb] at hp; cases hp
  | @recoverEnd id raw _ hb hd =>
    cases hd with
    | ops newReq newResp sub =>
      have hs := sub id _ (one_self id _)
      cases hi with
      | begin hp => rw [hb] at hp; cases hp
      | reading hp hq hr => rw [hr] at hs; cases hs
      | read hp hq hr =>
        rw [hr] at hs
        obtain ⟨rfl, heq⟩ := one_inj hs
        cases heq
        exact .idle rfl (hquiet (by rw [hb]; simp)) (by simp only [hq, union_empty])
          (by simp only [hr, take_one])
      | idle hp => rw [hb] at hp; cases hp
      | writing hp => rw [hb] at hp; cases hp
      | written hp => rw [hb] at hp; cases hp
  | noop => exact hi.cong rfl rfl rfl (fun l h => ⟨l, h⟩)
  | put => exact hi.cong rfl rfl rfl (fun l h => ⟨l, h⟩)
  | query => exact hi.cong rfl rfl rfl (fun l h => ⟨l, h⟩)
  | queryIgnored => exact hi
  | syncRequest => exact hi.cong rfl rfl rfl (fun l h => by cases h)
  | launchSkip => exact hi.cong rfl rfl rfl (fun l h => by cases h)
  | @launchWrite id _ hb hpc0 h1 h2 hd =>
    cases hd with
    | ops newReq newResp sub =>
      cases hi with
      | begin hp => rw [hb] at hp; cases hp
      | reading hp => rw [hb] at hp; cases hp
      | read hp => rw [hb] at hp; cases hp
      | idle hp hs hq hr =>
        exact .writing (id := id) (page := c.marshall s.journal.superblock) hp h1
          (fun l h => by cases h) (by simp only [hq, union_one]) (by simp only [hr, take_empty])
      | writing hp hs => exact absurd h2 hs
      | written hp hs => exact absurd h2 hs
  | @diskResponse id resp _ hb hpc0 hd =>
    cases hd with
    | ops newReq newResp sub =>
      have hs := sub id _ (one_self id _)
      cases hi with
      | begin hp => rw [hb] at hp; cases hp
      | reading hp => rw [hb] at hp; cases hp
      | read hp => rw [hb] at hp; cases hp
      | idle hp _ hq hr => rw [hr] at hs; cases hs
      | writing hp _ hpc hq hr => rw [hr] at hs; cases hs
      | written hp _ hpc hq hr =>
        rw [hr] at hs
        obtain ⟨rfl, rfl⟩ := one_inj hs
        exact .idle hp rfl (by simp only [hq, union_empty]) (by simp only [hr, take_one])
  | @reply ready id hr hpc => exact hi.cong rfl rfl rfl (fun l h => ⟨_, hpc⟩)
  | repliesDone => exact hi.cong rfl rfl rfl (fun l h => by cases h)

theorem inv_init {s : State} (h : Init c s) : Inv s := by
  refine ⟨phase_init h, fun _ => ⟨h.pc, h.satisfied, h.deferred⟩, ?_, ?_, ?_, ?_, ?_⟩ <;>
    simp [State.pending, State.ready, h.pc, h.satisfied, h.deferred, h.syncRequests, MSet.single_empty]

theorem Inv.same {s s' : State} (hi : Inv s) (hp : Phase s') (h1 : s'.recovery = s.recovery)
    (h2 : s'.pc = s.pc) (h3 : s'.satisfied = s.satisfied) (h4 : s'.deferred = s.deferred)
    (h5 : s'.syncRequests = s.syncRequests) (h6 : ∀ i, s.idHistory.Has i → s'.idHistory.Has i) :
    Inv s' := by
  have hpe : s'.pending = s.pending := by simp [State.pending, State.ready, h2, h3, h4]
  refine ⟨hp, ?_, ?_, ?_, ?_, ?_, ?_⟩
  · rw [h1, h2, h3, h4]; exact hi.quiet
  · rw [h5]; exact hi.reqOnce
  · rw [h5]; exact fun i h => h6 _ (hi.reqSeen i h)
  · rw [hpe]; exact fun i h => h6 _ (hi.pendSeen i h)
  · rw [h5, hpe]; exact hi.disj
  · rw [hpe]; exact hi.nodup

/-- a step that only moves requests between the lists -/
theorem Inv.move {s s' : State} (hi : Inv s) (hp : Phase s') (h1 : s'.recovery = .complete)
    (h5 : s'.syncRequests = s.syncRequests) (h6 : s'.idHistory = s.idHistory)
    (hpe : s'.pending.Perm s.pending) : Inv s' := by
  refine ⟨hp, fun h => absurd h1 h, h5 ▸ hi.reqOnce, ?_, ?_, ?_, hpe.nodup_iff.mpr hi.nodup⟩
  · rw [h5, h6]; exact hi.reqSeen
  · rw [h6]; exact fun i h => hi.pendSeen i (hpe.mem_iff.mp h)
  · rw [h5]; exact fun i h h' => hi.disj i h (hpe.mem_iff.mp h')

theorem inv_step {s l s'} (hi : Inv s) (hs : Next c ic w g s l s') : Inv s' := by
  have hp := phase_step hi.phase (fun h => (hi.quiet h).2.1) hs
  cases hs with
  | acceptRequest => exact hi.same hp rfl rfl rfl rfl rfl (fun i h => MSet.has_insert.mpr (.inr h))
  | deliverReply => exact hi.same hp rfl rfl rfl rfl rfl (fun _ h => h)
  | @acceptSync id hf =>
    refine ⟨hp, hi.quiet, MSet.single_insert hi.reqOnce (fun h => hf (hi.reqSeen _ h)), ?_,
      fun i h => MSet.has_insert.mpr (.inr (hi.pendSeen i h)), ?_, hi.nodup⟩
    · intro i h
      rcases MSet.has_insert.mp h with rfl | h
      · exact MSet.has_insert.mpr (.inl rfl)
      · exact MSet.has_insert.mpr (.inr (hi.reqSeen i h))
    · intro i h
      rcases MSet.has_insert.mp h with rfl | h
      · exact fun h' => hf (hi.pendSeen _ h')
      · exact hi.disj i h
  | deliverSync => exact hi.same hp rfl rfl rfl rfl rfl (fun _ h => h)
  | diskRead => exact hi.same hp rfl rfl rfl rfl rfl (fun _ h => h)
  | diskWrite => exact hi.same hp rfl rfl rfl rfl rfl (fun _ h => h)
  | crash =>
    refine ⟨hp, fun _ => ⟨rfl, rfl, rfl⟩, MSet.single_empty, ?_, ?_, ?_, ?_⟩ <;>
      simp [State.pending, State.ready]
  | recoverBegin hb =>
    obtain ⟨h1, h2, h3⟩ := hi.quiet (by rw [hb]; simp)
    exact ⟨hp, fun _ => ⟨h1, h2, h3⟩, hi.reqOnce, hi.reqSeen, hi.pendSeen, hi.disj, hi.nodup⟩
  | recoverEnd hb =>
    exact ⟨hp, fun h => absurd rfl h, hi.reqOnce, hi.reqSeen, hi.pendSeen, hi.disj, hi.nodup⟩
  | noop => exact hi.same hp rfl rfl rfl rfl rfl (fun _ h => h)
  | put => exact hi.same hp rfl rfl rfl rfl rfl (fun _ h => h)
  | query => exact hi.same hp rfl rfl rfl rfl rfl (fun _ h => h)
  | queryIgnored => exact hi
  | @syncRequest id hr hpc h =>
    have hmem : ∀ i, i ∈ State.pending { s with
          pc := .launch, deferred := s.deferred ++ [id], syncRequests := s.syncRequests.remove id } ↔
        i = id ∨ i ∈ s.pending := by
      intro i; simp only [State.pending, State.ready, hpc, List.mem_append, List.mem_singleton,
        List.not_mem_nil]
      grind
    refine ⟨hp, fun h => absurd hr h, MSet.single_remove hi.reqOnce,
      fun i h => hi.reqSeen i (MSet.has_of_remove h), ?_, ?_, ?_⟩
    · intro i h'
      rcases (hmem i).mp h' with rfl | h'
      · exact hi.reqSeen _ h
      · exact hi.pendSeen i h'
    · intro i h' hm
      obtain ⟨hne, h'⟩ := (MSet.has_remove hi.reqOnce).mp h'
      rcases (hmem i).mp hm with rfl | hm
      · exact hne rfl
      · exact hi.disj i h' hm
    · have hn := hi.nodup
      have hd := hi.disj id h
      simp only [State.pending, State.ready, hpc] at hn hd ⊢
      simp only [List.append_nil, List.mem_append] at hn hd ⊢
      rw [← List.append_assoc, List.nodup_append]
      refine ⟨hn, by simp, ?_⟩
      intro a ha b hb
      rw [List.mem_singleton] at hb; subst hb
      rintro rfl
      exact hd (List.mem_append.mp ha)
  | launchSkip hr hpc =>
    exact hi.move hp hr rfl rfl (by simp [State.pending, State.ready, hpc])
  | launchWrite hr hpc h1 h2 =>
    exact hi.move hp hr rfl rfl (by simp [State.pending, State.ready, hpc, h2])
  | diskResponse hr hpc =>
    refine hi.move hp hr rfl rfl ?_
    simp only [State.pending, State.ready, hpc, List.nil_append, List.append_nil]
    exact List.perm_append_comm
  | @reply ready id hr hpc =>
    have hmem : ∀ i, i ∈ State.pending { s with
          pc := .delivering ready, syncReplies := s.syncReplies.insert id } → i ∈ s.pending := by
      intro i; simp only [State.pending, State.ready, hpc, List.mem_append]
      grind
    refine ⟨hp, fun h => absurd hr h, hi.reqOnce, hi.reqSeen, fun i h => hi.pendSeen i (hmem i h),
      fun i h h' => hi.disj i h (hmem i h'), ?_⟩
    have hn := hi.nodup
    simp only [State.pending, State.ready, hpc] at hn ⊢
    rw [← List.append_assoc] at hn
    exact (List.nodup_append.mp hn).1
  | repliesDone hr hpc =>
    exact hi.move hp hr rfl rfl (by simp [State.pending, State.ready, hpc])

theorem inv_reachable {s} (h : (machine c ic w g).Reachable s) : Inv s :=
  Machine.reachable_invariant (fun _ => inv_init) (fun _ _ _ => inv_step) h

theorem inv_exec {tr s} (h : (machine c ic w g).Exec tr s) : Inv s := inv_reachable ⟨tr, h⟩

/-! ### The past of each pending request -/

/-- `x` happened, no crash since, and `P` held of the trace before it. -/
def After (x : Sys.Label) (P : List Sys.Label → Prop) (tr : List Sys.Label) : Prop :=
  ∃ k, tr[k]? = some x ∧ (∀ m, k < m → tr[m]? ≠ some .crash) ∧ P (tr.take k)

theorem After.new {x P tr} (h : P tr) : After x P (tr ++ [x]) := by
  refine ⟨tr.length, by simp, ?_, by simpa using h⟩
  intro m hm hc
  have := (List.getElem?_eq_some_iff.mp hc).1
  simp at this; omega

theorem After.keep {x P tr l} (h : After x P tr) (hl : l ≠ .crash) : After x P (tr ++ [l]) := by
  obtain ⟨k, hk, hc, hp⟩ := h
  have hlt := (List.getElem?_eq_some_iff.mp hk).1
  refine ⟨k, by rw [List.getElem?_append_left hlt]; exact hk, ?_, ?_⟩
  · intro m hm hx
    by_cases hm' : m < tr.length
    · rw [List.getElem?_append_left hm'] at hx; exact hc m hm hx
    · have := (List.getElem?_eq_some_iff.mp hx).1
      simp at this
      have : m = tr.length := by omega
      subst this
      simp at hx; exact hl hx
  · rw [List.take_append_of_le_length (by omega)]; exact hp

theorem After.mono {x P Q tr} (h : After x P tr) (hpq : ∀ t, P t → Q t) : After x Q tr := by
  obtain ⟨k, h1, h2, h3⟩ := h
  exact ⟨k, h1, h2, hpq _ h3⟩

/-- `b` extends `a` -/
def Journal.Extends (a b : Journal) : Prop := a.seqStart = b.seqStart ∧ a.msgs <+: b.msgs

theorem Journal.Extends.refl (a : Journal) : a.Extends a := ⟨rfl, List.prefix_refl _⟩

theorem Journal.Extends.trans {a b d : Journal} (h : a.Extends b) (h' : b.Extends d) : a.Extends d :=
  ⟨h.1.trans h'.1, h.2.trans h'.2⟩

variable (c ic w g) in
/-- the request was accepted when the journal was a beginning of `j` -/
def Accepted (id : SyncReqId) (j : Journal) : List Sys.Label → Prop :=
  After (.programAcceptSync id) fun t => ∃ s, (machine c ic w g).Exec t s ∧ s.journal.Extends j

variable (c ic w g) in
/-- then a write of the journal was started -/
def Wrote (id : SyncReqId) (rid : AsyncDisk.ID) (page : RawPage) : List Sys.Label → Prop :=
  After (.programDisk (one rid (.write sbAddr page)) PMap.empty) fun t =>
    ∃ s, (machine c ic w g).Exec t s ∧ page = c.marshall s.journal.superblock ∧
      Accepted c ic w g id s.journal t

variable (c ic w g) in
/-- then the disk performed it -/
def Landed (id : SyncReqId) (rid : AsyncDisk.ID) (page : RawPage) : List Sys.Label → Prop :=
  After (.diskWrite rid sbAddr page) (Wrote c ic w g id rid page)

variable (c ic w g) in
/-- then the program was told -/
def Done (id : SyncReqId) (tr : List Sys.Label) : Prop :=
  ∃ rid page, After (.programDisk PMap.empty (one rid .write)) (Landed c ic w g id rid page) tr

/-- Where each pending request stands. -/
structure Past (c : Codec) (ic : ICodec c) (w : Variant) (g : Geometry) (tr : List Sys.Label)
    (s : State) : Prop where
  exec : (machine c ic w g).Exec tr s
  deferred : ∀ id ∈ s.deferred, Accepted c ic w g id s.journal tr
  writing : ∀ id ∈ s.satisfied, ∀ rid page, s.disk.requests rid = some (.write sbAddr page) →
    Wrote c ic w g id rid page tr
  written : ∀ id ∈ s.satisfied, ∀ rid r, s.disk.responses rid = some r →
    ∃ page, Landed c ic w g id rid page tr
  ready : ∀ id ∈ s.ready, Done c ic w g id tr

theorem Accepted.keep {id j j' tr l} (h : Accepted c ic w g id j tr) (hl : l ≠ .crash)
    (hj : j.Extends j') : Accepted c ic w g id j' (tr ++ [l]) := by
  refine (After.keep h hl).mono ?_
  rintro t ⟨s, h1, h2⟩
  exact ⟨s, h1, h2.trans hj⟩

theorem Done.keep {id tr l} (h : Done c ic w g id tr) (hl : l ≠ .crash) :
    Done c ic w g id (tr ++ [l]) := by
  obtain ⟨rid, page, h⟩ := h
  exact ⟨rid, page, h.keep hl⟩

theorem Past.same {tr s l s'} (h : Past c ic w g tr s) (hs : Next c ic w g s l s') (hl : l ≠ .crash)
    (hj : s.journal.Extends s'.journal) (h2 : s'.ready = s.ready)
    (h3 : s'.satisfied = s.satisfied) (h4 : s'.deferred = s.deferred) (h5 : s'.disk = s.disk) :
    Past c ic w g (tr ++ [l]) s' := by
  refine ⟨h.exec.snoc hs, ?_, ?_, ?_, ?_⟩
  · rw [h4]; exact fun id hi => (h.deferred id hi).keep hl hj
  · rw [h3, h5]; exact fun id hi rid page hp => (h.writing id hi rid page hp).keep hl
  · rw [h3, h5]; intro id hi rid r hp
    obtain ⟨page, h'⟩ := h.written id hi rid r hp
    exact ⟨page, h'.keep hl⟩
  · rw [h2]; exact fun id hi => (h.ready id hi).keep hl

theorem past_step {tr s l s'} (h : Past c ic w g tr s) (hs0 : Next c ic w g s l s') :
    Past c ic w g (tr ++ [l]) s' := by
  have hi := inv_exec h.exec
  have hex := h.exec.snoc hs0
  have hx := Journal.Extends.refl s.journal
  have hs := hs0
  cases hs with
  | acceptRequest => exact h.same hs0 (by simp) hx rfl rfl rfl rfl
  | deliverReply => exact h.same hs0 (by simp) hx rfl rfl rfl rfl
  | acceptSync => exact h.same hs0 (by simp) hx rfl rfl rfl rfl
  | deliverSync => exact h.same hs0 (by simp) hx rfl rfl rfl rfl
  | diskRead hd =>
    have hph := hi.phase
    have hempty : s.satisfied = [] := by
      cases hd with
      | read hreq hwf hxx =>
        cases hph with
        | begin hp => exact (hi.quiet (by rw [hp]; simp)).2.1
        | reading hp => exact (hi.quiet (by rw [hp]; simp)).2.1
        | read hp => exact (hi.quiet (by rw [hp]; simp)).2.1
        | idle _ hs => exact hs
        | writing hp hs hpc hq hr => rw [hq] at hreq; have := (one_inj hreq).2; cases this
        | written hp hs hpc hq hr => rw [hq] at hreq; cases hreq
    refine ⟨hex, fun id hi => (h.deferred id hi).keep (by simp) hx, ?_, ?_,
      fun id hi => (h.ready id hi).keep (by simp)⟩
    · show ∀ id ∈ s.satisfied, _
      rw [hempty]; simp
    · show ∀ id ∈ s.satisfied, _
      rw [hempty]; simp
  | @diskWrite rid0 a0 d0 _ hd =>
    refine ⟨hex, fun id hi => (h.deferred id hi).keep (by simp) hx, ?_, ?_,
      fun id hi => (h.ready id hi).keep (by simp)⟩
    · intro id hid rid page hreq
      cases hd with
      | write hreq0 hwf =>
        refine (h.writing id hid rid page ?_).keep (by simp)
        simp only [PMap.remove] at hreq
        split at hreq
        · cases hreq
        · exact hreq
    · intro id hid rid r hresp
      cases hd with
      | write hreq0 hwf =>
        have hph := hi.phase
        cases hph with
        | begin hp hq => rw [hq] at hreq0; cases hreq0
        | reading hp hq => rw [hq] at hreq0; have := (one_inj hreq0).2; cases this
        | read hp hq => rw [hq] at hreq0; cases hreq0
        | idle _ _ hq => rw [hq] at hreq0; cases hreq0
        | writing hp hs hpc hq hr =>
          rw [hq] at hreq0
          obtain ⟨rfl, heq⟩ := one_inj hreq0
          cases heq
          simp only [hr] at hresp
          obtain ⟨rfl, -⟩ := one_inj hresp
          refine ⟨d0, After.new (h.writing id hid rid d0 ?_)⟩
          rw [hq]; simp
        | written hp hs hpc hq hr => rw [hq] at hreq0; cases hreq0
  | crash => exact ⟨hex, by simp, by simp, by simp, by simp [State.ready]⟩
  | recoverBegin hr =>
    obtain ⟨h1, h2, h3⟩ := hi.quiet (by rw [hr]; simp)
    refine ⟨hex, ?_, ?_, ?_, ?_⟩ <;> simp [h1, h2, h3, State.ready]
  | recoverEnd hr =>
    obtain ⟨h1, h2, h3⟩ := hi.quiet (by rw [hr]; simp)
    refine ⟨hex, ?_, ?_, ?_, ?_⟩ <;> simp [h1, h2, h3, State.ready]
  | noop => exact h.same hs0 (by simp) hx rfl rfl rfl rfl
  | put =>
    exact h.same hs0 (by simp) ⟨rfl, List.prefix_append _ _⟩ rfl rfl rfl rfl
  | query => exact h.same hs0 (by simp) hx rfl rfl rfl rfl
  | queryIgnored => exact h.same hs0 (by simp) hx rfl rfl rfl rfl
  | @syncRequest id hr hpc hq =>
    refine ⟨hex, ?_, fun id hi rid page hp => (h.writing id hi rid page hp).keep (by simp), ?_, ?_⟩
    · intro i hi
      rcases List.mem_append.mp hi with hi | hi
      · exact (h.deferred i hi).keep (by simp) hx
      · rw [List.mem_singleton] at hi; subst hi
        exact After.new ⟨s, h.exec, hx⟩
    · intro id hi rid r hp
      obtain ⟨page, h'⟩ := h.written id hi rid r hp
      exact ⟨page, h'.keep (by simp)⟩
    · simp [State.ready]
  | launchSkip hr hpc =>
    exact h.same hs0 (by simp) hx (by simp [State.ready, hpc]) rfl rfl rfl
  | @launchWrite rid _ hr hpc h1 h2 hd =>
    cases hd with
    | ops newReq newResp sub =>
      have hph := hi.phase
      cases hph with
      | begin hp => rw [hr] at hp; cases hp
      | reading hp => rw [hr] at hp; cases hp
      | read hp => rw [hr] at hp; cases hp
      | idle hp hs hq hrs =>
        refine ⟨hex, by simp [h2], ?_, ?_, by simp [State.ready]⟩
        · intro id hid rid' page hreq
          simp only [hq, union_one] at hreq
          obtain ⟨rfl, heq⟩ := one_inj hreq
          cases heq
          exact After.new ⟨s, h.exec, rfl, h.deferred id hid⟩
        · intro id hid rid' r hresp
          simp only [hrs, take_empty] at hresp
          cases hresp
      | writing hp hs => exact absurd h2 hs
      | written hp hs => exact absurd h2 hs
  | @diskResponse rid resp _ hr hpc hd =>
    cases hd with
    | ops newReq newResp sub =>
      have hs := sub rid _ (one_self rid _)
      refine ⟨hex, fun id hi => (h.deferred id hi).keep (by simp) hx, by simp, by simp, ?_⟩
      intro id hid
      have hid : id ∈ s.satisfied := hid
      have hph := hi.phase
      cases hph with
      | begin hp => rw [hr] at hp; cases hp
      | reading hp => rw [hr] at hp; cases hp
      | read hp => rw [hr] at hp; cases hp
      | idle hp hq => rw [hq] at hid; cases hid
      | writing hp _ _ hq hrs => rw [hrs] at hs; cases hs
      | written hp _ _ hq hrs =>
        obtain ⟨page, h'⟩ := h.written id hid rid resp hs
        rw [hrs] at hs
        obtain ⟨rfl, rfl⟩ := one_inj hs
        exact ⟨rid, page, After.new h'⟩
  | @reply ready id hr hpc =>
    refine ⟨hex, fun id hi => (h.deferred id hi).keep (by simp) hx,
      fun id hi rid page hp => (h.writing id hi rid page hp).keep (by simp), ?_, ?_⟩
    · intro id hi rid r hp
      obtain ⟨page, h'⟩ := h.written id hi rid r hp
      exact ⟨page, h'.keep (by simp)⟩
    · intro i hi
      refine (h.ready i ?_).keep (by simp)
      have hi : i ∈ ready := hi
      simp [State.ready, hpc, hi]
  | repliesDone hr hpc =>
    exact h.same hs0 (by simp) hx (by simp [State.ready, hpc]) rfl rfl rfl

theorem past_exec {tr s} (h : (machine c ic w g).Exec tr s) : Past c ic w g tr s := by
  refine Machine.exec_invariant (I := Past c ic w g) ?_ (fun _ _ _ _ => past_step) h
  intro s hs
  refine ⟨⟨s, hs, .nil s⟩, ?_, ?_, ?_, ?_⟩ <;>
    simp [hs.satisfied, hs.deferred, State.ready, hs.pc]

end Verif.Impl
