import Verif.Impl.ImplementationDemo
import Verif.Props.C29
/-
C33. The executable program answers a sync request only after a superblock write that was started
after the request arrived, holds everything put before it, and has completed; it answers each once and
drops none. Specification: positions in the event sequence of the program (with its disk and
clients). All theorems hold for the code as written and for the code with recovery and queries
finished (`Variant` is a parameter).
-/
namespace Verif.C33
open Verif Impl
open Verif.AsyncDisk (Since)
open Verif.C30 (AtMostOnce atMostOnce_nil atMostOnce_snoc)

variable {c : Codec} {ic : ICodec c} {w : Variant} {g : Geometry}

/-- A reply to sync `id` at position `j`: before it, in this order and with no crash in between, the
program accepted the request (`i`), issued a superblock write (`a`), the disk performed that write (`b`)
and the program received its completion (`d`). The page written encodes the journal of moment `a`,
which extends the journal of moment `i`. -/
theorem answered_after_later_write {tr s} (h : (machine c ic w g).Exec tr s) {j : Nat} {id : SyncReqId}
    (hj : tr[j]? = some (.programDeliverSync id)) :
    ∃ (i a b d : Nat) (rid : AsyncDisk.ID) (page : RawPage) (si sa : State),
      i < a ∧ a < b ∧ b < d ∧ d < j ∧
      tr[i]? = some (.programAcceptSync id) ∧
      tr[a]? = some (.programDisk (one rid (.write sbAddr page)) PMap.empty) ∧
      tr[b]? = some (.diskWrite rid sbAddr page) ∧
      tr[d]? = some (.programDisk PMap.empty (one rid .write)) ∧
      (∀ m, i < m → m < j → tr[m]? ≠ some .crash) ∧
      (machine c ic w g).Exec (tr.take i) si ∧ (machine c ic w g).Exec (tr.take a) sa ∧
      page = c.marshall sa.journal.superblock ∧
      si.journal.seqStart = sa.journal.seqStart ∧ si.journal.msgs <+: sa.journal.msgs := by
  obtain ⟨s1, s2, h1, hs⟩ := h.at_index hj
  cases hs with
  | @reply ready _ hr hpc =>
    obtain ⟨rid, page, d, hd, hcd, b, hb, hcb, a, ha, hca, sa, hsa, hpage, i, hi, hci, si, hsi, hext⟩ :=
      (past_exec h1).ready id (by simp [State.ready, hpc])
    have lt : ∀ {t : List Sys.Label} {n k : Nat} {x}, (t.take n)[k]? = some x → k < n ∧ t[k]? = some x := by
      intro t n k x hk
      rw [List.getElem?_take] at hk
      split at hk
      · exact ⟨by assumption, hk⟩
      · cases hk
    have mk : ∀ {t : List Sys.Label} {n k : Nat} {x}, k < n → t[k]? = some x → (t.take n)[k]? = some x := by
      intro t n k x hk hx
      rw [List.getElem?_take, if_pos hk]; exact hx
    obtain ⟨hdj, hd⟩ := lt hd
    obtain ⟨hbd, hb⟩ := lt hb
    obtain ⟨hbj, hb⟩ := lt hb
    obtain ⟨hab, ha⟩ := lt ha
    obtain ⟨had, ha⟩ := lt ha
    obtain ⟨haj, ha⟩ := lt ha
    obtain ⟨hia, hi⟩ := lt hi
    obtain ⟨hib, hi⟩ := lt hi
    obtain ⟨hid, hi⟩ := lt hi
    obtain ⟨hij, hi⟩ := lt hi
    refine ⟨i, a, b, d, rid, page, si, sa, hia, hab, hbd, hdj, hi, ha, hb, hd, ?_, ?_, ?_, hpage,
      hext.1, hext.2⟩
    · intro m h1 h2 hm
      by_cases m1 : m < a
      · exact hci m h1 (mk m1 (mk (by omega) (mk (by omega) (mk (by omega) hm))))
      · by_cases m2 : m < b
        · by_cases m3 : m = a
          · subst m3; rw [hm] at ha; cases ha
          · exact hca m (by omega) (mk m2 (mk (by omega) (mk (by omega) hm)))
        · by_cases m3 : m < d
          · by_cases m4 : m = b
            · subst m4; rw [hm] at hb; cases hb
            · exact hcb m (by omega) (mk m3 (mk (by omega) hm))
          · by_cases m4 : m = d
            · subst m4; rw [hm] at hd; cases hd
            · exact hcd m (by omega) (mk h2 hm)
    · rw [List.take_take, List.take_take, List.take_take, List.take_take] at hsi
      have : min (min (min (min i a) b) d) j = i := by omega
      have hsi' := hsi
      simpa [Nat.min_eq_left (Nat.le_of_lt hia), Nat.min_eq_left (Nat.le_of_lt hib),
        Nat.min_eq_left (Nat.le_of_lt hid), Nat.min_eq_left (Nat.le_of_lt hij)] using hsi'
    · rw [List.take_take, List.take_take, List.take_take] at hsa
      simpa [Nat.min_eq_left (Nat.le_of_lt hab), Nat.min_eq_left (Nat.le_of_lt had),
        Nat.min_eq_left (Nat.le_of_lt haj)] using hsa

/-! ### Once each, none dropped -/

/-- Ids accepted or answered are spent. -/
structure Spent (id : SyncReqId) (tr : List Sys.Label) (s : State) : Prop where
  inv : Inv s
  accepted : Sys.Label.programAcceptSync id ∈ tr → s.idHistory.Has id ∧ ¬ s.syncRequests.Has id
  answered : Sys.Label.programDeliverSync id ∈ tr →
    Sys.Label.programAcceptSync id ∈ tr ∧ id ∉ s.pending
  held : id ∈ s.pending → Sys.Label.programAcceptSync id ∈ tr
  accOnce : AtMostOnce (· = .programAcceptSync id) tr
  ansOnce : AtMostOnce (· = .programDeliverSync id) tr

theorem Spent.same {id tr s l s'} (h : Spent id tr s) (hs : Next c ic w g s l s')
    (h1 : l ≠ .programAcceptSync id) (h2 : l ≠ .programDeliverSync id)
    (h3 : s.idHistory.Has id → s'.idHistory.Has id)
    (h4 : s.idHistory.Has id → s'.syncRequests.Has id → s.syncRequests.Has id)
    (h5 : id ∈ s'.pending → id ∈ s.pending) : Spent id (tr ++ [l]) s' := by
  have a1 : Sys.Label.programAcceptSync id ∈ tr ++ [l] ↔ Sys.Label.programAcceptSync id ∈ tr := by
    simp [h1.symm]
  have a2 : Sys.Label.programDeliverSync id ∈ tr ++ [l] ↔ Sys.Label.programDeliverSync id ∈ tr := by
    simp [h2.symm]
  refine ⟨inv_step h.inv hs, ?_, ?_, ?_, atMostOnce_snoc h.accOnce (fun hl => absurd hl h1),
    atMostOnce_snoc h.ansOnce (fun hl => absurd hl h2)⟩
  · rw [a1]; intro ha
    obtain ⟨x, y⟩ := h.accepted ha
    exact ⟨h3 x, fun z => y (h4 x z)⟩
  · rw [a1, a2]; intro ha
    obtain ⟨x, y⟩ := h.answered ha
    exact ⟨x, fun z => y (h5 z)⟩
  · rw [a1]; exact fun hp => h.held (h5 hp)

theorem spent_step {id tr s l s'} (h : Spent id tr s) (hs0 : Next c ic w g s l s') :
    Spent id (tr ++ [l]) s' := by
  have hs := hs0
  cases hs with
  | acceptRequest =>
    exact h.same hs0 (by simp) (by simp) (fun h => MSet.has_insert.mpr (.inr h)) (fun _ h => h) (fun h => h)
  | deliverReply => exact h.same hs0 (by simp) (by simp) (fun h => h) (fun _ h => h) (fun h => h)
  | @acceptSync id' hf =>
    refine h.same hs0 (by simp) (by simp) (fun h => MSet.has_insert.mpr (.inr h)) ?_ (fun h => h)
    intro hh hx
    rcases MSet.has_insert.mp hx with rfl | hx
    · exact absurd hh hf
    · exact hx
  | deliverSync => exact h.same hs0 (by simp) (by simp) (fun h => h) (fun _ h => h) (fun h => h)
  | diskRead => exact h.same hs0 (by simp) (by simp) (fun h => h) (fun _ h => h) (fun h => h)
  | diskWrite => exact h.same hs0 (by simp) (by simp) (fun h => h) (fun _ h => h) (fun h => h)
  | crash =>
    exact h.same hs0 (by simp) (by simp) (fun h => h) (fun _ h => by simp at h)
      (fun h => by simp [State.pending, State.ready] at h)
  | recoverBegin => exact h.same hs0 (by simp) (by simp) (fun h => h) (fun _ h => h) (fun h => h)
  | recoverEnd => exact h.same hs0 (by simp) (by simp) (fun h => h) (fun _ h => h) (fun h => h)
  | noop => exact h.same hs0 (by simp) (by simp) (fun h => h) (fun _ h => h) (fun h => h)
  | put => exact h.same hs0 (by simp) (by simp) (fun h => h) (fun _ h => h) (fun h => h)
  | query => exact h.same hs0 (by simp) (by simp) (fun h => h) (fun _ h => h) (fun h => h)
  | queryIgnored => exact h.same hs0 (by simp) (by simp) (fun h => h) (fun _ h => h) (fun h => h)
  | @syncRequest id' hr hpc hq =>
    have hmem : ∀ i, i ∈ State.pending { s with
          pc := .launch, deferred := s.deferred ++ [id'], syncRequests := s.syncRequests.remove id' } →
        i = id' ∨ i ∈ s.pending := by
      intro i; simp only [State.pending, State.ready, hpc, List.mem_append, List.mem_singleton,
        List.not_mem_nil]
      grind
    by_cases he : id' = id
    · subst he
      have hno : Sys.Label.programAcceptSync id' ∉ tr := fun ha => (h.accepted ha).2 hq
      refine ⟨inv_step h.inv hs0, ?_, ?_, by simp, ?_, atMostOnce_snoc h.ansOnce (fun hl => by cases hl)⟩
      · intro _
        exact ⟨h.inv.reqSeen _ hq, fun hx => ((MSet.has_remove h.inv.reqOnce).mp hx).1 rfl⟩
      · intro ha
        rcases List.mem_append.mp ha with ha | ha
        · exact absurd (h.answered ha).1 hno
        · simp at ha
      · exact atMostOnce_snoc h.accOnce (fun _ x hx hxe => hno (hxe ▸ hx))
    · refine h.same hs0 (by simpa using he) (by simp) (fun h => h)
        (fun _ hx => MSet.has_of_remove hx) ?_
      intro hp
      rcases hmem id hp with rfl | hp
      · exact absurd rfl he
      · exact hp
  | launchSkip hr hpc =>
    refine h.same hs0 (by simp) (by simp) (fun h => h) (fun _ h => h) ?_
    simp [State.pending, State.ready, hpc]
  | launchWrite hr hpc h1 h2 =>
    refine h.same hs0 (by simp) (by simp) (fun h => h) (fun _ h => h) ?_
    simp [State.pending, State.ready, hpc, h2]
  | diskResponse hr hpc =>
    refine h.same hs0 (by simp) (by simp) (fun h => h) (fun _ h => h) ?_
    simp only [State.pending, State.ready, hpc, List.mem_append]
    grind
  | @reply ready id' hr hpc =>
    have hmem : ∀ i, i ∈ State.pending { s with
          pc := .delivering ready, syncReplies := s.syncReplies.insert id' } → i ∈ s.pending := by
      intro i; simp only [State.pending, State.ready, hpc, List.mem_append]
      grind
    have hin : id' ∈ s.pending := by simp [State.pending, State.ready, hpc]
    by_cases he : id' = id
    · subst he
      have hno : Sys.Label.programDeliverSync id' ∉ tr := fun ha => (h.answered ha).2 hin
      have hout : id' ∉ State.pending { s with
          pc := .delivering ready, syncReplies := s.syncReplies.insert id' } := by
        have hn := h.inv.nodup
        simp only [State.pending, State.ready, hpc] at hn ⊢
        rw [← List.append_assoc, List.nodup_append] at hn
        exact fun hx => hn.2.2 _ hx id' (by simp) rfl
      refine ⟨inv_step h.inv hs0, ?_, ?_, ?_, atMostOnce_snoc h.accOnce (fun hl => by cases hl), ?_⟩
      · intro ha
        exact h.accepted (h.held hin)
      · intro _
        exact ⟨List.mem_append.mpr (.inl (h.held hin)), hout⟩
      · exact fun hx => absurd hx hout
      · exact atMostOnce_snoc h.ansOnce (fun _ x hx hxe => hno (hxe ▸ hx))
    · exact h.same hs0 (by simp) (by simpa using he) (fun h => h) (fun _ h => h) (hmem id)
  | repliesDone hr hpc =>
    refine h.same hs0 (by simp) (by simp) (fun h => h) (fun _ h => h) ?_
    simp [State.pending, State.ready, hpc]

theorem spent_exec {tr s} (h : (machine c ic w g).Exec tr s) (id : SyncReqId) : Spent id tr s := by
  refine Machine.exec_invariant (I := Spent id) ?_ (fun _ _ _ _ => spent_step) h
  intro s hs
  refine ⟨inv_init hs, by simp, by simp, ?_, atMostOnce_nil, atMostOnce_nil⟩
  simp [State.pending, State.ready, hs.pc, hs.satisfied, hs.deferred]

/-- Each request is answered at most once, and accepted at most once. -/
theorem answered_once {tr s} (h : (machine c ic w g).Exec tr s) (id : SyncReqId) :
    AtMostOnce (· = .programDeliverSync id) tr ∧ AtMostOnce (· = .programAcceptSync id) tr :=
  ⟨(spent_exec h id).ansOnce, (spent_exec h id).accOnce⟩

/-- The buffer is exactly the requests accepted since the last crash and not answered: nothing is
dropped, nothing is invented. -/
theorem pending_exact {tr s} (h : (machine c ic w g).Exec tr s) (id : SyncReqId) :
    id ∈ s.satisfied ++ s.deferred ++ s.ready ↔
      Since (· = .programAcceptSync id) (fun l => l = .crash ∨ l = .programDeliverSync id) tr := by
  show id ∈ s.pending ↔ _
  refine (Machine.exec_invariant (M := machine c ic w g) (I := fun tr s => Spent id tr s ∧
    (id ∈ s.pending ↔ Since (· = .programAcceptSync id)
      (fun l => l = .crash ∨ l = .programDeliverSync id) tr)) ?_ ?_ h).2
  · intro s hs
    refine ⟨spent_exec ⟨s, hs, .nil s⟩ id, ?_⟩
    simp only [State.pending, State.ready, hs.pc, hs.satisfied, hs.deferred]
    constructor
    · simp
    · rintro ⟨t1, e, t2, h, _⟩; simp at h
  · rintro tr s l s' ⟨hsp, hiff⟩ hs
    refine ⟨spent_step hsp hs, ?_⟩
    rw [C29.since_snoc_iff, ← hiff]
    cases hs with
    | @syncRequest id' hr hpc hq =>
      simp only [State.pending, State.ready, hpc, List.mem_append, List.mem_singleton,
        Sys.Label.programAcceptSync.injEq]
      grind
    | launchSkip hr hpc => simp [State.pending, State.ready, hpc]
    | launchWrite hr hpc h1 h2 => simp [State.pending, State.ready, hpc, h2]
    | diskResponse hr hpc =>
      simp only [State.pending, State.ready, hpc, List.mem_append]
      grind
    | @reply ready id' hr hpc =>
      have hn := hsp.inv.nodup
      simp only [State.pending, State.ready, hpc] at hn ⊢
      rw [← List.append_assoc, List.nodup_append] at hn
      have := hn.2.2
      simp only [List.mem_append, List.mem_singleton] at this ⊢
      grind
    | repliesDone hr hpc => simp [State.pending, State.ready, hpc]
    | crash => simp [State.pending, State.ready]
    | _ => simp [State.pending, State.ready]

/-! ### Answered by the second completion -/

/-- the program is told that a superblock write completed -/
def IsDone (l : Sys.Label) : Prop := ∃ rid, l = .programDisk PMap.empty (one rid .write)

open Classical in
/-- `id` was accepted, and since then there was no crash and `n` writes completed -/
def Wait (id : SyncReqId) (n : Nat) (tr : List Sys.Label) : Prop :=
  ∃ t1 t2, tr = t1 ++ .programAcceptSync id :: t2 ∧ t2.countP (fun l => decide (IsDone l)) = n

theorem Wait.keep {id n tr l} (h : Wait id n tr) (hl : ¬ IsDone l) : Wait id n (tr ++ [l]) := by
  obtain ⟨t1, t2, rfl, hn⟩ := h
  exact ⟨t1, t2 ++ [l], by simp, by simp [List.countP_append, hn, hl]⟩

theorem Wait.done {id n tr l} (h : Wait id n tr) (hl : IsDone l) : Wait id (n + 1) (tr ++ [l]) := by
  obtain ⟨t1, t2, rfl, hn⟩ := h
  exact ⟨t1, t2 ++ [l], by simp, by simp [List.countP_append, hn, hl]⟩

theorem Wait.new {id tr} : Wait id 0 (tr ++ [.programAcceptSync id]) := ⟨tr, [], rfl, rfl⟩

/-- How many completions each pending request has seen. -/
structure Counts (tr : List Sys.Label) (s : State) : Prop where
  inv : Inv s
  deferred : ∀ id ∈ s.deferred, Wait id 0 tr ∨ (Wait id 1 tr ∧ s.pc ≠ .idle ∧ s.satisfied = [])
  satisfied : ∀ id ∈ s.satisfied, ∃ n ≤ 1, Wait id n tr
  ready : ∀ id ∈ s.ready, ∃ n ≤ 2, Wait id n tr
  /-- in the main loop, requests wait only for a write that is under way -/
  launched : s.pc = .idle → s.satisfied = [] → s.deferred = []

theorem Counts.same {tr s l s'} (h : Counts tr s) (hs : Next c ic w g s l s') (hl : ¬ IsDone l)
    (h1 : s'.deferred = s.deferred) (h2 : s'.satisfied = s.satisfied)
    (h3 : s'.pc = s.pc) : Counts (tr ++ [l]) s' := by
  have h3' : s'.ready = s.ready := by simp [State.ready, h3]
  refine ⟨inv_step h.inv hs, ?_, ?_, ?_, ?_⟩
  · rw [h1, h2, h3]; intro id hi
    rcases h.deferred id hi with h' | ⟨h', h''⟩
    · exact .inl (h'.keep hl)
    · exact .inr ⟨h'.keep hl, h''⟩
  · rw [h2]; intro id hi
    obtain ⟨n, hn, h'⟩ := h.satisfied id hi
    exact ⟨n, hn, h'.keep hl⟩
  · rw [h3']; intro id hi
    obtain ⟨n, hn, h'⟩ := h.ready id hi
    exact ⟨n, hn, h'.keep hl⟩
  · rw [h1, h2, h3]; exact h.launched

theorem counts_step {tr s l s'} (h : Counts tr s) (hs0 : Next c ic w g s l s') :
    Counts (tr ++ [l]) s' := by
  have hs := hs0
  have hi := h.inv
  cases hs with
  | acceptRequest => exact h.same hs0 (by simp [IsDone]) rfl rfl rfl
  | deliverReply => exact h.same hs0 (by simp [IsDone]) rfl rfl rfl
  | acceptSync => exact h.same hs0 (by simp [IsDone]) rfl rfl rfl
  | deliverSync => exact h.same hs0 (by simp [IsDone]) rfl rfl rfl
  | diskRead => exact h.same hs0 (by simp [IsDone]) rfl rfl rfl
  | diskWrite => exact h.same hs0 (by simp [IsDone]) rfl rfl rfl
  | crash => exact ⟨inv_step hi hs0, by simp, by simp, by simp [State.ready], by simp⟩
  | recoverBegin hr =>
    obtain ⟨h1, h2, h3⟩ := hi.quiet (by rw [hr]; simp)
    exact ⟨inv_step hi hs0, by simp [h3], by simp [h2], by simp [State.ready, h1], by simp [h3]⟩
  | recoverEnd hr =>
    obtain ⟨h1, h2, h3⟩ := hi.quiet (by rw [hr]; simp)
    exact ⟨inv_step hi hs0, by simp [h3], by simp [h2], by simp [State.ready, h1], by simp [h3]⟩
  | noop => exact h.same hs0 (by simp [IsDone]) rfl rfl rfl
  | put => exact h.same hs0 (by simp [IsDone]) rfl rfl rfl
  | query => exact h.same hs0 (by simp [IsDone]) rfl rfl rfl
  | queryIgnored => exact h.same hs0 (by simp [IsDone]) rfl rfl rfl
  | @syncRequest id' hr hpc hq =>
    have hl : ¬ IsDone (.programAcceptSync id') := by simp [IsDone]
    refine ⟨inv_step hi hs0, ?_, ?_, by simp [State.ready], by simp⟩
    · intro id hid
      rcases List.mem_append.mp hid with hid | hid
      · rcases h.deferred id hid with h' | ⟨_, h', _⟩
        · exact .inl (h'.keep hl)
        · exact absurd hpc h'
      · rw [List.mem_singleton] at hid; subst hid
        exact .inl .new
    · intro id hid
      obtain ⟨n, hn, h'⟩ := h.satisfied id hid
      exact ⟨n, hn, h'.keep hl⟩
  | launchSkip hr hpc hsk =>
    have hl : ¬ IsDone .noop := by simp [IsDone]
    refine ⟨inv_step hi hs0, ?_, ?_, by simp [State.ready], ?_⟩
    · intro id hid
      rcases h.deferred id hid with h' | ⟨_, _, h'⟩
      · exact .inl (h'.keep hl)
      · rcases hsk with hsk | hsk
        · have hid : id ∈ s.deferred := hid
          rw [hsk] at hid; cases hid
        · exact absurd h' hsk
    · intro id hid
      obtain ⟨n, hn, h'⟩ := h.satisfied id hid
      exact ⟨n, hn, h'.keep hl⟩
    · intro _ hsat
      rcases hsk with hsk | hsk
      · exact hsk
      · exact absurd hsat hsk
  | @launchWrite rid _ hr hpc h1 h2 hd =>
    have hl : ¬ IsDone (.programDisk (one rid (.write sbAddr (c.marshall s.journal.superblock)))
        PMap.empty) := by
      rintro ⟨r, hr⟩
      injection hr with hr _
      have := congrFun hr rid
      simp [one] at this
    refine ⟨inv_step hi hs0, by simp [h2], ?_, by simp [State.ready], by simp [h2]⟩
    intro id hid
    rcases h.deferred id hid with h' | ⟨h', _⟩
    · exact ⟨0, by omega, h'.keep hl⟩
    · exact ⟨1, by omega, h'.keep hl⟩
  | @diskResponse rid resp _ hr hpc hd =>
    have hresp : resp = .write := by
      cases hd with
      | ops _ _ sub =>
        have hs := sub rid _ (Sys.one_self rid _)
        have hph := hi.phase
        cases hph with
        | begin hp => rw [hr] at hp; cases hp
        | reading hp => rw [hr] at hp; cases hp
        | read hp => rw [hr] at hp; cases hp
        | idle hp _ _ hq => rw [hq] at hs; cases hs
        | writing hp _ _ hq hrs => rw [hrs] at hs; cases hs
        | written hp _ _ hq hrs =>
          rw [hrs] at hs
          exact (Sys.one_inj hs).2
    have hl : IsDone (.programDisk PMap.empty (one rid resp)) := ⟨rid, by rw [hresp]⟩
    refine ⟨inv_step hi hs0, ?_, by simp, ?_, by simp⟩
    · intro id hid
      rcases h.deferred id hid with h' | ⟨_, h', _⟩
      · exact .inr ⟨h'.done hl, by simp, rfl⟩
      · exact absurd hpc h'
    · intro id hid
      obtain ⟨n, hn, h'⟩ := h.satisfied id hid
      exact ⟨n + 1, by omega, h'.done hl⟩
  | @reply ready id' hr hpc =>
    have hl : ¬ IsDone (.programDeliverSync id') := by simp [IsDone]
    refine ⟨inv_step hi hs0, ?_, ?_, ?_, by simp⟩
    · intro id hid
      rcases h.deferred id hid with h' | ⟨h', _, h''⟩
      · exact .inl (h'.keep hl)
      · exact .inr ⟨h'.keep hl, by simp, h''⟩
    · intro id hid
      obtain ⟨n, hn, h'⟩ := h.satisfied id hid
      exact ⟨n, hn, h'.keep hl⟩
    · intro id hid
      have hid : id ∈ ready := hid
      obtain ⟨n, hn, h'⟩ := h.ready id (by simp [State.ready, hpc, hid])
      exact ⟨n, hn, h'.keep hl⟩
  | repliesDone hr hpc =>
    have hl : ¬ IsDone .noop := by simp [IsDone]
    refine ⟨inv_step hi hs0, ?_, ?_, by simp [State.ready], by simp⟩
    · intro id hid
      rcases h.deferred id hid with h' | ⟨h', _, h''⟩
      · exact .inl (h'.keep hl)
      · exact .inr ⟨h'.keep hl, by simp, h''⟩
    · intro id hid
      obtain ⟨n, hn, h'⟩ := h.satisfied id hid
      exact ⟨n, hn, h'.keep hl⟩

theorem counts_exec {tr s} (h : (machine c ic w g).Exec tr s) : Counts tr s := by
  refine Machine.exec_invariant (I := Counts) ?_ (fun _ _ _ _ => counts_step) h
  intro s hs
  refine ⟨inv_init hs, ?_, ?_, ?_, ?_⟩ <;>
    simp [hs.pc, hs.satisfied, hs.deferred, State.ready]

open Classical in
theorem two_le_count {P : Sys.Label → Prop} {t : List Sys.Label} {a b : Nat} {x y} (hab : a < b)
    (ha : t[a]? = some x) (hb : t[b]? = some y) (hx : P x) (hy : P y) :
    2 ≤ t.countP (fun l => decide (P l)) := by
  have h1 := (List.getElem?_eq_some_iff.mp ha)
  have h2 := (List.getElem?_eq_some_iff.mp hb)
  have e1 : t = t.take b ++ y :: t.drop (b + 1) := by
    conv => lhs; rw [← List.take_append_drop b t, List.drop_eq_getElem_cons h2.1, h2.2]
  have e2 : (t.take b)[a]? = some x := by rw [List.getElem?_take, if_pos hab]; exact ha
  have h3 : 0 < (t.take b).countP (fun l => decide (P l)) := by
    rw [List.countP_pos_iff]
    exact ⟨x, List.mem_of_getElem? e2, by simpa using hx⟩
  rw [e1, List.countP_append, List.countP_cons]
  simp only [hy, decide_true, if_true]
  omega

/-- No request waits for ever: once it is accepted (position `i`), after the completion of two
superblock writes, and without a crash, it has been answered by the time the program is back in its
main loop. -/
theorem answered_by_second_completion {tr s} (h : (machine c ic w g).Exec tr s) {i d1 d2 : Nat}
    {id : SyncReqId} {x y : Sys.Label} (hi : tr[i]? = some (.programAcceptSync id)) (h1 : i < d1)
    (h2 : d1 < d2) (hx : tr[d1]? = some x) (hy : tr[d2]? = some y) (hdx : IsDone x) (hdy : IsDone y)
    (hnc : ∀ m, i < m → tr[m]? ≠ some .crash) (hpc : s.pc = .idle) :
    ∃ j, i < j ∧ tr[j]? = some (.programDeliverSync id) := by
  refine Classical.byContradiction fun hno => ?_
  have hlt := (List.getElem?_eq_some_iff.mp hi)
  have e : tr = tr.take i ++ .programAcceptSync id :: tr.drop (i + 1) := by
    conv => lhs; rw [← List.take_append_drop i tr, List.drop_eq_getElem_cons hlt.1, hlt.2]
  have hp : id ∈ s.satisfied ++ s.deferred ++ s.ready := by
    rw [pending_exact h]
    refine ⟨_, _, _, e, rfl, ?_⟩
    intro l hl
    obtain ⟨m, hm⟩ := List.getElem?_of_mem hl
    rw [List.getElem?_drop] at hm
    rintro (rfl | rfl)
    · exact hnc (i + 1 + m) (by omega) hm
    · exact hno ⟨i + 1 + m, by omega, hm⟩
  have hc := counts_exec h
  have hw : ∃ n ≤ 1, Wait id n tr := by
    simp only [State.ready, hpc, List.append_nil] at hp
    rcases List.mem_append.mp hp with hp | hp
    · exact hc.satisfied id hp
    · rcases hc.deferred id hp with h' | ⟨_, h', _⟩
      · exact ⟨0, by omega, h'⟩
      · exact absurd hpc h'
  obtain ⟨n, hn, t1, t2, ht, hcount⟩ := hw
  have ht1 : t1.length = i := by
    refine (answered_once h id).2 _ _ _ _ ?_ hi rfl rfl
    rw [ht]; simp
  have e2 : t2 = tr.drop (i + 1) := by
    rw [ht, ← ht1, List.drop_append, List.drop_eq_nil_of_le (by omega)]
    simp [show t1.length + 1 - t1.length = 1 by omega]
  have h3 := two_le_count (P := IsDone) (t := t2) (a := d1 - (i + 1)) (b := d2 - (i + 1)) (by omega)
    (x := x) (y := y)
    (by rw [e2, List.getElem?_drop, show i + 1 + (d1 - (i + 1)) = d1 by omega]; exact hx)
    (by rw [e2, List.getElem?_drop, show i + 1 + (d2 - (i + 1)) = d2 by omega]; exact hy) hdx hdy
  omega

/-- In the main loop with requests pending, a superblock write is outstanding: requested of the disk, or
performed and about to be reported. -/
theorem pending_means_write_outstanding {s} (h : (machine c ic w g).Reachable s) (hpc : s.pc = .idle)
    (hp : s.satisfied ++ s.deferred ≠ []) :
    ∃ rid, (∃ page, s.disk.requests rid = some (.write sbAddr page)) ∨ s.disk.responses rid = some .write := by
  obtain ⟨tr, h⟩ := h
  have hc := counts_exec h
  have hs : s.satisfied ≠ [] := by
    intro hs
    rw [hs, hc.launched hpc hs] at hp; exact hp rfl
  have hph := hc.inv.phase
  have hq := fun h => hs (hc.inv.quiet h).2.1
  cases hph with
  | begin hp => exact (hq (by rw [hp]; simp)).elim
  | reading hp => exact (hq (by rw [hp]; simp)).elim
  | read hp => exact (hq (by rw [hp]; simp)).elim
  | idle _ h' => exact absurd h' hs
  | @writing rid page hp _ _ hq hr => exact ⟨rid, .inl ⟨page, by rw [hq]; simp⟩⟩
  | @written rid hp _ _ hq hr => exact ⟨rid, .inr (by rw [hr]; simp)⟩

/-! ### A pending request can always still be answered -/

theorem run_replies {s : State} (hr : s.recovery = .complete) : ∀ (n : Nat) (l : List SyncReqId), l.length = n →
    s.pc = .delivering l → ∃ u s', (machine c ic w g).Run s u s' ∧ .crash ∉ u ∧
      (∀ id ∈ l, .programDeliverSync id ∈ u) ∧ s'.pc = .launch ∧ s'.recovery = .complete ∧
      s'.satisfied = s.satisfied ∧ s'.deferred = s.deferred ∧ s'.disk = s.disk := by
  intro n
  induction n generalizing s with
  | zero =>
    intro l hl hpc
    have : l = [] := List.length_eq_zero_iff.mp hl
    subst this
    exact ⟨[.noop], _, .single (.repliesDone hr hpc), by simp, by simp, rfl, hr, rfl, rfl, rfl⟩
  | succ n ih =>
    intro l hl hpc
    rcases List.eq_nil_or_concat l with rfl | ⟨l', id, rfl⟩
    · simp at hl
    · rw [List.concat_eq_append] at *
      have hstep : (machine c ic w g).Step s _ _ := Next.reply hr hpc
      obtain ⟨u, s', h1, h2, h3, h4⟩ := ih (s := { s with
          pc := .delivering l', syncReplies := s.syncReplies.insert id }) hr l' (by simpa using hl) rfl
      refine ⟨_ :: u, s', .cons hstep h1, by simp [h2], ?_, h4⟩
      intro i hi
      rcases List.mem_append.mp hi with hi | hi
      · exact List.mem_cons.mpr (.inr (h3 i hi))
      · rw [List.mem_singleton] at hi; subst hi
        exact List.mem_cons.mpr (.inl rfl)

theorem run_complete {s : State} (hg : sbAddr.wf g) (hph : Phase s) (hr : s.recovery = .complete)
    (hpc : s.pc = .idle) (hs : s.satisfied ≠ []) :
    ∃ u s', (machine c ic w g).Run s u s' ∧ .crash ∉ u ∧ s'.pc = .delivering s.satisfied ∧
      s'.recovery = .complete ∧ s'.satisfied = [] ∧ s'.deferred = s.deferred ∧
      s'.disk.requests = PMap.empty ∧ s'.disk.responses = PMap.empty := by
  have fin : ∀ {s : State} {rid}, s.recovery = .complete → s.pc = .idle →
      s.disk.requests = PMap.empty → s.disk.responses = one rid .write →
      ∃ l s', Next c ic w g s l s' ∧ l ≠ .crash ∧ s'.pc = .delivering s.satisfied ∧
        s'.recovery = .complete ∧ s'.satisfied = [] ∧ s'.deferred = s.deferred ∧
        s'.disk.requests = PMap.empty ∧ s'.disk.responses = PMap.empty := by
    intro s rid hr hpc hq hrs
    have hd := AsyncDisk.Next.ops (g := g) (s := s.disk) (rq := PMap.empty) (rs := one rid .write)
      (by simp [PMap.Has]) (by simp [PMap.Has]) (by rw [hrs]; exact fun _ _ h => h)
    exact ⟨_, _, .diskResponse hr hpc hd, by simp, rfl, hr, rfl, rfl,
      by simp only [hq, Sys.union_empty], by simp only [hrs, Sys.take_one]⟩
  cases hph with
  | begin hp => rw [hr] at hp; cases hp
  | reading hp => rw [hr] at hp; cases hp
  | read hp => rw [hr] at hp; cases hp
  | idle _ h' => exact absurd h' hs
  | @writing rid page hp _ _ hq hrs =>
    have hd := AsyncDisk.Next.write (g := g) (s := s.disk) (id := rid) (a := sbAddr) (d := page)
      (by rw [hq]; simp) hg
    have hst : (machine c ic w g).Step s _ _ := Next.diskWrite hd
    obtain ⟨l, s', h1, h2, h3⟩ := fin (s := { s with disk := { requests := s.disk.requests.remove rid, responses := s.disk.responses.insert rid .write, content := s.disk.content.insert sbAddr page } }) (rid := rid) hr hpc
      (by simp only [hq, Sys.remove_one]) (by simp only [hrs]; rfl)
    exact ⟨[_, l], s', .cons hst (.single h1), by simp [h2.symm], h3⟩
  | @written rid hp _ _ hq hrs =>
    obtain ⟨l, s', h1, h2, h3⟩ := fin hr hpc hq hrs
    exact ⟨[l], s', .single h1, by simp [h2.symm], h3⟩

theorem run_launch {s : State} (hph : Phase s) (hr : s.recovery = .complete) (hpc : s.pc = .launch) :
    ∃ u s', (machine c ic w g).Run s u s' ∧ .crash ∉ u ∧ s'.pc = .idle ∧ s'.recovery = .complete ∧
      (s'.satisfied = [] → s'.deferred = []) ∧
      (∀ id, id ∈ s'.satisfied ++ s'.deferred ↔ id ∈ s.satisfied ++ s.deferred) ∧
      (s.satisfied = [] → s'.deferred = []) := by
  by_cases h1 : s.deferred = []
  · exact ⟨[.noop], _, .single (.launchSkip hr hpc (.inl h1)), by simp, rfl, hr, fun _ => h1,
      fun _ => Iff.rfl, fun _ => h1⟩
  by_cases h2 : s.satisfied = []
  · cases hph with
    | begin hp => rw [hr] at hp; cases hp
    | reading hp => rw [hr] at hp; cases hp
    | read hp => rw [hr] at hp; cases hp
    | idle _ h' hq hrs =>
      have hd := AsyncDisk.Next.ops (g := g) (s := s.disk)
        (rq := one 0 (.write sbAddr (c.marshall s.journal.superblock))) (rs := PMap.empty)
        (by rw [hq]; simp [PMap.Has]) (by rw [hrs]; simp [PMap.Has]) (by simp)
      refine ⟨_, _, .single (.launchWrite hr hpc h1 h2 hd), by simp, rfl, hr, fun _ => h2, ?_, fun _ => h2⟩
      intro id; simp [h2]
    | writing _ h' => exact absurd h2 h'
    | written _ h' => exact absurd h2 h'
  · exact ⟨[.noop], _, .single (.launchSkip hr hpc (.inr h2)), by simp, rfl, hr, fun h => absurd h h2,
      fun _ => Iff.rfl, fun h => absurd h h2⟩

/-- From every reachable state there is a continuation without a crash that answers any given pending
request: the program and the disk never get stuck with
a request. -/
theorem can_always_answer {s} (hg : sbAddr.wf g) (h : (machine c ic w g).Reachable s) {id : SyncReqId}
    (hid : id ∈ s.satisfied ++ s.deferred ++ s.ready) :
    ∃ u s', (machine c ic w g).Run s u s' ∧ .crash ∉ u ∧ .programDeliverSync id ∈ u := by
  have phase_of : ∀ {s}, (machine c ic w g).Reachable s → Phase s := fun h => (inv_reachable h).phase
  have ext : ∀ {s u s'}, (machine c ic w g).Reachable s → (machine c ic w g).Run s u s' →
      (machine c ic w g).Reachable s' := by
    rintro s u s' ⟨tr, h⟩ hr; exact ⟨_, h.append hr⟩
  have hr : s.recovery = .complete := by
    refine Classical.byContradiction fun hn => ?_
    obtain ⟨h1, h2, h3⟩ := (inv_reachable h).quiet hn
    simp [State.ready, h1, h2, h3] at hid
  -- in the main loop, waiting for the current write
  have fromSat : ∀ {s}, (machine c ic w g).Reachable s → s.recovery = .complete → s.pc = .idle →
      id ∈ s.satisfied → ∃ u s', (machine c ic w g).Run s u s' ∧ .crash ∉ u ∧ .programDeliverSync id ∈ u := by
    intro s h hr hpc hid
    obtain ⟨u1, s1, r1, c1, p1, q1, _⟩ := run_complete (c := c) (ic := ic) (w := w) hg (phase_of h) hr hpc
      (List.ne_nil_of_mem hid)
    obtain ⟨u2, s2, r2, c2, d2, _⟩ := run_replies (c := c) (ic := ic) (w := w) (g := g) q1 _ _ rfl p1
    exact ⟨u1 ++ u2, s2, r1.append r2, by simp [c1, c2], List.mem_append.mpr (.inr (d2 id hid))⟩
  -- the write will be launched and the request is not being answered yet
  have fromLaunch : ∀ {s}, (machine c ic w g).Reachable s → s.recovery = .complete → s.pc = .launch →
      s.satisfied = [] → id ∈ s.deferred →
      ∃ u s', (machine c ic w g).Run s u s' ∧ .crash ∉ u ∧ .programDeliverSync id ∈ u := by
    intro s h hr hpc hs hid
    obtain ⟨u1, s1, r1, c1, p1, q1, _, m1, e1⟩ :=
      run_launch (c := c) (ic := ic) (w := w) (g := g) (phase_of h) hr hpc
    have hin : id ∈ s1.satisfied := by
      have := (m1 id).mpr (List.mem_append.mpr (.inr hid))
      rw [e1 hs] at this; simpa using this
    obtain ⟨u2, s2, r2, c2, d2⟩ := fromSat (ext h r1) q1 p1 hin
    exact ⟨u1 ++ u2, s2, r1.append r2, by simp [c1, c2], List.mem_append.mpr (.inr d2)⟩
  have fromIdle : ∀ {s}, (machine c ic w g).Reachable s → s.recovery = .complete → s.pc = .idle →
      (s.satisfied = [] → s.deferred = []) → id ∈ s.satisfied ++ s.deferred →
      ∃ u s', (machine c ic w g).Run s u s' ∧ .crash ∉ u ∧ .programDeliverSync id ∈ u := by
    intro s h hr hpc hl hid
    rcases List.mem_append.mp hid with hid | hid
    · exact fromSat h hr hpc hid
    · have hs : s.satisfied ≠ [] := by
        intro hs; rw [hl hs] at hid; cases hid
      obtain ⟨u1, s1, r1, c1, p1, q1, sa1, de1, _⟩ :=
        run_complete (c := c) (ic := ic) (w := w) hg (phase_of h) hr hpc hs
      obtain ⟨u2, s2, r2, c2, _, p2, q2, sa2, de2, _⟩ :=
        run_replies (c := c) (ic := ic) (w := w) (g := g) q1 _ _ rfl p1
      obtain ⟨u3, s3, r3, c3, d3⟩ := fromLaunch (ext (ext h r1) r2) q2 p2 (sa2.trans sa1)
        (by rw [de2, de1]; exact hid)
      exact ⟨u1 ++ (u2 ++ u3), s3, r1.append (r2.append r3), by simp [c1, c2, c3],
        by simp [d3]⟩
  cases hpc : s.pc with
  | idle =>
    obtain ⟨tr, h'⟩ := h
    refine fromIdle ⟨tr, h'⟩ hr hpc ((counts_exec h').launched hpc) ?_
    simpa [State.ready, hpc] using hid
  | launch =>
    obtain ⟨u1, s1, r1, c1, p1, q1, l1, m1, _⟩ :=
      run_launch (c := c) (ic := ic) (w := w) (g := g) (phase_of h) hr hpc
    obtain ⟨u2, s2, r2, c2, d2⟩ := fromIdle (ext h r1) q1 p1 l1 ((m1 id).mpr (by simpa [State.ready, hpc] using hid))
    exact ⟨u1 ++ u2, s2, r1.append r2, by simp [c1, c2], List.mem_append.mpr (.inr d2)⟩
  | delivering l =>
    obtain ⟨u1, s1, r1, c1, d1, p1, q1, sa1, de1, _⟩ :=
      run_replies (c := c) (ic := ic) (w := w) (g := g) hr _ _ rfl hpc
    simp only [State.ready, hpc] at hid
    rcases List.mem_append.mp hid with hid | hid
    · obtain ⟨u2, s2, r2, c2, p2, q2, l2, m2, _⟩ :=
        run_launch (c := c) (ic := ic) (w := w) (g := g) (phase_of (ext h r1)) q1 p1
      obtain ⟨u3, s3, r3, c3, d3⟩ := fromIdle (ext (ext h r1) r2) q2 p2 l2
        ((m2 id).mpr (by rw [sa1, de1]; exact hid))
      exact ⟨u1 ++ (u2 ++ u3), s3, r1.append (r2.append r3), by simp [c1, c2, c3], by simp [d3]⟩
    · exact ⟨u1, s1, r1, c1, d1 id hid⟩

/-! ### A concrete execution: `demoTrace` (sync 13 arrives while the write for sync 11 is under way) -/

/-- Sync 13, accepted at 13 while the first superblock write (8 to 16) is outstanding, is answered at
22, after the write of 19 to 21; the page of that write holds both puts. -/
example (c : Codec) (ic : ICodec c) (g : Geometry) (hg : sbAddr.wf g) :
    ∃ a, 13 < a ∧ a < 22 ∧
      (demoTrace c)[a]? = some (.programDisk (one 2 (.write sbAddr (c.marshall demoJ2.superblock))) PMap.empty) := by
  have h := demo_exec c ic asWritten g hg rfl
  obtain ⟨i, a, b, d, rid, page, si, sa, hia, hab, hbd, hdj, hi, ha, hb, hd, _⟩ :=
    answered_after_later_write h (j := 22) (id := 13) rfl
  have hi' : i = 13 := (answered_once h 13).2 i 13 _ _ hi rfl rfl rfl
  subst hi'
  refine ⟨19, by omega, by omega, rfl⟩

/-- Neither request is pending at the end; both are pending at position 15. -/
example (c : Codec) (ic : ICodec c) (g : Geometry) (hg : sbAddr.wf g) :
    ∃ s, (machine c ic asWritten g).Reachable s ∧ 11 ∈ s.satisfied ++ s.deferred ++ s.ready ∧
      13 ∈ s.satisfied ++ s.deferred ++ s.ready := by
  have h := demo_exec c ic asWritten g hg rfl
  obtain ⟨s, _, h1, _⟩ := h.at_index (i := 15) rfl
  refine ⟨s, ⟨_, h1⟩, ?_, ?_⟩
  · rw [pending_exact h1]
    exact ⟨_, _, ((demoTrace c).take 15).drop 8,
      show (demoTrace c).take 15 = (demoTrace c).take 7 ++ _ from rfl, rfl, by simp [demoTrace, Sys.recoverTrace]⟩
  · rw [pending_exact h1]
    exact ⟨_, _, ((demoTrace c).take 15).drop 14,
      show (demoTrace c).take 15 = (demoTrace c).take 13 ++ _ from rfl, rfl, by simp [demoTrace, Sys.recoverTrace]⟩

/-- From there both can be answered. -/
example (c : Codec) (ic : ICodec c) (g : Geometry) (hg : sbAddr.wf g) :
    ∃ s, (machine c ic asWritten g).Reachable s ∧ s.pc = .idle ∧ s.satisfied ++ s.deferred ≠ [] ∧
    ∃ u s', (machine c ic asWritten g).Run s u s' ∧ .crash ∉ u ∧ .programDeliverSync 13 ∈ u := by
  have h1 := run_recover (c := c) (ic := ic) (w := asWritten) hg (s := fresh c)
    (page := c.marshall ⟨TotalKMMap.empty, 0⟩) 0 rfl rfl rfl (by simp [fresh])
  have h2 := h1.append (run_sync_start (c := c) (ic := ic) (w := asWritten) (g := g) 11 1 rfl rfl
    (by simp [fresh]) rfl rfl rfl rfl)
  have h3 := h2.append (run_sync_defer (c := c) (ic := ic) (w := asWritten) (g := g) 13 rfl rfl
    (by simp only [MSet.has_insert, fresh]; simp) (by simp))
  have hr : (machine c ic asWritten g).Reachable _ := ⟨_, fresh c, fresh_init c, h3⟩
  exact ⟨_, hr, rfl, by simp, can_always_answer hg hr (by simp [fresh])⟩

/-- The second completion after sync 11 finds it answered. -/
example (c : Codec) (ic : ICodec c) (g : Geometry) (hg : sbAddr.wf g) :
    ∃ j, 7 < j ∧ (demoTrace c)[j]? = some (.programDeliverSync 11) := by
  refine answered_by_second_completion (demo_exec c ic asWritten g hg rfl) (i := 7) (d1 := 16) (d2 := 21)
    rfl (by omega) (by omega) rfl rfl ⟨1, rfl⟩ ⟨2, rfl⟩ ?_ rfl
  intro m _ hm
  have := List.mem_of_getElem? hm
  simp [demoTrace, Sys.recoverTrace] at this

/-! ### The contract of `unmarshall` -/

theorem toStampedMap_any (j : Journal) : j.toStampedMap = mapAfter j.msgs := by
  have aux : ∀ n, n ≤ j.msgs.length →
      MsgHistory.applyRange j.view.msgs j.seqStart n StampedMap.empty = mapAfter (j.msgs.take n) := by
    intro n
    induction n with
    | zero => intro _; rfl
    | succ n ih =>
      intro hn
      have hlt : n < j.msgs.length := by omega
      simp only [MsgHistory.applyRange]
      have : j.view.msgs (j.seqStart + n) = some j.msgs[n] := by
        simp [Journal.view, List.getElem?_eq_getElem hlt]
      rw [this, ih (by omega), List.take_succ_eq_append_getElem hlt, mapAfter_snoc]
  have := aux j.msgs.length (Nat.le_refl _)
  rw [List.take_length] at this
  rw [← this]
  unfold Journal.toStampedMap MsgHistory.mapPlusHistory MsgHistory.applyTo MsgHistory.len
  simp [Journal.view]

/-- DiskLayout_v.rs 100-107 asks of the executable `unmarshall` that the superblock it returns be
`spec_unmarshall` of the page, for every page, while ModelRefinement_v.rs 23-27 assumes that
`spec_unmarshall` inverts `spec_marshall` on every superblock. An executable superblock is a journal,
whose map is empty when its version is 0; so no function meets that contract. -/
theorem no_executable_unmarshall (c : Codec) :
    ¬ ∃ un : RawPage → Journal, ∀ p, (un p).superblock = c.unmarshall p := by
  rintro ⟨un, h⟩
  have h1 := h (c.marshall ⟨fun _ => .define 7, 0⟩)
  rw [c.roundTrip] at h1
  unfold Journal.superblock at h1
  rw [toStampedMap_any, mapAfter_seqEnd] at h1
  injection h1 with h1 h2
  rw [List.length_eq_zero_iff.mp h2] at h1
  have := congrFun h1 0
  simp [mapAfter, StampedMap.empty, TotalKMMap.empty, Message.empty] at this
  revert this; decide

end Verif.C33
