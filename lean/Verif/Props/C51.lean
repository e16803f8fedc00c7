import Verif.Token.History
import Verif.Impl.Codec
/-
C51. A program that acts only through the tokens it is handed does nothing the trusted system model does
not allow.
Specification: `sysMachine` (SystemModel_t.rs, for any program model) and the translation of events
`toSys`; for the program model of /repo also the crash-tolerant map (`CTAM`, `ClientSpec.Good`) and
`Answered` below, which speaks of the requests received and the replies sent only.
-/
namespace Verif.C51
open Verif Tok
open Verif.AsyncDisk (Since)

/-- no crash strictly between two positions -/
def NoCrash (tr : List Event) (i j : Nat) : Prop := ∀ m, i < m → m < j → tr[m]? ≠ some .crash

/-- what the client sees -/
structure Answered (tr : List Event) : Prop where
  /-- a reply answers a request received before, since the last crash, and says "synced" exactly to
  sync requests -/
  asked : ∀ (j : Nat) (r : TReply), tr[j]? = some (.send r) →
    ∃ (i : Nat) (q : TRequest), i < j ∧ tr[i]? = some (.receive q) ∧ q.id = r.id ∧
      (q.input = .sync ↔ r.output = .sync) ∧ NoCrash tr i j
  /-- no two requests have one id, no request is answered twice -/
  fresh : ∀ (i j : Nat) (q q' : TRequest), tr[i]? = some (.receive q) → tr[j]? = some (.receive q') →
    q.id = q'.id → i = j
  once : ∀ (i j : Nat) (r r' : TReply), tr[i]? = some (.send r) → tr[j]? = some (.send r') →
    r.id = r'.id → i = j

/-- Every run of any program between client and disk is, event for event, a run of the system model. -/
theorem system_partial {P : Type} {prog : Program P} {g restart tr} {w : World P}
    (h : (machine prog g restart).Exec tr w) (hf : Forward restart tr) (hp : ∀ e ∈ tr, Plain e) :
    ∃ s, (sysMachine prog g).Exec (tr.map toSys) s ∧ s.program = w.tok.model ∧
      (∀ q : TRequest, q.input ≠ .sync → s.requests q.mapspec = w.tok.requests q) ∧
      (∀ id, s.syncRequests id = w.tok.requests ⟨.sync, id⟩) ∧
      (∀ r : TReply, r.output ≠ .sync → s.replies r.mapspec = w.tok.replies r) := by
  obtain ⟨s, hs, hc, ha⟩ := core_exec h hf hp
  refine ⟨s, hs, hc.program, ?_, ?_, ?_⟩
  · intro q hq; rw [hc.reqs, lift_eq.mpr ⟨hq, rfl⟩]; simp
  · intro id; rw [hc.syncs]; simp
  · intro r hr; rw [ha.replies, liftR_eq.mpr ⟨hr, rfl⟩]

/-- For the program model of /repo: a run of the crash-tolerant map. -/
theorem map_partial {c g restart tr} {w : World AtomicState} (h : (askedMachine c g restart).Exec tr w)
    (hf : Forward restart tr) (hp : ∀ e ∈ tr, Plain e) :
    (∃ t, CTAM.machine.Exec ((tr.map toSystem).map Sys.toSpec) t) ∧
    ClientSpec.Good ((tr.map toSystem).map Sys.toSpec) := by
  obtain ⟨s, hs⟩ := strict_sys_exec h hf hp
  exact ⟨C32.refines_partial hs, C32.good_partial hs⟩

/-! ### The client's view -/

theorem at_map {tr : List Event} {i : Nat} {e : Event} (h : tr[i]? = some e) :
    (tr.map toSystem)[i]? = some (toSystem e) := by rw [List.getElem?_map, h]; rfl

theorem of_map {tr : List Event} {i : Nat} {l : Sys.Label} (h : (tr.map toSystem)[i]? = some l) :
    ∃ e, tr[i]? = some e ∧ toSystem e = l := by
  rw [List.getElem?_map] at h
  cases he : tr[i]? with
  | none => rw [he] at h; cases h
  | some e => rw [he] at h; exact ⟨e, rfl, by injection h⟩

theorem receive_issues (q : TRequest) : C30.Issues q.id (toSystem (.receive q)) := by
  obtain ⟨i, id⟩ := q
  cases i
  case sync => exact .inr rfl
  all_goals exact .inl ⟨_, rfl, rfl⟩

theorem is_receive {e : Event} {req : Request} (h : toSystem e = .acceptRequest req) :
    ∃ q, e = .receive q ∧ q.input ≠ .sync ∧ q.id = req.id := by
  cases e with
  | receive q =>
    obtain ⟨i, id⟩ := q
    refine ⟨_, rfl, ?_, ?_⟩ <;> cases i <;> simp [toSystem, toSys, toOldLabel] at h ⊢ <;> simp [← h, TRequest.mapspec]
  | send r => obtain ⟨i, id⟩ := r; cases i <;> simp [toSystem, toSys, toOldLabel] at h
  | prog l => cases l <;> simp [toSystem, toSys, toOldLabel] at h
  | _ => simp [toSystem, toSys, toOldLabel] at h

theorem is_acceptSync {e : Event} {id} (h : toSystem e = .acceptSync id) : e = .receive ⟨.sync, id⟩ := by
  cases e with
  | receive q =>
    obtain ⟨i, id'⟩ := q
    cases i <;> simp [toSystem, toSys, toOldLabel] at h
    rw [h]
  | send r => obtain ⟨i, id⟩ := r; cases i <;> simp [toSystem, toSys, toOldLabel] at h
  | prog l => cases l <;> simp [toSystem, toSys, toOldLabel] at h
  | _ => simp [toSystem, toSys, toOldLabel] at h

theorem is_deliverSync {e : Event} {id} (h : toSystem e = .programDeliverSync id) :
    e = .prog (.replySync id) := by
  cases e with
  | receive q => obtain ⟨i, id'⟩ := q; cases i <;> simp [toSystem, toSys, toOldLabel] at h
  | send r => obtain ⟨i, id⟩ := r; cases i <;> simp [toSystem, toSys, toOldLabel] at h
  | prog l => cases l <;> simp [toSystem, toSys, toOldLabel] at h; rw [h]
  | _ => simp [toSystem, toSys, toOldLabel] at h

theorem send_plain {r : TReply} (hr : r.output ≠ .sync) :
    toSystem (.send r) = .deliverReply r.mapspec := by
  obtain ⟨o, id⟩ := r
  cases o <;> first | rfl | exact absurd rfl hr

/-- Positions of `Since`. -/
theorem since_index {Q R : Event → Prop} {tr : List Event} {j : Nat} (h : Since Q R (tr.take j)) :
    ∃ (i : Nat) (e : Event), i < j ∧ tr[i]? = some e ∧ Q e ∧
      ∀ (m : Nat) (x : Event), i < m → m < j → tr[m]? = some x → ¬ R x := by
  obtain ⟨t1, e, t2, ht, hp, hq⟩ := h
  have hlen : t1.length < (tr.take j).length := by rw [ht]; simp
  have hj : t1.length < j := by have := List.length_take_le j tr; omega
  refine ⟨t1.length, e, hj, ?_, hp, ?_⟩
  · rw [← List.getElem?_take_of_lt hj, ht]; simp
  · intro m x h1 h2 hx
    rw [← List.getElem?_take_of_lt h2, ht, List.getElem?_append_right (by omega)] at hx
    have hm : m - t1.length = (m - t1.length - 1) + 1 := by omega
    rw [hm, List.getElem?_cons_succ] at hx
    exact hq x (List.mem_of_getElem? hx)

/-- For the program model of /repo, what the client sees is right: replies answer requests of the same
kind, once. Missing for the full claim: the conditions `hf` (the counter of ids does not start again),
`hp` (no other request is answered as a sync) and `Asked` (only syncs that were taken are answered),
none of which the trusted code imposes; without them the claim is false (`ids_repeat`, `false_sync`,
`unasked_sync`). -/
theorem answers_partial {c g restart tr} {w : World AtomicState} (h : (askedMachine c g restart).Exec tr w)
    (hf : Forward restart tr) (hp : ∀ e ∈ tr, Plain e) : Answered tr := by
  obtain ⟨s, hs⟩ := strict_sys_exec h hf hp
  have hrep := C30.replies_match (Sys.strict_exec hs)
  have hsyn := C30.syncs_match hs
  have fresh : ∀ (i j : Nat) (q q' : TRequest), tr[i]? = some (.receive q) → tr[j]? = some (.receive q') →
      q.id = q'.id → i = j := by
    intro i j q q' hi hj he
    exact hrep.issuedOnce q.id i j _ _ (at_map hi) (at_map hj) (receive_issues q) (he ▸ receive_issues q')
  have asked : ∀ (j : Nat) (r : TReply), tr[j]? = some (.send r) →
      ∃ (i : Nat) (q : TRequest), i < j ∧ tr[i]? = some (.receive q) ∧ q.id = r.id ∧
        (q.input = .sync ↔ r.output = .sync) ∧ NoCrash tr i j := by
    intro j r hj
    by_cases hr : r.output = .sync
    · obtain ⟨o, id⟩ := r
      simp only at hr; subst hr
      obtain ⟨i, a, b, hia, hab, hbj, hi, ha, hb, hnc⟩ := hsyn.answered j id (at_map hj)
      obtain ⟨e, he, hel⟩ := of_map hi
      rw [is_acceptSync hel] at he
      obtain ⟨eb, heb, hebl⟩ := of_map hb
      rw [is_deliverSync hebl] at heb
      -- the reply token was made since the last crash, by the same event
      obtain ⟨w1, w2, h1, h2⟩ := (asked_exec h).at_index hj
      have hhas : w1.tok.replies.Has ⟨.sync, id⟩ := by
        have h2 : Step (concrete c) g restart w1 (.send ⟨.sync, id⟩) w2 := h2
        cases h2 with
        | send hh => exact hh
      obtain ⟨k, ek, hkj, hek, hmk, hno⟩ := since_index (made h1 _ hhas)
      have hkb : k = b := by
        rcases hmk with ⟨req, rfl⟩ | ⟨id', rfl, he'⟩
        · exact absurd rfl (hp _ (List.mem_of_getElem? hek))
        · cases he'
          exact hsyn.producedOnce id k b _ _ (at_map hek) (at_map heb) rfl rfl
      subst hkb
      refine ⟨i, _, by omega, he, rfl, ⟨fun _ => rfl, fun _ => rfl⟩, ?_⟩
      intro m h1 h2 hm
      by_cases hmk' : m < k
      · exact hnc m h1 hmk' (at_map hm)
      · by_cases hmk'' : m = k
        · subst hmk''; rw [heb] at hm; cases hm
        · exact hno m _ (by omega) h2 hm rfl
    · have hj' := at_map hj
      rw [send_plain hr] at hj'
      obtain ⟨i, req, hij, hi, hid, hnc⟩ := hrep.answered j _ hj'
      obtain ⟨e, he, hel⟩ := of_map hi
      obtain ⟨q, rfl, hqi, hqid⟩ := is_receive hel
      refine ⟨i, q, hij, he, by rw [hqid, hid]; rfl, ⟨fun hc => absurd hc hqi, fun hc => absurd hc hr⟩, ?_⟩
      intro m h1 h2 hm; exact hnc m h1 h2 (at_map hm)
  refine ⟨asked, fresh, ?_⟩
  intro i j r r' hi hj he
  obtain ⟨a, q, _, ha, hqa, hka, _⟩ := asked i r hi
  obtain ⟨b, q', _, hb, hqb, hkb, _⟩ := asked j r' hj
  have hab := fresh a b q q' ha hb (by rw [hqa, hqb, he])
  subst hab
  rw [ha] at hb; cases hb
  by_cases hr : r.output = .sync
  · have hr' : r'.output = .sync := hkb.mp (hka.mpr hr)
    obtain ⟨o, id⟩ := r; obtain ⟨o', id'⟩ := r'
    simp only at hr hr' he; subst hr; subst hr'; subst he
    exact hsyn.deliveredOnce id i j _ _ (at_map hi) (at_map hj) rfl rfl
  · have hr' : ¬ r'.output = .sync := fun hc => hr (hka.mp (hkb.mpr hc))
    have hi' := at_map hi
    have hj' := at_map hj
    rw [send_plain hr] at hi'; rw [send_plain hr'] at hj'
    exact hrep.answeredOnce r.id i j _ _ hi' hj' ⟨_, rfl, rfl⟩ ⟨_, rfl, he.symm⟩

/-- A disk request whose predicted id comes up is always taken by the disk. -/
theorem send_possible {P : Type} {prog : Program P} {g restart tr} {w : World P}
    (h : (machine prog g restart).Exec tr w) {r} (hh : w.tok.diskRequests.Has (w.next, r)) :
    ∃ w', Step prog g restart w (.sendDisk w.next r) w' := by
  have hi := ids h
  have hn := hi.disk_none (Nat.le_refl _)
  refine ⟨_, .sendDisk hh (.ops ?_ ?_ (by simp))⟩
  all_goals
    intro id hid
    have : id = w.next := by
      refine Classical.byContradiction fun hne => ?_
      simp [PMap.Has, one, PMap.insert, hne] at hid
    subst this
    rw [not_has]
  · exact hn.1
  · exact hn.2

/-! ### The code as written -/

/-- A program may answer a no-op request with "synced": `mapspec_reply` (ReqReply_t.rs 58-66) turns both
answers into the same one. -/
theorem false_sync (c : Codec) (g : Geometry) (hg : sbAddr.wf g) :
    ∃ tr w, (machine (concrete c) g asWritten).Exec tr w ∧
      (∃ i : Nat, tr[i]? = some (Event.receive ⟨.noop, 1⟩)) ∧ (∃ j : Nat, tr[j]? = some (Event.send ⟨.sync, 1⟩)) ∧
      (∀ id, .receive ⟨.sync, id⟩ ∉ tr) ∧ ¬ Answered tr := by
  refine ⟨falseSyncTrace c, _, asked_exec (falseSync_exec c g hg asWritten), ⟨5, rfl⟩, ⟨7, rfl⟩, ?_, ?_⟩
  · intro id; simp [falseSyncTrace, recoverTrace]
  · intro ha
    obtain ⟨i, q, hij, hi, hid, hk, _⟩ := ha.asked 7 ⟨.sync, 1⟩ rfl
    have hq := hk.mpr rfl
    have := List.mem_of_getElem? hi
    obtain ⟨qi, qid⟩ := q
    simp only at hq; subst hq
    simp [falseSyncTrace, recoverTrace] at this

/-- A program may answer a sync nobody asked for, and do so twice: `deliver_sync_reply`
(KVStoreTokenized_t.rs 106-114) consumes no token. -/
theorem unasked_sync (c : Codec) (g : Geometry) (hg : sbAddr.wf g) :
    ∃ tr w, (machine (concrete c) g asWritten).Exec tr w ∧ (∀ q, .receive q ∉ tr) ∧
      (∃ i j : Nat, i ≠ j ∧ tr[i]? = some (Event.send ⟨.sync, 9⟩) ∧ tr[j]? = some (Event.send ⟨.sync, 9⟩)) ∧ ¬ Answered tr := by
  refine ⟨unaskedTrace c, _, unasked_exec c g hg asWritten, ?_, ⟨6, 8, by omega, rfl, rfl⟩, ?_⟩
  · intro q; simp [unaskedTrace, recoverTrace]
  · intro ha
    have := ha.once 6 8 ⟨.sync, 9⟩ ⟨.sync, 9⟩ rfl rfl rfl
    omega

/-- After a restart ids are given out again (ClientAPI_t.rs 54), which the system model does not allow
(SystemModel_t.rs 83-97: ids are never used twice, also across crashes): its runs do not contain this
one. -/
theorem ids_repeat (c : Codec) (g : Geometry) :
    ∃ tr w, (machine (concrete c) g asWritten).Exec tr w ∧ (∀ e ∈ tr, Plain e) ∧
      (¬ ∃ s, (sysMachine (concrete c) g).Exec (tr.map toSys) s) ∧ ¬ Answered tr := by
  refine ⟨againTrace, _, asked_exec (again_exec c g), by simp [againTrace, Plain], ?_, ?_⟩
  · rintro ⟨s, hs⟩
    obtain ⟨t, ht, _⟩ := Machine.refine (M := sysMachine (concrete c) g) (N := Sys.machine c g) toOldLabel
      (fun s t => t = toOld s) (fun s hs => ⟨_, old_init hs, rfl⟩)
      (fun s l s' t hr hs => ⟨_, hr ▸ old_step hs, rfl⟩) hs
    have := (C30.replies_match ht).issuedOnce 0 0 2 _ _ rfl rfl (.inl ⟨_, rfl, rfl⟩) (.inl ⟨_, rfl, rfl⟩)
    omega
  · intro ha
    have := ha.fresh 0 2 _ _ rfl rfl rfl
    omega

/-! ### The hypotheses can be met -/

theorem demo_plain (c : Codec) : ∀ e ∈ demoTrace c, Plain e := by
  intro e he
  simp only [demoTrace, recoverTrace, commitTrace, List.mem_append, List.mem_cons, List.not_mem_nil,
    or_false] at he
  rcases he with h | h
  all_goals
    repeat' first
      | (subst h; simp [Plain]; done)
      | (rcases h with h | h)

/-- Recovery, a put and a sync answered, a crash, a second recovery, a query. -/
theorem demo (c : Codec) (g : Geometry) (hg : sbAddr.wf g) :
    (∃ w, (askedMachine c g keepOn).Exec (demoTrace c) w) ∧ Forward keepOn (demoTrace c) ∧
      (∀ e ∈ demoTrace c, Plain e) ∧ Answered (demoTrace c) ∧
      (∃ i : Nat, (demoTrace c)[i]? = some (Event.send ⟨.sync, 2⟩)) ∧ .crash ∈ demoTrace c := by
  have hf : Forward keepOn (demoTrace c) := .inl fun n => Nat.le_refl n
  refine ⟨⟨_, demo_exec c g hg⟩, hf, demo_plain c, answers_partial (demo_exec c g hg) hf (demo_plain c),
    ⟨16, rfl⟩, ?_⟩
  simp [demoTrace]

example : ∃ (c : Codec) (g : Geometry), sbAddr.wf g ∧ (∃ w, (askedMachine c g keepOn).Exec (demoTrace c) w) :=
  let ⟨c, _⟩ := Codec.exists_codec
  ⟨c, ⟨1, 1⟩, ⟨Nat.one_pos, Nat.one_pos⟩, _, demo_exec c _ ⟨Nat.one_pos, Nat.one_pos⟩⟩

end Verif.C51
