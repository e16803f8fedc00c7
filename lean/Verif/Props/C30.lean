import Verif.Impl.SystemDemo
/-
C30. Replies answer requests, each once.
Specification: over the sequence of events of an execution only. `Replies` speaks of
`acceptRequest`/`deliverReply` (a request arriving from the client, a reply handed to it), `Syncs` of
`acceptSync`/`deliverSync` and the two program events between them.
-/
namespace Verif.C30
open Verif Sys
open Verif.AsyncDisk (Since)

/-- the event brings the id into the system -/
def Issues (id : ReqId) (l : Label) : Prop := (∃ req, l = .acceptRequest req ∧ req.id = id) ∨ l = .acceptSync id

/-- the event hands the client an answer to the id -/
def Answers (id : ReqId) (l : Label) : Prop := ∃ reply, l = .deliverReply reply ∧ reply.id = id

/-- No crash strictly between two positions. -/
def NoCrash (tr : List Label) (i j : Nat) : Prop := ∀ m, i < m → m < j → tr[m]? ≠ some .crash

/-- At most one event of the trace satisfies `P`. -/
def AtMostOnce (P : Label → Prop) (tr : List Label) : Prop :=
  ∀ (i j : Nat) (x y : Label), tr[i]? = some x → tr[j]? = some y → P x → P y → i = j

/-- Specification for requests. -/
structure Replies (tr : List Label) : Prop where
  /-- a delivered reply has the id of a request accepted before it, since the last crash -/
  answered : ∀ (j : Nat) (reply : Reply), tr[j]? = some (.deliverReply reply) →
    ∃ (i : Nat) (req : Request), i < j ∧ tr[i]? = some (.acceptRequest req) ∧ req.id = reply.id ∧
      NoCrash tr i j
  /-- ids are issued at most once, also across crashes -/
  issuedOnce : ∀ id, AtMostOnce (Issues id) tr
  /-- ids are answered at most once, also across crashes -/
  answeredOnce : ∀ id, AtMostOnce (Answers id) tr

/-- Specification for sync requests. -/
structure Syncs (tr : List Label) : Prop where
  /-- a delivered sync reply was preceded by the program producing it, before that by the
  program accepting the request, before that by the client sending it; no crash between the
  client's request and the program's reply -/
  answered : ∀ (j : Nat) (id : SyncReqId), tr[j]? = some (.deliverSync id) →
    ∃ i a b : Nat, i < a ∧ a < b ∧ b < j ∧ tr[i]? = some (.acceptSync id) ∧
      tr[a]? = some (.programAcceptSync id) ∧ tr[b]? = some (.programDeliverSync id) ∧ NoCrash tr i b
  acceptedOnce : ∀ id, AtMostOnce (· = .programAcceptSync id) tr
  producedOnce : ∀ id, AtMostOnce (· = .programDeliverSync id) tr
  deliveredOnce : ∀ id, AtMostOnce (· = .deliverSync id) tr

/-! ### Lemmas about traces -/

theorem atMostOnce_nil {P} : AtMostOnce P [] := fun i j x y h => by simp at h

theorem atMostOnce_snoc {P tr l} (h : AtMostOnce P tr) (hl : P l → ∀ x ∈ tr, ¬ P x) :
    AtMostOnce P (tr ++ [l]) := by
  have hcase : ∀ {i : Nat} {x : Label}, (tr ++ [l])[i]? = some x →
      tr[i]? = some x ∨ (i = tr.length ∧ x = l) := by
    intro i x hx
    rw [List.getElem?_append] at hx
    split at hx
    · exact .inl hx
    · right
      by_cases hi : i = tr.length
      · subst hi; simp at hx; exact ⟨rfl, hx.symm⟩
      · rw [List.getElem?_eq_none (by simp; omega)] at hx; cases hx
  intro i j x y hx hy px py
  rcases hcase hx with hx' | ⟨rfl, rfl⟩ <;> rcases hcase hy with hy' | ⟨rfl, rfl⟩
  · exact h i j x y hx' hy' px py
  · exact absurd px (hl py x (List.mem_of_getElem? hx'))
  · exact absurd py (hl px y (List.mem_of_getElem? hy'))
  · rfl

/-- `Since` about the part of a trace before position `j`, with positions. -/
theorem since_index {P Q : Label → Prop} {tr : List Label} {j : Nat} (h : Since P Q (tr.take j)) :
    ∃ (i : Nat) (e : Label), i < j ∧ tr[i]? = some e ∧ P e ∧
      ∀ (m : Nat) (x : Label), i < m → m < j → tr[m]? = some x → ¬ Q x := by
  obtain ⟨t1, e, t2, ht, hp, hq⟩ := h
  have hlen : t1.length < (tr.take j).length := by rw [ht]; simp
  have hj : t1.length < j := by
    have := List.length_take_le j tr; omega
  refine ⟨t1.length, e, hj, ?_, hp, ?_⟩
  · rw [← List.getElem?_take_of_lt hj, ht]; simp
  · intro m x h1 h2 hx
    rw [← List.getElem?_take_of_lt h2, ht, List.getElem?_append_right (by omega)] at hx
    have hm : m - t1.length = (m - t1.length - 1) + 1 := by omega
    rw [hm, List.getElem?_cons_succ] at hx
    exact hq x (List.mem_of_getElem? hx)

/-! ### The system as written -/

/-- What the queues say about the past. -/
structure Past (tr : List Label) (s : State) : Prop where
  ids : IdInv s
  history : ∀ l ∈ tr, ∀ id, Issues id l → s.idHistory.Has id
  requests : ∀ r, s.requests.Has r → Since (· = .acceptRequest r) (· = .crash) tr
  replies : ∀ r, s.replies.Has r →
    Since (fun l => ∃ req, l = .acceptRequest req ∧ req.id = r.id) (· = .crash) tr
  gone : ∀ l ∈ tr, ∀ id, Answers id l → s.idHistory.Has id ∧
    (∀ r, s.requests.Has r → r.id ≠ id) ∧ (∀ r, s.replies.Has r → r.id ≠ id)

theorem past_init {c s} (h : Init c s) : Past [] s :=
  ⟨idInv_init h, by simp, by simp [h.requests], by simp [h.replies], by simp⟩

/-- Steps that touch none of the client queues. -/
theorem Past.quiet {tr s l s'} (h : Past tr s) (hid : IdInv s') (h1 : s'.requests = s.requests)
    (h2 : s'.replies = s.replies) (h3 : s'.idHistory = s.idHistory) (hl : l ≠ .crash)
    (hi : ∀ id, ¬ Issues id l) (ha : ∀ id, ¬ Answers id l) : Past (tr ++ [l]) s' := by
  refine ⟨hid, ?_, ?_, ?_, ?_⟩
  · intro x hx id hid
    rcases List.mem_append.mp hx with hx | hx
    · rw [h3]; exact h.history x hx id hid
    · rw [List.mem_singleton] at hx; subst hx; exact absurd hid (hi id)
  · rw [h1]; exact fun r hr => (h.requests r hr).keep hl
  · rw [h2]; exact fun r hr => (h.replies r hr).keep hl
  · intro x hx id hid
    rcases List.mem_append.mp hx with hx | hx
    · rw [h1, h2, h3]; exact h.gone x hx id hid
    · rw [List.mem_singleton] at hx; subst hx; exact absurd hid (ha id)

theorem past_step {c g tr s l s'} (h : Past tr s) (hs : Next c g s l s') : Past (tr ++ [l]) s' := by
  have hid := idInv_step h.ids hs
  cases hs with
  | @acceptRequest req hf =>
    refine ⟨hid, ?_, ?_, ?_, ?_⟩
    · intro x hx id hi
      rcases List.mem_append.mp hx with hx | hx
      · exact MSet.has_insert.mpr (.inr (h.history x hx id hi))
      · rw [List.mem_singleton] at hx; subst hx
        rcases hi with ⟨r, h1, h2⟩ | h1 <;> cases h1
        exact MSet.has_insert.mpr (.inl h2.symm)
    · intro r hr
      rcases MSet.has_insert.mp hr with rfl | hr
      · exact .new rfl
      · exact (h.requests r hr).keep (by simp)
    · exact fun r hr => (h.replies r hr).keep (by simp)
    · intro x hx id hi
      rcases List.mem_append.mp hx with hx | hx
      · obtain ⟨h1, h2, h3⟩ := h.gone x hx id hi
        refine ⟨MSet.has_insert.mpr (.inr h1), ?_, h3⟩
        intro r hr
        rcases MSet.has_insert.mp hr with rfl | hr
        · exact fun he => hf (he ▸ h1)
        · exact h2 r hr
      · rw [List.mem_singleton] at hx; subst hx
        obtain ⟨r, h1, _⟩ := hi; cases h1
  | @deliverReply reply hr0 =>
    refine ⟨hid, ?_, fun r hr => (h.requests r hr).keep (by simp),
      fun r hr => (h.replies r (MSet.has_of_remove hr)).keep (by simp), ?_⟩
    · intro x hx id hi
      rcases List.mem_append.mp hx with hx | hx
      · exact h.history x hx id hi
      · rw [List.mem_singleton] at hx; subst hx
        rcases hi with ⟨r, h1, _⟩ | h1 <;> cases h1
    · intro x hx id hi
      rcases List.mem_append.mp hx with hx | hx
      · obtain ⟨h1, h2, h3⟩ := h.gone x hx id hi
        exact ⟨h1, h2, fun r hr => h3 r (MSet.has_of_remove hr)⟩
      · rw [List.mem_singleton] at hx; subst hx
        obtain ⟨r, h1, h2⟩ := hi; cases h1; subst h2
        refine ⟨h.ids.replySeen _ hr0, fun r hr => h.ids.disj _ _ hr hr0, ?_⟩
        intro r hr he
        obtain ⟨hne, hr1⟩ := (MSet.has_remove h.ids.replyOnce).mp hr
        exact hne (h.ids.replyUniq _ _ hr1 hr0 he)
  | @execute req reply p' hq hp =>
    have hide : req.id = reply.id := by cases hp; assumption
    refine ⟨hid, ?_, fun r hr => (h.requests r (MSet.has_of_remove hr)).keep (by simp), ?_, ?_⟩
    · intro x hx id hi
      rcases List.mem_append.mp hx with hx | hx
      · exact h.history x hx id hi
      · rw [List.mem_singleton] at hx; subst hx
        rcases hi with ⟨r, h1, _⟩ | h1 <;> cases h1
    · intro r hr
      rcases MSet.has_insert.mp hr with rfl | hr
      · refine Since.keep ((h.requests _ hq).mono ?_ (fun _ h => h)) (by simp)
        rintro e rfl; exact ⟨req, rfl, hide⟩
      · exact (h.replies r hr).keep (by simp)
    · intro x hx id hi
      rcases List.mem_append.mp hx with hx | hx
      · obtain ⟨h1, h2, h3⟩ := h.gone x hx id hi
        refine ⟨h1, fun r hr => h2 r (MSet.has_of_remove hr), ?_⟩
        intro r hr
        rcases MSet.has_insert.mp hr with rfl | hr
        · exact hide ▸ h2 _ hq
        · exact h3 r hr
      · rw [List.mem_singleton] at hx; subst hx
        obtain ⟨r, h1, _⟩ := hi; cases h1
  | @acceptSync id hf =>
    refine ⟨hid, ?_, fun r hr => (h.requests r hr).keep (by simp),
      fun r hr => (h.replies r hr).keep (by simp), ?_⟩
    · intro x hx id' hi
      rcases List.mem_append.mp hx with hx | hx
      · exact MSet.has_insert.mpr (.inr (h.history x hx id' hi))
      · rw [List.mem_singleton] at hx; subst hx
        rcases hi with ⟨r, h1, _⟩ | h1 <;> cases h1
        exact MSet.has_insert.mpr (.inl rfl)
    · intro x hx id' hi
      rcases List.mem_append.mp hx with hx | hx
      · obtain ⟨h1, h2, h3⟩ := h.gone x hx id' hi
        exact ⟨MSet.has_insert.mpr (.inr h1), h2, h3⟩
      · rw [List.mem_singleton] at hx; subst hx
        obtain ⟨r, h1, _⟩ := hi; cases h1
  | programAcceptSync => exact h.quiet hid rfl rfl rfl (by simp) (by simp [Issues]) (by simp [Answers])
  | programDeliverSync => exact h.quiet hid rfl rfl rfl (by simp) (by simp [Issues]) (by simp [Answers])
  | deliverSync => exact h.quiet hid rfl rfl rfl (by simp) (by simp [Issues]) (by simp [Answers])
  | programDisk => exact h.quiet hid rfl rfl rfl (by simp) (by simp [Issues]) (by simp [Answers])
  | programInternal => exact h.quiet hid rfl rfl rfl (by simp) (by simp [Issues]) (by simp [Answers])
  | diskRead => exact h.quiet hid rfl rfl rfl (by simp) (by simp [Issues]) (by simp [Answers])
  | diskWrite => exact h.quiet hid rfl rfl rfl (by simp) (by simp [Issues]) (by simp [Answers])
  | noop => exact h.quiet hid rfl rfl rfl (by simp) (by simp [Issues]) (by simp [Answers])
  | crash =>
    refine ⟨hid, ?_, by simp, by simp, ?_⟩
    · intro x hx id' hi
      rcases List.mem_append.mp hx with hx | hx
      · exact h.history x hx id' hi
      · rw [List.mem_singleton] at hx; subst hx
        rcases hi with ⟨r, h1, _⟩ | h1 <;> cases h1
    · intro x hx id' hi
      rcases List.mem_append.mp hx with hx | hx
      · exact ⟨(h.gone x hx id' hi).1, by simp, by simp⟩
      · rw [List.mem_singleton] at hx; subst hx
        obtain ⟨r, h1, _⟩ := hi; cases h1

theorem past_exec {c g tr s} (h : (machine c g).Exec tr s) : Past tr s :=
  Machine.exec_invariant (M := machine c g) (I := Past) (fun _ => past_init)
    (fun _ _ _ _ => past_step) h

/-- In every execution of the system as written, a delivered reply answers a request accepted
earlier since the last crash, and no id is issued or answered twice, not even across crashes. -/
theorem replies_match {c g tr s} (h : (machine c g).Exec tr s) : Replies tr := by
  refine ⟨?_, ?_, ?_⟩
  · intro j reply hj
    obtain ⟨s1, s2, h1, hs⟩ := h.at_index hj
    cases hs with
    | deliverReply hr =>
      obtain ⟨i, e, hi, he, ⟨req, rfl, hid⟩, hnc⟩ := since_index ((past_exec h1).replies _ hr)
      exact ⟨i, req, hi, he, hid, fun m h1 h2 hm => hnc m _ h1 h2 hm rfl⟩
  · intro id
    refine (Machine.exec_invariant (M := machine c g)
      (I := fun tr s => Past tr s ∧ AtMostOnce (Issues id) tr) ?_ ?_ h).2
    · exact fun s hs => ⟨past_init hs, atMostOnce_nil⟩
    · rintro tr s l s' ⟨hp, ho⟩ hs
      refine ⟨past_step hp hs, atMostOnce_snoc ho ?_⟩
      intro hl x hx hx'
      have hh := hp.history x hx id hx'
      rcases hl with ⟨r, rfl, hr⟩ | rfl
      · cases hs with
        | acceptRequest hf => exact hf (hr ▸ hh)
      · cases hs with
        | acceptSync hf => exact hf hh
  · intro id
    refine (Machine.exec_invariant (M := machine c g)
      (I := fun tr s => Past tr s ∧ AtMostOnce (Answers id) tr) ?_ ?_ h).2
    · exact fun s hs => ⟨past_init hs, atMostOnce_nil⟩
    · rintro tr s l s' ⟨hp, ho⟩ hs
      refine ⟨past_step hp hs, atMostOnce_snoc ho ?_⟩
      rintro ⟨r, rfl, hr⟩ x hx hx'
      cases hs with
      | deliverReply hh => exact (hp.gone x hx id hx').2.2 r hh hr

/-! ### Sync requests, under the discipline -/

structure SyncPast (tr : List Label) (s : State) : Prop where
  inv : SyncInv s
  replyOnce : s.syncReplies.Single
  replySeen : ∀ i, s.syncReplies.Has i → s.idHistory.Has i
  replyReq : ∀ i, s.syncReplies.Has i → ¬ s.syncRequests.Has i
  replyMap : s.program.recovery = .complete → ∀ i, s.syncReplies.Has i → ¬ s.program.syncReqs.Has i
  reqPast : ∀ i, s.syncRequests.Has i → Since (· = .acceptSync i) (· = .crash) tr
  mapPast : s.program.recovery = .complete → ∀ i, s.program.syncReqs.Has i →
    Since (· = .programAcceptSync i) (· = .crash) tr
  replyPast : ∀ i, s.syncReplies.Has i → Since (· = .programDeliverSync i) (fun _ => False) tr
  acc : ∀ i, .programAcceptSync i ∈ tr → s.idHistory.Has i ∧ ¬ s.syncRequests.Has i
  prod : ∀ i, .programDeliverSync i ∈ tr →
    s.idHistory.Has i ∧ ¬ s.syncRequests.Has i ∧
      (s.program.recovery = .complete → ¬ s.program.syncReqs.Has i)
  deliv : ∀ i, .deliverSync i ∈ tr →
    s.idHistory.Has i ∧ ¬ s.syncRequests.Has i ∧
      (s.program.recovery = .complete → ¬ s.program.syncReqs.Has i) ∧ ¬ s.syncReplies.Has i

theorem syncPast_init {c s} (h : Init c s) : SyncPast [] s := by
  have hb : s.program.recovery = .begin := h.program
  refine ⟨syncInv_init h, ?_, ?_, ?_, ?_, ?_, ?_, ?_, ?_, ?_, ?_⟩ <;>
    simp [h.syncReplies, h.syncRequests, MSet.single_empty, hb]

/-- Steps that leave the sync queues alone. -/
theorem SyncPast.quiet {tr s l s'} (h : SyncPast tr s) (hi : SyncInv s')
    (h1 : s'.syncRequests = s.syncRequests) (h2 : s'.syncReplies = s.syncReplies)
    (h3 : ∀ i, s.idHistory.Has i → s'.idHistory.Has i)
    (h4 : s'.program.recovery = .complete → ∀ i, s'.program.syncReqs.Has i →
      s.program.recovery = .complete ∧ s.program.syncReqs.Has i)
    (hl : l ≠ .crash) (ha : ∀ i, l ≠ .programAcceptSync i) (hp : ∀ i, l ≠ .programDeliverSync i)
    (hd : ∀ i, l ≠ .deliverSync i) : SyncPast (tr ++ [l]) s' := by
  have mem : ∀ {x : Label}, x ≠ l → x ∈ tr ++ [l] → x ∈ tr := by
    intro x hx hm
    rcases List.mem_append.mp hm with hm | hm
    · exact hm
    · rw [List.mem_singleton] at hm; exact absurd hm hx
  refine ⟨hi, by rw [h2]; exact h.replyOnce, ?_, ?_, ?_, ?_, ?_, ?_, ?_, ?_, ?_⟩
  · rw [h2]; exact fun i hi => h3 _ (h.replySeen i hi)
  · rw [h1, h2]; exact h.replyReq
  · intro hc i hr hm
    obtain ⟨hc', hm'⟩ := h4 hc i hm
    rw [h2] at hr
    exact h.replyMap hc' i hr hm'
  · rw [h1]; exact fun i hi => (h.reqPast i hi).keep hl
  · intro hc i hm
    obtain ⟨hc', hm'⟩ := h4 hc i hm
    exact (h.mapPast hc' i hm').keep hl
  · rw [h2]; exact fun i hi => (h.replyPast i hi).keep (by simp)
  · intro i hi
    obtain ⟨a, b⟩ := h.acc i (mem (Ne.symm (ha i)) hi)
    exact ⟨h3 _ a, by rw [h1]; exact b⟩
  · intro i hi
    obtain ⟨a, b, e⟩ := h.prod i (mem (Ne.symm (hp i)) hi)
    refine ⟨h3 _ a, by rw [h1]; exact b, fun hc hm => ?_⟩
    obtain ⟨hc', hm'⟩ := h4 hc i hm
    exact e hc' hm'
  · intro i hi
    obtain ⟨a, b, e, f⟩ := h.deliv i (mem (Ne.symm (hd i)) hi)
    refine ⟨h3 _ a, by rw [h1]; exact b, fun hc hm => ?_, by rw [h2]; exact f⟩
    obtain ⟨hc', hm'⟩ := h4 hc i hm
    exact e hc' hm'

theorem syncPast_step {c g tr s l s'} (hd0 : ∃ v, DiskRel c s.program s.disk v) (h : SyncPast tr s)
    (hs : Next c g s l s') (hg : Guard s l) : SyncPast (tr ++ [l]) s' := by
  have hi := syncInv_step h.inv hd0 hs hg
  have hins : ∀ {y : ReqId}, ∀ x, s.idHistory.Has x → (s.idHistory.insert y).Has x :=
    fun _ hx => MSet.has_insert.mpr (.inr hx)
  have mem : ∀ {x : Label}, x ≠ l → x ∈ tr ++ [l] → x ∈ tr := by
    intro x hx hm
    rcases List.mem_append.mp hm with hm | hm
    · exact hm
    · rw [List.mem_singleton] at hm; exact absurd hm hx
  obtain ⟨v, hd0⟩ := hd0
  cases hs with
  | acceptRequest =>
    exact h.quiet hi rfl rfl (fun x hx => hins x hx) (fun hc i hm => ⟨hc, hm⟩) (by simp) (by simp)
      (by simp) (by simp)
  | deliverReply =>
    exact h.quiet hi rfl rfl (fun _ hx => hx) (fun hc i hm => ⟨hc, hm⟩) (by simp) (by simp) (by simp)
      (by simp)
  | execute _ hp =>
    obtain ⟨_, _, _, _, _, _, _, _, _, he, hc, _⟩ := hd0.map hp
    exact h.quiet hi rfl rfl (fun _ hx => hx) (fun _ i hm => ⟨hc, he ▸ hm⟩) (by simp) (by simp)
      (by simp) (by simp)
  | @acceptSync id hf =>
    refine ⟨hi, h.replyOnce, fun i hi => hins _ (h.replySeen i hi), ?_, h.replyMap, ?_,
      fun hc i hm => (h.mapPast hc i hm).keep (by simp),
      fun i hr => (h.replyPast i hr).keep (by simp), ?_, ?_, ?_⟩
    · intro i hr hq
      rcases MSet.has_insert.mp hq with rfl | hq
      · exact hf (h.replySeen _ hr)
      · exact h.replyReq i hr hq
    · intro i hq
      rcases MSet.has_insert.mp hq with rfl | hq
      · exact .new rfl
      · exact (h.reqPast i hq).keep (by simp)
    · intro i hm
      obtain ⟨a, b⟩ := h.acc i (mem (by simp) hm)
      refine ⟨hins _ a, fun hq => ?_⟩
      rcases MSet.has_insert.mp hq with rfl | hq
      · exact hf a
      · exact b hq
    · intro i hm
      obtain ⟨a, b, e⟩ := h.prod i (mem (by simp) hm)
      refine ⟨hins _ a, fun hq => ?_, e⟩
      rcases MSet.has_insert.mp hq with rfl | hq
      · exact hf a
      · exact b hq
    · intro i hm
      obtain ⟨a, b, e⟩ := h.deliv i (mem (by simp) hm)
      refine ⟨hins _ a, fun hq => ?_, e⟩
      rcases MSet.has_insert.mp hq with rfl | hq
      · exact hf a
      · exact b hq
  | @programAcceptSync id p' hp =>
    cases hp with
    | mk hr =>
      have hg : s.syncRequests.Has id := hg
      have hne : ∀ i, s.syncReplies.Has i → i ≠ id := fun i hi he => h.replyReq i hi (he ▸ hg)
      refine ⟨hi, h.replyOnce, h.replySeen, fun i hi hq => h.replyReq i hi (MSet.has_of_remove hq), ?_,
        fun i hq => (h.reqPast i (MSet.has_of_remove hq)).keep (by simp), ?_,
        fun i hr => (h.replyPast i hr).keep (by simp), ?_, ?_, ?_⟩
      · intro hc i hi hm
        rcases has_map_insert.mp hm with rfl | hm
        · exact hne _ hi rfl
        · exact h.replyMap hc i hi hm
      · intro hc i hm
        rcases has_map_insert.mp hm with rfl | hm
        · exact .new rfl
        · exact (h.mapPast hc i hm).keep (by simp)
      · intro i hm
        by_cases he : i = id
        · subst he
          exact ⟨h.inv.reqSeen _ hg, fun hq => ((MSet.has_remove h.inv.reqOnce).mp hq).1 rfl⟩
        · obtain ⟨a, b⟩ := h.acc i (mem (by simp [he]) hm)
          exact ⟨a, fun hq => b (MSet.has_of_remove hq)⟩
      · intro i hm
        obtain ⟨a, b, e⟩ := h.prod i (mem (by simp) hm)
        refine ⟨a, fun hq => b (MSet.has_of_remove hq), fun hc hm => ?_⟩
        rcases has_map_insert.mp hm with rfl | hm
        · exact b hg
        · exact e hc hm
      · intro i hm
        obtain ⟨a, b, e, f⟩ := h.deliv i (mem (by simp) hm)
        refine ⟨a, fun hq => b (MSet.has_of_remove hq), fun hc hm => ?_, f⟩
        rcases has_map_insert.mp hm with rfl | hm
        · exact b hg
        · exact e hc hm
  | @programDeliverSync id p' hp =>
    cases hp with
    | mk hr =>
      have hg : s.program.syncReqs.Has id := hg
      have hr : s.program.recovery = .complete := hr
      have hnr : ¬ s.syncReplies.Has id := fun hc => h.replyMap hr _ hc hg
      have hnq : ¬ s.syncRequests.Has id := fun hc => h.inv.disj hr _ hc hg
      refine ⟨hi, MSet.single_insert h.replyOnce hnr, ?_, ?_, ?_,
        fun i hq => (h.reqPast i hq).keep (by simp),
        fun hc i hm => (h.mapPast hc i (has_map_remove.mp hm).2).keep (by simp), ?_, ?_, ?_, ?_⟩
      · intro i hi
        rcases MSet.has_insert.mp hi with rfl | hi
        · exact h.inv.mapSeen hr _ hg
        · exact h.replySeen i hi
      · intro i hi
        rcases MSet.has_insert.mp hi with rfl | hi
        · exact hnq
        · exact h.replyReq i hi
      · intro hc i hi hm
        obtain ⟨hne, hm⟩ := has_map_remove.mp hm
        rcases MSet.has_insert.mp hi with rfl | hi
        · exact hne rfl
        · exact h.replyMap hc i hi hm
      · intro i hi
        rcases MSet.has_insert.mp hi with rfl | hi
        · exact .new rfl
        · exact (h.replyPast i hi).keep (by simp)
      · exact fun i hm => h.acc i (mem (by simp) hm)
      · intro i hm
        by_cases he : i = id
        · subst he
          exact ⟨h.inv.mapSeen hr _ hg, hnq, fun _ hm => (has_map_remove.mp hm).1 rfl⟩
        · obtain ⟨a, b, e⟩ := h.prod i (mem (by simp [he]) hm)
          exact ⟨a, b, fun hc hm => e hc (has_map_remove.mp hm).2⟩
      · intro i hm
        obtain ⟨a, b, e, f⟩ := h.deliv i (mem (by simp) hm)
        refine ⟨a, b, fun hc hm => e hc (has_map_remove.mp hm).2, fun hq => ?_⟩
        rcases MSet.has_insert.mp hq with rfl | hq
        · exact e hr hg
        · exact f hq
  | @deliverSync id hq =>
    refine ⟨hi, MSet.single_remove h.replyOnce, fun i hi => h.replySeen i (MSet.has_of_remove hi),
      fun i hi => h.replyReq i (MSet.has_of_remove hi),
      fun hc i hi => h.replyMap hc i (MSet.has_of_remove hi),
      fun i hq => (h.reqPast i hq).keep (by simp),
      fun hc i hm => (h.mapPast hc i hm).keep (by simp),
      fun i hr => (h.replyPast i (MSet.has_of_remove hr)).keep (by simp),
      fun i hm => h.acc i (mem (by simp) hm), fun i hm => h.prod i (mem (by simp) hm), ?_⟩
    intro i hm
    by_cases he : i = id
    · subst he
      exact ⟨h.replySeen _ hq, h.replyReq _ hq, fun hc => h.replyMap hc _ hq,
        fun hq => ((MSet.has_remove h.replyOnce).mp hq).1 rfl⟩
    · obtain ⟨a, b, e, f⟩ := h.deliv i (mem (by simp [he]) hm)
      exact ⟨a, b, e, fun hq => f (MSet.has_of_remove hq)⟩
  | @programDisk rq rs p' d' hp hdd =>
    obtain ⟨_, h1, h2⟩ := hd0.ops hp hdd
    refine h.quiet hi rfl rfl (fun _ hx => hx) ?_ (by simp) (by simp) (by simp) (by simp)
    intro hc' i hm
    by_cases hc : s.program.recovery = .complete
    · obtain ⟨_, he⟩ := h1 hc; exact ⟨hc, he ▸ hm⟩
    · have := h2 hc hc'
      simp only at hm; rw [this] at hm; exact absurd rfl hm
  | programInternal =>
    exact h.quiet hi rfl rfl (fun _ hx => hx) (fun hc i hm => ⟨hc, hm⟩) (by simp) (by simp) (by simp)
      (by simp)
  | diskRead =>
    exact h.quiet hi rfl rfl (fun _ hx => hx) (fun hc i hm => ⟨hc, hm⟩) (by simp) (by simp) (by simp)
      (by simp)
  | diskWrite =>
    exact h.quiet hi rfl rfl (fun _ hx => hx) (fun hc i hm => ⟨hc, hm⟩) (by simp) (by simp) (by simp)
      (by simp)
  | noop =>
    exact h.quiet hi rfl rfl (fun _ hx => hx) (fun hc i hm => ⟨hc, hm⟩) (by simp) (by simp) (by simp)
      (by simp)
  | @crash p' d' hp hdd =>
    have hb : p'.recovery ≠ .complete := by
      have : p'.recovery = .begin := hp
      rw [this]; simp
    refine ⟨hi, h.replyOnce, h.replySeen, by simp, fun hc => absurd hc hb, by simp,
      fun hc => absurd hc hb, fun i hr => (h.replyPast i hr).keep (by simp),
      fun i hm => ⟨(h.acc i (mem (by simp) hm)).1, by simp⟩,
      fun i hm => ⟨(h.prod i (mem (by simp) hm)).1, by simp, fun hc => absurd hc hb⟩, ?_⟩
    intro i hm
    obtain ⟨a, b, e, f⟩ := h.deliv i (mem (by simp) hm)
    exact ⟨a, by simp, fun hc => absurd hc hb, f⟩

theorem syncPast_exec {c g tr s} (h : (strictMachine c g).Exec tr s) :
    (∃ v, DiskRel c s.program s.disk v) ∧ SyncPast tr s :=
  Machine.exec_invariant (M := strictMachine c g)
    (I := fun tr s => (∃ v, DiskRel c s.program s.disk v) ∧ SyncPast tr s)
    (fun _ hs => ⟨⟨_, disk_inv_init hs⟩, syncPast_init hs⟩)
    (fun _ _ _ _ h hs => ⟨disk_inv_step h.1 hs.1, syncPast_step h.1 h.2 hs.1 hs.2⟩) h

/-- The program only accepts a sync the client sent since the last crash. -/
theorem accepted_was_sent {c g tr s} (h : (strictMachine c g).Exec tr s) {a : Nat} {id : SyncReqId}
    (ha : tr[a]? = some (.programAcceptSync id)) :
    ∃ i, i < a ∧ tr[i]? = some (.acceptSync id) ∧ NoCrash tr i a := by
  obtain ⟨s1, s2, h1, hs, hg⟩ := h.at_index ha
  obtain ⟨i, e, hi, he, rfl, hnc⟩ := since_index ((syncPast_exec h1).2.reqPast id hg)
  exact ⟨i, hi, he, fun m h1 h2 hm => hnc m _ h1 h2 hm rfl⟩

/-- The program only answers a sync it accepted since the last crash. -/
theorem produced_was_accepted {c g tr s} (h : (strictMachine c g).Exec tr s) {b : Nat} {id : SyncReqId}
    (hb : tr[b]? = some (.programDeliverSync id)) :
    ∃ a, a < b ∧ tr[a]? = some (.programAcceptSync id) ∧ NoCrash tr a b := by
  obtain ⟨s1, s2, h1, hs, hg⟩ := h.at_index hb
  have hr : s1.program.recovery = .complete := by
    cases hs with
    | programDeliverSync hp => cases hp; assumption
  obtain ⟨i, e, hi, he, rfl, hnc⟩ := since_index ((syncPast_exec h1).2.mapPast hr id hg)
  exact ⟨i, hi, he, fun m h1 h2 hm => hnc m _ h1 h2 hm rfl⟩

/-- Under the id discipline (`strictMachine`: the program takes syncs from the client's queue and
answers ones it has taken), sync replies answer sync requests, each once. -/
theorem syncs_match {c g tr s} (h : (strictMachine c g).Exec tr s) : Syncs tr := by
  have once : ∀ (P : Label → Prop), (∀ tr s l s', SyncPast tr s → (strictMachine c g).Step s l s' → P l →
      ∀ x ∈ tr, ¬ P x) → AtMostOnce P tr := by
    intro P hP
    refine (Machine.exec_invariant (M := strictMachine c g)
      (I := fun tr s => ((∃ v, DiskRel c s.program s.disk v) ∧ SyncPast tr s) ∧ AtMostOnce P tr) ?_ ?_ h).2
    · exact fun s hs => ⟨⟨⟨_, disk_inv_init hs⟩, syncPast_init hs⟩, atMostOnce_nil⟩
    · rintro tr s l s' ⟨⟨hd, hp⟩, ho⟩ hs
      exact ⟨⟨disk_inv_step hd hs.1, syncPast_step hd hp hs.1 hs.2⟩,
        atMostOnce_snoc ho (hP _ _ _ _ hp hs)⟩
  refine ⟨?_, ?_, ?_, ?_⟩
  · intro j id hj
    obtain ⟨s1, s2, h1, hs, _⟩ := h.at_index hj
    have hr : s1.syncReplies.Has id := by cases hs; assumption
    obtain ⟨b, e, hbj, he, rfl, _⟩ := since_index ((syncPast_exec h1).2.replyPast id hr)
    obtain ⟨a, hab, ha, hnc⟩ := produced_was_accepted h he
    obtain ⟨i, hia, hi, hnc'⟩ := accepted_was_sent h ha
    refine ⟨i, a, b, hia, hab, hbj, hi, ha, he, ?_⟩
    intro m h1 h2 hm
    by_cases hma : m < a
    · exact hnc' m h1 hma hm
    · by_cases hma' : m = a
      · subst hma'; rw [ha] at hm; cases hm
      · exact hnc m (by omega) h2 hm
  · intro id
    refine once _ ?_
    rintro tr s l s' hp ⟨hs, hg⟩ rfl x hx rfl
    exact (hp.acc id hx).2 hg
  · intro id
    refine once _ ?_
    rintro tr s l s' hp ⟨hs, hg⟩ rfl x hx rfl
    have hr : s.program.recovery = .complete := by
      cases hs with
      | programDeliverSync hp => cases hp; assumption
    exact (hp.prod id hx).2.2 hr hg
  · intro id
    refine once _ ?_
    rintro tr s l s' hp ⟨hs, hg⟩ rfl x hx rfl
    have hr : s.syncReplies.Has id := by cases hs; assumption
    exact (hp.deliv id hx).2.2.2 hr

/-! ### The hypotheses are met, and the discipline is needed -/

example (c : Codec) (g : Geometry) (hg : sbAddr.wf g) : Replies (demoTrace c) ∧ Syncs (demoTrace c) := by
  obtain ⟨s, hs⟩ := demo_exec c g hg
  exact ⟨replies_match (strict_exec hs), syncs_match hs⟩

/-- In the demonstration the put is answered at position 5 and the query, after the crash, at
position 19. -/
example (c : Codec) : (demoTrace c)[5]? = some (.deliverReply demoPutReply) ∧
    (demoTrace c)[12]? = some .crash ∧ (demoTrace c)[13]? = some (.deliverSync 11) ∧
    (demoTrace c)[19]? = some (.deliverReply demoQueryReply) := ⟨rfl, rfl, rfl, rfl⟩

/-- The specification rejects answering twice across a crash. -/
example : ¬ Replies [.acceptRequest demoPut, .deliverReply demoPutReply, .crash,
    .deliverReply demoPutReply] := by
  intro h
  have := h.answeredOnce 10 1 3 _ _ rfl rfl ⟨_, rfl, rfl⟩ ⟨_, rfl, rfl⟩
  omega

/-- Without the discipline the claim about syncs is false: the program model as written
(AtomicState_v.rs 118-127 asks for nothing when the id is unknown) answers a sync nobody sent. -/
theorem as_written_answers_unknown_sync (c : Codec) (g : Geometry) (hg : sbAddr.wf g) (id : SyncReqId) :
    ∃ tr s, (machine c g).Exec tr s ∧ Label.deliverSync id ∈ tr ∧
      (∀ l ∈ tr, l ≠ .acceptSync id ∧ l ≠ .programAcceptSync id) ∧ ¬ Syncs tr := by
  have h1 := run_recover (c := c) hg (s := fresh c)
    (page := c.marshall ⟨TotalKMMap.empty, 0⟩) 0 rfl rfl rfl (by simp [fresh])
  rw [c.roundTrip] at h1
  have h2 := strict_exec ⟨fresh c, fresh_init c, h1⟩
  have h3 := (h2.snoc (.programDeliverSync (id := id) (.mk rfl (by intro v hv; cases hv)))).snoc
    (.deliverSync (id := id) (MSet.has_insert.mpr (.inl rfl)))
  refine ⟨_, _, h3, by simp, by simp [recoverTrace], ?_⟩
  intro hS
  obtain ⟨i, a, b, _, _, _, hi, _⟩ := hS.answered 4 id rfl
  have := List.mem_of_getElem? hi
  simp [recoverTrace] at this

end Verif.C30
