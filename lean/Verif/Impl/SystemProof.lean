import Verif.Impl.System
/-
The relation between the system (program, disk with one superblock, client queues) and the
crash-tolerant map specification, and its preservation by every step. Proof support for C30-C32.
-/
namespace Verif
open AsyncDisk (Req Resp)

namespace FloatingSeq
variable {T : Type}

theorem last?_eq {s : FloatingSeq T} (h : s.entries ≠ []) : s.last? = s.entries.getLast? := by
  have : 0 < s.entries.length := List.length_pos_iff.mpr h
  unfold last? get? len
  rw [if_pos (by omega), List.getLast?_eq_getElem?]
  congr 1; omega

theorem last?_append (s : FloatingSeq T) (x : T) : (s.append [x]).last? = some x := by
  rw [last?_eq (by simp [append])]; simp [append]

theorem len_getSuffix {s : FloatingSeq T} {n : Nat} (h1 : s.start ≤ n) (h2 : n ≤ s.len) :
    (s.getSuffix n).len = s.len := by
  unfold getSuffix len at *; simp; omega

theorem last?_getSuffix {s : FloatingSeq T} {n : Nat} (h1 : s.start ≤ n) (h2 : n < s.len) :
    (s.getSuffix n).last? = s.last? := by
  unfold last?
  rw [len_getSuffix h1 (by omega), get?_getSuffix _ _ _ h1, if_pos (by omega)]

theorem getSuffix_append {s : FloatingSeq T} {n : Nat} (h1 : s.start ≤ n) (h2 : n ≤ s.len) (l : List T) :
    (s.append l).getSuffix n = (s.getSuffix n).append l := by
  unfold getSuffix append len at *
  simp only [mk.injEq, true_and]
  rw [List.drop_append]
  rw [show n - s.start - s.entries.length = 0 by omega]; simp

theorem dropLast_append (s : FloatingSeq T) (h : s.start < s.len) (x : T) :
    (s.append [x]).dropLast = s := by
  unfold dropLast getPrefix append len at *
  simp only
  rw [if_neg (by simp; omega)]
  ext1
  · rfl
  · simp only [List.length_append, List.length_singleton]
    rw [show s.start + (s.entries.length + 1) - 1 - s.start = s.entries.length by omega]
    simp

theorem same_or_append {h h' : FloatingSeq T} (hne : h.start < h.len)
    (hp : h'.getPrefix h.len = h) (hlo : h.len ≤ h'.len) (hhi : h'.len ≤ h.len + 1) :
    h' = h ∨ ∃ x, h' = h.append [x] := by
  have hs : h'.start = h.start := by
    have := congrArg FloatingSeq.start hp
    unfold getPrefix at this
    split at this
    · simp only at this; omega
    · exact this
  have he : h'.entries.take h.entries.length = h.entries := by
    have := congrArg FloatingSeq.entries hp
    unfold getPrefix at this
    rw [if_neg (by omega)] at this
    simp only at this
    rw [hs, show h.len - h.start = h.entries.length by unfold len; omega] at this
    exact this
  have hl : h'.entries.length = h.entries.length ∨ h'.entries.length = h.entries.length + 1 := by
    unfold len at hlo hhi; omega
  rcases hl with hl | hl
  · left; ext1
    · exact hs
    · rw [← he, List.take_of_length_le (by omega)]
  · right
    have hd : (h'.entries.drop h.entries.length).length = 1 := by simp; omega
    obtain ⟨x, hx⟩ := List.length_eq_one_iff.mp hd
    refine ⟨x, ?_⟩
    ext1
    · exact hs
    · show h'.entries = h.entries ++ [x]
      rw [← List.take_append_drop h.entries.length h'.entries, he, hx]

theorem getPrefix_start {s : FloatingSeq T} {x : T} (h : s.get? s.start = some x) :
    s.getPrefix (s.start + 1) = ⟨s.start, [x]⟩ := by
  unfold getPrefix
  rw [if_neg (by omega)]
  unfold get? at h
  simp only [Nat.le_refl, if_true, Nat.sub_self] at h
  have : s.entries.take 1 = [x] := by
    cases he : s.entries with
    | nil => rw [he] at h; simp at h
    | cons y ys => rw [he] at h; simp at h; simp [h]
  rw [show s.start + 1 - s.start = 1 by omega, this]

end FloatingSeq

theorem singletonSeq_eq (i : Nat) (m : Version) : singletonSeq i m = ⟨i, [m]⟩ := by
  unfold singletonSeq FloatingSeq.new
  rw [show i + 1 - i = 1 by omega]; rfl

namespace Sys

theorem one_inj {V : Type} {i j : AsyncDisk.ID} {r q : V} (h : one i r j = some q) :
    j = i ∧ q = r := by
  unfold one PMap.insert at h
  split at h
  · cases h; exact ⟨by assumption, rfl⟩
  · cases h

@[simp] theorem one_self {V : Type} (i : AsyncDisk.ID) (r : V) : one i r i = some r := by
  simp [one]

theorem union_one {V : Type} (i : AsyncDisk.ID) (r : V) :
    (PMap.empty : PMap AsyncDisk.ID V).unionRight (one i r) = one i r := by
  funext k; unfold PMap.unionRight; cases one i r k <;> rfl

theorem union_empty {V : Type} (m : PMap AsyncDisk.ID V) : m.unionRight PMap.empty = m := by
  funext k; rfl

theorem take_empty {m : PMap AsyncDisk.ID Resp} :
    (fun id => if (PMap.empty : PMap AsyncDisk.ID Resp) id = none then m id else none) = m := by
  funext k; simp

theorem take_one {i : AsyncDisk.ID} {r : Resp} :
    (fun id => if one i r id = none then one i r id else none) = PMap.empty := by
  funext k; simp

/-- What the program, the disk and the specification's versions have to do with each other. -/
inductive DiskRel (c : Codec) : AtomicState → AsyncDisk.State → FloatingSeq Version → Prop
  | begin {p d page} (hp : p.recovery = .begin) (hc : d.content sbAddr = some page)
      (hq : d.requests = PMap.empty) (hr : d.responses = PMap.empty) :
      DiskRel c p d (singletonSeq (c.unmarshall page).version (c.unmarshall page).store)
  | reading {p d page id} (hp : p.recovery = .awaitingSuperblock)
      (hc : d.content sbAddr = some page)
      (hq : d.requests = one id (.read sbAddr)) (hr : d.responses = PMap.empty) :
      DiskRel c p d (singletonSeq (c.unmarshall page).version (c.unmarshall page).store)
  | read {p d page id} (hp : p.recovery = .awaitingSuperblock)
      (hc : d.content sbAddr = some page)
      (hq : d.requests = PMap.empty) (hr : d.responses = one id (.read page)) :
      DiskRel c p d (singletonSeq (c.unmarshall page).version (c.unmarshall page).store)
  | idle {p d page} (hp : p.recovery = .complete) (hper : p.persistent = p.history.start)
      (hf : p.inFlight = none) (hc : d.content sbAddr = some page)
      (hv : (c.unmarshall page).version = p.history.start)
      (hm : p.history.get? p.history.start = some (c.unmarshall page).store)
      (hq : d.requests = PMap.empty) (hr : d.responses = PMap.empty) :
      DiskRel c p d p.history
  | writing {p d page i m} (hp : p.recovery = .complete) (hper : p.persistent = p.history.start)
      (hf : p.inFlight = some i) (hi : p.history.get? i.version = some m)
      (hc : d.content sbAddr = some page)
      (hv : (c.unmarshall page).version = p.history.start)
      (hm : p.history.get? p.history.start = some (c.unmarshall page).store)
      (hq : d.requests = one i.reqId (.write sbAddr (c.marshall ⟨m, i.version⟩)))
      (hr : d.responses = PMap.empty) :
      DiskRel c p d p.history
  | written {p d i m} (hp : p.recovery = .complete) (hper : p.persistent = p.history.start)
      (hf : p.inFlight = some i) (hi : p.history.get? i.version = some m)
      (hc : d.content sbAddr = some (c.marshall ⟨m, i.version⟩))
      (hq : d.requests = PMap.empty) (hr : d.responses = one i.reqId .write) :
      DiskRel c p d (p.history.getSuffix i.version)

theorem active_of_get? {h : FloatingSeq Version} {i m} (hg : h.get? i = some m) :
    h.start ≤ i ∧ i < h.len := (h.get?_isSome_iff i).mp (by rw [hg]; rfl)

/-- The specification's versions are never empty, and its stable version is on the disk. -/
theorem DiskRel.stable {c p d v} (h : DiskRel c p d v) :
    ∃ page, d.content sbAddr = some page ∧ v.start = (c.unmarshall page).version ∧
      v.get? v.start = some (c.unmarshall page).store := by
  cases h with
  | begin hp hc _ _ => exact ⟨_, hc, by rw [singletonSeq_eq], by rw [singletonSeq_eq]; simp [FloatingSeq.get?]⟩
  | reading hp hc _ _ => exact ⟨_, hc, by rw [singletonSeq_eq], by rw [singletonSeq_eq]; simp [FloatingSeq.get?]⟩
  | read hp hc _ _ => exact ⟨_, hc, by rw [singletonSeq_eq], by rw [singletonSeq_eq]; simp [FloatingSeq.get?]⟩
  | idle hp hper hf hc hv hm => exact ⟨_, hc, hv.symm, hm⟩
  | writing hp hper hf hi hc hv hm => exact ⟨_, hc, hv.symm, hm⟩
  | written hp hper hf hi hc =>
    have := active_of_get? hi
    refine ⟨_, hc, by rw [c.roundTrip]; rfl, ?_⟩
    rw [c.roundTrip]
    rw [FloatingSeq.get?_getSuffix _ _ _ this.1]
    exact (if_pos (Nat.le_refl _)).trans hi

/-- While the program runs, the versions are its history, possibly without a prefix. -/
theorem DiskRel.ready {c p d v} (h : DiskRel c p d v) (hp : p.recovery = .complete) :
    p.history.start ≤ v.start ∧ v.len = p.history.len ∧ v.last? = p.history.last? ∧
      v.start < v.len ∧ p.persistent = p.history.start := by
  obtain ⟨_, _, _, hg⟩ := h.stable
  have hact := active_of_get? hg
  cases h with
  | begin hp' => rw [hp] at hp'; cases hp'
  | reading hp' => rw [hp] at hp'; cases hp'
  | read hp' => rw [hp] at hp'; cases hp'
  | idle _ hper => exact ⟨Nat.le_refl _, rfl, rfl, hact.2, hper⟩
  | writing _ hper => exact ⟨Nat.le_refl _, rfl, rfl, hact.2, hper⟩
  | written _ hper hf hi hc =>
    have := active_of_get? hi
    exact ⟨this.1, FloatingSeq.len_getSuffix this.1 (by omega),
      FloatingSeq.last?_getSuffix this.1 this.2, hact.2, hper⟩

theorem DiskRel.last {c p d v} (h : DiskRel c p d v) : v.start < v.len ∧ ∃ m, v.last? = some m := by
  obtain ⟨_, _, _, hg⟩ := h.stable
  have hact := active_of_get? hg
  refine ⟨hact.2, ?_⟩
  unfold FloatingSeq.last?
  exact Option.isSome_iff_exists.mp ((v.get?_isSome_iff _).mpr ⟨by omega, by omega⟩)

/-- Disk events of the program do not change the versions. -/
theorem DiskRel.ops {c g p d v rq rs p' d'} (h : DiskRel c p d v)
    (hp : AtomicState.DiskTransition c p rq rs p') (hd : AsyncDisk.Next g d (.ops rq rs) d') :
    DiskRel c p' d' v ∧ (p.recovery = .complete → p'.recovery = .complete ∧ p'.syncReqs = p.syncReqs) ∧
      (p.recovery ≠ .complete → p'.recovery = .complete → p'.syncReqs = PMap.empty) := by
  cases hd with
  | ops newReq newResp sub =>
  cases hp with
  | @initiateRecovery id hb =>
    refine ⟨?_, by rw [hb]; simp, by simp⟩
    cases h with
    | begin hp hc hq hr =>
      exact .reading (id := id) rfl hc (by simp only [hq, union_one]) (by simp only [hr, take_empty])
    | reading hp => rw [hb] at hp; cases hp
    | read hp => rw [hb] at hp; cases hp
    | idle hp => rw [hb] at hp; cases hp
    | writing hp => rw [hb] at hp; cases hp
    | written hp => rw [hb] at hp; cases hp
  | @completeRecovery id raw hb =>
    refine ⟨?_, by rw [hb]; simp, by simp⟩
    have hs := sub id _ (one_self id _)
    cases h with
    | begin hp => rw [hb] at hp; cases hp
    | reading hp hc hq hr => rw [hr] at hs; cases hs
    | @read page id' hp hc hq hr =>
      rw [hr] at hs
      obtain ⟨rfl, heq⟩ := one_inj hs
      cases heq
      have hss := singletonSeq_eq (c.unmarshall raw).version (c.unmarshall raw).store
      refine .idle (c := c) (page := raw) rfl ?_ rfl hc ?_ ?_ (by simp only [hq, union_empty])
        (by simp only [hr, take_one])
      · show _ = (singletonSeq _ _).start; rw [hss]
      · show _ = (singletonSeq _ _).start; rw [hss]
      · show (singletonSeq _ _).get? (singletonSeq _ _).start = _
        rw [hss]; simp [FloatingSeq.get?]
    | idle hp => rw [hb] at hp; cases hp
    | writing hp => rw [hb] at hp; cases hp
    | written hp => rw [hb] at hp; cases hp
  | @syncBegin id m hb hf hm =>
    refine ⟨?_, fun h => ⟨h, rfl⟩, fun h => absurd hb h⟩
    cases h with
    | begin hp => rw [hb] at hp; cases hp
    | reading hp => rw [hb] at hp; cases hp
    | read hp => rw [hb] at hp; cases hp
    | @idle page hp hper hf' hc hv hm' hq hr =>
      exact .writing (c := c) (p := { p with inFlight := some ⟨p.history.len - 1, id⟩ })
        (i := ⟨p.history.len - 1, id⟩) (m := m) hp hper rfl hm hc hv hm'
        (by simp only [hq, union_one]) (by simp only [hr, take_empty])
    | writing hp hper hf' => rw [hf] at hf'; cases hf'
    | written hp hper hf' => rw [hf] at hf'; cases hf'
  | @syncEnd i hb hf =>
    refine ⟨?_, fun h => ⟨rfl, rfl⟩, fun h => absurd hb h⟩
    have hs := sub i.reqId _ (one_self _ _)
    cases h with
    | begin hp => rw [hb] at hp; cases hp
    | reading hp => rw [hb] at hp; cases hp
    | read hp => rw [hb] at hp; cases hp
    | idle hp hper hf' => rw [hf] at hf'; cases hf'
    | writing hp hper hf' hi hc hv hm' hq hr => rw [hr] at hs; cases hs
    | @written i' m hp hper hf' hi hc hq hr =>
      rw [hf] at hf'; cases hf'
      have hact := active_of_get? hi
      let p1 : AtomicState := ⟨.complete, p.history.getSuffix i.version, i.version, none, p.syncReqs⟩
      refine DiskRel.idle (c := c) (p := p1) rfl rfl rfl hc (by rw [c.roundTrip]; rfl) ?_
        (by simp only [hq, union_empty]) (by simp only [hr, take_one])
      rw [c.roundTrip]
      show FloatingSeq.get? (p.history.getSuffix i.version) i.version = _
      rw [FloatingSeq.get?_getSuffix _ _ _ hact.1, if_pos (Nat.le_refl _)]; exact hi

theorem remove_one {V : Type} (i : AsyncDisk.ID) (r : V) : (one i r).remove i = PMap.empty := by
  funext k; unfold PMap.remove one PMap.insert; split <;> simp_all

/-- The disk processing a read changes nothing. -/
theorem DiskRel.didRead {c g p d v id a x d'} (h : DiskRel c p d v)
    (hd : AsyncDisk.Next g d (.didRead id a x) d') : DiskRel c p d' v := by
  cases hd with
  | read hreq hwf hx =>
    cases h with
    | begin hp hc hq hr => rw [hq] at hreq; cases hreq
    | reading hp hc hq hr =>
      rw [hq] at hreq
      obtain ⟨rfl, heq⟩ := one_inj hreq
      cases heq
      rw [hx _ hc]
      exact .read hp hc (by simp only [hq, remove_one]) (by simp only [hr]; rfl)
    | read hp hc hq hr => rw [hq] at hreq; cases hreq
    | idle hp hper hf hc hv hm hq hr => rw [hq] at hreq; cases hreq
    | writing hp hper hf hi hc hv hm hq hr =>
      rw [hq] at hreq; have := (one_inj hreq).2; cases this
    | written hp hper hf hi hc hq hr => rw [hq] at hreq; cases hreq

/-- The disk processing a write makes the version in flight the stable one. -/
theorem DiskRel.didWrite {c g p d v id a x d'} (h : DiskRel c p d v)
    (hd : AsyncDisk.Next g d (.didWrite id a x) d') :
    ∃ n, v.start ≤ n ∧ n < v.len ∧ DiskRel c p d' (v.getSuffix n) := by
  cases hd with
  | write hreq hwf =>
    cases h with
    | begin hp hc hq hr => rw [hq] at hreq; cases hreq
    | reading hp hc hq hr => rw [hq] at hreq; have := (one_inj hreq).2; cases this
    | read hp hc hq hr => rw [hq] at hreq; cases hreq
    | idle hp hper hf hc hv hm hq hr => rw [hq] at hreq; cases hreq
    | @writing page i m hp hper hf hi hc hv hm hq hr =>
      rw [hq] at hreq
      obtain ⟨rfl, heq⟩ := one_inj hreq
      cases heq
      have hact := active_of_get? hi
      exact ⟨i.version, hact.1, hact.2, .written hp hper hf hi (by simp)
        (by simp only [hq, remove_one]) (by simp only [hr]; rfl)⟩
    | written hp hper hf hi hc hq hr => rw [hq] at hreq; cases hreq

/-- A crash leaves the stable version. -/
theorem DiskRel.crash {c g p d v p' d'} (h : DiskRel c p d v) (hp : p'.Init)
    (hd : AsyncDisk.Next g d .crash d') : DiskRel c p' d' (v.getPrefix (v.start + 1)) := by
  obtain ⟨page, hc, hs, hg⟩ := h.stable
  cases hd with
  | crash =>
    rw [FloatingSeq.getPrefix_start hg, hs, ← singletonSeq_eq]
    exact .begin hp hc rfl rfl

/-- A client operation appends at most one version. -/
theorem DiskRel.map {c p d v req reply p'} (h : DiskRel c p d v)
    (hm : AtomicState.MapTransition p req reply p') :
    ∃ v' m m', CTAM.OptionallyAppendVersion v v' ∧ DiskRel c p' d v' ∧ v.last? = some m ∧
      v'.last? = some m' ∧ MapSpec.Next m req.input reply.output m' ∧ req.id = reply.id ∧
      p'.syncReqs = p.syncReqs ∧ p.recovery = .complete ∧ p'.recovery = .complete := by
  cases hm with
  | @mk h' m m' hr hlo hhi hp hid hm hm' hn =>
    obtain ⟨_, hlen, hlast, hne, hper⟩ := h.ready hr
    have hne' : p.history.start < p.history.len := by
      obtain ⟨_, _, _, hg⟩ := h.stable
      have := (h.ready hr).1
      omega
    rcases FloatingSeq.same_or_append hne' hp hlo hhi with rfl | ⟨x, rfl⟩
    · exact ⟨v, m, m', .inr rfl, h, by rw [hlast, hm], by rw [hlast, hm'], hn, hid, rfl, hr, hr⟩
    · rw [FloatingSeq.last?_append] at hm'; injection hm' with hm'; subst hm'
      have happ : ∀ i y, p.history.get? i = some y → (p.history.append [x]).get? i = some y := by
        intro i y hy
        unfold FloatingSeq.get? FloatingSeq.append at *
        split at hy
        · simp only
          rw [if_pos (by assumption), List.getElem?_append_left]
          · exact hy
          · exact (List.getElem?_eq_some_iff.mp hy).1
        · cases hy
      let p1 : AtomicState := { p with history := p.history.append [x] }
      refine ⟨v.append [x], m, x, .inl ⟨?_, FloatingSeq.dropLast_append v hne x⟩, ?_,
        by rw [hlast, hm], FloatingSeq.last?_append _ _, hn, hid, rfl, hr, hr⟩
      · unfold FloatingSeq.append FloatingSeq.len; simp; omega
      · cases h with
        | begin hp' => rw [hr] at hp'; cases hp'
        | reading hp' => rw [hr] at hp'; cases hp'
        | read hp' => rw [hr] at hp'; cases hp'
        | idle hp' hper hf hc hv hm' hq hrr =>
          exact .idle (p := p1) hp' hper hf hc hv (happ _ _ hm') hq hrr
        | writing hp' hper hf hi hc hv hm' hq hrr =>
          exact .writing (p := p1) hp' hper hf (happ _ _ hi) hc hv (happ _ _ hm') hq hrr
        | @written i mm hp' hper hf hi hc hq hrr =>
          have hact := active_of_get? hi
          rw [← FloatingSeq.getSuffix_append hact.1 (by omega)]
          exact .written (p := p1) hp' hper hf (happ _ _ hi) hc hq hrr

/-- Sync bookkeeping does not concern the disk. -/
theorem DiskRel.syncs {c p d v} (h : DiskRel c p d v) (m : PMap SyncReqId Nat) :
    DiskRel c { p with syncReqs := m } d v := by
  let p1 : AtomicState := { p with syncReqs := m }
  cases h with
  | begin hp hc hq hr => exact .begin (p := p1) hp hc hq hr
  | reading hp hc hq hr => exact .reading (p := p1) hp hc hq hr
  | read hp hc hq hr => exact .read (p := p1) hp hc hq hr
  | idle hp hper hf hc hv hm hq hr => exact .idle (p := p1) hp hper hf hc hv hm hq hr
  | writing hp hper hf hi hc hv hm hq hr => exact .writing (p := p1) hp hper hf hi hc hv hm hq hr
  | written hp hper hf hi hc hq hr => exact .written (p := p1) hp hper hf hi hc hq hr

/-- Some versions always fit. -/
theorem disk_inv_init {c s} (h : Init c s) :
    DiskRel c s.program s.disk (singletonSeq 0 TotalKMMap.empty) := by
  have := DiskRel.begin (c := c) (p := s.program) (d := s.disk) h.program h.mkfs h.noReqs h.noResps
  rw [c.roundTrip] at this; exact this

theorem disk_inv_step {c g s l s'} (h : ∃ v, DiskRel c s.program s.disk v)
    (hs : Next c g s l s') : ∃ v, DiskRel c s'.program s'.disk v := by
  obtain ⟨v, h⟩ := h
  cases hs with
  | acceptRequest => exact ⟨v, h⟩
  | deliverReply => exact ⟨v, h⟩
  | execute _ hp =>
    obtain ⟨v', _, _, _, h', _⟩ := h.map hp
    exact ⟨v', h'⟩
  | acceptSync => exact ⟨v, h⟩
  | programAcceptSync hp => cases hp; exact ⟨v, h.syncs _⟩
  | programDeliverSync hp => cases hp; exact ⟨v, h.syncs _⟩
  | deliverSync => exact ⟨v, h⟩
  | programDisk hp hd => exact ⟨v, (h.ops hp hd).1⟩
  | programInternal => exact ⟨v, h⟩
  | diskRead hd => exact ⟨v, h.didRead hd⟩
  | diskWrite hd => obtain ⟨n, _, _, h'⟩ := h.didWrite hd; exact ⟨_, h'⟩
  | crash hp hd => exact ⟨_, h.crash hp hd⟩
  | noop => exact ⟨v, h⟩

/-! ### Identifiers -/

/-- Ids of queued requests and replies are all different and were issued before. -/
structure IdInv (s : State) : Prop where
  reqOnce : s.requests.Single
  replyOnce : s.replies.Single
  reqSeen : ∀ r, s.requests.Has r → s.idHistory.Has r.id
  replySeen : ∀ r, s.replies.Has r → s.idHistory.Has r.id
  reqUniq : ∀ r r', s.requests.Has r → s.requests.Has r' → r.id = r'.id → r = r'
  replyUniq : ∀ r r', s.replies.Has r → s.replies.Has r' → r.id = r'.id → r = r'
  disj : ∀ r r', s.requests.Has r → s.replies.Has r' → r.id ≠ r'.id

theorem IdInv.other {s s' : State} (h : IdInv s) (h1 : s'.requests = s.requests)
    (h2 : s'.replies = s.replies) (h3 : ∀ x, s.idHistory.Has x → s'.idHistory.Has x) : IdInv s' := by
  refine ⟨by rw [h1]; exact h.reqOnce, by rw [h2]; exact h.replyOnce, ?_, ?_, ?_, ?_, ?_⟩
  · rw [h1]; exact fun r hr => h3 _ (h.reqSeen r hr)
  · rw [h2]; exact fun r hr => h3 _ (h.replySeen r hr)
  · rw [h1]; exact h.reqUniq
  · rw [h2]; exact h.replyUniq
  · rw [h1, h2]; exact h.disj

theorem idInv_init {c s} (h : Init c s) : IdInv s := by
  refine ⟨?_, ?_, ?_, ?_, ?_, ?_, ?_⟩ <;> simp [h.requests, h.replies, MSet.single_empty]

theorem idInv_step {c g s l s'} (h : IdInv s) (hs : Next c g s l s') : IdInv s' := by
  cases hs with
  | @acceptRequest req hf =>
    refine ⟨MSet.single_insert h.reqOnce (fun hc => hf (h.reqSeen _ hc)), h.replyOnce, ?_, ?_, ?_,
      h.replyUniq, ?_⟩
    · intro r hr
      rcases MSet.has_insert.mp hr with rfl | hr
      · exact MSet.has_insert.mpr (.inl rfl)
      · exact MSet.has_insert.mpr (.inr (h.reqSeen _ hr))
    · intro r hr; exact MSet.has_insert.mpr (.inr (h.replySeen _ hr))
    · intro r r' hr hr' he
      rcases MSet.has_insert.mp hr with rfl | hr <;> rcases MSet.has_insert.mp hr' with rfl | hr'
      · rfl
      · exact absurd (he ▸ h.reqSeen _ hr') hf
      · exact absurd (he ▸ h.reqSeen r (by assumption)) hf
      · exact h.reqUniq _ _ hr hr' he
    · intro r r' hr hr' he
      rcases MSet.has_insert.mp hr with rfl | hr
      · exact hf (he ▸ h.replySeen _ hr')
      · exact h.disj _ _ hr hr' he
  | @deliverReply reply hr0 =>
    refine ⟨h.reqOnce, MSet.single_remove h.replyOnce, h.reqSeen,
      fun r hr => h.replySeen r (MSet.has_of_remove hr), h.reqUniq,
      fun r r' hr hr' => h.replyUniq r r' (MSet.has_of_remove hr) (MSet.has_of_remove hr'),
      fun r r' hr hr' => h.disj r r' hr (MSet.has_of_remove hr')⟩
  | @execute req reply p' hq hp =>
    have hid : req.id = reply.id := by cases hp; assumption
    have hnew : ∀ r, s.replies.Has r → r.id ≠ reply.id :=
      fun r hr he => h.disj _ _ hq hr (hid.trans he.symm)
    refine ⟨MSet.single_remove h.reqOnce, MSet.single_insert h.replyOnce (fun hc => hnew _ hc rfl),
      fun r hr => h.reqSeen r (MSet.has_of_remove hr), ?_,
      fun r r' hr hr' => h.reqUniq r r' (MSet.has_of_remove hr) (MSet.has_of_remove hr'), ?_, ?_⟩
    · intro r hr
      rcases MSet.has_insert.mp hr with rfl | hr
      · exact hid ▸ h.reqSeen _ hq
      · exact h.replySeen _ hr
    · intro r r' hr hr' he
      rcases MSet.has_insert.mp hr with rfl | hr <;> rcases MSet.has_insert.mp hr' with rfl | hr'
      · rfl
      · exact absurd he.symm (hnew _ hr')
      · exact absurd he (hnew _ (by assumption))
      · exact h.replyUniq _ _ hr hr' he
    · intro r r' hr hr' he
      obtain ⟨hne, hr1⟩ := (MSet.has_remove h.reqOnce).mp hr
      rcases MSet.has_insert.mp hr' with rfl | hr'
      · exact hne (h.reqUniq _ _ hr1 hq (he.trans hid.symm))
      · exact h.disj _ _ hr1 hr' he
  | acceptSync => exact h.other rfl rfl (fun x hx => MSet.has_insert.mpr (.inr hx))
  | programAcceptSync => exact h.other rfl rfl (fun _ hx => hx)
  | programDeliverSync => exact h.other rfl rfl (fun _ hx => hx)
  | deliverSync => exact h.other rfl rfl (fun _ hx => hx)
  | programDisk => exact h.other rfl rfl (fun _ hx => hx)
  | programInternal => exact h
  | diskRead => exact h.other rfl rfl (fun _ hx => hx)
  | diskWrite => exact h.other rfl rfl (fun _ hx => hx)
  | crash =>
    refine ⟨MSet.single_empty, MSet.single_empty, ?_, ?_, ?_, ?_, ?_⟩ <;> simp
  | noop => exact h

/-! ### Sync requests, under the discipline -/

/-- A sync id is in one place at a time: queued, accepted by the running program, or answered. -/
structure SyncInv (s : State) : Prop where
  reqOnce : s.syncRequests.Single
  reqSeen : ∀ i, s.syncRequests.Has i → s.idHistory.Has i
  mapSeen : s.program.recovery = .complete → ∀ i, s.program.syncReqs.Has i → s.idHistory.Has i
  disj : s.program.recovery = .complete → ∀ i, s.syncRequests.Has i → ¬ s.program.syncReqs.Has i

theorem syncInv_init {c s} (h : Init c s) : SyncInv s := by
  have : s.program.recovery = .begin := h.program
  refine ⟨?_, ?_, ?_, ?_⟩ <;> simp [h.syncRequests, MSet.single_empty, this]

theorem has_map_insert {m : PMap SyncReqId Nat} {i j v} : (m.insert i v).Has j ↔ j = i ∨ m.Has j := by
  unfold PMap.Has PMap.insert; split <;> simp_all

theorem has_map_remove {m : PMap SyncReqId Nat} {i j} : (m.remove i).Has j ↔ j ≠ i ∧ m.Has j := by
  unfold PMap.Has PMap.remove; split <;> simp_all

theorem syncInv_step {c g s l s'} (h : SyncInv s) (hd : ∃ v, DiskRel c s.program s.disk v)
    (hs : Next c g s l s') (hg : Guard s l) : SyncInv s' := by
  obtain ⟨v, hd⟩ := hd
  have hins : ∀ {x y : ReqId}, s.idHistory.Has x → (s.idHistory.insert y).Has x :=
    fun hx => MSet.has_insert.mpr (.inr hx)
  cases hs with
  | acceptRequest =>
    exact ⟨h.reqOnce, fun i hi => hins (h.reqSeen i hi), fun hc i hi => hins (h.mapSeen hc i hi), h.disj⟩
  | deliverReply => exact ⟨h.reqOnce, h.reqSeen, h.mapSeen, h.disj⟩
  | execute _ hp =>
    obtain ⟨_, _, _, _, _, _, _, _, _, he, hc, _⟩ := hd.map hp
    exact ⟨h.reqOnce, h.reqSeen, fun _ => by rw [he]; exact h.mapSeen hc,
      fun _ => by rw [he]; exact h.disj hc⟩
  | @acceptSync id hf =>
    refine ⟨MSet.single_insert h.reqOnce (fun hc => hf (h.reqSeen _ hc)), ?_,
      fun hc i hi => hins (h.mapSeen hc i hi), ?_⟩
    · intro i hi
      rcases MSet.has_insert.mp hi with rfl | hi
      · exact MSet.has_insert.mpr (.inl rfl)
      · exact hins (h.reqSeen i hi)
    · intro hc i hi
      rcases MSet.has_insert.mp hi with rfl | hi
      · exact fun hm => hf (h.mapSeen hc _ hm)
      · exact h.disj hc i hi
  | @programAcceptSync id p' hp =>
    cases hp with
    | mk hr =>
      have hg : s.syncRequests.Has id := hg
      refine ⟨MSet.single_remove h.reqOnce, fun i hi => h.reqSeen i (MSet.has_of_remove hi), ?_, ?_⟩
      · intro hc i hi
        rcases has_map_insert.mp hi with rfl | hi
        · exact h.reqSeen _ hg
        · exact h.mapSeen hc i hi
      · intro hc i hi
        obtain ⟨hne, hi⟩ := (MSet.has_remove h.reqOnce).mp hi
        intro hm
        rcases has_map_insert.mp hm with rfl | hm
        · exact hne rfl
        · exact h.disj hc i hi hm
  | @programDeliverSync id p' hp =>
    cases hp with
    | mk hr =>
      refine ⟨h.reqOnce, h.reqSeen, fun hc i hi => h.mapSeen hc i (has_map_remove.mp hi).2,
        fun hc i hi hm => h.disj hc i hi (has_map_remove.mp hm).2⟩
  | deliverSync => exact ⟨h.reqOnce, h.reqSeen, h.mapSeen, h.disj⟩
  | @programDisk rq rs p' d' hp hdd =>
    obtain ⟨_, h1, h2⟩ := hd.ops hp hdd
    by_cases hc : s.program.recovery = .complete
    · obtain ⟨_, he⟩ := h1 hc
      exact ⟨h.reqOnce, h.reqSeen, fun _ => by rw [he]; exact h.mapSeen hc,
        fun _ => by rw [he]; exact h.disj hc⟩
    · refine ⟨h.reqOnce, h.reqSeen, ?_, ?_⟩
      · intro hc' i hi; rw [h2 hc hc'] at hi; exact absurd rfl hi
      · intro hc' i hi hm; rw [h2 hc hc'] at hm; exact absurd rfl hm
  | programInternal => exact h
  | diskRead => exact ⟨h.reqOnce, h.reqSeen, h.mapSeen, h.disj⟩
  | diskWrite => exact ⟨h.reqOnce, h.reqSeen, h.mapSeen, h.disj⟩
  | crash hp hdd =>
    have hp : _ = Recovery.begin := hp
    refine ⟨MSet.single_empty, by simp, ?_, ?_⟩ <;> intro hc <;> rw [hp] at hc <;> cases hc
  | noop => exact h

/-! ### Refinement -/

/-- ModelRefinement_v.rs 178-217 `i_persistent`, `i_ephemeral`, as a relation. -/
structure Rel (c : Codec) (s : State) (t : CTAM.State) : Prop where
  disk : DiskRel c s.program s.disk t.versions
  requests : ∀ r, t.ephemeral.requests r ↔ s.requests.Has r
  replies : ∀ r, t.ephemeral.replies r ↔ s.replies.Has r
  syncs : t.syncRequests = if s.program.recovery = .complete then s.program.syncReqs else PMap.empty
  ids : IdInv s
  sync : SyncInv s

theorem rel_init {c s} (h : Init c s) : ∃ t, CTAM.Init t ∧ Rel c s t := by
  have hb : s.program.recovery = .begin := h.program
  refine ⟨_, rfl, ?_, ?_, ?_, ?_, idInv_init h, syncInv_init h⟩
  · exact disk_inv_init h
  · intro r; simp [h.requests, EphemeralState.init, PSet.empty]
  · intro r; simp [h.replies, EphemeralState.init, PSet.empty]
  · simp [hb]

theorem rel_step {c g s l s' t} (h : Rel c s t) (hs : Next c g s l s') (hg : Guard s l) :
    ∃ t', CTAM.Next t (toSpec l) t' ∧ Rel c s' t' := by
  have hids := idInv_step h.ids hs
  have hsync := syncInv_step h.sync ⟨_, h.disk⟩ hs hg
  obtain ⟨hne, m, hlast⟩ := h.disk.last
  cases hs with
  | @acceptRequest req hf =>
    refine ⟨_, .operate (.inr rfl) hlast hlast (.request ?_), h.disk, ?_, h.replies, h.syncs, hids, hsync⟩
    · rw [h.requests]; exact fun hc => hf (h.ids.reqSeen _ hc)
    · intro r; simp only [PSet.insert, h.requests, MSet.has_insert]
  | @deliverReply reply hr =>
    refine ⟨_, .operate (.inr rfl) hlast hlast (.reply ((h.replies _).mpr hr)), h.disk, h.requests, ?_,
      h.syncs, hids, hsync⟩
    intro r; simp only [PSet.remove, h.replies, MSet.has_remove h.ids.replyOnce]
    exact And.comm
  | @execute req reply p' hq hp =>
    obtain ⟨v', m, m', hopt, hdr, hm, hm', hn, hid, hsy, hc, hc'⟩ := h.disk.map hp
    refine ⟨_, .operate hopt hm hm' (.execute hid ((h.requests _).mpr hq) ?_ hn), hdr, ?_, ?_, ?_,
      hids, hsync⟩
    · rw [h.replies]; exact fun hr => h.ids.disj _ _ hq hr hid
    · intro r; simp only [PSet.remove, h.requests, MSet.has_remove h.ids.reqOnce]
      exact And.comm
    · intro r; simp only [PSet.insert, h.replies, MSet.has_insert]
    · show t.syncRequests = if p'.recovery = _ then p'.syncReqs else _
      rw [h.syncs, if_pos hc, if_pos hc', hsy]
  | @acceptSync id hf => exact ⟨t, .noop, h.disk, h.requests, h.replies, h.syncs, hids, hsync⟩
  | @programAcceptSync id p' hp =>
    cases hp with
    | mk hr =>
      have hr : s.program.recovery = .complete := hr
      have hsy := h.syncs
      rw [if_pos hr] at hsy
      refine ⟨_, .reqSync ?_, h.disk.syncs _, h.requests, h.replies, ?_, hids, hsync⟩
      · rw [hsy]; exact h.sync.disj hr _ hg
      · show t.syncRequests.insert _ _ = _
        rw [if_pos hr, hsy, (h.disk.ready hr).2.1]
  | @programDeliverSync id p' hp =>
    cases hp with
    | mk hr hv =>
      have hr : s.program.recovery = .complete := hr
      have hsy := h.syncs
      rw [if_pos hr] at hsy
      obtain ⟨v, hv'⟩ := (PMap.has_iff _ _).mp hg
      have hle : v ≤ t.stableIndex := Nat.le_trans (hv v hv') (h.disk.ready hr).1
      refine ⟨_, .replySync (by rw [hsy]; exact hv') hle, h.disk.syncs _, h.requests, h.replies, ?_,
        hids, hsync⟩
      show t.syncRequests.remove _ = _
      rw [if_pos hr, hsy]
  | deliverSync => exact ⟨t, .noop, h.disk, h.requests, h.replies, h.syncs, hids, hsync⟩
  | @programDisk rq rs p' d' hp hdd =>
    obtain ⟨hdr, h1, h2⟩ := h.disk.ops hp hdd
    refine ⟨t, .noop, hdr, h.requests, h.replies, ?_, hids, hsync⟩
    show t.syncRequests = if p'.recovery = _ then p'.syncReqs else _
    rw [h.syncs]
    by_cases hc : s.program.recovery = .complete
    · obtain ⟨hc', he⟩ := h1 hc
      rw [if_pos hc, if_pos hc', he]
    · rw [if_neg hc]
      by_cases hc' : p'.recovery = .complete
      · rw [if_pos hc', h2 hc hc']
      · rw [if_neg hc']
  | programInternal => exact ⟨t, .noop, h⟩
  | diskRead hd => exact ⟨t, .noop, h.disk.didRead hd, h.requests, h.replies, h.syncs, hids, hsync⟩
  | diskWrite hd =>
    obtain ⟨n, h1, h2, hdr⟩ := h.disk.didWrite hd
    exact ⟨_, .sync h1 h2, hdr, h.requests, h.replies, h.syncs, hids, hsync⟩
  | crash hp hd =>
    have hb : _ = Recovery.begin := hp
    refine ⟨_, .crash, h.disk.crash hp hd, ?_, ?_, ?_, hids, hsync⟩
    · intro r; simp [EphemeralState.init, PSet.empty]
    · intro r; simp [EphemeralState.init, PSet.empty]
    · simp [hb]
  | noop => exact ⟨t, .noop, h⟩

end Sys
end Verif
