import Verif.Scache.Inv
/-
Every step of the cache keeps the invariant.
-/
namespace Verif.Scache
variable {Data : Type} {s : State Data} {v : Page → Data} {o q : Slot → Option Client} {i : Client} {c : Slot} {d : Page}

theorem roleAt_of {p : Pc} (h : p.slot = some c) : roleAt c p = p.role := by simp [roleAt, h]

theorem roleAt_none {p : Pc} (h : p.slot = none) : roleAt c p = .out := by simp [roleAt, h]

theorem InvG.owner (h : InvG s v o q) {p : Pc} (hp : s.pc i = p) (hc : p.slot = some c) (ho : p.role.owns = true) :
    o c = some i :=
  ((h.slots c).own i).1 (by unfold roles; rw [hp, roleAt_of hc]; exact ho)

/-- A user of slot `c`, with the status changed only in bits that do not matter. -/
theorem InvG.user (h : InvG s v o q) {s' : State Data} {p p' : Pc} (hp : s.pc i = p)
    (hpc : s'.pc = Function.update s.pc i p')
    (hs : ∀ c', c' ≠ c → s'.status c' = s.status c') (hr : ∀ t c', c' ≠ c → s'.rc t c' = s.rc t c')
    (hf : s'.flight = s.flight)
    (hl : s'.lookup = s.lookup) (hi : s'.idx = s.idx) (hd : s'.data = s.data) (hk : s'.disk = s.disk)
    (h0 : wb (s'.status c) = wb (s.status c)) (h1 : exc (s'.status c) = exc (s.status c))
    (h3 : unm (s'.status c) = unm (s.status c)) (h4 : rdg (s'.status c) = rdg (s.status c))
    (h5 : cln (s'.status c) = cln (s.status c))
    (ha : p.slot = none ∨ p.slot = some c) (hb : p'.slot = none ∨ p'.slot = some c)
    (hno : (roleAt c p).owns = false)
    (hslot : SlotInv thr (wb (s.status c)) (exc (s.status c)) (unm (s.status c)) (rdg (s.status c))
      (cln (s.status c)) (decide (s.flight c ≠ .none)) (Function.update (roles s c) i (roleAt c p')) (o c) (q c))
    (hcount : CountOk (fun t => s'.rc t c) (Function.update (roles s c) i (roleAt c p')))
    (hpd : PcData v s.disk s.idx s.data p') : Inv s' v := by
  have e : (o c).map s'.pc = ownerPc s o c := by
    unfold ownerPc
    cases ho : o c with
    | none => rfl
    | some j =>
      have hj : j ≠ i := by
        rintro rfl
        have := ((h.slots c).own j).2 ho
        unfold roles at this
        rw [hp, hno] at this; cases this
      simp [hpc, Function.update_of_ne hj]
  refine h.loc i c p' (o c) (q c) hpc hs hr (fun c _ => by rw [hf]) hl hi hd hk (by rw [hp]; exact ha) hb ?_ hcount ?_ ?_ hpd
  · rw [h0, h1, h3, h4, h5, hf]; exact hslot
  · rw [e, h3]; rfl
  · rw [e, hf, h5]; exact h.datas c

theorem rc_update (t : Fin numThreads) (c : Slot) (x : UInt8) :
    (fun t' => (s.setRc t c x).rc t' c) = Function.update (fun t' => s.rc t' c) t x := by
  funext t'
  by_cases ht : t' = t
  · subst ht; simp [State.setRc]
  · simp [State.setRc, Function.update_of_ne ht]

theorem rc_frame (t : Fin numThreads) (c : Slot) (x : UInt8) (t' : Fin numThreads) (c' : Slot) (h : c' ≠ c) :
    (s.setRc t c x).rc t' c' = s.rc t' c' := by
  by_cases ht : t' = t
  · subst ht; simp [State.setRc, Function.update_of_ne h]
  · simp [State.setRc, Function.update_of_ne ht]

theorem role_eq {p : Pc} (hp : s.pc i = p) (hc : p.slot = some c) : roles s c i = p.role := by
  unfold roles; rw [hp, roleAt_of hc]

theorem role_out {p : Pc} (hp : s.pc i = p) (hc : p.slot = none) : roles s c i = .out := by
  unfold roles; rw [hp, roleAt_none hc]

/-! ### Users -/

theorem InvG.inc (h : InvG s v o q) (hp : s.pc i = .inc d c) :
    Inv ((s.setRc i.1 c (s.rc i.1 c + 1)).go i (.check d c)) v := by
  have hr : roles s c i = .out := role_out hp rfl
  refine h.user (c := c) hp rfl (fun _ _ => rfl) (rc_frame _ _ _) rfl rfl rfl rfl rfl rfl rfl rfl rfl rfl (Or.inl rfl)
    (Or.inr rfl) rfl ?_ ?_ trivial
  · rw [roleAt_of (by rfl)]; exact (h.slots c).inc hr
  · rw [roleAt_of (by rfl)]
    change CountOk (fun t => (s.setRc i.1 c (s.rc i.1 c + 1)).rc t c) _
    rw [rc_update]
    exact (h.counts c).inc (by rw [hr]; rfl) rfl

theorem InvG.same (h : InvG s v o q) {p p' : Pc} (hp : s.pc i = p) (ha : p.slot = some c) (hb : p'.slot = some c)
    (hr : p'.role = p.role) (hno : p.role.owns = false) (hpd : PcData v s.disk s.idx s.data p') : Inv (s.go i p') v := by
  have hr' : roles s c i = p.role := role_eq hp ha
  have e : Function.update (roles s c) i (roleAt c p') = roles s c := by
    rw [roleAt_of hb, hr, ← hr', Function.update_eq_self]
  refine h.user (c := c) hp rfl (fun _ _ => rfl) (fun _ _ _ => rfl) rfl rfl rfl rfl rfl rfl rfl rfl rfl rfl (Or.inr ha)
    (Or.inr hb) (by rw [roleAt_of ha]; exact hno) ?_ ?_ hpd
  · rw [e]; exact h.slots c
  · rw [e]; exact h.counts c

theorem InvG.check (h : InvG s v o q) (hp : s.pc i = .check d c) (he : s.status c &&& (flagExc ||| flagUnmapped) = 0)
    {p' : Pc} (hp' : p' = .wait d c ∨ p' = .mark d c) : Inv (s.go i p') v := by
  have hr : roles s c i = .pend := role_eq hp rfl
  have hsl : p'.slot = some c := by rcases hp' with rfl | rfl <;> rfl
  have hro : p'.role = .wait := by rcases hp' with rfl | rfl <;> rfl
  refine h.user (c := c) hp rfl (fun _ _ => rfl) (fun _ _ _ => rfl) rfl rfl rfl rfl rfl rfl rfl rfl rfl rfl (Or.inr rfl)
    (Or.inr hsl) (by rw [roleAt_of rfl]; rfl) ?_ ?_ (by rcases hp' with rfl | rfl <;> trivial)
  · rw [roleAt_of hsl, hro]
    exact (h.slots c).check hr (bit_of_and_eq he 1 (by decide)) (bit_of_and_eq he 3 (by decide))
  · rw [roleAt_of hsl, hro]; exact (h.counts c).same (by rw [hr]; rfl)

theorem InvG.dec (h : InvG s v o q) {p : Pc} (hp : s.pc i = p) (ha : p.slot = some c)
    (hpr : p.role = .pend ∨ p.role = .shared) :
    Inv ((s.setRc i.1 c (s.rc i.1 c - 1)).go i .idle) v := by
  have hr : roles s c i = p.role := role_eq hp ha
  refine h.user (c := c) hp rfl (fun _ _ => rfl) (rc_frame _ _ _) rfl rfl rfl rfl rfl rfl rfl rfl rfl rfl (Or.inr ha)
    (Or.inl rfl) (by rw [roleAt_of ha]; rcases hpr with e | e <;> rw [e] <;> rfl) ?_ ?_ trivial
  · rw [roleAt_none rfl]; exact (h.slots c).leave (by rw [hr]; exact hpr)
  · rw [roleAt_none rfl]
    change CountOk (fun t => (s.setRc i.1 c (s.rc i.1 c - 1)).rc t c) _
    rw [rc_update]
    exact (h.counts c).dec (by rw [hr]; rcases hpr with e | e <;> rw [e] <;> rfl) rfl

theorem bit4 : bit 4 0 = false ∧ bit 4 1 = false ∧ bit 4 3 = false ∧ bit 4 4 = false ∧ bit 4 5 = false := by decide
theorem bitN4 : bit (0xff - 4) 0 = true ∧ bit (0xff - 4) 1 = true ∧ bit (0xff - 4) 3 = true ∧
    bit (0xff - 4) 4 = true ∧ bit (0xff - 4) 5 = true := by decide

/-- A change of the bit `accessed`, and client `i` goes on with the same role. -/
theorem InvG.acc (h : InvG s v o q) {p p' : Pc} {x : UInt8} (hp : s.pc i = p)
    (hx : x = s.status c ||| flagAccessed ∨ x = s.status c &&& (0xff - flagAccessed))
    (hr : (p.slot = some c ∧ p'.slot = some c ∧ p'.role = p.role) ∨ (p.slot = none ∧ p'.slot = none))
    (hno : p.role.owns = false) (hpd : PcData v s.disk s.idx s.data p') :
    Inv ((s.setStatus c x).go i p') v := by
  have hb : bit x 0 = bit (s.status c) 0 ∧ bit x 1 = bit (s.status c) 1 ∧ bit x 3 = bit (s.status c) 3 ∧
      bit x 4 = bit (s.status c) 4 ∧ bit x 5 = bit (s.status c) 5 := by
    obtain ⟨a0, a1, a3, a4, a5⟩ := bit4
    obtain ⟨b0, b1, b3, b4, b5⟩ := bitN4
    rcases hx with rfl | rfl
    · simp only [bit_or, a0, a1, a3, a4, a5, Bool.or_false, and_self]
    · simp only [bit_and, b0, b1, b3, b4, b5, Bool.and_true, and_self]
  have e : Function.update (roles s c) i (roleAt c p') = roles s c := by
    have : roleAt c p' = roles s c i := by
      unfold roles; rw [hp]
      rcases hr with ⟨a, b, e⟩ | ⟨a, b⟩
      · rw [roleAt_of a, roleAt_of b, e]
      · rw [roleAt_none a, roleAt_none b]
    rw [this, Function.update_eq_self]
  have hst : ((s.setStatus c x).go i p').status c = x := by simp [State.go, State.setStatus]
  refine h.user (c := c) hp rfl (fun c' hc => by simp [State.go, State.setStatus, Function.update_of_ne hc])
    (fun _ _ _ => rfl) rfl rfl rfl rfl rfl (by rw [hst]; exact hb.1) (by rw [hst]; exact hb.2.1)
    (by rw [hst]; exact hb.2.2.1) (by rw [hst]; exact hb.2.2.2.1) (by rw [hst]; exact hb.2.2.2.2)
    (hr.elim (fun a => Or.inr a.1) (fun a => Or.inl a.1)) (hr.elim (fun a => Or.inr a.2.1) (fun a => Or.inl a.2))
    ?_ ?_ ?_ hpd
  · rcases hr with ⟨a, -, -⟩ | ⟨a, -⟩
    · rw [roleAt_of a]; exact hno
    · rw [roleAt_none a]; rfl
  · rw [e]; exact h.slots c
  · rw [e]; exact h.counts c

theorem InvG.waited (h : InvG s v o q) (hp : s.pc i = .wait d c) (hg : s.status c &&& flagReading = 0) :
    Inv (s.go i (.verify d c)) v := by
  have hr : roles s c i = .wait := role_eq hp rfl
  refine h.user (c := c) hp rfl (fun _ _ => rfl) (fun _ _ _ => rfl) rfl rfl rfl rfl rfl rfl rfl rfl rfl rfl (Or.inr rfl)
    (Or.inr rfl) (by rw [roleAt_of rfl]; rfl) ?_ ?_ trivial
  · rw [roleAt_of (by rfl)]; exact (h.slots c).waited hr (bit_of_and_eq hg 4 (by decide))
  · rw [roleAt_of (by rfl)]; exact (h.counts c).same (by rw [hr]; rfl)

/-! ### Owners -/

/-- Client `i` was or becomes the owner of `c`, or stays so. -/
theorem InvG.owns (h : InvG s v o q) {s' : State Data} {p p' : Pc} {x : UInt8} (hp : s.pc i = p)
    {op op' : Option Pc} {o0 : Option Client} (hop : ownerPc s o c = op)
    (hop' : (o0 = none ∧ op' = none) ∨ (o0 = some i ∧ op' = some p'))
    (hpc : s'.pc = Function.update s.pc i p') (hst : s'.status c = x)
    (hs : ∀ c', c' ≠ c → s'.status c' = s.status c') (hr : ∀ t c', c' ≠ c → s'.rc t c' = s.rc t c')
    (hf : s'.flight = s.flight)
    (hl : s'.lookup = s.lookup) (hi : s'.idx = s.idx) (hd : s'.data = s.data) (hk : s'.disk = s.disk)
    (ha : p.slot = none ∨ p.slot = some c) (hb : p'.slot = none ∨ p'.slot = some c)
    (hslot : SlotInv thr (wb x) (exc x) (unm x) (rdg x)
      (cln x) (decide (s.flight c ≠ .none)) (Function.update (roles s c) i (roleAt c p')) o0 (q c))
    (hcount : CountOk (fun t => s'.rc t c) (Function.update (roles s c) i (roleAt c p')))
    (hhome : homeOf op' (unm x) (s.idx c) = homeOf op (unm (s.status c)) (s.idx c))
    (hdata : ∀ hm, homeOf op (unm (s.status c)) (s.idx c) = hm →
      SlotData v s.disk (s.idx c) (s.data c) (s.flight c) hm (loadsOf op) (writesOf op) (cln (s.status c)) →
      SlotData v s.disk (s.idx c) (s.data c) (s.flight c) hm (loadsOf op') (writesOf op') (cln x))
    (hpd : PcData v s.disk s.idx s.data p') : Inv s' v := by
  have e : o0.map s'.pc = op' := by
    rcases hop' with ⟨rfl, rfl⟩ | ⟨rfl, rfl⟩
    · rfl
    · simp [hpc]
  have eh : home s o c = homeOf op (unm (s.status c)) (s.idx c) := by unfold home; rw [hop]
  refine h.loc i c p' o0 (q c) hpc hs hr (fun c _ => by rw [hf]) hl hi hd hk (by rw [hp]; exact ha) hb ?_ hcount ?_ ?_ hpd
  · rw [hst, hf]; exact hslot
  · rw [e, hst, hhome, eh]
  · rw [e, hf, hst, eh]
    refine hdata _ rfl ?_
    have := h.datas c
    rw [eh, hop] at this; exact this

theorem InvG.ownerPc_eq (h : InvG s v o q) {p : Pc} (hp : s.pc i = p) (hc : p.slot = some c)
    (ho : p.role.owns = true) : ownerPc s o c = some p := by
  simp [ownerPc, h.owner hp hc ho, hp]

theorem InvG.ownerPc_none (h : InvG s v o q) (he : exc (s.status c) = false) (hg : rdg (s.status c) = false) :
    ownerPc s o c = none := by
  simp [ownerPc, (h.slots c).no_owner he hg]

theorem status_frame (x : UInt8) (p : Pc) (c' : Slot) (hc : c' ≠ c) :
    ((s.setStatus c x).go i p).status c' = s.status c' := by
  simp [State.go, State.setStatus, Function.update_of_ne hc]

theorem status_self (x : UInt8) (p : Pc) : ((s.setStatus c x).go i p).status c = x := by
  simp [State.go, State.setStatus]

theorem InvG.alloc (h : InvG s v o q) (hp : s.pc i = .alloc d) (hx : s.status c = flagUnmapped) :
    Inv ((s.setStatus c flagExcReading).go i (.map d c)) v := by
  have hr : roles s c i = .out := role_out hp rfl
  have hu : unm (s.status c) = true := by rw [hx]; decide
  have hop : ownerPc s o c = none := by simp [ownerPc, (h.slots c).unmO hu]
  refine h.owns (c := c) hp hop (Or.inr ⟨rfl, rfl⟩) rfl (status_self _ _) (status_frame _ _) (fun _ _ _ => rfl)
    rfl rfl rfl rfl rfl (Or.inl rfl) (Or.inr rfl) ?_ ?_ ?_ ?_ trivial
  · rw [roleAt_of (by rfl)]; exact (h.slots c).alloc hr hu
  · rw [roleAt_of (by rfl)]; exact (h.counts c).same (by rw [hr]; rfl)
  · rw [hu]; rfl
  · rintro hm rfl ⟨a1, a2, a3, a4⟩
    rw [hu] at a1 a2 ⊢
    exact ⟨fun p e => (nomatch e), fun p e => (nomatch e), a3, a4⟩

theorem InvG.mapFail (h : InvG s v o q) (hp : s.pc i = .map d c) : Inv (s.go i (.unalloc c)) v := by
  have hr : roles s c i = .fresh := role_eq hp rfl
  have hop := h.ownerPc_eq hp rfl rfl
  have e : Function.update (roles s c) i (roleAt c (.unalloc c)) = roles s c := by
    rw [roleAt_of (by rfl)]; change Function.update (roles s c) i Role.fresh = _; rw [← hr, Function.update_eq_self]
  refine h.owns (c := c) hp hop (Or.inr ⟨h.owner hp rfl rfl, rfl⟩) rfl rfl (fun _ _ => rfl) (fun _ _ _ => rfl)
    rfl rfl rfl rfl rfl (Or.inr rfl) (Or.inr rfl) ?_ ?_ rfl (fun hm _ a => a) trivial
  · rw [e]; exact h.slots c
  · rw [e]; exact h.counts c

theorem InvG.unalloc (h : InvG s v o q) (hp : s.pc i = .unalloc c) :
    Inv ((s.setStatus c flagUnmapped).go i .idle) v := by
  have hr : roles s c i = .fresh := role_eq hp rfl
  have hop := h.ownerPc_eq hp rfl rfl
  refine h.owns (c := c) hp hop (Or.inl ⟨rfl, rfl⟩) rfl (status_self _ _) (status_frame _ _) (fun _ _ _ => rfl)
    rfl rfl rfl rfl rfl (Or.inr rfl) (Or.inl rfl) ?_ ?_ ?_ ?_ trivial
  · rw [roleAt_none rfl]; exact (h.slots c).unalloc hr
  · rw [roleAt_none rfl]; exact (h.counts c).same (by rw [hr]; rfl)
  · rfl
  · rintro hm rfl ⟨a1, a2, a3, a4⟩
    exact ⟨fun p e => (nomatch e), fun p e => (nomatch e), a3, a4⟩

theorem InvG.incReading (h : InvG s v o q) (hp : s.pc i = .incReading d c) :
    Inv ((s.setRc i.1 c (s.rc i.1 c + 1)).go i (.clearExc d c)) v := by
  have hr : roles s c i = .fresh := role_eq hp rfl
  have hop := h.ownerPc_eq hp rfl rfl
  have hpd := h.pcs i
  rw [hp] at hpd
  refine h.owns (c := c) hp hop (Or.inr ⟨h.owner hp rfl rfl, rfl⟩) rfl rfl (fun _ _ => rfl) (rc_frame _ _ _)
    rfl rfl rfl rfl rfl (Or.inr rfl) (Or.inr rfl) ?_ ?_ rfl (fun hm _ a => a) hpd
  · rw [roleAt_of (by rfl)]; exact (h.slots c).incReading hr
  · rw [roleAt_of (by rfl)]
    change CountOk (fun t => (s.setRc i.1 c (s.rc i.1 c + 1)).rc t c) _
    rw [rc_update]
    exact (h.counts c).inc (by rw [hr]; rfl) rfl

theorem InvG.clearExc (h : InvG s v o q) (hp : s.pc i = .clearExc d c) :
    Inv ((s.setStatus c flagAccessedReadingClean).go i (.load d c)) v := by
  have hr : roles s c i = .freshCounted := role_eq hp rfl
  have hop := h.ownerPc_eq hp rfl rfl
  have hpd := h.pcs i
  rw [hp] at hpd
  refine h.owns (c := c) hp hop (Or.inr ⟨h.owner hp rfl rfl, rfl⟩) rfl (status_self _ _) (status_frame _ _)
    (fun _ _ _ => rfl) rfl rfl rfl rfl rfl (Or.inr rfl) (Or.inr rfl) ?_ ?_ rfl ?_ hpd
  · rw [roleAt_of (by rfl)]; exact (h.slots c).clearExc hr
  · rw [roleAt_of (by rfl)]; exact (h.counts c).same (by rw [hr]; rfl)
  · rintro hm - ⟨a1, a2, a3, a4⟩
    exact ⟨a1, fun p _ e => (nomatch e), a3, a4⟩

theorem InvG.fin (h : InvG s v o q) (hp : s.pc i = .fin d c) :
    Inv ((s.setStatus c (s.status c &&& (0xff - flagReading))).go i (.hold d c)) v := by
  have hr : roles s c i = .loading := role_eq hp rfl
  have hop := h.ownerPc_eq hp rfl rfl
  have hpd := h.pcs i
  rw [hp] at hpd
  obtain ⟨hp1, hp2, hp3⟩ := hpd
  have hu : unm (s.status c) = false := by
    cases hu : unm (s.status c) with
    | false => rfl
    | true => have := (h.slots c).unmO hu; rw [h.owner hp rfl rfl] at this; cases this
  have b0 : bit (0xff - flagReading) 0 = true := by decide
  have b1 : bit (0xff - flagReading) 1 = true := by decide
  have b3 : bit (0xff - flagReading) 3 = true := by decide
  have b4 : bit (0xff - flagReading) 4 = false := by decide
  have b5 : bit (0xff - flagReading) 5 = true := by decide
  refine h.owns (c := c) hp hop (Or.inl ⟨rfl, rfl⟩) rfl (status_self _ _) (status_frame _ _)
    (fun _ _ _ => rfl) rfl rfl rfl rfl rfl (Or.inr rfl) (Or.inr rfl) ?_ ?_ ?_ ?_ hp1
  · rw [roleAt_of (by rfl)]
    simp only [wb, Scache.exc, unm, rdg, cln, bit_and, b0, b1, b3, b4, b5, Bool.and_true, Bool.and_false]
    exact (h.slots c).fin hr
  · rw [roleAt_of (by rfl)]; exact (h.counts c).same (by rw [hr]; rfl)
  · simp only [unm, bit_and, b3, Bool.and_true] at hu ⊢; rw [hu]; simp [homeOf, hp1]
  · rintro hm rfl ⟨a1, a2, a3, a4⟩
    refine ⟨?_, ?_, a3, a4⟩
    · intro p e _; cases e; rw [hp2, hp3]
    · intro p e _ _ _; cases e; rw [hp3]

theorem InvG.evTake (h : InvG s v o q) (hp : s.pc i = .evTake d c) (hx : s.status c = flagClean) :
    Inv ((s.setStatus c flagExcClean).go i (.visit d c 0)) v := by
  have hr : roles s c i = .out := role_out hp rfl
  have b0 : wb (s.status c) = false := by rw [hx]; decide
  have b1 : exc (s.status c) = false := by rw [hx]; decide
  have b3 : unm (s.status c) = false := by rw [hx]; decide
  have b4 : rdg (s.status c) = false := by rw [hx]; decide
  have b5 : cln (s.status c) = true := by rw [hx]; decide
  refine h.owns (c := c) hp (h.ownerPc_none b1 b4) (Or.inr ⟨rfl, rfl⟩) rfl (status_self _ _) (status_frame _ _)
    (fun _ _ _ => rfl) rfl rfl rfl rfl rfl (Or.inl rfl) (Or.inr rfl) ?_ ?_ ?_ ?_ trivial
  · rw [roleAt_of (by rfl)]; exact (h.slots c).evTake hr b0 b1 b4 b5
  · rw [roleAt_of (by rfl)]; exact (h.counts c).same (by rw [hr]; rfl)
  · rw [b3]; rfl
  · rintro hm - ⟨a1, a2, a3, a4⟩
    rw [b5] at a2
    exact ⟨a1, fun p e f g _ => a2 p e f g rfl, a3, a4⟩

/-- The owner goes on and the slot stays as it is. -/
theorem InvG.ownGo (h : InvG s v o q) {p p' : Pc} (hp : s.pc i = p) (ha : p.slot = some c) (hb : p'.slot = some c)
    (ho : p.role.owns = true)
    (hslot : SlotInv thr (wb (s.status c)) (exc (s.status c)) (unm (s.status c)) (rdg (s.status c))
      (cln (s.status c)) (decide (s.flight c ≠ .none)) (Function.update (roles s c) i p'.role) (o c) (q c))
    (hc : p'.role.counted = p.role.counted)
    (hhome : ∀ u x, homeOf (some p') u x = homeOf (some p) u x) (hlo : loadsOf (some p') = loadsOf (some p))
    (hwr : writesOf (some p) = true → writesOf (some p') = true)
    (hpd : PcData v s.disk s.idx s.data p') : Inv (s.go i p') v := by
  have hr : roles s c i = p.role := role_eq hp ha
  refine h.owns (c := c) hp (h.ownerPc_eq hp ha ho) (Or.inr ⟨h.owner hp ha ho, rfl⟩) rfl rfl (fun _ _ => rfl) (fun _ _ _ => rfl)
    rfl rfl rfl rfl rfl (Or.inr ha) (Or.inr hb) ?_ ?_ (hhome _ _) ?_ hpd
  · rw [roleAt_of hb]; exact hslot
  · rw [roleAt_of hb]; exact (h.counts c).same (by rw [hr]; exact hc)
  · rintro hm - ⟨a1, a2, a3, a4⟩
    rw [hlo]
    refine ⟨a1, fun p e f g => a2 p e f ?_, a3, a4⟩
    cases hw : writesOf (some _) with
    | false => rfl
    | true => rw [hwr hw] at g; cases g

theorem InvG.zero_none (h : InvG s v o q) {n : Nat} (hn : n < numThreads) (e : s.rc ⟨n, hn⟩ c = 0) (j : Client)
    (hj : (roles s c j).uses = true) : thr j ≠ n := by
  intro ht
  have h1 := (h.counts c).nat ⟨n, hn⟩
  simp only [e] at h1
  have h2 : 0 < cnt (fun j => (roles s c j).counted) j.1 := cnt_pos (by
    cases hr : roles s c j <;> rw [hr] at hj <;> first | rfl | cases hj)
  have : j.1 = ⟨n, hn⟩ := Fin.ext ht
  rw [this, ← h1] at h2
  exact absurd h2 (by decide)

theorem InvG.visit (h : InvG s v o q) {n : Nat} (hn : n < numThreads) (hp : s.pc i = .visit d c n)
    (e : s.rc ⟨n, hn⟩ c = 0) : Inv (s.go i (.visit d c (n + 1))) v :=
  h.ownGo hp rfl rfl rfl ((h.slots c).visitStep n (role_eq hp rfl) (h.zero_none hn e)) rfl (fun _ _ => rfl) rfl id trivial

theorem InvG.visitFail (h : InvG s v o q) {n : Nat} (hp : s.pc i = .visit d c n) : Inv (s.go i (.abandon d c)) v :=
  h.ownGo hp rfl rfl rfl ((h.slots c).visitFail n (role_eq hp rfl)) rfl (fun _ _ => rfl) rfl id trivial

theorem InvG.visited (h : InvG s v o q) (hp : s.pc i = .visit d c numThreads) : Inv (s.go i (.readIdx d c)) v :=
  h.ownGo hp rfl rfl rfl ((h.slots c).visited numThreads (role_eq hp rfl) fun j => j.1.isLt) rfl (fun _ _ => rfl) rfl id
    trivial

theorem InvG.readIdx (h : InvG s v o q) (hp : s.pc i = .readIdx d c) : Inv (s.go i (.unmap d c (s.idx c))) v := by
  have hr : roles s c i = .evicted := role_eq hp rfl
  refine h.ownGo hp rfl rfl rfl ?_ rfl (fun _ _ => rfl) rfl id rfl
  change SlotInv _ _ _ _ _ _ _ (Function.update (roles s c) i Role.evicted) _ _
  rw [← hr, Function.update_eq_self]; exact h.slots c

theorem InvG.await (h : InvG s v o q) (hp : s.pc i = .await d c) (hw : s.status c &&& flagWriteback = 0) :
    Inv (s.go i (.visitExc d c 0)) v := by
  have hpd := h.pcs i
  rw [hp] at hpd
  exact h.ownGo hp rfl rfl rfl ((h.slots c).awaited (role_eq hp rfl) (bit_of_and_eq hw 0 (by decide))) rfl (fun _ _ => rfl)
    rfl id hpd

theorem InvG.visitExc (h : InvG s v o q) {n : Nat} (hn : n < numThreads) (hp : s.pc i = .visitExc d c n)
    (e : s.rc ⟨n, hn⟩ c = (if i.1.val = n then 1 else 0)) : Inv (s.go i (.visitExc d c (n + 1))) v := by
  have hpd := h.pcs i
  rw [hp] at hpd
  refine h.ownGo hp rfl rfl rfl ((h.slots c).visitExc n (role_eq hp rfl) ?_) rfl (fun _ _ => rfl) rfl id hpd
  by_cases hi : i.1.val = n
  · rw [if_pos hi] at e
    intro j hj ht
    have h1 := (h.counts c).nat ⟨n, hn⟩
    simp only [e] at h1
    have hji : (⟨n, hn⟩ : Fin numThreads) = i.1 := Fin.ext hi.symm
    rw [hji] at h1
    have hri : roles s c i = .visit n := role_eq hp rfl
    have := cnt_one (f := fun j => (roles s c j).counted) (i := i) (j := j) (by simp only [hri]; rfl)
      (by cases hr : roles s c j <;> rw [hr] at hj <;> first | rfl | cases hj) (Fin.ext (by rw [hi, ← ht])) h1.symm
    subst this
    rw [hri] at hj; cases hj
  · rw [if_neg hi] at e; exact h.zero_none hn e

theorem InvG.visitedExc (h : InvG s v o q) (hp : s.pc i = .visitExc d c numThreads) : Inv (s.go i (.write d c)) v := by
  have hpd := h.pcs i
  rw [hp] at hpd
  exact h.ownGo hp rfl rfl rfl ((h.slots c).visitedExc numThreads (role_eq hp rfl) fun j => j.1.isLt) rfl (fun _ _ => rfl) rfl
    (fun e => nomatch e) hpd

theorem InvG.abandon (h : InvG s v o q) (hp : s.pc i = .abandon d c) :
    Inv ((s.setStatus c (s.status c &&& (0xff - flagExc))).go i (.alloc d)) v := by
  have hr : roles s c i = .evictStop := role_eq hp rfl
  have hop := h.ownerPc_eq hp rfl rfl
  have hu : unm (s.status c) = false := by
    cases hu : unm (s.status c) with
    | false => rfl
    | true => have := (h.slots c).unmO hu; rw [h.owner hp rfl rfl] at this; cases this
  have b0 : bit (0xff - flagExc) 0 = true := by decide
  have b1 : bit (0xff - flagExc) 1 = false := by decide
  have b3 : bit (0xff - flagExc) 3 = true := by decide
  have b4 : bit (0xff - flagExc) 4 = true := by decide
  have b5 : bit (0xff - flagExc) 5 = true := by decide
  refine h.owns (c := c) hp hop (Or.inl ⟨rfl, rfl⟩) rfl (status_self _ _) (status_frame _ _)
    (fun _ _ _ => rfl) rfl rfl rfl rfl rfl (Or.inr rfl) (Or.inl rfl) ?_ ?_ ?_ ?_ trivial
  · rw [roleAt_none rfl]
    simp only [wb, Scache.exc, unm, rdg, cln, bit_and, b0, b1, b3, b4, b5, Bool.and_true, Bool.and_false]
    exact (h.slots c).abandon hr
  · rw [roleAt_none rfl]; exact (h.counts c).same (by rw [hr]; rfl)
  · simp only [unm, bit_and, b3, Bool.and_true] at hu ⊢; rw [hu]; simp [homeOf]
  · rintro hm - ⟨a1, a2, a3, a4⟩
    simp only [cln, bit_and, b5, Bool.and_true]
    exact ⟨a1, a2, a3, a4⟩

theorem InvG.free (h : InvG s v o q) (hp : s.pc i = .free d c) :
    Inv ((s.setStatus c flagUnmapped).go i (.alloc d)) v := by
  have hr : roles s c i = .evicted := role_eq hp rfl
  have hop := h.ownerPc_eq hp rfl rfl
  refine h.owns (c := c) hp hop (Or.inl ⟨rfl, rfl⟩) rfl (status_self _ _) (status_frame _ _) (fun _ _ _ => rfl)
    rfl rfl rfl rfl rfl (Or.inr rfl) (Or.inl rfl) ?_ ?_ ?_ ?_ trivial
  · rw [roleAt_none rfl]; exact (h.slots c).free hr
  · rw [roleAt_none rfl]; exact (h.counts c).same (by rw [hr]; rfl)
  · rfl
  · rintro hm rfl ⟨a1, a2, a3, a4⟩
    exact ⟨fun p e => (nomatch e), fun p e => (nomatch e), a3, a4⟩

/-- A slot that is used is mapped, and if nobody has it alone then nobody owns it. -/
theorem InvG.used (h : InvG s v o q) {p : Pc} (hp : s.pc i = p) (hc : p.slot = some c) (hu : p.role.uses = true) :
    unm (s.status c) = false := by
  cases hb : unm (s.status c) with
  | false => rfl
  | true =>
    have := (h.slots c).unmU hb i
    rw [role_eq hp hc, hu] at this; cases this

/-- While a page is held nobody loads into the slot. -/
theorem InvG.held (h : InvG s v o q) {p : Pc} (hp : s.pc i = p) (hc : p.slot = some c) (hu : p.role = .shared) :
    rdg (s.status c) = false := by
  have hsl := h.slots c
  have hri : roles s c i = .shared := by rw [role_eq hp hc, hu]
  cases hg : rdg (s.status c) with
  | false => rfl
  | true =>
    cases ho : o c with
    | none => have := (hsl.idle ho).2; rw [hg] at this; cases this
    | some j =>
      have h3 := hsl.reading j ho
      have h4 := hsl.beside j i ho (by rw [hri]; rfl)
      rw [hg] at h3
      rw [hri] at h4
      cases hj : roles s c j <;> rw [hj] at h3 h4 <;>
        first | (simp [Role.hasReading] at h3; done) | (simp [Beside] at h4)

theorem InvG.upgrade (h : InvG s v o q) (hp : s.pc i = .hold d c) (he : s.status c &&& flagExc = 0) :
    Inv ((s.setStatus c (s.status c ||| flagExc)).go i (.await d c)) v := by
  have hr : roles s c i = .shared := role_eq hp rfl
  have he' : exc (s.status c) = false := bit_of_and_eq he 1 (by decide)
  have hg := h.held hp rfl rfl
  have hu := h.used hp rfl rfl
  have hop := h.ownerPc_none he' hg
  have hpd := h.pcs i
  rw [hp] at hpd
  have b0 : bit flagExc 0 = false := by decide
  have b1 : bit flagExc 1 = true := by decide
  have b3 : bit flagExc 3 = false := by decide
  have b4 : bit flagExc 4 = false := by decide
  have b5 : bit flagExc 5 = false := by decide
  refine h.owns (c := c) hp hop (Or.inr ⟨rfl, rfl⟩) rfl (status_self _ _) (status_frame _ _)
    (fun _ _ _ => rfl) rfl rfl rfl rfl rfl (Or.inr rfl) (Or.inr rfl) ?_ ?_ ?_ ?_ hpd
  · rw [roleAt_of (by rfl)]
    simp only [wb, Scache.exc, unm, rdg, cln, bit_or, b0, b1, b3, b4, b5, Bool.or_true, Bool.or_false]
    exact (h.slots c).upgrade hr he'
  · rw [roleAt_of (by rfl)]; exact (h.counts c).same (by rw [hr]; rfl)
  · rw [hu]; rfl
  · rintro hm - ⟨a1, a2, a3, a4⟩
    simp only [cln, bit_or, b5, Bool.or_false]
    exact ⟨a1, a2, a3, a4⟩

theorem InvG.downgrade (h : InvG s v o q) (hp : s.pc i = .write d c) :
    Inv ((s.setStatus c (s.status c &&& (0xff - flagExcClean))).go i (.hold d c)) v := by
  have hr : roles s c i = .write := role_eq hp rfl
  have hop := h.ownerPc_eq hp rfl rfl
  have hpd := h.pcs i
  rw [hp] at hpd
  have hu : unm (s.status c) = false := by
    cases hu : unm (s.status c) with
    | false => rfl
    | true => have := (h.slots c).unmO hu; rw [h.owner hp rfl rfl] at this; cases this
  have b0 : bit (0xff - flagExcClean) 0 = true := by decide
  have b1 : bit (0xff - flagExcClean) 1 = false := by decide
  have b3 : bit (0xff - flagExcClean) 3 = true := by decide
  have b4 : bit (0xff - flagExcClean) 4 = true := by decide
  have b5 : bit (0xff - flagExcClean) 5 = false := by decide
  refine h.owns (c := c) hp hop (Or.inl ⟨rfl, rfl⟩) rfl (status_self _ _) (status_frame _ _)
    (fun _ _ _ => rfl) rfl rfl rfl rfl rfl (Or.inr rfl) (Or.inr rfl) ?_ ?_ ?_ ?_ hpd
  · rw [roleAt_of (by rfl)]
    simp only [wb, Scache.exc, unm, rdg, cln, bit_and, b0, b1, b3, b4, b5, Bool.and_true, Bool.and_false]
    exact (h.slots c).downgrade hr
  · rw [roleAt_of (by rfl)]; exact (h.counts c).same (by rw [hr]; rfl)
  · simp only [unm, bit_and, b3, Bool.and_true] at hu ⊢; rw [hu]; rfl
  · rintro hm - ⟨a1, a2, a3, a4⟩
    simp only [cln, bit_and, b5, Bool.and_false]
    exact ⟨a1, fun p _ _ _ e => (nomatch e), a3, a4⟩

/-! ### Writes back -/

theorem InvG.writeback (h : InvG s v o q) (hp : s.pc i = .alloc d) {x : UInt8}
    (hx : (s.status c = 0 ∧ x = flagWriteback) ∨ (s.status c = flagAccessed ∧ x = (flagWriteback ||| flagAccessed))) :
    Inv ((s.setStatus c x).go i (.issue d c)) v := by
  have hr : roles s c i = .out := role_out hp rfl
  have b0 : wb (s.status c) = false := by rcases hx with ⟨hx, -⟩ | ⟨hx, -⟩ <;> rw [hx] <;> decide
  have b1 : exc (s.status c) = false := by rcases hx with ⟨hx, -⟩ | ⟨hx, -⟩ <;> rw [hx] <;> decide
  have b3 : unm (s.status c) = false := by rcases hx with ⟨hx, -⟩ | ⟨hx, -⟩ <;> rw [hx] <;> decide
  have b4 : rdg (s.status c) = false := by rcases hx with ⟨hx, -⟩ | ⟨hx, -⟩ <;> rw [hx] <;> decide
  have b5 : cln (s.status c) = false := by rcases hx with ⟨hx, -⟩ | ⟨hx, -⟩ <;> rw [hx] <;> decide
  have c0 : wb x = true := by rcases hx with ⟨-, hx⟩ | ⟨-, hx⟩ <;> rw [hx] <;> decide
  have c1 : exc x = false := by rcases hx with ⟨-, hx⟩ | ⟨-, hx⟩ <;> rw [hx] <;> decide
  have c3 : unm x = false := by rcases hx with ⟨-, hx⟩ | ⟨-, hx⟩ <;> rw [hx] <;> decide
  have c4 : rdg x = false := by rcases hx with ⟨-, hx⟩ | ⟨-, hx⟩ <;> rw [hx] <;> decide
  have c5 : cln x = false := by rcases hx with ⟨-, hx⟩ | ⟨-, hx⟩ <;> rw [hx] <;> decide
  have ho := (h.slots c).no_owner b1 b4
  have hop := h.ownerPc_none b1 b4
  have hd := h.datas c
  have hh : home s o c = some (s.idx c) := by unfold home; rw [hop, b3]; rfl
  rw [hop] at hd
  refine h.loc i c (.issue d c) (o c) (some i) rfl (status_frame _ _) (fun _ _ _ => rfl) (fun _ _ => rfl) rfl rfl rfl rfl
    (Or.inl (by rw [hp]; rfl)) (Or.inr rfl) ?_ ?_ ?_ ?_ trivial
  · rw [roleAt_of (by rfl), status_self, c0, c1, c3, c4, c5]
    exact (h.slots c).writeback b0 b1 b4 b5
  · rw [roleAt_of (by rfl)]; exact (h.counts c).same (by rw [hr]; rfl)
  · rw [ho, status_self, c3, hh]; rfl
  · rw [ho, status_self, c5, ← b5]; exact hd

theorem InvG.issue (h : InvG s v o q) (hp : s.pc i = .issue d c) :
    Inv ((s.setFlight c (.issued (s.idx c))).go i (.alloc d)) v := by
  have hr : roles s c i = .issue := role_eq hp rfl
  have hq : q c = some i := ((h.slots c).iss i).1 hr
  have hw := ((h.slots c).wb i hq).2
  have hd := h.datas c
  have hne : ∀ j, o c = some j → j ≠ i := by
    rintro j ho rfl
    have := ((h.slots c).own j).2 ho
    rw [hr] at this; cases this
  have e : (o c).map (Function.update s.pc i (.alloc d)) = ownerPc s o c := by
    unfold ownerPc
    cases ho : o c with
    | none => rfl
    | some j => simp [Function.update_of_ne (hne j ho)]
  have hfl : ((s.setFlight c (.issued (s.idx c))).go i (.alloc d)).flight c = .issued (s.idx c) := by
    simp [State.go, State.setFlight]
  refine h.loc i c (.alloc d) (o c) none rfl (fun _ _ => rfl) (fun _ _ _ => rfl)
    (fun c' hc => by simp [State.go, State.setFlight, Function.update_of_ne hc]) rfl rfl rfl rfl
    (Or.inr (by rw [hp]; rfl)) (Or.inl rfl) ?_ ?_ ?_ ?_ trivial
  · rw [roleAt_none rfl, hfl]; exact (h.slots c).issued hr
  · rw [roleAt_none rfl]; exact (h.counts c).same (by rw [hr]; rfl)
  · change homeOf ((o c).map (Function.update s.pc i (.alloc d))) _ _ = _; rw [e]; rfl
  · rw [hfl]
    change SlotData _ _ _ _ _ _ (loadsOf ((o c).map (Function.update s.pc i (.alloc d))))
      (writesOf ((o c).map (Function.update s.pc i (.alloc d)))) _
    rw [e]
    exact ⟨hd.hit, hd.clean, fun p e => by cases e; rfl, fun e => (nomatch e)⟩

/-- While a write back is on, the slot is mapped for the page it is of. -/
theorem InvG.home_wb (h : InvG s v o q) (hf : s.flight c ≠ .none) :
    home s o c = some (s.idx c) ∧ loadsOf (ownerPc s o c) = false ∧ writesOf (ownerPc s o c) = false ∧
      wb (s.status c) = true ∧ cln (s.status c) = false := by
  have hsl := h.slots c
  have hw : wb (s.status c) = true := by
    cases hq : q c with
    | none => have := hsl.wbF hq; rw [this]; simpa using hf
    | some j => exact (hsl.wb j hq).2
  have hu : unm (s.status c) = false := by
    cases hb : unm (s.status c) with
    | false => rfl
    | true => have := hsl.unmW hb; rw [hw] at this; cases this
  refine ⟨?_, ?_, ?_, hw, hsl.wbC hw⟩ <;> (simp only [home, ownerPc]) <;> (cases ho : o c with
    | none => simp [homeOf, hu, loadsOf, writesOf]
    | some j =>
      have := hsl.wbO hw j ho
      unfold roles roleAt at this
      cases hp : s.pc j <;> rw [hp] at this <;> simp_all [Pc.slot, Pc.role, homeOf, loadsOf, writesOf] <;>
        split at this <;> cases this)

/-- A step of the disk at page `p`, which slot `c` is written back to. -/
theorem InvG.diskStep (h : InvG s v o q) {p : Page} (hf : s.flight c = .issued p) (x : Data) (f : Flight)
    (hx : f = .issued p ∨ (f = .done ∧ x = s.data c)) : Inv ((s.setDisk p x).setFlight c f) v := by
  obtain ⟨h1, h2, h3, h4, h5⟩ := h.home_wb (c := c) (by rw [hf]; exact fun e => nomatch e)
  have hp : s.idx c = p := (h.datas c).issued p hf
  rw [hp] at h1
  have hl : s.lookup p = some c := (h.maps c p).2 h1
  have hne : ∀ c', c' ≠ c → ∀ p', home s o c' = some p' → p' ≠ p := by
    rintro c' hc p' e rfl
    have := (h.maps c' p').2 e
    rw [hl] at this; cases this; exact hc rfl
  have hfn : f ≠ .none := by rcases hx with rfl | ⟨rfl, -⟩ <;> exact fun e => nomatch e
  refine ⟨o, q, ?_, h.counts, h.maps, ?_, ?_, ?_⟩
  · intro c'
    by_cases hc : c' = c
    · subst hc
      have := h.slots c'
      have e : decide (((s.setDisk p x).setFlight c' f).flight c' ≠ .none) = decide (s.flight c' ≠ .none) := by
        simp [State.setFlight, hf, hfn]
      rw [e]; exact this
    · have : ((s.setDisk p x).setFlight c f).flight c' = s.flight c' := by
        simp [State.setFlight, State.setDisk, Function.update_of_ne hc]
      rw [this]; exact h.slots c'
  · intro p' e
    have : p' ≠ p := by rintro rfl; rw [show s.lookup p' = none from e] at hl; cases hl
    simpa [State.setFlight, State.setDisk, Function.update_of_ne this] using h.miss p' e
  · intro c'
    have hd := h.datas c'
    by_cases hc : c' = c
    · subst hc
      have ef : ((s.setDisk p x).setFlight c' f).flight c' = f := by simp [State.setFlight]
      rw [ef]
      refine ⟨hd.hit, ?_, ?_, ?_⟩
      · intro p' _ _ _ e
        rw [show cln (((s.setDisk p x).setFlight c' f).status c') = cln (s.status c') from rfl, h5] at e; cases e
      · intro p' e
        rcases hx with rfl | ⟨rfl, -⟩
        · cases e; exact hp
        · cases e
      · intro e
        rcases hx with rfl | ⟨-, rfl⟩
        · cases e
        · change Function.update s.disk p (s.data c') (s.idx c') = s.data c'
          rw [hp]; simp
    · have ef : ((s.setDisk p x).setFlight c f).flight c' = s.flight c' := by
        simp [State.setFlight, State.setDisk, Function.update_of_ne hc]
      rw [ef]
      refine ⟨hd.hit, ?_, hd.issued, ?_⟩
      · intro p' e a b g
        change Function.update s.disk p x p' = s.data c'
        rw [Function.update_of_ne (hne c' hc p' e)]; exact hd.clean p' e a b g
      · intro e
        change Function.update s.disk p x (s.idx c') = s.data c'
        have := (h.home_wb (c := c') (by rw [e]; exact fun e => nomatch e)).1
        rw [Function.update_of_ne (hne c' hc _ this)]; exact hd.done e
  · intro j
    have hj := h.pcs j
    have hload : ∀ {pc : Pc} {d c'}, s.pc j = pc → pc.slot = some c' → pc.role.owns = true →
        homeOf (some pc) (unm (s.status c')) (s.idx c') = some d → loadsOf (some pc) = true → d ≠ p := by
      intro pc d c' e1 e2 e3 e4 e5
      have hop := h.ownerPc_eq e1 e2 e3
      refine hne c' ?_ d (by unfold home; rw [hop]; exact e4)
      rintro rfl
      rw [hop, e5] at h2; cases h2
    change PcData v (Function.update s.disk p x) s.idx s.data (s.pc j)
    cases e : s.pc j <;> rw [e] at hj <;> try exact hj
    all_goals
      have := hload e rfl rfl rfl rfl
      simp only [PcData, Function.update_of_ne this]; exact hj

theorem InvG.released (h : InvG s v o q) (hf : s.flight c = .done) :
    Inv ((s.setStatus c (s.status c ^^^ flagWritebackClean)).setFlight c .none) v := by
  obtain ⟨h1, h2, h3, h4, h5⟩ := h.home_wb (c := c) (by rw [hf]; exact fun e => nomatch e)
  have b0 : bit flagWritebackClean 0 = true := by decide
  have b1 : bit flagWritebackClean 1 = false := by decide
  have b3 : bit flagWritebackClean 3 = false := by decide
  have b4 : bit flagWritebackClean 4 = false := by decide
  have b5 : bit flagWritebackClean 5 = true := by decide
  have es : ((s.setStatus c (s.status c ^^^ flagWritebackClean)).setFlight c .none).status c =
      s.status c ^^^ flagWritebackClean := by simp [State.setStatus, State.setFlight]
  have es' : ∀ c', c' ≠ c → ((s.setStatus c (s.status c ^^^ flagWritebackClean)).setFlight c .none).status c' =
      s.status c' := fun c' hc => by simp [State.setStatus, State.setFlight, Function.update_of_ne hc]
  have ef : ((s.setStatus c (s.status c ^^^ flagWritebackClean)).setFlight c .none).flight c = .none := by
    simp [State.setFlight]
  have ef' : ∀ c', c' ≠ c → ((s.setStatus c (s.status c ^^^ flagWritebackClean)).setFlight c .none).flight c' =
      s.flight c' := fun c' hc => by simp [State.setStatus, State.setFlight, Function.update_of_ne hc]
  have eu : ∀ c', unm (((s.setStatus c (s.status c ^^^ flagWritebackClean)).setFlight c .none).status c') =
      unm (s.status c') := by
    intro c'
    by_cases hc : c' = c
    · subst hc; rw [es]; simp only [unm, bit_xor, b3, Bool.xor_false]
    · rw [es' c' hc]
  have eh : ∀ c', home ((s.setStatus c (s.status c ^^^ flagWritebackClean)).setFlight c .none) o c' = home s o c' := by
    intro c'; unfold home; rw [eu]; rfl
  refine ⟨o, q, ?_, h.counts, ?_, h.miss, ?_, h.pcs⟩
  · intro c'
    by_cases hc : c' = c
    · subst hc
      rw [es, ef]
      have := (h.slots c').released (by rw [hf]; rfl)
      have e4 : (bit (s.status c') 0 ^^ true) = false := by rw [show bit (s.status c') 0 = true from h4]; rfl
      have e5 : (bit (s.status c') 5 ^^ true) = true := by rw [show bit (s.status c') 5 = false from h5]; rfl
      simp only [wb, Scache.exc, unm, rdg, cln, bit_xor, b0, b1, b3, b4, b5, Bool.xor_false, e4, e5]
      exact this
    · rw [es' c' hc, ef' c' hc]; exact h.slots c'
  · intro c' p; rw [eh]; exact h.maps c' p
  · intro c'
    have hd := h.datas c'
    rw [eh]
    by_cases hc : c' = c
    · subst hc
      rw [ef]
      refine ⟨hd.hit, ?_, fun _ e => (nomatch e), fun e => (nomatch e)⟩
      intro p e _ _ _
      rw [h1] at e; cases e; exact hd.done hf
    · rw [es' c' hc, ef' c' hc]; exact hd

/-! ### Data and index -/

/-- The owner of `c` changes the data of the slot. -/
theorem InvG.dataStep (h : InvG s v o q) {p p' : Pc} (x : Data) (v' : Page → Data) (hp : s.pc i = p)
    (hpp : (∃ d, p = .load d c ∧ v' = v ∧ (p' = p ∨ (p' = .setIdx d c ∧ x = s.disk d))) ∨
      (∃ d, p = .write d c ∧ p' = p ∧ v' = Function.update v d x)) :
    Inv ((s.setData c x).go i p') v' := by
  have ha : p.slot = some c := by rcases hpp with ⟨d, rfl, -⟩ | ⟨d, rfl, -⟩ <;> rfl
  have hb : p'.slot = some c := by
    rcases hpp with ⟨d, rfl, -, rfl | ⟨rfl, -⟩⟩ | ⟨d, rfl, rfl, -⟩ <;> rfl
  have hro : p'.role = p.role := by
    rcases hpp with ⟨d, rfl, -, rfl | ⟨rfl, -⟩⟩ | ⟨d, rfl, rfl, -⟩ <;> rfl
  have hown : p.role.owns = true := by rcases hpp with ⟨d, rfl, -⟩ | ⟨d, rfl, -⟩ <;> rfl
  have hoc := h.owner hp ha hown
  have hop := h.ownerPc_eq hp ha hown
  have eroles : ∀ c', roles ((s.setData c x).go i p') c' = roles s c' := by
    intro c'
    rw [roles_update s _ i p' rfl]
    have : roleAt c' p' = roles s c' i := by unfold roles roleAt; rw [hp, ha, hb, hro]
    rw [this, Function.update_eq_self]
  have eown : ∀ c', c' ≠ c → ownerPc ((s.setData c x).go i p') o c' = ownerPc s o c' := by
    intro c' hc
    unfold ownerPc
    cases ho : o c' with
    | none => rfl
    | some j =>
      have hj : j ≠ i := by
        rintro rfl
        have := ((h.slots c').own j).2 ho
        unfold roles roleAt at this
        rw [hp, ha, if_neg (by simpa using Ne.symm hc)] at this; cases this
      simp [State.go, State.setData, Function.update_of_ne hj]
  have eown' : ownerPc ((s.setData c x).go i p') o c = some p' := by simp [ownerPc, hoc, State.go]
  have eh : ∀ c', home ((s.setData c x).go i p') o c' = home s o c' := by
    intro c'
    by_cases hc : c' = c
    · subst hc
      unfold home; rw [eown', hop]
      rcases hpp with ⟨d, rfl, -, rfl | ⟨rfl, -⟩⟩ | ⟨d, rfl, rfl, -⟩ <;> rfl
    · unfold home; rw [eown c' hc]; rfl
  have hpd := h.pcs i
  have hd := h.datas c
  have hother : ∀ j, j ≠ i → ∀ {pc : Pc}, s.pc j = pc → pc.slot = some c → pc.role.owns = false := by
    intro j hj pc e1 e2
    cases e : pc.role.owns with
    | false => rfl
    | true => have := h.owner e1 e2 e; rw [hoc] at this; cases this; exact absurd rfl hj
  -- the page of the slot
  obtain ⟨d, hhome, hvd⟩ : ∃ d, home s o c = some d ∧ ∀ p', p' ≠ d → v' p' = v p' := by
    rcases hpp with ⟨d, rfl, rfl, -⟩ | ⟨d, rfl, -, rfl⟩
    · exact ⟨d, by unfold home; rw [hop]; rfl, fun _ _ => rfl⟩
    · refine ⟨d, ?_, fun p' e => Function.update_of_ne e _ _⟩
      rw [hp] at hpd
      unfold home; rw [hop, show s.idx c = d from hpd]; rfl
  have hl : s.lookup d = some c := (h.maps c d).2 hhome
  have hne : ∀ c', c' ≠ c → ∀ p', home s o c' = some p' → p' ≠ d := by
    rintro c' hc p' e rfl
    have := (h.maps c' p').2 e
    rw [hl] at this; cases this; exact hc rfl
  refine ⟨o, q, ?_, ?_, ?_, ?_, ?_, ?_⟩
  · intro c'; rw [eroles]; exact h.slots c'
  · intro c'; rw [eroles]; exact h.counts c'
  · intro c' p; rw [eh]; exact h.maps c' p
  · intro p'' e
    have : p'' ≠ d := by rintro rfl; rw [show s.lookup p'' = none from e] at hl; cases hl
    rw [hvd p'' this]; exact h.miss p'' e
  · intro c'
    by_cases hc : c' = c
    · subst hc
      have ed : ((s.setData c' x).go i p').data c' = x := by simp [State.go, State.setData]
      have hfl : s.flight c' = .none := by
        by_cases hf : s.flight c' = .none
        · exact hf
        · obtain ⟨-, h2, h3, -⟩ := h.home_wb hf
          rw [hop] at h2 h3
          rcases hpp with ⟨d, rfl, -⟩ | ⟨d, rfl, -⟩
          · cases h2
          · cases h3
      rw [eh, eown', ed]
      refine ⟨?_, ?_, hd.issued, ?_⟩
      · intro p'' e hlo
        rw [hhome] at e; cases e
        rcases hpp with ⟨d', rfl, rfl, rfl | ⟨rfl, -⟩⟩ | ⟨d', rfl, rfl, rfl⟩
        · cases hlo
        · cases hlo
        · rw [hp] at hpd
          have : home s o c' = some d' := by unfold home; rw [hop, show s.idx c' = d' from hpd]; rfl
          rw [hhome] at this; cases this; simp
      · intro p'' e hlo hw _
        rcases hpp with ⟨d', rfl, rfl, rfl | ⟨rfl, -⟩⟩ | ⟨d', rfl, rfl, rfl⟩
        · cases hlo
        · cases hlo
        · cases hw
      · intro e
        rw [show ((s.setData c' x).go i p').flight c' = s.flight c' from rfl, hfl] at e; cases e
    · have hd := h.datas c'
      have ed : ((s.setData c x).go i p').data c' = s.data c' := by
        simp [State.go, State.setData, Function.update_of_ne hc]
      rw [eh, eown c' hc, ed]
      exact ⟨fun p'' e a => by rw [hvd p'' (hne c' hc p'' e)]; exact hd.hit p'' e a, hd.clean, hd.issued, hd.done⟩
  · intro j
    by_cases hj : j = i
    · subst hj
      have : ((s.setData c x).go j p').pc j = p' := by simp [State.go]
      rw [this]
      rw [hp] at hpd
      rcases hpp with ⟨d', rfl, rfl, rfl | ⟨rfl, rfl⟩⟩ | ⟨d', rfl, rfl, rfl⟩
      · exact hpd
      · exact ⟨hpd, by simp [State.go, State.setData]⟩
      · exact hpd
    · have : ((s.setData c x).go i p').pc j = s.pc j := by simp [State.go, State.setData, Function.update_of_ne hj]
      rw [this]
      have hq := h.pcs j
      have key : ∀ {pc : Pc} {c' d'}, s.pc j = pc → pc.slot = some c' → pc.role.owns = true →
          homeOf (some pc) (unm (s.status c')) (s.idx c') = some d' → c' ≠ c ∧ d' ≠ d := by
        intro pc c' d' e1 e2 e3 e4
        have hc : c' ≠ c := by rintro rfl; have := hother j hj e1 e2; rw [e3] at this; cases this
        exact ⟨hc, hne c' hc d' (by unfold home; rw [h.ownerPc_eq e1 e2 e3]; exact e4)⟩
      change PcData v' s.disk s.idx (Function.update s.data c x) (s.pc j)
      cases e : s.pc j <;> rw [e] at hq <;> try exact hq
      all_goals
        obtain ⟨k1, k2⟩ := key e rfl rfl rfl
        simp only [PcData, Function.update_of_ne k1, hvd _ k2]; exact hq

theorem InvG.setIdx (h : InvG s v o q) (hp : s.pc i = .setIdx d c) : Inv ((s.setIdx c d).go i (.fin d c)) v := by
  have hoc := h.owner hp rfl rfl
  have hop := h.ownerPc_eq hp rfl rfl
  have hpd := h.pcs i
  rw [hp] at hpd
  have eroles : ∀ c', roles ((s.setIdx c d).go i (.fin d c)) c' = roles s c' := by
    intro c'
    rw [roles_update s _ i (.fin d c) rfl]
    have : roleAt c' (.fin d c) = roles s c' i := by unfold roles; rw [hp]; rfl
    rw [this, Function.update_eq_self]
  have eown : ∀ c', c' ≠ c → ownerPc ((s.setIdx c d).go i (.fin d c)) o c' = ownerPc s o c' := by
    intro c' hc
    unfold ownerPc
    cases ho : o c' with
    | none => rfl
    | some j =>
      have hj : j ≠ i := by
        rintro rfl
        have := ((h.slots c').own j).2 ho
        unfold roles roleAt at this
        rw [hp, if_neg (by simpa [Pc.slot] using Ne.symm hc)] at this; cases this
      simp [State.go, State.setIdx, Function.update_of_ne hj]
  have eown' : ownerPc ((s.setIdx c d).go i (.fin d c)) o c = some (.fin d c) := by simp [ownerPc, hoc, State.go]
  have ei : ∀ c', c' ≠ c → ((s.setIdx c d).go i (.fin d c)).idx c' = s.idx c' := fun c' hc => by
    simp [State.go, State.setIdx, Function.update_of_ne hc]
  have eh : ∀ c', home ((s.setIdx c d).go i (.fin d c)) o c' = home s o c' := by
    intro c'
    by_cases hc : c' = c
    · subst hc
      unfold home; rw [eown', hop]; rfl
    · unfold home; rw [eown c' hc, ei c' hc]; rfl
  refine ⟨o, q, ?_, ?_, ?_, h.miss, ?_, ?_⟩
  · intro c'; rw [eroles]; exact h.slots c'
  · intro c'; rw [eroles]; exact h.counts c'
  · intro c' p; rw [eh]; exact h.maps c' p
  · intro c'
    have hd := h.datas c'
    rw [eh]
    by_cases hc : c' = c
    · subst hc
      have hfl : s.flight c' = .none := by
        by_cases hf : s.flight c' = .none
        · exact hf
        · obtain ⟨-, h2, -⟩ := h.home_wb hf
          rw [hop] at h2; cases h2
      rw [eown', show ((s.setIdx c' d).go i (.fin d c')).flight c' = s.flight c' from rfl, hfl]
      exact ⟨fun _ _ e => (nomatch e), fun _ _ e => (nomatch e), fun _ e => (nomatch e), fun e => (nomatch e)⟩
    · rw [eown c' hc, ei c' hc]; exact hd
  · intro j
    by_cases hj : j = i
    · subst hj
      have : ((s.setIdx c d).go j (.fin d c)).pc j = .fin d c := by simp [State.go]
      rw [this]
      exact ⟨by simp [State.go, State.setIdx], hpd.1, hpd.2⟩
    · have : ((s.setIdx c d).go i (.fin d c)).pc j = s.pc j := by simp [State.go, State.setIdx, Function.update_of_ne hj]
      rw [this]
      have hq := h.pcs j
      have key : ∀ {pc : Pc} {c'}, s.pc j = pc → pc.slot = some c' → (pc.role.owns = true ∨ pc.role = .shared) →
          c' ≠ c := by
        rintro pc c' e1 e2 (e3 | e3) rfl
        · have := h.owner e1 e2 e3; rw [hoc] at this; cases this; exact hj rfl
        · have h1 := h.held e1 e2 e3
          have h2 := (h.slots c').reading i hoc
          rw [role_eq hp rfl, h1] at h2; cases h2
      change PcData v s.disk (Function.update s.idx c d) s.data (s.pc j)
      cases e : s.pc j <;> rw [e] at hq <;> try exact hq
      all_goals
        have k1 := key e rfl (by first | exact Or.inl rfl | exact Or.inr rfl)
        simp only [PcData, Function.update_of_ne k1]; exact hq

/-! ### The lookup table -/

/-- The owner of `c` changes the page it is mapped for from `hm` to `hm'`, one of them none. -/
theorem InvG.lookupStep (h : InvG s v o q) {p p' : Pc} {lv : Option Slot} (hp : s.pc i = p)
    (hpp : (p = .map d c ∧ p' = .incReading d c ∧ s.lookup d = none ∧ lv = some c) ∨
      (∃ d', p = .unmap d' c d ∧ p' = .free d' c ∧ lv = none)) :
    Inv ((s.setLookup d lv).go i p') v := by
  have ha : p.slot = some c := by rcases hpp with ⟨rfl, -⟩ | ⟨d, rfl, -⟩ <;> rfl
  have hb : p'.slot = some c := by rcases hpp with ⟨-, rfl, -⟩ | ⟨d, -, rfl, -⟩ <;> rfl
  have hro : p'.role = p.role := by rcases hpp with ⟨rfl, rfl, -⟩ | ⟨d, rfl, rfl, -⟩ <;> rfl
  have hown : p.role.owns = true := by rcases hpp with ⟨rfl, -⟩ | ⟨d, rfl, -⟩ <;> rfl
  have hoc := h.owner hp ha hown
  have hop := h.ownerPc_eq hp ha hown
  have hpd := h.pcs i
  rw [hp] at hpd
  have eroles : ∀ c', roles ((s.setLookup d lv).go i p') c' = roles s c' := by
    intro c'
    rw [roles_update s _ i p' rfl]
    have : roleAt c' p' = roles s c' i := by unfold roles roleAt; rw [hp, ha, hb, hro]
    rw [this, Function.update_eq_self]
  have eown : ∀ c', c' ≠ c → ownerPc ((s.setLookup d lv).go i p') o c' = ownerPc s o c' := by
    intro c' hc
    unfold ownerPc
    cases ho : o c' with
    | none => rfl
    | some j =>
      have hj : j ≠ i := by
        rintro rfl
        have := ((h.slots c').own j).2 ho
        unfold roles roleAt at this
        rw [hp, ha, if_neg (by simpa using Ne.symm hc)] at this; cases this
      simp [State.go, State.setLookup, Function.update_of_ne hj]
  have eown' : ownerPc ((s.setLookup d lv).go i p') o c = some p' := by simp [ownerPc, hoc, State.go]
  have eh : ∀ c', c' ≠ c → home ((s.setLookup d lv).go i p') o c' = home s o c' := by
    intro c' hc; unfold home; rw [eown c' hc]; rfl
  have el : ((s.setLookup d lv).go i p').lookup d = lv := by simp [State.go, State.setLookup]
  have el' : ∀ d', d' ≠ d → ((s.setLookup d lv).go i p').lookup d' = s.lookup d' := fun d' hd => by
    simp [State.go, State.setLookup, Function.update_of_ne hd]
  refine ⟨o, q, ?_, ?_, ?_, ?_, ?_, ?_⟩
  · intro c'; rw [eroles]; exact h.slots c'
  · intro c'; rw [eroles]; exact h.counts c'
  · intro c' p''
    rcases hpp with ⟨rfl, rfl, hnone, rfl⟩ | ⟨d', rfl, rfl, rfl⟩
    · have hh0 : home s o c = none := by unfold home; rw [hop]; rfl
      by_cases hc : c' = c
      · subst hc
        have hh : home ((s.setLookup d (some c')).go i (.incReading d c')) o c' = some d := by unfold home; rw [eown']; rfl
        rw [hh]
        by_cases hd : p'' = d
        · subst hd; rw [el]; simp
        · rw [el' p'' hd, h.maps c' p'', hh0]; simp [Ne.symm hd]
      · rw [eh c' hc]
        by_cases hd : p'' = d
        · subst hd
          rw [el, ← h.maps c' p'', hnone]; simp [Ne.symm hc]
        · rw [el' p'' hd]; exact h.maps c' p''
    · have hh0 : home s o c = some d := by unfold home; rw [hop, show s.idx c = d from hpd]; rfl
      have hl : s.lookup d = some c := (h.maps c d).2 hh0
      by_cases hc : c' = c
      · subst hc
        have hh : home ((s.setLookup d none).go i (.free d' c')) o c' = none := by unfold home; rw [eown']; rfl
        rw [hh]
        by_cases hd : p'' = d
        · subst hd; rw [el]; simp
        · rw [el' p'' hd, h.maps c' p'', hh0]; simp [Ne.symm hd]
      · rw [eh c' hc]
        by_cases hd : p'' = d
        · subst hd
          rw [el, ← h.maps c' p'', hl]; simp [Ne.symm hc]
        · rw [el' p'' hd]; exact h.maps c' p''
  · intro p'' e
    by_cases hd : p'' = d
    · subst hd
      rcases hpp with ⟨rfl, rfl, hnone, rfl⟩ | ⟨d', rfl, rfl, rfl⟩
      · exact h.miss p'' hnone
      · have hh0 : home s o c = some p'' := by unfold home; rw [hop, show s.idx c = p'' from hpd]; rfl
        have hcl := (h.slots c).clean i (by rw [role_eq hp rfl]; rfl)
        have hdd := h.datas c
        rw [hop] at hdd
        rw [hdd.hit p'' hh0 rfl]
        exact (hdd.clean p'' hh0 rfl rfl hcl).symm
    · rw [el' p'' hd] at e; exact h.miss p'' e
  · intro c'
    have hd := h.datas c'
    by_cases hc : c' = c
    · subst hc
      rw [eown']
      refine ⟨?_, ?_, hd.issued, hd.done⟩
      · intro p'' e hlo
        rcases hpp with ⟨rfl, rfl, hnone, rfl⟩ | ⟨d', rfl, rfl, rfl⟩
        · cases hlo
        · unfold home at e; rw [eown'] at e; cases e
      · intro p'' e hlo
        rcases hpp with ⟨rfl, rfl, hnone, rfl⟩ | ⟨d', rfl, rfl, rfl⟩
        · cases hlo
        · unfold home at e; rw [eown'] at e; cases e
    · rw [eown c' hc, eh c' hc]; exact hd
  · intro j
    by_cases hj : j = i
    · subst hj
      have : ((s.setLookup d lv).go j p').pc j = p' := by simp [State.go]
      rw [this]
      rcases hpp with ⟨rfl, rfl, hnone, rfl⟩ | ⟨d', rfl, rfl, rfl⟩
      · exact h.miss d hnone
      · trivial
    · have : ((s.setLookup d lv).go i p').pc j = s.pc j := by simp [State.go, State.setLookup, Function.update_of_ne hj]
      rw [this]; exact h.pcs j

end Verif.Scache
