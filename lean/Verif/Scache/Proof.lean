import Verif.Scache.Steps
/-
The cache acts as one register per page.
-/
namespace Verif.Scache
variable {Data : Type} {s s' : State Data} {v : Page → Data}

theorem Inv.init (h : Init s) : Inv s s.disk := by
  have hr : ∀ c, roles s c = fun _ => .out := by
    intro c; funext j; unfold roles; rw [h.pc j]; rfl
  have h0 : wb flagUnmapped = false := by decide
  have h1 : exc flagUnmapped = false := by decide
  have h3 : unm flagUnmapped = true := by decide
  have h4 : rdg flagUnmapped = false := by decide
  have h5 : cln flagUnmapped = false := by decide
  have hh : ∀ c, home s (fun _ => none) c = none := by
    intro c; unfold home; rw [h.status, h3]; rfl
  refine ⟨fun _ => none, fun _ => none, ?_, ?_, ?_, fun _ _ => rfl, ?_, ?_⟩
  · intro c
    rw [h.status, h.flight, hr, h0, h1, h3, h4, h5]
    constructor <;> simp [Role.owns, Role.uses, Role.evicts]
  · intro c t
    rw [hr]; simp [h.rc, cnt, Role.counted]
  · intro c p; rw [hh, h.lookup]; simp
  · intro c
    rw [hh, h.flight]
    exact ⟨fun _ e => (nomatch e), fun _ e => (nomatch e), fun _ e => (nomatch e), fun e => (nomatch e)⟩
  · intro i; rw [h.pc]; trivial

/-- What a step may do to the pages and what it must give. -/
inductive Effect (v : Page → Data) : Label Data → (Page → Data) → Prop
  | tau : Effect v .tau v
  | read {i d x} : v d = x → Effect v (.read i d x) v
  | write {i d x} : Effect v (.write i d x) (Function.update v d x)

/-- A page that is held or written is the one that the slot has, and the slot has its contents. -/
theorem InvG.sees {o q : Slot → Option Client} (h : InvG s v o q) {i : Client} {d : Page} {c : Slot}
    (hp : s.pc i = .hold d c ∨ s.pc i = .write d c) : home s o c = some d ∧ v d = s.data c := by
  have hi : s.idx c = d := by
    have := h.pcs i
    rcases hp with e | e <;> rw [e] at this <;> exact this
  have key : home s o c = some (s.idx c) ∧ loadsOf (ownerPc s o c) = false := by
    rcases hp with e | e
    · have hu := h.used e rfl rfl
      have hg := h.held e rfl rfl
      have hri : roles s c i = .shared := role_eq e rfl
      cases ho : o c with
      | none => simp [home, ownerPc, ho, homeOf, loadsOf, hu]
      | some j =>
        have h4 := (h.slots c).beside j i ho (by rw [hri]; rfl)
        have h3 := (h.slots c).reading j ho
        have hj := ((h.slots c).own j).2 ho
        rw [hri] at h4
        rw [show rdg (s.status c) = false from hg] at h3
        unfold roles roleAt at h3 h4 hj
        simp only [home, ownerPc, ho, Option.map_some]
        split at hj
        · rename_i hsl
          rw [if_pos hsl] at h3 h4
          cases hpj : s.pc j <;> rw [hpj] at h3 h4 hj <;>
            first
              | exact ⟨rfl, rfl⟩
              | (simp [Pc.role, Role.hasReading] at h3; done)
              | (simp [Pc.role, Beside] at h4)
        · cases hj
    · have hop := h.ownerPc_eq e rfl rfl
      unfold home
      rw [hop]; exact ⟨rfl, rfl⟩
  obtain ⟨k1, k2⟩ := key
  rw [hi] at k1
  exact ⟨k1, (h.datas c).hit d k1 k2⟩

theorem go_self (s : State Data) (i : Client) : s.go i (s.pc i) = s := by
  simp [State.go]

theorem Inv.step {l : Label Data} (h : Inv s v) (hs : Step s l s') : ∃ v', Effect v l v' ∧ Inv s' v' := by
  obtain ⟨o, q, h⟩ := h
  cases hs with
  | call d hp => exact ⟨v, .tau, h.skip _ _ (by rw [hp]; rfl) rfl⟩
  | lookMiss hp _ => exact ⟨v, .tau, h.skip _ _ (by rw [hp]; rfl) rfl⟩
  | lookHit hp _ => exact ⟨v, .tau, h.skip _ _ (by rw [hp]; rfl) rfl⟩
  | quickFail hp _ => exact ⟨v, .tau, h.skip _ _ (by rw [hp]; rfl) rfl⟩
  | quick hp _ => exact ⟨v, .tau, h.skip _ _ (by rw [hp]; rfl) rfl⟩
  | inc hp => exact ⟨v, .tau, h.inc hp⟩
  | checkFail hp _ => exact ⟨v, .tau, h.same hp rfl rfl rfl rfl trivial⟩
  | check hp e =>
    refine ⟨v, .tau, h.check hp e ?_⟩
    split
    · exact Or.inl rfl
    · exact Or.inr rfl
  | decPending hp => exact ⟨v, .tau, h.dec hp rfl (Or.inl rfl)⟩
  | mark hp => exact ⟨v, .tau, h.acc hp (Or.inl rfl) (Or.inl ⟨rfl, rfl, rfl⟩) rfl trivial⟩
  | waited hp e => exact ⟨v, .tau, h.waited hp e⟩
  | verifyFail hp _ => exact ⟨v, .tau, h.same hp rfl rfl rfl rfl trivial⟩
  | verify hp e => exact ⟨v, .tau, h.same hp rfl rfl rfl rfl e⟩
  | read hp => exact ⟨v, .read (h.sees (Or.inl hp)).2, o, q, h⟩
  | release hp => exact ⟨v, .tau, h.same hp rfl rfl rfl rfl trivial⟩
  | decObtained hp => exact ⟨v, .tau, h.dec hp rfl (Or.inr rfl)⟩
  | alloc c hp e => exact ⟨v, .tau, h.alloc hp e⟩
  | map hp e => exact ⟨v, .tau, h.lookupStep hp (Or.inl ⟨rfl, rfl, e, rfl⟩)⟩
  | mapFail hp _ => exact ⟨v, .tau, h.mapFail hp⟩
  | unalloc hp => exact ⟨v, .tau, h.unalloc hp⟩
  | incReading hp => exact ⟨v, .tau, h.incReading hp⟩
  | clearExc hp => exact ⟨v, .tau, h.clearExc hp⟩
  | @loading i d c x hp =>
    refine ⟨v, .tau, ?_⟩
    have := h.dataStep (p' := .load d c) x v hp (Or.inl ⟨d, rfl, rfl, Or.inl rfl⟩)
    rw [← hp] at this
    exact (go_self (s.setData c x) i) ▸ this
  | load hp => exact ⟨v, .tau, h.dataStep _ v hp (Or.inl ⟨_, rfl, rfl, Or.inr ⟨rfl, rfl⟩⟩)⟩
  | setIdx hp => exact ⟨v, .tau, h.setIdx hp⟩
  | fin hp => exact ⟨v, .tau, h.fin hp⟩
  | evict c hp => exact ⟨v, .tau, h.skip _ _ (by rw [hp]; rfl) rfl⟩
  | @evClear i d c f hp =>
    refine ⟨v, .tau, ?_⟩
    have hb : (if f ≠ flagClean then Pc.alloc d else Pc.evTake d c).slot = none := by split <;> rfl
    split
    · exact h.acc hp (Or.inr rfl) (Or.inr ⟨rfl, hb⟩) rfl (by split <;> trivial)
    · exact h.skip _ _ (by rw [hp]; rfl) hb
  | evTake hp e => exact ⟨v, .tau, h.evTake hp e⟩
  | evTakeFail hp _ => exact ⟨v, .tau, h.skip _ _ (by rw [hp]; rfl) rfl⟩
  | visit hn hp e => exact ⟨v, .tau, h.visit hn hp e⟩
  | visitFail hn hp _ => exact ⟨v, .tau, h.visitFail hp⟩
  | abandon hp => exact ⟨v, .tau, h.abandon hp⟩
  | visited hp => exact ⟨v, .tau, h.visited hp⟩
  | readIdx hp => exact ⟨v, .tau, h.readIdx hp⟩
  | unmap hp => exact ⟨v, .tau, h.lookupStep hp (Or.inr ⟨_, rfl, rfl, rfl⟩)⟩
  | free hp => exact ⟨v, .tau, h.free hp⟩
  | writeback c hp e => exact ⟨v, .tau, h.writeback hp (Or.inl ⟨e, rfl⟩)⟩
  | writebackAccessed c hp e => exact ⟨v, .tau, h.writeback hp (Or.inr ⟨e, rfl⟩)⟩
  | issue hp => exact ⟨v, .tau, h.issue hp⟩
  | @tearing c p x hf =>
    refine ⟨v, .tau, ?_⟩
    have := h.diskStep hf x (.issued p) (Or.inl rfl)
    have e : (s.setDisk p x).setFlight c (.issued p) = s.setDisk p x := by
      simp [State.setDisk, State.setFlight, ← hf]
    rw [e] at this; exact this
  | written hf => exact ⟨v, .tau, h.diskStep hf _ .done (Or.inr ⟨rfl, rfl⟩)⟩
  | released hf => exact ⟨v, .tau, h.released hf⟩
  | upgrade hp e => exact ⟨v, .tau, h.upgrade hp e⟩
  | @upgradeFail i d c hp e =>
    refine ⟨v, .tau, ?_⟩
    have : s.status c ||| flagExc = s.status c := by
      obtain ⟨k, hk, h1, h2⟩ := bit_of_and_ne e
      have : k = 1 := by
        have : ∀ k, k < 8 → bit flagExc k = true → k = 1 := by decide
        exact this k hk h2
      subst this
      refine eq_of_bit fun k hk => ?_
      have : ∀ k, k < 8 → k ≠ 1 → bit flagExc k = false := by decide
      rw [bit_or]
      by_cases hk1 : k = 1
      · subst hk1; rw [h1]; rfl
      · rw [this k hk hk1, Bool.or_false]
    rw [this]
    have e : s.setStatus c (s.status c) = s := by simp [State.setStatus]
    rw [e]; exact ⟨o, q, h⟩
  | await hp e => exact ⟨v, .tau, h.await hp e⟩
  | visitExc hn hp e => exact ⟨v, .tau, h.visitExc hn hp e⟩
  | visitedExc hp => exact ⟨v, .tau, h.visitedExc hp⟩
  | @write i d c x hp =>
    refine ⟨_, .write, ?_⟩
    have := h.dataStep (p' := .write d c) x _ hp (Or.inr ⟨d, rfl, rfl, rfl⟩)
    rw [← hp] at this
    exact (go_self (s.setData c x) i) ▸ this
  | readExc hp => exact ⟨v, .read (h.sees (Or.inr hp)).2, o, q, h⟩
  | downgrade hp => exact ⟨v, .tau, h.downgrade hp⟩

end Verif.Scache
