import Verif.Scache.Slot
/-
The invariant of the cache: that of every slot, the lookup table agrees with the slots, and the contents of
slots and disk agree with the contents of the pages `v`.
-/
namespace Verif.Scache
variable {Data : Type}

/-- The slot a client has a role in. -/
def Pc.slot : Pc → Option Slot
  | .check _ c | .decPending c | .mark _ c | .wait _ c | .verify _ c | .hold _ c | .decObtained c | .map _ c
  | .unalloc c | .incReading _ c | .clearExc _ c | .load _ c | .setIdx _ c | .fin _ c | .visit _ c _ | .abandon _ c
  | .readIdx _ c | .unmap _ c _ | .free _ c | .issue _ c | .await _ c | .visitExc _ c _ | .write _ c => some c
  | _ => none

/-- The role it has there. -/
def Pc.role : Pc → Role
  | .check _ _ | .decPending _ => .pend
  | .mark _ _ | .wait _ _ => .wait
  | .verify _ _ | .hold _ _ | .decObtained _ => .shared
  | .map _ _ | .unalloc _ | .incReading _ _ => .fresh
  | .clearExc _ _ => .freshCounted
  | .load _ _ | .setIdx _ _ | .fin _ _ => .loading
  | .visit _ _ n => .evict n
  | .abandon _ _ => .evictStop
  | .readIdx _ _ | .unmap _ _ _ | .free _ _ => .evicted
  | .issue _ _ => .issue
  | .await _ _ => .await
  | .visitExc _ _ n => .visit n
  | .write _ _ => .write
  | _ => .out

/-- The role of a client for slot `c`. -/
def roleAt (c : Slot) (p : Pc) : Role := if p.slot = some c then p.role else .out

/-- The roles of all clients for slot `c`. -/
def roles (s : State Data) (c : Slot) : Client → Role := fun j => roleAt c (s.pc j)

/-- The thread of a client. -/
abbrev thr (i : Client) : Nat := i.1.val

/-- The page that slot `c` is mapped for, if its owner is at `p`, its status has bit `unmapped` or not and its
field `disk_idx` is `x`. -/
def homeOf (p : Option Pc) (u : Bool) (x : Page) : Option Page :=
  match p with
  | none => if u then none else some x
  | some (.map _ _) | some (.unalloc _) | some (.free _ _) => none
  | some (.incReading d _) | some (.clearExc d _) | some (.load d _) | some (.setIdx d _) | some (.fin d _) => some d
  | some _ => some x

/-- The owner is loading the page. -/
def loadsOf : Option Pc → Bool
  | some (.incReading _ _) | some (.clearExc _ _) | some (.load _ _) | some (.setIdx _ _) | some (.fin _ _) => true
  | _ => false

/-- The owner may write. -/
def writesOf : Option Pc → Bool
  | some (.write _ _) => true
  | _ => false

/-- The contents of one slot: pages are `v`. -/
structure SlotData (v disk : Page → Data) (idx : Page) (data : Data) (fl : Flight) (home : Option Page)
    (loads writes cl : Bool) : Prop where
  hit : ∀ p, home = some p → loads = false → v p = data
  clean : ∀ p, home = some p → loads = false → writes = false → cl = true → disk p = data
  issued : ∀ p, fl = .issued p → idx = p
  done : fl = .done → disk idx = data

/-- What a client knows. -/
def PcData (v disk : Page → Data) (idx : Slot → Page) (data : Slot → Data) : Pc → Prop
  | .hold d c | .await d c | .visitExc d c _ | .write d c => idx c = d
  | .unmap _ c p => idx c = p
  | .incReading d _ | .clearExc d _ | .load d _ => v d = disk d
  | .setIdx d c => v d = disk d ∧ data c = disk d
  | .fin d c => idx c = d ∧ v d = disk d ∧ data c = disk d
  | _ => True

/-- The owner's place in the code. -/
def ownerPc (s : State Data) (o : Slot → Option Client) (c : Slot) : Option Pc := (o c).map s.pc

/-- The page slot `c` is mapped for. -/
def home (s : State Data) (o : Slot → Option Client) (c : Slot) : Option Page :=
  homeOf (ownerPc s o c) (unm (s.status c)) (s.idx c)

/-- The invariant, with `o` the owners, `q` those that start a write back, and `v` the contents of the pages. -/
structure InvG (s : State Data) (v : Page → Data) (o q : Slot → Option Client) : Prop where
  slots : ∀ c, SlotInv thr (wb (s.status c)) (exc (s.status c)) (unm (s.status c)) (rdg (s.status c))
    (cln (s.status c)) (decide (s.flight c ≠ .none)) (roles s c) (o c) (q c)
  counts : ∀ c, CountOk (fun t => s.rc t c) (roles s c)
  maps : ∀ c p, s.lookup p = some c ↔ home s o c = some p
  miss : ∀ p, s.lookup p = none → v p = s.disk p
  datas : ∀ c, SlotData v s.disk (s.idx c) (s.data c) (s.flight c) (home s o c) (loadsOf (ownerPc s o c))
    (writesOf (ownerPc s o c)) (cln (s.status c))
  pcs : ∀ i, PcData v s.disk s.idx s.data (s.pc i)

/-- The invariant. -/
def Inv (s : State Data) (v : Page → Data) : Prop := ∃ o q, InvG s v o q

theorem roles_update (s s' : State Data) (i : Client) (p' : Pc) (h : s'.pc = Function.update s.pc i p') (c : Slot) :
    roles s' c = Function.update (roles s c) i (roleAt c p') := by
  funext j
  rw [roles, h]
  by_cases hj : j = i
  · subst hj; simp
  · simp [Function.update_of_ne hj, roles]

/-- A step of client `i` that changes only its place and, of slot `c0`, the status, the counts and the write
back. -/
theorem InvG.loc {s s' : State Data} {v : Page → Data} {o q : Slot → Option Client} (h : InvG s v o q) (i : Client)
    (c0 : Slot) (p' : Pc) (o0 q0 : Option Client)
    (hpc : s'.pc = Function.update s.pc i p')
    (hs : ∀ c, c ≠ c0 → s'.status c = s.status c) (hr : ∀ t c, c ≠ c0 → s'.rc t c = s.rc t c)
    (hf : ∀ c, c ≠ c0 → s'.flight c = s.flight c)
    (hl : s'.lookup = s.lookup) (hi : s'.idx = s.idx) (hd : s'.data = s.data) (hk : s'.disk = s.disk)
    (ha : (s.pc i).slot = none ∨ (s.pc i).slot = some c0) (hb : p'.slot = none ∨ p'.slot = some c0)
    (hslot : SlotInv thr (wb (s'.status c0)) (exc (s'.status c0)) (unm (s'.status c0)) (rdg (s'.status c0))
      (cln (s'.status c0)) (decide (s'.flight c0 ≠ .none)) (Function.update (roles s c0) i (roleAt c0 p')) o0 q0)
    (hcount : CountOk (fun t => s'.rc t c0) (Function.update (roles s c0) i (roleAt c0 p')))
    (hhome : homeOf (o0.map s'.pc) (unm (s'.status c0)) (s.idx c0) = home s o c0)
    (hdata : SlotData v s.disk (s.idx c0) (s.data c0) (s'.flight c0) (home s o c0) (loadsOf (o0.map s'.pc))
      (writesOf (o0.map s'.pc)) (cln (s'.status c0)))
    (hpd : PcData v s.disk s.idx s.data p') : Inv s' v := by
  have hrole : ∀ c, c ≠ c0 → roles s' c = roles s c := by
    intro c hc
    rw [roles_update s s' i p' hpc]
    have e1 : roleAt c p' = .out := by
      unfold roleAt; rw [if_neg]; rcases hb with e | e <;> rw [e] <;> simp [Ne.symm hc]
    have e2 : roles s c i = .out := by
      unfold roles roleAt; rw [if_neg]; rcases ha with e | e <;> rw [e] <;> simp [Ne.symm hc]
    rw [e1, ← e2, Function.update_eq_self]
  have hown : ∀ c, c ≠ c0 → ownerPc s' (Function.update o c0 o0) c = ownerPc s o c := by
    intro c hc
    unfold ownerPc
    rw [Function.update_of_ne hc]
    cases ho : o c with
    | none => rfl
    | some j =>
      have hj : j ≠ i := by
        rintro rfl
        have := ((h.slots c).own j).2 ho
        have e2 : roles s c j = .out := by
          unfold roles roleAt; rw [if_neg]; rcases ha with e | e <;> rw [e] <;> simp [Ne.symm hc]
        rw [e2] at this; cases this
      simp [hpc, Function.update_of_ne hj]
  have hhomes : ∀ c, home s' (Function.update o c0 o0) c = home s o c := by
    intro c
    by_cases hc : c = c0
    · subst hc
      rw [← hhome]; simp [home, ownerPc, hi]
    · simp [home, hown c hc, hs c hc, hi]
  refine ⟨Function.update o c0 o0, Function.update q c0 q0, ?_, ?_, ?_, ?_, ?_, ?_⟩
  · intro c
    by_cases hc : c = c0
    · subst hc
      simp only [Function.update_self, roles_update s s' i p' hpc]; exact hslot
    · rw [Function.update_of_ne hc, Function.update_of_ne hc, hs c hc, hf c hc, hrole c hc]; exact h.slots c
  · intro c
    by_cases hc : c = c0
    · subst hc
      rw [roles_update s s' i p' hpc]; exact hcount
    · rw [hrole c hc]
      have : (fun t => s'.rc t c) = fun t => s.rc t c := funext fun t => hr t c hc
      rw [this]; exact h.counts c
  · intro c p; rw [hl, hhomes]; exact h.maps c p
  · intro p; rw [hl, hk]; exact h.miss p
  · intro c
    rw [hhomes, hk, hi, hd]
    by_cases hc : c = c0
    · subst hc
      simpa [ownerPc] using hdata
    · rw [hown c hc, hs c hc, hf c hc]; exact h.datas c
  · intro j
    rw [hk, hi, hd, hpc]
    by_cases hj : j = i
    · subst hj; simpa using hpd
    · rw [Function.update_of_ne hj]; exact h.pcs j

/-- The place of client `i` changes and it has no role before and after. -/
theorem InvG.skip {s : State Data} {v : Page → Data} {o q : Slot → Option Client} (h : InvG s v o q) (i : Client)
    (p' : Pc) (ha : (s.pc i).slot = none) (hb : p'.slot = none) : Inv (s.go i p') v := by
  have e1 : ∀ c, roles (s.go i p') c = roles s c := by
    intro c
    rw [roles_update s (s.go i p') i p' rfl]
    have e1 : roleAt c p' = .out := by unfold roleAt; rw [if_neg]; rw [hb]; simp
    have e2 : roles s c i = .out := by unfold roles roleAt; rw [if_neg]; rw [ha]; simp
    rw [e1, ← e2, Function.update_eq_self]
  have e2 : ∀ c, ownerPc (s.go i p') o c = ownerPc s o c := by
    intro c
    unfold ownerPc
    cases ho : o c with
    | none => rfl
    | some j =>
      have hj : j ≠ i := by
        rintro rfl
        have := ((h.slots c).own j).2 ho
        have e2 : roles s c j = .out := by unfold roles roleAt; rw [if_neg]; rw [ha]; simp
        rw [e2] at this; cases this
      simp [State.go, Function.update_of_ne hj]
  refine ⟨o, q, ?_, ?_, ?_, ?_, ?_, ?_⟩
  · intro c; rw [e1]; exact h.slots c
  · intro c; rw [e1]; exact h.counts c
  · intro c p; unfold home; rw [e2]; exact h.maps c p
  · exact h.miss
  · intro c; unfold home; rw [e2]; exact h.datas c
  · intro j
    by_cases hj : j = i
    · subst hj
      have : (s.go j p').pc j = p' := by simp [State.go]
      rw [this]; cases p' <;> trivial
    · have : (s.go i p').pc j = s.pc j := by simp [State.go, Function.update_of_ne hj]
      rw [this]; exact h.pcs j

end Verif.Scache
