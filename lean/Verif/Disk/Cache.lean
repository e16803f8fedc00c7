import Verif.Disk.AsyncDisk
/-
The page cache. Models Splinter/src/implementation/Cache_v.rs.

The source writes `map[key]` also where `key` may be missing (an unspecified value). In the guards
below such an index is read as "the key is present and …"; `wf_reachable` shows that in reachable
states the keys concerned are present.
-/
namespace Verif.Cache
open AsyncDisk (ID Req Resp)

/-- Cache_v.rs 17 `Slot = i32`; only compared with the number of slots, so unbounded here -/
abbrev Slot := Int

/-- Cache_v.rs 22-27 -/
inductive Status
  | notFilled | clean | dirty | writeback
  deriving DecidableEq

/-- Cache_v.rs 29-34 -/
inductive Entry
  | empty
  | reserved (a : Address)
  | loading (a : Address)
  | filled (a : Address) (data : RawPage)
  deriving DecidableEq

/-- Cache_v.rs 37-47 `get_addr`; `none` where the source has `arbitrary()` -/
def Entry.addr? : Entry → Option Address
  | .empty => none
  | .reserved a => some a
  | .loading a => some a
  | .filled a _ => some a

/-- Cache_v.rs 51-56 -/
structure State where
  entries : PMap Slot Entry
  status : PMap Slot Status
  lookup : PMap Address Slot
  outstanding : PMap ID Slot

/-- Cache_v.rs 58-63 -/
inductive Label
  | access (reads writes : PMap Address RawPage)
  | evictable (addrs : PSet Address)
  | ops (requests : PMap ID Req) (responses : PMap ID Resp)
  | internal

/-- Cache_v.rs 65-70 -/
def ValidRead (c : State) (a : Address) (d : RawPage) : Prop :=
  ∃ sl b, c.lookup a = some sl ∧ c.entries sl = some (.filled b d)

/-- Cache_v.rs 72-80 -/
def ValidWrite (c : State) (a : Address) : Prop :=
  ∃ sl, c.lookup a = some sl ∧
    ((∃ b, c.entries sl = some (.reserved b)) ∨
      ((∃ b d, c.entries sl = some (.filled b d)) ∧ c.status sl ≠ some .writeback))

/-- Cache_v.rs 82-91 -/
structure ValidNewSlots (c : State) (m : PMap Slot Address) : Prop where
  inj : m.Injective
  fresh : ∀ sl a, m sl = some a → ¬ c.lookup.Has a
  free : ∀ sl, m.Has sl → c.entries sl = some .empty

/-- Cache_v.rs 94-106 `reserve`: the new state -/
noncomputable def reserve (c : State) (m : PMap Slot Address) : State :=
  { c with
    entries := c.entries.unionRight (m.mapVal .reserved)
    lookup := c.lookup.unionRight m.invert }

/-- Cache_v.rs 108-112 `valid_load_requests`. The source quantifies the second condition over
all requests `req` and reads `req->from` also on write requests, where it is unspecified; here it
is stated for read requests. -/
def ValidLoadRequests (rq : PMap ID Req) (m : PMap Slot Address) : Prop :=
  (∀ id r, rq id = some r → ∃ a, r = .read a) ∧
    ∀ a, rq.HasValue (.read a) ↔ m.HasValue a

/-- Cache_v.rs 114-138 `load_initiate`: the new state -/
noncomputable def loadInitiate (c : State) (rq : PMap ID Req) (m : PMap Slot Address) : State :=
  { c with
    entries := c.entries.unionRight (m.mapVal .loading)
    lookup := c.lookup.unionRight m.invert
    outstanding := c.outstanding.unionRight (fun id => match rq id with
      | some (.read a) => m.invert a
      | _ => none) }

/-- Cache_v.rs 140-146 -/
def ValidLoadResponses (c : State) (rs : PMap ID Resp) : Prop :=
  ∀ id r, rs id = some r → (∃ d, r = .read d) ∧
    ∃ sl a, c.outstanding id = some sl ∧ c.entries sl = some (.loading a)

/-- the data of a read response -/
def respData : Option Resp → RawPage
  | some (.read d) => d
  | _ => []

/-- Cache_v.rs 149-175 `load_complete`: the new state -/
noncomputable def loadComplete (c : State) (rs : PMap ID Resp) : State :=
  let slotId := (c.outstanding.restrict rs.Has).invert
  { c with
    entries := c.entries.unionRight (fun sl => match slotId sl, (c.entries sl).bind Entry.addr? with
      | some id, some a => some (.filled a (respData (rs id)))
      | _, _ => none)
    status := c.status.unionRight (PMap.const slotId.Has .clean)
    outstanding := c.outstanding.removeKeys rs.Has }

/-- Cache_v.rs 186 `write_slots` -/
def WriteSlot (c : State) (writes : PMap Address RawPage) (sl : Slot) : Prop :=
  ∃ a, writes.Has a ∧ c.lookup a = some sl

open Classical in
/-- Cache_v.rs 179-202 `access`: the new state -/
noncomputable def access (c : State) (writes : PMap Address RawPage) : State :=
  { c with
    entries := c.entries.unionRight (fun sl =>
      if WriteSlot c writes sl then
        match (c.entries sl).bind Entry.addr? with
        | some a => some (.filled a ((writes a).getD []))
        | none => none
      else none)
    status := c.status.unionRight (PMap.const (WriteSlot c writes) .dirty) }

/-- Cache_v.rs 204-212 `valid_writeback_requests` -/
def ValidWritebackRequests (c : State) (rq : PMap ID Req) : Prop :=
  ∀ id r, rq id = some r → ∃ a d sl, r = .write a d ∧ c.lookup a = some sl ∧
    c.entries sl = some (.filled a d) ∧ c.status sl = some .dirty

/-- Cache_v.rs 222: the slots written back, by request -/
def writebackSlots (c : State) (rq : PMap ID Req) : PMap ID Slot :=
  fun id => match rq id with
    | some (.write a _) => c.lookup a
    | _ => none

/-- Cache_v.rs 214-227 `writeback_initiate`: the new state -/
noncomputable def writebackInitiate (c : State) (rq : PMap ID Req) : State :=
  { c with
    status := c.status.unionRight (PMap.const (writebackSlots c rq).HasValue .writeback)
    outstanding := c.outstanding.unionRight (writebackSlots c rq) }

/-- Cache_v.rs 229-236 `valid_writeback_responses` -/
def ValidWritebackResponses (c : State) (rs : PMap ID Resp) : Prop :=
  ∀ id r, rs id = some r → r = .write ∧
    ∃ sl a d, c.outstanding id = some sl ∧ c.entries sl = some (.filled a d) ∧
      c.status sl = some .writeback

/-- Cache_v.rs 239-255 `writeback_complete`: the new state -/
noncomputable def writebackComplete (c : State) (rs : PMap ID Resp) : State :=
  { c with
    status := c.status.unionRight (PMap.const (c.outstanding.restrict rs.Has).HasValue .clean)
    outstanding := c.outstanding.removeKeys rs.Has }

/-- Cache_v.rs 271: the addresses of the evicted slots -/
def EvictedAddr (c : State) (S : PSet Slot) (a : Address) : Prop :=
  ∃ sl e, S sl ∧ c.entries sl = some e ∧ e.addr? = some a

/-- Cache_v.rs 257-278 `evict`: the new state -/
noncomputable def evict (c : State) (S : PSet Slot) : State :=
  { c with
    entries := c.entries.unionRight (PMap.const S .empty)
    status := c.status.unionRight (PMap.const S .notFilled)
    lookup := c.lookup.removeKeys (EvictedAddr c S) }

/-- Cache_v.rs 93-292: the transitions. -/
inductive Next : State → Label → State → Prop
  /-- Cache_v.rs 94 `reserve` -/
  | reserve {c} (m : PMap Slot Address) (hm : ValidNewSlots c m) :
      Next c .internal (reserve c m)
  /-- Cache_v.rs 114 `load_initiate` -/
  | loadInitiate {c rq} (m : PMap Slot Address) (hne : ∃ id, rq.Has id) (hm : ValidNewSlots c m)
      (hinj : rq.Injective) (hfresh : ∀ id, rq.Has id → ¬ c.outstanding.Has id)
      (hrq : ValidLoadRequests rq m) :
      Next c (.ops rq PMap.empty) (loadInitiate c rq m)
  /-- Cache_v.rs 149 `load_complete` -/
  | loadComplete {c rs} (hne : ∃ id, rs.Has id) (hrs : ValidLoadResponses c rs) :
      Next c (.ops PMap.empty rs) (loadComplete c rs)
  /-- Cache_v.rs 179 `access` -/
  | access {c reads writes} (hr : ∀ a d, reads a = some d → ValidRead c a d)
      (hw : ∀ a, writes.Has a → ValidWrite c a) :
      Next c (.access reads writes) (access c writes)
  /-- Cache_v.rs 214 `writeback_initiate` -/
  | writebackInitiate {c rq} (hne : ∃ id, rq.Has id)
      (hfresh : ∀ id, rq.Has id → ¬ c.outstanding.Has id) (hrq : ValidWritebackRequests c rq) :
      Next c (.ops rq PMap.empty) (writebackInitiate c rq)
  /-- Cache_v.rs 239 `writeback_complete` -/
  | writebackComplete {c rs} (hne : ∃ id, rs.Has id) (hrs : ValidWritebackResponses c rs) :
      Next c (.ops PMap.empty rs) (writebackComplete c rs)
  /-- Cache_v.rs 257 `evict` -/
  | evict {c} (S : PSet Slot)
      (hS : ∀ sl, S sl → (∃ a d, c.entries sl = some (.filled a d)) ∧ c.status sl = some .clean) :
      Next c .internal (evict c S)
  /-- Cache_v.rs 280-289 `evictable` -/
  | evictable {c} {addrs : PSet Address}
      (h : ∀ a sl, addrs a → c.lookup a = some sl →
        (∃ b d, c.entries sl = some (.filled b d)) ∧ c.status sl = some .clean) :
      Next c (.evictable addrs) c
  /-- Cache_v.rs 291-293 `noop` -/
  | noop {c} : Next c .internal c

/-- Cache_v.rs 295-300 `initialize`; as in the source every slot number below `slots`, also
negative ones, is a slot. -/
def init (slots : Nat) : State where
  entries := fun i => if i < (slots : Int) then some .empty else none
  status := fun i => if i < (slots : Int) then some .notFilled else none
  lookup := PMap.empty
  outstanding := PMap.empty

/-- Cache_v.rs 49: the machine. The environment (the disk) is unconstrained. -/
def machine : Machine State Label := ⟨fun c => ∃ n, c = init n, Next⟩

/-! ### The invariant -/

/-- The corrected invariant (Cache_v.rs 302-319 with the lookup table over all non-empty
slots). -/
structure Wf (c : State) : Prop where
  look : ∀ a sl, c.lookup a = some sl ↔ ∃ e, c.entries sl = some e ∧ e.addr? = some a
  dom : ∀ sl, c.status sl = none ↔ c.entries sl = none
  stat : ∀ sl e, c.entries sl = some e →
    (c.status sl = some .notFilled ↔ ¬ ∃ a d, e = .filled a d)

theorem wf_init (n : Nat) : Wf (init n) := by
  refine ⟨?_, ?_, ?_⟩
  · intro a sl
    simp only [init, PMap.empty_apply]
    constructor
    · intro h; cases h
    · rintro ⟨e, h, h'⟩
      split at h
      · cases h; cases h'
      · cases h
  · intro sl; simp [init]
  · intro sl e h
    simp only [init] at h ⊢
    split at h
    next hl => cases h; simp [hl]
    next => cases h

theorem mapVal_some {K V W : Type} {f : V → W} {m : PMap K V} {k : K} {w : W} :
    m.mapVal f k = some w ↔ ∃ v, m k = some v ∧ f v = w := by
  simp [PMap.mapVal, Option.map_eq_some_iff]

theorem mapVal_none {K V W : Type} {f : V → W} {m : PMap K V} {k : K} :
    m.mapVal f k = none ↔ m k = none := by
  simp [PMap.mapVal]

/-- Filling empty slots with a non-empty, not filled entry. -/
theorem wf_newSlots {c : State} {m : PMap Slot Address} (h : Wf c) (hm : ValidNewSlots c m)
    (f : Address → Entry) (hf : ∀ a, (f a).addr? = some a) (hf' : ∀ a b d, f a ≠ .filled b d)
    (out : PMap ID Slot) :
    Wf { c with
      entries := c.entries.unionRight (m.mapVal f)
      lookup := c.lookup.unionRight m.invert
      outstanding := out } := by
  refine ⟨?_, ?_, ?_⟩
  · intro a sl
    simp only [PMap.unionRight_some]
    constructor
    · rintro (h1 | ⟨h1, h2⟩)
      · exact ⟨f a, .inl (mapVal_some.mpr ⟨a, PMap.invert_some h1, rfl⟩), hf a⟩
      · obtain ⟨e, he, ha⟩ := (h.look a sl).mp h2
        refine ⟨e, .inr ⟨?_, he⟩, ha⟩
        rw [mapVal_none]
        cases hq : m sl with
        | none => rfl
        | some b =>
          have := hm.free sl (by simp [PMap.Has, hq])
          rw [this] at he; cases he; cases ha
    · rintro ⟨e, h1 | ⟨h1, h2⟩, ha⟩
      · obtain ⟨b, hb, rfl⟩ := mapVal_some.mp h1
        rw [hf] at ha; cases ha
        exact .inl (PMap.invert_of hm.inj hb)
      · have hl := (h.look a sl).mpr ⟨e, h2, ha⟩
        refine .inr ⟨PMap.invert_none ?_, hl⟩
        intro k hk
        exact hm.fresh k a hk (by simp [PMap.Has, hl])
  · intro sl
    simp only [PMap.unionRight_none, mapVal_none]
    rw [h.dom]
    constructor
    · intro hn
      refine ⟨?_, hn⟩
      cases hq : m sl with
      | none => rfl
      | some b => have := hm.free sl (by simp [PMap.Has, hq]); rw [hn] at this; cases this
    · exact fun h => h.2
  · intro sl e he
    simp only at he ⊢
    rcases PMap.unionRight_some.mp he with h1 | ⟨h1, h2⟩
    · obtain ⟨b, hb, rfl⟩ := mapVal_some.mp h1
      have := (h.stat sl .empty (hm.free sl (by simp [PMap.Has, hb]))).mpr (by simp)
      rw [this]
      simp [hf']
    · exact h.stat sl e h2

theorem loadComplete_entry {c : State} {rs : PMap ID Resp} (hrs : ValidLoadResponses c rs)
    {sl : Slot} {id : ID} (h : (c.outstanding.restrict rs.Has).invert sl = some id) :
    ∃ a d, rs id = some (.read d) ∧ c.outstanding id = some sl ∧ c.entries sl = some (.loading a) ∧
      (loadComplete c rs).entries sl = some (.filled a d) ∧
      (loadComplete c rs).status sl = some .clean := by
  obtain ⟨hh, ho⟩ := PMap.restrict_some.mp (PMap.invert_some h)
  obtain ⟨r, hr⟩ := (PMap.has_iff _ _).mp hh
  obtain ⟨⟨d, rfl⟩, sl', a, h1, h2⟩ := hrs id r hr
  rw [ho] at h1; cases h1
  refine ⟨a, d, hr, ho, h2, ?_, ?_⟩
  · simp only [loadComplete, PMap.unionRight_some]
    left; rw [h, h2]; simp [Entry.addr?, hr, respData]
  · simp only [loadComplete, PMap.unionRight_some]
    left; exact PMap.const_some.mpr ⟨by simp [PMap.Has, h], rfl⟩

theorem loadComplete_other {c : State} {rs : PMap ID Resp} {sl : Slot}
    (h : (c.outstanding.restrict rs.Has).invert sl = none) :
    (loadComplete c rs).entries sl = c.entries sl ∧ (loadComplete c rs).status sl = c.status sl := by
  constructor
  · simp [loadComplete, PMap.unionRight, h]
  · have : PMap.const (c.outstanding.restrict rs.Has).invert.Has Status.clean sl = none :=
      PMap.const_none.mpr (by simp [PMap.Has, h])
    simp [loadComplete, PMap.unionRight, this]

/-- What `access` does to a slot it writes. -/
theorem access_entry {c : State} {writes : PMap Address RawPage} (h : Wf c) {sl a d}
    (hl : c.lookup a = some sl) (hd : writes a = some d) :
    (access c writes).entries sl = some (.filled a d) ∧
      (access c writes).status sl = some .dirty := by
  obtain ⟨e, he, ha⟩ := (h.look a sl).mp hl
  have hw : WriteSlot c writes sl := ⟨a, by simp [PMap.Has, hd], hl⟩
  constructor
  · simp only [access, PMap.unionRight_some]
    left; rw [if_pos hw, he]; simp [ha, hd]
  · simp only [access, PMap.unionRight_some]
    left; exact PMap.const_some.mpr ⟨hw, rfl⟩

theorem access_other {c : State} {writes : PMap Address RawPage} {sl : Slot}
    (hw : ¬ WriteSlot c writes sl) :
    (access c writes).entries sl = c.entries sl ∧ (access c writes).status sl = c.status sl := by
  constructor
  · simp [access, PMap.unionRight, hw]
  · have : PMap.const (WriteSlot c writes) Status.dirty sl = none := PMap.const_none.mpr hw
    simp [access, PMap.unionRight, this]

theorem status_update (c : State) (S : Slot → Prop) (v : Status) (sl : Slot) :
    (S sl → c.status.unionRight (PMap.const S v) sl = some v) ∧
      (¬ S sl → c.status.unionRight (PMap.const S v) sl = c.status sl) := by
  constructor
  · intro h; exact PMap.unionRight_some.mpr (.inl (PMap.const_some.mpr ⟨h, rfl⟩))
  · intro h
    have : PMap.const S v sl = none := PMap.const_none.mpr h
    simp [PMap.unionRight, this]

theorem evict_entry {c : State} {S : PSet Slot} {sl : Slot} :
    (S sl → (evict c S).entries sl = some .empty ∧ (evict c S).status sl = some .notFilled) ∧
      (¬ S sl → (evict c S).entries sl = c.entries sl ∧ (evict c S).status sl = c.status sl) := by
  refine ⟨fun h => ⟨?_, (status_update c S .notFilled sl).1 h⟩,
    fun h => ⟨?_, (status_update c S .notFilled sl).2 h⟩⟩
  · exact PMap.unionRight_some.mpr (.inl (PMap.const_some.mpr ⟨h, rfl⟩))
  · have : PMap.const S Entry.empty sl = none := PMap.const_none.mpr h
    simp [evict, PMap.unionRight, this]

theorem wf_step {c l c'} (h : Wf c) (hs : Next c l c') : Wf c' := by
  cases hs with
  | reserve m hm => exact wf_newSlots h hm .reserved (fun _ => rfl) (by simp) c.outstanding
  | loadInitiate m _ hm _ _ _ => exact wf_newSlots h hm .loading (fun _ => rfl) (by simp) _
  | @loadComplete rs _ hrs =>
    refine ⟨?_, ?_, ?_⟩
    · intro a sl
      show c.lookup a = some sl ↔ _
      rw [h.look]
      cases hq : (c.outstanding.restrict rs.Has).invert sl with
      | none => rw [(loadComplete_other hq).1]
      | some id =>
        obtain ⟨b, d, _, _, he, hn, _⟩ := loadComplete_entry hrs hq
        rw [he, hn]; simp [Entry.addr?]
    · intro sl
      cases hq : (c.outstanding.restrict rs.Has).invert sl with
      | none => rw [(loadComplete_other hq).1, (loadComplete_other hq).2]; exact h.dom sl
      | some id =>
        obtain ⟨b, d, _, _, he, hn, hst⟩ := loadComplete_entry hrs hq
        rw [hn, hst]; simp
    · intro sl e he
      cases hq : (c.outstanding.restrict rs.Has).invert sl with
      | none =>
        rw [(loadComplete_other hq).1] at he
        rw [(loadComplete_other hq).2]; exact h.stat sl e he
      | some id =>
        obtain ⟨b, d, _, _, _, hn, hst⟩ := loadComplete_entry hrs hq
        rw [hn] at he; cases he
        rw [hst]; simp
  | @access reads writes hr hw =>
    refine ⟨?_, ?_, ?_⟩
    · intro a sl
      show c.lookup a = some sl ↔ _
      rw [h.look]
      by_cases hq : WriteSlot c writes sl
      · obtain ⟨b, hb, hl⟩ := hq
        obtain ⟨d, hd⟩ := (PMap.has_iff _ _).mp hb
        obtain ⟨e, he, hea⟩ := (h.look b sl).mp hl
        rw [(access_entry h hl hd).1, he]
        constructor
        · rintro ⟨e', h1, h2⟩; cases h1; rw [hea] at h2; cases h2; exact ⟨_, rfl, rfl⟩
        · rintro ⟨e', h1, h2⟩; cases h1; cases h2; exact ⟨e, rfl, hea⟩
      · rw [(access_other hq).1]
    · intro sl
      by_cases hq : WriteSlot c writes sl
      · obtain ⟨b, hb, hl⟩ := hq
        obtain ⟨d, hd⟩ := (PMap.has_iff _ _).mp hb
        rw [(access_entry h hl hd).1, (access_entry h hl hd).2]; simp
      · rw [(access_other hq).1, (access_other hq).2]; exact h.dom sl
    · intro sl e he
      by_cases hq : WriteSlot c writes sl
      · obtain ⟨b, hb, hl⟩ := hq
        obtain ⟨d, hd⟩ := (PMap.has_iff _ _).mp hb
        rw [(access_entry h hl hd).1] at he; cases he
        rw [(access_entry h hl hd).2]; simp
      · rw [(access_other hq).1] at he
        rw [(access_other hq).2]; exact h.stat sl e he
  | @writebackInitiate rq _ _ hrq =>
    have hst := status_update c (writebackSlots c rq).HasValue .writeback
    have hf : ∀ sl, (writebackSlots c rq).HasValue sl →
        ∃ a d, c.entries sl = some (.filled a d) := by
      rintro sl ⟨id, hid⟩
      simp only [writebackSlots] at hid
      cases hq : rq id with
      | none => rw [hq] at hid; cases hid
      | some r =>
        obtain ⟨a, d, sl', rfl, h1, h2, _⟩ := hrq id r hq
        rw [hq] at hid; simp only at hid
        rw [h1] at hid; cases hid
        exact ⟨a, d, h2⟩
    refine ⟨h.look, ?_, ?_⟩
    · intro sl
      show c.status.unionRight _ sl = none ↔ c.entries sl = none
      by_cases hq : (writebackSlots c rq).HasValue sl
      · rw [(hst sl).1 hq]; obtain ⟨a, d, he⟩ := hf sl hq; rw [he]; simp
      · rw [(hst sl).2 hq]; exact h.dom sl
    · intro sl e he
      show c.status.unionRight _ sl = _ ↔ _
      by_cases hq : (writebackSlots c rq).HasValue sl
      · rw [(hst sl).1 hq]; obtain ⟨a, d, he'⟩ := hf sl hq
        rw [show c.entries sl = some e from he] at he'; cases he'; simp
      · rw [(hst sl).2 hq]; exact h.stat sl e he
  | @writebackComplete rs _ hrs =>
    have hst := status_update c (c.outstanding.restrict rs.Has).HasValue .clean
    have hf : ∀ sl, (c.outstanding.restrict rs.Has).HasValue sl →
        ∃ a d, c.entries sl = some (.filled a d) := by
      rintro sl ⟨id, hid⟩
      obtain ⟨hh, ho⟩ := PMap.restrict_some.mp hid
      obtain ⟨r, hr⟩ := (PMap.has_iff _ _).mp hh
      obtain ⟨_, sl', a, d, h1, h2, _⟩ := hrs id r hr
      rw [ho] at h1; cases h1; exact ⟨a, d, h2⟩
    refine ⟨h.look, ?_, ?_⟩
    · intro sl
      show c.status.unionRight _ sl = none ↔ c.entries sl = none
      by_cases hq : (c.outstanding.restrict rs.Has).HasValue sl
      · rw [(hst sl).1 hq]; obtain ⟨a, d, he⟩ := hf sl hq; rw [he]; simp
      · rw [(hst sl).2 hq]; exact h.dom sl
    · intro sl e he
      show c.status.unionRight _ sl = _ ↔ _
      by_cases hq : (c.outstanding.restrict rs.Has).HasValue sl
      · rw [(hst sl).1 hq]; obtain ⟨a, d, he'⟩ := hf sl hq
        rw [show c.entries sl = some e from he] at he'; cases he'; simp
      · rw [(hst sl).2 hq]; exact h.stat sl e he
  | evict S hS =>
    refine ⟨?_, ?_, ?_⟩
    · intro a sl
      show c.lookup.removeKeys _ a = some sl ↔ _
      rw [PMap.removeKeys_some, h.look]
      by_cases hq : S sl
      · rw [(evict_entry.1 hq).1]
        constructor
        · rintro ⟨hn, e, he, ha⟩; exact absurd ⟨sl, e, hq, he, ha⟩ hn
        · rintro ⟨e, he, ha⟩; cases he; cases ha
      · rw [(evict_entry.2 hq).1]
        constructor
        · exact fun h => h.2
        · intro hx
          refine ⟨?_, hx⟩
          rintro ⟨sl', e', hS', he', ha'⟩
          have h1 := (h.look a sl').mpr ⟨e', he', ha'⟩
          have h2 := (h.look a sl).mpr hx
          rw [h1] at h2; cases h2; exact hq hS'
    · intro sl
      by_cases hq : S sl
      · rw [(evict_entry.1 hq).1, (evict_entry.1 hq).2]; simp
      · rw [(evict_entry.2 hq).1, (evict_entry.2 hq).2]; exact h.dom sl
    · intro sl e he
      by_cases hq : S sl
      · rw [(evict_entry.1 hq).1] at he; cases he
        rw [(evict_entry.1 hq).2]; simp
      · rw [(evict_entry.2 hq).1] at he
        rw [(evict_entry.2 hq).2]; exact h.stat sl e he
  | evictable _ => exact h
  | noop => exact h

theorem wf_reachable {c} (h : machine.Reachable c) : Wf c := by
  apply Machine.reachable_invariant (I := Wf) _ _ h
  · rintro c ⟨n, rfl⟩; exact wf_init n
  · intro c l c' hw hs; exact wf_step hw hs

end Verif.Cache
