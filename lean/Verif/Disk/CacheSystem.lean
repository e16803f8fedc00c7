import Verif.Disk.Cache
/-
The page cache on top of the disk, and the memory it is meant to be. The composition is the one in
Splinter/src/implementation/JournalCoordinationSystem_v.rs 208-262 (`cache_disk_ops`,
`cache_internal`, `disk_internal` and the cache half of the journal's accesses), plus a crash.
-/
namespace Verif.CacheSystem
open AsyncDisk (ID Req Resp)

/-- JournalCoordinationSystem_v.rs 137-142: the fields `cache` and `disk` -/
structure State where
  cache : Cache.State
  disk : AsyncDisk.State

/-- What happens at the boundary of the system and inside it. -/
inductive Label
  | access (reads writes : PMap Address RawPage)
  | evictable (addrs : PSet Address)
  | ops (requests : PMap ID Req) (responses : PMap ID Resp)
  | cacheInternal
  | diskInternal
  | crash

/-- The transitions of the composition. -/
inductive Next (g : Geometry) : State → Label → State → Prop
  /-- JournalCoordinationSystem_v.rs 215-226: the cache half of `journal_marshal`, and (with no
  writes) of `read_for_recovery` 158 and `freeze_for_commit` 168 -/
  | access {s : State} {rd wr c'} (h : Cache.Next s.cache (.access rd wr) c') :
      Next g s (.access rd wr) { s with cache := c' }
  /-- JournalCoordinationSystem_v.rs 176-179, 206-210: the cache's `EvictableCheck` -/
  | evictable {s : State} {addrs c'} (h : Cache.Next s.cache (.evictable addrs) c') :
      Next g s (.evictable addrs) { s with cache := c' }
  /-- JournalCoordinationSystem_v.rs 228-239 `cache_disk_ops` -/
  | ops {s : State} {rq rs c' k'} (hc : Cache.Next s.cache (.ops rq rs) c')
      (hk : AsyncDisk.Next g s.disk (.ops rq rs) k') :
      Next g s (.ops rq rs) ⟨c', k'⟩
  /-- JournalCoordinationSystem_v.rs 241-245 `cache_internal` -/
  | cacheInternal {s : State} {c'} (h : Cache.Next s.cache .internal c') :
      Next g s .cacheInternal { s with cache := c' }
  /-- JournalCoordinationSystem_v.rs 247-251 `disk_internal`: processing a read -/
  | diskRead {s : State} {id a d k'} (h : AsyncDisk.Next g s.disk (.didRead id a d) k') :
      Next g s .diskInternal { s with disk := k' }
  /-- JournalCoordinationSystem_v.rs 247-251 `disk_internal`: processing a write -/
  | diskWrite {s : State} {id a d k'} (h : AsyncDisk.Next g s.disk (.didWrite id a d) k') :
      Next g s .diskInternal { s with disk := k' }
  /-- Not in JournalCoordinationSystem (which is not crash aware): the disk crashes
  (AsyncDisk_t.rs 213) and the cache starts again empty (Cache_v.rs 295). -/
  | crash {s : State} {k'} (n : Nat) (h : AsyncDisk.Next g s.disk .crash k') :
      Next g s .crash ⟨Cache.init n, k'⟩

/-- The system starting with an empty cache and a disk with content `c0`. -/
def machine (g : Geometry) (c0 : PMap Address RawPage) : Machine State Label where
  Init s := ∃ n, s = ⟨Cache.init n, { AsyncDisk.init with content := c0 }⟩
  Step := Next g

/-- No two write requests to the same page in one batch. -/
def DistinctWrites (rq : PMap ID Req) : Prop :=
  ∀ i j a d e, rq i = some (.write a d) → rq j = some (.write a e) → i = j

/-- The condition that `writeback_initiate` (Cache_v.rs 214) lacks. -/
def Label.distinct : Label → Prop
  | .ops rq _ => DistinctWrites rq
  | _ => True

/-! ### The specification: a crash-tolerant memory of pages -/

/-- `mem`: the current pages. `cand a v`: after a crash page `a` may be `v`. -/
structure Mem where
  mem : PMap Address RawPage
  cand : Address → Option RawPage → Prop

/-- what a client of the memory sees -/
inductive Obs
  | access (reads writes : PMap Address RawPage)
  | durable (addrs : PSet Address)
  | crash

/-- A step of the memory. -/
inductive Mem.Next : Mem → Option Obs → Mem → Prop
  /-- reads return the current pages; writes replace them -/
  | access {m : Mem} {rd wr}
      (hr : ∀ a d, rd a = some d → ∀ x, m.mem a = some x → d = x) :
      Mem.Next m (some (.access rd wr))
        { mem := m.mem.unionRight wr
          cand := fun a v => m.cand a v ∨ v = m.mem.unionRight wr a }
  /-- the current versions of `addrs` are certified durable -/
  | durable {m : Mem} {addrs : PSet Address} :
      Mem.Next m (some (.durable addrs))
        { m with cand := fun a v => (addrs a → v = m.mem a) ∧ m.cand a v }
  | tau {m : Mem} : Mem.Next m none m
  /-- each page falls back to one of its candidates -/
  | crash {m : Mem} {mem' : PMap Address RawPage} (h : ∀ a, m.cand a (mem' a)) :
      Mem.Next m (some .crash) { mem := mem', cand := fun a v => v = mem' a }

/-- The memory with initial pages `c0`. -/
def Mem.machine (c0 : PMap Address RawPage) : Machine Mem (Option Obs) where
  Init m := m = ⟨c0, fun a v => v = c0 a⟩
  Step := Mem.Next

/-- the client's view of a label -/
def Label.obs : Label → Option Obs
  | .access rd wr => some (.access rd wr)
  | .evictable addrs => some (.durable addrs)
  | .crash => some .crash
  | _ => none

/-! ### Coherence -/

/-- A slot holding a version newer than the disk's. -/
def Newer (c : Cache.State) (sl : Cache.Slot) : Prop :=
  c.status sl = some .dirty ∨ c.status sl = some .writeback

/-- What an outstanding request of the cache and its slot have to do with the disk. -/
def Tracked (c : Cache.State) (k : AsyncDisk.State) (m : PMap Address RawPage) (id : ID)
    (sl : Cache.Slot) : Prop :=
  (∃ a, c.entries sl = some (.loading a) ∧
    (k.requests id = some (.read a) ∨
      ∃ d, k.responses id = some (.read d) ∧ ∀ x, m a = some x → d = x)) ∨
  (∃ a d, c.entries sl = some (.filled a d) ∧ c.status sl = some .writeback ∧
    (k.requests id = some (.write a d) ∨
      (k.responses id = some .write ∧ k.content a = some d)))

/-- Cache, disk and memory agree. -/
structure Coh (c : Cache.State) (k : AsyncDisk.State) (m : Mem) : Prop where
  wf : Cache.Wf c
  inj : c.outstanding.Injective
  out : ∀ id sl, c.outstanding id = some sl → Tracked c k m.mem id sl
  track : ∀ id, k.requests.Has id ∨ k.responses.Has id → c.outstanding.Has id
  disj : ∀ id, k.requests.Has id → ¬ k.responses.Has id
  filled : ∀ sl a d, c.entries sl = some (.filled a d) →
    (∀ x, m.mem a = some x → d = x) ∧ (Newer c sl → m.mem a = some d)
  disk : ∀ a, (∀ sl d, c.entries sl = some (.filled a d) → ¬ Newer c sl) →
    k.content a = m.mem a
  candC : ∀ a, m.cand a (k.content a)
  candM : ∀ a, m.cand a (m.mem a)

theorem coh_init (n : Nat) (c0 : PMap Address RawPage) (r : PMap ID Req) (p : PMap ID Resp)
    (hr : ∀ id, r id = none) (hp : ∀ id, p id = none) :
    Coh (Cache.init n) ⟨r, p, c0⟩ ⟨c0, fun a v => v = c0 a⟩ where
  wf := Cache.wf_init n
  inj := fun _ _ _ h _ => by cases h
  out := fun _ _ h => by cases h
  track := by
    rintro id (h | h)
    · exact absurd (hr id) h
    · exact absurd (hp id) h
  disj := fun id h => absurd (hr id) h
  filled := by
    intro sl a d h
    simp only [Cache.init] at h
    split at h <;> cases h
  disk := fun _ _ => rfl
  candC := fun _ => rfl
  candM := fun _ => rfl

/-- Filling empty slots with reserved or loading entries. -/
theorem coh_newSlots {c k m} (h : Coh c k m) {mp : PMap Cache.Slot Address}
    (hm : Cache.ValidNewSlots c mp) (f : Address → Cache.Entry)
    (hf : ∀ a, (f a).addr? = some a) (hf' : ∀ a b d, f a ≠ .filled b d)
    (k' : AsyncDisk.State) (hk : k'.content = k.content)
    (out' : PMap ID Cache.Slot) (hinj : out'.Injective)
    (hout : ∀ id sl, out' id = some sl → Tracked
      { c with entries := c.entries.unionRight (mp.mapVal f)
               lookup := c.lookup.unionRight mp.invert
               outstanding := out' } k' m.mem id sl)
    (htrack : ∀ id, k'.requests.Has id ∨ k'.responses.Has id → out'.Has id)
    (hdisj : ∀ id, k'.requests.Has id → ¬ k'.responses.Has id) :
    Coh { c with entries := c.entries.unionRight (mp.mapVal f)
                 lookup := c.lookup.unionRight mp.invert
                 outstanding := out' } k' m := by
  have hfill : ∀ sl a d, c.entries.unionRight (mp.mapVal f) sl = some (.filled a d) ↔
      c.entries sl = some (.filled a d) := by
    intro sl a d
    rw [PMap.unionRight_some]
    constructor
    · rintro (h1 | ⟨_, h1⟩)
      · obtain ⟨b, _, hb⟩ := Cache.mapVal_some.mp h1; exact absurd hb (hf' _ _ _)
      · exact h1
    · intro h1
      refine .inr ⟨?_, h1⟩
      rw [Cache.mapVal_none]
      cases hq : mp sl with
      | none => rfl
      | some b => have := hm.free sl (by simp [PMap.Has, hq]); rw [this] at h1; cases h1
  exact {
    wf := Cache.wf_newSlots h.wf hm f hf hf' out'
    inj := hinj
    out := hout
    track := htrack
    disj := hdisj
    filled := fun sl a d he => h.filled sl a d ((hfill sl a d).mp he)
    disk := fun a ha => by
      rw [hk]; exact h.disk a (fun sl d he => ha sl d ((hfill sl a d).mpr he))
    candC := fun a => by rw [hk]; exact h.candC a
    candM := h.candM }

theorem coh_reserve {c k m} (h : Coh c k m) {mp : PMap Cache.Slot Address}
    (hm : Cache.ValidNewSlots c mp) : Coh (Cache.reserve c mp) k m := by
  refine coh_newSlots h hm .reserved (fun _ => rfl) (by simp) k rfl c.outstanding h.inj ?_
    h.track h.disj
  intro id sl ho
  have same : ∀ e, c.entries sl = some e → e ≠ .empty →
      c.entries.unionRight (mp.mapVal .reserved) sl = some e := by
    intro e he hne
    refine PMap.unionRight_some.mpr (.inr ⟨?_, he⟩)
    rw [Cache.mapVal_none]
    cases hq : mp sl with
    | none => rfl
    | some b =>
      have := hm.free sl (by simp [PMap.Has, hq])
      rw [this] at he; cases he; exact absurd rfl hne
  rcases h.out id sl ho with ⟨a, he, hr⟩ | ⟨a, d, he, hr⟩
  · exact .inl ⟨a, same _ he (by simp), hr⟩
  · exact .inr ⟨a, d, same _ he (by simp), hr⟩

theorem coh_loadInitiate {g c k k' m rq} (h : Coh c k m) {mp : PMap Cache.Slot Address}
    (hm : Cache.ValidNewSlots c mp) (hinj : rq.Injective)
    (hfresh : ∀ id, rq.Has id → ¬ c.outstanding.Has id) (hrq : Cache.ValidLoadRequests rq mp)
    (hk : AsyncDisk.Next g k (.ops rq PMap.empty) k') :
    Coh (Cache.loadInitiate c rq mp) k' m := by
  cases hk with
  | ops newReq newResp sub =>
  -- outstanding requests of the new state
  have hnew : ∀ id sl, (match rq id with
        | some (.read a) => mp.invert a
        | _ => none) = some sl → ∃ a, rq id = some (.read a) ∧ mp sl = some a := by
    intro id sl hq
    cases hr : rq id with
    | none => rw [hr] at hq; cases hq
    | some r =>
      obtain ⟨a, rfl⟩ := hrq.1 id r hr
      rw [hr] at hq; exact ⟨a, rfl, PMap.invert_some hq⟩
  have hold : ∀ id sl, c.outstanding id = some sl →
      c.entries.unionRight (mp.mapVal .loading) sl = c.entries sl ∧ mp sl = none := by
    intro id sl ho
    have hmp : mp sl = none := by
      cases hq : mp sl with
      | none => rfl
      | some b =>
        have hfr := hm.free sl (by simp [PMap.Has, hq])
        rcases h.out id sl ho with ⟨a, he, _⟩ | ⟨a, d, he, _⟩ <;> rw [hfr] at he <;> cases he
    exact ⟨by simp [PMap.unionRight, PMap.mapVal, hmp], hmp⟩
  refine coh_newSlots h hm .loading (fun _ => rfl) (by simp)
    { k with
      requests := k.requests.unionRight rq
      responses := fun id => if (PMap.empty : PMap ID Resp) id = none then k.responses id else none }
    rfl (c.outstanding.unionRight (fun id => match rq id with
      | some (.read a) => mp.invert a
      | _ => none)) ?_ ?_ ?_ ?_
  · intro i j sl hi hj
    rcases PMap.unionRight_some.mp hi with hi | ⟨_, hi⟩ <;>
    rcases PMap.unionRight_some.mp hj with hj | ⟨_, hj⟩
    · obtain ⟨a, h1, h2⟩ := hnew _ _ hi
      obtain ⟨b, h3, h4⟩ := hnew _ _ hj
      rw [h2] at h4; cases h4
      exact hinj _ _ _ h1 h3
    · obtain ⟨a, _, h2⟩ := hnew _ _ hi
      rw [(hold _ _ hj).2] at h2; cases h2
    · obtain ⟨a, _, h2⟩ := hnew _ _ hj
      rw [(hold _ _ hi).2] at h2; cases h2
    · exact h.inj _ _ _ hi hj
  · intro id sl ho
    rcases PMap.unionRight_some.mp ho with ho | ⟨_, ho⟩
    · obtain ⟨a, h1, h2⟩ := hnew _ _ ho
      refine .inl ⟨a, ?_, .inl ?_⟩
      · exact PMap.unionRight_some.mpr (.inl (Cache.mapVal_some.mpr ⟨a, h2, rfl⟩))
      · exact PMap.unionRight_some.mpr (.inl h1)
    · have hid : rq id = none := by
        cases hq : rq id with
        | none => rfl
        | some r =>
          exact absurd (by simp [PMap.Has, ho]) (hfresh id (by simp [PMap.Has, hq]))
      have hreq : ∀ r, k.requests id = some r → k.requests.unionRight rq id = some r :=
        fun r hr => PMap.unionRight_some.mpr (.inr ⟨hid, hr⟩)
      rcases h.out id sl ho with ⟨a, he, hr⟩ | ⟨a, d, he, hst, hr⟩
      · refine .inl ⟨a, by rw [← he]; exact (hold _ _ ho).1, ?_⟩
        rcases hr with hr | hr
        · exact .inl (hreq _ hr)
        · obtain ⟨d, h1, h2⟩ := hr; exact .inr ⟨d, by simpa using h1, h2⟩
      · refine .inr ⟨a, d, by rw [← he]; exact (hold _ _ ho).1, hst, ?_⟩
        rcases hr with hr | ⟨h1, h2⟩
        · exact .inl (hreq _ hr)
        · exact .inr ⟨by simpa using h1, h2⟩
  · intro id hid
    have hcase : rq.Has id ∨ (k.requests.Has id ∨ k.responses.Has id) := by
      rcases hid with hid | hid
      · by_cases hq : rq id = none
        · right; left; intro hn; exact hid (PMap.unionRight_none.mpr ⟨hq, hn⟩)
        · exact .inl hq
      · right; right; intro hn; apply hid; simp [hn]
    intro hn
    obtain ⟨hn1, hn2⟩ := PMap.unionRight_none.mp hn
    rcases hcase with hq | hq
    · obtain ⟨r, hr⟩ := (PMap.has_iff _ _).mp hq
      obtain ⟨a, rfl⟩ := hrq.1 id r hr
      obtain ⟨sl, hsl⟩ := (hrq.2 a).mp ⟨id, hr⟩
      rw [hr] at hn1
      have := PMap.invert_of hm.inj hsl
      simp only at hn1
      rw [this] at hn1; cases hn1
    · exact h.track id hq hn2
  · intro id hid hp
    have hp' : k.responses.Has id := by intro hn; apply hp; simp [hn]
    by_cases hq : rq id = none
    · exact h.disj id (fun hn => hid (PMap.unionRight_none.mpr ⟨hq, hn⟩)) hp'
    · exact newResp id hq hp'

theorem coh_loadComplete {g c k k' m rs} (h : Coh c k m) (hrs : Cache.ValidLoadResponses c rs)
    (hk : AsyncDisk.Next g k (.ops PMap.empty rs) k')
    (hwf : Cache.Wf (Cache.loadComplete c rs)) : Coh (Cache.loadComplete c rs) k' m := by
  cases hk with
  | ops newReq newResp sub =>
  have hkeep : ∀ sl, (c.outstanding.restrict rs.Has).invert sl = none →
      ∀ id, c.outstanding id = some sl → rs id = none := by
    intro sl hn id ho
    cases hq : rs id with
    | none => rfl
    | some r =>
      exfalso
      have hri : (c.outstanding.restrict rs.Has).Injective := by
        intro i j v hi hj
        exact h.inj i j v (PMap.restrict_some.mp hi).2 (PMap.restrict_some.mp hj).2
      have := PMap.invert_of hri (PMap.restrict_some.mpr ⟨show rs.Has id by simp [PMap.Has, hq], ho⟩)
      rw [this] at hn; cases hn
  have hfill : ∀ sl a d, (Cache.loadComplete c rs).entries sl = some (.filled a d) →
      (c.entries sl = some (.filled a d) ∧
        (Cache.loadComplete c rs).status sl = c.status sl) ∨
      (c.entries sl = some (.loading a) ∧ (Cache.loadComplete c rs).status sl = some .clean ∧
        ∀ x, m.mem a = some x → d = x) := by
    intro sl a d he
    cases hq : (c.outstanding.restrict rs.Has).invert sl with
    | none =>
      rw [(Cache.loadComplete_other hq).1] at he
      exact .inl ⟨he, (Cache.loadComplete_other hq).2⟩
    | some id =>
      obtain ⟨b, e, hr, ho, hl, hn, hst⟩ := Cache.loadComplete_entry hrs hq
      rw [hn] at he; cases he
      refine .inr ⟨hl, hst, ?_⟩
      rcases h.out id sl ho with ⟨a', he', hx⟩ | ⟨_, _, he', _⟩
      · rw [hl] at he'; cases he'
        have hresp := sub id _ hr
        rcases hx with hx | ⟨d', h1, h2⟩
        · exact absurd (by simp [PMap.Has, hresp]) (h.disj id (by simp [PMap.Has, hx]))
        · rw [hresp] at h1; cases h1; exact h2
      · rw [hl] at he'; cases he'
  refine { wf := hwf, inj := ?_, out := ?_, track := ?_, disj := ?_, filled := ?_, disk := ?_,
           candC := h.candC, candM := h.candM }
  · intro i j sl hi hj
    exact h.inj i j sl (PMap.removeKeys_some.mp hi).2 (PMap.removeKeys_some.mp hj).2
  · intro id sl ho
    obtain ⟨hn, ho⟩ := PMap.removeKeys_some.mp ho
    have hid : rs id = none := Classical.byContradiction hn
    have hq : (c.outstanding.restrict rs.Has).invert sl = none := by
      cases hq : (c.outstanding.restrict rs.Has).invert sl with
      | none => rfl
      | some j =>
        obtain ⟨h1, h2⟩ := PMap.restrict_some.mp (PMap.invert_some hq)
        have := h.inj _ _ _ ho h2; subst this; exact absurd hid h1
    unfold Tracked
    rw [(Cache.loadComplete_other hq).1, (Cache.loadComplete_other hq).2]
    rcases h.out id sl ho with ⟨a, he, hr⟩ | ⟨a, d, he, hst, hr⟩
    · refine .inl ⟨a, he, ?_⟩
      rcases hr with hr | ⟨d, h1, h2⟩
      · exact .inl (by simpa [PMap.unionRight] using hr)
      · exact .inr ⟨d, by simpa [hid] using h1, h2⟩
    · refine .inr ⟨a, d, he, hst, ?_⟩
      rcases hr with hr | ⟨h1, h2⟩
      · exact .inl (by simpa [PMap.unionRight] using hr)
      · exact .inr ⟨by simpa [hid] using h1, h2⟩
  · intro id hid
    have : (k.requests.Has id ∨ k.responses.Has id) ∧ rs id = none := by
      rcases hid with hid | hid
      · have hr : k.requests.Has id := fun hn => hid (by simp [PMap.unionRight, hn])
        refine ⟨.inl hr, ?_⟩
        cases hq : rs id with
        | none => rfl
        | some r => exact absurd (by simp [PMap.Has, sub id r hq]) (h.disj id hr)
      · by_cases hq : rs id = none
        · refine ⟨.inr (fun hn => hid (by simp [hn])), hq⟩
        · exact absurd (by simp [hq]) hid
    intro hn
    have hout := h.track id this.1
    obtain ⟨sl, hsl⟩ := (PMap.has_iff _ _).mp hout
    have : (c.outstanding.removeKeys rs.Has) id = some sl :=
      PMap.removeKeys_some.mpr ⟨by simp [PMap.Has, this.2], hsl⟩
    rw [show (c.outstanding.removeKeys rs.Has) id = none from hn] at this; cases this
  · intro id hid hp
    refine h.disj id (fun hn => hid (by simp [PMap.unionRight, hn])) ?_
    intro hn; apply hp; simp [hn]
  · intro sl a d he
    rcases hfill sl a d he with ⟨h1, h2⟩ | ⟨h1, h2, h3⟩
    · unfold Newer; rw [h2]; exact h.filled sl a d h1
    · refine ⟨h3, ?_⟩
      rintro (hc | hc) <;> rw [h2] at hc <;> cases hc
  · intro a ha
    refine h.disk a ?_
    intro sl d he hnw
    have hq : (c.outstanding.restrict rs.Has).invert sl = none := by
      cases hq : (c.outstanding.restrict rs.Has).invert sl with
      | none => rfl
      | some j =>
        obtain ⟨_, _, _, _, hl, _⟩ := Cache.loadComplete_entry hrs hq
        rw [hl] at he; cases he
    refine ha sl d (by rw [(Cache.loadComplete_other hq).1]; exact he) ?_
    unfold Newer; rw [(Cache.loadComplete_other hq).2]; exact hnw

theorem coh_access {c k m rd wr} (h : Coh c k m)
    (hr : ∀ a d, rd a = some d → Cache.ValidRead c a d)
    (hw : ∀ a, wr.Has a → Cache.ValidWrite c a)
    (hwf : Cache.Wf (Cache.access c wr)) :
    ∃ m', Mem.Next m (some (.access rd wr)) m' ∧ Coh (Cache.access c wr) k m' := by
  refine ⟨_, .access ?_, ?_⟩
  · intro a d had x hx
    obtain ⟨sl, b, hl, he⟩ := hr a d had
    obtain ⟨e, he', ha⟩ := (h.wf.look a sl).mp hl
    rw [he] at he'; cases he'; cases ha
    exact (h.filled sl _ d he).1 x hx
  · -- a slot that is not written keeps its entry, and its page is not written
    have hpage : ∀ sl e a, c.entries sl = some e → e.addr? = some a →
        ¬ Cache.WriteSlot c wr sl → wr a = none := by
      intro sl e a he ha hns
      cases hq : wr a with
      | none => rfl
      | some d =>
        exact absurd ⟨a, by simp [PMap.Has, hq], (h.wf.look a sl).mpr ⟨e, he, ha⟩⟩ hns
    have hout : ∀ id sl, c.outstanding id = some sl → ¬ Cache.WriteSlot c wr sl := by
      rintro id sl ho ⟨a, hh, hl⟩
      obtain ⟨sl', hl', hcase⟩ := hw a hh
      rw [hl] at hl'; cases hl'
      rcases h.out id sl ho with ⟨b, he, _⟩ | ⟨b, d, he, hst, _⟩
      · rcases hcase with ⟨b', hb⟩ | ⟨⟨b', d', hb⟩, _⟩ <;> rw [he] at hb <;> cases hb
      · rcases hcase with ⟨b', hb⟩ | ⟨_, hns⟩
        · rw [he] at hb; cases hb
        · exact hns hst
    refine { wf := hwf, inj := h.inj, out := ?_, track := h.track, disj := h.disj, filled := ?_,
             disk := ?_, candC := fun a => .inl (h.candC a), candM := fun a => .inr rfl }
    · intro id sl ho
      have ho' : c.outstanding id = some sl := ho
      have hns := hout id sl ho'
      unfold Tracked
      rw [(Cache.access_other hns).1, (Cache.access_other hns).2]
      rcases h.out id sl ho' with ⟨a, he, hx⟩ | hx
      · refine .inl ⟨a, he, ?_⟩
        have hna := hpage sl _ a he rfl hns
        simpa [PMap.unionRight, hna] using hx
      · exact .inr hx
    · intro sl a d he
      by_cases hs : Cache.WriteSlot c wr sl
      · obtain ⟨b, hb, hl⟩ := hs
        obtain ⟨e, hd⟩ := (PMap.has_iff _ _).mp hb
        have := Cache.access_entry h.wf hl hd
        rw [this.1] at he; cases he
        refine ⟨?_, fun _ => ?_⟩
        · intro x hx; simp only [PMap.unionRight, hd] at hx; exact Option.some.inj hx
        · simp [PMap.unionRight, hd]
      · rw [(Cache.access_other hs).1] at he
        have hna := hpage sl _ a he rfl hs
        unfold Newer
        rw [(Cache.access_other hs).2]
        simp only [PMap.unionRight, hna]
        exact h.filled sl a d he
    · intro a ha
      have hna : wr a = none := by
        cases hq : wr a with
        | none => rfl
        | some d =>
          obtain ⟨sl, hl, _⟩ := hw a (by simp [PMap.Has, hq])
          have := Cache.access_entry h.wf hl hq
          exact absurd (.inl this.2) (ha sl d this.1)
      simp only [PMap.unionRight, hna]
      refine h.disk a ?_
      intro sl d he hnw
      have hs : ¬ Cache.WriteSlot c wr sl := by
        rintro ⟨b, hb, hl⟩
        have := (h.wf.look a sl).mpr ⟨_, he, rfl⟩
        obtain ⟨e, he', hb'⟩ := (h.wf.look b sl).mp hl
        rw [he] at he'; cases he'; cases hb'
        exact hb hna
      refine ha sl d (by rw [(Cache.access_other hs).1]; exact he) ?_
      unfold Newer; rw [(Cache.access_other hs).2]; exact hnw

theorem writebackSlots_some {c rq id sl} (hrq : Cache.ValidWritebackRequests c rq)
    (h : Cache.writebackSlots c rq id = some sl) :
    ∃ a d, rq id = some (.write a d) ∧ c.lookup a = some sl ∧ c.entries sl = some (.filled a d) ∧
      c.status sl = some .dirty := by
  simp only [Cache.writebackSlots] at h
  cases hq : rq id with
  | none => rw [hq] at h; cases h
  | some r =>
    obtain ⟨a, d, sl', rfl, h1, h2, h3⟩ := hrq id r hq
    rw [hq] at h; simp only at h
    rw [h1] at h; cases h
    exact ⟨a, d, rfl, h1, h2, h3⟩

theorem coh_writebackInitiate {g c k k' m rq} (h : Coh c k m) (hd : DistinctWrites rq)
    (hfresh : ∀ id, rq.Has id → ¬ c.outstanding.Has id)
    (hrq : Cache.ValidWritebackRequests c rq)
    (hk : AsyncDisk.Next g k (.ops rq PMap.empty) k')
    (hwf : Cache.Wf (Cache.writebackInitiate c rq)) :
    Coh (Cache.writebackInitiate c rq) k' m := by
  cases hk with
  | ops newReq newResp sub =>
  have hst := Cache.status_update c (Cache.writebackSlots c rq).HasValue .writeback
  -- a slot with an outstanding request is not written back again
  have hold : ∀ id sl, c.outstanding id = some sl → ¬ (Cache.writebackSlots c rq).HasValue sl := by
    rintro id sl ho ⟨j, hj⟩
    obtain ⟨a, d, _, _, he, hs⟩ := writebackSlots_some hrq hj
    rcases h.out id sl ho with ⟨b, he', _⟩ | ⟨b, d', he', hs', _⟩
    · rw [he] at he'; cases he'
    · rw [hs] at hs'; cases hs'
  have hnewer : ∀ sl, Newer (Cache.writebackInitiate c rq) sl ↔ Newer c sl := by
    intro sl
    unfold Newer
    show c.status.unionRight _ sl = _ ∨ c.status.unionRight _ sl = _ ↔ _
    by_cases hv : (Cache.writebackSlots c rq).HasValue sl
    · rw [(hst sl).1 hv]
      obtain ⟨j, hj⟩ := hv
      obtain ⟨a, d, _, _, _, hs⟩ := writebackSlots_some hrq hj
      simp [hs]
    · rw [(hst sl).2 hv]
  refine { wf := hwf, inj := ?_, out := ?_, track := ?_, disj := ?_, filled := ?_, disk := ?_,
           candC := h.candC, candM := h.candM }
  · intro i j sl hi hj
    rcases PMap.unionRight_some.mp hi with hi | ⟨_, hi⟩ <;>
    rcases PMap.unionRight_some.mp hj with hj | ⟨_, hj⟩
    · obtain ⟨a, d, h1, _, h2, _⟩ := writebackSlots_some hrq hi
      obtain ⟨b, e, h3, _, h4, _⟩ := writebackSlots_some hrq hj
      rw [h2] at h4; cases h4
      exact hd i j a d d h1 h3
    · exact absurd ⟨i, hi⟩ (hold _ _ hj)
    · exact absurd ⟨j, hj⟩ (hold _ _ hi)
    · exact h.inj _ _ _ hi hj
  · intro id sl ho
    rcases PMap.unionRight_some.mp ho with ho | ⟨_, ho⟩
    · obtain ⟨a, d, h1, _, h2, _⟩ := writebackSlots_some hrq ho
      exact .inr ⟨a, d, h2, (hst sl).1 ⟨id, ho⟩, .inl (PMap.unionRight_some.mpr (.inl h1))⟩
    · have hid : rq id = none := by
        cases hq : rq id with
        | none => rfl
        | some r =>
          exact absurd (by simp [PMap.Has, ho]) (hfresh id (by simp [PMap.Has, hq]))
      have hreq : ∀ r, k.requests id = some r → k.requests.unionRight rq id = some r :=
        fun r hr => PMap.unionRight_some.mpr (.inr ⟨hid, hr⟩)
      have hns : (Cache.writebackInitiate c rq).status sl = c.status sl := (hst sl).2 (hold id sl ho)
      rcases h.out id sl ho with ⟨a, he, hr⟩ | ⟨a, d, he, hs, hr⟩
      · refine .inl ⟨a, he, ?_⟩
        rcases hr with hr | ⟨d, h1, h2⟩
        · exact .inl (hreq _ hr)
        · exact .inr ⟨d, by simpa using h1, h2⟩
      · refine .inr ⟨a, d, he, by rw [hns]; exact hs, ?_⟩
        rcases hr with hr | ⟨h1, h2⟩
        · exact .inl (hreq _ hr)
        · exact .inr ⟨by simpa using h1, h2⟩
  · intro id hid hn
    obtain ⟨hn1, hn2⟩ := PMap.unionRight_none.mp hn
    have hcase : rq.Has id ∨ (k.requests.Has id ∨ k.responses.Has id) := by
      rcases hid with hid | hid
      · by_cases hq : rq id = none
        · right; left; intro hn; exact hid (PMap.unionRight_none.mpr ⟨hq, hn⟩)
        · exact .inl hq
      · right; right; intro hn; apply hid; simp [hn]
    rcases hcase with hq | hq
    · obtain ⟨r, hr⟩ := (PMap.has_iff _ _).mp hq
      obtain ⟨a, d, sl, rfl, h1, _⟩ := hrq id r hr
      simp only [Cache.writebackSlots, hr] at hn1
      rw [h1] at hn1; cases hn1
    · exact h.track id hq hn2
  · intro id hid hp
    have hp' : k.responses.Has id := by intro hn; apply hp; simp [hn]
    by_cases hq : rq id = none
    · exact h.disj id (fun hn => hid (PMap.unionRight_none.mpr ⟨hq, hn⟩)) hp'
    · exact newResp id hq hp'
  · intro sl a d he
    rw [hnewer]; exact h.filled sl a d he
  · intro a ha
    exact h.disk a (fun sl d he hn => ha sl d he ((hnewer sl).mpr hn))

theorem coh_writebackComplete {g c k k' m rs} (h : Coh c k m)
    (hrs : Cache.ValidWritebackResponses c rs)
    (hk : AsyncDisk.Next g k (.ops PMap.empty rs) k')
    (hwf : Cache.Wf (Cache.writebackComplete c rs)) : Coh (Cache.writebackComplete c rs) k' m := by
  cases hk with
  | ops newReq newResp sub =>
  have hst := Cache.status_update c (c.outstanding.restrict rs.Has).HasValue .clean
  -- the page of a completed slot is on the disk
  have hdone : ∀ sl, (c.outstanding.restrict rs.Has).HasValue sl →
      ∃ a d, c.entries sl = some (.filled a d) ∧ c.status sl = some .writeback ∧
        k.content a = some d := by
    rintro sl ⟨id, hid⟩
    obtain ⟨hh, ho⟩ := PMap.restrict_some.mp hid
    obtain ⟨r, hr⟩ := (PMap.has_iff _ _).mp hh
    obtain ⟨rfl, sl', a, d, h1, h2, h3⟩ := hrs id r hr
    rw [ho] at h1; cases h1
    have hresp := sub id _ hr
    rcases h.out id sl ho with ⟨b, he, _⟩ | ⟨b, d', he, _, hx⟩
    · rw [h2] at he; cases he
    · rw [h2] at he; cases he
      rcases hx with hx | ⟨_, hx⟩
      · exact absurd (by simp [PMap.Has, hresp]) (h.disj id (by simp [PMap.Has, hx]))
      · exact ⟨a, d, h2, h3, hx⟩
  refine { wf := hwf, inj := ?_, out := ?_, track := ?_, disj := ?_, filled := ?_, disk := ?_,
           candC := h.candC, candM := h.candM }
  · intro i j sl hi hj
    exact h.inj i j sl (PMap.removeKeys_some.mp hi).2 (PMap.removeKeys_some.mp hj).2
  · intro id sl ho
    obtain ⟨hn, ho⟩ := PMap.removeKeys_some.mp ho
    have hid : rs id = none := Classical.byContradiction hn
    have hq : ¬ (c.outstanding.restrict rs.Has).HasValue sl := by
      rintro ⟨j, hj⟩
      obtain ⟨h1, h2⟩ := PMap.restrict_some.mp hj
      have := h.inj _ _ _ ho h2; subst this; exact h1 hid
    have hns : (Cache.writebackComplete c rs).status sl = c.status sl := (hst sl).2 hq
    unfold Tracked
    rw [hns]
    show (∃ a, c.entries sl = _ ∧ _) ∨ (∃ a d, c.entries sl = _ ∧ _)
    rcases h.out id sl ho with ⟨a, he, hr⟩ | ⟨a, d, he, hs, hr⟩
    · refine .inl ⟨a, he, ?_⟩
      rcases hr with hr | ⟨d, h1, h2⟩
      · exact .inl (by simpa [PMap.unionRight] using hr)
      · exact .inr ⟨d, by simpa [hid] using h1, h2⟩
    · refine .inr ⟨a, d, he, hs, ?_⟩
      rcases hr with hr | ⟨h1, h2⟩
      · exact .inl (by simpa [PMap.unionRight] using hr)
      · exact .inr ⟨by simpa [hid] using h1, h2⟩
  · intro id hid
    have : (k.requests.Has id ∨ k.responses.Has id) ∧ rs id = none := by
      rcases hid with hid | hid
      · have hr : k.requests.Has id := fun hn => hid (by simp [PMap.unionRight, hn])
        refine ⟨.inl hr, ?_⟩
        cases hq : rs id with
        | none => rfl
        | some r => exact absurd (by simp [PMap.Has, sub id r hq]) (h.disj id hr)
      · by_cases hq : rs id = none
        · refine ⟨.inr (fun hn => hid (by simp [hn])), hq⟩
        · exact absurd (by simp [hq]) hid
    intro hn
    obtain ⟨sl, hsl⟩ := (PMap.has_iff _ _).mp (h.track id this.1)
    have : (c.outstanding.removeKeys rs.Has) id = some sl :=
      PMap.removeKeys_some.mpr ⟨by simp [PMap.Has, this.2], hsl⟩
    rw [show (c.outstanding.removeKeys rs.Has) id = none from hn] at this; cases this
  · intro id hid hp
    refine h.disj id (fun hn => hid (by simp [PMap.unionRight, hn])) ?_
    intro hn; apply hp; simp [hn]
  · intro sl a d he
    refine ⟨(h.filled sl a d he).1, fun hn => (h.filled sl a d he).2 ?_⟩
    unfold Newer at hn ⊢
    by_cases hq : (c.outstanding.restrict rs.Has).HasValue sl
    · have hns : (Cache.writebackComplete c rs).status sl = some .clean := (hst sl).1 hq
      rw [hns] at hn; simp at hn
    · have hns : (Cache.writebackComplete c rs).status sl = c.status sl := (hst sl).2 hq
      rw [hns] at hn; exact hn
  · intro a ha
    by_cases hex : ∃ sl d, c.entries sl = some (.filled a d) ∧ Newer c sl
    · obtain ⟨sl, d, he, hn⟩ := hex
      by_cases hq : (c.outstanding.restrict rs.Has).HasValue sl
      · obtain ⟨b, d', he', _, hc⟩ := hdone sl hq
        rw [he] at he'; cases he'
        show k.content a = _
        rw [hc, (h.filled sl a d he).2 hn]
      · have hns : (Cache.writebackComplete c rs).status sl = c.status sl := (hst sl).2 hq
        exact absurd (by unfold Newer; rw [hns]; exact hn) (ha sl d he)
    · exact h.disk a (fun sl d he hn => hex ⟨sl, d, he, hn⟩)

theorem coh_evict {c k m} (h : Coh c k m) {S : PSet Cache.Slot}
    (hS : ∀ sl, S sl → (∃ a d, c.entries sl = some (.filled a d)) ∧ c.status sl = some .clean)
    (hwf : Cache.Wf (Cache.evict c S)) : Coh (Cache.evict c S) k m := by
  have hout : ∀ id sl, c.outstanding id = some sl → ¬ S sl := by
    intro id sl ho hs
    obtain ⟨⟨a, d, he⟩, hst⟩ := hS sl hs
    rcases h.out id sl ho with ⟨b, he', _⟩ | ⟨b, d', _, hs', _⟩
    · rw [he] at he'; cases he'
    · rw [hst] at hs'; cases hs'
  refine { wf := hwf, inj := h.inj, out := ?_, track := h.track, disj := h.disj, filled := ?_,
           disk := ?_, candC := h.candC, candM := h.candM }
  · intro id sl ho
    have hn := hout id sl ho
    unfold Tracked
    rw [(Cache.evict_entry.2 hn).1, (Cache.evict_entry.2 hn).2]
    exact h.out id sl ho
  · intro sl a d he
    by_cases hs : S sl
    · rw [(Cache.evict_entry.1 hs).1] at he; cases he
    · rw [(Cache.evict_entry.2 hs).1] at he
      unfold Newer; rw [(Cache.evict_entry.2 hs).2]; exact h.filled sl a d he
  · intro a ha
    refine h.disk a ?_
    intro sl d he hn
    by_cases hs : S sl
    · obtain ⟨_, hst⟩ := hS sl hs
      rcases hn with hn | hn <;> rw [hst] at hn <;> cases hn
    · refine ha sl d (by rw [(Cache.evict_entry.2 hs).1]; exact he) ?_
      unfold Newer; rw [(Cache.evict_entry.2 hs).2]; exact hn

theorem coh_evictable {c k m} (h : Coh c k m) {addrs : PSet Address}
    (hA : ∀ a sl, addrs a → c.lookup a = some sl →
      (∃ b d, c.entries sl = some (.filled b d)) ∧ c.status sl = some .clean) :
    ∃ m', Mem.Next m (some (.durable addrs)) m' ∧ Coh c k m' := by
  refine ⟨_, .durable, { h with candC := ?_, candM := ?_ }⟩
  · intro a
    refine ⟨fun ha => h.disk a ?_, h.candC a⟩
    intro sl d he hn
    obtain ⟨_, hst⟩ := hA a sl ha ((h.wf.look a sl).mpr ⟨_, he, rfl⟩)
    rcases hn with hn | hn <;> rw [hst] at hn <;> cases hn
  · intro a; exact ⟨fun _ => rfl, h.candM a⟩

theorem coh_diskRead {g c k k' m id a d} (h : Coh c k m)
    (hk : AsyncDisk.Next g k (.didRead id a d) k') : Coh c k' m := by
  cases hk with
  | read hreq hwf hd =>
  have hh : k.requests.Has id := by simp [PMap.Has, hreq]
  refine { h with out := ?_, track := ?_, disj := ?_ }
  · intro id' sl ho
    by_cases hi : id' = id
    · subst hi
      rcases h.out id' sl ho with ⟨b, he, hx⟩ | ⟨b, e, he, _, hx⟩
      · refine .inl ⟨b, he, .inr ⟨d, PMap.insert_same _ _ _, ?_⟩⟩
        rcases hx with hx | ⟨e, hx, _⟩
        · rw [hreq] at hx; cases hx
          have := h.disk a (fun sl' d' he' hn => by
            have h1 := (h.wf.look a sl').mpr ⟨_, he', rfl⟩
            have h2 := (h.wf.look a sl).mpr ⟨_, he, rfl⟩
            rw [h1] at h2; cases h2; rw [he] at he'; cases he')
          intro x hx; exact hd x (by rw [this, hx])
        · exact absurd (by simp [PMap.Has, hx]) (h.disj id' hh)
      · rcases hx with hx | ⟨hx, _⟩
        · rw [hreq] at hx; cases hx
        · exact absurd (by simp [PMap.Has, hx]) (h.disj id' hh)
    · have h1 : k.requests.remove id id' = k.requests id' := PMap.remove_other _ hi
      have h2 : k.responses.insert id (.read d) id' = k.responses id' := PMap.insert_other _ _ hi
      unfold Tracked
      simp only [h1, h2]
      exact h.out id' sl ho
  · intro id' hid
    by_cases hi : id' = id
    · subst hi; exact h.track id' (.inl hh)
    · refine h.track id' ?_
      unfold PMap.Has at hid ⊢
      simp only [PMap.remove_other _ hi, PMap.insert_other _ _ hi] at hid
      exact hid
  · intro id' hid hp
    unfold PMap.Has at hid hp
    by_cases hi : id' = id
    · subst hi; simp at hid
    · simp only [PMap.remove_other _ hi] at hid
      simp only [PMap.insert_other _ _ hi] at hp
      exact h.disj id' hid hp

theorem coh_diskWrite {g c k k' m id a d} (h : Coh c k m)
    (hk : AsyncDisk.Next g k (.didWrite id a d) k') : Coh c k' m := by
  cases hk with
  | write hreq hwf =>
  have hh : k.requests.Has id := by simp [PMap.Has, hreq]
  obtain ⟨sl, ho⟩ := (PMap.has_iff _ _).mp (h.track id (.inl hh))
  obtain ⟨he, hst⟩ : c.entries sl = some (.filled a d) ∧ c.status sl = some .writeback := by
    rcases h.out id sl ho with ⟨b, he, hx⟩ | ⟨b, e, he, hst, hx⟩
    · rcases hx with hx | ⟨e, hx, _⟩
      · rw [hreq] at hx; cases hx
      · exact absurd (by simp [PMap.Has, hx]) (h.disj id hh)
    · rcases hx with hx | ⟨hx, _⟩
      · rw [hreq] at hx; cases hx; exact ⟨he, hst⟩
      · exact absurd (by simp [PMap.Has, hx]) (h.disj id hh)
  have hmem : m.mem a = some d := (h.filled sl a d he).2 (.inr hst)
  refine { h with out := ?_, track := ?_, disj := ?_, disk := ?_, candC := ?_ }
  · intro id' sl' ho'
    by_cases hi : id' = id
    · subst hi
      rw [ho] at ho'; cases ho'
      exact .inr ⟨a, d, he, hst, .inr ⟨PMap.insert_same _ _ _, PMap.insert_same _ _ _⟩⟩
    · have h1 : k.requests.remove id id' = k.requests id' := PMap.remove_other _ hi
      have h2 : k.responses.insert id .write id' = k.responses id' := PMap.insert_other _ _ hi
      unfold Tracked
      simp only [h1, h2]
      rcases h.out id' sl' ho' with hx | ⟨b, e, he', hst', hx⟩
      · exact .inl hx
      · refine .inr ⟨b, e, he', hst', ?_⟩
        rcases hx with hx | ⟨hx, hc⟩
        · exact .inl hx
        · refine .inr ⟨hx, ?_⟩
          have hne : b ≠ a := by
            rintro rfl
            have e1 := (h.wf.look b sl).mpr ⟨_, he, rfl⟩
            have e2 := (h.wf.look b sl').mpr ⟨_, he', rfl⟩
            rw [e1] at e2; cases e2
            exact hi (h.inj _ _ _ ho' ho)
          rw [PMap.insert_other _ _ hne]; exact hc
  · intro id' hid
    by_cases hi : id' = id
    · subst hi; exact h.track id' (.inl hh)
    · refine h.track id' ?_
      unfold PMap.Has at hid ⊢
      simp only [PMap.remove_other _ hi, PMap.insert_other _ _ hi] at hid
      exact hid
  · intro id' hid hp
    unfold PMap.Has at hid hp
    by_cases hi : id' = id
    · subst hi; simp at hid
    · simp only [PMap.remove_other _ hi] at hid
      simp only [PMap.insert_other _ _ hi] at hp
      exact h.disj id' hid hp
  · intro b hb
    by_cases hba : b = a
    · subst hba; simp [hmem]
    · show k.content.insert a d b = _
      rw [PMap.insert_other _ _ hba]; exact h.disk b hb
  · intro b
    by_cases hba : b = a
    · subst hba
      show m.cand b (k.content.insert b d b)
      rw [PMap.insert_same, ← hmem]; exact h.candM b
    · show m.cand b (k.content.insert a d b)
      rw [PMap.insert_other _ _ hba]; exact h.candC b

/-- Every step of cache and disk is a step of the memory. -/
theorem coh_step {g s l s' m} (h : Coh s.cache s.disk m) (hd : l.distinct) (hs : Next g s l s') :
    ∃ m', Mem.Next m l.obs m' ∧ Coh s'.cache s'.disk m' := by
  cases hs with
  | access hc =>
    have hwf := Cache.wf_step h.wf hc
    cases hc with
    | access hr hw => exact coh_access h hr hw hwf
  | evictable hc =>
    cases hc with
    | evictable hA => exact coh_evictable h hA
  | @ops rq rs c' k' hc hk =>
    refine ⟨m, .tau, ?_⟩
    have hwf := Cache.wf_step h.wf hc
    cases hc with
    | loadInitiate mp _ hm hinj hfresh hrq => exact coh_loadInitiate h hm hinj hfresh hrq hk
    | loadComplete _ hrs => exact coh_loadComplete h hrs hk hwf
    | writebackInitiate _ hfresh hrq => exact coh_writebackInitiate h hd hfresh hrq hk hwf
    | writebackComplete _ hrs => exact coh_writebackComplete h hrs hk hwf
  | cacheInternal hc =>
    refine ⟨m, .tau, ?_⟩
    have hwf := Cache.wf_step h.wf hc
    cases hc with
    | reserve mp hm => exact coh_reserve h hm
    | evict S hS => exact coh_evict h hS hwf
    | noop => exact h
  | diskRead hk => exact ⟨m, .tau, coh_diskRead h hk⟩
  | diskWrite hk => exact ⟨m, .tau, coh_diskWrite h hk⟩
  | crash n hk =>
    cases hk with
    | crash =>
      exact ⟨_, .crash h.candC, coh_init n _ _ _ (fun _ => rfl) (fun _ => rfl)⟩

theorem coh_exec {g c0 tr s} (h : (machine g c0).Exec tr s) (hd : ∀ l ∈ tr, l.distinct) :
    ∃ m, (Mem.machine c0).Exec (tr.map Label.obs) m ∧ Coh s.cache s.disk m := by
  revert hd
  apply Machine.exec_invariant (I := fun tr s => (∀ l ∈ tr, l.distinct) →
    ∃ m, (Mem.machine c0).Exec (tr.map Label.obs) m ∧ Coh s.cache s.disk m) _ _ h
  · rintro s ⟨n, rfl⟩ _
    exact ⟨_, ⟨_, rfl, .nil _⟩, coh_init n c0 _ _ (fun _ => rfl) (fun _ => rfl)⟩
  · intro tr s l s' ih hs hd
    obtain ⟨m, he, hc⟩ := ih (fun x hx => hd x (by simp [hx]))
    obtain ⟨m', hn, hc'⟩ := coh_step hc (hd l (by simp)) hs
    refine ⟨m', ?_, hc'⟩
    rw [List.map_append]
    exact he.snoc hn

end Verif.CacheSystem
