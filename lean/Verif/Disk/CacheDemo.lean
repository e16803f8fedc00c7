import Verif.Disk.CacheSystem
/-
Concrete executions of the cache on the disk, for one page in one slot. No code is modelled here:
the lemmas say which steps of `CacheSystem` are possible, in terms of a summary of the state.
-/
namespace Verif.CacheDemo
open Verif.CacheSystem
open AsyncDisk (ID Req Resp)
open Cache (Entry Status Slot)

def demoG : Geometry := ⟨4, 4⟩
def pg : Address := ⟨1, 2⟩
theorem pg_wf : pg.wf demoG := ⟨by decide, by decide⟩

/-- the disk after an exchange of requests and responses -/
def diskOps (k : AsyncDisk.State) (rq : PMap ID Req) (rs : PMap ID Resp) : AsyncDisk.State :=
  { k with
    requests := k.requests.unionRight rq
    responses := fun id => if rs id = none then k.responses id else none }

/-- one-page map -/
def at1 (d : RawPage) : PMap Address RawPage := PMap.empty.insert pg d

/-- What we know about the page, its slot and the requests in flight. -/
structure Sum (s : State) (e : Entry) (st : Status) (l : Option Slot) (o : PMap ID Slot)
    (rq : PMap ID Req) (rs : PMap ID Resp) (ct : Option RawPage) : Prop where
  e : s.cache.entries 0 = some e
  st : s.cache.status 0 = some st
  l : s.cache.lookup pg = l
  wf : Cache.Wf s.cache
  o : s.cache.outstanding = o
  rq : s.disk.requests = rq
  rs : s.disk.responses = rs
  ct : s.disk.content pg = ct

theorem sum_init (c0 : PMap Address RawPage) :
    Sum ⟨Cache.init 1, { AsyncDisk.init with content := c0 }⟩ .empty .notFilled none
      PMap.empty PMap.empty PMap.empty (c0 pg) :=
  ⟨rfl, rfl, rfl, Cache.wf_init 1, rfl, rfl, rfl, rfl⟩

/-- put page `pg` in slot 0 -/
def mp0 : PMap Slot Address := PMap.empty.insert 0 pg

theorem mp0_some {sl a} : mp0 sl = some a ↔ sl = 0 ∧ a = pg := by
  unfold mp0
  by_cases h : sl = 0
  · subst h; simp [eq_comm]
  · simp [PMap.insert, h]

theorem mp0_inj : mp0.Injective := by
  intro j k v hj hk
  rw [(mp0_some.mp hj).1, (mp0_some.mp hk).1]

theorem valid0 {s st o rq rs ct} (h : Sum s .empty st none o rq rs ct) :
    Cache.ValidNewSlots s.cache mp0 := by
  refine ⟨mp0_inj, ?_, ?_⟩
  · intro sl a ha hh; rw [(mp0_some.mp ha).2] at hh; exact hh h.l
  · intro sl hh
    obtain ⟨a, ha⟩ := (PMap.has_iff _ _).mp hh
    rw [(mp0_some.mp ha).1]; exact h.e

theorem look0 (m : PMap Address Slot) : m.unionRight mp0.invert pg = some 0 :=
  PMap.unionRight_some.mpr (.inl (PMap.invert_of mp0_inj (mp0_some.mpr ⟨rfl, rfl⟩)))

theorem do_reserve {s st o rq rs ct} (h : Sum s .empty st none o rq rs ct) :
    ∃ s', Next demoG s .cacheInternal s' ∧ Sum s' (.reserved pg) st (some 0) o rq rs ct := by
  have hn := Cache.Next.reserve mp0 (valid0 h)
  refine ⟨_, .cacheInternal hn, ?_, h.st, look0 _, Cache.wf_step h.wf hn, h.o, h.rq, h.rs, h.ct⟩
  exact (PMap.unionRight_some (m := s.cache.entries)).mpr (.inl (Cache.mapVal_some.mpr ⟨pg, mp0_some.mpr ⟨rfl, rfl⟩, rfl⟩))

theorem at1_some {d a x} : at1 d a = some x ↔ a = pg ∧ x = d := by
  unfold at1
  by_cases h : a = pg
  · subst h; simp [eq_comm]
  · simp [PMap.insert, h]

theorem do_write {s e st o rq rs ct} (d : RawPage) (h : Sum s e st (some 0) o rq rs ct)
    (hv : e = .reserved pg ∨ (∃ x, e = .filled pg x) ∧ st ≠ .writeback) :
    ∃ s', Next demoG s (.access PMap.empty (at1 d)) s' ∧
      Sum s' (.filled pg d) .dirty (some 0) o rq rs ct := by
  have hn : Cache.Next s.cache (.access PMap.empty (at1 d)) (Cache.access s.cache (at1 d)) := by
    refine .access (fun _ _ hr => by cases hr) ?_
    intro a ha
    obtain ⟨x, hx⟩ := (PMap.has_iff _ _).mp ha
    obtain ⟨rfl, rfl⟩ := at1_some.mp hx
    refine ⟨0, h.l, ?_⟩
    rcases hv with rfl | ⟨⟨y, rfl⟩, hs⟩
    · exact .inl ⟨pg, h.e⟩
    · exact .inr ⟨⟨pg, y, h.e⟩, by rw [h.st]; exact fun hc => hs (Option.some.inj hc)⟩
  have ha := Cache.access_entry (writes := at1 d) h.wf h.l (at1_some.mpr ⟨rfl, rfl⟩)
  exact ⟨_, .access hn, ha.1, ha.2, h.l, Cache.wf_step h.wf hn, h.o, h.rq, h.rs, h.ct⟩

/-- a batch of write-back requests for the page, one for each identifier in `ids` -/
def batch (d : RawPage) (ids : List ID) : PMap ID Req :=
  fun i => if i ∈ ids then some (.write pg d) else none

theorem batch_some {d ids i r} : batch d ids i = some r ↔ i ∈ ids ∧ r = .write pg d := by
  unfold batch; by_cases h : i ∈ ids <;> simp [h, eq_comm]

theorem do_writeback {s d o rq rs ct} (ids : List ID)
    (h : Sum s (.filled pg d) .dirty (some 0) o rq rs ct) (hne : ids ≠ [])
    (ho : ∀ i ∈ ids, o i = none) (hrq : ∀ i ∈ ids, rq i = none) (hrs : ∀ i ∈ ids, rs i = none) :
    ∃ s', Next demoG s (.ops (batch d ids) PMap.empty) s' ∧
      Sum s' (.filled pg d) .writeback (some 0)
        (fun i => if i ∈ ids then some 0 else o i)
        (fun i => if i ∈ ids then some (.write pg d) else rq i) rs ct := by
  have hmem : ∀ i, (batch d ids).Has i → i ∈ ids := by
    intro i hi
    obtain ⟨x, hx⟩ := (PMap.has_iff _ _).mp hi
    exact (batch_some.mp hx).1
  obtain ⟨i0, hi0⟩ := List.exists_mem_of_ne_nil ids hne
  have hn : Cache.Next s.cache (.ops (batch d ids) PMap.empty)
      (Cache.writebackInitiate s.cache (batch d ids)) := by
    refine .writebackInitiate ⟨i0, ?_⟩ ?_ ?_
    · simp [PMap.Has, batch, hi0]
    · intro i hi hc; rw [h.o] at hc; exact hc (ho i (hmem i hi))
    · intro i r hr
      obtain ⟨_, rfl⟩ := batch_some.mp hr
      exact ⟨pg, d, 0, rfl, h.l, h.e, h.st⟩
  have hk : AsyncDisk.Next demoG s.disk (.ops (batch d ids) PMap.empty)
      (diskOps s.disk (batch d ids) PMap.empty) := by
    refine .ops ?_ ?_ (fun _ _ hr => by cases hr)
    · intro i hi hc; rw [h.rq] at hc; exact hc (hrq i (hmem i hi))
    · intro i hi hc; rw [h.rs] at hc; exact hc (hrs i (hmem i hi))
  have hslots : ∀ i, Cache.writebackSlots s.cache (batch d ids) i =
      if i ∈ ids then some 0 else none := by
    intro i
    by_cases hi : i ∈ ids <;> simp [Cache.writebackSlots, batch, hi, h.l]
  refine ⟨_, .ops hn hk, h.e, ?_, h.l, Cache.wf_step h.wf hn, ?_, ?_, ?_, h.ct⟩
  · exact (Cache.status_update _ _ _ _).1 ⟨i0, by rw [hslots]; simp [hi0]⟩
  · funext i
    simp only [Cache.writebackInitiate, PMap.unionRight, hslots, h.o]
    by_cases hi : i ∈ ids <;> simp [hi]
  · funext i
    simp only [diskOps, PMap.unionRight, batch, h.rq]
    by_cases hi : i ∈ ids <;> simp [hi]
  · funext i; simp [diskOps, h.rs]

theorem do_diskWrite {s e st l o rq rs ct} {d : RawPage} (id : ID)
    (h : Sum s e st l o rq rs ct) (hid : rq id = some (.write pg d)) :
    ∃ s', Next demoG s .diskInternal s' ∧
      Sum s' e st l o (rq.remove id) (rs.insert id .write) (some d) := by
  have hk : AsyncDisk.Next demoG s.disk (.didWrite id pg d) _ := .write (by rw [h.rq]; exact hid) pg_wf
  refine ⟨_, .diskWrite hk, h.e, h.st, h.l, h.wf, h.o, ?_, ?_, ?_⟩
  · simp [h.rq]
  · simp [h.rs]
  · simp

/-- one response -/
def one (id : ID) (r : Resp) : PMap ID Resp := PMap.empty.insert id r

theorem one_some {id r i x} : one id r i = some x ↔ i = id ∧ x = r := by
  unfold one
  by_cases h : i = id
  · subst h; simp [eq_comm]
  · simp [PMap.insert, h]

theorem one_has {id r i} : (one id r).Has i ↔ i = id := by
  rw [PMap.has_iff]; simp [one_some]

theorem do_written {s d l o rq rs ct} (id : ID)
    (h : Sum s (.filled pg d) .writeback l o rq rs ct) (ho : o id = some 0)
    (hid : rs id = some .write) :
    ∃ s', Next demoG s (.ops PMap.empty (one id .write)) s' ∧
      Sum s' (.filled pg d) .clean l (o.remove id) rq (rs.remove id) ct := by
  have hn : Cache.Next s.cache (.ops PMap.empty (one id .write))
      (Cache.writebackComplete s.cache (one id .write)) := by
    refine .writebackComplete ⟨id, one_has.mpr rfl⟩ ?_
    intro i r hr
    obtain ⟨rfl, rfl⟩ := one_some.mp hr
    exact ⟨rfl, 0, pg, d, by rw [h.o]; exact ho, h.e, h.st⟩
  have hk : AsyncDisk.Next demoG s.disk (.ops PMap.empty (one id .write))
      (diskOps s.disk PMap.empty (one id .write)) := by
    refine .ops (fun _ hc => absurd rfl hc) (fun _ hc => absurd rfl hc) ?_
    intro i r hr
    obtain ⟨rfl, rfl⟩ := one_some.mp hr
    rw [h.rs]; exact hid
  refine ⟨_, .ops hn hk, h.e, ?_, h.l, Cache.wf_step h.wf hn, ?_, ?_, ?_, h.ct⟩
  · refine (Cache.status_update _ _ _ _).1 ⟨id, ?_⟩
    exact PMap.restrict_some.mpr ⟨one_has.mpr rfl, by rw [h.o]; exact ho⟩
  · funext i
    simp only [Cache.writebackComplete, PMap.removeKeys, one_has, PMap.remove, h.o]
  · funext i; simp [diskOps, PMap.unionRight, h.rq]
  · funext i
    by_cases hi : i = id
    · subst hi; simp [diskOps, one]
    · simp [diskOps, one, PMap.insert, PMap.remove, hi, h.rs]

theorem do_evict {s d o rq rs ct} (h : Sum s (.filled pg d) .clean (some 0) o rq rs ct) :
    ∃ s', Next demoG s .cacheInternal s' ∧ Sum s' .empty .notFilled none o rq rs ct := by
  have hn : Cache.Next s.cache .internal _ := .evict (fun sl => sl = 0) (by
    rintro sl rfl; exact ⟨⟨pg, d, h.e⟩, h.st⟩)
  refine ⟨_, .cacheInternal hn, (Cache.evict_entry.1 rfl).1, (Cache.evict_entry.1 rfl).2, ?_,
    Cache.wf_step h.wf hn, h.o, h.rq, h.rs, h.ct⟩
  simp only [Cache.evict, PMap.removeKeys]
  rw [if_pos ⟨0, _, rfl, h.e, rfl⟩]

/-- one read request for the page -/
def ask (id : ID) : PMap ID Req := PMap.empty.insert id (.read pg)

theorem ask_some {id i x} : ask id i = some x ↔ i = id ∧ x = .read pg := by
  unfold ask
  by_cases h : i = id
  · subst h; simp [eq_comm]
  · simp [PMap.insert, h]

theorem do_load {s st o rq rs ct} (id : ID) (h : Sum s .empty st none o rq rs ct)
    (ho : o id = none) (hrq : rq id = none) (hrs : rs id = none) :
    ∃ s', Next demoG s (.ops (ask id) PMap.empty) s' ∧
      Sum s' (.loading pg) st (some 0) (o.insert id 0) (rq.insert id (.read pg)) rs ct := by
  have hmem : ∀ i, (ask id).Has i → i = id := by
    intro i hi
    obtain ⟨x, hx⟩ := (PMap.has_iff _ _).mp hi
    exact (ask_some.mp hx).1
  have hn : Cache.Next s.cache (.ops (ask id) PMap.empty)
      (Cache.loadInitiate s.cache (ask id) mp0) := by
    refine .loadInitiate mp0 ⟨id, by simp [PMap.Has, ask]⟩ (valid0 h) ?_ ?_ ⟨?_, ?_⟩
    · intro i j v hi hj; rw [(ask_some.mp hi).1, (ask_some.mp hj).1]
    · intro i hi hc; rw [h.o, hmem i hi] at hc; exact hc ho
    · intro i r hr; exact ⟨pg, (ask_some.mp hr).2⟩
    · intro a
      constructor
      · rintro ⟨i, hi⟩
        have := (ask_some.mp hi).2
        cases this
        exact ⟨0, mp0_some.mpr ⟨rfl, rfl⟩⟩
      · rintro ⟨i, hi⟩
        rw [(mp0_some.mp hi).2]
        exact ⟨id, ask_some.mpr ⟨rfl, rfl⟩⟩
  have hk : AsyncDisk.Next demoG s.disk (.ops (ask id) PMap.empty)
      (diskOps s.disk (ask id) PMap.empty) := by
    refine .ops ?_ ?_ (fun _ _ hr => by cases hr)
    · intro i hi hc; rw [h.rq, hmem i hi] at hc; exact hc hrq
    · intro i hi hc; rw [h.rs, hmem i hi] at hc; exact hc hrs
  refine ⟨_, .ops hn hk, ?_, h.st, look0 _, Cache.wf_step h.wf hn, ?_, ?_, ?_, h.ct⟩
  · exact (PMap.unionRight_some (m := s.cache.entries)).mpr (.inl (Cache.mapVal_some.mpr ⟨pg, mp0_some.mpr ⟨rfl, rfl⟩, rfl⟩))
  · funext i
    simp only [Cache.loadInitiate, PMap.unionRight, ask, PMap.insert, h.o]
    by_cases hi : i = id
    · simp [hi, PMap.invert_of mp0_inj (mp0_some.mpr ⟨rfl, rfl⟩ : mp0 0 = some pg)]
    · simp [hi]
  · funext i
    simp only [diskOps, PMap.unionRight, ask, PMap.insert, h.rq]
    by_cases hi : i = id <;> simp [hi]
  · funext i; simp [diskOps, h.rs]

theorem do_diskRead {s e st l o rq rs} {d : RawPage} (id : ID)
    (h : Sum s e st l o rq rs (some d)) (hid : rq id = some (.read pg)) :
    ∃ s', Next demoG s .diskInternal s' ∧
      Sum s' e st l o (rq.remove id) (rs.insert id (.read d)) (some d) := by
  have hk : AsyncDisk.Next demoG s.disk (.didRead id pg d) _ :=
    .read (by rw [h.rq]; exact hid) pg_wf (by rw [h.ct]; rintro x ⟨⟩; rfl)
  refine ⟨_, .diskRead hk, h.e, h.st, h.l, h.wf, h.o, ?_, ?_, h.ct⟩
  · simp [h.rq]
  · simp [h.rs]

theorem do_loaded {s st l o rq rs ct} {d : RawPage} (id : ID)
    (h : Sum s (.loading pg) st l o rq rs ct) (ho : o id = some 0)
    (hid : rs id = some (.read d)) :
    ∃ s', Next demoG s (.ops PMap.empty (one id (.read d))) s' ∧
      Sum s' (.filled pg d) .clean l (o.remove id) rq (rs.remove id) ct := by
  have hv : Cache.ValidLoadResponses s.cache (one id (.read d)) := by
    intro i r hr
    obtain ⟨rfl, rfl⟩ := one_some.mp hr
    exact ⟨⟨d, rfl⟩, 0, pg, by rw [h.o]; exact ho, h.e⟩
  have hn : Cache.Next s.cache (.ops PMap.empty (one id (.read d))) _ :=
    .loadComplete ⟨id, one_has.mpr rfl⟩ hv
  have hk : AsyncDisk.Next demoG s.disk (.ops PMap.empty (one id (.read d)))
      (diskOps s.disk PMap.empty (one id (.read d))) := by
    refine .ops (fun _ hc => absurd rfl hc) (fun _ hc => absurd rfl hc) ?_
    intro i r hr
    obtain ⟨rfl, rfl⟩ := one_some.mp hr
    rw [h.rs]; exact hid
  have hinv : (s.cache.outstanding.restrict (one id (.read d)).Has).invert 0 = some id := by
    refine PMap.invert_of ?_ (PMap.restrict_some.mpr ⟨one_has.mpr rfl, by rw [h.o]; exact ho⟩)
    intro i j v hi hj
    rw [one_has.mp (PMap.restrict_some.mp hi).1, one_has.mp (PMap.restrict_some.mp hj).1]
  obtain ⟨a, d', h1, _, h3, h4, h5⟩ := Cache.loadComplete_entry hv hinv
  rw [h.e] at h3; cases h3
  cases (one_some.mp h1).2
  refine ⟨_, .ops hn hk, h4, h5, h.l, Cache.wf_step h.wf hn, ?_, ?_, ?_, h.ct⟩
  · funext i
    simp only [Cache.loadComplete, PMap.removeKeys, one_has, PMap.remove, h.o]
  · funext i; simp [diskOps, PMap.unionRight, h.rq]
  · funext i
    by_cases hi : i = id
    · subst hi; simp [diskOps, one]
    · simp [diskOps, one, PMap.insert, PMap.remove, hi, h.rs]

theorem do_read {s d st o rq rs ct} (h : Sum s (.filled pg d) st (some 0) o rq rs ct) :
    ∃ s', Next demoG s (.access (at1 d) PMap.empty) s' := by
  refine ⟨_, .access (.access ?_ (fun _ hc => absurd rfl hc))⟩
  intro a x hx
  obtain ⟨rfl, rfl⟩ := at1_some.mp hx
  exact ⟨0, pg, h.l, h.e⟩

theorem do_check {s d o rq rs ct} (h : Sum s (.filled pg d) .clean (some 0) o rq rs ct) :
    ∃ s', Next demoG s (.evictable (fun a => a = pg)) s' ∧
      Sum s' (.filled pg d) .clean (some 0) o rq rs ct := by
  refine ⟨_, .evictable (.evictable ?_), ?_⟩
  · rintro a sl rfl hl
    rw [h.l] at hl; cases hl
    exact ⟨⟨pg, d, h.e⟩, h.st⟩
  · exact h

theorem do_crash {s e st l o rq rs ct} (h : Sum s e st l o rq rs ct) :
    ∃ s', Next demoG s .crash s' ∧
      Sum s' .empty .notFilled none PMap.empty PMap.empty PMap.empty ct := by
  exact ⟨_, .crash 1 .crash, rfl, rfl, rfl, Cache.wf_init 1, rfl, rfl, rfl, h.ct⟩

/-- Steps before the lost update: written twice, written back twice, the first write-back batch
naming the page twice. -/
def lostTrace : List Label :=
  [.cacheInternal, .access PMap.empty (at1 [1]), .ops (batch [1] [1, 2]) PMap.empty,
   .diskInternal, .ops PMap.empty (one 1 .write), .access PMap.empty (at1 [2]),
   .ops (batch [2] [3]) PMap.empty, .diskInternal, .ops PMap.empty (one 3 .write),
   .cacheInternal, .diskInternal, .ops (ask 4) PMap.empty, .diskInternal,
   .ops PMap.empty (one 4 (.read [1])), .access (at1 [1]) PMap.empty]

theorem lost_exec : ∃ s, (machine demoG PMap.empty).Exec lostTrace s := by
  suffices hh : ∃ s, (machine demoG PMap.empty).Run
      ⟨Cache.init 1, { AsyncDisk.init with content := PMap.empty }⟩ lostTrace s by
    obtain ⟨s, hh⟩ := hh; exact ⟨s, _, ⟨1, rfl⟩, hh⟩
  have s0 := sum_init PMap.empty
  obtain ⟨_, n, s1⟩ := do_reserve s0
  refine Machine.Run.econs n ?_
  obtain ⟨_, n, s2⟩ := do_write [1] s1 (.inl rfl)
  refine Machine.Run.econs n ?_
  obtain ⟨_, n, s3⟩ := do_writeback [1, 2] s2 (by simp) (by simp) (by simp) (by simp)
  refine Machine.Run.econs n ?_
  obtain ⟨_, n, s4⟩ := do_diskWrite (d := [1]) 1 s3 (by simp)
  refine Machine.Run.econs n ?_
  obtain ⟨_, n, s5⟩ := do_written 1 s4 (by simp) (by simp)
  refine Machine.Run.econs n ?_
  obtain ⟨_, n, s6⟩ := do_write [2] s5 (.inr ⟨⟨_, rfl⟩, by simp⟩)
  refine Machine.Run.econs n ?_
  obtain ⟨_, n, s7⟩ := do_writeback [3] s6 (by simp) (by simp [PMap.remove])
    (by simp [PMap.remove]) (by simp [PMap.remove, PMap.insert])
  refine Machine.Run.econs n ?_
  obtain ⟨_, n, s8⟩ := do_diskWrite (d := [2]) 3 s7 (by simp)
  refine Machine.Run.econs n ?_
  obtain ⟨_, n, s9⟩ := do_written 3 s8 (by simp) (by simp)
  refine Machine.Run.econs n ?_
  obtain ⟨_, n, s10⟩ := do_evict s9
  refine Machine.Run.econs n ?_
  obtain ⟨_, n, s11⟩ := do_diskWrite (d := [1]) 2 s10 (by simp [PMap.remove])
  refine Machine.Run.econs n ?_
  obtain ⟨_, n, s12⟩ := do_load 4 s11 (by simp [PMap.remove]) (by simp [PMap.remove])
    (by simp [PMap.remove, PMap.insert])
  refine Machine.Run.econs n ?_
  obtain ⟨_, n, s13⟩ := do_diskRead 4 s12 (by simp)
  refine Machine.Run.econs n ?_
  obtain ⟨_, n, s14⟩ := do_loaded (d := [1]) 4 s13 (by simp) (by simp)
  refine Machine.Run.econs n ?_
  obtain ⟨_, n⟩ := do_read s14
  exact Machine.Run.econs n Machine.Run.enil

/-- Written, written back, checked, crash, loaded again and read. -/
def goodHead : List Label :=
  [.cacheInternal, .access PMap.empty (at1 [1]), .ops (batch [1] [1]) PMap.empty,
   .diskInternal, .ops PMap.empty (one 1 .write)]

def goodTail : List Label :=
  [.crash, .ops (ask 2) PMap.empty, .diskInternal, .ops PMap.empty (one 2 (.read [1]))]

def goodTrace : List Label :=
  goodHead ++ .evictable (fun a => a = pg) :: (goodTail ++ [.access (at1 [1]) PMap.empty])

theorem good_exec (c0 : PMap Address RawPage) : ∃ s, (machine demoG c0).Exec goodTrace s := by
  suffices hh : ∃ s, (machine demoG c0).Run
      ⟨Cache.init 1, { AsyncDisk.init with content := c0 }⟩ goodTrace s by
    obtain ⟨s, hh⟩ := hh; exact ⟨s, _, ⟨1, rfl⟩, hh⟩
  have s0 := sum_init c0
  obtain ⟨_, n, s1⟩ := do_reserve s0
  refine Machine.Run.econs n ?_
  obtain ⟨_, n, s2⟩ := do_write [1] s1 (.inl rfl)
  refine Machine.Run.econs n ?_
  obtain ⟨_, n, s3⟩ := do_writeback [1] s2 (by simp) (by simp) (by simp) (by simp)
  refine Machine.Run.econs n ?_
  obtain ⟨_, n, s4⟩ := do_diskWrite (d := [1]) 1 s3 (by simp)
  refine Machine.Run.econs n ?_
  obtain ⟨_, n, s5⟩ := do_written 1 s4 (by simp) (by simp)
  refine Machine.Run.econs n ?_
  obtain ⟨_, n, s6⟩ := do_check s5
  refine Machine.Run.econs n ?_
  obtain ⟨_, n, s7⟩ := do_crash s6
  refine Machine.Run.econs n ?_
  obtain ⟨_, n, s12⟩ := do_load 2 s7 rfl rfl rfl
  refine Machine.Run.econs n ?_
  obtain ⟨_, n, s13⟩ := do_diskRead 2 s12 (by simp)
  refine Machine.Run.econs n ?_
  obtain ⟨_, n, s14⟩ := do_loaded (d := [1]) 2 s13 (by simp) (by simp)
  refine Machine.Run.econs n ?_
  obtain ⟨_, n⟩ := do_read s14
  exact Machine.Run.econs n Machine.Run.enil

theorem good_distinct : ∀ l ∈ goodTrace, l.distinct := by
  intro l hl
  simp only [goodTrace, goodHead, goodTail, List.cons_append, List.nil_append, List.mem_cons,
    List.not_mem_nil, or_false] at hl
  rcases hl with rfl | rfl | rfl | rfl | rfl | rfl | rfl | rfl | rfl | rfl | rfl <;>
    simp only [Label.distinct]
  all_goals
    intro i j a d e hi hj
    first
      | (have h1 := (batch_some.mp hi).1; have h2 := (batch_some.mp hj).1; simp at h1 h2; rw [h1, h2])
      | (have h1 := (ask_some.mp hi).2; cases h1)
      | cases hi

end Verif.CacheDemo
