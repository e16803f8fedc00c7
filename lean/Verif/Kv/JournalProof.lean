import Verif.Kv.JournalRing
import Verif.Kv.JournalCache
/-
The journal system is a `JournalView` (JournalSystem_Refines_JournalView.i.dfy): invariant and
simulation.
-/
namespace Verif.Kv.JournalSystem
open JournalCache (select WFSb incr part Ready Other Loading)

theorem incr2 (i : Nat) : i ≠ incr (incr i) := by unfold incr; split <;> split <;> omega

/-- Both superblocks are there, and the selected one describes the journal `v.j1`. -/
structure Common (d : JournalDisk.State) (f : Bool → Superblock) (v : JournalView.State) : Prop where
  holds : Holds d f
  j1 : journalAt d.journal (f (select f)).start (f (select f)).len = some v.j1
  loc : v.persistentLoc = (f (select f)).loc

/-- The view of a system that is not running. -/
structure Down (v : JournalView.State) (q : PMap Nat SyncStatus) : Prop where
  j2 : v.j2 = v.j1
  j3 : v.j3 = v.j1
  gamma : v.gamma = v.j1
  delta : v.delta = []
  frozenLoc : v.frozenLoc = none
  sync : v.syncReqs = q

structure InvLoading (l : Loading) (d : JournalDisk.State) (f : Bool → Superblock) : Prop where
  readJ : d.readJ = .empty
  writeSb : ∀ w, d.writeSb w = none
  writeJ : d.writeJ = .empty
  rec_ : ∀ w id, d.readSb w id → l.read w = some id
  got : ∀ w sb, l.got w = .success sb → f w = sb
  read : ∀ w id, l.read w = some id → l.got w = .unfinished

structure InvOther (o : Other) (d : JournalDisk.State) (f : Bool → Superblock) : Prop where
  sb : o.sb = f (select f)
  which : o.which = select f
  readSb : ∀ w id, ¬ d.readSb w id
  writeSb : ∀ w, d.writeSb w = none
  writeJ : d.writeJ = .empty
  rec_ : ∀ id v, d.readJ id = some v → ∃ w, o.read w = some id ∧ part o.sb w = some v
  uniq : ∀ w w' id, o.read w = some id → o.read w' = some id → w = w'
  read : ∀ w id, o.read w = some id → o.got w = none ∧ part o.sb w ≠ none
  got : ∀ w bs, o.got w = some bs → ∃ v, part o.sb w = some v ∧
    blocksAt d.journal v.start v.len = some bs

/-- `u`: a new superblock is on disk but not acknowledged. `W`: the journal written so far. `F`: the
part of it written after the freeze. -/
structure InvReady (r : Ready) (d : JournalDisk.State) (f : Bool → Superblock) (v : JournalView.State)
    (u : Bool) (W F : List Entry) : Prop where
  sb : f r.which = r.sb
  idx : select f = if u then !r.which else r.which
  readSb : ∀ w id, ¬ d.readSb w id
  readJ : d.readJ = .empty
  len : r.sb.len ≤ r.written
  cap : r.written ≤ numJournalBlocks
  pos : r.isFrozen = true → r.frozenPos ≤ r.written
  floc : ∀ l, r.frozenLoc = some l → r.isFrozen = true ∧ ValidTableLoc l
  mf : r.memFrozen ≠ [] → r.isFrozen = true ∧ r.frozenPos = r.written
  wrec : ∀ id iv, d.writeJ id = some iv → r.writes id
  wpos : ∀ id iv i, d.writeJ id = some iv → i < numJournalBlocks → InCyclic i iv →
    ∃ k, r.sb.len ≤ k ∧ k < r.written ∧ i = posAdd r.sb.start k
  wdisj : ∀ i j iv iv' p, d.writeJ i = some iv → d.writeJ j = some iv' → i ≠ j →
    p < numJournalBlocks → InCyclic p iv → ¬ InCyclic p iv'
  idle : r.commit = .none → u = false ∧ r.sbWrite = none ∧ ∀ w, d.writeSb w = none
  busy : r.commit ≠ .none → ∃ id n, r.sbWrite = some id ∧ r.newSb = some n ∧
    (∀ i, ¬ r.writes i) ∧ r.memFrozen = [] ∧ d.writeSb r.which = none ∧
    d.writeSb (!r.which) = some (id, n) ∧ n.counter = incr r.sb.counter ∧
    (u = true → f (!r.which) = n) ∧ WFSb n
  log : r.commit = .log → ∀ n, r.newSb = some n →
    n.start = r.sb.start ∧ n.len = r.written ∧ n.loc = r.sb.loc
  location : r.commit = .location → ∀ n, r.newSb = some n → r.frozenLoc = some n.loc ∧
    n.start = posAdd r.sb.start r.frozenPos ∧ n.len = r.written - r.frozenPos
  whole : journalAt d.journal r.sb.start r.written = some W
  frz : r.isFrozen = true →
    journalAt d.journal (posAdd r.sb.start r.frozenPos) (r.written - r.frozenPos) = some F
  j2 : v.j2 = if r.isFrozen then F else W
  gamma : v.gamma = (if u = true ∧ r.commit = .location then F else W) ++ r.memFrozen
  j3 : v.j3 = r.replay
  delta : v.delta = r.mem
  vfloc : v.frozenLoc = r.frozenLoc
  sync : v.syncReqs = if u then r.syncReqs.mapVal .to1 else r.syncReqs

/-- The simulation relation. -/
def RelM (m : JournalCache.State) (d : JournalDisk.State) (v : JournalView.State) : Prop :=
  ∃ f, Common d f v ∧
    match m with
    | .loading l => InvLoading l d f ∧ Down v l.syncReqs
    | .other o => InvOther o d f ∧ Down v o.syncReqs
    | .ready r => ∃ u W F, InvReady r d f v u W F

/-- The simulation relation. -/
def Rel (s : State) (v : JournalView.State) : Prop := RelM s.m s.d v

theorem InvReady.start_lt {r d f v u W F} (h : InvReady r d f v u W F) (hc : Common d f v) :
    r.sb.start < numJournalBlocks := by
  have := (hc.holds r.which).2.1; rwa [h.sb] at this

theorem InvReady.notBusy {r d f v u W F} (h : InvReady r d f v u W F) (hw : r.sbWrite = none) :
    r.commit = .none := by
  cases hc : r.commit with
  | none => rfl
  | _ =>
    obtain ⟨id, n, h1, _⟩ := h.busy (by rw [hc]; intro e; cases e)
    rw [hw] at h1; cases h1

theorem mapVal_to2_to1 (q : PMap Nat SyncStatus) (h : ∀ i, q i ≠ some .s2) : q.mapVal .to1 = q := by
  funext i
  simp only [PMap.mapVal]
  cases hq : q i with
  | none => rfl
  | some x => cases x <;> simp_all [SyncStatus.to1]

/-- What is written on the ring without disturbing the described part. -/
theorem crash_rel {s : State} {v : JournalView.State} {d'} (h : Rel s v)
    (hc : JournalDisk.Crash s.d d') :
    Rel ⟨JournalCache.start, d'⟩ ⟨v.j1, v.j1, v.j1, v.j1, [], v.persistentLoc, none, .empty⟩ := by
  obtain ⟨f, hcom, hm⟩ := h
  have hj : journalAt d'.journal (f (select f)).start (f (select f)).len = some v.j1 := by
    rw [← hcom.j1]
    refine (journalAt_congr (hcom.holds _).2.1 (hcom.holds _).2.2.1 fun k hk => ?_).symm
    have hk' : k < numJournalBlocks := Nat.lt_of_lt_of_le hk (hcom.holds _).2.2.1
    refine hc.journal _ (posAdd_lt (hcom.holds _).2.1 (Nat.le_of_lt hk')) fun id iv hiv hin => ?_
    obtain ⟨m, d⟩ := s
    cases m with
    | loading l => rw [hm.1.writeJ] at hiv; cases hiv
    | other o => rw [hm.1.writeJ] at hiv; cases hiv
    | ready r =>
      obtain ⟨u, W, F, hr⟩ := hm
      cases hcm : r.commit with
      | none =>
        obtain ⟨hu, _, _⟩ := hr.idle hcm
        have hidx := hr.idx
        rw [hu] at hidx
        have hse : f (select f) = r.sb := by
          have : select f = r.which := hidx
          rw [this, hr.sb]
        rw [hse] at hk hin
        obtain ⟨k', h1, h2, h3⟩ := hr.wpos id iv _ hiv
          (posAdd_lt (hr.start_lt hcom) (Nat.le_of_lt hk')) hin
        have := posAdd_inj (hr.start_lt hcom) hk' (Nat.lt_of_lt_of_le h2 hr.cap) h3
        omega
      | _ =>
        obtain ⟨_, _, _, _, h3, _⟩ := hr.busy (by rw [hcm]; intro e; cases e)
        exact h3 id (hr.wrec _ _ hiv)
  refine ⟨f, ⟨fun w => ?_, hj, hcom.loc⟩, ⟨hc.quiet.readJ, hc.quiet.writeSb, hc.quiet.writeJ, ?_, ?_, ?_⟩,
    ⟨rfl, rfl, rfl, rfl, rfl, rfl⟩⟩
  · rw [hc.sb]; exact hcom.holds w
  · intro w id hw; exact absurd hw (hc.quiet.readSb w id)
  · intro w sb hw; cases hw
  · intro w id hw; cases hw

/-- Selecting after the other slot got the next counter. -/
theorem select_new {f : Bool → Superblock} {w : Bool} {n : Superblock}
    (hn : n.counter = incr (f w).counter) : select (setAt f (!w) n) = !w := by
  cases w
  · simp [select, setAt, hn]
  · have := incr2 (f true).counter
    simp [select, setAt, hn, this]

/-- The disk writes a superblock. -/
theorem internal_rel {s : State} {v : JournalView.State} {d'} (h : Rel s v)
    (hi : JournalDisk.Internal s.d d') :
    ∃ v', JournalView.Next v .journalInternal v' ∧ Rel ⟨s.m, d'⟩ v' := by
  obtain ⟨m, d⟩ := s
  obtain ⟨f, hcom, hm⟩ := h
  cases hi with
  | @process w id n hw =>
  cases m with
  | loading l => have := hm.1.writeSb w; rw [this] at hw; cases hw
  | other o => have := hm.1.writeSb w; rw [this] at hw; cases hw
  | ready r =>
    obtain ⟨u, W, F, hr⟩ := hm
    have hcb : r.commit ≠ .none := by
      intro e; have := (hr.idle e).2.2 w; rw [this] at hw; cases hw
    obtain ⟨id', n', b1, b2, b3, b4, b5, b6, b7, b8, b9⟩ := hr.busy hcb
    have hww : w = !r.which := by
      cases hx : (w == !r.which)
      · exfalso
        have : w = r.which := by revert hx; cases w <;> cases r.which <;> simp
        subst this; rw [b5] at hw; cases hw
      · exact beq_iff_eq.mp hx
    subst hww
    rw [b6] at hw
    cases hw
    have hsel : select (setAt f (!r.which) n) = !r.which := select_new (by rw [hr.sb]; exact b7)
    have hholds : Holds { d with sb := setAt d.sb (!r.which) (some n) } (setAt f (!r.which) n) := by
      intro x
      show setAt d.sb (!r.which) (some n) x = _ ∧ _
      unfold setAt
      split
      · exact ⟨rfl, b9⟩
      · exact hcom.holds x
    have hstart := hr.start_lt hcom
    cases hu : u with
    | true =>
      -- already there: nothing changes
      subst hu
      have hf : setAt f (!r.which) n = f := by
        funext x; unfold setAt; split
        · next e => rw [e, b8 rfl]
        · rfl
      have hd : setAt d.sb (!r.which) (some n) = d.sb := by
        funext x; unfold setAt; split
        · next e => rw [e, (hcom.holds _).1, b8 rfl]
        · rfl
      rw [hd]
      exact ⟨v, .stutterJ, f, hcom, true, W, F, hr⟩
    | false =>
      subst hu
      have hidx : select f = r.which := hr.idx
      have hse : f (select f) = r.sb := by rw [hidx, hr.sb]
      have hcases : r.commit = .log ∨ r.commit = .location := by
        cases hcm : r.commit with
        | none => exact absurd hcm hcb
        | log => exact .inl rfl
        | location => exact .inr rfl
      rcases hcases with hcm | hcm
      · obtain ⟨e1, e2, e3⟩ := hr.log hcm n b2
        refine ⟨_, .extendLog1, setAt f (!r.which) n, ⟨hholds, ?_, ?_⟩, true, W, F, ?_⟩
        · rw [hsel, setAt_same, e1, e2]
          have hg := hr.gamma
          rw [b4] at hg
          simp at hg
          show _ = some v.gamma
          rw [hg]; exact hr.whole
        · rw [hsel, setAt_same, e3]; exact hcom.loc.trans (by rw [hse])
        · have hg := hr.gamma
          refine { hr with
            sb := by rw [setAt_not']; exact hr.sb
            idx := hsel
            idle := fun e => absurd e hcb
            busy := fun _ => ⟨id, n, b1, b2, b3, b4, b5, b6, b7, fun _ => setAt_same _ _ _, b9⟩
            gamma := ?_
            sync := ?_ }
          · simp [hcm] at hg ⊢; exact hg
          · show v.syncReqs.mapVal _ = _; rw [hr.sync]; rfl
      · obtain ⟨e1, e2, e3⟩ := hr.location hcm n b2
        have hfz := (hr.floc _ e1).1
        have hj2 : v.j2 = F := by rw [hr.j2, hfz]; rfl
        refine ⟨_, .move1to2 (hr.vfloc.trans e1), setAt f (!r.which) n, ⟨hholds, ?_, ?_⟩, true, W, F, ?_⟩
        · rw [hsel, setAt_same, e2, e3]
          show _ = some v.j2
          rw [hj2]; exact hr.frz hfz
        · rw [hsel, setAt_same]
        · refine { hr with
            sb := by rw [setAt_not']; exact hr.sb
            idx := hsel
            idle := fun e => absurd e hcb
            busy := fun _ => ⟨id, n, b1, b2, b3, b4, b5, b6, b7, fun _ => setAt_same _ _ _, b9⟩
            gamma := ?_
            sync := ?_ }
          · show v.j2 = _; rw [hj2, b4]; simp [hcm]
          · show v.syncReqs.mapVal _ = _; rw [hr.sync]; rfl

/-- The pieces of a wrapped interval lie in it. -/
theorem front_sub {a n i : Nat} (h : InCyclic i ⟨a, numJournalBlocks - a⟩) (hn : numJournalBlocks < a + n) :
    InCyclic i ⟨a, n⟩ := by
  unfold InCyclic at *; simp only at *; omega

theorem back_sub {a n i : Nat} (ha : a < numJournalBlocks)
    (h : InCyclic i ⟨0, n - (numJournalBlocks - a)⟩) (hi : i < numJournalBlocks)
    (hn : n ≤ numJournalBlocks) : InCyclic i ⟨a, n⟩ := by
  unfold InCyclic at *; simp only at *; omega

theorem front_back_disj {a n i : Nat} (ha : a < numJournalBlocks) (hn : n ≤ numJournalBlocks)
    (hi : i < numJournalBlocks) (h : InCyclic i ⟨a, numJournalBlocks - a⟩) :
    ¬ InCyclic i ⟨0, n - (numJournalBlocks - a)⟩ := by
  unfold InCyclic at *; simp only at *; omega

/-- What the requests in flight are after a journal write: old ones, or new ones inside the written
interval. -/
structure Wrote (d d' : JournalDisk.State) (id1 : ReqId) (id2 : Option ReqId) (a : Nat)
    (bs : List Block) : Prop where
  start : a < numJournalBlocks
  readSb : d'.readSb = d.readSb
  readJ : d'.readJ = d.readJ
  writeSb : d'.writeSb = d.writeSb
  sb : d'.sb = d.sb
  journal : d'.journal = splice d.journal a bs
  writeJ : ∀ id iv, d'.writeJ id = some iv → d.writeJ id = some iv ∨ (JournalCache.ids id1 id2 id ∧
    ∀ i, i < numJournalBlocks → InCyclic i iv → InCyclic i ⟨a, bs.length⟩)
  disj : ∀ id id' iv iv' i, d'.writeJ id = some iv → d'.writeJ id' = some iv' → id ≠ id' →
    JournalCache.ids id1 id2 id → JournalCache.ids id1 id2 id' → i < numJournalBlocks →
    InCyclic i iv → ¬ InCyclic i iv'
  fresh : ∀ id, JournalCache.ids id1 id2 id → d.writeJ id = none

theorem wrote {d d' : JournalDisk.State} {id1 id2 a bs}
    (h : JournalDisk.Next d (.reqWriteJ id1 id2 a bs) d') : Wrote d d' id1 id2 a bs := by
  cases h with
  | recvWriteJ1 h1 h2 h3 =>
    refine ⟨h2, rfl, rfl, rfl, rfl, rfl, ?_, ?_, ?_⟩
    · intro id iv hv
      show d.writeJ id = _ ∨ _
      change PMap.insert d.writeJ id1 _ id = _ at hv
      by_cases e : id = id1
      · subst e; rw [PMap.insert_same] at hv; cases hv
        exact .inr ⟨.inl rfl, fun i _ h => h⟩
      · rw [PMap.insert_other _ _ e] at hv; exact .inl hv
    · rintro id id' iv iv' i _ _ hne (e | e) (e' | e')
      · exact absurd (e.trans e'.symm) hne
      · cases e'
      · cases e
      · cases e
    · rintro id (e | e)
      · rw [e]; exact h1
      · cases e
  | @recvWriteJ2 _ id2 _ _ h1 h2 hne h3 h4 h5 =>
    refine ⟨h3, rfl, rfl, rfl, rfl, rfl, ?_, ?_, ?_⟩
    · intro id iv hv
      change PMap.insert (PMap.insert d.writeJ id1 _) id2 _ id = _ at hv
      by_cases e : id = id2
      · subst e; rw [PMap.insert_same] at hv; cases hv
        exact .inr ⟨.inr rfl, fun i hi h => back_sub h3 h hi h4⟩
      · rw [PMap.insert_other _ _ e] at hv
        by_cases e : id = id1
        · subst e; rw [PMap.insert_same] at hv; cases hv
          exact .inr ⟨.inl rfl, fun i _ h => front_sub h h5⟩
        · rw [PMap.insert_other _ _ e] at hv; exact .inl hv
    · intro id id' iv iv' i hv hv' hnn he he' hi hin
      change PMap.insert (PMap.insert d.writeJ id1 _) id2 _ id = _ at hv
      change PMap.insert (PMap.insert d.writeJ id1 _) id2 _ id' = _ at hv'
      have g1 : ∀ {x}, JournalCache.ids id1 (some id2) x → x ≠ id2 → x = id1 := by
        rintro x (e | e) hx
        · exact e
        · cases e; exact absurd rfl hx
      by_cases e : id = id2
      · subst e; rw [PMap.insert_same] at hv; cases hv
        have := g1 he' (Ne.symm hnn)
        subst this
        rw [PMap.insert_other _ _ (Ne.symm hne), PMap.insert_same] at hv'; cases hv'
        exact fun hc => front_back_disj h3 h4 hi hc hin
      · have := g1 he e
        subst this
        rw [PMap.insert_other _ _ e, PMap.insert_same] at hv; cases hv
        have e' : id' = id2 := by
          rcases he' with e' | e'
          · exact absurd e'.symm hnn
          · cases e'; rfl
        subst e'
        rw [PMap.insert_same] at hv'; cases hv'
        exact front_back_disj h3 h4 hi hin
    · rintro id (e | e)
      · rw [e]; exact h1
      · cases e; exact h2

/-- Writing journal blocks: what changes in the invariant. -/
theorem write_rel {r : Ready} {d d' f v u W F id1 id2 jr es} (hcom : Common d f v)
    (hr : InvReady r d f v u W F) (hn : r.sbWrite = none)
    (hcap : jr.length + r.written ≤ numJournalBlocks) (hp : parseRange jr = some es)
    (hd : JournalDisk.Next d (.reqWriteJ id1 id2 (posAdd r.sb.start r.written) jr) d') :
    u = false ∧ r.commit = .none ∧ Common d' f v ∧ (∀ w, d'.writeSb w = none) ∧
    (∀ w id, ¬ d'.readSb w id) ∧ d'.readJ = .empty ∧
    (∀ id iv, d'.writeJ id = some iv → r.writes id ∨ JournalCache.ids id1 id2 id) ∧
    (∀ id iv i, d'.writeJ id = some iv → i < numJournalBlocks → InCyclic i iv →
      ∃ k, r.sb.len ≤ k ∧ k < r.written + jr.length ∧ i = posAdd r.sb.start k) ∧
    (∀ i j iv iv' p, d'.writeJ i = some iv → d'.writeJ j = some iv' → i ≠ j →
      p < numJournalBlocks → InCyclic p iv → ¬ InCyclic p iv') ∧
    journalAt d'.journal r.sb.start (r.written + jr.length) = some (W ++ es) ∧
    (r.isFrozen = true → journalAt d'.journal (posAdd r.sb.start r.frozenPos)
      (r.written + jr.length - r.frozenPos) = some (F ++ es)) := by
  have hcm := hr.notBusy hn
  obtain ⟨hu, _, hws⟩ := hr.idle hcm
  have hs := hr.start_lt hcom
  have hw := wrote hd
  have hse : f (select f) = r.sb := by
    have := hr.idx; rw [hu] at this
    have : select f = r.which := this
    rw [this, hr.sb]
  have hnew : ∀ i, i < numJournalBlocks → InCyclic i ⟨posAdd r.sb.start r.written, jr.length⟩ →
      ∃ k, r.written ≤ k ∧ k < r.written + jr.length ∧ i = posAdd r.sb.start k := by
    intro i hi hin
    obtain ⟨k, hk, e⟩ := (inCyclic_pos (posAdd_lt hs hr.cap) (by omega) hi).mp hin
    rw [posAdd_add hs (by omega)] at e
    exact ⟨r.written + k, by omega, by omega, e⟩
  have hold : ∀ id iv i, d.writeJ id = some iv → i < numJournalBlocks → InCyclic i iv →
      ¬ InCyclic i ⟨posAdd r.sb.start r.written, jr.length⟩ := by
    intro id iv i hv hi hin hc
    obtain ⟨k, h1, h2, h3⟩ := hr.wpos id iv i hv hi hin
    obtain ⟨k', h4, h5, h6⟩ := hnew i hi hc
    have := posAdd_inj hs (by omega) (by omega) (h3.symm.trans h6)
    omega
  refine ⟨hu, hcm, ⟨fun w => by rw [hw.sb]; exact hcom.holds w, ?_, hcom.loc⟩, ?_, ?_, ?_, ?_, ?_, ?_, ?_, ?_⟩
  · rw [hw.journal, ← hcom.j1, hse]
    have := journalAt_splice_before (j := d.journal) (a := r.sb.start) (m := r.written) (p := 0)
      (n := r.sb.len) (bs := jr) hs (by omega) (by have := hr.len; omega)
    rwa [posAdd_zero hs] at this
  · intro w; rw [hw.writeSb]; exact hws w
  · intro w id; rw [hw.readSb]; exact hr.readSb w id
  · rw [hw.readJ]; exact hr.readJ
  · intro id iv hv
    rcases hw.writeJ id iv hv with h | ⟨h, _⟩
    · exact .inl (hr.wrec _ _ h)
    · exact .inr h
  · intro id iv i hv hi hin
    rcases hw.writeJ id iv hv with h | ⟨_, h⟩
    · obtain ⟨k, h1, h2, h3⟩ := hr.wpos id iv i h hi hin
      exact ⟨k, h1, by omega, h3⟩
    · obtain ⟨k, h1, h2, h3⟩ := hnew i hi (h i hi hin)
      exact ⟨k, Nat.le_trans hr.len h1, h2, h3⟩
  · intro i j iv iv' p hi hj hne hp hin hin'
    rcases hw.writeJ i iv hi with h | ⟨hi', h⟩
    · rcases hw.writeJ j iv' hj with h' | ⟨hj', h'⟩
      · exact hr.wdisj i j iv iv' p h h' hne hp hin hin'
      · exact hold i iv p h hp hin (h' p hp hin')
    · rcases hw.writeJ j iv' hj with h' | ⟨hj', h'⟩
      · exact hold j iv' p h' hp hin' (h p hp hin)
      · exact hw.disj i j iv iv' p hi hj hne hi' hj' hp hin hin'
  · rw [hw.journal]
    have := journalAt_splice (j := d.journal) (a := r.sb.start) (m := r.written) (p := 0) (bs := jr)
      (x := W) (y := es) hs (by omega) (by omega) (by rw [posAdd_zero hs]; exact hr.whole) hp
    rwa [posAdd_zero hs] at this
  · intro hf
    rw [hw.journal]
    exact journalAt_splice hs (by omega) (hr.pos hf) (hr.frz hf) hp

/-- The front and the back of the journal, put together, are the journal. -/
theorem full_range {o : Other} {d : JournalDisk.State} {f} (h : InvOther o d f)
    (hs : o.sb.start < numJournalBlocks) (hl : o.sb.len ≤ numJournalBlocks)
    (hgot : ∀ w, part o.sb w ≠ none → o.got w ≠ none) :
    blocksAt d.journal o.sb.start o.sb.len = some (JournalCache.fullRange o) := by
  unfold JournalCache.fullRange
  by_cases h0 : o.sb.len = 0
  · simp [part, h0, blocksAt]
  · by_cases h1 : o.sb.len ≤ numJournalBlocks - o.sb.start
    · have p0 : part o.sb false = some ⟨o.sb.start, o.sb.len⟩ := by simp [part, h0, h1]
      have p1 : part o.sb true = none := by simp [part, h1]
      obtain ⟨bs, hbs⟩ := Option.ne_none_iff_exists'.mp (hgot false (by rw [p0]; simp))
      obtain ⟨v, hv, hb⟩ := h.got _ _ hbs
      rw [p0] at hv; cases hv
      simp only [p0, p1, hbs, Option.bind_some, Option.bind_none, Option.getD_some, Option.getD_none,
        List.append_nil]
      exact hb
    · have p0 : part o.sb false = some ⟨o.sb.start, numJournalBlocks - o.sb.start⟩ := by
        simp [part, h0, h1]
      have p1 : part o.sb true = some ⟨0, o.sb.len - (numJournalBlocks - o.sb.start)⟩ := by
        simp [part, h0, h1]
      obtain ⟨bs, hbs⟩ := Option.ne_none_iff_exists'.mp (hgot false (by rw [p0]; simp))
      obtain ⟨v, hv, hb⟩ := h.got _ _ hbs
      rw [p0] at hv; cases hv
      obtain ⟨bs', hbs'⟩ := Option.ne_none_iff_exists'.mp (hgot true (by rw [p1]; simp))
      obtain ⟨v, hv, hb'⟩ := h.got _ _ hbs'
      rw [p1] at hv; cases hv
      simp only [p0, p1, hbs, hbs', Option.bind_some, Option.getD_some]
      have e : o.sb.len = (numJournalBlocks - o.sb.start) + (o.sb.len - (numJournalBlocks - o.sb.start)) := by
        omega
      rw [e]
      refine blocksAt_append hs (by omega) hb ?_
      have : posAdd o.sb.start (numJournalBlocks - o.sb.start) = 0 := by
        unfold posAdd; split <;> omega
      rw [this]; exact hb'

/-- One step of the machine with its disk. -/
theorem machine_rel {m d v dop vop m' d'} (h : RelM m d v)
    (hm : JournalCache.Next m dop vop m') (hd : JournalDisk.Next d dop d') :
    ∃ v', JournalView.Next v vop v' ∧ RelM m' d' v' := by
  obtain ⟨f, hcom, hi⟩ := h
  cases hm with
  | @writeJournal r id1 id2 jr h1 h2 h3 h4 h5 h6 h7 =>
    obtain ⟨u, W, F, hr⟩ := hi
    obtain ⟨hu, hcm, c, w1, w2, w3, w4, w5, w6, w7, w8⟩ := write_rel hcom hr h5 h3 h2 hd
    subst hu
    refine ⟨_, .extendLog2, f, ⟨c.holds, c.j1, c.loc⟩, false, W ++ r.mem, F ++ r.mem, {
      sb := hr.sb, idx := hr.idx, readSb := w2, readJ := w3
      len := Nat.le_trans hr.len (Nat.le_add_right _ _)
      cap := by show r.written + jr.length ≤ _; omega
      pos := fun hf => Nat.le_trans (hr.pos hf) (Nat.le_add_right _ _)
      floc := hr.floc, mf := fun hc => absurd rfl hc
      wrec := w4, wpos := w5, wdisj := w6
      idle := fun _ => ⟨rfl, h5, w1⟩
      busy := fun hc => absurd hcm hc
      log := fun hc => by rw [show r.commit = _ from hcm] at hc; cases hc
      location := fun hc => by rw [show r.commit = _ from hcm] at hc; cases hc
      whole := w7, frz := w8
      j2 := ?_, gamma := ?_, j3 := hr.j3, delta := rfl, vfloc := hr.vfloc, sync := ?_ }⟩
    · show v.j2 ++ v.delta = _
      rw [hr.j2, hr.delta]; cases r.isFrozen <;> rfl
    · show v.gamma ++ v.delta = _
      rw [hr.gamma, hr.delta, h1]; simp
    · show v.syncReqs.mapVal _ = _
      rw [hr.sync]; rfl
  | @writeFrozen r id1 id2 jr h1 h2 h3 h4 h5 h6 h7 =>
    obtain ⟨u, W, F, hr⟩ := hi
    obtain ⟨hu, hcm, c, w1, w2, w3, w4, w5, w6, w7, w8⟩ := write_rel hcom hr h5 h3 h2 hd
    subst hu
    obtain ⟨hf, hp⟩ := hr.mf h1
    have hF : F = [] := by
      have := hr.frz hf
      rw [hp, Nat.sub_self, journalAt_zero] at this
      exact (Option.some.inj this).symm
    refine ⟨v, .stutterJ, f, c, false, W ++ r.memFrozen, [], {
      sb := hr.sb, idx := hr.idx, readSb := w2, readJ := w3
      len := Nat.le_trans hr.len (Nat.le_add_right _ _)
      cap := by show r.written + jr.length ≤ _; omega
      pos := fun _ => Nat.le_refl _
      floc := hr.floc, mf := fun hc => absurd rfl hc
      wrec := w4, wpos := w5, wdisj := w6
      idle := fun _ => ⟨rfl, h5, w1⟩
      busy := fun hc => absurd hcm hc
      log := fun hc => by rw [show r.commit = _ from hcm] at hc; cases hc
      location := fun hc => by rw [show r.commit = _ from hcm] at hc; cases hc
      whole := w7
      frz := fun _ => by
        show journalAt _ (posAdd r.sb.start (r.written + jr.length)) (r.written + jr.length - (r.written + jr.length)) = _
        rw [Nat.sub_self]; exact journalAt_zero _ _
      j2 := ?_, gamma := ?_, j3 := hr.j3, delta := hr.delta, vfloc := hr.vfloc, sync := hr.sync }⟩
    · rw [hr.j2, hF]; simp [hf]
    · rw [hr.gamma]; simp
  | @writeJournalResp r id h1 =>
    obtain ⟨u, W, F, hr⟩ := hi
    cases hd with
    | @ackWriteJ _ iv0 h2 =>
    have hcm : r.commit = .none := by
      cases hcm : r.commit with
      | none => rfl
      | _ =>
        obtain ⟨_, _, _, _, h3, _⟩ := hr.busy (by rw [hcm]; intro e; cases e)
        exact absurd h1 (h3 id)
    have hsub : ∀ {i iv}, d.writeJ.remove id i = some iv → d.writeJ i = some iv ∧ i ≠ id := by
      intro i iv hv
      by_cases e : i = id
      · subst e; rw [PMap.remove_same] at hv; cases hv
      · rw [PMap.remove_other _ e] at hv; exact ⟨hv, e⟩
    refine ⟨v, .stutterJ, f, ⟨hcom.holds, hcom.j1, hcom.loc⟩, u, W, F, { hr with
      wrec := fun i iv hv => ⟨hr.wrec i iv (hsub hv).1, (hsub hv).2⟩
      wpos := fun i iv p hv => hr.wpos i iv p (hsub hv).1
      wdisj := fun i j iv iv' p hv hv' => hr.wdisj i j iv iv' p (hsub hv).1 (hsub hv').1
      busy := fun hc => absurd hcm hc }⟩
  | @advanceLog r id sb h1 h2 h3 h4 h5 =>
    obtain ⟨u, W, F, hr⟩ := hi
    obtain ⟨hu, _, hws⟩ := hr.idle h1
    subst hu
    cases hd with
    | recvWriteSb h6 =>
    have hwf := (hcom.holds r.which).2
    rw [hr.sb] at hwf
    refine ⟨v, .stutterJ, f, ⟨hcom.holds, hcom.j1, hcom.loc⟩, false, W, F, { hr with
      idle := fun hc => by cases hc
      busy := fun _ => ⟨id, sb, rfl, rfl, h2, h3, by
        show setAt d.writeSb (!r.which) _ r.which = none
        rw [setAt_not']; exact hws _, setAt_same _ _ _, by rw [h5], (fun hc => by cases hc), ?_⟩
      log := fun _ n hn => by cases hn; rw [h5]; exact ⟨rfl, rfl, rfl⟩
      location := fun hc => by cases hc
      gamma := ?_ }⟩
    · rw [h5]; exact ⟨hwf.1, h4, hwf.2.2⟩
    · have := hr.gamma; simpa using this
  | @advanceLocation r id sb loc h0 h1 h2 h3 h4 h5 h6 h7 =>
    obtain ⟨u, W, F, hr⟩ := hi
    obtain ⟨hu, _, hws⟩ := hr.idle h1
    subst hu
    cases hd with
    | recvWriteSb h8 =>
    refine ⟨v, .stutterJ, f, ⟨hcom.holds, hcom.j1, hcom.loc⟩, false, W, F, { hr with
      idle := fun hc => by cases hc
      busy := fun _ => ⟨id, sb, rfl, rfl, h2, h3, by
        show setAt d.writeSb (!r.which) _ r.which = none
        rw [setAt_not']; exact hws _, setAt_same _ _ _, by rw [h7], (fun hc => by cases hc), ?_⟩
      log := fun hc => by cases hc
      location := fun _ n hn => by cases hn; rw [h7]; exact ⟨h0, rfl, rfl⟩
      gamma := ?_ }⟩
    · rw [h7]
      exact ⟨posAdd_lt h4 (Nat.le_trans h5 h6), by show r.written - r.frozenPos ≤ _; omega,
        (hr.floc _ h0).2⟩
    · have := hr.gamma; simpa using this
  | @locationResp r id w sb h1 h2 h3 =>
    obtain ⟨u, W, F, hr⟩ := hi
    obtain ⟨id', n, b1, b2, b3, b4, b5, b6, b7, b8, b9⟩ := hr.busy (by rw [h3]; intro e; cases e)
    rw [h1] at b1; cases b1
    rw [h2] at b2; cases b2
    obtain ⟨e1, e2, e3⟩ := hr.location h3 sb h2
    cases hd with
    | @ackWriteSb _ _ sb' a1 a2 =>
    have hw : w = !r.which := by
      cases hx : (w == !r.which)
      · exfalso
        have : w = r.which := by revert hx; cases w <;> cases r.which <;> simp
        subst this; rw [b5] at a1; cases a1
      · exact beq_iff_eq.mp hx
    subst hw
    rw [b6] at a1; cases a1
    have hfn : f (!r.which) = sb := by
      have := (hcom.holds (!r.which)).1; rw [a2] at this; exact (Option.some.inj this).symm
    have hsel : select f = !r.which := by
      have : setAt f (!r.which) sb = f := by
        funext x; unfold setAt; split
        · next e => rw [e, hfn]
        · rfl
      rw [← this]; exact select_new (by rw [hr.sb]; exact b7)
    have hu : u = true := by
      have := hr.idx; rw [hsel] at this
      cases u
      · exfalso; revert this; cases r.which <;> simp
      · rfl
    subst hu
    have hfz := (hr.floc _ e1).1
    have hsf : f (select f) = sb := by rw [hsel, hfn]
    refine ⟨_, .cleanUp ?_, f, ⟨hcom.holds, hcom.j1, hcom.loc⟩, false, F, [], {
      sb := hfn
      idx := hsel
      readSb := hr.readSb, readJ := hr.readJ
      len := by show sb.len ≤ r.written - r.frozenPos; omega
      cap := by show r.written - r.frozenPos ≤ _; have := hr.cap; omega
      pos := fun hc => (by cases hc)
      floc := fun l hl => by cases hl
      mf := fun hc => absurd b4 hc
      wrec := hr.wrec
      wpos := fun i iv p hv _ _ => absurd (hr.wrec i iv hv) (b3 i)
      wdisj := hr.wdisj
      idle := fun _ => ⟨rfl, rfl, fun x => ?_⟩
      busy := fun hc => absurd rfl hc
      log := fun hc => by cases hc
      location := fun hc => by cases hc
      whole := by
        show journalAt _ sb.start (r.written - r.frozenPos) = _
        rw [e2]; exact hr.frz hfz
      frz := fun hc => (by cases hc)
      j2 := ?_, gamma := ?_, j3 := hr.j3, delta := hr.delta, vfloc := rfl, sync := hr.sync }⟩
    · rw [hr.vfloc, e1, hcom.loc, hsf]
    · show setAt d.writeSb (!r.which) none x = none
      unfold setAt; split
      · rfl
      · next hx =>
        have : x = r.which := by revert hx; cases x <;> cases r.which <;> simp
        rw [this]; exact b5
    · show v.j2 = F
      rw [hr.j2]; simp [hfz]
    · show v.gamma = _
      rw [hr.gamma, b4]; simp [h3]
  | @logResp r id w sb h1 h2 h3 =>
    obtain ⟨u, W, F, hr⟩ := hi
    obtain ⟨id', n, b1, b2, b3, b4, b5, b6, b7, b8, b9⟩ := hr.busy (by rw [h3]; intro e; cases e)
    rw [h1] at b1; cases b1
    rw [h2] at b2; cases b2
    obtain ⟨e1, e2, e3⟩ := hr.log h3 sb h2
    cases hd with
    | @ackWriteSb _ _ sb' a1 a2 =>
    have hw : w = !r.which := by
      cases hx : (w == !r.which)
      · exfalso
        have : w = r.which := by revert hx; cases w <;> cases r.which <;> simp
        subst this; rw [b5] at a1; cases a1
      · exact beq_iff_eq.mp hx
    subst hw
    rw [b6] at a1; cases a1
    have hfn : f (!r.which) = sb := by
      have := (hcom.holds (!r.which)).1; rw [a2] at this; exact (Option.some.inj this).symm
    have hsel : select f = !r.which := by
      have : setAt f (!r.which) sb = f := by
        funext x; unfold setAt; split
        · next e => rw [e, hfn]
        · rfl
      rw [← this]; exact select_new (by rw [hr.sb]; exact b7)
    have hu : u = true := by
      have := hr.idx; rw [hsel] at this
      cases u
      · exfalso; revert this; cases r.which <;> simp
      · rfl
    subst hu
    refine ⟨v, .stutterJ, f, ⟨hcom.holds, hcom.j1, hcom.loc⟩, false, W, F, { hr with
      sb := hfn
      idx := hsel
      len := by show sb.len ≤ r.written; omega
      wpos := fun i iv p hv _ _ => absurd (hr.wrec i iv hv) (b3 i)
      idle := fun _ => ⟨rfl, rfl, fun x => ?_⟩
      busy := fun hc => absurd rfl hc
      log := fun hc => by cases hc
      location := fun hc => by cases hc
      whole := by show journalAt _ sb.start _ = _; rw [e1]; exact hr.whole
      frz := by show _ → journalAt _ (posAdd sb.start _) _ = _; rw [e1]; exact hr.frz
      gamma := ?_ }⟩
    · show setAt d.writeSb (!r.which) none x = none
      unfold setAt; split
      · rfl
      · next hx =>
        have : x = r.which := by revert hx; cases x <;> cases r.which <;> simp
        rw [this]; exact b5
    · rw [hr.gamma]; simp [h3]
  | @pageJournal o w id iv h1 h2 h3 h4 h5 =>
    obtain ⟨ho, hv⟩ := hi
    cases hd with
    | recvReadJ a1 a2 a3 =>
    refine ⟨v, .stutterJ, f, ⟨hcom.holds, hcom.j1, hcom.loc⟩, { ho with
      rec_ := ?_, uniq := ?_, read := ?_ }, ⟨hv.j2, hv.j3, hv.gamma, hv.delta, hv.frozenLoc, hv.sync⟩⟩
    · intro i x hx
      change PMap.insert d.readJ id iv i = some x at hx
      by_cases e : i = id
      · subst e; rw [PMap.insert_same] at hx; cases hx
        exact ⟨w, by simp, h3⟩
      · rw [PMap.insert_other _ _ e] at hx
        obtain ⟨w', k1, k2⟩ := ho.rec_ i x hx
        refine ⟨w', ?_, k2⟩
        have : w' ≠ w := by rintro rfl; rw [h4] at k1; cases k1
        simp only [this, if_false]
        rw [if_neg (by rw [k1]; intro hc; exact e (Option.some.inj hc))]
        exact k1
    · intro x y i hx hy
      simp only at hx hy
      split at hx <;> split at hy
      · next e1 e2 => rw [e1, e2]
      · cases hx
        split at hy
        · cases hy
        · next k => exact absurd hy k
      · cases hy
        split at hx
        · cases hx
        · next k => exact absurd hx k
      · split at hx
        · cases hx
        · split at hy
          · cases hy
          · exact ho.uniq x y i hx hy
    · intro x i hx
      simp only at hx
      split at hx
      · next e => subst e; exact ⟨h5, by rw [h3]; simp⟩
      · split at hx
        · cases hx
        · exact ho.read x i hx
  | @pageJournalResp o w id bs h1 =>
    obtain ⟨ho, hv⟩ := hi
    cases hd with
    | @ackReadJ _ iv _ a1 a2 =>
    obtain ⟨w', k1, k2⟩ := ho.rec_ id iv a1
    have := ho.uniq _ _ _ h1 k1
    subst this
    refine ⟨v, .stutterJ, f, ⟨hcom.holds, hcom.j1, hcom.loc⟩, { ho with
      rec_ := ?_, uniq := ?_, read := ?_, got := ?_ },
      ⟨hv.j2, hv.j3, hv.gamma, hv.delta, hv.frozenLoc, hv.sync⟩⟩
    · intro i x hx
      change PMap.remove d.readJ id i = some x at hx
      by_cases e : i = id
      · subst e; rw [PMap.remove_same] at hx; cases hx
      · rw [PMap.remove_other _ e] at hx
        obtain ⟨w', m1, m2⟩ := ho.rec_ i x hx
        refine ⟨w', ?_, m2⟩
        have : w' ≠ w := by rintro rfl; rw [h1] at m1; exact e (Option.some.inj m1).symm
        simp [setAt, this, m1]
    · intro x y i hx hy
      simp only [setAt] at hx hy
      split at hx
      · cases hx
      · split at hy
        · cases hy
        · exact ho.uniq x y i hx hy
    · intro x i hx
      simp only [setAt] at hx ⊢
      split at hx
      · cases hx
      · next e => rw [if_neg e]; exact ho.read x i hx
    · intro x b hx
      simp only [setAt] at hx
      split at hx
      · next e => cases hx; subst e; exact ⟨iv, k2, a2 _ rfl⟩
      · exact ho.got x b hx
  | @pageSb l w id h1 h2 =>
    obtain ⟨hl, hv⟩ := hi
    cases hd with
    | recvReadSb a1 =>
    refine ⟨v, .stutterJ, f, ⟨hcom.holds, hcom.j1, hcom.loc⟩, { hl with rec_ := ?_, read := ?_ },
      ⟨hv.j2, hv.j3, hv.gamma, hv.delta, hv.frozenLoc, hv.sync⟩⟩
    · intro x i hx
      simp only [setAt] at hx ⊢
      split at hx
      · next e =>
        rcases hx with hx | hx
        · subst e; have := hl.rec_ _ _ hx; rw [h1] at this; cases this
        · rw [if_pos e, hx]
      · next e => rw [if_neg e]; exact hl.rec_ x i hx
    · intro x i hx
      simp only [setAt] at hx
      split at hx
      · next e => subst e; exact h2
      · exact hl.read x i hx
  | @pageSbOk l w id sb h1 h2 =>
    obtain ⟨hl, hv⟩ := hi
    cases hd with
    | ackReadSb a1 a2 =>
    refine ⟨v, .stutterJ, f, ⟨hcom.holds, hcom.j1, hcom.loc⟩, { hl with rec_ := ?_, read := ?_, got := ?_ },
      ⟨hv.j2, hv.j3, hv.gamma, hv.delta, hv.frozenLoc, hv.sync⟩⟩
    · intro x i hx
      simp only [setAt] at hx ⊢
      split at hx
      · next e =>
        subst e
        have := hl.rec_ _ _ hx.1; rw [h1] at this
        exact absurd (Option.some.inj this).symm hx.2
      · next e => rw [if_neg e]; exact hl.rec_ x i hx
    · intro x b hx
      simp only [setAt] at hx
      split at hx
      · next e =>
        cases hx; subst e
        have := (hcom.holds x).1
        rw [show d.sb x = some sb from a2 _ rfl] at this
        exact (Option.some.inj this).symm
      · exact hl.got x b hx
    · intro x i hx
      simp only [setAt] at hx ⊢
      split at hx
      · cases hx
      · next e => rw [if_neg e]; exact hl.read x i hx
  | @pageSbBad l w id sb h1 h2 =>
    obtain ⟨hl, hv⟩ := hi
    cases hd with
    | ackReadSb a1 a2 =>
    refine ⟨v, .stutterJ, f, ⟨hcom.holds, hcom.j1, hcom.loc⟩, { hl with rec_ := ?_, read := ?_, got := ?_ },
      ⟨hv.j2, hv.j3, hv.gamma, hv.delta, hv.frozenLoc, hv.sync⟩⟩
    · intro x i hx
      simp only [setAt] at hx ⊢
      split at hx
      · next e =>
        subst e
        have := hl.rec_ _ _ hx.1; rw [h1] at this
        exact absurd (Option.some.inj this).symm hx.2
      · next e => rw [if_neg e]; exact hl.rec_ x i hx
    · intro x b hx
      simp only [setAt] at hx
      split at hx
      · cases hx
      · exact hl.got x b hx
    · intro x i hx
      simp only [setAt] at hx ⊢
      split at hx
      · cases hx
      · next e => rw [if_neg e]; exact hl.read x i hx
  | @finishSb l g h1 =>
    obtain ⟨hl, hv⟩ := hi
    cases hd
    have hg : g = f := by funext w; exact (hl.got w _ (h1 w)).symm
    subst hg
    have hno : ∀ w, l.read w = none := by
      intro w
      cases hr : l.read w with
      | none => rfl
      | some id => have := hl.read w id hr; rw [h1 w] at this; cases this
    rw [← hcom.loc]
    refine ⟨v, .present, g, hcom, ⟨rfl, rfl, ?_, hl.writeSb, hl.writeJ, ?_, ?_, ?_, ?_⟩,
      ⟨hv.j2, hv.j3, hv.gamma, hv.delta, hv.frozenLoc, hv.sync⟩⟩
    · intro w id hx; have := hl.rec_ w id hx; rw [hno] at this; cases this
    · intro id x hx; rw [show d.readJ = _ from hl.readJ] at hx; cases hx
    · intro w w' id hx; cases hx
    · intro w id hx; cases hx
    · intro w bs hx; cases hx
  | @finishOther o p replay h1 h2 h3 h4 =>
    obtain ⟨ho, hv⟩ := hi
    cases hd
    have hb := full_range ho h1 h2 h3
    have hj : journalAt d.journal o.sb.start o.sb.len = some replay := by
      unfold journalAt; rw [hb]; exact h4
    have hre : replay = v.j1 := by
      have := hcom.j1
      rw [← ho.sb] at this
      exact Option.some.inj (hj.symm.trans this)
    have hsel : f o.which = o.sb := by rw [ho.which, ho.sb]
    have hno : ∀ i iv, d.readJ i ≠ some iv := by
      intro i iv hx
      obtain ⟨w, k1, k2⟩ := ho.rec_ i iv hx
      exact h3 w (by rw [k2]; simp) (ho.read w i k1).1
    refine ⟨v, .stutterJ, f, hcom, false, replay, [], {
      sb := hsel, idx := ho.which.symm, readSb := ho.readSb
      readJ := ?_
      len := Nat.le_refl _, cap := h2
      pos := fun hc => by cases hc
      floc := fun l hl => by cases hl
      mf := fun hc => absurd rfl hc
      wrec := fun i iv hx => by rw [show d.writeJ = _ from ho.writeJ] at hx; cases hx
      wpos := fun i iv p hx => by rw [show d.writeJ = _ from ho.writeJ] at hx; cases hx
      wdisj := fun i j iv iv' p hx => by rw [show d.writeJ = _ from ho.writeJ] at hx; cases hx
      idle := fun _ => ⟨rfl, rfl, ho.writeSb⟩
      busy := fun hc => absurd rfl hc
      log := fun hc => by cases hc
      location := fun hc => by cases hc
      whole := hj
      frz := fun hc => by cases hc
      j2 := by rw [hv.j2, hre]; rfl
      gamma := by rw [hv.gamma, hre]; simp
      j3 := by rw [hv.j3, hre]
      delta := hv.delta, vfloc := hv.frozenLoc, sync := hv.sync }⟩
    funext i
    show d.readJ i = none
    cases hx : d.readJ i with
    | none => rfl
    | some iv => exact absurd hx (hno i iv)
  | @freeze r h1 h2 h3 =>
    obtain ⟨u, W, F, hr⟩ := hi
    cases hd
    have hcm := hr.notBusy h1
    obtain ⟨hu, _, hws⟩ := hr.idle hcm
    subst hu
    have hse : f (select f) = r.sb := by
      have : select f = r.which := hr.idx
      rw [this, hr.sb]
    refine ⟨_, .move2to3 ?_, f, ⟨hcom.holds, hcom.j1, hcom.loc⟩, false, W, [], { hr with
      pos := fun _ => Nat.le_refl _
      floc := fun l hl => by cases hl
      mf := fun _ => ⟨rfl, rfl⟩
      busy := fun hc => absurd hcm hc
      location := fun hc => by rw [show r.commit = _ from hcm] at hc; cases hc
      frz := fun _ => by
        show journalAt _ (posAdd r.sb.start r.written) (r.written - r.written) = _
        rw [Nat.sub_self]; exact journalAt_zero _ _
      j2 := ?_, gamma := ?_, j3 := hr.j3, delta := rfl, vfloc := rfl, sync := ?_ }⟩
    · rw [hr.vfloc, hcom.loc, hse]; exact h2
    · show v.j3 = _; rw [hr.j3, h3]; rfl
    · show v.gamma ++ v.delta = _; rw [hr.gamma, hr.delta]; simp
    · show v.syncReqs.mapVal _ = _; rw [hr.sync]; rfl
  | @receiveFrozen r loc h1 h2 h3 =>
    obtain ⟨u, W, F, hr⟩ := hi
    cases hd
    refine ⟨_, .obtainFrozen, f, ⟨hcom.holds, hcom.j1, hcom.loc⟩, u, W, F, { hr with
      floc := fun l hl => by cases hl; exact ⟨h1, h3⟩
      location := fun hc n hn => by
        have := (hr.location hc n hn).1; rw [h2] at this; cases this
      vfloc := rfl }⟩
  | @advance r op h1 =>
    obtain ⟨u, W, F, hr⟩ := hi
    cases hd
    refine ⟨_, .move3 (hr.j3.trans h1), f, ⟨hcom.holds, hcom.j1, hcom.loc⟩, u, W, F, { hr with
      delta := by show v.delta ++ _ = _; rw [hr.delta] }⟩
  | @replay r op rest h1 =>
    obtain ⟨u, W, F, hr⟩ := hi
    cases hd
    exact ⟨_, .replay (hr.j3.trans h1), f, ⟨hcom.holds, hcom.j1, hcom.loc⟩, u, W, F, { hr with j3 := rfl }⟩
  | @pushSync _ id h1 =>
    cases hd
    cases m with
    | loading l =>
      obtain ⟨hl, hv⟩ := hi
      have : v.syncReqs = l.syncReqs := hv.sync
      refine ⟨_, .pushSync (by rw [this]; exact h1), f, ⟨hcom.holds, hcom.j1, hcom.loc⟩,
        ⟨hl.readJ, hl.writeSb, hl.writeJ, hl.rec_, hl.got, hl.read⟩,
        ⟨hv.j2, hv.j3, hv.gamma, hv.delta, hv.frozenLoc, ?_⟩⟩
      show v.syncReqs.insert _ _ = _; rw [this]; rfl
    | other o =>
      obtain ⟨ho, hv⟩ := hi
      have : v.syncReqs = o.syncReqs := hv.sync
      refine ⟨_, .pushSync (by rw [this]; exact h1), f, ⟨hcom.holds, hcom.j1, hcom.loc⟩,
        ⟨ho.sb, ho.which, ho.readSb, ho.writeSb, ho.writeJ, ho.rec_, ho.uniq, ho.read, ho.got⟩,
        ⟨hv.j2, hv.j3, hv.gamma, hv.delta, hv.frozenLoc, ?_⟩⟩
      show v.syncReqs.insert _ _ = _; rw [this]; rfl
    | ready r =>
      obtain ⟨u, W, F, hr⟩ := hi
      have h1' : r.syncReqs id = none := h1
      refine ⟨_, .pushSync ?_, f, ⟨hcom.holds, hcom.j1, hcom.loc⟩, u, W, F, { hr with sync := ?_ }⟩
      · rw [hr.sync]; cases u
        · exact h1'
        · simp [PMap.mapVal, h1']
      · show v.syncReqs.insert _ _ = _
        rw [hr.sync]
        cases u
        · rfl
        · funext i
          show PMap.insert (r.syncReqs.mapVal _) id _ i = PMap.mapVal _ (PMap.insert r.syncReqs id _) i
          by_cases e : i = id
          · subst e; simp [PMap.mapVal, SyncStatus.to1]
          · simp [PMap.mapVal, PMap.insert_other _ _ e]
  | @popSync _ id h1 =>
    cases hd
    cases m with
    | loading l =>
      obtain ⟨hl, hv⟩ := hi
      have : v.syncReqs = l.syncReqs := hv.sync
      refine ⟨_, .popSync (by rw [this]; exact h1), f, ⟨hcom.holds, hcom.j1, hcom.loc⟩,
        ⟨hl.readJ, hl.writeSb, hl.writeJ, hl.rec_, hl.got, hl.read⟩,
        ⟨hv.j2, hv.j3, hv.gamma, hv.delta, hv.frozenLoc, ?_⟩⟩
      show v.syncReqs.remove _ = _; rw [this]; rfl
    | other o =>
      obtain ⟨ho, hv⟩ := hi
      have : v.syncReqs = o.syncReqs := hv.sync
      refine ⟨_, .popSync (by rw [this]; exact h1), f, ⟨hcom.holds, hcom.j1, hcom.loc⟩,
        ⟨ho.sb, ho.which, ho.readSb, ho.writeSb, ho.writeJ, ho.rec_, ho.uniq, ho.read, ho.got⟩,
        ⟨hv.j2, hv.j3, hv.gamma, hv.delta, hv.frozenLoc, ?_⟩⟩
      show v.syncReqs.remove _ = _; rw [this]; rfl
    | ready r =>
      obtain ⟨u, W, F, hr⟩ := hi
      have h1' : r.syncReqs id = some .s1 := h1
      refine ⟨_, .popSync ?_, f, ⟨hcom.holds, hcom.j1, hcom.loc⟩, u, W, F, { hr with sync := ?_ }⟩
      · rw [hr.sync]; cases u
        · exact h1'
        · simp [PMap.mapVal, h1', SyncStatus.to1]
      · show v.syncReqs.remove _ = _
        rw [hr.sync]
        cases u
        · rfl
        · funext i
          show PMap.remove (r.syncReqs.mapVal _) id i = PMap.mapVal _ (PMap.remove r.syncReqs id) i
          by_cases e : i = id
          · subst e; simp [PMap.mapVal]
          · simp [PMap.mapVal, PMap.remove_other _ e]
  | noop h1 h2 =>
    have hgoal : RelM m d' v := by
      rcases h2 with rfl | ⟨id, w, sb, rfl⟩ | ⟨id, bs, rfl⟩ | ⟨id, w, rfl, hx⟩ | ⟨id, rfl, hx⟩
      · cases hd; exact ⟨f, hcom, hi⟩
      · cases hd with
        | ackReadSb a1 a2 =>
        cases m with
        | loading l =>
          obtain ⟨hl, hv⟩ := hi
          refine ⟨f, ⟨hcom.holds, hcom.j1, hcom.loc⟩, ⟨hl.readJ, hl.writeSb, hl.writeJ, ?_, hl.got, hl.read⟩,
            hv⟩
          intro x i hx
          simp only [setAt] at hx
          split at hx
          · next e => subst e; exact hl.rec_ _ _ hx.1
          · exact hl.rec_ _ _ hx
        | other o => exact absurd a1 (hi.1.readSb _ _)
        | ready r => obtain ⟨u, W, F, hr⟩ := hi; exact absurd a1 (hr.readSb _ _)
      · cases hd with
        | @ackReadJ _ iv _ a1 a2 =>
        cases m with
        | loading l => rw [show d.readJ = _ from hi.1.readJ] at a1; cases a1
        | other o =>
          obtain ⟨ho, hv⟩ := hi
          refine ⟨f, ⟨hcom.holds, hcom.j1, hcom.loc⟩, ⟨ho.sb, ho.which, ho.readSb, ho.writeSb, ho.writeJ, ?_,
            ho.uniq, ho.read, ho.got⟩, hv⟩
          intro i x hx
          change PMap.remove d.readJ id i = some x at hx
          by_cases e : i = id
          · subst e; rw [PMap.remove_same] at hx; cases hx
          · rw [PMap.remove_other _ e] at hx; exact ho.rec_ i x hx
        | ready r =>
          obtain ⟨u, W, F, hr⟩ := hi
          rw [show d.readJ = _ from hr.readJ] at a1; cases a1
      · cases hd with
        | @ackWriteSb _ _ sb a1 a2 =>
        exfalso
        cases m with
        | loading l => rw [show d.writeSb w = _ from hi.1.writeSb w] at a1; cases a1
        | other o => rw [show d.writeSb w = _ from hi.1.writeSb w] at a1; cases a1
        | ready r =>
          obtain ⟨u, W, F, hr⟩ := hi
          by_cases hcm : r.commit = .none
          · rw [show d.writeSb w = _ from (hr.idle hcm).2.2 w] at a1; cases a1
          · obtain ⟨id', n, b1, b2, b3, b4, b5, b6, _⟩ := hr.busy hcm
            cases hxw : (w == !r.which)
            · have : w = r.which := by revert hxw; cases w <;> cases r.which <;> simp
              subst this; rw [show d.writeSb r.which = _ from b5] at a1; cases a1
            · have := beq_iff_eq.mp hxw
              subst this
              rw [show d.writeSb (!r.which) = _ from b6] at a1; cases a1
              exact hx r rfl b1
      · cases hd with
        | @ackWriteJ _ iv a1 =>
        exfalso
        cases m with
        | loading l => rw [show d.writeJ = _ from hi.1.writeJ] at a1; cases a1
        | other o => rw [show d.writeJ = _ from hi.1.writeJ] at a1; cases a1
        | ready r =>
          obtain ⟨u, W, F, hr⟩ := hi
          exact hx r rfl (hr.wrec _ _ a1)
    rcases h1 with rfl | rfl
    · exact ⟨v, .stutterJ, hgoal⟩
    · exact ⟨v, .stutterS, hgoal⟩

theorem Next.rel {s v vop s'} (h : Rel s v) (hn : Next s vop s') :
    ∃ v', JournalView.Next v vop v' ∧ Rel s' v' := by
  cases hn with
  | machine h1 h2 => exact machine_rel h h1 h2
  | disk h1 => exact internal_rel h h1
  | crash h1 => exact ⟨_, .crash, crash_rel h h1⟩

theorem Init.rel {loc s} (h : Init loc s) : Rel s ⟨[], [], [], [], [], loc, none, .empty⟩ := by
  obtain ⟨hm, hd, f, hf, h1, h2, h3⟩ := h
  obtain ⟨m, d⟩ := s
  change m = _ at hm
  subst hm
  refine ⟨f, ⟨hf, ?_, h3.symm⟩, ⟨hd.readJ, hd.writeSb, hd.writeJ, ?_, ?_, ?_⟩,
    ⟨rfl, rfl, rfl, rfl, rfl, rfl⟩⟩
  · rw [h2]; exact journalAt_zero _ _
  · intro w id hw; exact absurd hw (hd.readSb w id)
  · intro w sb hw; cases hw
  · intro w id hw; cases hw

/-- Every execution of the journal system is one of the `JournalView`. -/
theorem exec_rel {loc tr s} (h : (machine loc).Exec tr s) :
    ∃ v, (JournalView.machine loc).Exec tr v ∧ Rel s v := by
  refine Machine.exec_invariant (M := machine loc)
    (I := fun tr s => ∃ v, (JournalView.machine loc).Exec tr v ∧ Rel s v) ?_ ?_ h
  · intro s hs
    exact ⟨_, ⟨_, rfl, .nil _⟩, hs.rel⟩
  · rintro tr s l s' ⟨v, hv, hr⟩ hn
    obtain ⟨v', h1, h2⟩ := Next.rel hr hn
    exact ⟨v', hv.snoc h1, h2⟩

end Verif.Kv.JournalSystem
