import Verif.Kv.Committer
import Verif.Kv.JournalistRun
import Verif.Kv.ByteRecover
/-
Every call of the committer is a step of the journal cache (`JournalCache`), with the bytes it hands to
the disk read as the code that gets them will read them.
-/
namespace Verif.Kv.Committer
open ByteDisk (Op Data)
open JournalCache (Commit ReadResult incr WFSb part)
open ByteSystem
open SuperblockBytes (SbOk)
variable {Node : Type} {s s' : State}

/-- `I`, CommitterImpl.i.dfy:183-200, when ready -/
def readyOf (s : State) : JournalCache.Ready where
  frozenLoc := s.frozenLoc
  isFrozen := s.isFrozen
  frozenPos := s.frozenPos
  sbWrite := s.sbWrite
  memFrozen := s.journalist.frozen
  mem := s.journalist.mem
  writes i := i ∈ s.writes
  written := s.journalist.written
  replay := s.journalist.replay
  sb := s.sb
  which := s.which
  commit := s.commit
  newSb := s.newSb
  syncReqs := get s.syncReqs

/-- `I`, CommitterImpl.i.dfy:202-210, while the journal is read -/
def otherOf (s : State) : JournalCache.Other :=
  ⟨s.sb, s.which, s.read, fun w => if w then s.journalist.back else s.journalist.front, get s.syncReqs⟩

/-- `I`, CommitterImpl.i.dfy:173-214 -/
def view (s : State) : JournalCache.State :=
  match s.status with
  | .superblock => .loading ⟨s.sbRead, s.sbGot, get s.syncReqs⟩
  | .other => .other (otherOf s)
  | .ready => .ready (readyOf s)

/-- `WF` and `Inv`, CommitterImpl.i.dfy:146-171, 216-220, with what is needed of `Inv` of
BlockCacheSystem/JournalCache.i.dfy:668-770 -/
structure Inv (s : State) : Prop where
  journalist : s.journalist.Inv
  quiet : s.status ≠ .ready → s.journalist.frozen = [] ∧ s.journalist.mem = [] ∧ s.journalist.replay = []
  got : ∀ w sb, s.sbGot w = .success sb → SbOk sb
  empty : s.status = .superblock → s.journalist.front = none ∧ s.journalist.back = none
  sb : s.status ≠ .superblock → SbOk s.sb
  parts : s.status = .other → ∀ w, part s.sb w = none →
    s.read w = none ∧ (if w then s.journalist.back else s.journalist.front) = none
  commit : s.status = .ready → (s.sbWrite = none ↔ s.commit = .none)
  new : s.status = .ready → s.sbWrite ≠ none → ∃ n, s.newSb = some n ∧ SbOk n
  pos : s.status = .ready → s.isFrozen = true → s.frozenPos ≤ s.journalist.written
  loc : s.status = .ready → ∀ l, s.frozenLoc = some l → ValidTableLoc l ∧ s.isFrozen = true
  froze : s.isFrozen = true → s.status = .ready
  location : s.status = .ready → s.commit = .location → s.frozenLoc ≠ none ∧ s.isFrozen = true

theorem init_inv : Inv init where
  journalist := Journalist.init_inv
  quiet _ := Journalist.init_parts
  got _ _ h := nomatch h
  empty _ := ⟨rfl, rfl⟩
  sb h := absurd rfl h
  parts h := nomatch h
  commit h := nomatch h
  new h := nomatch h
  pos h := nomatch h
  loc h := nomatch h
  froze h := nomatch h
  location h := nomatch h

/-! ### The requests -/

theorem get_map (f : SyncStatus → SyncStatus) (q : Reqs) :
    get (q.map fun p => (p.1, f p.2)) = PMap.mapVal f (get q) := by
  funext id
  unfold get PMap.mapVal
  induction q with
  | nil => rfl
  | cons p q ih =>
    by_cases h : p.1 = id
    · simp [List.find?_cons, h]
    · simp only [List.map_cons, List.find?_cons, h, decide_false]; exact ih

theorem get_2to1 (q : Reqs) : get (reqs2to1 q) = PMap.mapVal SyncStatus.to1 (get q) := get_map _ q
theorem get_3to2 (q : Reqs) : get (reqs3to2 q) = PMap.mapVal SyncStatus.to2 (get q) := get_map _ q

theorem get_cons (id : Nat) (x : SyncStatus) (q : Reqs) :
    get ((id, x) :: q) = PMap.insert (get q) id x := by
  funext i
  by_cases h : i = id
  · subst h; rw [PMap.insert_same]; simp [get]
  · rw [PMap.insert_other _ _ h]
    simp [get, Ne.symm h]

theorem get_filter (id : Nat) (q : Reqs) :
    get (q.filter (·.1 ≠ id)) = PMap.remove (get q) id := by
  funext i
  unfold get
  by_cases h : i = id
  · subst h
    rw [PMap.remove_same]
    have : (q.filter (·.1 ≠ i)).find? (·.1 = i) = none := by
      rw [List.find?_eq_none]
      intro p hp
      have := (List.mem_filter.mp hp).2
      simpa using this
    rw [this]; rfl
  · rw [PMap.remove_other _ h]
    have : (q.filter (·.1 ≠ id)).find? (·.1 = i) = q.find? (·.1 = i) := by
      induction q with
      | nil => rfl
      | cons p q ih =>
        by_cases hp : p.1 = id
        · have : ¬ p.1 = i := fun e => h (by rw [← e, hp])
          simp only [List.filter_cons, List.find?_cons, hp, ne_eq, not_true_eq_false, decide_false,
            Bool.false_eq_true, if_false] at ih ⊢
          rw [ih]
          have h2 : ¬ id = i := fun e => h e.symm
          simp [h2]
        · simp only [List.filter_cons, hp, ne_eq, not_false_eq_true, decide_true, if_true, List.find?_cons] at ih ⊢
          rw [ih]
    rw [this]

theorem le_foldl_max : ∀ (l : List Nat) (a : Nat), a ≤ l.foldl max a ∧ ∀ x ∈ l, x ≤ l.foldl max a
  | [], a => ⟨Nat.le_refl _, by simp⟩
  | y :: l, a => by
    obtain ⟨h1, h2⟩ := le_foldl_max l (max a y)
    refine ⟨Nat.le_trans (Nat.le_max_left _ _) h1, fun x hx => ?_⟩
    rcases List.mem_cons.mp hx with rfl | hx
    · exact Nat.le_trans (Nat.le_max_right _ _) h1
    · exact h2 x hx

/-- `freeId`, CommitterImpl.i.dfy:799-802 -/
theorem get_freeId {q : Reqs} (h : freeId q ≠ 0) : get q (freeId q) = none := by
  unfold get
  have : q.find? (·.1 = freeId q) = none := by
    rw [List.find?_eq_none]
    intro p hp e
    have h1 := (le_foldl_max (q.map (·.1)) 0).2 p.1 (List.mem_map_of_mem hp)
    have h2 : p.1 = freeId q := by simpa using e
    unfold freeId at h h2
    dsimp only at h h2
    split at h2
    · rename_i h3; rw [if_pos h3] at h; exact h rfl
    · omega
  rw [this]; rfl

theorem setSync_view (q : Reqs) :
    (view s).setSync (get q) = view { s with syncReqs := q } := by
  unfold view JournalCache.State.setSync
  cases s.status <;> rfl

theorem view_syncReqs : (view s).syncReqs = get s.syncReqs := by
  unfold view JournalCache.State.syncReqs
  cases s.status <;> rfl

/-! ### Bytes of the journal -/

/-- `JournalBytesSplit`, ByteBlockCacheSystem/JournalBytes.i.dfy -/
theorem range_split {crc : List UInt8 → List UInt8} : ∀ (n : Nat) {x : List UInt8} {bs : List Block},
    JournalBytes.rangeOfBytes crc x = some bs → n ≤ bs.length →
    JournalBytes.rangeOfBytes crc (x.take (4096 * n)) = some (bs.take n) ∧
      JournalBytes.rangeOfBytes crc (x.drop (4096 * n)) = some (bs.drop n)
  | 0, x, bs, h, _ => by
    rw [Nat.mul_zero, List.take_zero, List.drop_zero, Journalist.rangeOfBytes_nil]
    exact ⟨rfl, h⟩
  | n + 1, x, bs, h, hn => by
    have hx : x ≠ [] := by
      rintro rfl
      rw [Journalist.rangeOfBytes_nil] at h; cases h; simp at hn
    rw [JournalBytes.rangeOfBytes, dif_neg hx] at h
    by_cases h1 : 4096 ≤ x.length
    · rw [dif_pos h1] at h
      cases e1 : JournalBytes.blockOfBytes crc (x.take 4096) with
      | none => simp [e1] at h
      | some b =>
        cases e2 : JournalBytes.rangeOfBytes crc (x.drop 4096) with
        | none => simp [e1, e2] at h
        | some rest =>
          simp only [e1, e2] at h
          cases h
          obtain ⟨q1, q2⟩ := range_split n e2 (by rw [List.length_cons] at hn; omega)
          have l1 : (x.take (4096 * (n + 1))).length = min (4096 * (n + 1)) x.length := List.length_take
          have f1 : (x.take (4096 * (n + 1))).take 4096 = x.take 4096 := by
            rw [List.take_take, Nat.min_eq_left (by omega)]
          have f2 : (x.take (4096 * (n + 1))).drop 4096 = (x.drop 4096).take (4096 * n) := by
            rw [List.drop_take, show 4096 * (n + 1) - 4096 = 4096 * n by omega]
          constructor
          · rw [JournalBytes.rangeOfBytes, dif_neg (by
              intro e; rw [e] at l1; simp only [List.length_nil] at l1; omega), dif_pos (by omega), f1, f2, e1, q1]
            rfl
          · rw [show 4096 * (n + 1) = 4096 + 4096 * n by omega, ← List.drop_drop, q2]
            rfl
    · rw [dif_neg h1] at h; cases h

theorem op_writeSb (c : Codec Node) (id : ReqId) {w : Data} {x : Bool} {sb : Superblock} (h : w.loc = sbLoc x)
    (hs : c.superblock w.bytes = some sb) :
    ValidOp c (.reqWrite id w) ∧ journalOp c (.reqWrite id w) = .reqWriteSb id x sb := by
  obtain ⟨h1, h2, h3⟩ := sb_not h
  constructor
  · refine ⟨by rw [h]; exact ValidLoc.sb x, (fun _ _ => by rw [hs]; exact fun e => nomatch e),
      fun k => absurd k h1, fun k => absurd k h2, fun k => absurd k h3⟩
  · cases x
    · simp only [journalOp]; rw [if_pos (show w.loc = superblock1Loc from h), hs]
    · simp only [journalOp]
      rw [if_neg (by rw [h]; exact sbLoc_two), if_pos (show w.loc = superblock2Loc from h), hs]

theorem valid_writeJ (c : Codec Node) {w : Data} {bs : List Block} (h : ValidJournalLoc w.loc)
    (hs : c.range w.bytes = some bs) : ValidWrite c w :=
  ⟨ValidLoc.journal h, (fun _ e => absurd h (sb_not e).1), (fun _ => by rw [hs]; exact fun e => nomatch e),
    fun k => absurd h (table_not_journal k), fun k => absurd h (node_not_journal k)⟩

theorem op_writeJ (c : Codec Node) (id : ReqId) {w : Data} {bs : List Block} (h : ValidJournalLoc w.loc)
    (hs : c.range w.bytes = some bs) :
    ValidOp c (.reqWrite id w) ∧
      journalOp c (.reqWrite id w) = .reqWriteJ id none (intervalOf w.loc).start bs := by
  have h1 := sb_first fun w e => (sb_not e).1 h
  exact ⟨valid_writeJ c h hs, by simp only [journalOp, if_neg h1.1, if_neg h1.2, if_pos h, hs]⟩

theorem loc_at {start k : Nat} {x : List UInt8} (hx : x.length = 4096 * k) :
    (⟨journalPoint start, x⟩ : Data).loc = ⟨journalPoint start, 4096 * k⟩ := by
  unfold Data.loc; dsimp only; rw [hx]

/-- The two requests for a package of `k` blocks that goes around the end of the ring. -/
theorem op_write2 (c : Codec Node) (id1 id2 : ReqId) {x : List UInt8} {bs : List Block} {start : Nat}
    (hs : start < numJournalBlocks) (hr : c.range x = some bs) (hx : x.length = 4096 * bs.length)
    (hk : bs.length ≤ numJournalBlocks) (hc : ¬ start + bs.length ≤ numJournalBlocks) :
    let cut := (numJournalBlocks - start) * 4096
    let dop : Op := .reqWrite2 id1 id2 ⟨journalPoint start, x.take cut⟩ ⟨journalPoint 0, x.drop cut⟩
    ValidOp c dop ∧ journalOp c dop = .reqWriteJ id1 (some id2) start bs := by
  generalize hN : numJournalBlocks = N at *
  intro cut dop
  have hcut : cut = 4096 * (N - start) := Nat.mul_comm _ _
  obtain ⟨r1, r2⟩ := range_split (N - start) hr (by omega)
  rw [← hcut] at r1 r2
  have l1 : (x.take cut).length = 4096 * (N - start) := by rw [List.length_take, hcut, hx]; omega
  have l2 : (x.drop cut).length = 4096 * (bs.length - (N - start)) := by
    rw [List.length_drop, hcut, hx]; omega
  have e1 := loc_at (start := start) l1
  have e2 := loc_at (start := 0) l2
  have v1 := interval_loc (v := ⟨start, N - start⟩) (by rw [hN]; exact hs) (by rw [hN]; dsimp only; omega)
  have v2 := interval_loc (v := ⟨0, bs.length - (N - start)⟩) (by rw [hN]; dsimp only; omega)
    (by rw [hN]; dsimp only; omega)
  dsimp only at v1 v2
  rw [← e1] at v1
  rw [← e2] at v2
  constructor
  · refine ⟨valid_writeJ c v1.1 r1, valid_writeJ c v2.1 r2, v1.1, v2.1, ?_, ?_, ?_, ?_⟩
    · rw [v1.2, hN]; dsimp only; omega
    · rw [v2.2]
    · rw [v2.2]; dsimp only; omega
    · rw [v1.2, v2.2, hN]; dsimp only; omega
  · have r1' : c.range (x.take cut) = some (bs.take (N - start)) := r1
    have r2' : c.range (x.drop cut) = some (bs.drop (N - start)) := r2
    simp only [dop, journalOp, r1', r2', v1.2, List.take_append_drop]

/-! ### The steps -/

theorem view_ready (h : s.status = .ready) : view s = .ready (readyOf s) := by unfold view; rw [h]
theorem view_other (h : s.status = .other) : view s = .other (otherOf s) := by unfold view; rw [h]
theorem view_loading (h : s.status = .superblock) :
    view s = .loading ⟨s.sbRead, s.sbGot, get s.syncReqs⟩ := by unfold view; rw [h]

theorem ready_of_view {r : JournalCache.Ready} (h : view s = .ready r) :
    s.status = .ready ∧ r = readyOf s := by
  unfold view at h
  split at h
  · cases h
  · cases h
  · rename_i e; cases h; exact ⟨e, rfl⟩

/-- What is to be shown of a call: the bytes make sense, the step is one of the journal cache, and the
invariant is kept. -/
structure Good (c : Codec Node) (s : State) (dop : Op) (vop : VOp) (s' : State) : Prop where
  valid : ValidOp c dop
  step : JournalCache.Next (view s) (journalOp c dop) vop (view s')
  inv : Inv s'

theorem written_le (h : Inv s) : s.journalist.written ≤ numJournalBlocks := by
  have := h.journalist.space
  generalize numJournalBlocks = N at *
  have h1 := Nat.add_mul s.journalist.written s.journalist.frozenBlocks 4064
  omega

theorem incr_lt {i : Nat} (h : i < 2 ^ 64) : incr i < 2 ^ 64 := by
  unfold incr; split <;> omega

theorem posAdd_lt {a b : Nat} (ha : a < numJournalBlocks) (hb : b ≤ numJournalBlocks) :
    posAdd a b < numJournalBlocks := by
  unfold posAdd
  generalize numJournalBlocks = N at *
  split <;> omega

variable {c : Codec Node}

theorem good_noop (h : Inv s) {vop : VOp} (hv : vop = .journalInternal ∨ vop = .statesInternal) :
    Good c s .none vop s := ⟨trivial, .noop hv (.inl rfl), h⟩

/-- `WriteOutJournal` -/
theorem good_writeOut (hcrc : ∀ x, (c.crc x).length = 32) (h : Inv s) (hs : s.status = .ready)
    (hw : s.sbWrite = none) (hm : (s.journalist.hasFrozen || s.journalist.hasMem) = true) (id1 id2 : ReqId) :
    Good c s (s.writeOutJournal c.crc id1 id2).1 .journalInternal (s.writeOutJournal c.crc id1 id2).2 := by
  have hj := h.journalist
  have hsb := (h.sb (by rw [hs]; decide)).1
  have hwr := written_le h
  have hst : posAdd s.sb.start s.journalist.written < numJournalBlocks := posAdd_lt hsb.1 hwr
  -- what was packaged
  obtain ⟨x, j, hp, bs, es, hr, hpar, hlen, hpos, hj', hwr', hle, hfr, hme, hrep, hkind⟩ :
      ∃ x j, (if s.journalist.hasFrozen then s.journalist.packageFrozen c.crc
          else s.journalist.packageMem c.crc) = (x, j) ∧
        ∃ bs es, c.range x = some bs ∧ parseRange bs = some es ∧ x.length = 4096 * bs.length ∧
          0 < bs.length ∧ j.Inv ∧ j.written = s.journalist.written + bs.length ∧
          j.written ≤ numJournalBlocks ∧ j.frozen = [] ∧
          j.mem = (if s.journalist.hasFrozen then s.journalist.mem else []) ∧
          (j.replay = s.journalist.replay ∧ j.front = s.journalist.front ∧ j.back = s.journalist.back) ∧
          es = (if s.journalist.hasFrozen then s.journalist.frozen else s.journalist.mem) := by
    by_cases hf : s.journalist.hasFrozen = true
    · obtain ⟨a1, a2, a3, a4, bs, b1, b2, b3, b4, b5⟩ := Journalist.packageFrozen_spec hcrc hj
        ((Journalist.hasFrozen_iff hj).mp hf)
      simp only [hf, if_true]
      exact ⟨_, _, rfl, bs, _, b1, b2, b3, b4, a1, b5, a4, a2, a3, ⟨rfl, rfl, rfl⟩, rfl⟩
    · have hme : s.journalist.hasMem = true := by simpa [hf] using hm
      have h0 : s.journalist.frozen = [] := by
        exact Classical.byContradiction fun h0 => hf ((Journalist.hasFrozen_iff hj).mpr h0)
      obtain ⟨a1, a2, a3, a4, bs, b1, b2, b3, b4, b5⟩ := Journalist.packageMem_spec hcrc hj h0
        ((Journalist.hasMem_iff hj).mp hme)
      have hf' : s.journalist.hasFrozen = false := by simpa using hf
      simp only [hf', Bool.false_eq_true, if_false]
      exact ⟨_, _, rfl, bs, _, b1, b2, b3, b4, a1, b5, a4, a2, a3, ⟨rfl, rfl, rfl⟩, rfl⟩
  have hl : x.length / 4096 = bs.length := by rw [hlen]; exact Nat.mul_div_cancel_left _ (by decide)
  have hbs : bs.length ≤ numJournalBlocks := by rw [hwr'] at hle; omega
  -- the operation
  have hop : ∃ id2', ValidOp c (s.writeOutJournal c.crc id1 id2).1 ∧
      journalOp c (s.writeOutJournal c.crc id1 id2).1 =
        .reqWriteJ id1 id2' (posAdd s.sb.start s.journalist.written) bs ∧
      ∀ i, (i ∈ (s.writeOutJournal c.crc id1 id2).2.writes ↔
        i ∈ s.writes ∨ JournalCache.ids id1 id2' i) := by
    unfold State.writeOutJournal
    dsimp only
    rw [hp]
    dsimp only
    rw [hl]
    have hsp : State.startPosAdd s.sb.start s.journalist.written = posAdd s.sb.start s.journalist.written := rfl
    rw [hsp]
    by_cases hc : posAdd s.sb.start s.journalist.written + bs.length ≤ numJournalBlocks
    · rw [if_pos hc]
      have e := loc_at (start := posAdd s.sb.start s.journalist.written) hlen
      have v := interval_loc (v := ⟨posAdd s.sb.start s.journalist.written, bs.length⟩) hst hc
      dsimp only at v
      rw [← e] at v
      obtain ⟨q1, q2⟩ := op_writeJ c id1 v.1 hr
      rw [v.2] at q2
      refine ⟨none, q1, q2, fun i => ?_⟩
      simp only [JournalCache.ids, List.cons_append, List.nil_append, List.mem_cons]
      constructor
      · rintro (h | h)
        · exact .inr (.inl h)
        · exact .inl h
      · rintro (h | h | h)
        · exact .inr h
        · exact .inl h
        · cases h
    · rw [if_neg hc]
      obtain ⟨q1, q2⟩ := op_write2 c id1 id2 hst hr hlen hbs hc
      refine ⟨some id2, q1, q2, fun i => ?_⟩
      simp only [JournalCache.ids, List.cons_append, List.nil_append, List.mem_cons, Option.some.injEq]
      constructor
      · rintro (h | h | h)
        · exact .inr (.inl h)
        · exact .inr (.inr h.symm)
        · exact .inl h
      · rintro (h | h | h)
        · exact .inr (.inr h)
        · exact .inl h
        · exact .inr (.inl h.symm)
  obtain ⟨id2', hv, hjop, hwrites⟩ := hop
  have hstat : (s.writeOutJournal c.crc id1 id2).2.status = .ready := hs
  refine ⟨hv, ?_, ?_⟩
  · rw [hjop, view_ready hs, view_ready hstat]
    by_cases hf : s.journalist.hasFrozen = true
    · rw [if_pos hf] at hp hme hkind
      have hne := (Journalist.hasFrozen_iff hj).mp hf
      have := JournalCache.Next.writeFrozen (r := readyOf s) (id1 := id1) (id2 := id2') (jr := bs) hne
        (by rw [hpar, hkind]; rfl) (by show bs.length + s.journalist.written ≤ _; omega) hpos hw hsb.1 hwr
      have e : readyOf (s.writeOutJournal c.crc id1 id2).2 = { readyOf s with
          writes := fun i => (readyOf s).writes i ∨ JournalCache.ids id1 id2' i
          written := (readyOf s).written + bs.length
          frozenPos := (readyOf s).written + bs.length
          memFrozen := [] } := by
        have hw' : (fun i => i ∈ (s.writeOutJournal c.crc id1 id2).2.writes) =
            fun i => (i ∈ s.writes ∨ JournalCache.ids id1 id2' i) := funext fun i => propext (hwrites i)
        unfold readyOf
        rw [hw']
        simp only [State.writeOutJournal, hf, if_true, hp, hwr', hfr, hme, hrep.1]
      rw [e]
      exact this
    · have hf' : s.journalist.hasFrozen = false := by simpa using hf
      rw [if_neg hf] at hp hme hkind
      have h0 : s.journalist.frozen = [] := by
        exact Classical.byContradiction fun h0 => hf ((Journalist.hasFrozen_iff hj).mpr h0)
      have := JournalCache.Next.writeJournal (r := readyOf s) (id1 := id1) (id2 := id2') (jr := bs) h0
        (by rw [hpar, hkind]; rfl) (by show bs.length + s.journalist.written ≤ _; omega) hpos hw hsb.1 hwr
      have e : readyOf (s.writeOutJournal c.crc id1 id2).2 = { readyOf s with
          writes := fun i => (readyOf s).writes i ∨ JournalCache.ids id1 id2' i
          written := (readyOf s).written + bs.length
          mem := []
          memFrozen := []
          syncReqs := (readyOf s).syncReqs.mapVal .to2 } := by
        have hw' : (fun i => i ∈ (s.writeOutJournal c.crc id1 id2).2.writes) =
            fun i => (i ∈ s.writes ∨ JournalCache.ids id1 id2' i) := funext fun i => propext (hwrites i)
        unfold readyOf
        rw [hw']
        simp only [State.writeOutJournal, hf', Bool.false_eq_true, if_false, hp, hwr', hfr, hme, hrep.1, get_3to2]
      rw [e]
      exact this
  · have hjn : (s.writeOutJournal c.crc id1 id2).2.journalist = j := by
      simp only [State.writeOutJournal, hp]
    have hfp : (s.writeOutJournal c.crc id1 id2).2.frozenPos = s.frozenPos ∨
        (s.writeOutJournal c.crc id1 id2).2.frozenPos = j.written := by
      simp only [State.writeOutJournal, hp]
      split
      · exact .inr rfl
      · exact .inl rfl
    refine ⟨by rw [hjn]; exact hj', fun k => absurd hs k, h.got, fun k => ?_, h.sb, fun k => ?_, h.commit, h.new,
      fun k1 k2 => ?_, h.loc, h.froze, h.location⟩
    · rw [hstat] at k; cases k
    · rw [hstat] at k; cases k
    · have := h.pos k1 k2
      rw [hjn]
      rcases hfp with e | e
      · rw [e]; omega
      · rw [e]; exact Nat.le_refl _

/-- The bytes of a superblock are read as that superblock. -/
theorem good_sb (hcrc : ∀ x, (c.crc x).length = 32)
    (hsb : ∀ x, c.superblock x = SuperblockBytes.ofBytes c.crc x) (id : ReqId) (w : Bool) {sb : Superblock}
    (h : SbOk sb) :
    ValidOp c (.reqWrite id ⟨(sbLoc w).addr, SuperblockBytes.marshal c.crc sb⟩) ∧
      journalOp c (.reqWrite id ⟨(sbLoc w).addr, SuperblockBytes.marshal c.crc sb⟩) = .reqWriteSb id w sb := by
  refine op_writeSb c id ?_ (by rw [hsb]; exact SuperblockBytes.ofBytes_marshal hcrc h)
  unfold Data.loc
  dsimp only
  rw [SuperblockBytes.marshal_length hcrc, ← (sb_bounds w).1]

theorem good_sbLog (hcrc : ∀ x, (c.crc x).length = 32)
    (hsb : ∀ x, c.superblock x = SuperblockBytes.ofBytes c.crc x) (h : Inv s) (hs : s.status = .ready)
    (hw : s.sbWrite = none) (hm : s.journalist.hasFrozen = false) (hq : s.writes = []) (id : ReqId) :
    Good c s (s.writeOutSbLog c.crc id).1 .journalInternal (s.writeOutSbLog c.crc id).2 := by
  have hs' := h.sb (by rw [hs]; decide)
  have hok : SbOk ⟨incr s.sb.counter, s.sb.start, s.journalist.written, s.sb.loc⟩ :=
    ⟨⟨hs'.1.1, written_le h, hs'.1.2.2⟩, incr_lt hs'.2⟩
  obtain ⟨v, e⟩ := good_sb hcrc hsb id (!s.which) hok
  have h0 : s.journalist.frozen = [] := Classical.byContradiction fun h0 => by
    rw [(Journalist.hasFrozen_iff h.journalist).mpr h0] at hm; cases hm
  refine ⟨v, ?_, ?_⟩
  · show JournalCache.Next _ (journalOp c (.reqWrite id _)) _ _
    rw [e, view_ready hs, view_ready (s := (s.writeOutSbLog c.crc id).2) hs]
    exact .advanceLog (r := readyOf s) ((h.commit hs).mp hw) (fun i k => by
      have : i ∈ s.writes := k
      rw [hq] at this; cases this) h0 (written_le h) rfl
  · exact ⟨h.journalist, h.quiet, h.got, h.empty, h.sb, h.parts,
      fun _ => ⟨(fun k => nomatch k), (fun k => nomatch k)⟩, fun _ _ => ⟨_, rfl, hok⟩, h.pos, h.loc, h.froze,
      fun _ k => nomatch k⟩

theorem good_sbLoc (hcrc : ∀ x, (c.crc x).length = 32)
    (hsb : ∀ x, c.superblock x = SuperblockBytes.ofBytes c.crc x) (h : Inv s) (hs : s.status = .ready)
    (hw : s.sbWrite = none) (hm : s.journalist.hasFrozen = false) (hq : s.writes = []) {loc : Loc}
    (hl : s.frozenLoc = some loc) (id : ReqId) :
    Good c s (s.writeOutSbLoc c.crc loc id).1 .journalInternal (s.writeOutSbLoc c.crc loc id).2 := by
  have hs' := h.sb (by rw [hs]; decide)
  obtain ⟨hl1, hl2⟩ := h.loc hs loc hl
  have hp := h.pos hs hl2
  have hwr := written_le h
  have hok : SbOk ⟨incr s.sb.counter, State.startPosAdd s.sb.start s.frozenPos,
      s.journalist.written - s.frozenPos, loc⟩ :=
    ⟨⟨posAdd_lt hs'.1.1 (Nat.le_trans hp hwr), Nat.le_trans (Nat.sub_le _ _) hwr, hl1⟩, incr_lt hs'.2⟩
  obtain ⟨v, e⟩ := good_sb hcrc hsb id (!s.which) hok
  have h0 : s.journalist.frozen = [] := Classical.byContradiction fun h0 => by
    rw [(Journalist.hasFrozen_iff h.journalist).mpr h0] at hm; cases hm
  refine ⟨v, ?_, ?_⟩
  · show JournalCache.Next _ (journalOp c (.reqWrite id _)) _ _
    rw [e, view_ready hs, view_ready (s := (s.writeOutSbLoc c.crc loc id).2) hs]
    exact .advanceLocation (r := readyOf s) hl ((h.commit hs).mp hw) (fun i k => by
      have : i ∈ s.writes := k
      rw [hq] at this; cases this) h0 hs'.1.1 hp hwr rfl
  · exact ⟨h.journalist, h.quiet, h.got, h.empty, h.sb, h.parts,
      fun _ => ⟨(fun k => nomatch k), (fun k => nomatch k)⟩, fun _ _ => ⟨_, rfl, hok⟩, h.pos, h.loc, h.froze,
      fun _ _ => ⟨(fun k => by rw [show s.frozenLoc = none from k] at hl; cases hl), hl2⟩⟩

theorem good_log (hcrc : ∀ x, (c.crc x).length = 32)
    (hsb : ∀ x, c.superblock x = SuperblockBytes.ofBytes c.crc x) (h : Inv s) (hs : s.status = .ready)
    (id1 id2 : ReqId) :
    Good c s (s.tryAdvanceLog c.crc id1 id2).1 .journalInternal (s.tryAdvanceLog c.crc id1 id2).2 := by
  unfold State.tryAdvanceLog
  split
  · rename_i hw
    split
    · rename_i hm
      exact good_writeOut hcrc h hs hw (by simpa using hm) id1 id2
    · rename_i hm
      split
      · rename_i hq
        exact good_sbLog hcrc hsb h hs hw (by simp at hm; exact hm.1) hq id1
      · exact good_noop h (.inl rfl)
  · exact good_noop h (.inl rfl)

theorem good_location (hcrc : ∀ x, (c.crc x).length = 32)
    (hsb : ∀ x, c.superblock x = SuperblockBytes.ofBytes c.crc x) (h : Inv s) (hs : s.status = .ready)
    {loc : Loc} (hl : s.frozenLoc = some loc) (id1 id2 : ReqId) :
    Good c s (s.tryAdvanceLocation c.crc loc id1 id2).1 .journalInternal
      (s.tryAdvanceLocation c.crc loc id1 id2).2 := by
  unfold State.tryAdvanceLocation
  split
  · rename_i hw
    split
    · rename_i hm
      exact good_writeOut hcrc h hs hw (by simpa using hm) id1 id2
    · rename_i hm
      split
      · rename_i hq
        exact good_sbLoc hcrc hsb h hs hw (by simp at hm; exact hm.1) hq hl id1
      · exact good_noop h (.inl rfl)
  · exact good_noop h (.inl rfl)

theorem good_pageInFront (h : Inv s) (hs : s.status = .other) (hl : 0 < s.sb.len)
    (hr : s.read false = none) (hf : s.journalist.front = none) (id : ReqId) :
    Good c s (s.pageInFront id).1 .journalInternal (s.pageInFront id).2 := by
  have hsb := (h.sb (by rw [hs]; decide)).1
  have hp : part s.sb false = some ⟨s.sb.start, if numJournalBlocks ≤ s.sb.start + s.sb.len then
      numJournalBlocks - s.sb.start else s.sb.len⟩ := by
    have h1 := hsb.1
    unfold part
    rw [if_neg (by omega)]
    refine congrArg (fun k => some (⟨s.sb.start, k⟩ : Interval)) ?_
    generalize numJournalBlocks = N at *
    split <;> split <;> omega
  generalize hk : (if numJournalBlocks ≤ s.sb.start + s.sb.len then
      numJournalBlocks - s.sb.start else s.sb.len) = k at hp
  have hle : s.sb.start + k ≤ numJournalBlocks := by
    have h1 := hsb.1
    generalize numJournalBlocks = N at *
    rw [← hk]; split <;> omega
  obtain ⟨v1, v2⟩ := interval_loc (v := ⟨s.sb.start, k⟩) hsb.1 hle
  have e : (s.pageInFront id).1 = .reqRead id ⟨journalPoint s.sb.start, 4096 * k⟩ := by
    unfold State.pageInFront State.rangeLoc; dsimp only; rw [hk]
  rw [e]
  refine ⟨ValidLoc.journal v1, ?_, ?_⟩
  · rw [(op_reqJ c id v1).2, v2, view_other hs, view_other (s := (s.pageInFront id).2) hs]
    exact .pageJournal (o := otherOf s) (w := false) hsb.1 hsb.2.1 hp hr hf
  · refine ⟨h.journalist, h.quiet, h.got, h.empty, h.sb, fun k w hw => ?_, h.commit, h.new, h.pos, h.loc, h.froze,
      h.location⟩
    cases w
    · rw [show part s.sb false = none from hw] at hp; cases hp
    · have := h.parts hs true hw
      refine ⟨?_, this.2⟩
      show (if true = false then some id else if s.read true = some id then none else s.read true) = none
      rw [this.1]; rfl

theorem good_pageInBack (h : Inv s) (hs : s.status = .other) (hl : numJournalBlocks < s.sb.start + s.sb.len)
    (hr : s.read true = none) (hf : s.journalist.back = none) (id : ReqId) :
    Good c s (s.pageInBack id).1 .journalInternal (s.pageInBack id).2 := by
  have hsb := (h.sb (by rw [hs]; decide)).1
  have hp : part s.sb true = some ⟨0, s.sb.start + s.sb.len - numJournalBlocks⟩ := by
    have h1 := hsb.1
    simp only [part]
    rw [if_neg (by omega), if_neg (by omega)]
    refine congrArg (fun k => some (⟨0, k⟩ : Interval)) ?_
    omega
  have hle : 0 + (s.sb.start + s.sb.len - numJournalBlocks) ≤ numJournalBlocks := by
    have h1 := hsb.1
    have h2 := hsb.2.1
    omega
  have h0 : 0 < numJournalBlocks := Nat.lt_of_le_of_lt (Nat.zero_le _) hsb.1
  obtain ⟨v1, v2⟩ := interval_loc (v := ⟨0, s.sb.start + s.sb.len - numJournalBlocks⟩) h0 hle
  refine ⟨ValidLoc.journal v1, ?_, ?_⟩
  · show JournalCache.Next _ (journalOp c (.reqRead id ⟨journalPoint 0, _⟩)) _ _
    rw [(op_reqJ c id v1).2, v2, view_other hs, view_other (s := (s.pageInBack id).2) hs]
    exact .pageJournal (o := otherOf s) (w := true) hsb.1 hsb.2.1 hp hr hf
  · refine ⟨h.journalist, h.quiet, h.got, h.empty, h.sb, fun k w hw => ?_, h.commit, h.new, h.pos, h.loc, h.froze,
      h.location⟩
    cases w
    · have := h.parts hs false hw
      refine ⟨?_, this.2⟩
      show (if false = true then some id else if s.read false = some id then none else s.read false) = none
      rw [this.1]; rfl
    · rw [show part s.sb true = none from hw] at hp; cases hp

theorem good_finishOther (h : Inv s) (hs : s.status = .other)
    (hfr : 0 < s.sb.len → s.journalist.front.isSome = true)
    (hba : numJournalBlocks < s.sb.start + s.sb.len → s.journalist.back.isSome = true) :
    Good c s .none .journalInternal s.finishOther := by
  have hsb := h.sb (by rw [hs]; decide)
  unfold State.finishOther
  split
  · rename_i j hj
    obtain ⟨a1, a2, a3, a4, a5, a6, a7⟩ := Journalist.parse_spec h.journalist hj
    obtain ⟨q1, q2, q3⟩ := h.quiet (by rw [hs]; decide)
    refine ⟨trivial, ?_, ?_⟩
    · rw [view_other hs, view_ready rfl]
      have hfull : JournalCache.fullRange (otherOf s) =
          s.journalist.front.getD [] ++ s.journalist.back.getD [] := by
        have key : ∀ w, ((part s.sb w).bind fun _ => (otherOf s).got w) = (otherOf s).got w := by
          intro w
          cases e : part s.sb w with
          | some v => rfl
          | none => exact (h.parts hs w e).2.symm
        show ((part s.sb false).bind fun _ => (otherOf s).got false).getD [] ++
          ((part s.sb true).bind fun _ => (otherOf s).got true).getD [] = _
        rw [key, key]; rfl
      have hgot : ∀ w, part s.sb w ≠ none → (otherOf s).got w ≠ none := by
        intro w hw
        cases w
        · show s.journalist.front ≠ none
          by_cases h0 : s.sb.len = 0
          · exact absurd (by unfold part; rw [if_pos h0]) hw
          · intro e; rw [e] at hfr; exact nomatch hfr (by omega)
        · show s.journalist.back ≠ none
          by_cases h0 : numJournalBlocks < s.sb.start + s.sb.len
          · intro e; rw [e] at hba; exact nomatch hba h0
          · refine absurd ?_ hw
            simp only [part]
            split
            · rfl
            · rw [if_pos (by omega)]
      have := JournalCache.Next.finishOther (o := otherOf s) (p := 0) (replay := j.replay) hsb.1.1 hsb.1.2.1
        hgot (by rw [hfull]; exact a7)
      have e : (readyOf { s with
          status := .ready, frozenLoc := none, isFrozen := false, frozenPos := 0, sbWrite := none, writes := []
          newSb := none, commit := .none, journalist := j.setWritten s.sb.len }) =
          { frozenLoc := none, isFrozen := false, frozenPos := 0, sbWrite := none, memFrozen := []
            mem := [], writes := fun _ => False, written := (otherOf s).sb.len, replay := j.replay
            sb := (otherOf s).sb
            which := (otherOf s).which, commit := .none, newSb := none, syncReqs := (otherOf s).syncReqs } := by
        have e1 : (j.setWritten s.sb.len).frozen = [] := (show j.frozen = [] by rw [a4, q1])
        have e2 : (j.setWritten s.sb.len).mem = [] := (show j.mem = [] by rw [a5, q2])
        have e3 : (fun i : ReqId => i ∈ ([] : List ReqId)) = fun _ => False :=
          funext fun i => propext ⟨fun k => (nomatch k), False.elim⟩
        unfold readyOf
        dsimp only
        rw [e1, e2, e3]
        rfl
      rw [e]
      exact this
    · refine ⟨Journalist.setWritten_spec a1 (by rw [a4, q1]) (by rw [a5, q2]) hsb.1.2.1, fun k => absurd rfl k,
        h.got, (fun k => nomatch k), fun _ => hsb, (fun k => nomatch k), fun _ => ⟨fun _ => rfl, fun _ => rfl⟩,
        fun _ k => absurd rfl k, (fun _ k => nomatch k), (fun _ _ k => nomatch k), (fun k => nomatch k),
        (fun _ k => nomatch k)⟩
  · exact good_noop h (.inl rfl)

theorem good_tryFinishOther (h : Inv s) (hs : s.status = .other) (id : ReqId) :
    Good c s (s.tryFinishOther id).1 .journalInternal (s.tryFinishOther id).2 := by
  unfold State.tryFinishOther
  dsimp only
  split
  · rename_i k
    exact good_pageInFront h hs k.1 k.2.1 (by simpa using k.2.2) id
  · split
    · rename_i k
      exact good_pageInBack h hs k.1 k.2.1 (by simpa using k.2.2) id
    · split
      · rename_i k
        exact good_finishOther h hs k.1 k.2
      · exact good_noop h (.inl rfl)

/-- An operation of the block side is nothing to the journal. -/
theorem other_side {l : Loc} (h : ValidNodeLoc l ∨ ValidTableLoc l) :
    ValidLoc l ∧ ¬ l = superblock1Loc ∧ ¬ l = superblock2Loc ∧ ¬ ValidJournalLoc l := by
  rcases h with h | h
  · have h1 := sb_first fun w e => (sb_not e).2.2 h
    exact ⟨ValidLoc.node h, h1.1, h1.2, node_not_journal h⟩
  · have h1 := sb_first fun w e => (sb_not e).2.1 h
    exact ⟨ValidLoc.table h, h1.1, h1.2, table_not_journal h⟩

theorem op_respWJ (c : Codec Node) (id : ReqId) {l : Loc} (h : ValidJournalLoc l) :
    journalOp c (.respWrite id l) = .respWriteJ id := by
  have h1 := sb_first fun w e => (sb_not e).1 h
  simp only [journalOp, if_neg h1.1, if_neg h1.2, if_pos h]

theorem op_respWSb (c : Codec Node) (id : ReqId) {l : Loc} {w : Bool} (h : l = sbLoc w) :
    journalOp c (.respWrite id l) = .respWriteSb id w := by
  cases w
  · simp only [journalOp]; rw [if_pos (show l = superblock1Loc from h)]
  · simp only [journalOp]
    rw [if_neg (by rw [h]; exact sbLoc_two), if_pos (show l = superblock2Loc from h)]

theorem range_sizes {x : List UInt8} {a : Nat} {jr : List Block} (hv : ValidJournalLoc ⟨a, x.length⟩)
    (h : c.range x = some jr) : Journalist.Sizes jr := by
  refine ⟨?_, Journalist.rangeOfBytes_sizes _ rfl h⟩
  have h1 := (range_length _ rfl h).1
  obtain ⟨_, _, _, _, h5⟩ := hv
  dsimp only at *
  generalize numJournalBlocks = N at *
  omega

theorem good_readJournal (h : Inv s) (hs : s.status = .other) {r : Data} (hv : ValidJournalLoc r.loc)
    (id : ReqId) : Good c s (.respRead id r) .journalInternal (s.pageInResp c.crc id r.bytes) := by
  have hop := (op_respJ c id hv).2
  have idle : Good c s (.respRead id r) .journalInternal s :=
    ⟨ValidLoc.journal hv, by rw [hop]; exact .noop (.inl rfl) (.inr (.inr (.inl ⟨_, _, rfl⟩))), h⟩
  unfold State.pageInResp
  split
  · rename_i jr hj
    have hj' : c.range r.bytes = some jr := hj
    have hz : Journalist.Sizes jr := range_sizes (a := r.addr) hv hj'
    rw [hj'] at hop
    split
    · rename_i hr
      refine ⟨ValidLoc.journal hv, ?_, ?_⟩
      · rw [hop, view_other hs, view_other (s := { s with
          journalist := s.journalist.setFront jr, read := setAt s.read false none }) hs]
        have := JournalCache.Next.pageJournalResp (o := otherOf s) (w := false) (bs := jr) hr
        have e : (fun w => if w = true then (s.journalist.setFront jr).back else (s.journalist.setFront jr).front) =
            setAt (otherOf s).got false (some jr) := by
          funext w; cases w <;> rfl
        unfold otherOf at *
        dsimp only at *
        rw [e]
        exact this
      · refine ⟨Journalist.setFront_spec h.journalist hz, h.quiet, h.got,
          (fun k => absurd (k.symm.trans hs) (by decide)),
          h.sb, fun k w hw => ?_, (fun k => absurd (k.symm.trans hs) (by decide)),
          (fun k => absurd (k.symm.trans hs) (by decide)),
          (fun k => absurd (k.symm.trans hs) (by decide)), h.loc, h.froze, h.location⟩
        cases w
        · rw [(h.parts hs false hw).1] at hr; cases hr
        · exact h.parts hs true hw
    · split
      · rename_i hr
        refine ⟨ValidLoc.journal hv, ?_, ?_⟩
        · rw [hop, view_other hs, view_other (s := { s with
            journalist := s.journalist.setBack jr, read := setAt s.read true none }) hs]
          have := JournalCache.Next.pageJournalResp (o := otherOf s) (w := true) (bs := jr) hr
          have e : (fun w => if w = true then (s.journalist.setBack jr).back
              else (s.journalist.setBack jr).front) = setAt (otherOf s).got true (some jr) := by
            funext w; cases w <;> rfl
          unfold otherOf at *
          dsimp only at *
          rw [e]
          exact this
        · refine ⟨Journalist.setBack_spec h.journalist hz, h.quiet, h.got,
            (fun k => absurd (k.symm.trans hs) (by decide)),
            h.sb, fun k w hw => ?_, (fun k => absurd (k.symm.trans hs) (by decide)),
            (fun k => absurd (k.symm.trans hs) (by decide)),
            (fun k => absurd (k.symm.trans hs) (by decide)), h.loc, h.froze, h.location⟩
          cases w
          · exact h.parts hs false hw
          · rw [(h.parts hs true hw).1] at hr; cases hr
      · exact idle
  · exact idle

theorem good_readSb (hsb : ∀ x, c.superblock x = SuperblockBytes.ofBytes c.crc x) (h : Inv s) {r : Data}
    {w : Bool} (hl : r.loc = sbLoc w) (id : ReqId) :
    Good c s (.respRead id r) .journalInternal
      (s.readSbResp w id (SuperblockBytes.ofBytes c.crc r.bytes)) := by
  have hop := (op_respSb c id w hl).2
  have hv : ValidLoc r.loc := by rw [hl]; exact ValidLoc.sb w
  rw [hsb] at hop
  by_cases hr : s.sbRead w = some id
  · obtain ⟨res, e, hres⟩ : ∃ res, s.readSbResp w id (SuperblockBytes.ofBytes c.crc r.bytes) =
        { s with sbGot := setAt s.sbGot w res, sbRead := setAt s.sbRead w none } ∧
        ((∃ sb, SuperblockBytes.ofBytes c.crc r.bytes = some sb ∧ res = .success sb) ∨
          (SuperblockBytes.ofBytes c.crc r.bytes = none ∧ res = .corruption)) := by
      cases e : SuperblockBytes.ofBytes c.crc r.bytes with
      | some sb => exact ⟨.success sb, by simp only [State.readSbResp, if_pos hr], .inl ⟨sb, rfl, rfl⟩⟩
      | none => exact ⟨.corruption, by simp only [State.readSbResp, if_pos hr], .inr ⟨rfl, rfl⟩⟩
    rw [e]
    refine ⟨hv, ?_, ?_⟩
    · rw [hop]
      have h3 : s.status = .superblock ∨ s.status = .other ∨ s.status = .ready := by
        cases s.status <;> simp
      rcases h3 with hs | hs | hs
      · rw [view_loading hs, view_loading (by exact hs)]
        rcases hres with ⟨sb, e', rfl⟩ | ⟨e', rfl⟩
        · rw [e']
          exact .pageSbOk (l := ⟨s.sbRead, s.sbGot, get s.syncReqs⟩) hr (SuperblockBytes.ofBytes_ok e').1
        · rw [e']
          exact .pageSbBad (l := ⟨s.sbRead, s.sbGot, get s.syncReqs⟩) hr (fun _ k => nomatch k)
      · rw [view_other hs, view_other (by exact hs)]
        exact .noop (.inl rfl) (.inr (.inl ⟨_, _, _, rfl⟩))
      · rw [view_ready hs, view_ready (by exact hs)]
        exact .noop (.inl rfl) (.inr (.inl ⟨_, _, _, rfl⟩))
    · refine ⟨h.journalist, h.quiet, fun x sb hx => ?_, h.empty, h.sb, h.parts, h.commit, h.new, h.pos, h.loc,
        h.froze, h.location⟩
      have hx' : setAt s.sbGot w res x = .success sb := hx
      unfold setAt at hx'
      split at hx'
      · rcases hres with ⟨y, e', rfl⟩ | ⟨e', rfl⟩
        · cases hx'; exact SuperblockBytes.ofBytes_ok e'
        · cases hx'
      · exact h.got x sb hx'
  · have e : s.readSbResp w id (SuperblockBytes.ofBytes c.crc r.bytes) = s := by
      cases SuperblockBytes.ofBytes c.crc r.bytes <;> simp only [State.readSbResp, if_neg hr]
    rw [e]
    exact ⟨hv, by rw [hop]; exact .noop (.inl rfl) (.inr (.inl ⟨_, _, _, rfl⟩)), h⟩

theorem good_writtenSb (h : Inv s) {l : Loc} {w : Bool} (hl : l = sbLoc w) {id : ReqId}
    (hw : s.sbWrite = some id) :
    Good c s (.respWrite id l)
      (if s.status = .ready ∧ s.commit = .location then .cleanUp else .journalInternal) s.writeBackSbResp := by
  have hop := op_respWSb c id hl
  have hv : ValidLoc l := by rw [hl]; exact ValidLoc.sb w
  have hne : s.sbWrite ≠ none := by rw [hw]; exact fun k => nomatch k
  unfold State.writeBackSbResp
  split
  · rename_i hk
    obtain ⟨hs, hc⟩ := hk
    obtain ⟨n, hn, hnok⟩ := h.new hs hne
    obtain ⟨hf1, hf2⟩ := h.location hs hc
    have hp := h.pos hs hf2
    rw [hn]
    refine ⟨hv, ?_, ?_⟩
    · rw [hop, view_ready hs, view_ready (by exact hs)]
      have := JournalCache.Next.locationResp (r := readyOf s) (w := w) hw hn hc
      unfold readyOf at *
      dsimp only at *
      rw [get_2to1]
      exact this
    · exact ⟨Journalist.updateWritten_spec h.journalist (Nat.sub_le _ _), fun k => absurd hs k, h.got,
        (fun k => absurd (k.symm.trans hs) (by decide)), fun _ => hnok,
        (fun k => absurd (k.symm.trans hs) (by decide)),
        fun _ => ⟨fun _ => rfl, fun _ => rfl⟩, fun _ k => absurd rfl k, (fun _ k => nomatch k),
        (fun _ _ k => nomatch k), (fun k => nomatch k), (fun _ k => nomatch k)⟩
  · split
    · rename_i hk
      obtain ⟨hs, hc⟩ := hk
      obtain ⟨n, hn, hnok⟩ := h.new hs hne
      rw [hn]
      refine ⟨hv, ?_, ?_⟩
      · rw [hop, view_ready hs, view_ready (by exact hs)]
        have := JournalCache.Next.logResp (r := readyOf s) (w := w) hw hn hc
        unfold readyOf at *
        dsimp only at *
        rw [get_2to1]
        exact this
      · exact ⟨h.journalist, fun k => absurd hs k, h.got,
          (fun k => absurd (k.symm.trans hs) (by decide)), fun _ => hnok,
          (fun k => absurd (k.symm.trans hs) (by decide)),
          fun _ => ⟨fun _ => rfl, fun _ => rfl⟩, fun _ k => absurd rfl k, h.pos, h.loc, h.froze,
          (fun _ k => nomatch k)⟩
    · rename_i k1 k2
      refine ⟨hv, ?_, h⟩
      rw [hop]
      refine .noop (.inl rfl) (.inr (.inr (.inr (.inl ⟨_, _, rfl, fun r hr => ?_⟩))))
      obtain ⟨hs, _⟩ := ready_of_view hr
      have h3 : s.commit = .none := by
        cases e : s.commit with
        | none => rfl
        | log => exact absurd ⟨hs, e⟩ k2
        | location => exact absurd ⟨hs, e⟩ k1
      exact absurd ((h.commit hs).mpr h3) hne

theorem good_writtenJournal (h : Inv s) (hs : s.status = .ready) {l : Loc} (hl : ValidJournalLoc l)
    (id : ReqId) : Good c s (.respWrite id l) .journalInternal (s.writeBackJournalResp id) := by
  have hop := op_respWJ c id hl
  have e : readyOf (s.writeBackJournalResp id) =
      { readyOf s with writes := fun i => (readyOf s).writes i ∧ i ≠ id } := by
    unfold readyOf State.writeBackJournalResp
    dsimp only
    congr 1
    funext i
    simp [List.mem_filter]
  refine ⟨ValidLoc.journal hl, ?_, ⟨h.journalist, h.quiet, h.got, h.empty, h.sb, h.parts, h.commit, h.new, h.pos,
    h.loc, h.froze, h.location⟩⟩
  rw [hop, view_ready hs, view_ready (s := s.writeBackJournalResp id) hs, e]
  by_cases hi : id ∈ s.writes
  · exact .writeJournalResp (r := readyOf s) hi
  · have e2 : (fun i => (readyOf s).writes i ∧ i ≠ id) = (readyOf s).writes := by
      funext i
      refine propext ⟨fun k => k.1, fun k => ⟨k, fun e => hi (by rw [← e]; exact k)⟩⟩
    rw [e2]
    exact .noop (.inl rfl) (.inr (.inr (.inr (.inr ⟨_, rfl, fun r hr => by cases hr; exact hi⟩))))

/-- A step that only moves the journalist and the frozen fields of a ready state keeps the invariant. -/
theorem Inv.ready (h : Inv s) (hs : s.status = .ready) {j : Journalist.State} {q : Reqs} (hj : j.Inv)
    (hp : s.isFrozen = true → s.frozenPos ≤ j.written) :
    Inv { s with journalist := j, syncReqs := q } :=
  ⟨hj, fun k => absurd hs k, h.got, (fun k => absurd (k.symm.trans hs) (by decide)), h.sb,
    (fun k => absurd (k.symm.trans hs) (by decide)), h.commit, h.new, fun _ k => hp k, h.loc,
    h.froze, h.location⟩

theorem Inv.sync (h : Inv s) (q : Reqs) : Inv { s with syncReqs := q } :=
  ⟨h.journalist, h.quiet, h.got, h.empty, h.sb, h.parts, h.commit, h.new, h.pos, h.loc, h.froze, h.location⟩

/-- Every call of the committer is a step of the journal cache. What the block side asks of the disk and
what it sends must make sense (`hw`, `hf`). -/
theorem step_good (hcrc : ∀ x, (c.crc x).length = 32)
    (hsb : ∀ x, c.superblock x = SuperblockBytes.ofBytes c.crc x) {dop : Op} {vop : VOp} (h : Inv s)
    (hw : ∀ id w, dop = .reqWrite id w → ValidNodeLoc w.loc ∨ ValidTableLoc w.loc → ValidWrite c w)
    (hf : ∀ loc, vop = .sendFrozenLoc loc →
      s.status = .ready ∧ s.isFrozen = true ∧ s.frozenLoc = none ∧ ValidTableLoc loc)
    (hn : Next c.crc s dop vop s') : Good c s dop vop s' := by
  cases hn with
  | @finishSb sb1 sb2 hs h1 h2 =>
    refine ⟨trivial, ?_, ?_⟩
    · rw [view_loading hs, view_other (s := s.finishSb sb1 sb2) rfl]
      have := JournalCache.Next.finishSb (l := ⟨s.sbRead, s.sbGot, get s.syncReqs⟩)
        (f := fun w => if w then sb2 else sb1) (fun w => by
          cases w
          · exact h1
          · exact h2)
      have e : (otherOf (s.finishSb sb1 sb2)).got = fun _ => none := by
        funext w
        cases w
        · exact (h.empty hs).1
        · exact (h.empty hs).2
      have e2 : otherOf (s.finishSb sb1 sb2) =
          ⟨(s.finishSb sb1 sb2).sb, (s.finishSb sb1 sb2).which, fun _ => none, fun _ => none, get s.syncReqs⟩ := by
        rw [← e]; rfl
      rw [e2]
      exact this
    · refine ⟨h.journalist, fun _ => h.quiet (by rw [hs]; decide), h.got, (fun k => nomatch k), fun _ => ?_,
        fun _ w _ => ⟨rfl, ?_⟩, (fun k => nomatch k), (fun k => nomatch k), (fun k => nomatch k),
        (fun k => nomatch k), fun k => ?_, (fun k => nomatch k)⟩
      · show SbOk (if decide (sb2.counter = incr sb1.counter) = true then sb2 else sb1)
        split
        · exact h.got _ _ h2
        · exact h.got _ _ h1
      · cases w
        · exact (h.empty hs).1
        · exact (h.empty hs).2
      · have := h.froze k; rw [hs] at this; cases this
  | @pageSb w id hs h1 h2 =>
    have e : s.pageInSb w id = (.reqRead id (sbLoc w), { s with sbRead := setAt s.sbRead w (some id) }) := by
      unfold State.pageInSb; rw [if_pos h1]
    rw [e]
    refine ⟨ValidLoc.sb w, ?_, ⟨h.journalist, h.quiet, h.got, h.empty, h.sb, h.parts, h.commit, h.new, h.pos,
      h.loc, h.froze, h.location⟩⟩
    rw [(op_reqSb c id w).2, view_loading hs, view_loading (by exact hs)]
    exact .pageSb (l := ⟨s.sbRead, s.sbGot, get s.syncReqs⟩) h1 h2
  | tryFinishOther hs => exact good_tryFinishOther h hs _
  | @replay u e hs h1 h2 h3 =>
    have hne : s.journalist.replay ≠ [] := fun k => by
      rw [(Journalist.replayEmpty_iff h.journalist).mpr k] at h1; cases h1
    obtain ⟨a1, e', a2, a3⟩ := Journalist.replayPop_spec h.journalist hne
    rw [a2] at h2; cases h2
    refine ⟨trivial, ?_, h.ready hs a1 (h.pos hs)⟩
    rw [view_ready hs, view_ready (s := s.replayOne) hs]
    exact .replay (r := readyOf s) (rest := s.journalist.replayPop.replay) (by rw [h3]; exact a3)
  | rest hv =>
    rcases hv with rfl | rfl | ⟨rfl, hs⟩
    · exact good_noop h (.inr rfl)
    · exact good_noop h (.inl rfl)
    · refine ⟨trivial, ?_, h⟩
      rw [view_ready hs]
      exact .replay (r := readyOf s) (u := .noop) (rest := (readyOf s).replay) rfl
  | @away _ l hd hl =>
    obtain ⟨k0, k1, k2, k3⟩ := other_side hl
    rcases hd with ⟨id, rfl⟩ | ⟨id, w, rfl, rfl⟩
    · refine ⟨k0, ?_, h⟩
      simp only [journalOp, if_neg k1, if_neg k2, if_neg k3]
      exact .noop (.inr rfl) (.inl rfl)
    · refine ⟨hw id w rfl hl, ?_, h⟩
      simp only [journalOp, if_neg k1, if_neg k2, if_neg k3]
      exact .noop (.inr rfl) (.inl rfl)
  | @look u hs h1 h2 =>
    refine ⟨trivial, ?_, h⟩
    rw [view_ready hs]
    have := JournalCache.Next.advance (r := readyOf s) (u := u)
      ((Journalist.replayEmpty_iff h.journalist).mp h1)
    rw [h2, List.append_nil] at this
    exact this
  | @append u e hs h1 h2 h3 h4 =>
    obtain ⟨a1, a2, a3⟩ := Journalist.append_spec h.journalist h3 h2
    have hwr : (s.journalist.append e).written = s.journalist.written := by
      unfold Journalist.State.append; dsimp only; split <;> rfl
    have hrp : (s.journalist.append e).replay = s.journalist.replay := by
      unfold Journalist.State.append; dsimp only; split <;> rfl
    refine ⟨trivial, ?_, h.ready hs a1 (by rw [hwr]; exact h.pos hs)⟩
    rw [view_ready hs, view_ready (s := s.append e) hs]
    have := JournalCache.Next.advance (r := readyOf s) (u := u)
      ((Journalist.replayEmpty_iff h.journalist).mp h1)
    rw [h4] at this
    have e : readyOf (s.append e) = { readyOf s with mem := (readyOf s).mem ++ [e] } := by
      unfold readyOf State.append
      dsimp only
      rw [a2, a3, hwr, hrp]
    rw [e]
    exact this
  | syncLocation hs _ _ hl => exact good_location hcrc hsb h hs hl _ _
  | freeze hs h1 h2 h3 =>
    obtain ⟨a1, a2, a3⟩ := Journalist.freeze_spec h.journalist
    have hrp := (Journalist.replayEmpty_iff h.journalist).mp h1
    have hl : s.frozenLoc = none := by
      cases e : s.frozenLoc with
      | none => rfl
      | some l => rw [(h.loc hs l e).2] at h2; cases h2
    refine ⟨trivial, ?_, ?_⟩
    · rw [view_ready hs, view_ready (s := s.freeze) hs]
      have := JournalCache.Next.freeze (r := readyOf s) h3
        (by show s.frozenLoc ≠ _; rw [hl]; exact fun k => nomatch k) hrp
      unfold readyOf State.freeze at *
      dsimp only at *
      rw [a2, a3, get_3to2]
      exact this
    · exact ⟨a1, fun k => absurd hs k, h.got,
        (fun k => absurd (k.symm.trans hs) (by decide)), h.sb,
        (fun k => absurd (k.symm.trans hs) (by decide)), h.commit, h.new,
        fun _ _ => Nat.le_refl _, (fun _ _ k => nomatch k), fun _ => hs,
        fun k1 k2 => absurd (k2.symm.trans ((h.commit hs).mp h3)) (by decide)⟩
  | syncLog hs _ _ _ => exact good_log hcrc hsb h hs _ _
  | pushSync =>
    refine ⟨trivial, ?_, ?_⟩
    · unfold State.pushSync
      dsimp only
      by_cases hk : freeId s.syncReqs ≠ 0 ∧ s.syncReqs.length < 2 ^ 61
      · rw [if_pos hk]
        dsimp only
        rw [if_neg hk.1]
        have := JournalCache.Next.pushSync (s := view s) (id := freeId s.syncReqs)
          (by rw [view_syncReqs]; exact get_freeId hk.1)
        rw [view_syncReqs, ← get_cons, setSync_view] at this
        exact this
      · rw [if_neg hk]
        exact .noop (.inl rfl) (.inl rfl)
    · unfold State.pushSync
      dsimp only
      split
      · exact h.sync _
      · exact h
  | @popSync id hg =>
    refine ⟨trivial, ?_, h.sync _⟩
    have := JournalCache.Next.popSync (s := view s) (id := id) (by rw [view_syncReqs]; exact hg)
    rw [view_syncReqs, ← get_filter, setSync_view] at this
    exact this
  | @readAway id r _ hl hv =>
    have hv' : vop = .journalInternal ∨ vop = .statesInternal := hv.symm
    rcases hl with hl | hl | ⟨hl, _⟩
    · obtain ⟨k0, k1, k2, k3⟩ := other_side (.inl hl)
      exact ⟨k0, by simp only [journalOp, if_neg k1, if_neg k2, if_neg k3]; exact .noop hv' (.inl rfl), h⟩
    · obtain ⟨k0, k1, k2, k3⟩ := other_side (.inr hl)
      exact ⟨k0, by simp only [journalOp, if_neg k1, if_neg k2, if_neg k3]; exact .noop hv' (.inl rfl), h⟩
    · exact ⟨ValidLoc.journal hl, by
        rw [(op_respJ c id hl).2]; exact .noop hv' (.inr (.inr (.inl ⟨_, _, rfl⟩))), h⟩
  | readJournal hl hs => exact good_readJournal h hs hl _
  | readSb hl => exact good_readSb hsb h hl _
  | writtenAway hl hv =>
    obtain ⟨k0, k1, k2, k3⟩ := other_side hl
    exact ⟨k0, by simp only [journalOp, if_neg k1, if_neg k2, if_neg k3]; exact .noop hv.symm (.inl rfl), h⟩
  | @receiveFrozenLoc id l loc hl =>
    obtain ⟨k0, k1, k2, k3⟩ := other_side (.inr hl)
    obtain ⟨hs, h1, h2, h3⟩ := hf loc rfl
    refine ⟨k0, ?_, ?_⟩
    · simp only [journalOp, if_neg k1, if_neg k2, if_neg k3]
      rw [view_ready hs, view_ready (s := s.receiveFrozenLoc loc) hs]
      exact .receiveFrozen (r := readyOf s) h1 h2 h3
    · exact ⟨h.journalist, h.quiet, h.got, h.empty, h.sb, h.parts, h.commit, h.new, h.pos,
        fun _ l e => by cases e; exact ⟨h3, h1⟩, h.froze, fun _ k => ⟨(fun k => nomatch k), h1⟩⟩
  | writtenJournal hs hl => exact good_writtenJournal h hs hl _
  | writtenSb hl hid => exact good_writtenSb h hl hid
  | @writtenLate id l hl =>
    rcases hl with ⟨hl, hs⟩ | ⟨⟨w, hl⟩, hs⟩
    · exact ⟨ValidLoc.journal hl, by
        rw [op_respWJ c id hl]
        exact .noop (.inl rfl) (.inr (.inr (.inr (.inr ⟨_, rfl, fun r hr => absurd (ready_of_view hr).1 hs⟩)))), h⟩
    · exact ⟨by rw [hl]; exact ValidLoc.sb w, by
        rw [op_respWSb c id hl]
        exact .noop (.inl rfl) (.inr (.inr (.inr (.inl ⟨_, _, rfl, fun r hr => by
          rw [(ready_of_view hr).2]; exact hs⟩)))), h⟩

end Verif.Kv.Committer
