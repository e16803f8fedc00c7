import Verif.Kv.ByteLemmas
/-
How the disk of bytes stands for the block disk and the journal disk, and that every step of the one is a
step of the others as long as requests in flight do not collide. No code is modelled here.
-/
namespace Verif.Kv.ByteSystem
open ByteDisk (Op Data AllCheck Checks)
variable {Node : Type}

/-! ### Requests in flight -/

theorem rl_reqRead {d : ByteDisk.State} {id : ReqId} {l : Loc} :
    rl { d with reqReads := d.reqReads.insert id l } = (rl d).insert id l := by
  funext x
  simp only [rl, PMap.insert]
  by_cases e : x = id
  · simp [e]
  · simp [e]

theorem rl_process {d : ByteDisk.State} {id : ReqId} {l : Loc} {b : List UInt8}
    (h : d.reqReads id = some l) (hb : b.length = l.len) :
    rl { d with reqReads := d.reqReads.remove id, respReads := d.respReads.insert id ⟨l.addr, b⟩ } =
      rl d := by
  funext x
  simp only [rl, PMap.insert, PMap.remove]
  by_cases e : x = id
  · subst e; simp [h, Data.loc, hb]
  · simp [e]

theorem rl_ack {d : ByteDisk.State} {id : ReqId} (h : d.reqReads id = none) :
    rl { d with respReads := d.respReads.remove id } = (rl d).remove id := by
  funext x
  simp only [rl, PMap.remove]
  by_cases e : x = id
  · subst e; simp [h]
  · simp [e]

theorem wl_reqWrite {d : ByteDisk.State} {id : ReqId} {w : Data} {P : ReqId → List UInt8} :
    wl { d with reqWrites := d.reqWrites.insert id w, pads := P } = (wl d).insert id w.loc := by
  funext x
  simp only [wl, PMap.insert]
  by_cases e : x = id
  · simp [e]
  · simp [e]

theorem wl_process {d : ByteDisk.State} {id : ReqId} {w : Data} {cs : List UInt8}
    (h : d.reqWrites id = some w) :
    wl { d with
      reqWrites := d.reqWrites.remove id, respWrites := d.respWrites.insert id w.loc, contents := cs } =
      wl d := by
  funext x
  simp only [wl, PMap.insert, PMap.remove]
  by_cases e : x = id
  · subst e; simp [h]
  · simp [e]

theorem wl_ack {d : ByteDisk.State} {id : ReqId} (h : d.reqWrites id = none) :
    wl { d with respWrites := d.respWrites.remove id } = (wl d).remove id := by
  funext x
  simp only [wl, PMap.remove]
  by_cases e : x = id
  · subst e; simp [h]
  · simp [e]

/-! ### The relation -/

/-- The block disk that bytes stand for: `IBlockDisk`, InterpretationDisk.i.dfy:445-455. `E` are the
bytes once all writes are done. -/
def blk (c : Codec Node) (d : ByteDisk.State) (E : Nat → UInt8) : BlockDisk.State Node :=
  ⟨sel kT (rl d), sel kN (rl d), sel kT (wl d), sel kN (wl d), (blockDisk c E).tables,
    (blockDisk c E).nodes⟩

/-- The journal disk that bytes stand for: `IJournalDisk`, InterpretationDisk.i.dfy:457-471. -/
structure JTie (c : Codec Node) (d : ByteDisk.State) (E : Nat → UInt8) (jd : JournalDisk.State) :
    Prop where
  readSb : ∀ w id, jd.readSb w id ↔ rl d id = some (sbLoc w)
  readJ : jd.readJ = sel kJ (rl d)
  writeSb : ∀ w id sb, jd.writeSb w = some (id, sb) ↔
    (∃ x, d.reqWrites id = some x ∧ x.loc = sbLoc w ∧ c.superblock x.bytes = some sb) ∨
    (d.respWrites id = some (sbLoc w) ∧ superblockAt c d.contents w = some sb)
  writeJ : jd.writeJ = sel kJ (wl d)
  sb : jd.sb = superblockAt c d.contents
  journal : ∀ p, p < numJournalBlocks → jd.journal p = journalBlockAt c E p

/-- What is in flight makes sense. -/
structure Sane (c : Codec Node) (d : ByteDisk.State) : Prop where
  rv : ∀ id l, rl d id = some l → ValidLoc l
  wv : ∀ id l, wl d id = some l → ValidLoc l
  wpos : ∀ id l, wl d id = some l → ValidJournalLoc l → 0 < l.len
  wsb : ∀ id w, d.reqWrites id = some w → ∀ x, w.loc = sbLoc x → c.superblock w.bytes ≠ none
  rdis : ∀ id, d.reqReads id ≠ none → d.respReads id = none
  wdis : ∀ id, d.reqWrites id ≠ none → d.respWrites id = none

structure Tie (c : Codec Node) (d : ByteDisk.State) (E : Nat → UInt8) (bd : BlockDisk.State Node)
    (jd : JournalDisk.State) : Prop where
  block : bd = blk c d E
  journal : JTie c d E jd
  sane : Sane c d

structure DSim (c : Codec Node) (d : ByteDisk.State) (E : Nat → UInt8) (bd : BlockDisk.State Node)
    (jd : JournalDisk.State) : Prop extends Tie c d E bd jd where
  over : Over d E
  chk : ∀ id r, d.respReads id = some r → AllCheck c.crc (bytesAt E r.loc) r.bytes

/-- What is needed of the block disk and the journal disk. -/
structure Safe (bd : BlockDisk.State Node) (jd : JournalDisk.State) : Prop where
  ww : ∀ i j l l', bd.writeN i = some l → bd.writeN j = some l' → overlap l l' → i = j
  rw : ∀ i j l l', bd.readN i = some l → bd.writeN j = some l' → ¬ overlap l l'
  tt : ∀ i j l l', bd.writeT i = some l → bd.writeT j = some l' → i = j
  rt : ∀ i j l l', bd.readT i = some l → bd.writeT j = some l' → ¬ overlap l l'
  jj : ∀ i j v v' p, jd.writeJ i = some v → jd.writeJ j = some v' → i ≠ j → p < numJournalBlocks →
    InCyclic p v → ¬ InCyclic p v'
  rj : (∃ w, jd.writeSb w ≠ none) ∨ (∃ i, jd.writeJ i ≠ none) →
    (∀ i, jd.readJ i = none) ∧ ∀ w i, ¬ jd.readSb w i
  nodes : ∀ i l, bd.readN i = some l → bd.nodes l ≠ none
  tables : ∀ i l, bd.readT i = some l → bd.tables l ≠ none
  sbs : ∀ w, jd.sb w ≠ none
  blocks : ∀ i v, jd.readJ i = some v → v.start + v.len ≤ numJournalBlocks ∧
    blocksAt jd.journal v.start v.len ≠ none

variable {c : Codec Node} {d : ByteDisk.State} {E : Nat → UInt8} {bd : BlockDisk.State Node}
  {jd : JournalDisk.State}

theorem rl_req {id : ReqId} {l : Loc} (h : d.reqReads id = some l) : rl d id = some l := by
  simp [rl, h]

theorem wl_req {id : ReqId} {w : Data} (h : d.reqWrites id = some w) : wl d id = some w.loc := by
  simp [wl, h]

theorem Sane.rl_resp (h : Sane c d) {id : ReqId} {r : Data} (hr : d.respReads id = some r) :
    d.reqReads id = none ∧ rl d id = some r.loc := by
  have : d.reqReads id = none := by
    cases e : d.reqReads id with
    | none => rfl
    | some l => rw [h.rdis id (by rw [e]; simp)] at hr; cases hr
  exact ⟨this, by simp [rl, this, hr]⟩

theorem Sane.wl_resp (h : Sane c d) {id : ReqId} {l : Loc} (hr : d.respWrites id = some l) :
    d.reqWrites id = none ∧ wl d id = some l := by
  have : d.reqWrites id = none := by
    cases e : d.reqWrites id with
    | none => rfl
    | some l => rw [h.wdis id (by rw [e]; simp)] at hr; cases hr
  exact ⟨this, by simp [wl, this, hr]⟩

/-- A superblock write in flight is one of the journal disk. -/
theorem Tie.sbWrite (h : Tie c d E bd jd) (hs : Safe bd jd) {id : ReqId} {w : Bool}
    (hw : wl d id = some (sbLoc w)) : ∃ sb, jd.writeSb w = some (id, sb) := by
  unfold wl at hw
  cases e : d.reqWrites id with
  | some x =>
    rw [e] at hw
    have hx : x.loc = sbLoc w := Option.some.inj hw
    obtain ⟨sb, hsb⟩ := Option.ne_none_iff_exists'.mp (h.sane.wsb id x e w hx)
    exact ⟨sb, (h.journal.writeSb w id sb).mpr (.inl ⟨x, e, hx, hsb⟩)⟩
  | none =>
    rw [e] at hw
    obtain ⟨sb, hsb⟩ := Option.ne_none_iff_exists'.mp (hs.sbs w)
    rw [h.journal.sb] at hsb
    exact ⟨sb, (h.journal.writeSb w id sb).mpr (.inr ⟨hw, hsb⟩)⟩

/-- A journal location in blocks. -/
theorem journal_blocks {a : Loc} (h : ValidJournalLoc a) : ∃ i n, a.addr = 8192 + i * 4096 ∧
    a.len = n * 4096 ∧ intervalOf a = ⟨i, n⟩ ∧ i < numJournalBlocks ∧ i + n ≤ numJournalBlocks := by
  obtain ⟨a1, a2, a3, a4, a5⟩ := h
  obtain ⟨ad, ln⟩ := a
  dsimp only at *
  obtain ⟨i, hi⟩ : ∃ i, ad = 8192 + i * 4096 := ⟨(ad - 8192) / 4096, by omega⟩
  obtain ⟨n, hn⟩ : ∃ n, ln = n * 4096 := ⟨ln / 4096, by omega⟩
  subst hi hn
  refine ⟨i, n, rfl, rfl, ?_, ?_, ?_⟩
  · unfold intervalOf journalStartAddr
    dsimp only
    rw [show 8192 + i * 4096 - 2 * 4096 = i * 4096 by omega, Nat.mul_div_cancel _ (by omega),
      Nat.mul_div_cancel _ (by omega)]
  · generalize numJournalBlocks = N at *; omega
  · generalize numJournalBlocks = N at *; omega

/-- Two positive journal locations that overlap have a block in common. -/
theorem journal_overlap {a b : Loc} (ha : ValidJournalLoc a) (hb : ValidJournalLoc b) (ha0 : 0 < a.len)
    (hb0 : 0 < b.len) (h : overlap a b) :
    ∃ p, p < numJournalBlocks ∧ InCyclic p (intervalOf a) ∧ InCyclic p (intervalOf b) := by
  obtain ⟨i, n, a1, a2, a3, a4, a5⟩ := journal_blocks ha
  obtain ⟨j, m, b1, b2, b3, b4, b5⟩ := journal_blocks hb
  obtain ⟨h1, h2⟩ := h
  rw [a3, b3]
  generalize numJournalBlocks = N at *
  refine ⟨max i j, by omega, .inl ?_, .inl ?_⟩
  · show i ≤ max i j ∧ max i j < i + n
    omega
  · show j ≤ max i j ∧ max i j < j + m
    omega

theorem kind_eq {a b : Loc} (ha : ValidLoc a) (hb : ValidLoc b) (h : overlap a b) :
    (∃ w, a = sbLoc w ∧ b = sbLoc w) ∨ (ValidJournalLoc a ∧ ValidJournalLoc b) ∨
    (ValidTableLoc a ∧ ValidTableLoc b) ∨ (ValidNodeLoc a ∧ ValidNodeLoc b) := by
  obtain ⟨k1, k2, k3, k4⟩ := overlap_kind ha hb h
  cases ha.kind with
  | sb w e => exact .inl ⟨w, e, k1 w e⟩
  | journal _ k => exact .inr (.inl ⟨k, k2 k⟩)
  | table _ _ k => exact .inr (.inr (.inl ⟨k, k3 k⟩))
  | node _ _ _ k => exact .inr (.inr (.inr ⟨k, k4 k⟩))

/-- Two writes in flight do not overlap. -/
theorem Tie.noWW (h : Tie c d E bd jd) (hs : Safe bd jd) {id id' : ReqId} {l l' : Loc}
    (hl : wl d id = some l) (hl' : wl d id' = some l') (hne : id ≠ id') : ¬ overlap l l' := by
  intro ho
  have hb := h.block
  subst hb
  rcases kind_eq (h.sane.wv _ _ hl) (h.sane.wv _ _ hl') ho with ⟨w, e, e'⟩ | ⟨k, k'⟩ | ⟨k, k'⟩ | ⟨k, k'⟩
  · subst e e'
    obtain ⟨x, hx⟩ := h.sbWrite hs hl
    obtain ⟨x', hx'⟩ := h.sbWrite hs hl'
    rw [hx] at hx'
    cases hx'
    exact hne rfl
  · obtain ⟨p, p1, p2, p3⟩ := journal_overlap k k' (h.sane.wpos _ _ hl k) (h.sane.wpos _ _ hl' k') ho
    refine hs.jj id id' _ _ p ?_ ?_ hne p1 p2 p3
    · rw [h.journal.writeJ]; exact sel_some hl (kJ_some.mpr ⟨k, rfl⟩)
    · rw [h.journal.writeJ]; exact sel_some hl' (kJ_some.mpr ⟨k', rfl⟩)
  · exact hne (hs.tt id id' l l' (sel_some hl (kT_some.mpr ⟨k, rfl⟩)) (sel_some hl' (kT_some.mpr ⟨k', rfl⟩)))
  · exact hne (hs.ww id id' l l' (sel_some hl (kN_some.mpr ⟨k, rfl⟩))
      (sel_some hl' (kN_some.mpr ⟨k', rfl⟩)) ho)

/-- A read and a write in flight do not overlap. -/
theorem Tie.noRW (h : Tie c d E bd jd) (hs : Safe bd jd) {id id' : ReqId} {l l' : Loc}
    (hl : rl d id = some l) (hl' : wl d id' = some l') : ¬ overlap l l' := by
  intro ho
  have hb := h.block
  subst hb
  rcases kind_eq (h.sane.rv _ _ hl) (h.sane.wv _ _ hl') ho with ⟨w, e, e'⟩ | ⟨k, k'⟩ | ⟨k, k'⟩ | ⟨k, k'⟩
  · subst e e'
    obtain ⟨x', hx'⟩ := h.sbWrite hs hl'
    exact (hs.rj (.inl ⟨w, by rw [hx']; simp⟩)).2 w id ((h.journal.readSb w id).mpr hl)
  · have h1 : jd.writeJ id' = some (intervalOf l') := by
      rw [h.journal.writeJ]; exact sel_some hl' (kJ_some.mpr ⟨k', rfl⟩)
    have h2 : jd.readJ id = some (intervalOf l) := by
      rw [h.journal.readJ]; exact sel_some hl (kJ_some.mpr ⟨k, rfl⟩)
    rw [(hs.rj (.inr ⟨id', by rw [h1]; simp⟩)).1 id] at h2
    cases h2
  · exact hs.rt id id' l l' (sel_some hl (kT_some.mpr ⟨k, rfl⟩)) (sel_some hl' (kT_some.mpr ⟨k', rfl⟩)) ho
  · exact hs.rw id id' l l' (sel_some hl (kN_some.mpr ⟨k, rfl⟩))
      (sel_some hl' (kN_some.mpr ⟨k', rfl⟩)) ho

end Verif.Kv.ByteSystem
