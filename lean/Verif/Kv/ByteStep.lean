import Verif.Kv.ByteTie
/-
The steps of the disk of bytes, seen as steps of the block disk and of the journal disk. No code is
modelled here.
-/
namespace Verif.Kv.ByteSystem
open ByteDisk (Op Data AllCheck Checks)
variable {Node : Type} {c : Codec Node} {d : ByteDisk.State} {E : Nat → UInt8}
  {bd : BlockDisk.State Node} {jd : JournalDisk.State}

/-! ### What a write leaves alone -/

theorem nil_full (w : Data) : (⟨w.addr, w.bytes ++ []⟩ : Data) = w := by simp

section Put
variable {w : Data} {p : List UInt8} (hp : PadLen w p)
include hp

theorem put_nodes (hv : ValidLoc w.loc) (hk : ¬ ValidNodeLoc w.loc) :
    (blockDisk c (put E ⟨w.addr, w.bytes ++ p⟩)).nodes = (blockDisk c E).nodes := by
  funext l
  simp only [blockDisk]
  by_cases h : ValidNodeLoc l
  · rw [if_pos h, if_pos h, put_other]
    exact fun ho => hk ((overlap_kind (.node h) hv (overlap_full hp hv (.node h) ho)).2.2.2 h)
  · rw [if_neg h, if_neg h]

theorem put_tables (hv : ValidLoc w.loc) (hk : ¬ ValidTableLoc w.loc) :
    (blockDisk c (put E ⟨w.addr, w.bytes ++ p⟩)).tables = (blockDisk c E).tables := by
  funext l
  simp only [blockDisk]
  by_cases h : ValidTableLoc l
  · rw [if_pos h, if_pos h, put_other]
    exact fun ho => hk ((overlap_kind (.table h) hv (overlap_full hp hv (.table h) ho)).2.2.1 h)
  · rw [if_neg h, if_neg h]

theorem put_journal (hv : ValidLoc w.loc) (hk : ¬ ValidJournalLoc w.loc) {i : Nat}
    (hi : i < numJournalBlocks) :
    journalBlockAt c (put E ⟨w.addr, w.bytes ++ p⟩) i = journalBlockAt c E i := by
  unfold journalBlockAt
  rw [put_other]
  exact fun ho => hk ((overlap_kind (.journal (point_valid hi)) hv
    (overlap_full hp hv (.journal (point_valid hi)) ho)).2.1 (point_valid hi))

theorem put_node_update {n : Node} (hv : ValidNodeLoc w.loc) (hn : c.node w.bytes = some n) :
    BlockDisk.MapUpdate (blockDisk c E).nodes (blockDisk c (put E ⟨w.addr, w.bytes ++ p⟩)).nodes w.loc n := by
  refine ⟨?_, fun l x hx ho => ?_⟩
  · simp only [blockDisk]; rw [if_pos hv, put_prefix]; exact hn
  · simp only [blockDisk] at hx ⊢
    by_cases h : ValidNodeLoc l
    · rw [put_other fun k => ho (overlap_full hp (.node hv) (.node h) k)]; exact hx
    · rw [if_neg h] at hx; cases hx

theorem put_table_update {n : Table} (hv : ValidTableLoc w.loc) (hn : c.table w.bytes = some n) :
    BlockDisk.MapUpdate (blockDisk c E).tables (blockDisk c (put E ⟨w.addr, w.bytes ++ p⟩)).tables w.loc n := by
  refine ⟨?_, fun l x hx ho => ?_⟩
  · simp only [blockDisk]; rw [if_pos hv, put_prefix]; exact hn
  · simp only [blockDisk] at hx ⊢
    by_cases h : ValidTableLoc l
    · rw [put_other fun k => ho (overlap_full hp (.table hv) (.table h) k)]; exact hx
    · rw [if_neg h] at hx; cases hx

end Put

theorem put_nodes_plain {w : Data} (hv : ValidLoc w.loc) (hk : ¬ ValidNodeLoc w.loc) :
    (blockDisk c (put E w)).nodes = (blockDisk c E).nodes := by
  have := put_nodes (c := c) (E := E) (p := []) (.inl rfl) hv hk
  rwa [nil_full] at this

theorem put_tables_plain {w : Data} (hv : ValidLoc w.loc) (hk : ¬ ValidTableLoc w.loc) :
    (blockDisk c (put E w)).tables = (blockDisk c E).tables := by
  have := put_tables (c := c) (E := E) (p := []) (.inl rfl) hv hk
  rwa [nil_full] at this

/-! ### The operations of the two disks -/

theorem kN_none {l : Loc} (h : ¬ ValidNodeLoc l) : kN l = none := if_neg h
theorem kT_none {l : Loc} (h : ¬ ValidTableLoc l) : kT l = none := if_neg h
theorem kJ_none {l : Loc} (h : ¬ ValidJournalLoc l) : kJ l = none := if_neg h

theorem sb_first {l : Loc} (h : ∀ w, l ≠ sbLoc w) : l ≠ superblock1Loc ∧ l ≠ superblock2Loc :=
  ⟨h false, h true⟩

/-! ### Requests to read -/

theorem Sane.reqRead (h : Sane c d) {id : ReqId} {l : Loc} (hl : ValidLoc l)
    (h1 : d.respReads id = none) : Sane c { d with reqReads := d.reqReads.insert id l } := by
  refine ⟨?_, h.wv, h.wpos, h.wsb, ?_, h.wdis⟩
  · intro i l' hi
    rw [rl_reqRead] at hi
    by_cases e : i = id
    · subst e; rw [PMap.insert_same] at hi; cases hi; exact hl
    · rw [PMap.insert_other _ _ e] at hi; exact h.rv _ _ hi
  · intro i hi
    by_cases e : i = id
    · subst e; exact h1
    · dsimp only at hi
      rw [PMap.insert_other _ _ e] at hi
      exact h.rdis i hi

theorem JTie.reqRead (h : JTie c d E jd) {id : ReqId} {l : Loc} (hn : rl d id = none) {jd' : JournalDisk.State}
    (h1 : ∀ w i, jd'.readSb w i ↔ jd.readSb w i ∨ (i = id ∧ l = sbLoc w))
    (h2 : jd'.readJ = match kJ l with | some v => jd.readJ.insert id v | none => jd.readJ)
    (h3 : jd'.writeSb = jd.writeSb) (h4 : jd'.writeJ = jd.writeJ) (h5 : jd'.sb = jd.sb)
    (h6 : jd'.journal = jd.journal) : JTie c { d with reqReads := d.reqReads.insert id l } E jd' := by
  refine ⟨?_, ?_, ?_, ?_, ?_, ?_⟩
  · intro w i
    rw [h1, rl_reqRead, h.readSb]
    by_cases e : i = id
    · subst e; rw [PMap.insert_same, hn]; simp
    · rw [PMap.insert_other _ _ e]; simp [e]
  · rw [h2, rl_reqRead, h.readJ]
    cases e : kJ l with
    | none => exact (sel_insert_none e hn).symm
    | some v => exact (sel_insert e).symm
  · rw [h3]; exact h.writeSb
  · rw [h4]; exact h.writeJ
  · rw [h5]; exact h.sb
  · rw [h6]; exact h.journal

theorem blk_reqRead {id : ReqId} {l : Loc} (hn : rl d id = none) :
    blk c { d with reqReads := d.reqReads.insert id l } E = { blk c d E with
      readT := match kT l with | some v => (blk c d E).readT.insert id v | none => (blk c d E).readT
      readN := match kN l with | some v => (blk c d E).readN.insert id v | none => (blk c d E).readN } := by
  unfold blk
  dsimp only
  rw [rl_reqRead]
  have e1 : sel kT ((rl d).insert id l) =
      match kT l with | some v => (sel kT (rl d)).insert id v | none => sel kT (rl d) := by
    cases e : kT l with
    | none => exact sel_insert_none e hn
    | some v => exact sel_insert e
  have e2 : sel kN ((rl d).insert id l) =
      match kN l with | some v => (sel kN (rl d)).insert id v | none => sel kN (rl d) := by
    cases e : kN l with
    | none => exact sel_insert_none e hn
    | some v => exact sel_insert e
  rw [e1, e2]
  rfl

theorem step_reqRead (h : DSim c d E bd jd) {id : ReqId} {l : Loc} (hl : ValidLoc l)
    (h1 : d.reqReads id = none) (h2 : d.respReads id = none) :
    ∃ bd' jd', BlockDisk.Next bd (blockOp c (.reqRead id l)) bd' ∧
      JournalDisk.Next jd (journalOp c (.reqRead id l)) jd' ∧
      DSim c { d with reqReads := d.reqReads.insert id l } E bd' jd' := by
  have hn : rl d id = none := by simp [rl, h1, h2]
  have hb := h.block
  subst hb
  have key : ∀ jd', JTie c { d with reqReads := d.reqReads.insert id l } E jd' →
      DSim c { d with reqReads := d.reqReads.insert id l } E
        (blk c { d with reqReads := d.reqReads.insert id l } E) jd' := fun jd' hj =>
    ⟨⟨rfl, hj, h.sane.reqRead hl h2⟩, ⟨h.over.hit, h.over.miss, h.over.size⟩, h.chk⟩
  refine ⟨blk c { d with reqReads := d.reqReads.insert id l } E, ?_⟩
  cases hl.kind with
  | sb w e kj kt kn =>
    refine ⟨{ jd with readSb := setAt jd.readSb w (fun i => jd.readSb w i ∨ i = id) }, ?_, ?_, key _ ?_⟩
    · rw [blk_reqRead hn, kT_none kt, kN_none kn]
      simp only [blockOp, if_neg kt, if_neg kn]
      exact .stutter
    · have : journalOp c (.reqRead id l) = .reqReadSb id w := by
        subst e; cases w <;> simp [journalOp, sbLoc, superblock1Loc, superblock2Loc]
      rw [this]
      exact .recvReadSb fun x hx => by rw [h.journal.readSb, hn] at hx; cases hx
    · refine h.journal.reqRead hn ?_ (by rw [kJ_none kj]) rfl rfl rfl rfl
      intro w' i
      dsimp only
      unfold setAt
      by_cases ew : w' = w
      · subst ew; rw [if_pos rfl]; simp [e]
      · rw [if_neg ew]
        have : l ≠ sbLoc w' := fun hc => ew (sbLoc_inj (hc.symm.trans e))
        simp [this]
  | journal hs kj kt kn =>
    refine ⟨{ jd with readJ := jd.readJ.insert id (intervalOf l) }, ?_, ?_, key _ ?_⟩
    · rw [blk_reqRead hn, kT_none kt, kN_none kn]
      simp only [blockOp, if_neg kt, if_neg kn]
      exact .stutter
    · simp only [journalOp, if_neg (sb_first hs).1, if_neg (sb_first hs).2, if_pos kj]
      obtain ⟨i, n, _, _, b3, b4, b5⟩ := journal_blocks kj
      refine .recvReadJ (by rw [h.journal.readJ]; exact sel_none hn) ?_ ?_ <;> rw [b3] <;> assumption
    · refine h.journal.reqRead hn ?_ (by rw [kJ_some.mpr ⟨kj, rfl⟩]) rfl rfl rfl rfl
      intro w' i; simp [hs]
  | table hs kj kt kn =>
    refine ⟨jd, ?_, ?_, key _ ?_⟩
    · rw [blk_reqRead hn, kT_some.mpr ⟨kt, rfl⟩, kN_none kn]
      simp only [blockOp, if_pos kt, if_neg kn]
      exact .recvReadTable (sel_none hn)
    · simp only [journalOp, if_neg (sb_first hs).1, if_neg (sb_first hs).2, if_neg kj]
      exact .stutter
    · refine h.journal.reqRead hn ?_ (by rw [kJ_none kj]) rfl rfl rfl rfl
      intro w' i; simp [hs]
  | node hs kj kt kn =>
    refine ⟨jd, ?_, ?_, key _ ?_⟩
    · rw [blk_reqRead hn, kN_some.mpr ⟨kn, rfl⟩, kT_none kt]
      simp only [blockOp, if_pos kn]
      exact .recvReadNode (sel_none hn)
    · simp only [journalOp, if_neg (sb_first hs).1, if_neg (sb_first hs).2, if_neg kj]
      exact .stutter
    · refine h.journal.reqRead hn ?_ (by rw [kJ_none kj]) rfl rfl rfl rfl
      intro w' i; simp [hs]

/-! ### Requests to write -/

theorem Sane.reqWrite (h : Sane c d) {id : ReqId} {w : Data} {P : ReqId → List UInt8} (hl : ValidLoc w.loc)
    (hp : ValidJournalLoc w.loc → 0 < w.loc.len)
    (hsb : ∀ x, w.loc = sbLoc x → c.superblock w.bytes ≠ none) (h1 : d.respWrites id = none) :
    Sane c { d with reqWrites := d.reqWrites.insert id w, pads := P } := by
  refine ⟨h.rv, ?_, ?_, ?_, h.rdis, ?_⟩
  · intro i l' hi
    rw [wl_reqWrite] at hi
    by_cases e : i = id
    · subst e; rw [PMap.insert_same] at hi; cases hi; exact hl
    · rw [PMap.insert_other _ _ e] at hi; exact h.wv _ _ hi
  · intro i l' hi
    rw [wl_reqWrite] at hi
    by_cases e : i = id
    · subst e; rw [PMap.insert_same] at hi; cases hi; exact hp
    · rw [PMap.insert_other _ _ e] at hi; exact h.wpos _ _ hi
  · intro i w' hi
    dsimp only at hi
    by_cases e : i = id
    · subst e; rw [PMap.insert_same] at hi; cases hi; exact hsb
    · rw [PMap.insert_other _ _ e] at hi; exact h.wsb _ _ hi
  · intro i hi
    by_cases e : i = id
    · subst e; exact h1
    · dsimp only at hi
      rw [PMap.insert_other _ _ e] at hi
      exact h.wdis i hi

theorem JTie.reqWrite (h : JTie c d E jd) {id : ReqId} {w : Data} {P : ReqId → List UInt8}
    {E' : Nat → UInt8} (hn : d.reqWrites id = none)
    (hn' : d.respWrites id = none) {jd' : JournalDisk.State}
    (h1 : ∀ x i sb, jd'.writeSb x = some (i, sb) ↔ jd.writeSb x = some (i, sb) ∨
      (i = id ∧ w.loc = sbLoc x ∧ c.superblock w.bytes = some sb))
    (h2 : jd'.writeJ = match kJ w.loc with | some v => jd.writeJ.insert id v | none => jd.writeJ)
    (h3 : jd'.readSb = jd.readSb) (h4 : jd'.readJ = jd.readJ) (h5 : jd'.sb = jd.sb)
    (h6 : ∀ p, p < numJournalBlocks → jd'.journal p = journalBlockAt c E' p) :
    JTie c { d with reqWrites := d.reqWrites.insert id w, pads := P } E' jd' := by
  refine ⟨?_, ?_, ?_, ?_, ?_, h6⟩
  · rw [h3]; exact h.readSb
  · rw [h4]; exact h.readJ
  · intro x i sb
    rw [h1, h.writeSb]
    dsimp only
    by_cases e : i = id
    · subst e; rw [PMap.insert_same, hn, hn']; simp
    · rw [PMap.insert_other _ _ e]; simp [e]
  · have hw : wl d id = none := by simp [wl, hn, hn']
    rw [h2, wl_reqWrite, h.writeJ]
    cases e : kJ w.loc with
    | none => exact (sel_insert_none e hw).symm
    | some v => exact (sel_insert e).symm
  · rw [h5]; exact h.sb

theorem blk_reqWrite {id : ReqId} {w : Data} {P : ReqId → List UInt8} (hn : wl d id = none) :
    blk c { d with reqWrites := d.reqWrites.insert id w, pads := P } E = ⟨sel kT (rl d), sel kN (rl d),
      match kT w.loc with | some v => (sel kT (wl d)).insert id v | none => sel kT (wl d),
      match kN w.loc with | some v => (sel kN (wl d)).insert id v | none => sel kN (wl d),
      (blockDisk c E).tables, (blockDisk c E).nodes⟩ := by
  unfold blk
  rw [wl_reqWrite]
  have e1 : sel kT ((wl d).insert id w.loc) =
      match kT w.loc with | some v => (sel kT (wl d)).insert id v | none => sel kT (wl d) := by
    cases e : kT w.loc with
    | none => exact sel_insert_none e hn
    | some v => exact sel_insert e
  have e2 : sel kN ((wl d).insert id w.loc) =
      match kN w.loc with | some v => (sel kN (wl d)).insert id v | none => sel kN (wl d) := by
    cases e : kN w.loc with
    | none => exact sel_insert_none e hn
    | some v => exact sel_insert e
  rw [e1, e2]
  rfl

/-- Nothing collides after the request, so the new bytes are right. -/
theorem DSim.add (h : DSim c d E bd jd) {id : ReqId} {w : Data} {p : List UInt8} (hp : PadLen w p)
    (hn : d.reqWrites id = none)
    {bd' : BlockDisk.State Node} {jd' : JournalDisk.State}
    (ht : Tie c { d with reqWrites := d.reqWrites.insert id w, pads := ByteDisk.setPad d.pads id p } (put E ⟨w.addr, w.bytes ++ p⟩) bd' jd') (hs : Safe bd' jd') :
    DSim c { d with reqWrites := d.reqWrites.insert id w, pads := ByteDisk.setPad d.pads id p } (put E ⟨w.addr, w.bytes ++ p⟩) bd' jd' := by
  have hid : wl { d with reqWrites := d.reqWrites.insert id w, pads := ByteDisk.setPad d.pads id p } id = some w.loc := by
    rw [wl_reqWrite, PMap.insert_same]
  have hv := ht.sane.wv _ _ hid
  refine ⟨ht, h.over.add hp hv (fun id' w' hw' hne => ?_) hn, fun id' r hr => ?_⟩
  · have hw : wl { d with reqWrites := d.reqWrites.insert id w, pads := ByteDisk.setPad d.pads id p } id' =
        some w'.loc := by
      refine wl_req ?_
      dsimp only
      rw [PMap.insert_other _ _ hne]; exact hw'
    exact ⟨ht.sane.wv _ _ hw, ht.noWW hs hw hid hne⟩
  · have hr' := (ht.sane.rl_resp hr).2
    rw [put_other fun ho => ht.noRW hs hr' hid (overlap_full hp hv (ht.sane.rv _ _ hr') ho)]
    exact h.chk id' r hr

theorem step_reqWrite (h : DSim c d E bd jd) {id : ReqId} {w : Data} {p : List UInt8} (hpad : PadLen w p)
    (hv : ValidWrite c w)
    (hp : ValidJournalLoc w.loc → 0 < w.loc.len)
    (hidle : ∀ x, w.loc = sbLoc x → ∀ y, jd.writeSb y = none)
    (h1 : d.reqWrites id = none) (h2 : d.respWrites id = none) :
    ∃ bd' jd', BlockDisk.Next bd (blockOp c (.reqWrite id w)) bd' ∧
      JournalDisk.Next jd (journalOp c (.reqWrite id w)) jd' ∧
      (Safe bd' jd' → DSim c { d with reqWrites := d.reqWrites.insert id w, pads := ByteDisk.setPad d.pads id p } (put E ⟨w.addr, w.bytes ++ p⟩) bd' jd') := by
  have hn : wl d id = none := by simp [wl, h1, h2]
  have hb := h.block
  subst hb
  have key : ∀ jd', JTie c { d with reqWrites := d.reqWrites.insert id w, pads := ByteDisk.setPad d.pads id p } (put E ⟨w.addr, w.bytes ++ p⟩) jd' →
      (Safe (blk c { d with reqWrites := d.reqWrites.insert id w, pads := ByteDisk.setPad d.pads id p } (put E ⟨w.addr, w.bytes ++ p⟩)) jd' →
        DSim c { d with reqWrites := d.reqWrites.insert id w, pads := ByteDisk.setPad d.pads id p } (put E ⟨w.addr, w.bytes ++ p⟩)
          (blk c { d with reqWrites := d.reqWrites.insert id w, pads := ByteDisk.setPad d.pads id p } (put E ⟨w.addr, w.bytes ++ p⟩)) jd') := fun jd' hj hs =>
    h.add hpad h1 ⟨rfl, hj, h.sane.reqWrite hv.loc hp hv.superblock h2⟩ hs
  refine ⟨blk c { d with reqWrites := d.reqWrites.insert id w, pads := ByteDisk.setPad d.pads id p } (put E ⟨w.addr, w.bytes ++ p⟩), ?_⟩
  have same : ¬ ValidJournalLoc w.loc → ∀ i, i < numJournalBlocks →
      jd.journal i = journalBlockAt c (put E ⟨w.addr, w.bytes ++ p⟩) i := fun kj i hi => by
    rw [put_journal hpad hv.loc kj hi]; exact h.journal.journal i hi
  cases hv.loc.kind with
  | sb x e kj kt kn =>
    obtain ⟨sb, hsb⟩ := Option.ne_none_iff_exists'.mp (hv.superblock x e)
    refine ⟨{ jd with writeSb := setAt jd.writeSb x (some (id, sb)) }, ?_, ?_, key _ ?_⟩
    · rw [blk_reqWrite hn, kT_none kt, kN_none kn, put_nodes hpad hv.loc kn, put_tables hpad hv.loc kt]
      simp only [blockOp, if_neg kt, if_neg kn]
      exact .stutter
    · have : journalOp c (.reqWrite id w) = .reqWriteSb id x sb := by
        cases x
        · simp only [journalOp]; rw [if_pos (show w.loc = superblock1Loc from e), hsb]
        · simp only [journalOp]; rw [if_neg (by rw [e]; decide), if_pos (show w.loc = superblock2Loc from e), hsb]
      rw [this]
      exact .recvWriteSb fun y i b hy => by rw [hidle x e y] at hy; cases hy
    · refine h.journal.reqWrite h1 h2 ?_ (by rw [kJ_none kj]) rfl rfl rfl (same kj)
      intro y i b
      dsimp only
      unfold setAt
      by_cases ey : y = x
      · subst ey; rw [if_pos rfl, hidle y e y, hsb]; simp [e, eq_comm]
      · rw [if_neg ey]
        have : w.loc ≠ sbLoc y := fun hc => ey (sbLoc_inj (hc.symm.trans e))
        simp [this]
  | journal hs kj kt kn =>
    obtain ⟨bs, hbs⟩ := Option.ne_none_iff_exists'.mp (hv.journal kj)
    obtain ⟨i, n, b1, b2, b3, b4, b5⟩ := journal_blocks kj
    have hlen : bs.length = n := by
      have h3 := (range_length _ rfl hbs).1
      have h4 : w.bytes.length = n * 4096 := b2
      omega
    refine ⟨{ jd with
      writeJ := jd.writeJ.insert id ⟨(intervalOf w.loc).start, bs.length⟩
      journal := splice jd.journal (intervalOf w.loc).start bs }, ?_, ?_, key _ ?_⟩
    · rw [blk_reqWrite hn, kT_none kt, kN_none kn, put_nodes hpad hv.loc kn, put_tables hpad hv.loc kt]
      simp only [blockOp, if_neg kt, if_neg kn]
      exact .stutter
    · simp only [journalOp, if_neg (sb_first hs).1, if_neg (sb_first hs).2, if_pos kj, hbs]
      refine .recvWriteJ1 (by rw [h.journal.writeJ]; exact sel_none hn) ?_ ?_ <;> rw [b3]
      · exact b4
      · rw [hlen]; exact b5
    · refine h.journal.reqWrite h1 h2 ?_ ?_ rfl rfl rfl (by
        have hnil : p = [] := hpad.whole (by rw [show w.bytes.length = n * 4096 from b2]; omega)
        subst hnil
        rw [nil_full]
        exact put_block kj hbs h.journal.journal)
      · intro w' i; simp [hs]
      · rw [kJ_some.mpr ⟨kj, rfl⟩]
        dsimp only
        rw [b3, hlen]
  | table hs kj kt kn =>
    obtain ⟨t, ht⟩ := Option.ne_none_iff_exists'.mp (hv.table kt)
    refine ⟨jd, ?_, ?_, key _ ?_⟩
    · rw [blk_reqWrite hn, kT_some.mpr ⟨kt, rfl⟩, kN_none kn, put_nodes hpad hv.loc kn]
      simp only [blockOp, if_pos kt, if_neg kn, ht]
      exact .recvWriteTable (sel_none hn) (put_table_update hpad kt ht)
    · simp only [journalOp, if_neg (sb_first hs).1, if_neg (sb_first hs).2, if_neg kj]
      exact .stutter
    · refine h.journal.reqWrite h1 h2 ?_ (by rw [kJ_none kj]) rfl rfl rfl (same kj)
      intro w' i; simp [hs]
  | node hs kj kt kn =>
    obtain ⟨t, ht⟩ := Option.ne_none_iff_exists'.mp (hv.node kn)
    refine ⟨jd, ?_, ?_, key _ ?_⟩
    · rw [blk_reqWrite hn, kN_some.mpr ⟨kn, rfl⟩, kT_none kt, put_tables hpad hv.loc kt]
      simp only [blockOp, if_pos kn, ht]
      exact .recvWriteNode (sel_none hn) (put_node_update hpad kn ht)
    · simp only [journalOp, if_neg (sb_first hs).1, if_neg (sb_first hs).2, if_neg kj]
      exact .stutter
    · refine h.journal.reqWrite h1 h2 ?_ (by rw [kJ_none kj]) rfl rfl rfl (same kj)
      intro w' i; simp [hs]

theorem splice_two {j : Nat → Option Block} {s : Nat} {b1 b2 : List Block}
    (h1 : s + b1.length = numJournalBlocks) (h2 : b1.length + b2.length ≤ numJournalBlocks) {p : Nat}
    (hp : p < numJournalBlocks) : splice (splice j s b1) 0 b2 p = splice j s (b1 ++ b2) p := by
  simp only [splice, List.length_append]
  by_cases k1 : p < b2.length
  · rw [if_pos (by omega), if_neg (by omega), if_pos (by omega), List.getElem?_append_right (by omega)]
    congr 1; omega
  · rw [if_neg (by omega), if_neg (by omega)]
    by_cases k2 : s ≤ p
    · rw [if_pos (by omega), if_pos (by omega), List.getElem?_append_left (by omega)]
    · rw [if_neg (by omega), if_neg (by omega), if_neg (by omega), if_neg (by omega)]

theorem step_reqWrite2 (h : DSim c d E bd jd) {id1 id2 : ReqId} {w1 w2 : Data} {p1 p2 : List UInt8}
    (hpad1 : PadLen w1 p1) (hpad2 : PadLen w2 p2) (hv : ValidWrite2 c w1 w2) (h1 : d.reqWrites id1 = none) (h2 : d.respWrites id1 = none)
    (h3 : d.reqWrites id2 = none) (h4 : d.respWrites id2 = none) (hne : id1 ≠ id2) :
    ∃ bd' jd', BlockDisk.Next bd (blockOp c (.reqWrite2 id1 id2 w1 w2)) bd' ∧
      JournalDisk.Next jd (journalOp c (.reqWrite2 id1 id2 w1 w2)) jd' ∧
      (Safe bd' jd' → DSim c { d with reqWrites := (d.reqWrites.insert id1 w1).insert id2 w2, pads := ByteDisk.setPad (ByteDisk.setPad d.pads id1 p1) id2 p2 }
        (put (put E w1) w2) bd' jd') := by
  have e1 : p1 = [] := hpad1.whole hv.journal1.2.1
  have e2 : p2 = [] := hpad2.whole hv.journal2.2.1
  subst e1 e2
  have hn1 : wl d id1 = none := by simp [wl, h1, h2]
  have hn2 : wl d id2 = none := by simp [wl, h3, h4]
  have hb := h.block
  subst hb
  obtain ⟨b1, hb1⟩ := Option.ne_none_iff_exists'.mp (hv.one.journal hv.journal1)
  obtain ⟨b2, hb2⟩ := Option.ne_none_iff_exists'.mp (hv.two.journal hv.journal2)
  obtain ⟨i1, n1, a1, a2, a3, a4, a5⟩ := journal_blocks hv.journal1
  obtain ⟨i2, n2, q1, q2, q3, q4, q5⟩ := journal_blocks hv.journal2
  have l1 : b1.length = n1 := by
    have h3 := (range_length _ rfl hb1).1
    have h4 : w1.bytes.length = n1 * 4096 := a2
    omega
  have l2 : b2.length = n2 := by
    have h3 := (range_length _ rfl hb2).1
    have h4 : w2.bytes.length = n2 * 4096 := q2
    omega
  obtain ⟨_, _, _, _, v1, v2, v3, v4⟩ := hv
  rw [a3] at v1 v4
  rw [q3] at v2 v3 v4
  dsimp only at v1 v2 v3 v4
  rename_i o1 o2 j1 j2
  have k1 := o1.loc.kind
  have nt1 : ¬ ValidTableLoc w1.loc := fun k => table_not_journal k j1
  have nn1 : ¬ ValidNodeLoc w1.loc := fun k => node_not_journal k j1
  have nt2 : ¬ ValidTableLoc w2.loc := fun k => table_not_journal k j2
  have nn2 : ¬ ValidNodeLoc w2.loc := fun k => node_not_journal k j2
  have ns1 : ∀ x, w1.loc ≠ sbLoc x := fun x e => (sb_not e).1 j1
  have ns2 : ∀ x, w2.loc ≠ sbLoc x := fun x e => (sb_not e).1 j2
  have h3' : ({ d with reqWrites := d.reqWrites.insert id1 w1, pads := ByteDisk.setPad d.pads id1 [] } : ByteDisk.State).reqWrites id2 = none := by
    dsimp only; rw [PMap.insert_other _ _ (Ne.symm hne)]; exact h3
  have hw2 : wl { d with reqWrites := d.reqWrites.insert id1 w1, pads := ByteDisk.setPad d.pads id1 [] } id2 = none := by
    rw [wl_reqWrite, PMap.insert_other _ _ (Ne.symm hne)]; exact hn2
  have t1 : JTie c { d with reqWrites := d.reqWrites.insert id1 w1, pads := ByteDisk.setPad d.pads id1 [] } (put E w1)
      { jd with writeJ := jd.writeJ.insert id1 ⟨i1, n1⟩, journal := splice jd.journal i1 b1 } := by
    have hk := put_block j1 hb1 h.journal.journal
    rw [a3] at hk
    refine h.journal.reqWrite h1 h2 ?_ ?_ rfl rfl rfl hk
    · intro x i; simp [ns1]
    · rw [kJ_some.mpr ⟨j1, rfl⟩, a3]
  have t2 : JTie c { d with reqWrites := (d.reqWrites.insert id1 w1).insert id2 w2, pads := ByteDisk.setPad (ByteDisk.setPad d.pads id1 []) id2 [] } (put (put E w1) w2)
      { jd with
        writeJ := (jd.writeJ.insert id1 ⟨i1, numJournalBlocks - i1⟩).insert id2
          ⟨0, (b1 ++ b2).length - (numJournalBlocks - i1)⟩
        journal := splice jd.journal i1 (b1 ++ b2) } := by
    refine t1.reqWrite (id := id2) (w := w2) h3' h4 ?_ ?_ rfl rfl rfl ?_
    · intro x i; simp [ns2]
    · rw [kJ_some.mpr ⟨j2, rfl⟩, q3, List.length_append]
      dsimp only
      rw [v2, show numJournalBlocks - i1 = n1 by omega, l1, l2, Nat.add_sub_cancel_left]
    · intro p hp
      have hk := put_block j2 hb2 t1.journal p hp
      rw [q3, v2] at hk
      rw [← hk]
      exact (splice_two (by omega) (by omega) hp).symm
  have hsane : Sane c { d with reqWrites := (d.reqWrites.insert id1 w1).insert id2 w2, pads := ByteDisk.setPad (ByteDisk.setPad d.pads id1 []) id2 [] } := by
    have s1 := h.sane.reqWrite (id := id1) (P := ByteDisk.setPad d.pads id1 []) o1.loc (fun _ => by
      rw [a2]; generalize numJournalBlocks = N at *; omega) o1.superblock h2
    exact s1.reqWrite (id := id2) o2.loc (fun _ => by rw [q2]; omega) o2.superblock h4
  refine ⟨blk c { d with reqWrites := (d.reqWrites.insert id1 w1).insert id2 w2, pads := ByteDisk.setPad (ByteDisk.setPad d.pads id1 []) id2 [] } (put (put E w1) w2),
    { jd with
      writeJ := (jd.writeJ.insert id1 ⟨i1, numJournalBlocks - i1⟩).insert id2
        ⟨0, (b1 ++ b2).length - (numJournalBlocks - i1)⟩
      journal := splice jd.journal i1 (b1 ++ b2) },
    ?_, ?_, fun hs => ?_⟩
  rotate_left
  · simp only [journalOp, hb1, hb2]
    rw [a3]
    refine .recvWriteJ2 (by rw [h.journal.writeJ]; exact sel_none hn1)
      (by rw [h.journal.writeJ]; exact sel_none hn2) (Ne.symm hne) a4 ?_ ?_
    · rw [List.length_append]; omega
    · show numJournalBlocks < i1 + (b1 ++ b2).length
      rw [List.length_append]; omega
  · have ht : Tie c { d with reqWrites := (d.reqWrites.insert id1 w1).insert id2 w2, pads := ByteDisk.setPad (ByteDisk.setPad d.pads id1 []) id2 [] } (put (put E w1) w2) _ _ :=
      ⟨rfl, t2, hsane⟩
    have g2 : wl { d with reqWrites := (d.reqWrites.insert id1 w1).insert id2 w2, pads := ByteDisk.setPad (ByteDisk.setPad d.pads id1 []) id2 [] } id2 = some w2.loc :=
      wl_req (d := { d with reqWrites := (d.reqWrites.insert id1 w1).insert id2 w2, pads := ByteDisk.setPad (ByteDisk.setPad d.pads id1 []) id2 [] })
        (PMap.insert_same _ _ _)
    have g1 : wl { d with reqWrites := (d.reqWrites.insert id1 w1).insert id2 w2, pads := ByteDisk.setPad (ByteDisk.setPad d.pads id1 []) id2 [] } id1 = some w1.loc :=
      wl_req (d := { d with reqWrites := (d.reqWrites.insert id1 w1).insert id2 w2, pads := ByteDisk.setPad (ByteDisk.setPad d.pads id1 []) id2 [] })
        (by dsimp only; rw [PMap.insert_other _ _ hne, PMap.insert_same])
    have g : ∀ i w, d.reqWrites i = some w →
        wl { d with reqWrites := (d.reqWrites.insert id1 w1).insert id2 w2, pads := ByteDisk.setPad (ByteDisk.setPad d.pads id1 []) id2 [] } i = some w.loc ∧ i ≠ id1 ∧
          i ≠ id2 := by
      intro i w hi
      have e1 : i ≠ id1 := fun e => by rw [e, h1] at hi; cases hi
      have e2 : i ≠ id2 := fun e => by rw [e, h3] at hi; cases hi
      refine ⟨wl_req (d := { d with reqWrites := (d.reqWrites.insert id1 w1).insert id2 w2, pads := ByteDisk.setPad (ByteDisk.setPad d.pads id1 []) id2 [] }) ?_, e1, e2⟩
      dsimp only; rw [PMap.insert_other _ _ e2, PMap.insert_other _ _ e1]; exact hi
    refine ⟨ht, ?_, fun id' r hr => ?_⟩
    · have o := h.over.add (id := id1) (w := w1) (p := []) (.inl rfl) o1.loc
        (fun i w hi _ => ⟨ht.sane.wv _ _ (g i w hi).1, ht.noWW hs (g i w hi).1 g1 (g i w hi).2.1⟩) h1
      rw [nil_full] at o
      have o' := o.add (id := id2) (w := w2) (p := []) (.inl rfl) o2.loc (fun i w hi hne' => ?_) h3'
      · rw [nil_full] at o'; exact o'
      dsimp only at hi
      by_cases e : i = id1
      · subst e
        rw [PMap.insert_same] at hi; cases hi
        exact ⟨o1.loc, ht.noWW hs g1 g2 hne⟩
      · rw [PMap.insert_other _ _ e] at hi
        exact ⟨ht.sane.wv _ _ (g i w hi).1, ht.noWW hs (g i w hi).1 g2 hne'⟩
    · rw [put_other (ht.noRW hs (ht.sane.rl_resp hr).2 g2), put_other (ht.noRW hs (ht.sane.rl_resp hr).2 g1)]
      exact h.chk id' r hr
  · have e := blk_reqWrite (c := c) (d := { d with reqWrites := d.reqWrites.insert id1 w1, pads := ByteDisk.setPad d.pads id1 [] }) (id := id2)
      (P := ByteDisk.setPad (ByteDisk.setPad d.pads id1 []) id2 []) (w := w2) (E := put (put E w1) w2) hw2
    rw [kT_none nt2, kN_none nn2, put_nodes_plain o2.loc nn2, put_tables_plain o2.loc nt2, put_nodes_plain o1.loc nn1,
      put_tables_plain o1.loc nt1, wl_reqWrite, sel_insert_none (kT_none nt1) hn1,
      sel_insert_none (kN_none nn1) hn1] at e
    rw [show blk c { d with reqWrites := (d.reqWrites.insert id1 w1).insert id2 w2, pads := ByteDisk.setPad (ByteDisk.setPad d.pads id1 []) id2 [] } (put (put E w1) w2) =
      blk c d E from e]
    exact .stutter

/-! ### Answers -/

theorem remove_none {K V : Type} [DecidableEq K] {m : PMap K V} {k : K} (h : m k = none) :
    m.remove k = m := by
  funext x
  by_cases e : x = k
  · subst e; rw [PMap.remove_same, h]
  · rw [PMap.remove_other _ e]

theorem Sane.ackRead (h : Sane c d) {id : ReqId} {r : Data} (hr : d.respReads id = some r) :
    Sane c { d with respReads := d.respReads.remove id } := by
  have he := rl_ack (h.rl_resp hr).1
  refine ⟨?_, h.wv, h.wpos, h.wsb, ?_, h.wdis⟩
  · intro i l hi
    rw [he] at hi
    by_cases e : i = id
    · subst e; rw [PMap.remove_same] at hi; cases hi
    · rw [PMap.remove_other _ e] at hi; exact h.rv _ _ hi
  · intro i hi
    dsimp only
    by_cases e : i = id
    · subst e; rw [PMap.remove_same]
    · rw [PMap.remove_other _ e]; exact h.rdis i hi

theorem JTie.ackRead (h : JTie c d E jd) {id : ReqId} (hn : d.reqReads id = none)
    {jd' : JournalDisk.State} (h1 : ∀ w i, jd'.readSb w i ↔ jd.readSb w i ∧ i ≠ id)
    (h2 : jd'.readJ = jd.readJ.remove id) (h3 : jd'.writeSb = jd.writeSb)
    (h4 : jd'.writeJ = jd.writeJ) (h5 : jd'.sb = jd.sb) (h6 : jd'.journal = jd.journal) :
    JTie c { d with respReads := d.respReads.remove id } E jd' := by
  refine ⟨?_, ?_, ?_, ?_, ?_, ?_⟩
  · intro w i
    rw [h1, rl_ack hn, h.readSb]
    by_cases e : i = id
    · subst e; rw [PMap.remove_same]; simp
    · rw [PMap.remove_other _ e]; simp [e]
  · rw [h2, rl_ack hn, h.readJ, sel_remove]
  · rw [h3]; exact h.writeSb
  · rw [h4]; exact h.writeJ
  · rw [h5]; exact h.sb
  · rw [h6]; exact h.journal

theorem checks_eq {crc : List UInt8 → List UInt8} {a b : List UInt8} (h : AllCheck crc a b)
    (hl : b.length = a.length) (ha : Checks crc a) (hb : Checks crc b) : a = b := by
  have := h 0 a.length (by omega) (by omega)
  rw [List.drop_zero, List.drop_zero, List.take_length, ← hl, List.take_length] at this
  exact this ha hb

theorem node_checks {s : List UInt8} (h : c.node s ≠ none) : Checks c.crc s := by
  unfold Codec.node Codec.sector at h
  by_cases k : Checks c.crc s
  · exact k
  · rw [if_neg k] at h; exact absurd rfl h

theorem table_checks {s : List UInt8} (h : c.table s ≠ none) : Checks c.crc s := by
  unfold Codec.table Codec.sector at h
  by_cases k : Checks c.crc s
  · exact k
  · rw [if_neg k] at h; exact absurd rfl h

theorem sb_checks {s : List UInt8} (h : c.superblock s ≠ none) : Checks c.crc s := by
  unfold Codec.superblock Codec.sector at h
  by_cases k : Checks c.crc s
  · exact k
  · rw [if_neg k] at h; exact absurd rfl h

theorem superblockAt_some {contents : List UInt8} {w : Bool} (h : superblockAt c contents w ≠ none) :
    (sbLoc w).addr + (sbLoc w).len ≤ contents.length ∧
    superblockAt c contents w = c.superblock (bytesAt (byteOf contents) (sbLoc w)) := by
  unfold superblockAt at *
  by_cases k : (sbLoc w).addr + (sbLoc w).len ≤ contents.length
  · refine ⟨k, ?_⟩
    rw [if_pos k, read_eq k]
  · rw [if_neg k] at h; exact absurd rfl h

/-- While a location is being read its bytes are what is on the disk. -/
theorem DSim.quiet (h : DSim c d E bd jd) (hs : Safe bd jd) {id : ReqId} {l : Loc}
    (hl : rl d id = some l) : bytesAt E l = bytesAt (byteOf d.contents) l :=
  h.over.quiet (h.sane.rv _ _ hl) fun _ _ hw =>
    ⟨h.sane.wv _ _ (wl_req hw), fun ho => h.noRW hs hl (wl_req hw) (overlap_symm ho)⟩

theorem step_respRead (h : DSim c d E bd jd) (hs : Safe bd jd) {id : ReqId} {r : Data}
    (hr : d.respReads id = some r) :
    ∃ bd' jd', BlockDisk.Next bd (blockOp c (.respRead id r)) bd' ∧
      JournalDisk.Next jd (journalOp c (.respRead id r)) jd' ∧
      DSim c { d with respReads := d.respReads.remove id } E bd' jd' := by
  obtain ⟨hq, hl⟩ := h.sane.rl_resp hr
  have hv := h.sane.rv _ _ hl
  have hb := h.block
  have hchk := h.chk _ _ hr
  have hlen : r.bytes.length = (bytesAt E r.loc).length := by rw [bytesAt_length]; rfl
  have hchk' : ∀ i r', ({ d with respReads := d.respReads.remove id } : ByteDisk.State).respReads i = some r' →
      AllCheck c.crc (bytesAt E r'.loc) r'.bytes := by
    intro i r' hi
    dsimp only at hi
    by_cases e : i = id
    · subst e; rw [PMap.remove_same] at hi; cases hi
    · rw [PMap.remove_other _ e] at hi; exact h.chk _ _ hi
  have key : ∀ jd', JTie c { d with respReads := d.respReads.remove id } E jd' →
      DSim c { d with respReads := d.respReads.remove id } E
        (blk c { d with respReads := d.respReads.remove id } E) jd' := fun jd' hj =>
    ⟨⟨rfl, hj, h.sane.ackRead hr⟩, ⟨h.over.hit, h.over.miss, h.over.size⟩, hchk'⟩
  have eb : blk c { d with respReads := d.respReads.remove id } E =
      ⟨(sel kT (rl d)).remove id, (sel kN (rl d)).remove id, sel kT (wl d), sel kN (wl d),
        (blockDisk c E).tables, (blockDisk c E).nodes⟩ := by
    unfold blk
    rw [rl_ack hq, sel_remove, sel_remove]
    rfl
  refine ⟨blk c { d with respReads := d.respReads.remove id } E, ?_⟩
  subst hb
  cases hv.kind with
  | sb w e kj kt kn =>
    have z1 : sel kT (rl d) id = none := by simp [sel, hl, kT_none kt]
    have z2 : sel kN (rl d) id = none := by simp [sel, hl, kN_none kn]
    have z3 : jd.readJ id = none := by rw [h.journal.readJ]; simp [sel, hl, kJ_none kj]
    refine ⟨{ jd with readSb := setAt jd.readSb w (fun i => jd.readSb w i ∧ i ≠ id) }, ?_, ?_, key _ ?_⟩
    · rw [eb, remove_none z1, remove_none z2]
      simp only [blockOp, if_neg kt, if_neg kn]
      exact .stutter
    · have : journalOp c (.respRead id r) = .respReadSb id w (c.superblock r.bytes) := by
        cases w
        · simp only [journalOp]; rw [if_pos (show r.loc = superblock1Loc from e)]
        · simp only [journalOp]
          rw [if_neg (by rw [e]; decide), if_pos (show r.loc = superblock2Loc from e)]
      rw [this]
      refine .ackReadSb ((h.journal.readSb w id).mpr (by rw [hl, e])) fun x hx => ?_
      have h0 := hs.sbs w
      rw [h.journal.sb] at h0 ⊢
      obtain ⟨_, h2⟩ := superblockAt_some h0
      have h3 : bytesAt E r.loc = bytesAt (byteOf d.contents) (sbLoc w) := by
        rw [h.quiet hs hl, e]
      rw [h2, ← h3] at h0 ⊢
      rw [checks_eq hchk hlen (sb_checks h0) (sb_checks (by rw [hx]; simp))]
      exact hx
    · refine h.journal.ackRead hq ?_ (by rw [remove_none z3]) rfl rfl rfl rfl
      intro w' i
      dsimp only
      unfold setAt
      by_cases ew : w' = w
      · subst ew; rw [if_pos rfl]
      · rw [if_neg ew]
        refine ⟨fun hx => ⟨hx, fun ei => ?_⟩, fun hx => hx.1⟩
        subst ei
        rw [h.journal.readSb, hl] at hx
        exact ew (sbLoc_inj ((Option.some.inj hx).symm.trans e))
  | journal hsb kj kt kn =>
    have z1 : sel kT (rl d) id = none := by simp [sel, hl, kT_none kt]
    have z2 : sel kN (rl d) id = none := by simp [sel, hl, kN_none kn]
    have z3 : jd.readJ id = some (intervalOf r.loc) := by
      rw [h.journal.readJ]; exact sel_some hl (kJ_some.mpr ⟨kj, rfl⟩)
    refine ⟨{ jd with readJ := jd.readJ.remove id }, ?_, ?_, key _ ?_⟩
    · rw [eb, remove_none z1, remove_none z2]
      simp only [blockOp, if_neg kt, if_neg kn]
      exact .stutter
    · simp only [journalOp, if_neg (sb_first hsb).1, if_neg (sb_first hsb).2, if_pos kj]
      refine .ackReadJ z3 fun x hx => ?_
      obtain ⟨h1, h2⟩ := hs.blocks _ _ z3
      obtain ⟨i, n, b1, b2, b3, b4, b5⟩ := journal_blocks kj
      rw [b3] at h1 h2 ⊢
      dsimp only at h1 h2 ⊢
      have h3 : blocksAt jd.journal i n = c.range (bytesAt E r.loc) := by
        rw [blocksAt_congr b4 (by omega) (j' := journalBlockAt c E) fun k hk =>
          h.journal.journal _ (posAdd_lt b4 (by omega)), blocks_range c E n i b5]
        have : (⟨journalPoint i, 4096 * n⟩ : Loc) = r.loc := by
          have q1 : journalPoint i = r.loc.addr := by rw [b1]; rfl
          have q2 : 4096 * n = r.loc.len := by rw [b2, Nat.mul_comm]
          rw [q1, q2]
        rw [this]
      rw [h3] at h2 ⊢
      obtain ⟨y, hy⟩ := Option.ne_none_iff_exists'.mp h2
      rw [hy, range_check _ rfl hlen hchk hy hx]
    · refine h.journal.ackRead hq ?_ rfl rfl rfl rfl rfl
      intro w i
      refine ⟨fun hx => ⟨hx, fun ei => ?_⟩, fun hx => hx.1⟩
      subst ei
      have hx' : jd.readSb w i := hx
      rw [h.journal.readSb, hl] at hx'
      exact hsb w (Option.some.inj hx')
  | table hsb kj kt kn =>
    have z1 : sel kT (rl d) id = some r.loc := sel_some hl (kT_some.mpr ⟨kt, rfl⟩)
    have z2 : sel kN (rl d) id = none := by simp [sel, hl, kN_none kn]
    have z3 : jd.readJ id = none := by rw [h.journal.readJ]; simp [sel, hl, kJ_none kj]
    refine ⟨jd, ?_, ?_, key _ ?_⟩
    · rw [eb, remove_none z2]
      simp only [blockOp, if_pos kt, if_neg kn]
      refine .ackReadTable z1 fun x hx => ?_
      have h0 : (blockDisk c E).tables r.loc ≠ none := hs.tables _ _ z1
      show (blockDisk c E).tables r.loc = some x
      simp only [blockDisk, if_pos kt] at h0 ⊢
      rw [checks_eq hchk hlen (table_checks h0) (table_checks (by rw [hx]; simp))]
      exact hx
    · simp only [journalOp, if_neg (sb_first hsb).1, if_neg (sb_first hsb).2, if_neg kj]
      exact .stutter
    · refine h.journal.ackRead hq ?_ (by rw [remove_none z3]) rfl rfl rfl rfl
      intro w i
      refine ⟨fun hx => ⟨hx, fun ei => ?_⟩, fun hx => hx.1⟩
      subst ei
      rw [h.journal.readSb, hl] at hx
      exact hsb w (Option.some.inj hx)
  | node hsb kj kt kn =>
    have z1 : sel kT (rl d) id = none := by simp [sel, hl, kT_none kt]
    have z2 : sel kN (rl d) id = some r.loc := sel_some hl (kN_some.mpr ⟨kn, rfl⟩)
    have z3 : jd.readJ id = none := by rw [h.journal.readJ]; simp [sel, hl, kJ_none kj]
    refine ⟨jd, ?_, ?_, key _ ?_⟩
    · rw [eb, remove_none z1]
      simp only [blockOp, if_pos kn]
      refine .ackReadNode z2 fun x hx => ?_
      have h0 : (blockDisk c E).nodes r.loc ≠ none := hs.nodes _ _ z2
      show (blockDisk c E).nodes r.loc = some x
      simp only [blockDisk, if_pos kn] at h0 ⊢
      rw [checks_eq hchk hlen (node_checks h0) (node_checks (by rw [hx]; simp))]
      exact hx
    · simp only [journalOp, if_neg (sb_first hsb).1, if_neg (sb_first hsb).2, if_neg kj]
      exact .stutter
    · refine h.journal.ackRead hq ?_ (by rw [remove_none z3]) rfl rfl rfl rfl
      intro w i
      refine ⟨fun hx => ⟨hx, fun ei => ?_⟩, fun hx => hx.1⟩
      subst ei
      rw [h.journal.readSb, hl] at hx
      exact hsb w (Option.some.inj hx)

theorem Sane.ackWrite (h : Sane c d) {id : ReqId} {l : Loc} (hr : d.respWrites id = some l) :
    Sane c { d with respWrites := d.respWrites.remove id } := by
  have he := wl_ack (h.wl_resp hr).1
  refine ⟨h.rv, ?_, ?_, h.wsb, h.rdis, ?_⟩
  · intro i l hi
    rw [he] at hi
    by_cases e : i = id
    · subst e; rw [PMap.remove_same] at hi; cases hi
    · rw [PMap.remove_other _ e] at hi; exact h.wv _ _ hi
  · intro i l hi
    rw [he] at hi
    by_cases e : i = id
    · subst e; rw [PMap.remove_same] at hi; cases hi
    · rw [PMap.remove_other _ e] at hi; exact h.wpos _ _ hi
  · intro i hi
    dsimp only
    by_cases e : i = id
    · subst e; rw [PMap.remove_same]
    · rw [PMap.remove_other _ e]; exact h.wdis i hi

theorem JTie.ackWrite (h : JTie c d E jd) {id : ReqId} (hn : d.reqWrites id = none)
    {jd' : JournalDisk.State}
    (h1 : ∀ w i sb, jd'.writeSb w = some (i, sb) ↔ jd.writeSb w = some (i, sb) ∧ i ≠ id)
    (h2 : jd'.writeJ = jd.writeJ.remove id) (h3 : jd'.readSb = jd.readSb)
    (h4 : jd'.readJ = jd.readJ) (h5 : jd'.sb = jd.sb) (h6 : jd'.journal = jd.journal) :
    JTie c { d with respWrites := d.respWrites.remove id } E jd' := by
  refine ⟨?_, ?_, ?_, ?_, ?_, ?_⟩
  · rw [h3]; exact h.readSb
  · rw [h4]; exact h.readJ
  · intro w i sb
    rw [h1, h.writeSb]
    dsimp only
    by_cases e : i = id
    · subst e; rw [PMap.remove_same, hn]; simp
    · rw [PMap.remove_other _ e]; simp [e]
  · rw [h2, wl_ack hn, h.writeJ, sel_remove]
  · rw [h5]; exact h.sb
  · rw [h6]; exact h.journal

/-- An acknowledged superblock write is at one place. -/
theorem DSim.sbAt (h : DSim c d E bd jd) {id : ReqId} {l : Loc} (hr : d.respWrites id = some l) {w : Bool}
    {sb : Superblock} (hw : jd.writeSb w = some (id, sb)) : l = sbLoc w := by
  rcases (h.journal.writeSb w id sb).mp hw with ⟨x, hx, _⟩ | ⟨hx, _⟩
  · rw [(h.sane.wl_resp hr).1] at hx; cases hx
  · rw [hr] at hx; exact Option.some.inj hx

theorem step_respWrite (h : DSim c d E bd jd) (hs : Safe bd jd) {id : ReqId} {l : Loc}
    (hr : d.respWrites id = some l) :
    ∃ bd' jd', BlockDisk.Next bd (blockOp c (.respWrite id l)) bd' ∧
      JournalDisk.Next jd (journalOp c (.respWrite id l)) jd' ∧
      DSim c { d with respWrites := d.respWrites.remove id } E bd' jd' := by
  obtain ⟨hq, hl⟩ := h.sane.wl_resp hr
  have hv := h.sane.wv _ _ hl
  have hb := h.block
  have key : ∀ jd', JTie c { d with respWrites := d.respWrites.remove id } E jd' →
      DSim c { d with respWrites := d.respWrites.remove id } E
        (blk c { d with respWrites := d.respWrites.remove id } E) jd' := fun jd' hj =>
    ⟨⟨rfl, hj, h.sane.ackWrite hr⟩, ⟨h.over.hit, h.over.miss, h.over.size⟩, h.chk⟩
  have eb : blk c { d with respWrites := d.respWrites.remove id } E =
      ⟨sel kT (rl d), sel kN (rl d), (sel kT (wl d)).remove id, (sel kN (wl d)).remove id,
        (blockDisk c E).tables, (blockDisk c E).nodes⟩ := by
    unfold blk
    rw [wl_ack hq, sel_remove, sel_remove]
    rfl
  have other : (∀ w, l ≠ sbLoc w) → ∀ w i sb, jd.writeSb w = some (i, sb) ↔
      jd.writeSb w = some (i, sb) ∧ i ≠ id := fun hsb w i sb =>
    ⟨fun hx => ⟨hx, fun ei => hsb w (h.sbAt hr (ei ▸ hx))⟩, fun hx => hx.1⟩
  refine ⟨blk c { d with respWrites := d.respWrites.remove id } E, ?_⟩
  subst hb
  cases hv.kind with
  | sb w e kj kt kn =>
    have z1 : sel kT (wl d) id = none := by simp [sel, hl, kT_none kt]
    have z2 : sel kN (wl d) id = none := by simp [sel, hl, kN_none kn]
    have z3 : jd.writeJ id = none := by rw [h.journal.writeJ]; simp [sel, hl, kJ_none kj]
    obtain ⟨sb, hsb⟩ := Option.ne_none_iff_exists'.mp (hs.sbs w)
    have hw : jd.writeSb w = some (id, sb) := (h.journal.writeSb w id sb).mpr
      (.inr ⟨by rw [hr, e], by rw [← h.journal.sb]; exact hsb⟩)
    refine ⟨{ jd with writeSb := setAt jd.writeSb w none }, ?_, ?_, key _ ?_⟩
    · rw [eb, remove_none z1, remove_none z2]
      simp only [blockOp, if_neg kt, if_neg kn]
      exact .stutter
    · have : journalOp c (.respWrite id l) = .respWriteSb id w := by
        subst e; cases w <;> simp [journalOp, sbLoc, superblock1Loc, superblock2Loc]
      rw [this]
      exact .ackWriteSb hw hsb
    · refine h.journal.ackWrite hq ?_ (by rw [remove_none z3]) rfl rfl rfl rfl
      intro w' i b
      dsimp only
      unfold setAt
      by_cases ew : w' = w
      · subst ew; rw [if_pos rfl, hw]; simp; intro e1 _; exact e1.symm
      · rw [if_neg ew]
        refine ⟨fun hx => ⟨hx, fun ei => ?_⟩, fun hx => hx.1⟩
        subst ei
        exact ew (sbLoc_inj ((h.sbAt hr hx).symm.trans e))
  | journal hsb kj kt kn =>
    have z1 : sel kT (wl d) id = none := by simp [sel, hl, kT_none kt]
    have z2 : sel kN (wl d) id = none := by simp [sel, hl, kN_none kn]
    have z3 : jd.writeJ id = some (intervalOf l) := by
      rw [h.journal.writeJ]; exact sel_some hl (kJ_some.mpr ⟨kj, rfl⟩)
    refine ⟨{ jd with writeJ := jd.writeJ.remove id }, ?_, ?_, key _ ?_⟩
    · rw [eb, remove_none z1, remove_none z2]
      simp only [blockOp, if_neg kt, if_neg kn]
      exact .stutter
    · simp only [journalOp, if_neg (sb_first hsb).1, if_neg (sb_first hsb).2, if_pos kj]
      exact .ackWriteJ z3
    · exact h.journal.ackWrite hq (other hsb) rfl rfl rfl rfl rfl
  | table hsb kj kt kn =>
    have z1 : sel kT (wl d) id = some l := sel_some hl (kT_some.mpr ⟨kt, rfl⟩)
    have z2 : sel kN (wl d) id = none := by simp [sel, hl, kN_none kn]
    have z3 : jd.writeJ id = none := by rw [h.journal.writeJ]; simp [sel, hl, kJ_none kj]
    refine ⟨jd, ?_, ?_, key _ ?_⟩
    · rw [eb, remove_none z2]
      simp only [blockOp, if_pos kt, if_neg kn]
      exact .ackWriteTable z1
    · simp only [journalOp, if_neg (sb_first hsb).1, if_neg (sb_first hsb).2, if_neg kj]
      exact .stutter
    · exact h.journal.ackWrite hq (other hsb) (by rw [remove_none z3]) rfl rfl rfl rfl
  | node hsb kj kt kn =>
    have z1 : sel kT (wl d) id = none := by simp [sel, hl, kT_none kt]
    have z2 : sel kN (wl d) id = some l := sel_some hl (kN_some.mpr ⟨kn, rfl⟩)
    have z3 : jd.writeJ id = none := by rw [h.journal.writeJ]; simp [sel, hl, kJ_none kj]
    refine ⟨jd, ?_, ?_, key _ ?_⟩
    · rw [eb, remove_none z1]
      simp only [blockOp, if_pos kn]
      exact .ackWriteNode z2
    · simp only [journalOp, if_neg (sb_first hsb).1, if_neg (sb_first hsb).2, if_neg kj]
      exact .stutter
    · exact h.journal.ackWrite hq (other hsb) (by rw [remove_none z3]) rfl rfl rfl rfl

/-- A valid operation of the disk of bytes is one of the two disks. -/
theorem step_op {kind : ByteDisk.Kind} (h : DSim c d E bd jd) (hs : Safe bd jd) {dop : Op} (hv : ValidOp c dop)
    (hp : ∀ id w, dop = .reqWrite id w → ValidJournalLoc w.loc → 0 < w.loc.len)
    (hidle : ∀ id w x, dop = .reqWrite id w → w.loc = sbLoc x → ∀ y, jd.writeSb y = none)
    {d' : ByteDisk.State} (hn : ByteDisk.Next kind d dop d') :
    ∃ bd' jd' E', BlockDisk.Next bd (blockOp c dop) bd' ∧ JournalDisk.Next jd (journalOp c dop) jd' ∧
      (Safe bd' jd' → DSim c d' E' bd' jd') := by
  cases hn with
  | recvRead h1 h2 =>
    obtain ⟨bd', jd', k1, k2, k3⟩ := step_reqRead h hv h1 h2
    exact ⟨bd', jd', E, k1, k2, fun _ => k3⟩
  | recvWrite h1 h2 h3 =>
    obtain ⟨bd', jd', k1, k2, k3⟩ := step_reqWrite h (.of h3) hv (hp _ _ rfl) (fun x => hidle _ _ x rfl) h1 h2
    exact ⟨bd', jd', _, k1, k2, k3⟩
  | recvWrite2 h1 h2 h3 h4 h5 h6 h7 =>
    obtain ⟨bd', jd', k1, k2, k3⟩ := step_reqWrite2 h (.of h6) (.of h7) hv h1 h2 h3 h4 h5
    exact ⟨bd', jd', _, k1, k2, k3⟩
  | ackRead h1 =>
    obtain ⟨bd', jd', k1, k2, k3⟩ := step_respRead h hs h1
    exact ⟨bd', jd', E, k1, k2, fun _ => k3⟩
  | ackWrite h1 =>
    obtain ⟨bd', jd', k1, k2, k3⟩ := step_respWrite h hs h1
    exact ⟨bd', jd', E, k1, k2, fun _ => k3⟩
  | stutter => exact ⟨bd, jd, E, .stutter, .stutter, fun _ => h⟩

/-! ### Steps of the disk alone -/

/-- The disk reads, well or badly. -/
theorem step_read (h : DSim c d E bd jd) {id : ReqId} {l : Loc} {b : List UInt8}
    (hl : d.reqReads id = some l) (hb : b.length = l.len) (hc : AllCheck c.crc (bytesAt E l) b) :
    DSim c { d with
      reqReads := d.reqReads.remove id, respReads := d.respReads.insert id ⟨l.addr, b⟩ } E bd jd := by
  have he := rl_process hl hb
  have hr := h.sane.rdis id (by rw [hl]; simp)
  refine ⟨⟨?_, ⟨?_, ?_, h.journal.writeSb, h.journal.writeJ, h.journal.sb, h.journal.journal⟩,
    ⟨?_, h.sane.wv, h.sane.wpos, h.sane.wsb, ?_, h.sane.wdis⟩⟩, ⟨h.over.hit, h.over.miss, h.over.size⟩, ?_⟩
  · rw [h.block]; unfold blk; rw [he]; rfl
  · intro w i; rw [he]; exact h.journal.readSb w i
  · rw [he]; exact h.journal.readJ
  · intro i l' hi; rw [he] at hi; exact h.sane.rv _ _ hi
  · intro i hi
    dsimp only at hi ⊢
    by_cases e : i = id
    · subst e; rw [PMap.remove_same] at hi; exact absurd rfl hi
    · rw [PMap.remove_other _ e] at hi; rw [PMap.insert_other _ _ e]; exact h.sane.rdis i hi
  · intro i r hi
    dsimp only at hi
    by_cases e : i = id
    · subst e
      rw [PMap.insert_same] at hi
      cases hi
      have : (⟨l.addr, b⟩ : Data).loc = l := by unfold Data.loc; dsimp only; rw [hb]
      rw [this]; exact hc
    · rw [PMap.insert_other _ _ e] at hi; exact h.chk i r hi

theorem sbLoc_disjoint {w : Data} (hv : ValidLoc w.loc) {x : Bool} (hx : w.loc ≠ sbLoc x) :
    ¬ overlap (sbLoc x) w.loc := fun ho =>
  hx ((overlap_kind (.sb x) hv ho).1 x rfl)

theorem superblockAt_other {contents : List UInt8} {w : Data} {p : List UInt8} (hp : PadLen w p)
    (hv : ValidLoc w.loc) (hb : w.addr + (w.bytes ++ p).length ≤ contents.length) {x : Bool}
    (hx : w.loc ≠ sbLoc x) :
    superblockAt c (ByteDisk.splice contents w.addr (w.bytes ++ p)) x = superblockAt c contents x := by
  have hb : (⟨w.addr, w.bytes ++ p⟩ : Data).addr + (⟨w.addr, w.bytes ++ p⟩ : Data).bytes.length ≤
    contents.length := hb
  change superblockAt c (ByteDisk.splice contents (⟨w.addr, w.bytes ++ p⟩ : Data).addr
    (⟨w.addr, w.bytes ++ p⟩ : Data).bytes) x = _
  unfold superblockAt
  rw [splice_length hb]
  by_cases k : (sbLoc x).addr + (sbLoc x).len ≤ contents.length
  · rw [if_pos k, if_pos k, read_eq (by rw [splice_length hb]; exact k), read_eq k, byteOf_splice hb,
      put_other fun ho => sbLoc_disjoint hv hx (overlap_full hp hv (.sb x) ho)]
  · rw [if_neg k, if_neg k]

theorem superblockAt_other_plain {contents : List UInt8} {w : Data} (hv : ValidLoc w.loc)
    (hb : w.addr + w.bytes.length ≤ contents.length) {x : Bool} (hx : w.loc ≠ sbLoc x) :
    superblockAt c (ByteDisk.splice contents w.addr w.bytes) x = superblockAt c contents x := by
  have := superblockAt_other (c := c) (p := []) (.inl rfl) hv (by simpa using hb) hx
  rwa [List.append_nil] at this

theorem superblockAt_same {contents : List UInt8} {w : Data}
    (hb : w.addr + w.bytes.length ≤ contents.length) {x : Bool} (hx : w.loc = sbLoc x) :
    superblockAt c (ByteDisk.splice contents w.addr w.bytes) x = c.superblock w.bytes := by
  unfold superblockAt
  have k : (sbLoc x).addr + (sbLoc x).len ≤ contents.length := by rw [← hx]; exact hb
  rw [splice_length hb, if_pos k, read_eq (by rw [splice_length hb]; exact k), byteOf_splice hb, ← hx,
    put_same]

/-- The disk writes. -/
theorem step_write (h : DSim c d E bd jd) (hs : Safe bd jd) {id : ReqId} {w : Data}
    (hw : d.reqWrites id = some w) (hb : w.addr + (d.full id w).bytes.length ≤ d.contents.length) :
    ∃ jd', (jd' = jd ∨ JournalDisk.Internal jd jd') ∧ DSim c { d with
      reqWrites := d.reqWrites.remove id
      respWrites := d.respWrites.insert id w.loc
      contents := ByteDisk.splice d.contents w.addr (d.full id w).bytes } E bd jd' := by
  have same : ∀ x, w.loc = sbLoc x → superblockAt c
      (ByteDisk.splice d.contents w.addr (d.full id w).bytes) x = c.superblock w.bytes := by
    intro x hx
    have e : d.pads id = [] := (h.over.size id w hw).whole (by
      rw [show w.bytes.length = w.loc.len from rfl, hx]; cases x <;> rfl)
    unfold ByteDisk.State.full at hb ⊢
    rw [e, List.append_nil] at hb ⊢
    exact superblockAt_same hb hx
  have other : ∀ x, w.loc ≠ sbLoc x → superblockAt c
      (ByteDisk.splice d.contents w.addr (d.full id w).bytes) x = superblockAt c d.contents x :=
    fun x hx => superblockAt_other (h.over.size id w hw) (h.sane.wv _ _ (wl_req hw)) hb hx
  have he := wl_process (cs := ByteDisk.splice d.contents w.addr (d.full id w).bytes) hw
  have hv := h.sane.wv _ _ (wl_req hw)
  have hq := h.sane.wdis id (by rw [hw]; simp)
  have hsane : Sane c { d with
      reqWrites := d.reqWrites.remove id
      respWrites := d.respWrites.insert id w.loc
      contents := ByteDisk.splice d.contents w.addr (d.full id w).bytes } := by
    refine ⟨h.sane.rv, ?_, ?_, ?_, h.sane.rdis, ?_⟩
    · intro i l hi; rw [he] at hi; exact h.sane.wv _ _ hi
    · intro i l hi; rw [he] at hi; exact h.sane.wpos _ _ hi
    · intro i x hi
      dsimp only at hi
      by_cases e : i = id
      · subst e; rw [PMap.remove_same] at hi; cases hi
      · rw [PMap.remove_other _ e] at hi; exact h.sane.wsb _ _ hi
    · intro i hi
      dsimp only at hi ⊢
      by_cases e : i = id
      · subst e; rw [PMap.remove_same] at hi; exact absurd rfl hi
      · rw [PMap.remove_other _ e] at hi; rw [PMap.insert_other _ _ e]; exact h.sane.wdis i hi
  have hblk : bd = blk c { d with
      reqWrites := d.reqWrites.remove id
      respWrites := d.respWrites.insert id w.loc
      contents := ByteDisk.splice d.contents w.addr (d.full id w).bytes } E := by
    rw [h.block]; unfold blk; rw [he]; rfl
  have hover := h.over.done hw hb (rw := d.respWrites.insert id w.loc)
  by_cases hsb : ∃ x, w.loc = sbLoc x
  · obtain ⟨x, hx⟩ := hsb
    obtain ⟨sb, hsb⟩ := Option.ne_none_iff_exists'.mp (h.sane.wsb id w hw x hx)
    have hin : jd.writeSb x = some (id, sb) := (h.journal.writeSb x id sb).mpr (.inl ⟨w, hw, hx, hsb⟩)
    refine ⟨{ jd with sb := setAt jd.sb x (some sb) }, .inr (.process hin), ⟨hblk, ⟨h.journal.readSb,
      h.journal.readJ, ?_, ?_, ?_, h.journal.journal⟩, hsane⟩, hover, h.chk⟩
    · intro y i b
      show jd.writeSb y = some (i, b) ↔ _
      dsimp only
      by_cases ey : y = x
      · subst ey
        rw [hin, same _ hx, hsb]
        by_cases e : i = id
        · subst e
          rw [PMap.remove_same, PMap.insert_same, hx]
          simp
        · rw [PMap.remove_other _ e, PMap.insert_other _ _ e]
          constructor
          · intro hc; cases hc; exact absurd rfl e
          · rintro (⟨z, z1, z2, z3⟩ | ⟨z1, z2⟩)
            · have := (h.journal.writeSb y i b).mpr (.inl ⟨z, z1, z2, z3⟩)
              rw [hin] at this; exact this
            · obtain ⟨b', hb'⟩ := Option.ne_none_iff_exists'.mp (hs.sbs y)
              have := (h.journal.writeSb y i b').mpr (.inr ⟨z1, by rw [← h.journal.sb]; exact hb'⟩)
              rw [hin] at this; cases this; exact absurd rfl e
      · have hne : w.loc ≠ sbLoc y := fun hc => ey (sbLoc_inj (hc.symm.trans hx))
        rw [other _ hne, h.journal.writeSb]
        by_cases e : i = id
        · subst e
          rw [PMap.remove_same, PMap.insert_same, hw, hq]
          simp [hne]
        · rw [PMap.remove_other _ e, PMap.insert_other _ _ e]
    · rw [he]; exact h.journal.writeJ
    · funext y
      show setAt jd.sb x (some sb) y = _
      unfold setAt
      by_cases ey : y = x
      · subst ey; rw [if_pos rfl, same _ hx, hsb]
      · have hne : w.loc ≠ sbLoc y := fun hc => ey (sbLoc_inj (hc.symm.trans hx))
        rw [if_neg ey, other _ hne, h.journal.sb]
  · have hne : ∀ x, w.loc ≠ sbLoc x := fun x e => hsb ⟨x, e⟩
    refine ⟨jd, .inl rfl, ⟨hblk, ⟨h.journal.readSb, h.journal.readJ, ?_, ?_, ?_, h.journal.journal⟩,
      hsane⟩, hover, h.chk⟩
    · intro y i b
      dsimp only
      rw [other _ (hne y), h.journal.writeSb]
      by_cases e : i = id
      · subst e
        rw [PMap.remove_same, PMap.insert_same, hw, hq]
        simp [hne]
      · rw [PMap.remove_other _ e, PMap.insert_other _ _ e]
    · rw [he]; exact h.journal.writeJ
    · funext y; rw [other _ (hne y), h.journal.sb]

/-- A write is half done. -/
theorem step_tear (h : DSim c d E bd jd) {id : ReqId} {w : Data} (hw : d.reqWrites id = some w)
    (hlong : 4096 < w.bytes.length) {cs : List UInt8} (hlen : cs.length = d.contents.length)
    (hc : ∀ i, ¬ ByteDisk.Covers (d.full id w) i → cs[i]? = d.contents[i]?) :
    DSim c { d with contents := cs } E bd jd := by
  have hv := h.sane.wv _ _ (wl_req hw)
  have hsb : superblockAt c cs = superblockAt c d.contents := by
    funext x
    have hx : w.loc ≠ sbLoc x := by
      intro e
      have : w.loc.len = 4096 := by rw [e]; cases x <;> rfl
      have e2 : w.loc.len = w.bytes.length := rfl
      omega
    unfold superblockAt
    rw [hlen]
    by_cases k : (sbLoc x).addr + (sbLoc x).len ≤ d.contents.length
    · rw [if_pos k, if_pos k, read_eq (by rw [hlen]; exact k), read_eq k]
      congr 1
      apply bytesAt_congr
      intro i h1 h2
      unfold byteOf
      rw [hc i]
      rintro ⟨h3, h4⟩
      refine sbLoc_disjoint hv hx (overlap_full (h.over.size id w hw) hv (.sb x) ?_)
      unfold overlap Data.loc
      unfold ByteDisk.State.full at h3 h4
      dsimp only at h3 h4 ⊢
      omega
    · rw [if_neg k, if_neg k]
  refine ⟨⟨h.block, ⟨h.journal.readSb, h.journal.readJ, fun y i b => ?_, h.journal.writeJ, ?_, h.journal.journal⟩,
    ⟨h.sane.rv, h.sane.wv, h.sane.wpos, h.sane.wsb, h.sane.rdis, h.sane.wdis⟩⟩, h.over.tear hw hc, h.chk⟩
  · dsimp only
    rw [hsb]
    exact h.journal.writeSb y i b
  · show jd.sb = superblockAt c cs
    rw [hsb, h.journal.sb]

theorem journalDisk_journal (c : Codec Node) (cs : List UInt8) :
    (journalDisk c cs).journal = journalBlockAt c (byteOf cs) := by
  unfold journalDisk
  generalize journalBlockAt c (byteOf cs) = f
  rfl

/-- A disk with nothing in flight. -/
theorem quiet_sim (c : Codec Node) {d : ByteDisk.State} (h : ByteDisk.Init d) :
    DSim c d (byteOf d.contents) (blockDisk c (byteOf d.contents)) (journalDisk c d.contents) := by
  obtain ⟨r1, w1, r2, w2, cs, ps⟩ := d
  obtain ⟨h1, h2, h3, h4⟩ := h
  dsimp only at *
  subst h1 h2 h3 h4
  refine ⟨⟨rfl, ⟨?_, rfl, ?_, rfl, rfl, fun p _ => by
    rw [journalDisk_journal]⟩, ⟨?_, ?_, ?_, ?_, ?_, ?_⟩⟩, ⟨?_, fun _ _ => rfl, ?_⟩, ?_⟩
  · intro w id; exact ⟨fun h => h.elim, fun h => by cases h⟩
  · intro w id sb
    constructor
    · intro h; cases h
    · rintro (⟨x, hx, _⟩ | ⟨hx, _⟩) <;> cases hx
  · intro id l h; cases h
  · intro id l h; cases h
  · intro id l h; cases h
  · intro id l h; cases h
  · intro id h; rfl
  · intro id h; rfl
  · intro id l h; cases h
  · intro id l h; cases h
  · intro id l h; cases h

/-- A crash of the disk of bytes is one of the two disks. -/
theorem step_crash (h : DSim c d E bd jd) :
    BlockDisk.Crash bd (blockDisk c (byteOf d.contents)) ∧
      JournalDisk.Crash jd (journalDisk c d.contents) ∧
      DSim c (ByteDisk.crash d) (byteOf d.contents) (blockDisk c (byteOf d.contents))
        (journalDisk c d.contents) := by
  refine ⟨⟨rfl, rfl, rfl, rfl, ?_, ?_⟩, ⟨⟨fun _ _ h => h, rfl, fun _ => rfl, rfl⟩, h.journal.sb.symm, ?_⟩,
    quiet_sim c ⟨rfl, rfl, rfl, rfl⟩⟩
  · intro l x hx hn
    rw [h.block] at hx hn
    simp only [blk, blockDisk] at hx hn ⊢
    by_cases k : ValidTableLoc l
    · rw [if_pos k] at hx ⊢
      rw [← h.over.quiet (l := l) (.table k)]
      · exact hx
      · intro id w hw
        refine ⟨h.sane.wv _ _ (wl_req hw), fun ho => ?_⟩
        have k' := (overlap_kind (.table k) (h.sane.wv _ _ (wl_req hw)) (overlap_symm ho)).2.2.1 k
        exact hn id w.loc (sel_some (wl_req hw) (kT_some.mpr ⟨k', rfl⟩)) (overlap_symm ho)
    · rw [if_neg k] at hx; cases hx
  · intro l x hx hn
    rw [h.block] at hx hn
    simp only [blk, blockDisk] at hx hn ⊢
    by_cases k : ValidNodeLoc l
    · rw [if_pos k] at hx ⊢
      rw [← h.over.quiet (l := l) (.node k)]
      · exact hx
      · intro id w hw
        refine ⟨h.sane.wv _ _ (wl_req hw), fun ho => ?_⟩
        have k' := (overlap_kind (.node k) (h.sane.wv _ _ (wl_req hw)) (overlap_symm ho)).2.2.2 k
        exact hn id w.loc (sel_some (wl_req hw) (kN_some.mpr ⟨k', rfl⟩)) (overlap_symm ho)
    · rw [if_neg k] at hx; cases hx
  · intro i hi hn
    rw [h.journal.journal i hi, journalDisk_journal]
    unfold journalBlockAt
    rw [h.over.quiet (.journal (point_valid hi))]
    intro id w hw
    refine ⟨h.sane.wv _ _ (wl_req hw), fun ho => ?_⟩
    have hv := h.sane.wv _ _ (wl_req hw)
    have k' := (overlap_kind (.journal (point_valid hi)) hv (overlap_symm ho)).2.1 (point_valid hi)
    obtain ⟨a, n, b1, b2, b3, b4, b5⟩ := journal_blocks k'
    refine hn id (intervalOf w.loc) ?_ (.inl ?_)
    · rw [h.journal.writeJ]; exact sel_some (wl_req hw) (kJ_some.mpr ⟨k', rfl⟩)
    · rw [b3]
      obtain ⟨o1, o2⟩ := ho
      rw [b1, b2] at o1
      rw [b1] at o2
      have e1 : journalPoint i = 8192 + i * 4096 := by unfold journalPoint journalStartAddr; omega
      dsimp only at o1 o2
      rw [e1] at o1 o2
      show a ≤ i ∧ i < a + n
      omega

end Verif.Kv.ByteSystem
