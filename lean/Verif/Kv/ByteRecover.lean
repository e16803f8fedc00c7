import Verif.Kv.ByteProof
/-
A store on bytes can be opened, if reads can succeed, and not otherwise. No code is modelled here.
-/
namespace Verif.Kv.ByteSystem
open ByteDisk (Op Data AllCheck Checks)
open BlockSystem (Label Inv)
open JournalCache (select part WFSb fullRange)
open KvSystem (graphs)
variable {Node : Type} {A : App Node} {c : Codec Node}

/-- A disk with nothing in flight. -/
def still (cs : List UInt8) : ByteDisk.State := ⟨.empty, .empty, .empty, .empty, cs, ByteDisk.noPads⟩

/-! ### What requests are -/

theorem sbLoc_two : sbLoc true ≠ superblock1Loc := by decide

theorem op_reqSb (c : Codec Node) (id : ReqId) (w : Bool) :
    blockOp c (.reqRead id (sbLoc w)) = .none ∧ journalOp c (.reqRead id (sbLoc w)) = .reqReadSb id w := by
  obtain ⟨_, h2, h3⟩ := sb_not (l := sbLoc w) rfl
  refine ⟨by simp only [blockOp, if_neg h2, if_neg h3], ?_⟩
  cases w
  · simp only [journalOp]; rw [if_pos (show sbLoc false = superblock1Loc from rfl)]
  · simp only [journalOp]
    rw [if_neg sbLoc_two, if_pos (show sbLoc true = superblock2Loc from rfl)]

theorem op_respSb (c : Codec Node) (id : ReqId) (w : Bool) {r : Data} (h : r.loc = sbLoc w) :
    blockOp c (.respRead id r) = .none ∧
      journalOp c (.respRead id r) = .respReadSb id w (c.superblock r.bytes) := by
  obtain ⟨_, h2, h3⟩ := sb_not h
  refine ⟨by simp only [blockOp, if_neg h2, if_neg h3], ?_⟩
  cases w
  · simp only [journalOp]; rw [if_pos (show r.loc = superblock1Loc from h)]
  · simp only [journalOp]
    rw [if_neg (by rw [h]; exact sbLoc_two), if_pos (show r.loc = superblock2Loc from h)]

theorem op_reqJ (c : Codec Node) (id : ReqId) {l : Loc} (h : ValidJournalLoc l) :
    blockOp c (.reqRead id l) = .none ∧ journalOp c (.reqRead id l) = .reqReadJ id (intervalOf l) := by
  have h1 := sb_first fun w e => (sb_not e).1 h
  refine ⟨?_, ?_⟩
  · simp only [blockOp, if_neg fun k => node_not_journal k h, if_neg fun k => table_not_journal k h]
  · simp only [journalOp, if_neg h1.1, if_neg h1.2, if_pos h]

theorem op_respJ (c : Codec Node) (id : ReqId) {r : Data} (h : ValidJournalLoc r.loc) :
    blockOp c (.respRead id r) = .none ∧ journalOp c (.respRead id r) = .respReadJ id (c.range r.bytes) := by
  have h1 := sb_first fun w e => (sb_not e).1 h
  refine ⟨?_, ?_⟩
  · simp only [blockOp, if_neg fun k => node_not_journal k h, if_neg fun k => table_not_journal k h]
  · simp only [journalOp, if_neg h1.1, if_neg h1.2, if_pos h]

theorem op_reqT (c : Codec Node) (id : ReqId) {l : Loc} (h : ValidTableLoc l) :
    blockOp c (.reqRead id l) = .reqReadTable id l ∧ journalOp c (.reqRead id l) = .none := by
  have h1 := sb_first fun w e => (sb_not e).2.1 h
  refine ⟨?_, ?_⟩
  · simp only [blockOp, if_neg fun k => node_not_table k h, if_pos h]
  · simp only [journalOp, if_neg h1.1, if_neg h1.2, if_neg (table_not_journal h)]

theorem op_respT (c : Codec Node) (id : ReqId) {r : Data} (h : ValidTableLoc r.loc) :
    blockOp c (.respRead id r) = .respReadTable id (c.table r.bytes) ∧
      journalOp c (.respRead id r) = .none := by
  have h1 := sb_first fun w e => (sb_not e).2.1 h
  refine ⟨?_, ?_⟩
  · simp only [blockOp, if_neg fun k => node_not_table k h, if_pos h]
  · simp only [journalOp, if_neg h1.1, if_neg h1.2, if_neg (table_not_journal h)]

theorem op_reqN (c : Codec Node) (id : ReqId) {l : Loc} (h : ValidNodeLoc l) :
    blockOp c (.reqRead id l) = .reqReadNode id l ∧ journalOp c (.reqRead id l) = .none := by
  have h1 := sb_first fun w e => (sb_not e).2.2 h
  refine ⟨?_, ?_⟩
  · simp only [blockOp, if_pos h]
  · simp only [journalOp, if_neg h1.1, if_neg h1.2, if_neg (node_not_journal h)]

theorem op_respN (c : Codec Node) (id : ReqId) {r : Data} (h : ValidNodeLoc r.loc) :
    blockOp c (.respRead id r) = .respReadNode id (c.node r.bytes) ∧
      journalOp c (.respRead id r) = .none := by
  have h1 := sb_first fun w e => (sb_not e).2.2 h
  refine ⟨?_, ?_⟩
  · simp only [blockOp, if_pos h]
  · simp only [journalOp, if_neg h1.1, if_neg h1.2, if_neg (node_not_journal h)]

/-! ### Runs -/

/-- A read that succeeds: a request, the disk, an answer. -/
theorem read_run {ok : Node → Prop} {loc : Loc} {cs : List UInt8} {b b1 b2 : BlockCache.State Node}
    {j j1 j2 : JournalCache.State} {l : Loc} {id : ReqId} {v1 v2 : VOp} {s1 s2 : BlockCache.Step Node}
    (hl : ValidLoc l) (hlen : l.addr + l.len ≤ cs.length)
    (h1 : BlockCache.Next A b (blockOp c (.reqRead id l)) v1 s1 b1)
    (k1 : JournalCache.Next j (journalOp c (.reqRead id l)) v1 j1)
    (h2 : BlockCache.Next A b1 (blockOp c (.respRead id ⟨l.addr, bytesAt (byteOf cs) l⟩)) v2 s2 b2)
    (k2 : JournalCache.Next j1 (journalOp c (.respRead id ⟨l.addr, bytesAt (byteOf cs) l⟩)) v2 j2) :
    (machine A c ok loc true).Run ⟨b, j, still cs⟩ [some ⟨v1, some s1⟩, none, some ⟨v2, some s2⟩]
      ⟨b2, j2, still cs⟩ := by
  have e : ByteDisk.read cs l = bytesAt (byteOf cs) l := read_eq hlen
  have hloc : (⟨l.addr, bytesAt (byteOf cs) l⟩ : Data).loc = l := by
    unfold Data.loc; dsimp only; rw [bytesAt_length]
  have c1 : (PMap.insert .empty id l).remove id = (.empty : PMap ReqId Loc) := by
    funext x; simp [PMap.insert, PMap.remove, PMap.empty]
  have c2 : ∀ r : Data, (PMap.insert .empty id r).remove id = (.empty : PMap ReqId Data) := by
    intro r; funext x; simp [PMap.insert, PMap.remove, PMap.empty]
  have st : Next A c true ⟨b, j, still cs⟩ (some ⟨v1, some s1⟩)
      ⟨b1, j1, ⟨PMap.insert .empty id l, .empty, .empty, .empty, cs, ByteDisk.noPads⟩⟩ :=
    Next.machine (CacheNext.valid (dop := .reqRead id l) hl h1 k1)
      (ByteDisk.Next.recvRead (d := still cs) rfl rfl)
  refine .cons st ?_
  refine .cons (s' := ⟨b1, j1, ⟨.empty, .empty, PMap.insert .empty id ⟨l.addr, bytesAt (byteOf cs) l⟩,
    .empty, cs, ByteDisk.noPads⟩⟩) ?_ ?_
  · have := ByteDisk.Internal.processRead (crc := c.crc) (kind := true)
      (d := ⟨PMap.insert .empty id l, .empty, .empty, .empty, cs, ByteDisk.noPads⟩) rfl (PMap.insert_same _ _ _) hlen
    dsimp only at this
    rw [e, c1] at this
    exact Next.disk this
  · refine .cons (s' := ⟨b2, j2, still cs⟩) ?_ (.nil _)
    have := ByteDisk.Next.ackRead (kind := true) (id := id) (r := ⟨l.addr, bytesAt (byteOf cs) l⟩)
      (d := ⟨.empty, .empty, PMap.insert .empty id ⟨l.addr, bytesAt (byteOf cs) l⟩, .empty, cs, ByteDisk.noPads⟩)
      (PMap.insert_same _ _ _)
    dsimp only at this
    rw [c2] at this
    exact Next.machine (CacheNext.valid (c := c) (by show ValidLoc _; rw [hloc]; exact hl) h2 k2) this

/-- No step of the trace shows. -/
def Invisible (tr : List (Option (Label Node))) : Prop := ∀ l ∈ tr, ui l = .noop

theorem Invisible.append {t1 t2 : List (Option (Label Node))} (h1 : Invisible t1) (h2 : Invisible t2) :
    Invisible (t1 ++ t2) := fun l hl => (List.mem_append.mp hl).elim (h1 l) (h2 l)

theorem invisible_three {v1 v2 : VOp} {s1 s2 : BlockCache.Step Node} (h1 : v1.ui = .noop)
    (h2 : v2.ui = .noop) : Invisible [some ⟨v1, some s1⟩, none, some ⟨v2, some s2⟩] := by
  intro l hl
  simp only [List.mem_cons, List.not_mem_nil, or_false] at hl
  rcases hl with rfl | rfl | rfl
  · exact h1
  · rfl
  · exact h2

theorem setAt_back {α : Type} (g : Bool → Option α) (w : Bool) (x : Option α) (h : g w = none) :
    setAt (setAt g w x) w none = g := by
  funext y; unfold setAt
  by_cases e : y = w
  · subst e; simp only [if_true, h]
  · simp only [if_neg e]

theorem loc_of_bytes {E : Nat → UInt8} {l : Loc} : (⟨l.addr, bytesAt E l⟩ : Data).loc = l := by
  unfold Data.loc; dsimp only; rw [bytesAt_length]

/-- The location of a journal interval. -/
theorem interval_loc {v : Interval} (h1 : v.start < numJournalBlocks) (h2 : v.start + v.len ≤ numJournalBlocks) :
    ValidJournalLoc ⟨journalPoint v.start, 4096 * v.len⟩ ∧
      intervalOf ⟨journalPoint v.start, 4096 * v.len⟩ = v := by
  obtain ⟨s, n⟩ := v
  dsimp only at *
  have e : journalPoint s = 8192 + s * 4096 := by unfold journalPoint journalStartAddr; omega
  constructor
  · unfold ValidJournalLoc
    unfold numJournalBlocks at *
    dsimp only
    rw [e]
    omega
  · unfold intervalOf journalStartAddr
    dsimp only
    rw [e, show 8192 + s * 4096 - 2 * 4096 = s * 4096 by omega, Nat.mul_div_cancel _ (by omega),
      Nat.mul_div_cancel_left _ (by omega)]

/-- One part of the journal is read. -/
theorem part_run {ok : Node → Prop} {loc : Loc} {cs : List UInt8} {b : BlockCache.State Node}
    {o : JournalCache.Other} {z : List Block}
    (hcs : table2Addr + tableMaxLength ≤ cs.length)
    (hs : o.sb.start < numJournalBlocks) (hl : o.sb.len ≤ numJournalBlocks)
    (h : blocksAt (journalDisk c cs).journal o.sb.start o.sb.len = some z) (hr : ∀ w, o.read w = none)
    (w : Bool) (hg : o.got w = none) :
    ∃ tr bs, (machine A c ok loc true).Run ⟨b, .other o, still cs⟩ tr
        ⟨b, .other { o with got := setAt o.got w bs }, still cs⟩ ∧ Invisible tr ∧
      (part o.sb w ≠ none → bs ≠ none) ∧
      (∀ x, bs = some x → ∃ v, part o.sb w = some v ∧
        blocksAt (journalDisk c cs).journal v.start v.len = some x) := by
  cases hp : part o.sb w with
  | none =>
    refine ⟨[], none, ?_, (fun l hl => absurd hl (List.not_mem_nil)), fun hc => absurd rfl hc,
      (fun x hx => by cases hx)⟩
    have : setAt o.got w none = o.got := by
      funext x; unfold setAt; split
      · rename_i e; rw [e, hg]
      · rfl
    rw [this]
    exact .nil _
  | some v =>
    obtain ⟨h1, h2, bs, hbs⟩ := JournalSystem.part_readable hs hl h w v hp
    obtain ⟨hv, hi⟩ := interval_loc h1 h2
    have hb := journal_bounds hv
    have hlen : (⟨journalPoint v.start, 4096 * v.len⟩ : Loc).addr +
        (⟨journalPoint v.start, 4096 * v.len⟩ : Loc).len ≤ cs.length := by
      unfold table2Addr at hcs; omega
    have hbs' : c.range (bytesAt (byteOf cs) ⟨journalPoint v.start, 4096 * v.len⟩) = some bs := by
      rw [← blocks_range c (byteOf cs) v.len v.start h2, ← journalDisk_journal]; exact hbs
    obtain ⟨q1, q2⟩ := op_reqJ c 0 hv
    obtain ⟨q3, q4⟩ := op_respJ c 0 (r := ⟨journalPoint v.start, bytesAt (byteOf cs)
      ⟨journalPoint v.start, 4096 * v.len⟩⟩) (by
        have := loc_of_bytes (E := byteOf cs) (l := ⟨journalPoint v.start, 4096 * v.len⟩)
        rw [this]; exact hv)
    have e1 : setAt (fun x => if x = w then some 0 else if o.read x = some 0 then none else o.read x)
        w none = o.read := by
      funext x; unfold setAt
      by_cases e : x = w
      · rw [if_pos e, hr]
      · simp [if_neg e, hr]
    have hend : JournalCache.Next (.other { o with
          read := (fun x => if x = w then some 0 else if o.read x = some 0 then none else o.read x) })
        (.respReadJ 0 (some bs)) .journalInternal (.other { o with got := setAt o.got w (some bs) }) := by
      have := JournalCache.Next.pageJournalResp (o := { o with
          read := (fun x => if x = w then some 0 else if o.read x = some 0 then none else o.read x) })
        (w := w) (id := 0) (bs := bs) (by simp)
      simp only [e1] at this
      exact this
    refine ⟨_, some bs, read_run (l := ⟨journalPoint v.start, 4096 * v.len⟩) (id := 0) (.journal hv) hlen
      (v1 := .journalInternal) (v2 := .journalInternal) (s1 := .noop) (s2 := .noop) (b1 := b)
      (j1 := .other { o with
          read := (fun x => if x = w then some 0 else if o.read x = some 0 then none else o.read x) })
      (by rw [q1]; exact .noop (.inr (.inl rfl)) (.inl rfl))
      (by rw [q2, hi]; exact .pageJournal hs hl hp (hr w) hg)
      (by dsimp only; rw [q3]; exact .noop (.inr (.inl rfl)) (.inl rfl))
      (by dsimp only; rw [q4]; dsimp only; rw [hbs']; exact hend),
      invisible_three rfl rfl, fun _ => by simp, fun x hx => by cases hx; exact ⟨v, rfl, hbs⟩⟩

/-- A store is opened. -/
theorem open_run {ok : Node → Prop} {loc : Loc} {cs : List UInt8} {f : Bool → Superblock} {tb : Table}
    {z : List Block} {replay : List Entry}
    (hcs : table2Addr + tableMaxLength ≤ cs.length)
    (hsb : ∀ w, superblockAt c cs w = some (f w)) (hwf : ∀ w, WFSb (f w))
    (hz : blocksAt (journalDisk c cs).journal (f (select f)).start (f (select f)).len = some z)
    (hp : parseRange z = some replay)
    (ht : c.table (bytesAt (byteOf cs) (f (select f)).loc) = some tb) (htw : BlockCache.WFComplete tb)
    (htd : BlockCache.Distinct tb) :
    ∃ tr, (machine A c ok loc true).Run ⟨.unready, JournalCache.start, still cs⟩ tr
        ⟨.ready ⟨tb, none, tb, (f (select f)).loc, none, none, .empty, .empty, .empty⟩,
          .ready {
            frozenLoc := none, isFrozen := false, frozenPos := 0, sbWrite := none, memFrozen := []
            mem := [], writes := fun _ => False, written := (f (select f)).len, replay := replay
            sb := f (select f), which := select f, commit := .none, newSb := none, syncReqs := .empty },
          still cs⟩ ∧ Invisible tr := by
  have hvt := (hwf (select f)).2.2
  have rd : ∀ (l : JournalCache.Loading) (w : Bool), l.read w = none → l.got w = .unfinished →
      (machine A c ok loc true).Run ⟨.unready, .loading l, still cs⟩
        [some ⟨.journalInternal, some .noop⟩, none, some ⟨.journalInternal, some .noop⟩]
        ⟨.unready, .loading { l with got := setAt l.got w (.success (f w)) }, still cs⟩ := by
    intro l w h1 h2
    obtain ⟨k1, k2⟩ := superblockAt_some (c := c) (contents := cs) (w := w) (by rw [hsb w]; simp)
    rw [hsb w] at k2
    obtain ⟨q1, q2⟩ := op_reqSb c 0 w
    obtain ⟨q3, q4⟩ := op_respSb c 0 w (r := ⟨(sbLoc w).addr, bytesAt (byteOf cs) (sbLoc w)⟩) loc_of_bytes
    have hend := JournalCache.Next.pageSbOk (l := { l with read := setAt l.read w (some 0) }) (w := w)
      (id := 0) (sb := f w) (by simp) (hwf w)
    simp only [setAt_back l.read w _ h1] at hend
    exact read_run (l := sbLoc w) (id := 0) (.sb w) k1
      (j1 := .loading { l with read := setAt l.read w (some 0) })
      (by rw [q1]; exact .noop (.inr (.inl rfl)) (.inl rfl))
      (by rw [q2]; exact .pageSb h1 h2)
      (by rw [q3]; exact .noop (.inr (.inl rfl)) (.inl rfl))
      (by rw [q4]; dsimp only; rw [← k2]; exact hend)
  have r1 := rd ⟨fun _ => none, fun _ => .unfinished, .empty⟩ false rfl rfl
  have r2 := rd ⟨fun _ => none, setAt (fun _ => .unfinished) false (.success (f false)), .empty⟩ true
    rfl rfl
  have r3 : (machine A c ok loc true).Run ⟨.unready, .loading ⟨fun _ => none,
      setAt (setAt (fun _ => .unfinished) false (.success (f false))) true (.success (f true)), .empty⟩,
        still cs⟩
      [some ⟨.sendPersistentLoc (f (select f)).loc, some .receiveLoc⟩]
      ⟨.loading (f (select f)).loc none,
        .other ⟨f (select f), select f, fun _ => none, fun _ => none, .empty⟩, still cs⟩ :=
    .cons (.machine (CacheNext.valid (dop := .none) trivial (.receiveLoc hvt)
      (.finishSb (f := f) (by intro w; cases w <;> rfl))) .stutter) (.nil _)
  have hw := hwf (select f)
  obtain ⟨t1, b1, r4, i1, a1, a2⟩ := part_run (A := A) (ok := ok) (loc := loc)
    (b := .loading (f (select f)).loc none)
    (o := ⟨f (select f), select f, fun _ => none, fun _ => none, .empty⟩) hcs hw.1 hw.2.1 hz
    (fun _ => rfl) false rfl
  obtain ⟨t2, b2, r5, i2, a3, a4⟩ := part_run (A := A) (ok := ok) (loc := loc)
    (b := .loading (f (select f)).loc none)
    (o := ⟨f (select f), select f, fun _ => none, setAt (fun _ => none) false b1, .empty⟩) hcs
    hw.1 hw.2.1 hz (fun _ => rfl) true rfl
  have hgot : ∀ w, part (f (select f)) w ≠ none →
      setAt (setAt (fun _ => none) false b1) true b2 w ≠ none := by
    intro w hw
    cases w
    · exact a1 hw
    · exact a3 hw
  have hinv : JournalSystem.InvOther ⟨f (select f), select f, fun _ => none,
      setAt (setAt (fun _ => none) false b1) true b2, .empty⟩ (journalDisk c cs) f := by
    refine ⟨rfl, rfl, fun _ _ h => h, fun _ => rfl, rfl, ?_, ?_, ?_, ?_⟩
    · intro i x hx; cases hx
    · intro w w' i hx; cases hx
    · intro w i hx; cases hx
    · intro w x hx
      cases w
      · exact a2 x hx
      · exact a4 x hx
  have hfr := JournalSystem.full_range hinv hw.1 hw.2.1 hgot
  have hz' := hz
  rw [show blocksAt (journalDisk c cs).journal (f (select f)).start (f (select f)).len = _ from hfr] at hz'
  have r6 : (machine A c ok loc true).Run ⟨.loading (f (select f)).loc none, .other ⟨f (select f), select f,
      fun _ => none, setAt (setAt (fun _ => none) false b1) true b2, .empty⟩, still cs⟩
      [some ⟨.journalInternal, some .noop⟩] ⟨.loading (f (select f)).loc none, .ready {
            frozenLoc := none, isFrozen := false, frozenPos := 0, sbWrite := none, memFrozen := []
            mem := [], writes := fun _ => False, written := (f (select f)).len, replay := replay
            sb := f (select f), which := select f, commit := .none, newSb := none, syncReqs := .empty },
          still cs⟩ :=
    .cons (.machine (CacheNext.valid (dop := .none) trivial (.noop (.inr (.inl rfl)) (.inl rfl))
      (.finishOther (p := 0) (replay := replay) hw.1 hw.2.1 hgot
        (by rw [Option.some.inj hz']; exact hp))) .stutter) (.nil _)
  obtain ⟨q1, q2⟩ := op_reqT c 0 hvt
  obtain ⟨q3, q4⟩ := op_respT c 0 (r := ⟨(f (select f)).loc.addr, bytesAt (byteOf cs) (f (select f)).loc⟩)
    (by rw [loc_of_bytes]; exact hvt)
  have hb := table_bounds hvt
  have r7 := read_run (A := A) (c := c) (ok := ok) (loc := loc) (cs := cs) (l := (f (select f)).loc) (id := 0)
    (b := .loading (f (select f)).loc none) (b1 := .loading (f (select f)).loc (some 0))
    (b2 := .ready ⟨tb, none, tb, (f (select f)).loc, none, none, .empty, .empty, .empty⟩)
    (j := .ready {
            frozenLoc := none, isFrozen := false, frozenPos := 0, sbWrite := none, memFrozen := []
            mem := [], writes := fun _ => False, written := (f (select f)).len, replay := replay
            sb := f (select f), which := select f, commit := .none, newSb := none, syncReqs := .empty })
    (v1 := .statesInternal) (v2 := .statesInternal) (s1 := .pageInTableReq) (s2 := .pageInTableResp)
    (.table hvt) (by omega)
    (by rw [q1]; exact .pageInTableReq)
    (by rw [q2]; exact .noop (.inr rfl) (.inl rfl))
    (by rw [q3]; dsimp only; rw [ht]; exact .pageInTableResp htw htd)
    (by rw [q4]; exact .noop (.inr rfl) (.inl rfl))
  refine ⟨_, ((r1.append r2).append r3).append (((r4.append r5).append r6).append r7), ?_⟩
  have one : ∀ {v : VOp} {s : Option (BlockCache.Step Node)}, v.ui = .noop →
      Invisible [some ⟨v, s⟩] := by
    intro v s h l hl
    rw [List.mem_singleton.mp hl]; exact h
  exact (((invisible_three rfl rfl).append (invisible_three rfl rfl)).append (one rfl)).append
    (((i1.append i2).append (one rfl)).append (invisible_three rfl rfl))

end Verif.Kv.ByteSystem
