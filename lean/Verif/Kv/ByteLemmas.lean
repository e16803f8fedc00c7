import Verif.Kv.ByteSystem
import Verif.Kv.JournalistRun
import Verif.Kv.JournalRing
/-
Locations and bytes: what overlaps what, what a write changes, how journal bytes cut into blocks. No code
is modelled here.
-/
namespace Verif.Kv
open ByteDisk ByteSystem

/-! ### Locations -/

theorem sb_bounds (w : Bool) : (sbLoc w).len = 4096 ∧ (sbLoc w).addr + (sbLoc w).len ≤ 2 * 4096 ∧
    ((sbLoc w).addr = if w then 4096 else 0) := by
  cases w <;> simp [sbLoc, superblock1Loc, superblock2Loc]

theorem table_bounds {l : Loc} (h : ValidTableLoc l) :
    table1Addr ≤ l.addr ∧ l.addr + l.len ≤ table2Addr + tableMaxLength := by
  obtain ⟨h1, h2, h3⟩ := h
  unfold ValidTableAddr table2Addr at h1
  unfold table2Addr
  omega

theorem node_bounds {l : Loc} (h : ValidNodeLoc l) : table2Addr + tableMaxLength ≤ l.addr := by
  obtain ⟨⟨h1, h2⟩, h3⟩ := h
  unfold nodeBlockSize minNodeBlockIndex superblockSize journalBlockSize nodeBlockSize at h2
  unfold table2Addr table1Addr
  unfold numJournalBlocks tableMaxLength at *
  omega

theorem journal_bounds {l : Loc} (h : ValidJournalLoc l) :
    2 * 4096 ≤ l.addr ∧ l.addr + l.len ≤ table1Addr := by
  obtain ⟨h1, h2, h3, h4, h5⟩ := h
  unfold table1Addr
  unfold numJournalBlocks at *
  omega

/-- `overlappingLocsSameType`, DiskLayout.i.dfy:201-215 -/
theorem overlap_kind {a b : Loc} (ha : ValidLoc a) (hb : ValidLoc b) (h : overlap a b) :
    (∀ w, a = sbLoc w → b = sbLoc w) ∧ (ValidJournalLoc a → ValidJournalLoc b) ∧
    (ValidTableLoc a → ValidTableLoc b) ∧ (ValidNodeLoc a → ValidNodeLoc b) := by
  have ht : table1Addr ≤ table2Addr + tableMaxLength := by unfold table2Addr; omega
  have h0 : 2 * 4096 ≤ table1Addr := by unfold table1Addr; omega
  have kinds : ∀ l, ValidLoc l → (∃ w, l = sbLoc w) ∨ ValidJournalLoc l ∨ ValidTableLoc l ∨
      ValidNodeLoc l := by
    rintro l (h | h | h)
    · exact .inl ⟨false, h⟩
    · exact .inl ⟨true, h⟩
    · exact .inr h
  obtain ⟨h1, h2⟩ := h
  have sbc : ∀ l w, l = sbLoc w → l.len = 4096 ∧ l.addr + l.len ≤ 2 * 4096 ∧
      l.addr = if w then 4096 else 0 := fun l w e => e ▸ sb_bounds w
  rcases kinds a ha with ⟨w, e⟩ | k | k | k <;> rcases kinds b hb with ⟨w', e'⟩ | k' | k' | k'
  · have : w = w' := by
      have q := sbc _ _ e; have q' := sbc _ _ e'
      cases w <;> cases w' <;> simp_all <;> omega
    subst this
    refine ⟨fun x hx => ?_, fun k => ?_, fun k => ?_, fun k => ?_⟩
    · rw [e', ← e, hx]
    · have := journal_bounds k; have := sbc _ _ e; omega
    · have := table_bounds k; have := sbc _ _ e; omega
    · have := node_bounds k; have := sbc _ _ e; omega
  all_goals first
    | have q := sbc _ _ e
    | have q := journal_bounds k
    | have q := table_bounds k
    | have q := node_bounds k
  all_goals first
    | have q' := sbc _ _ e'
    | have q' := journal_bounds k'
    | have q' := table_bounds k'
    | have q' := node_bounds k'
  all_goals first
    | omega
    | refine ⟨fun x hx => ?_, fun k0 => ?_, fun k0 => ?_, fun k0 => ?_⟩
  all_goals first
    | assumption
    | (exfalso; have q0 := sbc _ _ hx; omega)
    | (exfalso; have q0 := journal_bounds k0; omega)
    | (exfalso; have q0 := table_bounds k0; omega)
    | (exfalso; have q0 := node_bounds k0; omega)

theorem ValidLoc.sb (w : Bool) : ValidLoc (sbLoc w) := by
  cases w
  · exact .inl rfl
  · exact .inr (.inl rfl)
theorem ValidLoc.journal {l : Loc} (h : ValidJournalLoc l) : ValidLoc l := .inr (.inr (.inl h))
theorem ValidLoc.table {l : Loc} (h : ValidTableLoc l) : ValidLoc l := .inr (.inr (.inr (.inl h)))
theorem ValidLoc.node {l : Loc} (h : ValidNodeLoc l) : ValidLoc l := .inr (.inr (.inr (.inr h)))

/-- A location is of one kind. -/
inductive Kind (l : Loc) : Prop
  | sb (w : Bool) : l = sbLoc w → ¬ ValidJournalLoc l → ¬ ValidTableLoc l → ¬ ValidNodeLoc l → Kind l
  | journal : (∀ w, l ≠ sbLoc w) → ValidJournalLoc l → ¬ ValidTableLoc l → ¬ ValidNodeLoc l → Kind l
  | table : (∀ w, l ≠ sbLoc w) → ¬ ValidJournalLoc l → ValidTableLoc l → ¬ ValidNodeLoc l → Kind l
  | node : (∀ w, l ≠ sbLoc w) → ¬ ValidJournalLoc l → ¬ ValidTableLoc l → ValidNodeLoc l → Kind l

theorem table_not_journal {l : Loc} (h : ValidTableLoc l) : ¬ ValidJournalLoc l := fun k => by
  have := table_bounds h; have := journal_bounds k; have := h.2.1; omega

theorem node_not_table {l : Loc} (h : ValidNodeLoc l) : ¬ ValidTableLoc l := fun k => by
  have := node_bounds h; have := table_bounds k; have := k.2.1; omega

theorem node_not_journal {l : Loc} (h : ValidNodeLoc l) : ¬ ValidJournalLoc l := fun k => by
  have := node_bounds h; have := journal_bounds k
  have : 0 < tableMaxLength := by unfold tableMaxLength; omega
  unfold table2Addr at *; omega

theorem sb_not {l : Loc} {w : Bool} (h : l = sbLoc w) :
    ¬ ValidJournalLoc l ∧ ¬ ValidTableLoc l ∧ ¬ ValidNodeLoc l := by
  have q := sb_bounds w
  have h0 : 2 * 4096 ≤ table1Addr := by unfold table1Addr; omega
  subst h
  refine ⟨fun k => ?_, fun k => ?_, fun k => ?_⟩
  · have := journal_bounds k; omega
  · have := table_bounds k; omega
  · have := node_bounds k; unfold table2Addr at *; omega

theorem ValidLoc.kind {l : Loc} (h : ValidLoc l) : Kind l := by
  have key : ∀ w, l = sbLoc w → Kind l := fun w e => .sb w e (sb_not e).1 (sb_not e).2.1 (sb_not e).2.2
  rcases h with h | h | h | h | h
  · exact key false h
  · exact key true h
  · exact .journal (fun w e => (sb_not e).1 h) h (fun k => table_not_journal k h)
      (fun k => node_not_journal k h)
  · exact .table (fun w e => (sb_not e).2.1 h) (table_not_journal h) h (fun k => node_not_table k h)
  · exact .node (fun w e => (sb_not e).2.2 h) (node_not_journal h) (node_not_table h) h

theorem sbLoc_inj {w w' : Bool} (h : sbLoc w = sbLoc w') : w = w' := by
  cases w <;> cases w' <;> simp [sbLoc, superblock1Loc, superblock2Loc] at h ⊢

/-- The location of a journal block is valid. -/
theorem point_valid {p : Nat} (h : p < numJournalBlocks) : ValidJournalLoc ⟨journalPoint p, 4096⟩ := by
  unfold ValidJournalLoc journalPoint journalStartAddr
  unfold numJournalBlocks at *
  dsimp only
  omega

/-! ### Bytes -/

theorem bytesAt_length (E : Nat → UInt8) (l : Loc) : (bytesAt E l).length = l.len := by
  simp [bytesAt]

theorem bytesAt_get? (E : Nat → UInt8) (l : Loc) (i : Nat) :
    (bytesAt E l)[i]? = if i < l.len then some (E (l.addr + i)) else none := by
  simp only [bytesAt, List.getElem?_map]
  by_cases h : i < l.len
  · rw [List.getElem?_range h, if_pos h]; rfl
  · rw [List.getElem?_eq_none (by simpa using h), if_neg h]; rfl

theorem bytesAt_congr {E E' : Nat → UInt8} {l : Loc}
    (h : ∀ i, l.addr ≤ i → i < l.addr + l.len → E i = E' i) : bytesAt E l = bytesAt E' l := by
  apply List.ext_getElem?
  intro i
  rw [bytesAt_get?, bytesAt_get?]
  by_cases hi : i < l.len
  · rw [if_pos hi, if_pos hi, h _ (by omega) (by omega)]
  · rw [if_neg hi, if_neg hi]

theorem read_eq {contents : List UInt8} {l : Loc} (h : l.addr + l.len ≤ contents.length) :
    ByteDisk.read contents l = bytesAt (byteOf contents) l := by
  apply List.ext_getElem?
  intro i
  rw [bytesAt_get?, ByteDisk.read, List.getElem?_take]
  by_cases hi : i < l.len
  · rw [if_pos hi, if_pos hi, List.getElem?_drop, byteOf]
    obtain ⟨x, hx⟩ : ∃ x, contents[l.addr + i]? = some x :=
      ⟨_, List.getElem?_eq_getElem (show l.addr + i < contents.length by omega)⟩
    rw [hx]; rfl
  · rw [if_neg hi, if_neg hi]

theorem read_length {contents : List UInt8} {l : Loc} (h : l.addr + l.len ≤ contents.length) :
    (ByteDisk.read contents l).length = l.len := by rw [read_eq h, bytesAt_length]

/-- The bytes after a write. -/
def put (E : Nat → UInt8) (w : Data) : Nat → UInt8 := fun i =>
  if Covers w i then w.bytes[i - w.addr]?.getD 0 else E i

theorem put_same (E : Nat → UInt8) (w : Data) : bytesAt (put E w) w.loc = w.bytes := by
  apply List.ext_getElem?
  intro i
  rw [bytesAt_get?]
  by_cases hi : i < w.bytes.length
  · rw [if_pos (show i < w.loc.len from hi)]
    have : Covers w (w.loc.addr + i) := by unfold Covers Data.loc; dsimp only; omega
    rw [put, if_pos this]
    have e : w.loc.addr + i - w.addr = i := by unfold Data.loc; dsimp only; omega
    rw [e, List.getElem?_eq_getElem hi]; rfl
  · rw [if_neg (show ¬ i < w.loc.len from hi), List.getElem?_eq_none (by omega)]

theorem put_other {E : Nat → UInt8} {w : Data} {l : Loc} (h : ¬ overlap l w.loc) :
    bytesAt (put E w) l = bytesAt E l := by
  apply bytesAt_congr
  intro i h1 h2
  rw [put, if_neg]
  rintro ⟨h3, h4⟩
  apply h
  unfold overlap Data.loc
  dsimp only
  omega

theorem byteOf_splice {contents : List UInt8} {w : Data}
    (h : w.addr + w.bytes.length ≤ contents.length) :
    byteOf (ByteDisk.splice contents w.addr w.bytes) = put (byteOf contents) w := by
  funext i
  simp only [byteOf, ByteDisk.splice, put]
  have h1 : (contents.take w.addr).length = w.addr := by rw [List.length_take]; omega
  by_cases hi : i < w.addr
  · rw [if_neg (by unfold Covers; omega), List.append_assoc, List.getElem?_append_left (by omega),
      List.getElem?_take_of_lt hi]
  · by_cases hj : i < w.addr + w.bytes.length
    · rw [if_pos (by unfold Covers; omega), List.append_assoc, List.getElem?_append_right (by omega), h1,
        List.getElem?_append_left (by omega)]
    · rw [if_neg (by unfold Covers; omega), List.append_assoc, List.getElem?_append_right (by omega), h1,
        List.getElem?_append_right (by omega), List.getElem?_drop]
      congr 2
      omega

theorem splice_length {contents : List UInt8} {w : Data}
    (h : w.addr + w.bytes.length ≤ contents.length) :
    (ByteDisk.splice contents w.addr w.bytes).length = contents.length := by
  simp only [ByteDisk.splice, List.length_append, List.length_take, List.length_drop]
  omega

/-! ### Rubbish after a write -/

theorem put_prefix (E : Nat → UInt8) (w : Data) (p : List UInt8) :
    bytesAt (put E ⟨w.addr, w.bytes ++ p⟩) w.loc = w.bytes := by
  apply List.ext_getElem?
  intro i
  rw [bytesAt_get?]
  by_cases hi : i < w.bytes.length
  · rw [if_pos (show i < w.loc.len from hi)]
    have : Covers ⟨w.addr, w.bytes ++ p⟩ (w.loc.addr + i) := by
      unfold Covers Data.loc; dsimp only; rw [List.length_append]; omega
    rw [put, if_pos this]
    have e : w.loc.addr + i - w.addr = i := by unfold Data.loc; dsimp only; omega
    dsimp only
    rw [e, List.getElem?_append_left hi, List.getElem?_eq_getElem hi]; rfl
  · rw [if_neg (show ¬ i < w.loc.len from hi), List.getElem?_eq_none (by omega)]

/-- The rubbish is nothing, or fills up the last sector. -/
def PadLen (w : Data) (p : List UInt8) : Prop := p = [] ∨ p.length = ByteDisk.padLen w.bytes.length

theorem PadLen.of {kind : ByteDisk.Kind} {w : Data} {p : List UInt8} (h : ByteDisk.PadOk kind w p) :
    PadLen w p := h.imp id (·.2)

theorem PadLen.whole {w : Data} {p : List UInt8} (h : PadLen w p) (hw : w.bytes.length % 4096 = 0) :
    p = [] := by
  rcases h with h | h
  · exact h
  · unfold ByteDisk.padLen at h
    exact List.eq_nil_of_length_eq_zero (by omega)

theorem valid_aligned {l : Loc} (h : ValidLoc l) : l.addr % 4096 = 0 := by
  rcases h with h | h | h | h | h
  · subst h; rfl
  · subst h; rfl
  · exact h.1
  · obtain ⟨h, _⟩ := h
    unfold ValidTableAddr table2Addr table1Addr numJournalBlocks tableMaxLength at h
    omega
  · obtain ⟨⟨h, _⟩, _⟩ := h
    unfold nodeBlockSize at h
    omega

/-- The rubbish touches no location that the write itself does not touch. -/
theorem overlap_full {w : Data} {p : List UInt8} (hp : PadLen w p) {l : Loc} (hw : ValidLoc w.loc)
    (hl : ValidLoc l) (h : overlap l (Data.loc ⟨w.addr, w.bytes ++ p⟩)) : overlap l w.loc := by
  have h1 : w.addr % 4096 = 0 := valid_aligned hw
  have h2 := valid_aligned hl
  unfold overlap Data.loc at h ⊢
  dsimp only at h ⊢
  rw [List.length_append] at h
  rcases hp with rfl | hp
  · simpa using h
  · unfold ByteDisk.padLen at hp
    omega

/-- `E` is the disk with all requested writes done. -/
structure Over (d : ByteDisk.State) (E : Nat → UInt8) : Prop where
  hit : ∀ id w, d.reqWrites id = some w → ∀ i, i < (d.full id w).bytes.length →
    (d.full id w).bytes[i]? = some (E (w.addr + i))
  miss : ∀ i, (∀ id w, d.reqWrites id = some w → ¬ Covers (d.full id w) i) → E i = byteOf d.contents i
  size : ∀ id w, d.reqWrites id = some w → PadLen w (d.pads id)

theorem Over.quiet {d : ByteDisk.State} {E : Nat → UInt8} (h : Over d E) {l : Loc} (hv : ValidLoc l)
    (hl : ∀ id w, d.reqWrites id = some w → ValidLoc w.loc ∧ ¬ overlap w.loc l) :
    bytesAt E l = bytesAt (byteOf d.contents) l := by
  apply bytesAt_congr
  intro i h1 h2
  apply h.miss
  rintro id w hw ⟨h3, h4⟩
  apply (hl id w hw).2
  refine overlap_symm (overlap_full (h.size id w hw) (hl id w hw).1 hv ?_)
  unfold overlap Data.loc
  unfold ByteDisk.State.full at h3 h4
  dsimp only at h3 h4 ⊢
  omega

/-- What a write puts on the disk, with its rubbish. -/
theorem full_insert {d : ByteDisk.State} {id id' : ReqId} {w w' : Data} {p : List UInt8} (e : id' ≠ id) :
    ByteDisk.State.full { d with
      reqWrites := d.reqWrites.insert id w, pads := ByteDisk.setPad d.pads id p } id' w' = d.full id' w' := by
  unfold ByteDisk.State.full ByteDisk.setPad
  dsimp only
  rw [if_neg e]

theorem full_same {d : ByteDisk.State} {id : ReqId} {w w' : Data} {p : List UInt8} :
    ByteDisk.State.full { d with
      reqWrites := d.reqWrites.insert id w, pads := ByteDisk.setPad d.pads id p } id w' =
      ⟨w'.addr, w'.bytes ++ p⟩ := by
  unfold ByteDisk.State.full ByteDisk.setPad
  dsimp only
  rw [if_pos rfl]

theorem Over.add {d : ByteDisk.State} {E : Nat → UInt8} (h : Over d E) {id : ReqId} {w : Data}
    {p : List UInt8} (hp : PadLen w p) (hv : ValidLoc w.loc)
    (hn : ∀ id' w', d.reqWrites id' = some w' → id' ≠ id → ValidLoc w'.loc ∧ ¬ overlap w'.loc w.loc)
    (hid : d.reqWrites id = none) :
    Over { d with reqWrites := d.reqWrites.insert id w, pads := ByteDisk.setPad d.pads id p }
      (put E ⟨w.addr, w.bytes ++ p⟩) := by
  refine ⟨?_, ?_, ?_⟩
  · intro id' w' hw' i hi
    dsimp only at hw'
    by_cases e : id' = id
    · subst e
      rw [PMap.insert_same] at hw'
      cases hw'
      rw [full_same] at hi ⊢
      dsimp only at hi ⊢
      have : Covers ⟨w.addr, w.bytes ++ p⟩ (w.addr + i) := by unfold Covers; dsimp only; omega
      rw [put, if_pos this]
      dsimp only
      rw [Nat.add_sub_cancel_left, List.getElem?_eq_getElem hi]; rfl
    · rw [PMap.insert_other _ _ e] at hw'
      rw [full_insert e] at hi ⊢
      have : ¬ Covers ⟨w.addr, w.bytes ++ p⟩ (w'.addr + i) := by
        rintro ⟨h3, h4⟩
        obtain ⟨v1, v2⟩ := hn id' w' hw' e
        have a1 : w.addr % 4096 = 0 := valid_aligned hv
        have a2 : w'.addr % 4096 = 0 := valid_aligned v1
        apply v2
        have s1 := h.size id' w' hw'
        unfold ByteDisk.State.full at hi
        unfold overlap Data.loc
        dsimp only at hi h3 h4 ⊢
        rw [List.length_append] at hi h4
        unfold PadLen ByteDisk.padLen at s1 hp
        have q1 : (d.pads id').length = 0 ∨ (d.pads id').length = (4096 - w'.bytes.length % 4096) % 4096 :=
          s1.imp (fun k => by rw [k]; rfl) fun k => k
        have q2 : p.length = 0 ∨ p.length = (4096 - w.bytes.length % 4096) % 4096 :=
          hp.imp (fun k => by rw [k]; rfl) fun k => k
        omega
      rw [put, if_neg this]
      exact h.hit _ _ hw' _ hi
  · intro i hi
    dsimp only at hi ⊢
    have h1 : ¬ Covers ⟨w.addr, w.bytes ++ p⟩ i := by
      have := hi id w (PMap.insert_same _ _ _)
      rw [full_same] at this
      exact this
    rw [put, if_neg h1]
    apply h.miss
    intro id' w' hw'
    by_cases e : id' = id
    · subst e; rw [hid] at hw'; cases hw'
    · have := hi id' w' (by rw [PMap.insert_other _ _ e]; exact hw')
      rw [full_insert e] at this
      exact this
  · intro id' w' hw'
    dsimp only at hw' ⊢
    unfold ByteDisk.setPad
    by_cases e : id' = id
    · subst e; rw [PMap.insert_same] at hw'; cases hw'; rw [if_pos rfl]; exact hp
    · rw [PMap.insert_other _ _ e] at hw'; rw [if_neg e]; exact h.size _ _ hw'

theorem Over.done {d : ByteDisk.State} {E : Nat → UInt8} (h : Over d E) {id : ReqId} {w : Data}
    (hw : d.reqWrites id = some w) (hb : w.addr + (d.full id w).bytes.length ≤ d.contents.length)
    {rw : PMap ReqId Loc} :
    Over { d with
      reqWrites := d.reqWrites.remove id
      respWrites := rw
      contents := ByteDisk.splice d.contents w.addr (d.full id w).bytes } E := by
  refine ⟨?_, ?_, ?_⟩
  · intro id' w' hw' i hi
    dsimp only at hw'
    by_cases e : id' = id
    · subst e; rw [PMap.remove_same] at hw'; cases hw'
    · rw [PMap.remove_other _ e] at hw'; exact h.hit _ _ hw' _ hi
  · intro i hi
    dsimp only at hi ⊢
    rw [show ByteDisk.splice d.contents w.addr (d.full id w).bytes =
      ByteDisk.splice d.contents (d.full id w).addr (d.full id w).bytes from rfl, byteOf_splice hb]
    by_cases hc : Covers (d.full id w) i
    · rw [put, if_pos hc]
      have h1 : i - w.addr < (d.full id w).bytes.length := by
        unfold Covers at hc; have : (d.full id w).addr = w.addr := rfl; omega
      have := h.hit _ _ hw _ h1
      have e : w.addr + (i - w.addr) = i := by
        unfold Covers at hc; have : (d.full id w).addr = w.addr := rfl; omega
      rw [e] at this
      rw [show (d.full id w).addr = w.addr from rfl, this]; rfl
    · rw [put, if_neg hc]
      apply h.miss
      intro id' w' hw'
      by_cases e : id' = id
      · subst e; rw [hw] at hw'; cases hw'; exact hc
      · exact hi id' w' (by rw [PMap.remove_other _ e]; exact hw')
  · intro id' w' hw'
    dsimp only at hw' ⊢
    by_cases e : id' = id
    · subst e; rw [PMap.remove_same] at hw'; cases hw'
    · rw [PMap.remove_other _ e] at hw'; exact h.size _ _ hw'

/-- A write is half done. -/
theorem Over.tear {d : ByteDisk.State} {E : Nat → UInt8} (h : Over d E) {id : ReqId} {w : Data}
    (hw : d.reqWrites id = some w) {cs : List UInt8}
    (hc : ∀ i, ¬ Covers (d.full id w) i → cs[i]? = d.contents[i]?) : Over { d with contents := cs } E := by
  refine ⟨h.hit, fun i hi => ?_, h.size⟩
  rw [h.miss i hi]
  show _ = byteOf cs i
  unfold byteOf
  rw [hc i (hi id w hw)]

/-! ### Journal bytes -/

theorem bytesAt_slice (F : Nat → UInt8) {a m o n : Nat} (h : o + n ≤ m) :
    bytesAt F ⟨a + o, n⟩ = ((bytesAt F ⟨a, m⟩).drop o).take n := by
  apply List.ext_getElem?
  intro i
  rw [bytesAt_get?, List.getElem?_take, List.getElem?_drop, bytesAt_get?]
  dsimp only
  by_cases hi : i < n
  · rw [if_pos hi, if_pos hi, if_pos (by omega), Nat.add_assoc]
  · rw [if_neg hi, if_neg hi]

theorem range_length {crc : List UInt8 → List UInt8} : ∀ (n : Nat) {s : List UInt8} {bs : List Block},
    s.length = n → JournalBytes.rangeOfBytes crc s = some bs → s.length = 4096 * bs.length ∧
      ∀ k, k < bs.length → JournalBytes.blockOfBytes crc ((s.drop (4096 * k)).take 4096) = bs[k]? := by
  intro n
  induction n using Nat.strongRecOn with
  | ind n ih =>
    intro s bs hn hs
    by_cases h0 : s = []
    · subst h0
      rw [Journalist.rangeOfBytes_nil] at hs; cases hs
      exact ⟨rfl, fun k hk => absurd hk (by simp)⟩
    · rw [JournalBytes.rangeOfBytes, dif_neg h0] at hs
      by_cases h1 : 4096 ≤ s.length
      · rw [dif_pos h1] at hs
        cases e1 : JournalBytes.blockOfBytes crc (s.take 4096) with
        | none => simp [e1] at hs
        | some b =>
          cases e2 : JournalBytes.rangeOfBytes crc (s.drop 4096) with
          | none => simp [e1, e2] at hs
          | some rest =>
            simp only [e1, e2] at hs
            cases hs
            obtain ⟨q1, q2⟩ := ih (s.drop 4096).length (by rw [List.length_drop]; omega) rfl e2
            rw [List.length_drop] at q1
            refine ⟨by rw [List.length_cons]; omega, fun k hk => ?_⟩
            cases k with
            | zero => rw [Nat.mul_zero, List.drop_zero, e1]; rfl
            | succ k =>
              have := q2 k (by rw [List.length_cons] at hk; omega)
              rw [List.drop_drop] at this
              rw [show 4096 * (k + 1) = 4096 + 4096 * k by omega, this]; rfl
      · rw [dif_neg h1] at hs; cases hs

theorem blockOf_checks {crc : List UInt8 → List UInt8} {s : List UInt8} {b : Block}
    (h : JournalBytes.blockOfBytes crc s = some b) : Checks crc s ∧ s.length = 4096 := by
  unfold JournalBytes.blockOfBytes at h
  split at h
  · rename_i q; exact ⟨⟨by omega, q.2⟩, q.1⟩
  · cases h

/-- The blocks of an interval are the blocks of its bytes. -/
theorem blocks_range {Node : Type} (c : Codec Node) (E : Nat → UInt8) (n : Nat) : ∀ start,
    start + n ≤ numJournalBlocks →
    blocksAt (journalBlockAt c E) start n = c.range (bytesAt E ⟨journalPoint start, 4096 * n⟩) := by
  induction n with
  | zero =>
    intro start _
    show some [] = JournalBytes.rangeOfBytes c.crc []
    rw [Journalist.rangeOfBytes_nil]
  | succ n ih =>
    intro start h
    have hne : bytesAt E ⟨journalPoint start, 4096 * (n + 1)⟩ ≠ [] := fun hc => by
      have := bytesAt_length E ⟨journalPoint start, 4096 * (n + 1)⟩
      rw [hc] at this; simp at this
    have e1 : (bytesAt E ⟨journalPoint start, 4096 * (n + 1)⟩).take 4096 =
        bytesAt E ⟨journalPoint start, 4096⟩ := by
      have := bytesAt_slice E (a := journalPoint start) (m := 4096 * (n + 1)) (o := 0) (n := 4096)
        (by omega)
      rw [Nat.add_zero, List.drop_zero] at this
      exact this.symm
    have e2 : (bytesAt E ⟨journalPoint start, 4096 * (n + 1)⟩).drop 4096 =
        bytesAt E ⟨journalPoint (start + 1), 4096 * n⟩ := by
      have := bytesAt_slice E (a := journalPoint start) (m := 4096 * (n + 1)) (o := 4096) (n := 4096 * n)
        (by omega)
      rw [show journalPoint (start + 1) = journalPoint start + 4096 by
        unfold journalPoint; omega, this]
      rw [List.take_of_length_le]
      rw [List.length_drop, bytesAt_length]; dsimp only; omega
    have e3 : blocksAt (journalBlockAt c E) (posAdd start 1) n =
        c.range (bytesAt E ⟨journalPoint (start + 1), 4096 * n⟩) := by
      cases n with
      | zero =>
        show some [] = JournalBytes.rangeOfBytes c.crc []
        rw [Journalist.rangeOfBytes_nil]
      | succ n =>
        have : posAdd start 1 = start + 1 := by unfold posAdd; split <;> omega
        rw [this]
        exact ih (start + 1) (by omega)
    unfold Codec.range at e3 ⊢
    rw [JournalBytes.rangeOfBytes, dif_neg hne, dif_pos (by rw [bytesAt_length]; dsimp only; omega), e1, e2,
      ← e3, blocksAt]
    generalize blocksAt (journalBlockAt c E) (posAdd start 1) n = y
    have e4 : journalBlockAt c E start =
      JournalBytes.blockOfBytes c.crc (bytesAt E ⟨journalPoint start, 4096⟩) := by unfold journalBlockAt; rfl
    rw [e4]
    generalize JournalBytes.blockOfBytes c.crc (bytesAt E ⟨journalPoint start, 4096⟩) = x
    cases x <;> cases y <;> rfl

theorem AllCheck.drop {crc : List UInt8 → List UInt8} {a b : List UInt8} (h : AllCheck crc a b)
    {m : Nat} (hm : m ≤ a.length) : AllCheck crc (a.drop m) (b.drop m) := by
  intro i j hij hj h1 h2
  rw [List.length_drop] at hj
  have e : ∀ s : List UInt8, ((s.drop m).take j).drop i = (s.take (m + j)).drop (m + i) := by
    intro s
    rw [← List.drop_drop, List.drop_take (i := m), Nat.add_sub_cancel_left]
  rw [e] at h1 h2 ⊢
  rw [e b]
  exact h (m + i) (m + j) (by omega) (by omega) h1 h2

/-- A journal read back is the journal on disk, or does not check out. -/
theorem range_check {crc : List UInt8 → List UInt8} : ∀ (n : Nat) {a b : List UInt8} {x y : List Block},
    a.length = n → b.length = n → AllCheck crc a b → JournalBytes.rangeOfBytes crc a = some x →
    JournalBytes.rangeOfBytes crc b = some y → x = y := by
  intro n
  induction n using Nat.strongRecOn with
  | ind n ih =>
    intro a b x y ha hb hc hx hy
    by_cases h0 : a = []
    · subst h0
      have : b = [] := List.length_eq_zero_iff.mp (by simpa using hb.trans ha.symm)
      subst this
      rw [hx] at hy; exact Option.some.inj hy
    · have h0' : b ≠ [] := fun e => h0 (List.length_eq_zero_iff.mp (by rw [ha, ← hb, e]; rfl))
      rw [JournalBytes.rangeOfBytes, dif_neg h0] at hx
      rw [JournalBytes.rangeOfBytes, dif_neg h0'] at hy
      by_cases h1 : 4096 ≤ a.length
      · rw [dif_pos h1] at hx
        rw [dif_pos (by omega)] at hy
        cases e1 : JournalBytes.blockOfBytes crc (a.take 4096) with
        | none => simp [e1] at hx
        | some u =>
          cases e2 : JournalBytes.rangeOfBytes crc (a.drop 4096) with
          | none => simp [e1, e2] at hx
          | some us =>
            simp only [e1, e2] at hx
            cases hx
            cases e3 : JournalBytes.blockOfBytes crc (b.take 4096) with
            | none => simp [e3] at hy
            | some w =>
              cases e4 : JournalBytes.rangeOfBytes crc (b.drop 4096) with
              | none => simp [e3, e4] at hy
              | some ws =>
                simp only [e3, e4] at hy
                cases hy
                have := hc 0 4096 (by omega) h1 (by rw [List.drop_zero]; exact (blockOf_checks e1).1)
                  (by rw [List.drop_zero]; exact (blockOf_checks e3).1)
                rw [List.drop_zero, List.drop_zero] at this
                rw [← this, e1] at e3
                cases e3
                rw [ih (a.drop 4096).length (by rw [List.length_drop]; omega) rfl
                  (by rw [List.length_drop, List.length_drop, ha, hb]) (AllCheck.drop hc h1) e2 e4]
      · rw [dif_neg h1] at hx; cases hx

/-- What a write to the journal does to its blocks. -/
theorem put_block {Node : Type} {c : Codec Node} {E : Nat → UInt8} {w : Data} {bs : List Block}
    (hv : ValidJournalLoc w.loc) (hr : c.range w.bytes = some bs) {j : Nat → Option Block}
    (hj : ∀ p, p < numJournalBlocks → j p = journalBlockAt c E p) (p : Nat) (hp : p < numJournalBlocks) :
    splice j (intervalOf w.loc).start bs p = journalBlockAt c (put E w) p := by
  obtain ⟨hlen, hget⟩ := range_length _ rfl hr
  obtain ⟨h1, h2, h3, h4, h5⟩ := hv
  have hst : journalPoint (intervalOf w.loc).start = w.addr := by
    unfold journalPoint intervalOf journalStartAddr Data.loc at *
    dsimp only at *
    omega
  have hfit : (intervalOf w.loc).start + bs.length ≤ numJournalBlocks := by
    have h6 : w.addr + w.bytes.length ≤ (2 + numJournalBlocks) * 4096 := h5
    unfold journalPoint journalStartAddr at hst
    omega
  generalize (intervalOf w.loc).start = st at *
  by_cases hin : st ≤ p ∧ p < st + bs.length
  · rw [splice, if_pos hin, ← hget (p - st) (by omega)]
    unfold journalBlockAt
    have e : (⟨journalPoint p, 4096⟩ : Loc) = ⟨w.addr + 4096 * (p - st), 4096⟩ := by
      have : journalPoint p = w.addr + 4096 * (p - st) := by
        rw [← hst]; unfold journalPoint; omega
      rw [this]
    rw [e, bytesAt_slice (put E w) (m := w.bytes.length) (by omega)]
    rw [show (⟨w.addr, w.bytes.length⟩ : Loc) = w.loc from rfl, put_same]
  · rw [splice, if_neg hin, if_neg (by omega), hj p hp]
    unfold journalBlockAt
    rw [put_other]
    rintro ⟨q1, q2⟩
    unfold Data.loc at q1 q2
    dsimp only at q1 q2
    rw [← hst] at q1 q2
    unfold journalPoint at q1 q2
    omega

/-! ### Requests by kind -/

/-- The requests whose location has a certain kind. -/
def sel {α : Type} (f : Loc → Option α) (m : PMap ReqId Loc) : PMap ReqId α := fun id => (m id).bind f

theorem sel_insert {α : Type} {f : Loc → Option α} {m : PMap ReqId Loc} {id : ReqId} {l : Loc} {a : α}
    (h : f l = some a) : sel f (m.insert id l) = (sel f m).insert id a := by
  funext x
  simp only [sel, PMap.insert]
  by_cases e : x = id
  · rw [if_pos e, if_pos e]; exact h
  · rw [if_neg e, if_neg e]

theorem sel_insert_none {α : Type} {f : Loc → Option α} {m : PMap ReqId Loc} {id : ReqId} {l : Loc}
    (h : f l = none) (hm : m id = none) : sel f (m.insert id l) = sel f m := by
  funext x
  simp only [sel, PMap.insert]
  by_cases e : x = id
  · subst e; rw [if_pos rfl, hm]; exact h
  · rw [if_neg e]

theorem sel_remove {α : Type} {f : Loc → Option α} {m : PMap ReqId Loc} {id : ReqId} :
    sel f (m.remove id) = (sel f m).remove id := by
  funext x
  simp only [sel, PMap.remove]
  by_cases e : x = id
  · rw [if_pos e, if_pos e]; rfl
  · rw [if_neg e, if_neg e]

theorem sel_remove_none {α : Type} {f : Loc → Option α} {m : PMap ReqId Loc} {id : ReqId} {l : Loc}
    (h : f l = none) (hm : m id = some l) : sel f (m.remove id) = sel f m := by
  funext x
  simp only [sel, PMap.remove]
  by_cases e : x = id
  · subst e; rw [if_pos rfl, hm]; exact h.symm
  · rw [if_neg e]

theorem sel_none {α : Type} {f : Loc → Option α} {m : PMap ReqId Loc} {id : ReqId} (h : m id = none) :
    sel f m id = none := by simp [sel, h]

theorem sel_some {α : Type} {f : Loc → Option α} {m : PMap ReqId Loc} {id : ReqId} {l : Loc} {a : α}
    (h : m id = some l) (hf : f l = some a) : sel f m id = some a := by simp [sel, h, hf]

theorem sel_iff {α : Type} {f : Loc → Option α} {m : PMap ReqId Loc} {id : ReqId} {a : α} :
    sel f m id = some a ↔ ∃ l, m id = some l ∧ f l = some a := Option.bind_eq_some_iff

/-- The kinds. -/
def kN (l : Loc) : Option Loc := if ValidNodeLoc l then some l else none
def kT (l : Loc) : Option Loc := if ValidTableLoc l then some l else none
def kJ (l : Loc) : Option Interval := if ValidJournalLoc l then some (intervalOf l) else none

theorem kN_some {l l' : Loc} : kN l = some l' ↔ ValidNodeLoc l ∧ l = l' := by
  unfold kN; split <;> simp_all
theorem kT_some {l l' : Loc} : kT l = some l' ↔ ValidTableLoc l ∧ l = l' := by
  unfold kT; split <;> simp_all
theorem kJ_some {l : Loc} {v : Interval} : kJ l = some v ↔ ValidJournalLoc l ∧ intervalOf l = v := by
  unfold kJ; split <;> simp_all

/-- Where the reads that are not acknowledged yet are. -/
def rl (d : ByteDisk.State) : PMap ReqId Loc := fun id =>
  match d.reqReads id with
  | some l => some l
  | none => (d.respReads id).map Data.loc

/-- Where the writes that are not acknowledged yet are. -/
def wl (d : ByteDisk.State) : PMap ReqId Loc := fun id =>
  match d.reqWrites id with
  | some w => some w.loc
  | none => d.respWrites id

end Verif.Kv
