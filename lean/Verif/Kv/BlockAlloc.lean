import Verif.Kv.BlockImpl
import Verif.Kv.IndTableInit
/-
The bitmaps of the block allocator have exactly the blocks in use. No code is modelled here.
-/
namespace Verif.Kv.BlockImpl
open IndTable (Bitmap numBlocks UsedBy)

/-- A location of a node whose block has a bit. -/
structure GoodLoc (l : Loc) : Prop where
  valid : ValidNodeLoc l
  bit : l.addr / nodeBlockSize < numBlocks

theorem GoodLoc.addr {l : Loc} (h : GoodLoc l) : l.addr = l.addr / nodeBlockSize * nodeBlockSize :=
  (Nat.div_mul_cancel (Nat.dvd_of_mod_eq_zero h.valid.1.1)).symm

theorem GoodLoc.min {l : Loc} (h : GoodLoc l) : minNodeBlockIndex ≤ l.addr / nodeBlockSize := by
  have h2 := h.valid.1.2
  rw [Nat.mul_comm] at h2
  exact (Nat.le_div_iff_mul_le (by unfold nodeBlockSize; omega)).mpr h2

theorem GoodLoc.inj {l l' : Loc} (h : GoodLoc l) (h' : GoodLoc l')
    (e : l.addr / nodeBlockSize = l'.addr / nodeBlockSize) : l.addr = l'.addr := by
  rw [h.addr, h'.addr, e]

/-- The blocks a table uses. -/
def Used (locs : PMap Ref Loc) (i : Nat) : Prop :=
  i < minNodeBlockIndex ∨ ∃ r l, locs r = some l ∧ l.addr / nodeBlockSize = i

/-- The bitmap of the frozen table is there if the table is, and has its blocks. -/
def FrozenBits : Option Bitmap → Option (PMap Ref Loc) → Prop
  | none, none => True
  | some b, some t => ∀ i, b i = true ↔ Used t i
  | _, _ => False

/-- `ConsistentBitmap`, StateBCImpl.i.dfy:49-67, with `Inv`, BlockAllocatorModel.i.dfy:24-38, and what has
to hold of the locations: they are good, and no block is used twice by the table in memory, nor by two
writes in flight. -/
structure Blocks (a : Alloc) (pers eph : PMap Ref Loc) (frozen : Option (PMap Ref Loc))
    (w : PMap ReqId (Ref × Loc)) : Prop where
  ephBit : ∀ i, a.eph i = true ↔ Used eph i
  persBit : ∀ i, a.persistent i = true ↔ Used pers i
  frozenBit : FrozenBits a.frozen frozen
  outBit : ∀ i, a.outstanding i = true ↔ ∃ id x, w id = some x ∧ x.2.addr / nodeBlockSize = i
  full : ∀ i, a.full i = (((a.eph i || a.persistent i) || a.inFrozen i) || a.outstanding i)
  ephLoc : ∀ r l, eph r = some l → GoodLoc l
  persLoc : ∀ r l, pers r = some l → GoodLoc l
  frozenLoc : ∀ t, frozen = some t → ∀ r l, t r = some l → GoodLoc l
  outLoc : ∀ id x, w id = some x → GoodLoc x.2
  ephDistinct : ∀ r r' l l', eph r = some l → eph r' = some l' → l.addr = l'.addr → r = r'
  outDistinct : ∀ i j x y, w i = some x → w j = some y → x.2.addr = y.2.addr → i = j

section
variable {a : Alloc} {pers eph : PMap Ref Loc} {frozen : Option (PMap Ref Loc)} {w : PMap ReqId (Ref × Loc)}

theorem bitAlloc_some {b : Bitmap} {i n j : Nat} (h : bitAlloc b i n = some j) :
    b j = false ∧ i ≤ j ∧ j < i + n := by
  induction n generalizing i with
  | zero => cases h
  | succ n ih =>
    unfold bitAlloc at h
    split at h
    · cases h; exact ⟨by assumption, Nat.le_refl _, by omega⟩
    · obtain ⟨h1, h2, h3⟩ := ih h
      exact ⟨h1, by omega, by omega⟩

theorem bitAlloc_none {b : Bitmap} {i n : Nat} (h : bitAlloc b i n = none) (j : Nat) (h1 : i ≤ j)
    (h2 : j < i + n) : b j = true := by
  induction n generalizing i with
  | zero => omega
  | succ n ih =>
    unfold bitAlloc at h
    split at h
    · cases h
    · rename_i hb
      by_cases e : j = i
      · subst e
        cases hb' : b j with
        | true => rfl
        | false => exact absurd hb' hb
      · exact ih h (by omega) (by omega)

theorem inFrozen_iff (h : Blocks a pers eph frozen w) (i : Nat) :
    a.inFrozen i = true ↔ ∃ t, frozen = some t ∧ Used t i := by
  have hf := h.frozenBit
  unfold Alloc.inFrozen
  cases h1 : a.frozen with
  | none =>
    cases h2 : frozen with
    | none => simp
    | some t => rw [h1, h2] at hf; exact hf.elim
  | some b =>
    cases h2 : frozen with
    | none => rw [h1, h2] at hf; exact hf.elim
    | some t =>
      rw [h1, h2] at hf
      dsimp only
      rw [hf i]
      exact ⟨fun k => ⟨t, rfl, k⟩, fun ⟨t', e, k⟩ => by cases e; exact k⟩

/-- **What the allocator gives out is free**: not in any of the tables and not being written. -/
theorem find_free (h : Blocks a pers eph frozen w) {i : Nat} (hi : a.find = some i) :
    i < numBlocks ∧ minNodeBlockIndex ≤ i ∧ ¬ Used eph i ∧ ¬ Used pers i ∧
    (∀ t, frozen = some t → ¬ Used t i) ∧ ∀ id x, w id = some x → x.2.addr / nodeBlockSize ≠ i := by
  obtain ⟨h1, _, h3⟩ := bitAlloc_some hi
  rw [Nat.zero_add] at h3
  rw [h.full i] at h1
  simp only [Bool.or_eq_false_iff] at h1
  obtain ⟨⟨⟨k1, k2⟩, k3⟩, k4⟩ := h1
  have n1 : ¬ Used eph i := fun k => by rw [(h.ephBit i).mpr k] at k1; cases k1
  refine ⟨h3, ?_, n1, ?_, ?_, ?_⟩
  · exact Nat.le_of_not_lt fun k => n1 (.inl k)
  · intro k; rw [(h.persBit i).mpr k] at k2; cases k2
  · intro t ht k
    rw [(inFrozen_iff h i).mpr ⟨t, ht, k⟩] at k3; cases k3
  · intro id x hx k
    rw [(h.outBit i).mpr ⟨id, x, hx, k⟩] at k4; cases k4

/-- **If it gives out nothing the disk is full.** -/
theorem find_none (h : Blocks a pers eph frozen w) (hi : a.find = none) (i : Nat) (hlt : i < numBlocks) :
    Used eph i ∨ Used pers i ∨ (∃ t, frozen = some t ∧ Used t i) ∨
      ∃ id x, w id = some x ∧ x.2.addr / nodeBlockSize = i := by
  have := bitAlloc_none hi i (Nat.zero_le _) (by omega)
  rw [h.full i] at this
  simp only [Bool.or_eq_true] at this
  rcases this with ((k | k) | k) | k
  · exact .inl ((h.ephBit i).mp k)
  · exact .inr (.inl ((h.persBit i).mp k))
  · exact .inr (.inr (.inl ((inFrozen_iff h i).mp k)))
  · exact .inr (.inr (.inr ((h.outBit i).mp k)))

theorem goodLoc_of_find (h : Blocks a pers eph frozen w) {i len : Nat} (hi : a.find = some i)
    (hl : len ≤ nodeBlockSize) : GoodLoc ⟨i * nodeBlockSize, len⟩ := by
  obtain ⟨h1, h2, _⟩ := find_free h hi
  have hp : 0 < nodeBlockSize := by unfold nodeBlockSize; omega
  refine ⟨⟨⟨Nat.mul_mod_left .., ?_⟩, hl⟩, ?_⟩
  · dsimp only; rw [Nat.mul_comm]; exact Nat.mul_le_mul_right _ h2
  · dsimp only; rw [Nat.mul_div_cancel _ hp]; exact h1

theorem set_bit {b : Bitmap} {P : Nat → Prop} (h : ∀ i, b i = true ↔ P i) (k : Nat) (i : Nat) :
    b.set k i = true ↔ (i = k ∨ P i) := by
  unfold Bitmap.set
  split
  · rename_i e; exact ⟨fun _ => .inl e, fun _ => rfl⟩
  · rename_i e; rw [h]; exact ⟨.inr, fun x => x.resolve_left e⟩

theorem unset_bit {b : Bitmap} {P : Nat → Prop} (h : ∀ i, b i = true ↔ P i) (k : Nat) (i : Nat) :
    b.unset k i = true ↔ (i ≠ k ∧ P i) := by
  unfold Bitmap.unset
  split
  · rename_i e; exact ⟨(fun x => nomatch x), fun x => absurd e x.1⟩
  · rename_i e; rw [h]; exact ⟨fun x => ⟨e, x⟩, fun x => x.2⟩

theorem used_insert {eph : PMap Ref Loc} {ref : Ref} {l : Loc} (hn : eph ref = none) (i : Nat) :
    Used (eph.insert ref l) i ↔ (i = l.addr / nodeBlockSize ∨ Used eph i) := by
  unfold Used
  constructor
  · rintro (k | ⟨r, l', k1, k2⟩)
    · exact .inr (.inl k)
    · unfold PMap.insert at k1
      split at k1
      · cases k1; exact .inl k2.symm
      · exact .inr (.inr ⟨r, l', k1, k2⟩)
  · rintro (k | k | ⟨r, l', k1, k2⟩)
    · exact .inr ⟨ref, l, PMap.insert_same .., k.symm⟩
    · exact .inl k
    · refine .inr ⟨r, l', ?_, k2⟩
      rw [PMap.insert_other _ _ (fun e : r = ref => by rw [e, hn] at k1; cases k1)]
      exact k1

/-! ### The operations -/

theorem Blocks.freeEph (h : Blocks a pers eph frozen w) {ref : Ref} {l : Loc} (hl : eph ref = some l) :
    Blocks (a.freeEph (l.addr / nodeBlockSize)) pers (eph.remove ref) frozen w := by
  have hg := h.ephLoc ref l hl
  have hrem : ∀ {r l'}, (eph.remove ref) r = some l' → r ≠ ref ∧ eph r = some l' := by
    intro r l' k
    unfold PMap.remove at k
    split at k
    · cases k
    · exact ⟨by assumption, k⟩
  have hbit : ∀ i, (a.eph.unset (l.addr / nodeBlockSize)) i = true ↔ Used (eph.remove ref) i := by
    intro i
    rw [unset_bit h.ephBit]
    unfold Used
    constructor
    · rintro ⟨k1, k2 | ⟨r, l', k2, k3⟩⟩
      · exact .inl k2
      · refine .inr ⟨r, l', ?_, k3⟩
        rw [PMap.remove_other _ (fun e : r = ref => by subst e; rw [hl] at k2; cases k2; exact k1 k3.symm)]
        exact k2
    · rintro (k | ⟨r, l', k1, k2⟩)
      · have := hg.min
        exact ⟨by omega, .inl k⟩
      · obtain ⟨k3, k4⟩ := hrem k1
        refine ⟨fun e => ?_, .inr ⟨r, l', k4, k2⟩⟩
        exact k3 (h.ephDistinct r ref l' l k4 hl ((h.ephLoc r l' k4).inj hg (k2.trans e)))
  refine ⟨hbit, h.persBit, h.frozenBit, h.outBit, ?_, ?_, h.persLoc, h.frozenLoc, h.outLoc, ?_, h.outDistinct⟩
  · intro i
    show (if a.inFrozen (l.addr / nodeBlockSize) || a.persistent (l.addr / nodeBlockSize) ||
      a.outstanding (l.addr / nodeBlockSize) then a.full else a.full.unset (l.addr / nodeBlockSize)) i = _
    show _ = ((((a.eph.unset (l.addr / nodeBlockSize)) i || a.persistent i) || a.inFrozen i) || a.outstanding i)
    generalize l.addr / nodeBlockSize = k
    have hf := h.full i
    unfold Bitmap.unset
    by_cases e : i = k
    · subst e
      rw [if_pos rfl, Bool.false_or]
      split
      · rename_i hc
        rw [hf]
        cases h1 : a.inFrozen i <;> cases h2 : a.persistent i <;> cases h3 : a.outstanding i <;>
          rw [h1, h2, h3] at hc <;> simp_all
      · rename_i hc
        dsimp only
        rw [if_pos rfl]
        cases h1 : a.inFrozen i <;> cases h2 : a.persistent i <;> cases h3 : a.outstanding i <;>
          rw [h1, h2, h3] at hc <;> simp_all
    · rw [if_neg e]
      split
      · exact hf
      · dsimp only; rw [if_neg e]; exact hf
  · intro r l' k; exact h.ephLoc r l' (hrem k).2
  · intro r r' l1 l2 k1 k2; exact h.ephDistinct r r' l1 l2 (hrem k1).2 (hrem k2).2

theorem Blocks.freeOld (h : Blocks a pers eph frozen w) (ref : Ref) :
    Blocks (Ready.freeOld a (eph ref)) pers (eph.remove ref) frozen w := by
  cases hl : eph ref with
  | some l => exact h.freeEph hl
  | none =>
    have : eph.remove ref = eph := by
      funext x
      unfold PMap.remove
      split
      · rename_i e; rw [e, hl]
      · rfl
    rw [this]
    exact h

theorem Blocks.freeOut (h : Blocks a pers eph frozen w) {id : ReqId} {x : Ref × Loc} (hx : w id = some x) :
    Blocks (a.freeOutstanding (x.2.addr / nodeBlockSize)) pers eph frozen (w.remove id) := by
  have hg := h.outLoc id x hx
  have hrem : ∀ {j y}, (w.remove id) j = some y → j ≠ id ∧ w j = some y := by
    intro r l' k
    unfold PMap.remove at k
    split at k
    · cases k
    · exact ⟨by assumption, k⟩
  have hbit : ∀ i, (a.outstanding.unset (x.2.addr / nodeBlockSize)) i = true ↔
      ∃ j y, (w.remove id) j = some y ∧ y.2.addr / nodeBlockSize = i := by
    intro i
    rw [unset_bit h.outBit]
    constructor
    · rintro ⟨k1, j, y, k2, k3⟩
      refine ⟨j, y, ?_, k3⟩
      rw [PMap.remove_other _ (fun e : j = id => by subst e; rw [hx] at k2; cases k2; exact k1 k3.symm)]
      exact k2
    · rintro ⟨j, y, k1, k2⟩
      obtain ⟨k3, k4⟩ := hrem k1
      refine ⟨fun e => ?_, j, y, k4, k2⟩
      exact k3 (h.outDistinct j id y x k4 hx ((h.outLoc j y k4).inj hg (k2.trans e)))
  refine ⟨h.ephBit, h.persBit, h.frozenBit, hbit, ?_, h.ephLoc, h.persLoc, h.frozenLoc, ?_, h.ephDistinct, ?_⟩
  · intro i
    show (if a.inFrozen (x.2.addr / nodeBlockSize) || a.eph (x.2.addr / nodeBlockSize) ||
      a.persistent (x.2.addr / nodeBlockSize) then a.full else a.full.unset (x.2.addr / nodeBlockSize)) i = _
    show _ = (((a.eph i || a.persistent i) || a.inFrozen i) || (a.outstanding.unset (x.2.addr / nodeBlockSize)) i)
    generalize x.2.addr / nodeBlockSize = k
    have hf := h.full i
    unfold Bitmap.unset
    by_cases e : i = k
    · subst e
      rw [if_pos rfl, Bool.or_false]
      split
      · rename_i hc
        rw [hf]
        cases h1 : a.inFrozen i <;> cases h2 : a.persistent i <;> cases h3 : a.eph i <;>
          rw [h1, h2, h3] at hc <;> simp_all
      · rename_i hc
        dsimp only
        rw [if_pos rfl]
        cases h1 : a.inFrozen i <;> cases h2 : a.persistent i <;> cases h3 : a.eph i <;>
          rw [h1, h2, h3] at hc <;> simp_all
    · rw [if_neg e]
      split
      · exact hf
      · dsimp only; rw [if_neg e]; exact hf
  · intro r l' k; exact h.outLoc r l' (hrem k).2
  · intro r r' l1 l2 k1 k2; exact h.outDistinct r r' l1 l2 (hrem k1).2 (hrem k2).2

theorem Blocks.useEph (h : Blocks a pers eph frozen w) {ref : Ref} {l : Loc} (hn : eph ref = none)
    (hg : GoodLoc l) (hf : ¬ Used eph (l.addr / nodeBlockSize)) :
    Blocks (a.useEph (l.addr / nodeBlockSize)) pers (eph.insert ref l) frozen w := by
  have hne : ∀ r l', eph r = some l' → l'.addr ≠ l.addr := fun r l' k e =>
    hf (.inr ⟨r, l', k, by rw [e]⟩)
  refine ⟨?_, h.persBit, h.frozenBit, h.outBit, ?_, ?_, h.persLoc, h.frozenLoc, h.outLoc, ?_, h.outDistinct⟩
  · intro i
    rw [used_insert hn]
    exact set_bit h.ephBit _ i
  · intro i
    show (a.full.set _) i = ((((a.eph.set _) i || a.persistent i) || a.inFrozen i) || a.outstanding i)
    unfold Bitmap.set
    split
    · simp
    · exact h.full i
  · intro r l' k
    unfold PMap.insert at k
    split at k
    · cases k; exact hg
    · exact h.ephLoc r l' k
  · intro r r' l1 l2 k1 k2 e
    unfold PMap.insert at k1 k2
    split at k1 <;> split at k2
    · rename_i e1 e2; rw [e1, e2]
    · cases k1; exact absurd e.symm (hne r' l2 k2)
    · cases k2; exact absurd e (hne r l1 k1)
    · exact h.ephDistinct r r' l1 l2 k1 k2 e

theorem Blocks.useFrozen {t : PMap Ref Loc} (h : Blocks a pers eph (some t) w) {ref : Ref} {l : Loc}
    (hn : t ref = none) (hg : GoodLoc l) :
    Blocks (a.useFrozen (l.addr / nodeBlockSize)) pers eph (some (t.insert ref l)) w := by
  have hfb := h.frozenBit
  cases hf : a.frozen with
  | none => rw [hf] at hfb; exact hfb.elim
  | some b =>
    rw [hf] at hfb
    refine ⟨h.ephBit, h.persBit, ?_, h.outBit, ?_, h.ephLoc, h.persLoc, ?_, h.outLoc, h.ephDistinct, h.outDistinct⟩
    · show FrozenBits (a.frozen.map _) _
      rw [hf]
      intro i
      rw [used_insert hn]
      exact set_bit hfb _ i
    · intro i
      have hf' := h.full i
      have e1 : a.inFrozen i = b i := by unfold Alloc.inFrozen; rw [hf]
      have e2 : (a.useFrozen (l.addr / nodeBlockSize)).inFrozen i = (b.set (l.addr / nodeBlockSize)) i := by
        unfold Alloc.inFrozen Alloc.useFrozen; dsimp only; rw [hf]; rfl
      rw [e2]
      rw [e1] at hf'
      show (a.full.set _) i = (((a.eph i || a.persistent i) || (b.set _) i) || a.outstanding i)
      unfold Bitmap.set
      split
      · simp
      · exact hf'
    · intro t' ht' r l' k
      cases ht'
      unfold PMap.insert at k
      split at k
      · cases k; exact hg
      · exact h.frozenLoc t rfl r l' k

theorem Blocks.useOut (h : Blocks a pers eph frozen w) {id : ReqId} {x : Ref × Loc}
    (hn : w id = none) (hg : GoodLoc x.2) (hf : ∀ j y, w j = some y → y.2.addr ≠ x.2.addr) :
    Blocks (a.useOutstanding (x.2.addr / nodeBlockSize)) pers eph frozen (w.insert id x) := by
  refine ⟨h.ephBit, h.persBit, h.frozenBit, ?_, ?_, h.ephLoc, h.persLoc, h.frozenLoc, ?_, h.ephDistinct, ?_⟩
  · intro i
    have := set_bit h.outBit (x.2.addr / nodeBlockSize) i
    refine this.trans ⟨?_, ?_⟩
    · rintro (k | ⟨j, y, k1, k2⟩)
      · exact ⟨id, x, PMap.insert_same .., k.symm⟩
      · refine ⟨j, y, ?_, k2⟩
        rw [PMap.insert_other _ _ (fun e : j = id => by rw [e, hn] at k1; cases k1)]
        exact k1
    · rintro ⟨j, y, k1, k2⟩
      unfold PMap.insert at k1
      split at k1
      · cases k1; exact .inl k2.symm
      · exact .inr ⟨j, y, k1, k2⟩
  · intro i
    show (a.full.set _) i = (((a.eph i || a.persistent i) || a.inFrozen i) || (a.outstanding.set _) i)
    unfold Bitmap.set
    split
    · simp
    · exact h.full i
  · intro j y k
    unfold PMap.insert at k
    split at k
    · cases k; exact hg
    · exact h.outLoc j y k
  · intro r r' l1 l2 k1 k2 e
    unfold PMap.insert at k1 k2
    split at k1 <;> split at k2
    · rename_i e1 e2; rw [e1, e2]
    · cases k1; exact absurd e.symm (hf r' l2 k2)
    · cases k2; exact absurd e (hf r l1 k1)
    · exact h.outDistinct r r' l1 l2 k1 k2 e

theorem Blocks.move {t : PMap Ref Loc} (h : Blocks a pers eph (some t) w) :
    Blocks a.moveFrozen t eph none w := by
  have hfb := h.frozenBit
  cases hf : a.frozen with
  | none => rw [hf] at hfb; exact hfb.elim
  | some b =>
    rw [hf] at hfb
    have e : a.moveFrozen = { a with frozen := none, persistent := b, full := fun i => (a.eph i || b i) || a.outstanding i } := by
      unfold Alloc.moveFrozen; rw [hf]
    rw [e]
    refine ⟨h.ephBit, hfb, trivial, h.outBit, ?_, h.ephLoc, h.frozenLoc t rfl, (fun _ k => nomatch k), h.outLoc, h.ephDistinct, h.outDistinct⟩
    intro i
    show ((a.eph i || b i) || a.outstanding i) = (((a.eph i || b i) || false) || a.outstanding i)
    rw [Bool.or_false]

theorem Blocks.copy (h : Blocks a pers eph none w) : Blocks a.copyEph pers eph (some eph) w := by
  have hfb := h.frozenBit
  cases hf : a.frozen with
  | some b => rw [hf] at hfb; exact hfb.elim
  | none =>
    refine ⟨h.ephBit, h.persBit, h.ephBit, h.outBit, ?_, h.ephLoc, h.persLoc, ?_, h.outLoc, h.ephDistinct, h.outDistinct⟩
    · intro i
      have := h.full i
      unfold Alloc.inFrozen at this
      rw [hf] at this
      show a.full i = (((a.eph i || a.persistent i) || a.eph i) || a.outstanding i)
      rw [this]
      cases a.eph i <;> simp
    · intro t ht; cases ht; exact h.ephLoc

theorem Blocks.start {b : Bitmap} {locs : PMap Ref Loc} (hb : ∀ i, b i = true ↔ Used locs i)
    (hg : ∀ r l, locs r = some l → GoodLoc l)
    (hd : ∀ r r' l l', locs r = some l → locs r' = some l' → l.addr = l'.addr → r = r') :
    Blocks (.init b) locs locs none .empty := by
  refine ⟨hb, hb, trivial, ?_, ?_, hg, hg, (fun _ k => nomatch k), (fun _ _ k => nomatch k), hd, (fun _ _ _ _ k => nomatch k)⟩
  · intro i
    exact ⟨(fun k => nomatch k), fun ⟨_, _, k, _⟩ => nomatch k⟩
  · intro i
    show b i = (((b i || b i) || false) || false)
    cases b i <;> rfl

end
end Verif.Kv.BlockImpl
