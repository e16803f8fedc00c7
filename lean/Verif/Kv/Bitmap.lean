/-!
The bitmap of VeriBetrKV (lib/DataStructures/BitmapImpl.i.dfy, lib/Base/BitsetLemmas.i.dfy), in words
of 64 bits, and the block allocator over five such bitmaps (Impl/BlockAllocatorImpl.i.dfy), as they
are coded.  `none` is an access outside the array or a field that is not there.  Indices are natural
numbers: a bitmap has fewer than 2^57 words, so `64 * i + j` fits in a `uint64`
(BitmapImpl.i.dfy:65-68); that the numbers given out are below 64 times the length is part of C72.
-/

namespace Verif.Bits

/-- A word, `uint64` (`bv64`), BitsetLemmas.i.dfy -/
abbrev Word := BitVec 64

/-- The word of ones, `0xffff_ffff_ffff_ffff` -/
def ones : Word := 0xffffffffffffffff#64

/-- `bit`, BitsetLemmas.i.dfy:32-36 -/
def bit (i : Nat) : Word := 1#64 <<< i

/-- `bit_comp`, BitsetLemmas.i.dfy:48-51 -/
def bitComp (a : Word) : Word := ones ^^^ a

/-- `in_set`, BitsetLemmas.i.dfy:154-158, and `in_set_uint64` -/
def inSet (i : Nat) (a : Word) : Bool := (a &&& bit i) != 0#64

/-- `set_bit_to_1`, BitsetLemmas.i.dfy:160-164, and `set_bit_to_1_uint64` -/
def setBit1 (a : Word) (i : Nat) : Word := a ||| bit i

/-- `set_bit_to_0`, BitsetLemmas.i.dfy:166-170, and `set_bit_to_0_uint64` -/
def setBit0 (a : Word) (i : Nat) : Word := a &&& bitComp (bit i)

/-- `Bitmap`, BitmapImpl.i.dfy:19-21 -/
abbrev Bitmap := List Word

namespace Bitmap

/-- `Constructor`, BitmapImpl.i.dfy:84-107; the length is a multiple of 64 -/
def new (len : Nat) : Bitmap := List.replicate (len / 64) 0#64

/-- `Set`, BitmapImpl.i.dfy:115-156 -/
def set (b : Bitmap) (c : Nat) : Option Bitmap :=
  match b[c / 64]? with
  | none => none
  | some w => some (List.set b (c / 64) (setBit1 w (c % 64)))

/-- `Unset`, BitmapImpl.i.dfy:164-201 -/
def unset (b : Bitmap) (c : Nat) : Option Bitmap :=
  match b[c / 64]? with
  | none => none
  | some w => some (List.set b (c / 64) (setBit0 w (c % 64)))

/-- `GetIsSet`, BitmapImpl.i.dfy:203-217 -/
def isSet (b : Bitmap) (c : Nat) : Option Bool :=
  match b[c / 64]? with
  | none => none
  | some w => some (inSet (c % 64) w)

/-- The inner loop of `Alloc`, BitmapImpl.i.dfy:300-314, with `n` bits left. -/
def allocBit (w : Word) : Nat → Nat → Option Nat
  | _, 0 => none
  | j, n + 1 => if !inSet j w then some j else allocBit w (j + 1) n

/-- The outer loop of `Alloc`, BitmapImpl.i.dfy:294-321, with the words left; past the inner loop,
where the code cannot get, it goes on with the next word. -/
def allocWord : Nat → List Word → Option Nat
  | _, [] => none
  | i, w :: ws =>
    if w != ones then
      match allocBit w 0 64 with
      | some j => some (64 * i + j)
      | none => allocWord (i + 1) ws
    else allocWord (i + 1) ws

/-- `Alloc`, BitmapImpl.i.dfy:286-325 -/
def alloc (b : Bitmap) : Option Nat := allocWord 0 b

/-- `UnionConstructor`, BitmapImpl.i.dfy:327-375; its loop fills the array from the left. -/
def union : Bitmap → Bitmap → Option Bitmap
  | [], _ => some []
  | _ :: _, [] => none
  | a :: as, b :: bs =>
    match union as bs with
    | none => none
    | some r => some ((a ||| b) :: r)

end Bitmap

/-- `BlockAllocator`, BlockAllocatorImpl.i.dfy:30-36; `CloneConstructor` of a bitmap is the bitmap. -/
structure BlockAllocator where
  ephemeral : Bitmap
  frozen : Option Bitmap
  persistent : Bitmap
  outstanding : Bitmap
  full : Bitmap

namespace BlockAllocator

/-- `Constructor`, BlockAllocatorImpl.i.dfy:90-110, for a disk of `n` blocks (`NumBlocksUint64`). -/
def new (n : Nat) (bm : Bitmap) : BlockAllocator := ⟨bm, none, bm, Bitmap.new n, bm⟩

/-- `Alloc`, BlockAllocatorImpl.i.dfy:112-121 -/
def alloc (a : BlockAllocator) : Option Nat := a.full.alloc

/-- `MarkUsedEphemeral`, BlockAllocatorImpl.i.dfy:123-134 -/
def markUsedEphemeral (a : BlockAllocator) (i : Nat) : Option BlockAllocator := do
  let e ← a.ephemeral.set i
  let f ← a.full.set i
  return { a with ephemeral := e, full := f }

/-- `MarkUsedFrozen`, BlockAllocatorImpl.i.dfy:138-150 -/
def markUsedFrozen (a : BlockAllocator) (i : Nat) : Option BlockAllocator := do
  let z ← a.frozen
  let z ← z.set i
  let f ← a.full.set i
  return { a with frozen := some z, full := f }

/-- `MarkUsedOutstanding`, BlockAllocatorImpl.i.dfy:152-163 -/
def markUsedOutstanding (a : BlockAllocator) (i : Nat) : Option BlockAllocator := do
  let o ← a.outstanding.set i
  let f ← a.full.set i
  return { a with outstanding := o, full := f }

/-- The bit of the frozen bitmap, if there is one, BlockAllocatorImpl.i.dfy:175-178, 206-209 -/
def inFrozen (a : BlockAllocator) (i : Nat) : Option Bool :=
  match a.frozen with
  | some z => z.isSet i
  | none => some false

/-- `MarkFreeOutstanding`, BlockAllocatorImpl.i.dfy:165-194 -/
def markFreeOutstanding (a : BlockAllocator) (i : Nat) : Option BlockAllocator := do
  let o ← a.outstanding.unset i
  let b0 ← a.inFrozen i
  if b0 then return { a with outstanding := o }
  let b1 ← a.ephemeral.isSet i
  if b1 then return { a with outstanding := o }
  let b2 ← a.persistent.isSet i
  if b2 then return { a with outstanding := o }
  let f ← a.full.unset i
  return { a with outstanding := o, full := f }

/-- `MarkFreeEphemeral`, BlockAllocatorImpl.i.dfy:196-229 -/
def markFreeEphemeral (a : BlockAllocator) (i : Nat) : Option BlockAllocator := do
  let e ← a.ephemeral.unset i
  let b0 ← a.inFrozen i
  if b0 then return { a with ephemeral := e }
  let b1 ← a.outstanding.isSet i
  if b1 then return { a with ephemeral := e }
  let b2 ← a.persistent.isSet i
  if b2 then return { a with ephemeral := e }
  let f ← a.full.unset i
  return { a with ephemeral := e, full := f }

/-- `MoveFrozenToPersistent`, BlockAllocatorImpl.i.dfy:231-257 -/
def moveFrozenToPersistent (a : BlockAllocator) : Option BlockAllocator := do
  let z ← a.frozen
  let fo ← Bitmap.union z a.outstanding
  let fu ← Bitmap.union a.ephemeral fo
  return ⟨a.ephemeral, none, z, a.outstanding, fu⟩

/-- `CopyEphemeralToFrozen`, BlockAllocatorImpl.i.dfy:259-282 -/
def copyEphemeralToFrozen (a : BlockAllocator) : Option BlockAllocator :=
  some { a with frozen := some a.ephemeral }

end BlockAllocator

/-! ### Facts -/

theorem ones_bit {i : Nat} (h : i < 64) : ones.getLsbD i = true := by
  have : ones = BitVec.allOnes 64 := by decide
  rw [this, BitVec.getLsbD_allOnes]; simpa using h

theorem bit_bit (i j : Nat) (hi : i < 64) : (bit i).getLsbD j = decide (i = j) := by
  unfold bit
  rw [BitVec.getLsbD_shiftLeft]
  by_cases h : i = j
  · subst h; simp [hi]
  · by_cases h2 : j < i
    · simp [h2, h]
    · have : j - i ≠ 0 := by omega
      simp [h, BitVec.getLsbD_one, this]

theorem inSet_eq {i : Nat} (hi : i < 64) (a : Word) : inSet i a = a.getLsbD i := by
  unfold inSet
  cases h : a.getLsbD i with
  | true =>
    rw [bne_iff_ne]
    intro hc
    have := congrArg (fun x : Word => x.getLsbD i) hc
    simp only [BitVec.getLsbD_and, h, bit_bit i i hi] at this
    simp at this
  | false =>
    have : a &&& bit i = 0#64 := by
      apply BitVec.eq_of_getLsbD_eq
      intro j hj
      rw [BitVec.getLsbD_and, bit_bit i j hi]
      by_cases h2 : i = j
      · subst h2; simp [h]
      · simp [h2]
    rw [this]; rfl

theorem inSet_set1 {i j : Nat} (hi : i < 64) (hj : j < 64) (a : Word) :
    inSet j (setBit1 a i) = (inSet j a || decide (j = i)) := by
  rw [inSet_eq hj, inSet_eq hj]
  unfold setBit1
  rw [BitVec.getLsbD_or, bit_bit i j hi]
  simp [eq_comm]

theorem inSet_set0 {i j : Nat} (hi : i < 64) (hj : j < 64) (a : Word) :
    inSet j (setBit0 a i) = (inSet j a && !decide (j = i)) := by
  rw [inSet_eq hj, inSet_eq hj]
  unfold setBit0 bitComp
  rw [BitVec.getLsbD_and, BitVec.getLsbD_xor, bit_bit i j hi, ones_bit hj]
  simp [eq_comm]

theorem inSet_or {i : Nat} (hi : i < 64) (a b : Word) : inSet i (a ||| b) = (inSet i a || inSet i b) := by
  rw [inSet_eq hi, inSet_eq hi, inSet_eq hi, BitVec.getLsbD_or]

theorem not_ones {w : Word} (h : (w != ones) = true) : ∃ i < 64, inSet i w = false := by
  rw [bne_iff_ne] at h
  refine Classical.byContradiction (fun hc => h ?_)
  apply BitVec.eq_of_getLsbD_eq
  intro j hj
  rw [ones_bit hj, ← inSet_eq hj]
  cases hs : inSet j w with
  | true => rfl
  | false => exact absurd ⟨j, hj, hs⟩ hc

/-- The bitmap has `n` bits and they are set as `P` says. -/
structure Rep (n : Nat) (P : Nat → Prop) (b : Bitmap) : Prop where
  len : 64 * b.length = n
  bits : ∀ c, c < n → ∃ w, b[c / 64]? = some w ∧ (inSet (c % 64) w = true ↔ P c)

variable {n : Nat} {P Q : Nat → Prop} {b : Bitmap}

theorem Rep.new (h : n % 64 = 0) : Rep n (fun _ => False) (Bitmap.new n) := by
  unfold Bitmap.new
  refine ⟨by rw [List.length_replicate]; omega, fun c hc => ⟨0#64, ?_, ?_⟩⟩
  · rw [List.getElem?_replicate, if_pos (by omega)]
  · rw [inSet_eq (Nat.mod_lt _ (by omega))]; simp

theorem Rep.isSet (h : Rep n P b) {c : Nat} (hc : c < n) : ∃ r, b.isSet c = some r ∧ (r = true ↔ P c) := by
  obtain ⟨w, hw, hp⟩ := h.bits c hc
  exact ⟨_, by unfold Bitmap.isSet; rw [hw], hp⟩

theorem Rep.set (h : Rep n P b) {c : Nat} (hc : c < n) :
    ∃ b', b.set c = some b' ∧ Rep n (fun x => P x ∨ x = c) b' := by
  obtain ⟨w, hw, _⟩ := h.bits c hc
  refine ⟨_, by unfold Bitmap.set; rw [hw], by rw [List.length_set]; exact h.len, fun x hx => ?_⟩
  obtain ⟨v, hv, hp⟩ := h.bits x hx
  rw [List.getElem?_set]
  have hxl : x / 64 < b.length := by have := h.len; omega
  by_cases hd : c / 64 = x / 64
  · rw [if_pos hd, hd, if_pos hxl]
    rw [hd, hv] at hw
    cases hw
    refine ⟨_, rfl, ?_⟩
    rw [inSet_set1 (Nat.mod_lt _ (by omega)) (Nat.mod_lt _ (by omega)), Bool.or_eq_true, hp, decide_eq_true_iff]
    constructor
    · rintro (h1 | h1)
      · exact .inl h1
      · exact .inr (by omega)
    · rintro (h1 | h1)
      · exact .inl h1
      · exact .inr (by omega)
  · rw [if_neg hd]
    refine ⟨v, hv, hp.trans ⟨.inl, ?_⟩⟩
    rintro (h1 | h1)
    · exact h1
    · subst h1; exact absurd rfl hd

theorem Rep.unset (h : Rep n P b) {c : Nat} (hc : c < n) :
    ∃ b', b.unset c = some b' ∧ Rep n (fun x => P x ∧ x ≠ c) b' := by
  obtain ⟨w, hw, _⟩ := h.bits c hc
  refine ⟨_, by unfold Bitmap.unset; rw [hw], by rw [List.length_set]; exact h.len, fun x hx => ?_⟩
  obtain ⟨v, hv, hp⟩ := h.bits x hx
  rw [List.getElem?_set]
  have hxl : x / 64 < b.length := by have := h.len; omega
  by_cases hd : c / 64 = x / 64
  · rw [if_pos hd, hd, if_pos hxl]
    rw [hd, hv] at hw
    cases hw
    refine ⟨_, rfl, ?_⟩
    rw [inSet_set0 (Nat.mod_lt _ (by omega)) (Nat.mod_lt _ (by omega)), Bool.and_eq_true, hp]
    simp only [Bool.not_eq_true', decide_eq_false_iff_not]
    constructor
    · rintro ⟨h1, h2⟩
      exact ⟨h1, by omega⟩
    · rintro ⟨h1, h2⟩
      exact ⟨h1, by omega⟩
  · rw [if_neg hd]
    refine ⟨v, hv, hp.trans ⟨fun h1 => ⟨h1, ?_⟩, And.left⟩⟩
    intro h1
    subst h1; exact absurd rfl hd

theorem union_get : ∀ (a b : Bitmap), a.length = b.length → ∃ r, Bitmap.union a b = some r ∧ r.length = a.length ∧
    ∀ (i : Nat) (w v : Word), a[i]? = some w → b[i]? = some v → r[i]? = some (w ||| v)
  | [], b, _ => ⟨[], rfl, rfl, fun i w v h => by simp at h⟩
  | x :: as, [], h => by simp at h
  | x :: as, y :: bs, h => by
    obtain ⟨r, h1, h2, h3⟩ := union_get as bs (by simpa using h)
    refine ⟨(x ||| y) :: r, by simp only [Bitmap.union, h1], by simp [h2], fun i w v hw hv => ?_⟩
    cases i with
    | zero => simp at hw hv ⊢; rw [hw, hv]
    | succ i => simp at hw hv ⊢; exact h3 i w v hw hv

theorem Rep.union {b' : Bitmap} (h : Rep n P b) (h' : Rep n Q b') :
    ∃ r, Bitmap.union b b' = some r ∧ Rep n (fun x => P x ∨ Q x) r := by
  obtain ⟨r, h1, h2, h3⟩ := union_get b b' (by have := h.len; have := h'.len; omega)
  refine ⟨r, h1, by rw [h2]; exact h.len, fun c hc => ?_⟩
  obtain ⟨w, hw, hp⟩ := h.bits c hc
  obtain ⟨v, hv, hq⟩ := h'.bits c hc
  exact ⟨_, h3 _ _ _ hw hv, by rw [inSet_or (Nat.mod_lt _ (by omega)), Bool.or_eq_true, hp, hq]⟩

theorem allocBit_some {w : Word} : ∀ (k j : Nat) {r : Nat}, Bitmap.allocBit w j k = some r →
    j ≤ r ∧ r < j + k ∧ inSet r w = false ∧ ∀ i, j ≤ i → i < r → inSet i w = true
  | 0, _, _, h => nomatch h
  | k + 1, j, r, h => by
    unfold Bitmap.allocBit at h
    cases hs : inSet j w with
    | false =>
      rw [hs] at h
      cases h
      exact ⟨Nat.le_refl _, by omega, hs, fun i _ _ => by omega⟩
    | true =>
      rw [hs] at h
      obtain ⟨h1, h2, h3, h4⟩ := allocBit_some k (j + 1) h
      refine ⟨by omega, by omega, h3, fun i hi hr => ?_⟩
      by_cases he : i = j
      · rw [he, hs]
      · exact h4 i (by omega) hr

theorem allocBit_none {w : Word} : ∀ (k j : Nat), Bitmap.allocBit w j k = none →
    ∀ i, j ≤ i → i < j + k → inSet i w = true
  | 0, _, _ => fun i _ _ => by omega
  | k + 1, j, h => fun i hi hr => by
    unfold Bitmap.allocBit at h
    cases hs : inSet j w with
    | false => rw [hs] at h; cases h
    | true =>
      rw [hs] at h
      by_cases he : i = j
      · rw [he, hs]
      · exact allocBit_none k (j + 1) h i (by omega) (by omega)

/-- All the bits of the word are set. -/
def AllSet (w : Word) : Prop := ∀ i, i < 64 → inSet i w = true

theorem allocWord_some : ∀ (ws : List Word) (i : Nat) {r : Nat}, Bitmap.allocWord i ws = some r →
    ∃ k w, ws[k]? = some w ∧ r / 64 = i + k ∧ inSet (r % 64) w = false ∧
      (∀ j, j < r % 64 → inSet j w = true) ∧ ∀ l v, l < k → ws[l]? = some v → AllSet v
  | [], _, _, h => nomatch h
  | w :: ws, i, r, h => by
    have key : Bitmap.allocWord (i + 1) ws = some r → AllSet w → ∃ k w', (w :: ws)[k]? = some w' ∧ r / 64 = i + k ∧
        inSet (r % 64) w' = false ∧ (∀ j, j < r % 64 → inSet j w' = true) ∧
        ∀ l v, l < k → (w :: ws)[l]? = some v → AllSet v := by
      intro h1 ha
      obtain ⟨k, w', g1, g2, g3, g4, g5⟩ := allocWord_some ws (i + 1) h1
      refine ⟨k + 1, w', by simpa using g1, by omega, g3, g4, fun l v hl hv => ?_⟩
      cases l with
      | zero => simp at hv; rw [← hv]; exact ha
      | succ l => simp at hv; exact g5 l v (by omega) hv
    unfold Bitmap.allocWord at h
    cases hw : (w != ones) with
    | false =>
      rw [hw] at h
      simp only [Bool.false_eq_true, if_false] at h
      refine key h (fun j hj => ?_)
      have : w = ones := by simpa using hw
      rw [this, inSet_eq hj, ones_bit hj]
    | true =>
      rw [hw] at h
      simp only [if_true] at h
      cases ha : Bitmap.allocBit w 0 64 with
      | none =>
        rw [ha] at h
        exact key h (fun j hj => allocBit_none 64 0 ha j (by omega) (by omega))
      | some j =>
        rw [ha] at h
        cases h
        obtain ⟨h1, h2, h3, h4⟩ := allocBit_some 64 0 ha
        have e1 : (64 * i + j) / 64 = i + 0 := by omega
        have e2 : (64 * i + j) % 64 = j := by omega
        refine ⟨0, w, rfl, e1, by rw [e2]; exact h3, fun x hx => h4 x (by omega) (by omega), fun l _ hl => by omega⟩

theorem allocWord_none : ∀ (ws : List Word) (i : Nat), Bitmap.allocWord i ws = none → ∀ (l : Nat) (v : Word), ws[l]? = some v → AllSet v
  | [], _, _, l, v, h => by simp at h
  | w :: ws, i, h, l, v, hv => by
    unfold Bitmap.allocWord at h
    cases hw : (w != ones) with
    | false =>
      rw [hw] at h
      simp only [Bool.false_eq_true, if_false] at h
      cases l with
      | zero =>
        simp at hv
        intro j hj
        have : w = ones := by simpa using hw
        rw [← hv, this, inSet_eq hj, ones_bit hj]
      | succ l => simp at hv; exact allocWord_none ws (i + 1) h l v hv
    | true =>
      rw [hw] at h
      simp only [if_true] at h
      obtain ⟨x, hx, hf⟩ := not_ones hw
      cases ha : Bitmap.allocBit w 0 64 with
      | none => rw [allocBit_none 64 0 ha x (by omega) (by omega)] at hf; cases hf
      | some j => rw [ha] at h; cases h

/-- **The search gives the least number that is not in the set.** -/
theorem Rep.alloc (h : Rep n P b) (c : Nat) :
    b.alloc = some c ↔ c < n ∧ ¬ P c ∧ ∀ j, j < c → P j := by
  have hsome : ∀ r, b.alloc = some r → r < n ∧ ¬ P r ∧ ∀ j, j < r → P j := by
    intro r hr
    obtain ⟨k, w, h1, h2, h3, h4, h5⟩ := allocWord_some b 0 hr
    have hk : k < b.length := (List.getElem?_eq_some_iff.1 h1).1
    have hlen := h.len
    have hrn : r < n := by omega
    refine ⟨hrn, ?_, fun j hj => ?_⟩
    · obtain ⟨v, hv, hp⟩ := h.bits r hrn
      rw [show r / 64 = k by omega, h1] at hv
      cases hv
      rw [← hp, h3]; exact Bool.false_ne_true
    · obtain ⟨v, hv, hp⟩ := h.bits j (by omega)
      rw [← hp]
      by_cases he : j / 64 = k
      · rw [he, h1] at hv
        cases hv
        exact h4 _ (by omega)
      · exact h5 (j / 64) v (by omega) hv _ (Nat.mod_lt _ (by omega))
  refine ⟨hsome c, fun ⟨h1, h2, h3⟩ => ?_⟩
  cases hb : b.alloc with
  | none =>
    obtain ⟨v, hv, hp⟩ := h.bits c h1
    exact absurd (hp.1 (allocWord_none b 0 hb _ v hv _ (Nat.mod_lt _ (by omega)))) h2
  | some r =>
    obtain ⟨g1, g2, g3⟩ := hsome r hb
    rcases Nat.lt_trichotomy c r with hl | hl | hl
    · exact absurd (g3 c hl) h2
    · rw [hl]
    · exact absurd (h3 r hl) g2

theorem Rep.congr (h : Rep n P b) (hq : ∀ c, c < n → (P c ↔ Q c)) : Rep n Q b :=
  ⟨h.len, fun c hc => by
    obtain ⟨w, h1, h2⟩ := h.bits c hc
    exact ⟨w, h1, h2.trans (hq c hc)⟩⟩

end Verif.Bits
