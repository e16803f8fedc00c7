import Verif.Kv.CrcDetect
import Verif.Kv.SectorBytes
import Verif.Kv.JournalBytes
/-
C68. The checksum shows the damage: flipped bits within 32 consecutive ones, one to three flipped bits anywhere,
an odd number of flipped bits.

Specification: the bits of a string of bytes and how many of them differ, below; what a sector, a block of the
journal and the assumption of the disk are, in Verif/Kv/ByteSystem.lean, Verif/Kv/JournalBytes.lean and
Verif/Kv/ByteDisk.lean.
-/
namespace Verif.C68
open Verif.Kv
open Verif.Kv.Crc (padded diff)
open Verif.Kv.ByteDisk (Checks AllCheck)
open Verif.Kv.SectorBytes (codec)

/-- Bit `i` of a string of bytes: byte `i / 8`, and in it the bit worth `2 ^ (i % 8)`. -/
def bit (s : List UInt8) (i : Nat) : Bool := (s.getD (i / 8) 0).toNat.testBit (i % 8)

/-- How many bits were flipped on the way from `s` to `t`. -/
def flips (s t : List UInt8) : Nat := ((List.range (8 * s.length)).filter fun i => bit s i != bit t i).length

/-- Every flipped bit is among 32 consecutive ones. -/
def Burst (s t : List UInt8) : Prop :=
  ∃ k, ∀ i, i < 8 * s.length → bit s i ≠ bit t i → k ≤ i ∧ i < k + 32

theorem bitsOf_get (n len i : Nat) (h : i < (Crc.bitsOf n len).length) : (Crc.bitsOf n len)[i] = n.testBit i := by
  induction len generalizing n i with
  | zero => cases h
  | succ l ih =>
    cases i with
    | zero => simp only [Crc.bitsOf, List.getElem_cons_zero]; rw [Nat.testBit_zero]
    | succ i =>
      simp only [Crc.bitsOf, List.getElem_cons_succ]
      rw [ih, Nat.testBit_succ]

theorem bits_get (s : List UInt8) (i : Nat) (h : i < (Crc.bitsOfBytes s).length) :
    (Crc.bitsOfBytes s)[i] = bit s i := by
  induction s generalizing i with
  | nil => cases h
  | cons b s ih =>
    have e : Crc.bitsOfBytes (b :: s) = Crc.bitsOf b.toNat 8 ++ Crc.bitsOfBytes s := rfl
    simp only [e]
    have hl := Crc.bitsOf_length b.toNat 8
    by_cases hi : i < 8
    · rw [List.getElem_append_left (by omega), bitsOf_get, bit, Nat.div_eq_of_lt hi, Nat.mod_eq_of_lt hi]
      rfl
    · rw [List.getElem_append_right (by omega), ih]
      rw [bit, bit, hl]
      have h1 : i / 8 = (i - 8) / 8 + 1 := by omega
      have h2 : (i - 8) % 8 = i % 8 := by omega
      rw [h1, h2, List.getD_cons_succ]

theorem diff_get {s t : List UInt8} (i : Nat) (h : i < (diff s t).length) :
    (diff s t)[i] = (bit s i != bit t i) := by
  simp only [diff, Crc.xorBits, List.getElem_zipWith, bits_get]

theorem flips_eq {s t : List UInt8} (hl : t.length = s.length) : flips s t = (diff s t).count true := by
  have h : diff s t = (List.range (8 * s.length)).map fun i => bit s i != bit t i := by
    apply List.ext_getElem
    · rw [Crc.diff_length hl.symm, List.length_map, List.length_range]
    · intro i h1 h2
      rw [diff_get, List.getElem_map, List.getElem_range]
  rw [h, flips, List.count_eq_countP, List.countP_map, List.countP_eq_length_filter]
  congr 1
  apply List.filter_congr
  intro i _
  simp

theorem burst_diff {s t : List UInt8} (hl : t.length = s.length) (h : Burst s t) :
    ∃ k, ∀ i (hi : i < (diff s t).length), (diff s t)[i] = true → k ≤ i ∧ i < k + 32 := by
  obtain ⟨k, hk⟩ := h
  refine ⟨k, fun i hi e => ?_⟩
  rw [diff_get] at e
  exact hk i (by rw [Crc.diff_length hl.symm] at hi; exact hi) (by simpa using e)

/-- **A burst shows**: if all flipped bits of a sector with a right checksum, be they in the checksum, in the
bytes after it or in what follows, are among 32 consecutive ones, its checksum is no longer right. -/
theorem burst_detected {s t : List UInt8} (hl : t.length = s.length) (hs : Checks padded s) (hne : t ≠ s)
    (hb : Burst s t) : ¬ Checks padded t := by
  intro ht
  obtain ⟨k, hk⟩ := burst_diff hl hb
  exact hne (Crc.same_of_burst hl.symm hs ht hk).symm

/-- **An odd number of flipped bits shows.** -/
theorem odd_detected {s t : List UInt8} (hl : t.length = s.length) (hs : Checks padded s)
    (ho : flips s t % 2 = 1) : ¬ Checks padded t := by
  intro ht
  have := Crc.even_flips hl.symm hs ht
  rw [flips_eq hl] at ho
  omega

/-- **One to three flipped bits show**, wherever they are, in a sector of up to 256 megabytes. -/
theorem few_detected {s t : List UInt8} (hl : t.length = s.length) (hlen : s.length ≤ 2 ^ 28)
    (hs : Checks padded s) (hne : t ≠ s) (hf : flips s t ≤ 3) : ¬ Checks padded t := by
  intro ht
  rw [flips_eq hl] at hf
  exact hne (Crc.same_of_few hl.symm hs ht hlen hf).symm

/-- **What VeriBetrKV does with such a sector**: it does not read it as anything, superblock, table or node. -/
theorem not_read {s t : List UInt8} (hl : t.length = s.length) (hs : codec.sector s ≠ none) (hne : t ≠ s)
    (hd : Burst s t ∨ flips s t % 2 = 1 ∨ (s.length ≤ 2 ^ 28 ∧ flips s t ≤ 3)) : codec.sector t = none := by
  have h1 : Checks padded s := by
    unfold Codec.sector at hs
    by_cases h : Checks codec.crc s
    · exact h
    · rw [if_neg h] at hs; exact absurd rfl hs
  have h2 : ¬ Checks padded t := by
    rcases hd with hb | ho | ⟨h, hf⟩
    · exact burst_detected hl h1 hne hb
    · exact odd_detected hl h1 ho
    · exact few_detected hl h h1 hne hf
  unfold Codec.sector
  exact if_neg h2

theorem slice_burst {s t : List UInt8} (hl : t.length = s.length) (hb : Burst s t) (i j : Nat) :
    ∃ k, ∀ m (hm : m < (diff ((s.take j).drop i) ((t.take j).drop i)).length),
      (diff ((s.take j).drop i) ((t.take j).drop i))[m] = true → k ≤ m ∧ m < k + 32 := by
  obtain ⟨k, hk⟩ := burst_diff hl hb
  refine ⟨k - 8 * i, fun m hm e => ?_⟩
  simp only [Crc.diff_slice] at e hm
  rw [List.getElem_drop, List.getElem_take] at e
  rw [List.length_drop, List.length_take] at hm
  have := hk (8 * i + m) (by omega) e
  omega

/-- **The assumption of the disk holds of such damage.** The disk of VeriBetrKV is assumed never to turn, in a
failed read, a slice with a right checksum into another with a right checksum (`AllCheck`). A read that fails by
a burst, or by flipping at most three bits, meets this assumption by itself. -/
theorem disk_assumption {s t : List UInt8} (hl : t.length = s.length)
    (hd : Burst s t ∨ (s.length ≤ 2 ^ 28 ∧ flips s t ≤ 3)) : AllCheck padded s t := by
  intro i j hij hj hs ht
  have hl' : ((s.take j).drop i).length = ((t.take j).drop i).length := by
    rw [List.length_drop, List.length_drop, List.length_take, List.length_take, hl]
  rcases hd with hb | ⟨h, hf⟩
  · obtain ⟨k, hk⟩ := slice_burst hl hb i j
    exact Crc.same_of_burst hl' hs ht hk
  · refine Crc.same_of_few hl' hs ht ?_ ?_
    · rw [List.length_drop, List.length_take]; omega
    · rw [flips_eq hl] at hf
      rw [Crc.diff_slice]
      exact Nat.le_trans (((List.drop_sublist _ _).trans (List.take_sublist _ _)).count_le true) hf

theorem block_checks {b : List UInt8} (h : JournalBytes.blockOfBytes padded b ≠ none) :
    b.length = 4096 ∧ Checks padded b := by
  unfold JournalBytes.blockOfBytes at h
  split at h
  · rename_i h1
    exact ⟨h1.1, by omega, h1.2⟩
  · exact absurd rfl h

/-- **The journal.** Blocks of the journal that were good and come back damaged, by a burst or in at most three
bits, are not read as a journal. -/
theorem journal_detected {s t : List UInt8} (hl : t.length = s.length) (hlen : s.length ≤ 2 ^ 28)
    (hs : JournalBytes.rangeOfBytes padded s ≠ none) (hne : t ≠ s) (hd : Burst s t ∨ flips s t ≤ 3) :
    JournalBytes.rangeOfBytes padded t = none := by
  have hall : AllCheck padded s t := disk_assumption hl (hd.imp_right fun h => ⟨hlen, h⟩)
  -- a journal that checks block by block and has not changed in any block that checks is the same
  have key : ∀ n (a b : List UInt8), a.length = n → b.length = n → JournalBytes.rangeOfBytes padded a ≠ none →
      JournalBytes.rangeOfBytes padded b ≠ none →
      (∀ i j, i ≤ j → j ≤ n → Checks padded ((a.take j).drop i) → Checks padded ((b.take j).drop i) →
        (a.take j).drop i = (b.take j).drop i) → a = b := by
    intro n
    induction n using Nat.strong_induction_on with
    | _ n ih =>
      intro a b ha hb h1 h2 hc
      rw [JournalBytes.rangeOfBytes] at h1 h2
      by_cases h0 : a = []
      · have : b = [] := List.eq_nil_of_length_eq_zero (by rw [hb, ← ha, h0]; rfl)
        rw [h0, this]
      · have h0' : b ≠ [] := by
          intro e; apply h0; apply List.eq_nil_of_length_eq_zero; rw [ha, ← hb, e]; rfl
        rw [dif_neg h0] at h1
        rw [dif_neg h0'] at h2
        by_cases h4 : 4096 ≤ a.length
        · have h4' : 4096 ≤ b.length := by omega
          rw [dif_pos h4] at h1
          rw [dif_pos h4'] at h2
          have a1 : JournalBytes.blockOfBytes padded (a.take 4096) ≠ none := by
            intro e; rw [e] at h1; exact h1 rfl
          have b1 : JournalBytes.blockOfBytes padded (b.take 4096) ≠ none := by
            intro e; rw [e] at h2; exact h2 rfl
          have a2 : JournalBytes.rangeOfBytes padded (a.drop 4096) ≠ none := by
            intro e; rw [e] at h1; apply h1; split <;> first | rfl | simp_all
          have b2 : JournalBytes.rangeOfBytes padded (b.drop 4096) ≠ none := by
            intro e; rw [e] at h2; apply h2; split <;> first | rfl | simp_all
          have e1 := hc 0 4096 (by omega) (by omega) (by simpa using (block_checks a1).2)
            (by simpa using (block_checks b1).2)
          have e2 := ih (n - 4096) (by omega) (a.drop 4096) (b.drop 4096) (by rw [List.length_drop, ha])
            (by rw [List.length_drop, hb]) a2 b2 (by
              intro i j hij hj c1 c2
              have sl : ∀ l : List UInt8, ((l.drop 4096).take j).drop i = (l.take (4096 + j)).drop (4096 + i) := by
                intro l
                rw [List.take_drop, List.drop_drop]
              rw [sl] at c1 c2
              rw [sl, sl]
              exact hc (4096 + i) (4096 + j) (by omega) (by omega) c1 c2)
          rw [List.drop_zero, List.drop_zero] at e1
          rw [← List.take_append_drop 4096 a, ← List.take_append_drop 4096 b, e1, e2]
        · rw [dif_neg h4] at h1; exact absurd rfl h1
  by_contra ht
  exact hne (key _ s t rfl hl hs ht (fun i j h1 h2 h3 h4 => hall i j h1 h2 h3 h4)).symm

theorem bit_append (p q : List UInt8) (i : Nat) (hp : p.length = 32) :
    bit (p ++ q) i = if i < 256 then bit p i else bit q (i - 256) := by
  split
  · rename_i hi
    rw [bit, bit, List.getD_eq_getElem?_getD, List.getD_eq_getElem?_getD,
      List.getElem?_append_left (by omega)]
  · rename_i hi
    rw [bit, bit, List.getD_eq_getElem?_getD, List.getD_eq_getElem?_getD,
      List.getElem?_append_right (by omega), hp]
    have h1 : i / 8 - 32 = (i - 256) / 8 := by omega
    have h2 : i % 8 = (i - 256) % 8 := by omega
    rw [h1, h2]

/-- A sector with a payload of three bytes. -/
def sector : List UInt8 := padded [0x42, 0, 0xff] ++ [0x42, 0, 0xff]

theorem sector_checks : Checks padded sector := by
  have h := Crc.padded_length [0x42, 0, 0xff]
  refine ⟨by rw [sector, List.length_append, h]; decide, ?_⟩
  rw [sector, List.take_left' h, List.drop_left' h]

/-- The demonstration: its last two bytes damaged in five bits. -/
def damaged : List UInt8 := padded [0x42, 0, 0xff] ++ [0x42, 0x11, 0xf8]

theorem demo : Checks padded sector ∧ damaged.length = sector.length ∧ damaged ≠ sector ∧ Burst sector damaged ∧
    flips sector damaged = 5 ∧ ¬ Checks padded damaged := by
  have h := Crc.padded_length [0x42, 0, 0xff]
  have hl : damaged.length = sector.length := by rw [sector, damaged, List.length_append, List.length_append]; rfl
  have hne : damaged ≠ sector := by
    intro e
    exact absurd (List.append_cancel_left e) (by decide)
  have hb : Burst sector damaged := by
    refine ⟨256, fun i hi hd => ?_⟩
    have hlen : sector.length = 35 := by rw [sector, List.length_append, h]; rfl
    rw [sector, damaged, bit_append _ _ _ h, bit_append _ _ _ h] at hd
    split at hd
    · exact absurd rfl hd
    · omega
  refine ⟨sector_checks, hl, hne, hb, ?_, burst_detected hl sector_checks hne hb⟩
  rw [flips_eq hl, diff, sector, damaged, Crc.bitsOfBytes_append, Crc.bitsOfBytes_append,
    Crc.xorBits_append rfl, List.count_append, Crc.xorBits_self, Crc.zeroes, List.count_replicate]
  decide

/-- 32 is the best possible: the polynomial itself, 33 bits long, flipped in a payload leaves the checksum. -/
theorem burst_33_undetected : ∃ s t : List UInt8, t.length = s.length ∧ t ≠ s ∧ Checks padded s ∧ Checks padded t ∧
    ∃ k, ∀ i, i < 8 * s.length → bit s i ≠ bit t i → k ≤ i ∧ i < k + 33 := by
  let p : List UInt8 := [0, 0, 0, 0, 0]
  let q : List UInt8 := [0xf1, 0x76, 0xec, 0x05, 0x01]
  have h0 : Crc.ev (Crc.bitsOfBytes p) = 0 := by
    rw [show Crc.bitsOfBytes p = Crc.zeroes 40 from by decide, Crc.ev_zeroes]
  have h1 : Crc.ev (Crc.bitsOfBytes q) = 0 := by
    rw [show Crc.bitsOfBytes q = Crc.poly.reverse ++ Crc.zeroes 7 from by decide, Crc.ev_append, Crc.ev_zeroes,
      Crc.ev, List.reverse_reverse, show Crc.φ (Crc.toPoly Crc.poly) = 0 from Crc.φ_P, mul_zero, add_zero]
  have h2 : Crc.crcBits p = Crc.crcBits q := by
    apply Crc.ev_inj (Crc.crcBits_length _) (Crc.crcBits_length _)
    rw [Crc.ev_crcBits, Crc.ev_crcBits, h0, h1]
    rfl
  have h3 : padded p = padded q := by
    unfold padded Crc.crc32c
    rw [h2]
  have hp := Crc.padded_length p
  refine ⟨padded p ++ p, padded p ++ q, ?_, ?_, ⟨?_, ?_⟩, ⟨?_, ?_⟩, 256, fun i hi hd => ?_⟩
  · rw [List.length_append, List.length_append]; rfl
  · intro e
    exact absurd (List.append_cancel_left e) (by decide)
  · rw [List.length_append]; omega
  · rw [List.take_left' hp, List.drop_left' hp]
  · rw [List.length_append]; omega
  · rw [List.take_left' hp, List.drop_left' hp, h3]
  · rw [List.length_append, hp] at hi
    have hi' : i < 296 := hi
    rw [bit_append _ _ _ hp, bit_append _ _ _ hp] at hd
    split at hd
    · exact absurd rfl hd
    · refine ⟨by omega, ?_⟩
      by_contra hge
      have hsmall : ∀ j, j < 40 → 33 ≤ j → bit p j = bit q j := by decide
      exact hd (hsmall (i - 256) (by omega) (by omega))

end Verif.C68
