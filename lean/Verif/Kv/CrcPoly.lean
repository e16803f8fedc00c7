import Verif.Kv.Crc
import Mathlib.RingTheory.AdjoinRoot
import Mathlib.Algebra.Polynomial.Reverse
import Mathlib.Algebra.Field.ZMod
import Mathlib.Data.List.GetD
import Mathlib.Tactic.Ring
import Mathlib.Tactic.LinearCombination

/-
The bit strings of `Kv/Crc.lean` as polynomials over the field of two elements: `modF2 p poly` is the remainder
modulo the polynomial of CRC-32C. Only helper facts; the properties are in Props/C68.lean and Props/C69.lean.
-/
namespace Verif.Kv.Crc

open Polynomial

/-- A bit as an element of the field of two elements. -/
def b2 (b : Bool) : ZMod 2 := if b then 1 else 0

/-- The polynomial whose coefficients are the bits, lowest first. -/
noncomputable def toPoly : List Bool → (ZMod 2)[X]
  | [] => 0
  | b :: l => C (b2 b) + X * toPoly l

theorem b2_xor (a b : Bool) : b2 (a ^^ b) = b2 a + b2 b := by
  cases a <;> cases b <;> decide

theorem b2_inj {a b : Bool} (h : b2 a = b2 b) : a = b := by
  cases a <;> cases b <;> first | rfl | exact absurd h (by decide)

theorem b2_and (a b : Bool) : b2 (a && b) = b2 a * b2 b := by
  cases a <;> cases b <;> decide

theorem toPoly_append (p q : List Bool) : toPoly (p ++ q) = toPoly p + X ^ p.length * toPoly q := by
  induction p with
  | nil => simp [toPoly]
  | cons b p ih => rw [List.cons_append, toPoly, ih, toPoly, List.length_cons]; ring

theorem toPoly_zeroes (n : Nat) : toPoly (zeroes n) = 0 := by
  induction n with
  | zero => rfl
  | succ n ih => rw [zeroes, List.replicate_succ, toPoly]; rw [zeroes] at ih; rw [ih]; simp [b2]

theorem toPoly_shift (p : List Bool) (t : Nat) : toPoly (shift p t) = X ^ t * toPoly p := by
  rw [shift, toPoly_append, toPoly_zeroes, zeroes, List.length_replicate, zero_add]

theorem toPoly_xor : ∀ {p q : List Bool}, p.length = q.length →
    toPoly (xorBits p q) = toPoly p + toPoly q
  | [], [], _ => by simp [xorBits, toPoly]
  | a :: p, b :: q, h => by
    have ih := toPoly_xor (p := p) (q := q) (by simpa using h)
    rw [xorBits] at ih
    rw [xorBits, List.zipWith_cons_cons, toPoly, ih, toPoly, toPoly, b2_xor, C_add]
    ring

theorem toPoly_coeff (l : List Bool) (i : Nat) : (toPoly l).coeff i = b2 (l.getD i false) := by
  induction l generalizing i with
  | nil => simp [toPoly, b2]
  | cons b l ih =>
    rw [toPoly, coeff_add]
    cases i with
    | zero => simp [List.getD]
    | succ i => rw [coeff_X_mul, ih, coeff_C_succ, zero_add]; rfl

theorem toPoly_degree (l : List Bool) : (toPoly l).degree < l.length := by
  rw [degree_lt_iff_coeff_zero]
  intro m hm
  rw [toPoly_coeff, List.getD_eq_default _ _ hm]
  rfl

theorem toPoly_inj {p q : List Bool} (hl : p.length = q.length) (h : toPoly p = toPoly q) : p = q := by
  apply List.ext_getElem hl
  intro i h1 h2
  have := toPoly_coeff p i
  rw [h, toPoly_coeff] at this
  have := b2_inj this
  rw [List.getD_eq_getElem _ _ h1, List.getD_eq_getElem _ _ h2] at this
  exact this.symm

/-- The polynomial of CRC-32C. -/
noncomputable def P : (ZMod 2)[X] := toPoly poly

theorem poly_length : poly.length = 33 := rfl

theorem poly_split : poly = bitsOf 0x1EDC6F41 32 ++ [true] := by decide

theorem P_eq : P = X ^ 32 + toPoly (bitsOf 0x1EDC6F41 32) := by
  rw [P, poly_split, toPoly_append]
  have : (bitsOf 0x1EDC6F41 32).length = 32 := rfl
  rw [this]
  simp [toPoly, b2]
  ring

theorem P_monic : P.Monic := by
  rw [P_eq]
  exact monic_X_pow_add (toPoly_degree _)

theorem P_degree : P.degree = 32 := by
  rw [P_eq]
  rw [add_comm, degree_add_eq_right_of_degree_lt]
  · simp
  · rw [degree_X_pow]; exact toPoly_degree _

/-- Residues modulo the polynomial of CRC-32C. -/
abbrev Res := AdjoinRoot P

/-- The residue of a polynomial. -/
noncomputable abbrev φ : (ZMod 2)[X] →+* Res := AdjoinRoot.mk P

theorem φ_P : φ P = 0 := AdjoinRoot.mk_self

/-- Two strings of 32 bits with the same residue are the same. -/
theorem res_inj {p q : List Bool} (hp : p.length = 32) (hq : q.length = 32)
    (h : φ (toPoly p) = φ (toPoly q)) : p = q := by
  apply toPoly_inj (hp.trans hq.symm)
  rw [AdjoinRoot.mk_eq_mk] at h
  by_contra hne
  have h0 : toPoly p - toPoly q ≠ 0 := sub_ne_zero.mpr hne
  have h1 := degree_le_of_dvd h h0
  have h2 : (toPoly p - toPoly q).degree < 32 :=
    lt_of_le_of_lt (degree_sub_le _ _)
      (max_lt (by have := toPoly_degree p; rwa [hp] at this) (by have := toPoly_degree q; rwa [hq] at this))
  rw [P_degree] at h1
  exact absurd h2 (not_lt.mpr h1)

theorem zeroes_length (n : Nat) : (zeroes n).length = n := List.length_replicate

theorem ones_length (n : Nat) : (ones n).length = n := List.length_replicate

theorem bitsOf_length (n len : Nat) : (bitsOf n len).length = len := by
  induction len generalizing n with
  | zero => rfl
  | succ l ih => rw [bitsOf, List.length_cons, ih]

theorem bitsOfBytes_length (s : List UInt8) : (bitsOfBytes s).length = 8 * s.length := by
  induction s with
  | nil => rfl
  | cons b s ih =>
    rw [bitsOfBytes, List.flatMap_cons, List.length_append, bitsOf_length, List.length_cons]
    rw [bitsOfBytes] at ih
    omega

theorem modF2_length (p : List Bool) : (modF2 p poly).length = 32 := by
  induction h : p.length using Nat.strong_induction_on generalizing p with
  | _ n ih =>
    rw [modF2]
    split
    · rename_i hle
      rw [poly_length] at hle
      rw [List.length_append, zeroes_length, poly_length]
      omega
    · rename_i hle
      rw [poly_length] at hle
      split
      · rename_i h0; rw [h0] at hle; simp at hle
      · rename_i h0
        split
        · refine ih _ ?_ _ rfl
          rw [List.length_dropLast, xorBits_length]
          omega
        · refine ih _ ?_ _ rfl
          rw [List.length_dropLast]
          omega

theorem toPoly_dropLast {l : List Bool} (h : l.getD (l.length - 1) false = false) :
    toPoly l.dropLast = toPoly l := by
  by_cases h0 : l = []
  · rw [h0]; rfl
  · have h1 := List.dropLast_append_getLast h0
    have h2 : l.getLast h0 = false := by
      rw [List.getLast_eq_getElem]
      rw [List.getD_eq_getElem _ _ (by have := List.length_pos_iff.mpr h0; omega)] at h
      exact h
    conv_rhs => rw [← h1]
    rw [toPoly_append, h2]
    simp [toPoly, b2]

theorem modF2_res (p : List Bool) : φ (toPoly (modF2 p poly)) = φ (toPoly p) := by
  induction h : p.length using Nat.strong_induction_on generalizing p with
  | _ n ih =>
    rw [modF2]
    split
    · rw [toPoly_append, toPoly_zeroes, mul_zero, add_zero]
    · rename_i hle
      rw [poly_length] at hle
      split
      · rename_i h0; rw [h0] at hle; simp at hle
      · rename_i h0
        have hpos := List.length_pos_iff.mpr h0
        split
        · rename_i hlast
          have hl : p.length = (shift poly (p.length - poly.length)).length := by
            rw [shift, List.length_append, zeroes_length, poly_length]; omega
          rw [ih _ _ _ rfl]
          · rw [toPoly_dropLast, toPoly_xor hl, toPoly_shift, map_add, map_mul]
            rw [show φ (toPoly poly) = 0 from φ_P, mul_zero, add_zero]
            rw [xorBits_length, ← hl, Nat.min_self, List.getD_eq_getElem _ _ (by
              rw [xorBits_length, ← hl]; omega)]
            rw [List.getLast_eq_getElem] at hlast
            simp only [xorBits, List.getElem_zipWith]
            rw [hlast]
            have : (shift poly (p.length - poly.length))[p.length - 1]'(by omega) = true := by
              simp only [shift]
              rw [List.getElem_append_right (by rw [zeroes_length, poly_length]; omega)]
              have h32 : p.length - 1 - (zeroes (p.length - poly.length)).length = 32 := by
                rw [zeroes_length, poly_length]; omega
              simp only [h32]
              rfl
            rw [this]
            rfl
          · rw [List.length_dropLast, xorBits_length]; omega
        · rename_i hlast
          rw [ih _ (by rw [List.length_dropLast]; omega) _ rfl, toPoly_dropLast]
          rw [List.getD_eq_getElem _ _ (by omega)]
          rw [List.getLast_eq_getElem] at hlast
          simpa using hlast

/-- The residue of a string of bits, highest coefficient first: how the code keeps its registers. -/
noncomputable def ev (l : List Bool) : Res := φ (toPoly l.reverse)

/-- The residue of the unknown. -/
noncomputable def x : Res := φ X

theorem ev_append (p q : List Bool) : ev (p ++ q) = ev q + x ^ q.length * ev p := by
  rw [ev, List.reverse_append, toPoly_append, map_add, map_mul, map_pow, List.length_reverse]
  rfl

theorem ev_nil : ev [] = 0 := by rw [ev, List.reverse_nil, toPoly, map_zero]

theorem xorBits_reverse {p q : List Bool} (h : p.length = q.length) :
    (xorBits p q).reverse = xorBits p.reverse q.reverse := by
  unfold xorBits
  rw [List.reverse_zipWith h]

theorem ev_xor {p q : List Bool} (h : p.length = q.length) : ev (xorBits p q) = ev p + ev q := by
  rw [ev, xorBits_reverse h, toPoly_xor (by simpa using h), map_add]
  rfl

theorem ev_zeroes (n : Nat) : ev (zeroes n) = 0 := by
  rw [ev, zeroes, List.reverse_replicate]
  have := toPoly_zeroes n
  rw [zeroes] at this
  rw [this, map_zero]

theorem ev_inj {p q : List Bool} (hp : p.length = 32) (hq : q.length = 32) (h : ev p = ev q) : p = q := by
  have := res_inj (p := p.reverse) (q := q.reverse) (by simpa using hp) (by simpa using hq) h
  exact List.reverse_injective this

theorem ev_mod (p : List Bool) : ev (modF2 p.reverse poly).reverse = ev p := by
  rw [ev, List.reverse_reverse, modF2_res]
  rfl

/-- `advance`, CRC32C_Lemmas.i.dfy:20-31: what `acc` becomes after the bits `data`. -/
def advance (acc data : List Bool) : List Bool :=
  (modF2 (xorBits (shift data.reverse 32) (shift acc.reverse data.length)) poly).reverse

theorem advance_length (acc data : List Bool) : (advance acc data).length = 32 := by
  rw [advance, List.length_reverse, modF2_length]

theorem ev_advance {acc : List Bool} (ha : acc.length = 32) (data : List Bool) :
    ev (advance acc data) = x ^ 32 * ev data + x ^ data.length * ev acc := by
  rw [advance, ev, List.reverse_reverse, modF2_res, toPoly_xor, toPoly_shift, toPoly_shift]
  · rw [map_add, map_mul, map_mul, map_pow, map_pow]
    rfl
  · simp only [shift, List.length_append, zeroes_length, List.length_reverse]
    omega

theorem advance_nil {acc : List Bool} (ha : acc.length = 32) : advance acc [] = acc := by
  apply ev_inj (advance_length _ _) ha
  rw [ev_advance ha, ev_nil]
  simp

/-- `advance_assoc`, CRC32C_Lemmas.i.dfy:126-216 -/
theorem advance_advance {acc : List Bool} (ha : acc.length = 32) (d e : List Bool) :
    advance (advance acc d) e = advance acc (d ++ e) := by
  apply ev_inj (advance_length _ _) (advance_length _ _)
  rw [ev_advance (advance_length _ _), ev_advance ha, ev_advance ha, ev_append, List.length_append]
  ring

end Verif.Kv.Crc
