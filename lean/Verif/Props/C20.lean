import Verif.Marshal.Int
/-
C20. Integers survive a trip through bytes.
-/
namespace Verif.C20
open Verif.Marshal

/-- Writing any value of the type at any offset with room succeeds, keeps the length of the buffer
and every byte outside the written range, and reading the integer back, from any slice that starts
there and is long enough, gives the value. -/
theorem write_then_read {t : IntTy} {v : Nat} {d : Bytes} {start : Nat} (hv : v < 256 ^ t.size)
    (room : start + t.size ≤ d.length) (hd : d.length < 2 ^ 64) :
    ∃ d', intMarshall t v d start = .ok (d', start + t.size) ∧
      d'.length = d.length ∧
      (∀ i, i < start ∨ start + t.size ≤ i → d'[i]? = d[i]?) ∧
      ∀ mem stop, start + t.size ≤ stop → stop ≤ d.length →
        intTryParse t mem ⟨start, stop⟩ d' = .ok (some v) ∧
        intExecParse t mem ⟨start, stop⟩ d' = .ok v := by
  have hd : d.length ≤ usizeMax := by unfold usizeMax; omega
  have hv : v ≤ t.max := by unfold IntTy.max; omega
  obtain ⟨d', h1, h2, h3⟩ := intMarshall_ok (v := v) room hd
  refine ⟨d', h1, h2.len, h2.out, fun mem stop hs1 hs2 => ?_⟩
  have hval : Slice.Valid ⟨start, stop⟩ d' :=
    ⟨by show start ≤ stop; omega, by show stop ≤ _; rw [h2.len]; exact hs2⟩
  have hl : t.size ≤ (Slice.i ⟨start, stop⟩ d').length := by
    rw [hval.len_i]; show _ ≤ stop - start; omega
  have hp : (intFmt t).parse (Slice.i ⟨start, stop⟩ d') = v := by
    show IntTy.fromLE (sub (sub d' start stop) 0 t.size) = v
    rw [sub_sub hs1, Nat.add_zero, h3, IntTy.fromLE_toLE hv]
  have hd' : d'.length ≤ usizeMax := by rw [h2.len]; exact hd
  rw [int_tryParse hval hd', if_pos hl, int_read hval hd' hl, hp]
  exact ⟨rfl, rfl⟩

/-- The bytes written are the base-256 digits of the value, least significant first. -/
theorem little_endian {t : IntTy} {v : Nat} {d d' : Bytes} {start e : Nat}
    (room : start + t.size ≤ d.length) (hd : d.length < 2 ^ 64)
    (h : intMarshall t v d start = .ok (d', e)) (i : Nat) (hi : i < t.size) :
    d'[start + i]? = some (UInt8.ofNat (v / 256 ^ i % 256)) := by
  have hd : d.length ≤ usizeMax := by unfold usizeMax; omega
  obtain ⟨d2, h1, _, h3⟩ := intMarshall_ok (v := v) room hd
  rw [h] at h1
  simp only [Exec.ok.injEq, Prod.mk.injEq] at h1
  rw [h1.1]
  have := congrArg (fun l : Bytes => l[i]?) h3
  simp only [getElem?_sub] at this
  rw [if_pos (by omega)] at this
  rw [this]
  have digits : ∀ (n x i : Nat), i < n →
      (IntTy.leBytes n x)[i]? = some (UInt8.ofNat (x / 256 ^ i % 256)) := by
    intro n
    induction n with
    | zero => intro x i hi; omega
    | succ n ih =>
      intro x i hi
      cases i with
      | zero => simp [IntTy.leBytes]
      | succ i =>
        rw [IntTy.leBytes, List.getElem?_cons_succ, ih _ _ (by omega), Nat.div_div_eq_div_mul,
          Nat.pow_succ, Nat.mul_comm 256]
  exact digits _ _ _ hi

/-- Reading never fails in any other way than by returning nothing, and returns nothing exactly when
the slice is too short. -/
theorem read_refused_iff {t : IntTy} {d : Bytes} {s : Slice} (mem : Nat) (hs : s.start ≤ s.end_)
    (hin : s.end_ ≤ d.length) (hd : d.length < 2 ^ 64) :
    ∃ o, intTryParse t mem s d = .ok o ∧ (o = none ↔ s.end_ - s.start < t.size) ∧
      ∀ v, o = some v → v < 256 ^ t.size := by
  have hd : d.length ≤ usizeMax := by unfold usizeMax; omega
  have hval : s.Valid d := ⟨hs, hin⟩
  refine ⟨_, int_tryParse hval hd mem, ?_, ?_⟩
  · rw [hval.len_i]
    by_cases h : t.size ≤ s.end_ - s.start
    · rw [if_pos h]; simp; omega
    · rw [if_neg h]; simp; omega
  · intro v hv
    split at hv
    · simp only [Option.some.injEq] at hv
      rw [← hv]
      exact IntTy.lt_of_le_max (IntTy.parse_le_max _ _)
    · simp at hv

/-- Different values are written as different bytes. -/
theorem write_injective {t : IntTy} {v v' : Nat} {d d' : Bytes} {start e : Nat}
    (hv : v < 256 ^ t.size) (hv' : v' < 256 ^ t.size) (room : start + t.size ≤ d.length)
    (hd : d.length < 2 ^ 64) (h : intMarshall t v d start = .ok (d', e))
    (h' : intMarshall t v' d start = .ok (d', e)) : v = v' := by
  obtain ⟨x, h1, _, _, h4⟩ := write_then_read hv room hd
  obtain ⟨y, k1, _, _, k4⟩ := write_then_read hv' room hd
  rw [h] at h1; rw [h'] at k1
  simp only [Exec.ok.injEq, Prod.mk.injEq] at h1 k1
  have e1 := (h4 0 _ (Nat.le_refl _) room).2
  have e2 := (k4 0 _ (Nat.le_refl _) room).2
  rw [← h1.1] at e1; rw [← k1.1, e1] at e2
  exact Exec.ok.inj e2

/-- 0x01020304 as a u32 at offset 2 of an 8-byte buffer. -/
example : intMarshall .u32 0x01020304 [9, 9, 9, 9, 9, 9, 9, 9] 2 =
    .ok ([9, 9, 4, 3, 2, 1, 9, 9], 6) := by decide
example : intTryParse .u32 0 ⟨2, 6⟩ [9, 9, 4, 3, 2, 1, 9, 9] = .ok (some 0x01020304) := by decide
example : intTryParse .u32 0 ⟨2, 5⟩ [9, 9, 4, 3, 2, 1, 9, 9] = .ok none := by decide
example : ∃ d', intMarshall .u64 (2 ^ 64 - 1) (List.replicate 20 7) 11 = .ok (d', 19) := by
  obtain ⟨d', h, _⟩ := write_then_read (t := .u64) (v := 2 ^ 64 - 1) (d := List.replicate 20 7)
    (start := 11) (by decide) (by decide) (by decide)
  exact ⟨d', h⟩
/-- Without room the write panics. -/
example : intMarshall .u16 5 [0, 0] 1 = .panic := by decide

end Verif.C20
