import Verif.Marshal.KV
/-
C24. Key-value pairs survive a trip through bytes. Statements are about the executable functions.
-/
namespace Verif.C24
open Verif.Marshal

variable {K D : Type} {w : KV K D}

/-- Any pair whose key the length field can express, written at any offset with room and read back
from exactly the bytes written, comes back; nothing else in the buffer changes. -/
theorem encode_decode (h : w.Valid) (hk : w.keyf.Modest) (hdm : w.dataf.Modest) {k : K} {v : D}
    {d : Bytes} {start : Nat} (hkm : w.keyf.Marshallable k) (hvm : w.dataf.Marshallable v)
    (hkl : w.keyf.size k < 256 ^ w.lent.size)
    (room : start + w.lent.size + w.keyf.size k + w.dataf.size v ≤ d.length)
    (hd : d.length ≤ usizeMax) :
    ∃ d' stop, w.marshall (k, v) d start = .ok (d', stop) ∧
      stop = start + w.lent.size + w.keyf.size k + w.dataf.size v ∧ d'.length = d.length ∧
      (∀ i, i < start ∨ stop ≤ i → d'[i]? = d[i]?) ∧
      ∀ mem, d.length ≤ mem → w.tryParse mem ⟨start, stop⟩ d' = .ok (some (k, v)) := by
  have hz : w.fmt.size (k, v) = w.lent.size + w.keyf.size k + w.dataf.size v := rfl
  obtain ⟨d', e1, e2, e3, e4⟩ := (KV.lawful h).marshalls (v := (k, v)) (d := d) (start := start)
    ⟨hkm, hvm, by show w.lent.size + w.keyf.size k + w.dataf.size v ≤ _; omega,
      by show w.keyf.size k ≤ w.lent.max; unfold IntTy.max; omega⟩ (by rw [hz]; omega) hd
  refine ⟨d', _, e1, by rw [hz]; omega, e2.len, e2.out, fun mem hm => ?_⟩
  have hv : Slice.Valid ⟨start, start + w.fmt.size (k, v)⟩ d' :=
    ⟨Nat.le_add_right _ _, by show start + w.fmt.size (k, v) ≤ d'.length; rw [e2.len, hz]; omega⟩
  have hs : w.fmt.Suffices mem (Slice.i ⟨start, start + w.fmt.size (k, v)⟩ d') :=
    KV.modest hk hdm _ _ (by
      rw [hv.len_i]
      show start + w.fmt.size (k, v) - start ≤ mem
      rw [hz]; omega)
  rw [(KV.tryParse_ok h hv (by rw [e2.len]; exact hd) hs).1 e3]
  exact congrArg (fun x => Exec.ok (some x)) e4

/-- The advertised size is the number of bytes written. -/
theorem size_exact (h : w.Valid) {k : K} {v : D} (hkm : w.keyf.Marshallable k)
    (hvm : w.dataf.Marshallable v) (hkl : w.keyf.size k < 256 ^ w.lent.size)
    (hu : w.lent.size + w.keyf.size k + w.dataf.size v ≤ usizeMax) :
    w.execSize (k, v) = .ok (w.lent.size + w.keyf.size k + w.dataf.size v) :=
  (KV.lawful h).size_ok (v := (k, v))
    ⟨hkm, hvm, hu, by show w.keyf.size k ≤ w.lent.max; unfold IntTy.max; omega⟩

/-- Whatever the bytes are, a parse that succeeds took its key from `n` bytes inside the slice, `n`
being the little-endian number in the length field, and its value from all the bytes behind them. -/
theorem key_inside (h : w.Valid) {mem : Nat} {s : Slice} {d : Bytes} {k : K} {v : D}
    (hv : s.Valid d) (hd : d.length ≤ usizeMax) (hm : w.fmt.Suffices mem (s.i d))
    (hp : w.tryParse mem s d = .ok (some (k, v))) :
    ∃ n mid, intTryParse w.lent mem s d = .ok (some n) ∧
      mid = s.start + w.lent.size + n ∧ mid ≤ s.end_ ∧
      w.keyf.Parsable (sub d (s.start + w.lent.size) mid) ∧
      w.keyf.parse (sub d (s.start + w.lent.size) mid) = k ∧
      w.dataf.Parsable (sub d mid s.end_) ∧ w.dataf.parse (sub d mid s.end_) = v := by
  have ht := KV.tryParse_ok h hv hd hm
  have hpar : w.Parsable (s.i d) := by
    by_cases hc : w.Parsable (s.i d)
    · exact hc
    · rw [ht.2 hc] at hp; simp at hp
  rw [ht.1 hpar] at hp
  have hp : (w.keyf.parse (w.keyBytes (s.i d)), w.dataf.parse (w.valueBytes (s.i d))) = (k, v) := by
    exact Option.some.inj (Exec.ok.inj hp)
  obtain ⟨p1, p2, p3, p4⟩ := hpar
  have hle := hv.len_i
  have hv1 := hv.1
  have hkb : w.keyBytes (s.i d) =
      sub d (s.start + w.lent.size) (s.start + w.lent.size + w.keylen (s.i d)) := by
    unfold KV.keyBytes Slice.i
    rw [sub_sub (by unfold Slice.i at p3 hle; omega), Nat.add_assoc]
  have hvb : w.valueBytes (s.i d) = sub d (s.start + w.lent.size + w.keylen (s.i d)) s.end_ := by
    unfold KV.valueBytes
    rw [hle]
    show sub (sub d s.start s.end_) _ _ = _
    rw [sub_sub (by omega)]
    congr 1 <;> omega
  rw [hkb] at p2 hp
  rw [hvb] at p4 hp
  simp only [Prod.mk.injEq] at hp
  refine ⟨w.keylen (s.i d), _, ?_, rfl, by omega, p2, hp.1, p4, hp.2⟩
  rw [int_tryParse hv hd, if_pos p1]
  congr 2
  show IntTy.fromLE (sub _ 0 w.lent.size) = IntTy.fromLE (sub (sub _ 0 w.lent.size) 0 w.lent.size)
  rw [sub_all' (d := sub _ 0 w.lent.size) (by rw [length_sub]; omega)]

/-- A key length that does not fit is refused. -/
theorem long_key_refused (h : w.Valid) {mem n : Nat} {s : Slice} {d : Bytes}
    (hv : s.Valid d) (hd : d.length ≤ usizeMax) (hn : intTryParse w.lent mem s d = .ok (some n))
    (hl : s.end_ - s.start < w.lent.size + n) : w.tryParse mem s d = .ok none := by
  rw [int_tryParse hv hd] at hn
  by_cases hp : w.lent.size ≤ (s.i d).length
  · rw [if_pos hp] at hn
    have hk : w.keylen (s.i d) = n := by
      have : (intFmt w.lent).parse (s.i d) = n := by simpa using hn
      rw [← this]
      show IntTy.fromLE (sub (sub _ 0 w.lent.size) 0 w.lent.size) = IntTy.fromLE (sub _ 0 w.lent.size)
      rw [sub_all' (d := sub _ 0 w.lent.size) (by rw [length_sub]; omega)]
    have hle := hv.len_i
    refine (KV.tryParse_ok h hv hd (fun hc => ?_)).2 (fun hc => ?_)
    · omega
    · have := hc.2.2.1
      omega
  · rw [if_neg hp] at hn; simp at hn

/-! Keys and values are byte strings. -/
def strings : Fmt (List Nat) := Uniform.fmt (intU .u8)
def demo : KV (List Nat) (List Nat) := ⟨strings, strings, .u8⟩
theorem strings_modest : strings.Modest := Uniform.modest (intU_lawful .u8).pos (int_modest .u8)
theorem demo_valid : demo.Valid :=
  ⟨Uniform.lawful (intU_lawful _), Uniform.lawful (intU_lawful _), by decide⟩

/-- For byte strings: any key the length field can count and any value. -/
theorem byte_strings (t : IntTy) (ht : t ≠ .u64) {k v : List Nat} {d : Bytes} {start : Nat}
    (hk : ∀ x ∈ k, x < 256) (hv : ∀ x ∈ v, x < 256) (hkl : k.length < 256 ^ t.size)
    (room : start + t.size + k.length + v.length ≤ d.length) (hd : d.length < 2 ^ 64) :
    ∃ d' stop, KV.marshall ⟨strings, strings, t⟩ (k, v) d start = .ok (d', stop) ∧
      stop = start + t.size + k.length + v.length ∧ d'.length = d.length ∧
      (∀ i, i < start ∨ stop ≤ i → d'[i]? = d[i]?) ∧
      ∀ mem, d.length ≤ mem →
        KV.tryParse ⟨strings, strings, t⟩ mem ⟨start, stop⟩ d' = .ok (some (k, v)) := by
  have hd' : d.length ≤ usizeMax := by unfold usizeMax; omega
  have hval : KV.Valid ⟨strings, strings, t⟩ :=
    ⟨Uniform.lawful (intU_lawful _), Uniform.lawful (intU_lawful _), by
      cases t with
      | u64 => exact absurd rfl ht
      | _ => decide⟩
  have hm : ∀ l : List Nat, (∀ x ∈ l, x < 256) → l.length ≤ d.length → strings.Marshallable l :=
    fun l h1 h2 => ⟨fun x hx => ⟨show x ≤ 255 by have := h1 x hx; omega, rfl⟩,
      show l.length * 1 ≤ usizeMax by omega⟩
  have hsz : ∀ l : List Nat, strings.size l = l.length := fun l => Nat.mul_one _
  have := encode_decode hval strings_modest strings_modest (k := k) (v := v) (start := start)
    (hm k hk (by omega)) (hm v hv (by omega)) (by rw [show KV.keyf _ = strings from rfl, hsz]; exact hkl)
    (by simp only [hsz]; exact room) hd'
  simp only [hsz] at this
  exact this

example : demo.marshall ([1, 2, 3], [9, 8]) (List.replicate 8 0) 1 =
    .ok ([0, 3, 1, 2, 3, 9, 8, 0], 7) := by decide
theorem demo_parse : demo.tryParse 8 ⟨1, 7⟩ [0, 3, 1, 2, 3, 9, 8, 0] = .ok (some ([1, 2, 3], [9, 8])) := by
  decide
example : demo.tryParse 8 ⟨1, 7⟩ [0, 6, 1, 2, 3, 9, 8, 0] = .ok none :=
  long_key_refused demo_valid (n := 6) (by decide) (by decide) (by decide) (by decide)
example : ∃ d' stop, demo.marshall ([1, 2, 3], [9, 8]) (List.replicate 8 0) 1 = .ok (d', stop) := by
  obtain ⟨d', stop, h, _⟩ := byte_strings .u8 (by decide) (k := [1, 2, 3]) (v := [9, 8])
    (d := List.replicate 8 0) (start := 1) (by decide) (by decide) (by decide) (by decide) (by decide)
  exact ⟨d', stop, h⟩
example : ∃ n mid, intTryParse .u8 8 ⟨1, 7⟩ [0, 3, 1, 2, 3, 9, 8, 0] = .ok (some n) ∧ mid ≤ 7 := by
  obtain ⟨n, mid, h1, _, h3, _⟩ := key_inside demo_valid (by decide) (by decide)
    (KV.modest strings_modest strings_modest _ _ (by decide)) demo_parse
  exact ⟨n, mid, h1, h3⟩

end Verif.C24
