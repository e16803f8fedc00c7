import Verif.Marshal.Resizable
/-
Model of Splinter/src/marshalling/KVPairFormat_v.rs.
-/
namespace Verif.Marshal

/-- KVPairFormat_v.rs 58-62 -/
structure KV (K D : Type) where
  keyf : Fmt K
  dataf : Fmt D
  lent : IntTy

namespace KV
variable {K D : Type} (w : KV K D)

/-- KVPairFormat_v.rs 170-179 -/
structure Valid : Prop where
  key : w.keyf.Lawful
  data : w.dataf.Lawful
  len : w.lent.max + w.lent.size ≤ usizeMax

/-- KVPairFormat_v.rs 86-89 -/
def keylen (data : Bytes) : Nat := (intFmt w.lent).parse (sub data 0 w.lent.size)

/-- The bytes of the key, KVPairFormat_v.rs 91-96 -/
def keyBytes (data : Bytes) : Bytes := sub data w.lent.size (w.lent.size + w.keylen data)

/-- The bytes of the value, KVPairFormat_v.rs 122-125 -/
def valueBytes (data : Bytes) : Bytes := sub data (w.lent.size + w.keylen data) data.length

/-- KVPairFormat_v.rs 181-192 -/
def Parsable (data : Bytes) : Prop :=
  w.lent.size ≤ data.length ∧ w.keyf.Parsable (w.keyBytes data) ∧
  w.lent.size + w.keylen data ≤ data.length ∧ w.dataf.Parsable (w.valueBytes data)

/-- KVPairFormat_v.rs 128-137 -/
def execKeylenSlice (s : Slice) : Exec Slice := s.execXslice ⟨0, w.lent.size⟩

/-- KVPairFormat_v.rs 149-165 -/
def execTryKeylen (s : Slice) (d : Bytes) : Exec (Option Nat) := do
  let l ← s.len
  if l < w.lent.size then pure none
  else
    let ks ← w.execKeylenSlice s
    intTryParse w.lent 0 ks d

/-- KVPairFormat_v.rs 104-111 -/
def execKeyFits (s : Slice) (keylen : Nat) : Exec Bool := do
  let n ← uadd w.lent.size keylen
  let l ← s.len
  pure (decide (n ≤ l))

/-- KVPairFormat_v.rs 113-119 -/
def execKeySlice (s : Slice) (keylen : Nat) : Exec Slice := do
  let e ← uadd w.lent.size keylen
  s.execXslice ⟨w.lent.size, e⟩

/-- KVPairFormat_v.rs 228-291 -/
def tryParse (mem : Nat) (s : Slice) (d : Bytes) : Exec (Option (K × D)) := do
  let l ← s.len
  if l < w.lent.size then pure none
  else
    match ← w.execTryKeylen s d with
    | none => pure none
    | some n =>
      let keylen := IntTy.toUsize n
      let fits ← w.execKeyFits s keylen
      if fits = false then pure none
      else
        let ks ← w.execKeySlice s keylen
        let kp ← w.keyf.execParsable mem ks d
        if kp = false then pure none
        else
          let e ← uadd w.lent.size keylen
          let ks ← s.execSubslice w.lent.size e
          match ← w.keyf.tryParse mem ks d with
          | none => pure none
          | some k =>
            match ← w.dataf.tryParse mem ⟨ks.end_, s.end_⟩ d with
            | none => pure none
            | some v => pure (some (k, v))

/-- KVPairFormat_v.rs 301-350 -/
def marshall (kv : K × D) (d : Bytes) (start : Nat) : Exec (Bytes × Nat) := do
  let sz ← w.keyf.execSize kv.1
  let a ← intMarshall w.lent (w.lent.fromUsize sz) d start
  let b ← w.keyf.marshall kv.1 a.1 a.2
  w.dataf.marshall kv.2 b.1 b.2

/-- KVPairFormat_v.rs 213-218 -/
def execSize (kv : K × D) : Exec Nat := do
  let a ← w.keyf.execSize kv.1
  let x ← uadd w.lent.size a
  let b ← w.dataf.execSize kv.2
  uadd x b

/-- KVPairFormat_v.rs 166-351 -/
def fmt : Fmt (K × D) where
  Parsable := w.Parsable
  parse data := (w.keyf.parse (w.keyBytes data), w.dataf.parse (w.valueBytes data))
  Suffices mem data := w.lent.size + w.keylen data ≤ data.length →
    w.keyf.Suffices mem (w.keyBytes data) ∧ w.dataf.Suffices mem (w.valueBytes data)
  tryParse := w.tryParse
  execParsable := defaultParsable w.tryParse
  execParse := defaultParse w.tryParse
  Marshallable kv := w.keyf.Marshallable kv.1 ∧ w.dataf.Marshallable kv.2 ∧
    w.lent.size + w.keyf.size kv.1 + w.dataf.size kv.2 ≤ usizeMax ∧
    w.keyf.size kv.1 ≤ w.lent.max
  size kv := w.lent.size + w.keyf.size kv.1 + w.dataf.size kv.2
  execSize := w.execSize
  marshall := w.marshall

end KV

namespace KV
variable {K D : Type} {w : KV K D}

theorem keylen_le (data : Bytes) : w.keylen data ≤ w.lent.max := IntTy.parse_le_max _ _

theorem execTryKeylen_ok {s : Slice} {d : Bytes} (hv : s.Valid d)
    (hd : d.length ≤ usizeMax) (hl : w.lent.size ≤ (s.i d).length) :
    w.execTryKeylen s d = .ok (some (w.keylen (s.i d))) := by
  obtain ⟨c1, c2, c3⟩ := hv.cut hd (a := 0) (b := w.lent.size) (Nat.zero_le _) hl
  unfold execTryKeylen execKeylenSlice Slice.execXslice
  rw [hv.len_ok, Exec.ok_bind, if_neg (by omega)]
  simp only
  rw [c1, Exec.ok_bind, int_tryParse c2 hd, c3, if_pos]
  · rfl
  · rw [length_sub' hl]; exact Nat.le_refl _

theorem tryParse_ok (h : w.Valid) {s : Slice} {d : Bytes} {mem : Nat} (hv : s.Valid d)
    (hd : d.length ≤ usizeMax) (hm : w.fmt.Suffices mem (s.i d)) :
    (w.Parsable (s.i d) → w.tryParse mem s d = .ok (some (w.fmt.parse (s.i d)))) ∧
    (¬ w.Parsable (s.i d) → w.tryParse mem s d = .ok none) := by
  unfold tryParse
  rw [hv.len_ok, Exec.ok_bind]
  by_cases hl : ¬ (w.lent.size ≤ (s.i d).length)
  · rw [if_pos (by omega)]
    exact ⟨fun hc => absurd hc.1 hl, fun _ => rfl⟩
  replace hl := Classical.not_not.mp hl
  rw [if_neg (by omega), execTryKeylen_ok hv hd hl, Exec.ok_bind]
  simp only [IntTy.toUsize]
  have hk := keylen_le (w := w) (s.i d)
  have hlen := h.len
  unfold execKeyFits
  rw [uadd_ok (by omega), Exec.ok_bind, hv.len_ok, Exec.ok_bind, Exec.pure_eq, Exec.ok_bind]
  by_cases hf : ¬ (w.lent.size + w.keylen (s.i d) ≤ (s.i d).length)
  · rw [if_pos (decide_eq_false hf)]
    exact ⟨fun hc => absurd hc.2.2.1 hf, fun _ => rfl⟩
  replace hf := Classical.not_not.mp hf
  rw [if_neg (by rw [decide_eq_true hf]; simp)]
  obtain ⟨c1, c2, c3⟩ := hv.cut hd (a := w.lent.size) (b := w.lent.size + w.keylen (s.i d))
    (by omega) hf
  have hsuf := hm hf
  unfold execKeySlice Slice.execXslice
  rw [uadd_ok (by omega), Exec.ok_bind]
  simp only
  rw [c1, Exec.ok_bind]
  by_cases hp : ¬ (w.keyf.Parsable (w.keyBytes (s.i d)))
  · rw [h.key.parsable_no c2 hd (by rw [c3]; exact hsuf.1) (by rw [c3]; exact hp), Exec.ok_bind]
    simp only [↓reduceIte]
    exact ⟨fun hc => absurd hc.2.1 hp, fun _ => rfl⟩
  replace hp := Classical.not_not.mp hp
  rw [h.key.parsable_yes c2 hd (by rw [c3]; exact hsuf.1) (by rw [c3]; exact hp), Exec.ok_bind]
  rw [if_neg (by simp), Exec.ok_bind, c1, Exec.ok_bind,
    h.key.parses c2 hd (by rw [c3]; exact hp) (by rw [c3]; exact hsuf.1), Exec.ok_bind]
  simp only
  have hle := hv.len_i
  have hv1 := hv.1
  have hv2 := hv.2
  have hvs : Slice.Valid ⟨(s.subslice w.lent.size (w.lent.size + w.keylen (s.i d))).end_, s.end_⟩ d :=
    ⟨by show s.start + _ ≤ s.end_; omega, hv2⟩
  have hvi : Slice.i ⟨(s.subslice w.lent.size (w.lent.size + w.keylen (s.i d))).end_, s.end_⟩ d =
      w.valueBytes (s.i d) := by
    unfold valueBytes
    rw [hle]
    show sub d (s.start + (w.lent.size + w.keylen (s.i d))) s.end_ = sub (sub d s.start s.end_) _ _
    rw [sub_sub (by omega)]
    congr 1; omega
  by_cases hpd : w.dataf.Parsable (w.valueBytes (s.i d))
  · rw [h.data.parses hvs hd (by rw [hvi]; exact hpd) (by rw [hvi]; exact hsuf.2), Exec.ok_bind]
    refine ⟨fun _ => ?_, fun hc => absurd ⟨hl, hp, hf, hpd⟩ hc⟩
    simp only
    rw [hvi, c3]
    rfl
  · rw [h.data.refuses hvs hd (by rw [hvi]; exact hpd) (by rw [hvi]; exact hsuf.2), Exec.ok_bind]
    exact ⟨fun hc => absurd hc.2.2.2 hpd, fun _ => rfl⟩

/-- Pairs of lawful formats are lawful. -/
theorem lawful (h : w.Valid) : w.fmt.Lawful := by
  have hp : ∀ {mem s d}, s.Valid d → d.length ≤ usizeMax → w.fmt.Suffices mem (s.i d) →
      (w.fmt.Parsable (s.i d) → w.fmt.tryParse mem s d = .ok (some (w.fmt.parse (s.i d)))) ∧
      (¬ w.fmt.Parsable (s.i d) → w.fmt.tryParse mem s d = .ok none) :=
    fun hv hd hm => tryParse_ok h hv hd hm
  refine ⟨fun hv hd h hm => (hp hv hd hm).1 h, fun hv hd h hm => (hp hv hd hm).2 h,
    fun hv hd hm h => (default_laws (hp hv hd hm).1 (hp hv hd hm).2).1 h,
    fun hv hd hm h => (default_laws (hp hv hd hm).1 (hp hv hd hm).2).2.1 h,
    fun hv hd h hm => (default_laws (hp hv hd hm).1 (hp hv hd hm).2).2.2 h, ?_, ?_⟩
  · rintro ⟨k, v⟩ ⟨m1, m2, m3, m4⟩
    show w.execSize (k, v) = _
    unfold execSize
    rw [h.key.size_ok m1, Exec.ok_bind, uadd_ok (by simp only at m3 ⊢; omega), Exec.ok_bind,
      h.data.size_ok m2, Exec.ok_bind, uadd_ok m3]
    rfl
  · rintro ⟨k, v⟩ d start ⟨m1, m2, m3, m4⟩ hs hd
    simp only at m1 m2 m3 m4
    have hs : start + (w.lent.size + w.keyf.size k + w.dataf.size v) ≤ d.length := hs
    show ∃ d', _ ∧ Wrote d d' start (start + (w.lent.size + w.keyf.size k + w.dataf.size v)) ∧
      w.Parsable (sub d' start (start + (w.lent.size + w.keyf.size k + w.dataf.size v))) ∧ _
    obtain ⟨d1, a1, a2, a3⟩ := intMarshall_ok (t := w.lent) (v := w.lent.fromUsize (w.keyf.size k))
      (d := d) (start := start) (by omega) hd
    obtain ⟨d2, b1, b2, b3, b4⟩ := h.key.marshalls (v := k) (d := d1) (start := start + w.lent.size)
      m1 (by rw [a2.len]; omega) (by rw [a2.len]; exact hd)
    obtain ⟨d3, e1, e2, e3, e4⟩ := h.data.marshalls (v := v) (d := d2)
      (start := start + w.lent.size + w.keyf.size k) m2 (by rw [b2.len, a2.len]; omega)
      (by rw [b2.len, a2.len]; exact hd)
    have hlen : d3.length = d.length := by rw [e2.len, b2.len, a2.len]
    have hsl : (sub d3 start (start + (w.lent.size + w.keyf.size k + w.dataf.size v))).length =
        w.lent.size + w.keyf.size k + w.dataf.size v := by
      rw [length_sub' (by omega)]; omega
    have hkl : w.keylen (sub d3 start (start + (w.lent.size + w.keyf.size k + w.dataf.size v))) =
        w.keyf.size k := by
      unfold keylen
      rw [sub_sub (by omega), Nat.add_zero, e2.sub_out (by omega), b2.sub_out (by omega), a3,
        IntTy.fromUsize_eq m4]
      show IntTy.fromLE (sub _ 0 w.lent.size) = _
      rw [sub_all' (by rw [IntTy.toLE_length]; exact Nat.le_refl _), IntTy.fromLE_toLE m4]
    have hkb : w.keyBytes (sub d3 start (start + (w.lent.size + w.keyf.size k + w.dataf.size v))) =
        sub d2 (start + w.lent.size) (start + w.lent.size + w.keyf.size k) := by
      unfold keyBytes
      rw [hkl, sub_sub (by omega), ← Nat.add_assoc, e2.sub_out (by omega)]
    have hvb : w.valueBytes (sub d3 start (start + (w.lent.size + w.keyf.size k + w.dataf.size v))) =
        sub d3 (start + w.lent.size + w.keyf.size k)
          (start + w.lent.size + w.keyf.size k + w.dataf.size v) := by
      unfold valueBytes
      rw [hkl, hsl, sub_sub (by omega)]
      congr 1 <;> omega
    refine ⟨d3, ?_, ((a2.mono (Nat.le_refl _) (by omega)).trans
      (b2.mono (by omega) (by omega))).trans (e2.mono (by omega) (by omega)), ⟨?_, ?_, ?_, ?_⟩, ?_⟩
    · show w.marshall (k, v) d start = .ok (d3, start + (w.lent.size + w.keyf.size k + w.dataf.size v))
      unfold marshall
      rw [h.key.size_ok m1, Exec.ok_bind, a1, Exec.ok_bind]
      simp only
      rw [b1, Exec.ok_bind]
      simp only
      rw [e1]
      congr 2; omega
    · rw [hsl]; omega
    · rw [hkb]; exact b3
    · rw [hkl, hsl]; omega
    · rw [hvb]; exact e3
    · show (w.keyf.parse (w.keyBytes (sub d3 start
          (start + (w.lent.size + w.keyf.size k + w.dataf.size v)))), w.dataf.parse (w.valueBytes
          (sub d3 start (start + (w.lent.size + w.keyf.size k + w.dataf.size v))))) = (k, v)
      rw [hkb, hvb, b4, e4]

theorem modest (hk : w.keyf.Modest) (hd : w.dataf.Modest) : w.fmt.Modest := by
  intro mem data hl _
  refine ⟨hk _ _ ?_, hd _ _ ?_⟩
  · unfold keyBytes; rw [length_sub]; omega
  · unfold valueBytes; rw [length_sub]; omega

end KV
end Verif.Marshal
