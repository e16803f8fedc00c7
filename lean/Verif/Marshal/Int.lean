import Verif.Marshal.Base
/-
Model of Splinter/src/marshalling/IntegerMarshalling_v.rs.
-/
namespace Verif.Marshal

/-- The four types that implement `IntFormattable`, IntegerMarshalling_v.rs 22-93 and 99-372. Values are
natural numbers below `256 ^ size`. -/
inductive IntTy where
  | u8 | u16 | u32 | u64
deriving DecidableEq

namespace IntTy
/-- `uniform_size`, IntegerMarshalling_v.rs 105, 181, 249, 317 -/
def size : IntTy → Nat
  | u8 => 1
  | u16 => 2
  | u32 => 4
  | u64 => 8
/-- `max`, IntegerMarshalling_v.rs 158, 226, 294, 359 -/
def max (t : IntTy) : Nat := 256 ^ t.size - 1
/-- `to_le_bytes` (vstd::bytes; for u8 lines 124-130) -/
def leBytes : Nat → Nat → Bytes
  | 0, _ => []
  | n + 1, x => UInt8.ofNat (x % 256) :: leBytes n (x / 256)
def toLE (t : IntTy) (x : Nat) : Bytes := leBytes t.size x
/-- `from_le_bytes` (vstd::bytes; for u8 lines 132-135) -/
def fromLE : Bytes → Nat
  | [] => 0
  | b :: bs => b.toNat + 256 * fromLE bs
/-- `from_usize`: `v as Self`, IntegerMarshalling_v.rs 166, 234, 302, 372 -/
def fromUsize (t : IntTy) (v : Nat) : Nat := v % 256 ^ t.size
/-- `to_usize`, IntegerMarshalling_v.rs 164, 232, 300, 367 -/
def toUsize (v : Nat) : Nat := v
end IntTy

/-- The loop of IntegerMarshalling_v.rs 408-424 from iteration `k` on; `src` is the rest of the
source. -/
def installLoop (start : Nat) : Bytes → Nat → Bytes → Exec Bytes
  | [], _, d => .ok d
  | b :: src, k, d => do
    let p ← uadd start k
    let d ← vset d p b
    installLoop start src (k + 1) d

/-- IntegerMarshalling_v.rs 394-427 -/
def installBytes (src d : Bytes) (start : Nat) : Exec (Bytes × Nat) := do
  let e ← uadd start src.length
  let d ← installLoop start src 0 d
  pure (d, e)

/-- IntegerMarshalling_v.rs 491-504 -/
def intTryParse (t : IntTy) (_mem : Nat) (s : Slice) (d : Bytes) : Exec (Option Nat) := do
  let l ← s.len
  if t.size ≤ l then
    let e ← uadd s.start t.size
    let sr ← sliceSubrange d s.start e
    pure (some (IntTy.fromLE sr))
  else pure none

/-- IntegerMarshalling_v.rs 454-470 -/
def intExecParsable (t : IntTy) (_mem : Nat) (s : Slice) (_d : Bytes) : Exec Bool := do
  let l ← s.len
  pure (decide (t.size ≤ l))

/-- IntegerMarshalling_v.rs 506-514 -/
def intExecParse (t : IntTy) (_mem : Nat) (s : Slice) (d : Bytes) : Exec Nat := do
  let e ← uadd s.start t.size
  let sr ← sliceSubrange d s.start e
  pure (IntTy.fromLE sr)

/-- IntegerMarshalling_v.rs 515-527 -/
def intMarshall (t : IntTy) (v : Nat) (d : Bytes) (start : Nat) : Exec (Bytes × Nat) :=
  installBytes (t.toLE v) d start

/-- IntegerMarshalling_v.rs 439-527. In Rust every value of the type can be marshalled; here that
bound is `Marshallable`. -/
def intFmt (t : IntTy) : Fmt Nat where
  Parsable data := t.size ≤ data.length
  parse data := IntTy.fromLE (sub data 0 t.size)
  Suffices _ _ := True
  tryParse := intTryParse t
  execParsable := intExecParsable t
  execParse := intExecParse t
  Marshallable v := v ≤ t.max
  size _ := t.size
  execSize _ := .ok t.size
  marshall := intMarshall t

namespace IntTy

theorem size_pos (t : IntTy) : 0 < t.size := by cases t <;> decide
theorem size_le (t : IntTy) : t.size ≤ 8 := by cases t <;> decide

theorem leBytes_length : ∀ n x, (leBytes n x).length = n
  | 0, _ => rfl
  | n + 1, x => by simp [leBytes, leBytes_length n]

theorem toLE_length (t : IntTy) (x : Nat) : (t.toLE x).length = t.size := leBytes_length _ _

theorem fromLE_leBytes : ∀ n x, x < 256 ^ n → fromLE (leBytes n x) = x
  | 0, x, h => by simp at h; subst h; rfl
  | n + 1, x, h => by
    simp only [leBytes, fromLE]
    rw [fromLE_leBytes n (x / 256) (by rw [Nat.pow_succ] at h; exact Nat.div_lt_of_lt_mul (by omega))]
    rw [UInt8.toNat_ofNat_of_lt' (by show x % 256 < 256; omega)]
    omega

theorem pow_pos (t : IntTy) : 0 < 256 ^ t.size := Nat.pow_pos (by decide)

theorem lt_of_le_max {t : IntTy} {x : Nat} (h : x ≤ t.max) : x < 256 ^ t.size := by
  have := t.pow_pos
  unfold max at h; omega

theorem max_le (t : IntTy) : t.max ≤ usizeMax := by cases t <;> decide

theorem fromLE_toLE {t : IntTy} {x : Nat} (h : x ≤ t.max) : fromLE (t.toLE x) = x :=
  fromLE_leBytes _ _ (lt_of_le_max h)

theorem fromLE_lt : ∀ b : Bytes, fromLE b < 256 ^ b.length
  | [] => by decide
  | b :: bs => by
    have h1 := fromLE_lt bs
    have h2 : b.toNat < 256 := b.toNat_lt
    simp only [fromLE, List.length_cons, Nat.pow_succ]
    omega

theorem leBytes_fromLE : ∀ b : Bytes, leBytes b.length (fromLE b) = b
  | [] => rfl
  | b :: bs => by
    have h2 : b.toNat < 256 := b.toNat_lt
    simp only [fromLE, List.length_cons, leBytes]
    rw [show (b.toNat + 256 * fromLE bs) % 256 = b.toNat by omega,
      show (b.toNat + 256 * fromLE bs) / 256 = fromLE bs by omega, leBytes_fromLE bs]
    simp

theorem fromUsize_eq {t : IntTy} {x : Nat} (h : x ≤ t.max) : t.fromUsize x = x :=
  Nat.mod_eq_of_lt (lt_of_le_max h)

theorem parse_le_max (t : IntTy) (data : Bytes) : (intFmt t).parse data ≤ t.max := by
  show fromLE (sub data 0 t.size) ≤ _
  have h := fromLE_lt (sub data 0 t.size)
  have hl : (sub data 0 t.size).length ≤ t.size := by rw [length_sub]; omega
  have := Nat.pow_le_pow_right (n := 256) (by decide) hl
  unfold max; omega

end IntTy

theorem installLoop_ok {start : Nat} : ∀ (src : Bytes) (k : Nat) (d : Bytes),
    start + k + src.length ≤ d.length → d.length ≤ usizeMax →
    ∃ d', installLoop start src k d = .ok d' ∧
      Wrote d d' (start + k) (start + k + src.length) ∧
      sub d' (start + k) (start + k + src.length) = src
  | [], k, d, _, _ => ⟨d, rfl, .refl _ _ _, by simp [sub]⟩
  | b :: src, k, d, h, hd => by
    simp only [List.length_cons] at h
    obtain ⟨d', h1, h2, h3⟩ := installLoop_ok (start := start) src (k + 1) (d.set (start + k) b)
      (by rw [List.length_set]; omega) (by rw [List.length_set]; omega)
    have hw : Wrote d (d.set (start + k) b) (start + k) (start + k + 1) := by
      refine ⟨List.length_set .., fun i hi => ?_⟩
      rw [List.getElem?_set_ne (by omega)]
    refine ⟨d', ?_, ?_, ?_⟩
    · unfold installLoop
      rw [uadd_ok (by omega)]
      simp only [Exec.ok_bind]
      rw [vset_ok (by omega)]
      simp only [Exec.ok_bind]
      exact h1
    · refine (hw.mono (by omega) ?_).trans (h2.mono (by omega) ?_) <;> simp <;> omega
    · apply List.ext_getElem?
      intro i
      rw [getElem?_sub]
      simp only [List.length_cons]
      cases i with
      | zero =>
        rw [if_pos (by omega), Nat.add_zero, h2.out _ (by omega),
          List.getElem?_set_self (by omega)]
        rfl
      | succ i =>
        have := congrArg (fun l : Bytes => l[i]?) h3
        simp only [getElem?_sub] at this
        rw [List.getElem?_cons_succ, ← this]
        by_cases hi : start + k + (i + 1) < start + k + (src.length + 1)
        · rw [if_pos hi, if_pos (by omega)]; congr 1; omega
        · rw [if_neg hi, if_neg (by omega)]

theorem installBytes_ok {src d : Bytes} {start : Nat} (h : start + src.length ≤ d.length)
    (hd : d.length ≤ usizeMax) :
    ∃ d', installBytes src d start = .ok (d', start + src.length) ∧
      Wrote d d' start (start + src.length) ∧ sub d' start (start + src.length) = src := by
  obtain ⟨d', h1, h2, h3⟩ := installLoop_ok (start := start) src 0 d (by omega) hd
  refine ⟨d', ?_, h2, h3⟩
  unfold installBytes
  rw [uadd_ok (by omega)]
  simp only [Exec.ok_bind, h1, Exec.pure_eq]

theorem intMarshall_ok {t : IntTy} {v : Nat} {d : Bytes} {start : Nat} (hs : start + t.size ≤ d.length)
    (hd : d.length ≤ usizeMax) :
    ∃ d', intMarshall t v d start = .ok (d', start + t.size) ∧
      Wrote d d' start (start + t.size) ∧ sub d' start (start + t.size) = t.toLE v := by
  have hl := t.toLE_length v
  have := installBytes_ok (src := t.toLE v) (d := d) (start := start) (by omega) hd
  rw [hl] at this
  exact this

theorem int_read {t : IntTy} {s : Slice} {d : Bytes} (hv : s.Valid d) (hd : d.length ≤ usizeMax)
    (hp : t.size ≤ (s.i d).length) (mem : Nat) :
    intExecParse t mem s d = .ok ((intFmt t).parse (s.i d)) := by
  have hl := hv.len_i
  obtain ⟨h1, h2⟩ := hv
  unfold intExecParse
  rw [uadd_ok (by omega)]
  simp only [Exec.ok_bind]
  unfold sliceSubrange
  rw [if_pos ⟨by omega, by omega⟩]
  show Exec.ok (IntTy.fromLE _) = Exec.ok (IntTy.fromLE _)
  unfold Slice.i
  rw [sub_sub (by omega)]
  rfl

theorem int_tryParse {t : IntTy} {s : Slice} {d : Bytes} (hv : s.Valid d)
    (hd : d.length ≤ usizeMax) (mem : Nat) :
    intTryParse t mem s d = .ok (if t.size ≤ (s.i d).length then
      some ((intFmt t).parse (s.i d)) else none) := by
  unfold intTryParse
  rw [hv.len_ok]
  simp only [Exec.ok_bind]
  by_cases hp : t.size ≤ (s.i d).length
  · rw [if_pos hp, if_pos hp]
    have := int_read hv hd hp mem
    unfold intExecParse at this
    cases e : uadd s.start t.size with
    | panic => rw [e] at this; simp at this
    | ok x =>
      rw [e] at this
      simp only [Exec.ok_bind] at this ⊢
      cases e2 : sliceSubrange d s.start x with
      | panic => rw [e2] at this; simp at this
      | ok y => rw [e2] at this; simp only [Exec.ok_bind, Exec.pure_eq, Exec.ok.injEq] at this ⊢; rw [this]
  · rw [if_neg hp, if_neg hp]; rfl

/-- Integers satisfy the contract. -/
theorem int_lawful (t : IntTy) : (intFmt t).Lawful where
  parses := by
    intro mem s d hv hd hp _
    show intTryParse t mem s d = _
    rw [int_tryParse hv hd]
    exact congrArg Exec.ok (if_pos hp)
  refuses := by
    intro mem s d hv hd hp _
    show intTryParse t mem s d = _
    rw [int_tryParse hv hd]
    exact congrArg Exec.ok (if_neg hp)
  parsable_yes hv hd _ hp := by
    simp only [intFmt, intExecParsable, hv.len_ok, Exec.ok_bind, Exec.pure_eq]
    exact congrArg Exec.ok (decide_eq_true hp)
  parsable_no hv hd _ hp := by
    simp only [intFmt, intExecParsable, hv.len_ok, Exec.ok_bind, Exec.pure_eq]
    exact congrArg Exec.ok (decide_eq_false hp)
  parse_ok {mem _ _} hv hd hp _ := int_read hv hd hp mem
  size_ok _ := rfl
  marshalls := by
    intro v d start hm hs hd
    have hs : start + t.size ≤ d.length := hs
    obtain ⟨d', h1, h2, h3⟩ := intMarshall_ok (v := v) hs hd
    refine ⟨d', h1, h2, ?_, ?_⟩
    · show t.size ≤ (sub d' start (start + t.size)).length
      rw [h3, t.toLE_length]; exact Nat.le_refl _
    · show IntTy.fromLE (sub (sub d' start (start + t.size)) 0 t.size) = v
      rw [h3, sub_all' (by rw [t.toLE_length]; exact Nat.le_refl _)]
      exact IntTy.fromLE_toLE hm

/-- UniformSized_v.rs 14-28: a format all of whose encodings can have one size. -/
structure UFmt (V : Type) extends Fmt V where
  us : Nat

/-- The contract of `UniformSized`, UniformSized_v.rs 19-22; `us` is a `usize`. -/
structure UFmt.Lawful {V : Type} (f : UFmt V) : Prop where
  fmt : f.toFmt.Lawful
  pos : 0 < f.us
  fits : f.us ≤ usizeMax

/-- IntegerMarshalling_v.rs 530-547 -/
def intU (t : IntTy) : UFmt Nat := { intFmt t with us := t.size }

theorem intU_lawful (t : IntTy) : (intU t).Lawful where
  fmt := int_lawful t
  pos := t.size_pos
  fits := by show t.size ≤ usizeMax; have := t.size_le; unfold usizeMax; omega

theorem int_modest (t : IntTy) : (intFmt t).Modest := fun _ _ _ => trivial

end Verif.Marshal
