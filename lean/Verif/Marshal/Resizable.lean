import Verif.Marshal.Uniform
/-
Model of Splinter/src/marshalling/ResizableUniformSizedSeq_v.rs.
-/
namespace Verif.Marshal

/-- ResizableUniformSizedSeq_v.rs 22-33 -/
structure Rsz (V : Type) where
  eltf : UFmt V
  lent : IntTy
  total : Nat
  maxLength : Nat

namespace Rsz
variable {V : Type}

/-- ResizableUniformSizedSeq_v.rs 38-50 -/
def new (eltf : UFmt V) (lent : IntTy) (total : Nat) : Exec (Rsz V) := do
  let n ← usub total lent.size
  let m ← udiv n eltf.us
  pure { eltf, lent, total, maxLength := m }

variable (r : Rsz V)

/-- ResizableUniformSizedSeq_v.rs 59-62 -/
abbrev ls : Nat := r.lent.size
/-- `eltf.uniform_size()` -/
abbrev us : Nat := r.eltf.us

/-- ResizableUniformSizedSeq_v.rs 137-142; 52-56 for `spec_max_length`. That `total_size` is a
`usize` is the fourth conjunct. -/
structure Valid : Prop where
  elt : r.eltf.Lawful
  len : r.ls ≤ r.total
  max : r.maxLength = (r.total - r.ls) / r.us
  usize : r.total ≤ usizeMax

/-- ResizableUniformSizedSeq_v.rs 148-151 -/
def length (data : Bytes) : Nat := (intFmt r.lent).parse (sub data 0 r.ls)

/-- ResizableUniformSizedSeq_v.rs 198-203 and SeqMarshalling_v.rs 115-121 -/
def getData (data : Bytes) (i : Nat) : Bytes := sub data (r.ls + i * r.us) (r.ls + i * r.us + r.us)

/-- ResizableUniformSizedSeq_v.rs 144-218 -/
def spec : SeqSpec V where
  Lengthable data := r.total ≤ data.length
  length := r.length
  Gettable data i := r.total ≤ data.length ∧ i < r.maxLength
  EltParsable data i := r.eltf.Parsable (r.getData data i)
  getElt data i := r.eltf.parse (r.getData data i)

/-- ResizableUniformSizedSeq_v.rs 153-181 -/
def tryLength (s : Slice) (d : Bytes) : Exec (Option Nat) := do
  let l ← s.len
  if l < r.total then pure none
  else
    let ss ← s.execSubslice 0 r.ls
    let n ← intExecParse r.lent 0 ss d
    pure (some (IntTy.toUsize n))

/-- SeqMarshalling_v.rs 48-55 -/
def execLengthable (s : Slice) (d : Bytes) : Exec Bool := do
  let o ← r.tryLength s d
  pure o.isSome

/-- SeqMarshalling_v.rs 57-66 -/
def execLength (s : Slice) (d : Bytes) : Exec Nat := do
  let o ← r.tryLength s d
  unwrap o

/-- ResizableUniformSizedSeq_v.rs 239-246 -/
def execGet (s : Slice) (i : Nat) : Exec Slice := do
  let a ← umul i r.us
  let a ← uadd r.ls a
  let b ← umul i r.us
  let b ← uadd r.ls b
  let b ← uadd b r.us
  s.execSubslice a b

/-- ResizableUniformSizedSeq_v.rs 220-232 -/
def tryGet (s : Slice) (d : Bytes) (i : Nat) : Exec (Option Slice) := do
  let o ← r.tryLength s d
  if o.isNone then pure none
  else if i < r.maxLength then
    let e ← r.execGet s i
    pure (some e)
  else pure none

/-- ResizableUniformSizedSeq_v.rs 248-262 -/
def tryGetElt (mem : Nat) (s : Slice) (d : Bytes) (i : Nat) : Exec (Option V) := do
  match ← r.tryGet s d i with
  | none => pure none
  | some e => r.eltf.tryParse mem e d

/-- ResizableUniformSizedSeq_v.rs 264-274 -/
def execGetElt (mem : Nat) (s : Slice) (d : Bytes) (i : Nat) : Exec V := do
  let e ← r.execGet s i
  r.eltf.execParse mem e d

/-- ResizableUniformSizedSeq_v.rs 286-291, with the `elt_marshallable` that `exec_set` requires
(SeqMarshalling_v.rs 264). -/
def Settable (data : Bytes) (i : Nat) (v : V) : Prop :=
  r.total ≤ data.length ∧ i < r.maxLength ∧ r.eltf.Marshallable v ∧ r.eltf.size v = r.us

/-- ResizableUniformSizedSeq_v.rs 293-305 -/
def execSettable (s : Slice) (d : Bytes) (i : Nat) (v : V) : Exec Bool := do
  let o ← r.tryLength s d
  let sz ← r.eltf.execSize v
  pure (o.isSome && decide (i < r.maxLength) && decide (sz = r.us))

/-- ResizableUniformSizedSeq_v.rs 307-347 -/
def execSet (s : Slice) (d : Bytes) (i : Nat) (v : V) : Exec Bytes := do
  let a ← uadd s.start r.ls
  let p ← umul i r.us
  let e ← uadd a p
  let x ← r.eltf.marshall v d e
  pure x.1

/-- ResizableUniformSizedSeq_v.rs 353-357 -/
def Resizable (data : Bytes) (n : Nat) : Prop :=
  r.total ≤ data.length ∧ n ≤ r.maxLength ∧ n ≤ r.lent.max

/-- ResizableUniformSizedSeq_v.rs 359-364 -/
def execResizable (s : Slice) (d : Bytes) (n : Nat) : Exec Bool := do
  let b ← r.execLengthable s d
  pure (b && decide (n ≤ r.maxLength) && decide (n ≤ r.lent.max))

/-- ResizableUniformSizedSeq_v.rs 366-398 -/
def resize (s : Slice) (d : Bytes) (n : Nat) : Exec Bytes := do
  let x ← intMarshall r.lent (r.lent.fromUsize n) d s.start
  pure x.1

/-- ResizableUniformSizedSeq_v.rs 101-115 -/
def init (s : Slice) (d : Bytes) : Exec Bytes := r.resize s d 0

/-- ResizableUniformSizedSeq_v.rs 404-406 -/
def WF (data : Bytes) : Prop := r.total ≤ data.length

/-- ResizableUniformSizedSeq_v.rs 410-416, with the `elt_marshallable` that `exec_append` requires
(SeqMarshalling_v.rs 356). -/
def Appendable (data : Bytes) (v : V) : Prop :=
  r.length data < r.maxLength ∧ r.eltf.Marshallable v ∧ r.eltf.size v = r.us ∧
  r.length data + 1 ≤ r.lent.max

/-- ResizableUniformSizedSeq_v.rs 422-431 -/
def execAppendable (s : Slice) (d : Bytes) (v : V) : Exec Bool := do
  let len ← r.execLength s d
  let sz ← r.eltf.execSize v
  if len < r.maxLength then
    if sz = r.us then
      let n ← uadd len 1
      pure (decide (n ≤ r.lent.max))
    else pure false
  else pure false

/-- ResizableUniformSizedSeq_v.rs 433-447 -/
def execAppend (s : Slice) (d : Bytes) (v : V) : Exec Bytes := do
  let len ← r.execLength s d
  let n ← uadd len 1
  let d ← r.resize s d n
  r.execSet s d len v

/-- ResizableUniformSizedSeq_v.rs 526-555 -/
def tryParse (mem : Nat) (s : Slice) (d : Bytes) : Exec (Option (List V)) := do
  match ← r.tryLength s d with
  | none => pure none
  | some len =>
    withCapacity mem len
    collect (r.tryGetElt mem s d) len 0 []

/-- The loop of ResizableUniformSizedSeq_v.rs 605-638, `i` is next. -/
def marshallLoop (s : Slice) : List V → Nat → Bytes → Exec Bytes
  | [], _, d => .ok d
  | v :: vs, i, d => do
    let d ← r.execSet s d i v
    marshallLoop s vs (i + 1) d

/-- ResizableUniformSizedSeq_v.rs 575-641 -/
def marshall (l : List V) (d : Bytes) (start : Nat) : Exec (Bytes × Nat) := do
  let e ← uadd start r.total
  let x ← intMarshall r.lent (r.lent.fromUsize l.length) d start
  let d ← r.marshallLoop ⟨start, e⟩ l 0 x.1
  pure (d, e)

/-- ResizableUniformSizedSeq_v.rs 498-642 -/
def fmt : Fmt (List V) where
  Parsable data := r.total ≤ data.length ∧ r.spec.ParsableAll data
  parse data := r.spec.parseAll data
  Suffices mem data := r.total ≤ data.length → r.length data ≤ mem ∧
    ∀ i, i < r.length data → i < r.maxLength → r.eltf.Suffices mem (r.getData data i)
  tryParse := r.tryParse
  execParsable := defaultParsable r.tryParse
  execParse := defaultParse r.tryParse
  Marshallable l := (∀ v ∈ l, r.eltf.Marshallable v ∧ r.eltf.size v = r.us) ∧
    l.length ≤ r.lent.max ∧ r.ls + l.length * r.us ≤ r.total
  size _ := r.total
  execSize _ := .ok r.total
  marshall := r.marshall

end Rsz

namespace Rsz
variable {V : Type} {r : Rsz V}

theorem new_ok {eltf : UFmt V} {lent : IntTy} {total : Nat} (he : eltf.Lawful)
    (h : lent.size ≤ total) (ht : total ≤ usizeMax) :
    ∃ r, new eltf lent total = .ok r ∧ r.Valid ∧ r.eltf = eltf ∧ r.lent = lent ∧ r.total = total := by
  refine ⟨⟨eltf, lent, total, (total - lent.size) / eltf.us⟩, ?_, ⟨he, h, rfl, ht⟩, rfl, rfl, rfl⟩
  unfold new
  rw [usub_ok h, Exec.ok_bind, udiv_ok he.pos]
  rfl

/-- ResizableUniformSizedSeq_v.rs 71-93, `index_bounds_facts` -/
theorem Valid.bounds (h : r.Valid) {i : Nat} (hi : i < r.maxLength) :
    r.ls + i * r.us + r.us ≤ r.total := by
  rw [h.max] at hi
  have := Uniform.length_spec h.elt.pos hi
  have := h.len
  show _ + _ * r.eltf.us + r.eltf.us ≤ _
  omega

theorem length_le_max (data : Bytes) : r.length data ≤ r.lent.max := IntTy.parse_le_max _ _

theorem length_le_usize (data : Bytes) : r.length data ≤ usizeMax :=
  Nat.le_trans (length_le_max data) (IntTy.max_le _)

theorem tryLength_ok (h : r.Valid) {s : Slice} {d : Bytes} (hv : s.Valid d)
    (hd : d.length ≤ usizeMax) :
    r.tryLength s d = .ok (if r.total ≤ (s.i d).length then some (r.length (s.i d)) else none) := by
  unfold tryLength
  rw [hv.len_ok]
  simp only [Exec.ok_bind]
  by_cases ht : r.total ≤ (s.i d).length
  · rw [if_pos ht, if_neg (by omega)]
    have hl := h.len
    obtain ⟨c1, c2, c3⟩ := hv.cut hd (a := 0) (b := r.ls) (Nat.zero_le _) (by omega)
    rw [c1]
    simp only [Exec.ok_bind]
    rw [int_read c2 hd (by rw [c3, length_sub' (by omega)]; exact Nat.le_refl _), c3]
    rfl
  · rw [if_neg ht, if_pos (by omega)]
    rfl

theorem execLength_ok (h : r.Valid) {s : Slice} {d : Bytes} (hv : s.Valid d)
    (hd : d.length ≤ usizeMax) (ht : r.total ≤ (s.i d).length) :
    r.execLength s d = .ok (r.length (s.i d)) := by
  unfold execLength
  rw [tryLength_ok h hv hd, if_pos ht]
  rfl

theorem execLengthable_ok (h : r.Valid) {s : Slice} {d : Bytes} (hv : s.Valid d)
    (hd : d.length ≤ usizeMax) :
    r.execLengthable s d = .ok (decide (r.total ≤ (s.i d).length)) := by
  unfold execLengthable
  rw [tryLength_ok h hv hd]
  by_cases ht : r.total ≤ (s.i d).length <;> simp [ht]

theorem execGet_ok (h : r.Valid) {s : Slice} {d : Bytes} {i : Nat} (hv : s.Valid d)
    (hd : d.length ≤ usizeMax) (ht : r.total ≤ (s.i d).length) (hi : i < r.maxLength) :
    r.execGet s i = .ok (s.subslice (r.ls + i * r.us) (r.ls + i * r.us + r.us)) ∧
    (s.subslice (r.ls + i * r.us) (r.ls + i * r.us + r.us)).Valid d ∧
    (s.subslice (r.ls + i * r.us) (r.ls + i * r.us + r.us)).i d = r.getData (s.i d) i := by
  have hb := h.bounds hi
  have hu := h.usize
  obtain ⟨c1, c2, c3⟩ := hv.cut hd (a := r.ls + i * r.us) (b := r.ls + i * r.us + r.us) (by omega)
    (by omega)
  refine ⟨?_, c2, c3⟩
  unfold execGet
  simp only [umul_ok (show i * r.us ≤ usizeMax by omega),
    uadd_ok (show r.ls + i * r.us ≤ usizeMax by omega),
    uadd_ok (show r.ls + i * r.us + r.us ≤ usizeMax by omega), Exec.ok_bind]
  exact c1

theorem tryGet_ok (h : r.Valid) {s : Slice} {d : Bytes} (hv : s.Valid d)
    (hd : d.length ≤ usizeMax) (i : Nat) :
    r.tryGet s d i = .ok (if r.total ≤ (s.i d).length ∧ i < r.maxLength then
      some (s.subslice (r.ls + i * r.us) (r.ls + i * r.us + r.us)) else none) := by
  unfold tryGet
  rw [tryLength_ok h hv hd]
  simp only [Exec.ok_bind]
  by_cases ht : r.total ≤ (s.i d).length
  · by_cases hi : i < r.maxLength
    · simp [ht, hi, (execGet_ok h hv hd ht hi).1]
    · simp [ht, hi]
  · simp [ht]

theorem tryGetElt_ok (h : r.Valid) {s : Slice} {d : Bytes} {mem i : Nat} (hv : s.Valid d)
    (hd : d.length ≤ usizeMax)
    (hm : r.total ≤ (s.i d).length → i < r.maxLength → r.eltf.Suffices mem (r.getData (s.i d) i)) :
    (r.spec.Gettable (s.i d) i ∧ r.spec.EltParsable (s.i d) i →
      r.tryGetElt mem s d i = .ok (some (r.spec.getElt (s.i d) i))) ∧
    (¬ (r.spec.Gettable (s.i d) i ∧ r.spec.EltParsable (s.i d) i) →
      r.tryGetElt mem s d i = .ok none) := by
  unfold tryGetElt
  rw [tryGet_ok h hv hd]
  simp only [Exec.ok_bind]
  by_cases hg : r.total ≤ (s.i d).length ∧ i < r.maxLength
  · obtain ⟨_, g2, g3⟩ := execGet_ok h hv hd hg.1 hg.2
    simp only [if_pos hg]
    refine ⟨fun hp => ?_, fun hp => ?_⟩
    · rw [h.elt.fmt.parses g2 hd (by rw [g3]; exact hp.2) (by rw [g3]; exact hm hg.1 hg.2), g3]
      rfl
    · rw [h.elt.fmt.refuses g2 hd (by rw [g3]; exact fun hc => hp ⟨hg, hc⟩)
        (by rw [g3]; exact hm hg.1 hg.2)]
  · simp only [if_neg hg]
    exact ⟨fun hc => absurd hc.1 hg, fun _ => rfl⟩

theorem execGetElt_ok (h : r.Valid) {s : Slice} {d : Bytes} {mem i : Nat} (hv : s.Valid d)
    (hd : d.length ≤ usizeMax) (hg : r.spec.Gettable (s.i d) i) (hp : r.spec.EltParsable (s.i d) i)
    (hm : r.eltf.Suffices mem (r.getData (s.i d) i)) :
    r.execGetElt mem s d i = .ok (r.spec.getElt (s.i d) i) := by
  obtain ⟨g1, g2, g3⟩ := execGet_ok h hv hd hg.1 hg.2
  unfold execGetElt
  rw [g1]
  simp only [Exec.ok_bind]
  rw [h.elt.fmt.parse_ok g2 hd (by rw [g3]; exact hp) (by rw [g3]; exact hm), g3]
  rfl

/-! ### Writing -/

theorem getData_keep {s : Slice} {d d' : Bytes} {i a b : Nat}
    (hw : Wrote d d' a b)
    (hb : s.start + r.ls + i * r.us + r.us ≤ s.end_)
    (ho : s.start + r.ls + i * r.us + r.us ≤ a ∨ b ≤ s.start + r.ls + i * r.us) :
    r.getData (s.i d') i = r.getData (s.i d) i := by
  unfold getData Slice.i
  rw [sub_sub (by omega), sub_sub (by omega)]
  exact hw.sub_out (by omega)

theorem length_keep {s : Slice} {d d' : Bytes} {a b : Nat}
    (hw : Wrote d d' a b) (hb : s.start + r.ls ≤ s.end_) (ho : s.start + r.ls ≤ a) :
    r.length (s.i d') = r.length (s.i d) := by
  unfold length Slice.i
  rw [sub_sub (by omega), sub_sub (by omega), hw.sub_out (by omega)]

theorem execSettable_ok (h : r.Valid) {s : Slice} {d : Bytes} {i : Nat} {v : V} (hv : s.Valid d)
    (hd : d.length ≤ usizeMax) (hm : r.eltf.Marshallable v) :
    ∃ b, r.execSettable s d i v = .ok b ∧ (b = true ↔ r.Settable (s.i d) i v) := by
  unfold execSettable
  rw [tryLength_ok h hv hd, Exec.ok_bind, h.elt.fmt.size_ok hm]
  refine ⟨_, rfl, ?_⟩
  unfold Settable
  by_cases ht : r.total ≤ (s.i d).length <;> simp [ht, hm]

/-- Overwriting one element. -/
theorem execSet_ok (h : r.Valid) {s : Slice} {d : Bytes} {i : Nat} {v : V} (hv : s.Valid d)
    (hd : d.length ≤ usizeMax) (hs : r.Settable (s.i d) i v) :
    ∃ d', r.execSet s d i v = .ok d' ∧
      Wrote d d' (s.start + r.ls + i * r.us) (s.start + r.ls + i * r.us + r.us) ∧
      s.AgreeBeyond d d' ∧ r.spec.Sets (s.i d) i v (s.i d') := by
  obtain ⟨ht, hi, hm, hz⟩ := hs
  have hb := h.bounds hi
  have hl := hv.len_i
  have h1 := hv.1
  have h2 := hv.2
  obtain ⟨d', m1, m2, m3, m4⟩ := h.elt.fmt.marshalls (v := v) (d := d)
    (start := s.start + r.ls + i * r.us) hm (by omega) hd
  rw [hz] at m1 m2 m3 m4
  have hlen : (s.i d').length = (s.i d).length := by rw [(m2.valid hv).len_i, hl]
  have hgi : r.getData (s.i d') i =
      sub d' (s.start + r.ls + i * r.us) (s.start + r.ls + i * r.us + r.us) := by
    unfold getData Slice.i
    rw [sub_sub (by omega)]
    congr 1 <;> omega
  refine ⟨d', ?_, m2, m2.agree (by omega) (by omega), hlen, fun _ => ⟨?_, ?_⟩, ?_, ⟨?_, hi⟩, ?_, ?_⟩
  · unfold execSet
    rw [uadd_ok (by omega), Exec.ok_bind, umul_ok (by omega), Exec.ok_bind, uadd_ok (by omega),
      Exec.ok_bind, m1]
    rfl
  · show r.total ≤ _
    omega
  · exact length_keep m2 (by omega) (by omega)
  · intro j hj
    refine ⟨fun hg => ⟨by have := hg.1; omega, hg.2⟩, fun hg => ?_⟩
    have hjb := h.bounds hg.1.2
    have := getData_keep (r := r) (s := s) (i := j) m2 (by omega) (by
      by_cases hlt : i < j
      · have := Uniform.mul_step (u := r.us) hlt; omega
      · have := Uniform.mul_step (u := r.us) (show j < i by omega); omega)
    show r.eltf.Parsable (r.getData (s.i d') j) ∧ r.eltf.parse (r.getData (s.i d') j) = _
    rw [this]
    exact ⟨hg.2, rfl⟩
  · omega
  · show r.eltf.Parsable (r.getData (s.i d') i)
    rw [hgi]; exact m3
  · show r.eltf.parse (r.getData (s.i d') i) = v
    rw [hgi]; exact m4

theorem length_written {s : Slice} {d : Bytes} {n : Nat} (hs : s.start + r.ls ≤ s.end_)
    (hn : n ≤ r.lent.max)
    (hw : sub d s.start (s.start + r.ls) = r.lent.toLE (r.lent.fromUsize n)) :
    r.length (s.i d) = n := by
  unfold length Slice.i
  rw [sub_sub (by omega), Nat.add_zero, hw, IntTy.fromUsize_eq hn]
  show IntTy.fromLE (sub _ 0 r.lent.size) = n
  rw [sub_all' (by rw [IntTy.toLE_length]; exact Nat.le_refl _), IntTy.fromLE_toLE hn]

/-- Changing the length. -/
theorem resize_ok (h : r.Valid) {s : Slice} {d : Bytes} {n : Nat} (hv : s.Valid d)
    (hd : d.length ≤ usizeMax) (ht : r.total ≤ (s.i d).length) (hn : n ≤ r.lent.max) :
    ∃ d', r.resize s d n = .ok d' ∧ Wrote d d' s.start (s.start + r.ls) ∧
      s.AgreeBeyond d d' ∧ r.spec.Resizes (s.i d) n (s.i d') := by
  have hl := hv.len_i
  have hk := h.len
  have h1 := hv.1
  have h2 := hv.2
  obtain ⟨d', m1, m2, m3⟩ := intMarshall_ok (t := r.lent) (v := r.lent.fromUsize n) (d := d)
    (start := s.start) (show s.start + r.ls ≤ d.length by omega) hd
  have hlen : (s.i d').length = (s.i d).length := by rw [(m2.valid hv).len_i, hl]
  refine ⟨d', ?_, m2, m2.agree (Nat.le_refl _) (show s.start + r.ls ≤ _ by omega), hlen, ?_, ?_, ?_⟩
  · unfold resize
    rw [m1]
    rfl
  · show r.total ≤ _
    omega
  · exact length_written (by omega) hn m3
  · intro i
    refine ⟨fun hg => ⟨by have := hg.1; omega, hg.2⟩, fun hg => ?_⟩
    have hb := h.bounds hg.1.2
    have := getData_keep (r := r) (s := s) (i := i) m2 (by omega)
      (Or.inr (show s.start + r.ls ≤ _ by omega))
    show r.eltf.Parsable (r.getData (s.i d') i) ∧ r.eltf.parse (r.getData (s.i d') i) = _
    rw [this]
    exact ⟨hg.2, rfl⟩

theorem execResizable_ok (h : r.Valid) {s : Slice} {d : Bytes} {n : Nat} (hv : s.Valid d)
    (hd : d.length ≤ usizeMax) :
    ∃ b, r.execResizable s d n = .ok b ∧ (b = true ↔ r.Resizable (s.i d) n) := by
  unfold execResizable
  rw [execLengthable_ok h hv hd]
  refine ⟨_, rfl, ?_⟩
  unfold Resizable
  by_cases ht : r.total ≤ (s.i d).length <;> simp [ht]

theorem execAppendable_ok (h : r.Valid) {s : Slice} {d : Bytes} {v : V} (hv : s.Valid d)
    (hd : d.length ≤ usizeMax) (hw : r.WF (s.i d)) (hm : r.eltf.Marshallable v) :
    ∃ b, r.execAppendable s d v = .ok b ∧ (b = true ↔ r.Appendable (s.i d) v) := by
  have hmax : r.maxLength ≤ usizeMax := by
    rw [h.max]
    exact Nat.le_trans (Nat.div_le_self _ _) (Nat.le_trans (Nat.sub_le _ _) h.usize)
  unfold execAppendable
  rw [execLength_ok h hv hd hw, Exec.ok_bind, h.elt.fmt.size_ok hm, Exec.ok_bind]
  unfold Appendable
  by_cases h1 : r.length (s.i d) < r.maxLength
  · by_cases h2 : r.eltf.size v = r.us
    · rw [if_pos h1, if_pos h2, uadd_ok (by omega)]
      exact ⟨_, rfl, by simp [h1, h2, hm]⟩
    · rw [if_pos h1, if_neg h2]
      exact ⟨_, rfl, by simp [h2]⟩
  · rw [if_neg h1]
    exact ⟨_, rfl, by simp [h1]⟩

/-- Appending. Bytes from the first unused one on are left alone (118-128). -/
theorem execAppend_ok (h : r.Valid) {s : Slice} {d : Bytes} {v : V} (hv : s.Valid d)
    (hd : d.length ≤ usizeMax) (hw : r.WF (s.i d)) (ha : r.Appendable (s.i d) v) :
    ∃ d', r.execAppend s d v = .ok d' ∧
      Wrote d d' s.start (s.start + r.ls + (r.length (s.i d) + 1) * r.us) ∧
      s.AgreeBeyond d d' ∧ r.spec.Appends r.WF (s.i d) v (s.i d') ∧
      ∀ i, i < r.length (s.i d) → r.getData (s.i d') i = r.getData (s.i d) i := by
  obtain ⟨a1, a2, a3, a4⟩ := ha
  have hw : r.total ≤ (s.i d).length := hw
  obtain ⟨d1, m1, m2, m3, m4⟩ := resize_ok h (n := r.length (s.i d) + 1) hv hd hw a4
  have hv1 := m2.valid hv
  have hl := hv.len_i
  have hl1 := hv1.len_i
  obtain ⟨d2, n1, n2, n3, n4⟩ := execSet_ok h (i := r.length (s.i d)) (v := v) hv1
    (by rw [m2.len]; exact hd) ⟨by omega, a1, a2, a3⟩
  have hb := h.bounds a1
  have hk := h.len
  have h1 := hv.1
  have h2 := hv.2
  have hmul : (r.length (s.i d) + 1) * r.us = r.length (s.i d) * r.us + r.us := by
    rw [Nat.add_mul, Nat.one_mul]
  have hwr : Wrote d d2 s.start (s.start + r.ls + (r.length (s.i d) + 1) * r.us) :=
    (m2.mono (Nat.le_refl _) (by omega)).trans (n2.mono (by omega) (by omega))
  refine ⟨d2, ?_, hwr, hwr.agree (Nat.le_refl _) (by omega), ⟨?_, ?_, ?_, n4.2.2.2.1, n4.2.2.2.2.1,
    n4.2.2.2.2.2, ?_⟩, ?_⟩
  · unfold execAppend
    rw [execLength_ok h hv hd hw, Exec.ok_bind, uadd_ok (by have := IntTy.max_le r.lent; omega),
      Exec.ok_bind, m1, Exec.ok_bind, n1]
  · rw [n4.1, m4.1]
  · rw [(n4.2.1 (m4.2.1)).2, m4.2.2.1]
    rfl
  · intro i hi
    have e1 := m4.2.2.2 i
    have e2 := n4.2.2.1 i hi
    refine ⟨fun hg => e2.1 (e1.1 hg), fun hg => ?_⟩
    have p1 := e1.2 hg
    have p2 := e2.2 ⟨e1.1 hg.1, p1.1⟩
    exact ⟨p2.1, p2.2.trans p1.2⟩
  · show r.total ≤ _
    rw [n4.1, m4.1]; omega
  · intro i hi
    have := Uniform.mul_step (u := r.us) hi
    rw [getData_keep (r := r) (s := s) (i := i) n2 (by omega) (Or.inl (by omega)),
      getData_keep (r := r) (s := s) (i := i) m2 (by omega) (Or.inr (by omega))]

/-! ### Parsing and marshalling -/

theorem tryParse_ok (h : r.Valid) {s : Slice} {d : Bytes} {mem : Nat} (hv : s.Valid d)
    (hd : d.length ≤ usizeMax) (hm : r.fmt.Suffices mem (s.i d)) :
    (r.fmt.Parsable (s.i d) → r.tryParse mem s d = .ok (some (r.spec.parseAll (s.i d)))) ∧
    (¬ r.fmt.Parsable (s.i d) → r.tryParse mem s d = .ok none) := by
  unfold tryParse
  rw [tryLength_ok h hv hd]
  simp only [Exec.ok_bind]
  by_cases ht : r.total ≤ (s.i d).length
  · simp only [if_pos ht]
    rw [withCapacity_ok (hm ht).1]
    simp only [Exec.ok_bind]
    have := collect_all (n := r.length (s.i d)) (get := r.tryGetElt mem s d)
      (P := fun i => r.spec.Gettable (s.i d) i ∧ r.spec.EltParsable (s.i d) i)
      (g := r.spec.getElt (s.i d))
      (fun j hj _ => tryGetElt_ok h hv hd (fun _ h2 => (hm ht).2 j hj h2))
    exact ⟨fun hp => this.1 hp.2, fun hp => this.2 fun hc => hp ⟨ht, hc⟩⟩
  · simp only [if_neg ht]
    exact ⟨fun hp => absurd hp.1 ht, fun _ => rfl⟩

theorem marshallLoop_ok (h : r.Valid) {s : Slice} : ∀ (l : List V) (i : Nat) (d : Bytes),
    s.Valid d → d.length ≤ usizeMax → r.total ≤ (s.i d).length →
    (∀ v ∈ l, r.eltf.Marshallable v ∧ r.eltf.size v = r.us) → i + l.length ≤ r.maxLength →
    ∃ d', r.marshallLoop s l i d = .ok d' ∧
      Wrote d d' (s.start + r.ls + i * r.us) (s.start + r.total) ∧
      ∀ j v, l[j]? = some v → r.spec.EltParsable (s.i d') (i + j) ∧
        r.spec.getElt (s.i d') (i + j) = v
  | [], i, d, _, _, _, _, _ => ⟨d, rfl, .refl _ _ _, by simp⟩
  | v :: l, i, d, hv, hd, ht, hm, hi => by
    simp only [List.length_cons] at hi
    have hvm := hm v (List.mem_cons_self ..)
    obtain ⟨d1, n1, n2, n3, n4⟩ := execSet_ok h (i := i) (v := v) hv hd ⟨ht, by omega, hvm.1, hvm.2⟩
    have hv1 := n2.valid hv
    obtain ⟨d2, o1, o2, o3⟩ := marshallLoop_ok h l (i + 1) d1 hv1 (by rw [n2.len]; exact hd)
      (by rw [n4.1]; exact ht) (fun w hw => hm w (List.mem_cons_of_mem _ hw)) (by omega)
    have hb := h.bounds (show i < r.maxLength by omega)
    have hl := hv.len_i
    have hv0 := hv.1
    rw [Nat.add_mul, Nat.one_mul] at o2
    refine ⟨d2, ?_, (n2.mono (by omega) (by omega)).trans (o2.mono (by omega) (by omega)), ?_⟩
    · unfold marshallLoop
      rw [n1]
      exact o1
    · intro j w hw
      cases j with
      | zero =>
        simp only [List.getElem?_cons_zero, Option.some.injEq] at hw
        subst hw
        have := getData_keep (r := r) (s := s) (i := i) o2 (by omega) (Or.inl (by omega))
        show r.eltf.Parsable (r.getData (s.i d2) i) ∧ r.eltf.parse (r.getData (s.i d2) i) = _
        rw [this]
        exact ⟨n4.2.2.2.2.1, n4.2.2.2.2.2⟩
      | succ j =>
        rw [List.getElem?_cons_succ] at hw
        rw [show i + (j + 1) = i + 1 + j by omega]
        exact o3 j w hw

/-- A length-prefixed sequence of lawful fixed-size elements is lawful. -/
theorem lawful (h : r.Valid) : r.fmt.Lawful := by
  have hp : ∀ {mem s d}, s.Valid d → d.length ≤ usizeMax → r.fmt.Suffices mem (s.i d) →
      (r.fmt.Parsable (s.i d) → r.fmt.tryParse mem s d = .ok (some (r.fmt.parse (s.i d)))) ∧
      (¬ r.fmt.Parsable (s.i d) → r.fmt.tryParse mem s d = .ok none) :=
    fun hv hd hm => tryParse_ok h hv hd hm
  refine ⟨fun hv hd h hm => (hp hv hd hm).1 h, fun hv hd h hm => (hp hv hd hm).2 h,
    fun hv hd hm h => (default_laws (hp hv hd hm).1 (hp hv hd hm).2).1 h,
    fun hv hd hm h => (default_laws (hp hv hd hm).1 (hp hv hd hm).2).2.1 h,
    fun hv hd h hm => (default_laws (hp hv hd hm).1 (hp hv hd hm).2).2.2 h,
    fun _ => rfl, ?_⟩
  intro l d start hm hs hd
  obtain ⟨hm1, hm2, hm3⟩ := hm
  have hs : start + r.total ≤ d.length := hs
  show ∃ d', _ ∧ Wrote d d' start (start + r.total) ∧
    r.fmt.Parsable (sub d' start (start + r.total)) ∧
    r.spec.parseAll (sub d' start (start + r.total)) = l
  have hk := h.len
  have hmax : l.length ≤ r.maxLength := by
    rw [h.max]
    exact (Nat.le_div_iff_mul_le h.elt.pos).mpr (show l.length * r.us ≤ _ by omega)
  obtain ⟨d1, m1, m2, m3⟩ := intMarshall_ok (t := r.lent) (v := r.lent.fromUsize l.length) (d := d)
    (start := start) (show start + r.ls ≤ d.length by omega) hd
  let s : Slice := ⟨start, start + r.total⟩
  have hv : s.Valid d := ⟨by show start ≤ start + r.total; omega, hs⟩
  have hv1 := m2.valid hv
  have hl1 : (s.i d1).length = r.total := by
    rw [hv1.len_i]; show start + r.total - start = _; omega
  obtain ⟨d2, o1, o2, o3⟩ := marshallLoop_ok h l 0 d1 hv1 (by rw [m2.len]; exact hd)
    (by omega) hm1 (by omega)
  rw [Nat.zero_mul] at o2
  have hv2 := o2.valid hv1
  have hl2 : (s.i d2).length = r.total := by
    rw [hv2.len_i]; show start + r.total - start = _; omega
  have hlen : r.length (s.i d2) = l.length := by
    rw [length_keep (r := r) o2 (by show start + r.ls ≤ start + r.total; omega) (by omega)]
    exact length_written (by show start + r.ls ≤ start + r.total; omega) hm2 m3
  have hel : ∀ i (hi : i < l.length), r.spec.EltParsable (s.i d2) i ∧
      r.spec.getElt (s.i d2) i = l[i] := by
    intro i hi
    have := o3 i l[i] (List.getElem?_eq_getElem hi)
    rw [Nat.zero_add] at this
    exact this
  refine ⟨d2, ?_, (m2.mono (Nat.le_refl _) (show start + r.ls ≤ _ by omega)).trans
    (o2.mono (by show start ≤ start + r.ls + 0; omega) (Nat.le_refl _)), ⟨?_, ?_⟩, ?_⟩
  · show r.marshall l d start = .ok (d2, start + r.total)
    unfold marshall
    rw [uadd_ok (by omega), Exec.ok_bind, m1, Exec.ok_bind]
    rw [o1]
    rfl
  · exact Nat.le_of_eq hl2.symm
  · intro i hi
    have hi' : i < l.length := by rw [← hlen]; exact hi
    exact ⟨⟨Nat.le_of_eq hl2.symm, by omega⟩, (hel i hi').1⟩
  · exact r.spec.parseAll_eq hlen.symm fun i hi => (hel i hi).2

end Rsz
end Verif.Marshal
