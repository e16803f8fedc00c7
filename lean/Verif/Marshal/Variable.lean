import Verif.Marshal.Resizable
/-
Model of Splinter/src/marshalling/VariableSizedElementSeq_v.rs. The functions that always refuse
(`set`, `resize`; 566-590) are left out.
-/
namespace Verif.Marshal

/-- VariableSizedElementSeq_v.rs 39-53, with what `new` (63-77) takes; `bdyf` is a definition. -/
structure Var (V : Type) where
  eltf : Fmt V
  bt : IntTy
  lent : IntTy
  total : Nat

namespace Var
variable {V : Type} (w : Var V)

/-- The boundary table, VariableSizedElementSeq_v.rs 76 and ResizableUniformSizedSeq_v.rs 38-50 -/
def bdyf : Rsz Nat := ⟨intU w.bt, w.lent, w.total, (w.total - w.lent.size) / w.bt.size⟩

/-- VariableSizedElementSeq_v.rs 441-446. That `total_size` is a `usize` is the last conjunct. -/
structure Valid : Prop where
  elt : w.eltf.Lawful
  len : w.lent.size ≤ w.total
  lent : w.total ≤ w.lent.max
  bt : w.total ≤ w.bt.max
  usize : w.total ≤ usizeMax

/-- VariableSizedElementSeq_v.rs 456-459 -/
def length (data : Bytes) : Nat := w.bdyf.length data

/-- VariableSizedElementSeq_v.rs 127-131 -/
def ElementGettable (data : Bytes) (i : Nat) : Prop :=
  w.bdyf.spec.Gettable data i ∧ w.bdyf.spec.EltParsable data i

/-- VariableSizedElementSeq_v.rs 133-136 -/
def dataBegin (data : Bytes) (i : Nat) : Nat := w.bdyf.spec.getElt data i

/-- VariableSizedElementSeq_v.rs 151-155 -/
def dataEnd (data : Bytes) (i : Nat) : Nat :=
  if i = 0 then w.total else w.bdyf.spec.getElt data (i - 1)

/-- VariableSizedElementSeq_v.rs 187-190 -/
def sizeOfTable (n : Nat) : Nat := w.lent.size + n * w.bt.size

/-- VariableSizedElementSeq_v.rs 192-196 -/
def Tableable (data : Bytes) : Prop := w.bdyf.fmt.Parsable data

/-- VariableSizedElementSeq_v.rs 209-213 -/
def table (data : Bytes) : List Nat := w.bdyf.fmt.parse data

/-- VariableSizedElementSeq_v.rs 216-226 -/
def ValidTable (data : Bytes) : Prop :=
  (∀ (i j a b : Nat), i ≤ j → (w.table data)[i]? = some a → (w.table data)[j]? = some b → b ≤ a) ∧
  (∀ a, (w.table data)[0]? = some a → a ≤ w.total) ∧
  (∀ a, (w.table data).getLast? = some a → w.sizeOfTable (w.table data).length ≤ a)

/-- VariableSizedElementSeq_v.rs 229-233 -/
def elementsStart (data : Bytes) : Nat :=
  match (w.table data).getLast? with
  | none => w.total
  | some a => a

/-- VariableSizedElementSeq_v.rs 235-242 -/
def freeSpace (data : Bytes) : Int := (w.elementsStart data : Int) - w.sizeOfTable (w.length data)

/-- VariableSizedElementSeq_v.rs 596-599 -/
def WF (data : Bytes) : Prop := w.Tableable data ∧ w.ValidTable data

/-- VariableSizedElementSeq_v.rs 605-609 -/
def Appendable (data : Bytes) (v : V) : Prop :=
  (w.bt.size : Int) + w.eltf.size v ≤ w.freeSpace data

/-- VariableSizedElementSeq_v.rs 473-478 and SeqMarshalling_v.rs 115-121 -/
def getData (data : Bytes) (i : Nat) : Bytes := sub data (w.dataBegin data i) (w.dataEnd data i)

/-- VariableSizedElementSeq_v.rs 448-491 -/
def spec : SeqSpec V where
  Lengthable data := w.total ≤ data.length
  length := w.length
  Gettable data i := w.total ≤ data.length ∧ i < w.length data ∧ w.ElementGettable data i ∧
    (0 < i → w.ElementGettable data (i - 1)) ∧ w.dataBegin data i ≤ w.dataEnd data i ∧
    w.dataEnd data i ≤ w.total
  EltParsable data i := w.eltf.Parsable (w.getData data i)
  getElt data i := w.eltf.parse (w.getData data i)

/-- VariableSizedElementSeq_v.rs 80-93 -/
def init (s : Slice) (d : Bytes) : Exec Bytes := w.bdyf.init s d

/-- VariableSizedElementSeq_v.rs 457-462 -/
def tryLength (s : Slice) (d : Bytes) : Exec (Option Nat) := w.bdyf.tryLength s d

/-- VariableSizedElementSeq_v.rs 138-149 -/
def execDataBegin (s : Slice) (d : Bytes) (i : Nat) : Exec Nat := do
  let x ← w.bdyf.execGetElt 0 s d i
  pure (IntTy.toUsize x)

/-- VariableSizedElementSeq_v.rs 157-175 -/
def execDataEnd (s : Slice) (d : Bytes) (i : Nat) : Exec Nat :=
  if 0 < i then do
    let j ← usub i 1
    let x ← w.bdyf.execGetElt 0 s d j
    pure (IntTy.toUsize x)
  else pure w.total

/-- VariableSizedElementSeq_v.rs 493-518 -/
def tryGet (s : Slice) (d : Bytes) (i : Nat) : Exec (Option Slice) := do
  match ← w.tryLength s d with
  | none => pure none
  | some len =>
    if i < w.bdyf.maxLength ∧ i < len then
      let a ← w.execDataBegin s d i
      let b ← w.execDataEnd s d i
      let l ← s.len
      if a ≤ b ∧ b ≤ w.total ∧ w.total ≤ l then
        let e ← s.execSubslice a b
        pure (some e)
      else pure none
    else pure none

/-- VariableSizedElementSeq_v.rs 520-525 -/
def execGet (s : Slice) (d : Bytes) (i : Nat) : Exec Slice := do
  let a ← w.execDataBegin s d i
  let b ← w.execDataEnd s d i
  s.execSubslice a b

/-- VariableSizedElementSeq_v.rs 527-543 -/
def tryGetElt (mem : Nat) (s : Slice) (d : Bytes) (i : Nat) : Exec (Option V) := do
  match ← w.tryGet s d i with
  | none => pure none
  | some e => w.eltf.tryParse mem e d

/-- VariableSizedElementSeq_v.rs 545-556 -/
def execGetElt (mem : Nat) (s : Slice) (d : Bytes) (i : Nat) : Exec V := do
  let e ← w.execGet s d i
  w.eltf.execParse mem e d

/-- VariableSizedElementSeq_v.rs 245-266 -/
def execLengthAndUpperBound (s : Slice) (d : Bytes) : Exec (Nat × Nat) := do
  let len ← w.bdyf.execLength s d
  if len = 0 then pure (len, w.total)
  else
    let j ← usub len 1
    let x ← w.bdyf.execGetElt 0 s d j
    pure (len, IntTy.toUsize x)

/-- VariableSizedElementSeq_v.rs 668-684 -/
def execAppendable (s : Slice) (d : Bytes) (v : V) : Exec Bool := do
  let lu ← w.execLengthAndUpperBound s d
  let p ← umul lu.1 w.bt.size
  let tableSize ← uadd w.lent.size p
  let free ← usub lu.2 tableSize
  let sz ← w.eltf.execSize v
  if w.bt.size ≤ free then
    let x ← usub free w.bt.size
    pure (decide (sz ≤ x))
  else pure false

/-- VariableSizedElementSeq_v.rs 686-850 -/
def execAppend (s : Slice) (d : Bytes) (v : V) : Exec Bytes := do
  let lu ← w.execLengthAndUpperBound s d
  let sz ← w.eltf.execSize v
  let start ← usub lu.2 sz
  let p ← uadd s.start start
  let r ← w.eltf.marshall v d p
  w.bdyf.execAppend s r.1 (w.bt.fromUsize start)

/-- The loop of VariableSizedElementSeq_v.rs 649-662; `n` iterations are left. -/
def descLoop (tbl : List Nat) : Nat → Nat → Exec Bool
  | 0, _ => .ok true
  | n + 1, i => do
    let a ← vget tbl i
    let b ← vget tbl (i + 1)
    if a < b then pure false else descLoop tbl n (i + 1)

/-- VariableSizedElementSeq_v.rs 611-666 -/
def execWellFormed (mem : Nat) (s : Slice) (d : Bytes) : Exec Bool := do
  match ← w.bdyf.tryParse mem s d with
  | none => pure false
  | some tbl =>
    if tbl.length = 0 then pure true
    else
      let p ← umul tbl.length w.bt.size
      let tbsz ← uadd w.lent.size p
      let last ← vget tbl (tbl.length - 1)
      if last < tbsz then pure false
      else
        let first ← vget tbl 0
        if w.total < first then pure false
        else descLoop tbl (tbl.length - 1) 0

end Var

namespace Var
variable {V : Type} {w : Var V}

theorem Valid.bdyf (h : w.Valid) : w.bdyf.Valid := ⟨intU_lawful _, h.len, rfl, h.usize⟩

/-- Shorthand for the `i`-th boundary. -/
abbrev g (w : Var V) (data : Bytes) (i : Nat) : Nat := w.bdyf.spec.getElt data i

theorem g_le_max (data : Bytes) (i : Nat) : w.g data i ≤ w.bt.max := IntTy.parse_le_max _ _

theorem bounds (h : w.Valid) {i : Nat} (hi : i < w.bdyf.maxLength) :
    w.lent.size + i * w.bt.size + w.bt.size ≤ w.total := h.bdyf.bounds hi

theorem max_of_table (h : w.Valid) {n : Nat} (hn : w.sizeOfTable n ≤ w.total) :
    n ≤ w.bdyf.maxLength := by
  show n ≤ (w.total - w.lent.size) / w.bt.size
  unfold sizeOfTable at hn
  exact (Nat.le_div_iff_mul_le w.bt.size_pos).mpr (by omega)

theorem table_of_max (h : w.Valid) {n : Nat} (hn : n ≤ w.bdyf.maxLength) :
    w.sizeOfTable n ≤ w.total := by
  have h1 : n * w.bt.size ≤ (w.total - w.lent.size) / w.bt.size * w.bt.size :=
    Nat.mul_le_mul_right _ hn
  have h2 := Nat.div_mul_le_self (w.total - w.lent.size) w.bt.size
  have := h.len
  unfold sizeOfTable
  omega

theorem gettable (h : w.Valid) {data : Bytes} {i : Nat} (hl : w.total ≤ data.length)
    (hi : i < w.bdyf.maxLength) : w.ElementGettable data i := by
  have hb := bounds h hi
  refine ⟨⟨hl, hi⟩, ?_⟩
  show w.bt.size ≤ (sub data (w.lent.size + i * w.bt.size)
    (w.lent.size + i * w.bt.size + w.bt.size)).length
  rw [length_sub' (by omega)]
  omega

/-- A well-formed page in terms of its boundaries. -/
structure Tbl (w : Var V) (data : Bytes) : Prop where
  long : w.total ≤ data.length
  small : w.length data ≤ w.bdyf.maxLength
  desc : ∀ i j, i ≤ j → j < w.length data → w.g data j ≤ w.g data i
  top : 0 < w.length data → w.g data 0 ≤ w.total
  bot : 0 < w.length data → w.sizeOfTable (w.length data) ≤ w.g data (w.length data - 1)

theorem table_length (data : Bytes) : (w.table data).length = w.length data :=
  w.bdyf.spec.length_parseAll data

theorem table_get (data : Bytes) (i : Nat) :
    (w.table data)[i]? = if i < w.length data then some (w.g data i) else none :=
  w.bdyf.spec.getElem?_parseAll data i

theorem table_last (data : Bytes) :
    (w.table data).getLast? = if 0 < w.length data then some (w.g data (w.length data - 1))
      else none := by
  rw [List.getLast?_eq_getElem?, table_length, table_get]
  by_cases h : 0 < w.length data
  · rw [if_pos h, if_pos (by omega)]
  · rw [if_neg h, if_neg (by omega)]

theorem wf_iff (h : w.Valid) (data : Bytes) : w.WF data ↔ w.Tbl data := by
  constructor
  · rintro ⟨⟨t1, t2⟩, v1, v2, v3⟩
    refine ⟨t1, ?_, ?_, ?_, ?_⟩
    · by_cases hz : w.length data = 0
      · omega
      · have := (t2 (w.length data - 1) (show _ < w.length data by omega)).1.2
        omega
    · intro i j hij hj
      exact v1 i j _ _ hij (by rw [table_get, if_pos (by omega)]) (by rw [table_get, if_pos hj])
    · intro hp
      exact v2 _ (by rw [table_get, if_pos hp])
    · intro hp
      have := v3 _ (by rw [table_last, if_pos hp])
      rwa [table_length] at this
  · rintro ⟨t1, t2, t3, t4, t5⟩
    refine ⟨⟨t1, fun i hi => gettable h t1 (Nat.lt_of_lt_of_le hi t2)⟩, ?_, ?_, ?_⟩
    · intro i j a b hij ha hb
      rw [table_get] at ha hb
      split at hb
      · rw [if_pos (by omega)] at ha
        have := t3 i j hij (by assumption)
        simp only [Option.some.injEq] at ha hb
        omega
      · simp at hb
    · intro a ha
      rw [table_get] at ha
      split at ha
      · have := t4 (by assumption)
        simp only [Option.some.injEq] at ha
        omega
      · simp at ha
    · intro a ha
      rw [table_last] at ha
      rw [table_length]
      split at ha
      · have := t5 (by assumption)
        simp only [Option.some.injEq] at ha
        omega
      · simp at ha

theorem elementsStart_eq (data : Bytes) : w.elementsStart data =
    if 0 < w.length data then w.g data (w.length data - 1) else w.total := by
  unfold elementsStart
  rw [table_last]
  by_cases h : 0 < w.length data
  · rw [if_pos h, if_pos h]
  · rw [if_neg h, if_neg h]

/-- Table and elements do not meet. -/
theorem Tbl.apart (h : w.Valid) {data : Bytes} (t : w.Tbl data) :
    w.sizeOfTable (w.length data) ≤ w.elementsStart data ∧ w.elementsStart data ≤ w.total := by
  rw [elementsStart_eq]
  by_cases hp : 0 < w.length data
  · rw [if_pos hp]
    exact ⟨t.bot hp, Nat.le_trans (t.desc 0 _ (Nat.zero_le _) (by omega)) (t.top hp)⟩
  · rw [if_neg hp]
    exact ⟨table_of_max h t.small, Nat.le_refl _⟩

theorem Tbl.elt (h : w.Valid) {data : Bytes} (t : w.Tbl data) {i : Nat} (hi : i < w.length data) :
    w.elementsStart data ≤ w.dataBegin data i ∧ w.dataBegin data i ≤ w.dataEnd data i ∧
    w.dataEnd data i ≤ w.total := by
  have hp : 0 < w.length data := by omega
  refine ⟨?_, ?_, ?_⟩
  · rw [elementsStart_eq, if_pos hp]
    exact t.desc i _ (by omega) (by omega)
  · unfold dataEnd
    split
    · subst i; exact t.top hp
    · exact t.desc (i - 1) i (by omega) hi
  · unfold dataEnd
    split
    · exact Nat.le_refl _
    · exact Nat.le_trans (t.desc 0 _ (Nat.zero_le _) (by omega)) (t.top hp)

theorem Tbl.gettable (h : w.Valid) {data : Bytes} (t : w.Tbl data) {i : Nat}
    (hi : i < w.length data) : w.spec.Gettable data i := by
  have he := t.elt h hi
  have hs := t.small
  exact ⟨t.long, hi, Var.gettable h t.long (by omega),
    fun _ => Var.gettable h t.long (by omega), he.2.1, he.2.2⟩

/-! ### Reading -/

theorem execDataBegin_ok (h : w.Valid) {s : Slice} {d : Bytes} {i : Nat} (hv : s.Valid d)
    (hd : d.length ≤ usizeMax) (ht : w.total ≤ (s.i d).length) (hi : i < w.bdyf.maxLength) :
    w.execDataBegin s d i = .ok (w.dataBegin (s.i d) i) := by
  have hg := gettable h ht hi
  unfold execDataBegin
  rw [Rsz.execGetElt_ok h.bdyf hv hd hg.1 hg.2 trivial]
  rfl

theorem execDataEnd_ok (h : w.Valid) {s : Slice} {d : Bytes} {i : Nat} (hv : s.Valid d)
    (hd : d.length ≤ usizeMax) (ht : w.total ≤ (s.i d).length) (hi : i < w.bdyf.maxLength) :
    w.execDataEnd s d i = .ok (w.dataEnd (s.i d) i) := by
  unfold execDataEnd dataEnd
  by_cases hp : 0 < i
  · have hg := gettable h ht (show i - 1 < w.bdyf.maxLength by omega)
    rw [if_pos hp, if_neg (by omega), usub_ok (by omega)]
    simp only [Exec.ok_bind]
    rw [Rsz.execGetElt_ok h.bdyf hv hd hg.1 hg.2 trivial]
    rfl
  · rw [if_neg hp, if_pos (by omega)]
    rfl

theorem tryGet_ok (h : w.Valid) {s : Slice} {d : Bytes} (hv : s.Valid d)
    (hd : d.length ≤ usizeMax) (i : Nat) :
    (w.spec.Gettable (s.i d) i →
      w.tryGet s d i = .ok (some (s.subslice (w.dataBegin (s.i d) i) (w.dataEnd (s.i d) i))) ∧
      (s.subslice (w.dataBegin (s.i d) i) (w.dataEnd (s.i d) i)).Valid d ∧
      (s.subslice (w.dataBegin (s.i d) i) (w.dataEnd (s.i d) i)).i d = w.getData (s.i d) i) ∧
    (¬ w.spec.Gettable (s.i d) i → w.tryGet s d i = .ok none) := by
  unfold tryGet tryLength
  rw [Rsz.tryLength_ok h.bdyf hv hd]
  simp only [Exec.ok_bind]
  by_cases ht : w.total ≤ (s.i d).length
  · rw [if_pos (show w.bdyf.total ≤ _ from ht)]
    show (_ → (if i < w.bdyf.maxLength ∧ i < w.length (s.i d) then _ else _) = _ ∧ _) ∧ (_ →
      (if i < w.bdyf.maxLength ∧ i < w.length (s.i d) then _ else _) = _)
    by_cases hi : i < w.bdyf.maxLength ∧ i < w.length (s.i d)
    · simp only [if_pos hi]
      rw [execDataBegin_ok h hv hd ht hi.1, Exec.ok_bind, execDataEnd_ok h hv hd ht hi.1,
        Exec.ok_bind, hv.len_ok, Exec.ok_bind]
      by_cases hr : w.dataBegin (s.i d) i ≤ w.dataEnd (s.i d) i ∧ w.dataEnd (s.i d) i ≤ w.total
      · rw [if_pos ⟨hr.1, hr.2, ht⟩]
        obtain ⟨c1, c2, c3⟩ := hv.cut hd hr.1 (Nat.le_trans hr.2 ht)
        rw [c1]
        exact ⟨fun _ => ⟨rfl, c2, c3⟩, fun hc => absurd ⟨ht, hi.2, Var.gettable h ht hi.1,
          fun _ => Var.gettable h ht (by omega), hr.1, hr.2⟩ hc⟩
      · rw [if_neg (fun hc => hr ⟨hc.1, hc.2.1⟩)]
        exact ⟨fun hc => absurd ⟨hc.2.2.2.2.1, hc.2.2.2.2.2⟩ hr, fun _ => rfl⟩
    · simp only [if_neg hi]
      exact ⟨fun hc => absurd ⟨hc.2.2.1.1.2, hc.2.1⟩ hi, fun _ => rfl⟩
  · rw [if_neg (show ¬ w.bdyf.total ≤ _ from ht)]
    exact ⟨fun hc => absurd hc.1 ht, fun _ => rfl⟩

theorem tryGetElt_ok (h : w.Valid) {s : Slice} {d : Bytes} {mem i : Nat} (hv : s.Valid d)
    (hd : d.length ≤ usizeMax)
    (hm : w.spec.Gettable (s.i d) i → w.eltf.Suffices mem (w.getData (s.i d) i)) :
    (w.spec.Gettable (s.i d) i ∧ w.spec.EltParsable (s.i d) i →
      w.tryGetElt mem s d i = .ok (some (w.spec.getElt (s.i d) i))) ∧
    (¬ (w.spec.Gettable (s.i d) i ∧ w.spec.EltParsable (s.i d) i) →
      w.tryGetElt mem s d i = .ok none) := by
  have hg := tryGet_ok h hv hd i
  unfold tryGetElt
  by_cases hi : w.spec.Gettable (s.i d) i
  · obtain ⟨g1, g2, g3⟩ := hg.1 hi
    rw [g1]
    simp only [Exec.ok_bind]
    refine ⟨fun hp => ?_, fun hp => ?_⟩
    · rw [h.elt.parses g2 hd (by rw [g3]; exact hp.2) (by rw [g3]; exact hm hi), g3]
      rfl
    · rw [h.elt.refuses g2 hd (by rw [g3]; exact fun hc => hp ⟨hi, hc⟩) (by rw [g3]; exact hm hi)]
  · rw [hg.2 hi]
    exact ⟨fun hc => absurd hc.1 hi, fun _ => rfl⟩

theorem execGetElt_ok (h : w.Valid) {s : Slice} {d : Bytes} {mem i : Nat} (hv : s.Valid d)
    (hd : d.length ≤ usizeMax) (hg : w.spec.Gettable (s.i d) i) (hp : w.spec.EltParsable (s.i d) i)
    (hm : w.eltf.Suffices mem (w.getData (s.i d) i)) :
    w.execGetElt mem s d i = .ok (w.spec.getElt (s.i d) i) := by
  obtain ⟨_, g2, g3⟩ := (tryGet_ok h hv hd i).1 hg
  unfold execGetElt execGet
  obtain ⟨q1, q2, q3, q4, q5, q6⟩ := hg
  rw [execDataBegin_ok h hv hd q1 q3.1.2, Exec.ok_bind, execDataEnd_ok h hv hd q1 q3.1.2,
    Exec.ok_bind, (hv.cut hd q5 (Nat.le_trans q6 q1)).1, Exec.ok_bind,
    h.elt.parse_ok g2 hd (by rw [g3]; exact hp) (by rw [g3]; exact hm), g3]
  rfl

theorem execLengthAndUpperBound_ok (h : w.Valid) {s : Slice} {d : Bytes} (hv : s.Valid d)
    (hd : d.length ≤ usizeMax) (t : w.Tbl (s.i d)) :
    w.execLengthAndUpperBound s d = .ok (w.length (s.i d), w.elementsStart (s.i d)) := by
  unfold execLengthAndUpperBound
  rw [Rsz.execLength_ok h.bdyf hv hd t.long, Exec.ok_bind, elementsStart_eq]
  show (if w.length (s.i d) = 0 then _ else _) = _
  by_cases hz : w.length (s.i d) = 0
  · rw [if_pos hz, if_neg (by omega)]
    rfl
  · have hs := t.small
    have hg := gettable h t.long (show w.length (s.i d) - 1 < w.bdyf.maxLength by omega)
    rw [if_neg hz, if_pos (by omega), usub_ok (show 1 ≤ w.bdyf.length (s.i d) by
      show 1 ≤ w.length (s.i d); omega), Exec.ok_bind]
    have := Rsz.execGetElt_ok (mem := 0) h.bdyf hv hd hg.1 hg.2 trivial
    rw [show w.bdyf.length (s.i d) = w.length (s.i d) from rfl, this]
    rfl

theorem execAppendable_ok (h : w.Valid) {s : Slice} {d : Bytes} {v : V} (hv : s.Valid d)
    (hd : d.length ≤ usizeMax) (hw : w.WF (s.i d)) (hm : w.eltf.Marshallable v) :
    ∃ b, w.execAppendable s d v = .ok b ∧ (b = true ↔ w.Appendable (s.i d) v) := by
  have t := (wf_iff h _).mp hw
  have ha := t.apart h
  have hu := h.usize
  have hst : w.sizeOfTable (w.length (s.i d)) =
    w.lent.size + w.length (s.i d) * w.bt.size := rfl
  unfold execAppendable
  rw [execLengthAndUpperBound_ok h hv hd t, Exec.ok_bind]
  simp only
  rw [umul_ok (by omega), Exec.ok_bind, uadd_ok (by omega), Exec.ok_bind,
    usub_ok (by omega), Exec.ok_bind, h.elt.size_ok hm, Exec.ok_bind]
  unfold Appendable freeSpace
  by_cases hb : w.bt.size ≤ w.elementsStart (s.i d) -
      (w.lent.size + w.length (s.i d) * w.bt.size)
  · rw [if_pos hb, usub_ok hb]
    refine ⟨_, rfl, ?_⟩
    rw [decide_eq_true_iff]
    constructor <;> intro <;> omega
  · rw [if_neg hb]
    refine ⟨_, rfl, ?_⟩
    constructor
    · intro hc; simp at hc
    · intro hc; omega

/-! ### Initialising and appending -/

theorem init_ok (h : w.Valid) {s : Slice} {d : Bytes} (hv : s.Valid d) (hd : d.length ≤ usizeMax)
    (ht : w.total ≤ (s.i d).length) :
    ∃ d', w.init s d = .ok d' ∧ s.AgreeBeyond d d' ∧ w.WF (s.i d') ∧ w.length (s.i d') = 0 := by
  obtain ⟨d', m1, _, m3, m4⟩ := Rsz.resize_ok h.bdyf (n := 0) hv hd ht (Nat.zero_le _)
  have hz : w.length (s.i d') = 0 := m4.2.2.1
  refine ⟨d', m1, m3, (wf_iff h _).mpr ⟨by rw [m4.1]; exact ht, ?_, ?_, ?_, ?_⟩, hz⟩
  · rw [hz]; exact Nat.zero_le _
  · intro i j _ hj; omega
  · intro hp; omega
  · intro hp; omega

theorem freeSpace_eq {data : Bytes} (t : w.Tbl data) (h : w.Valid) : w.freeSpace data =
    ((w.elementsStart data - w.sizeOfTable (w.length data) : Nat) : Int) := by
  have := t.apart h
  unfold freeSpace
  omega

/-- Appending an element. -/
theorem execAppend_ok (h : w.Valid) {s : Slice} {d : Bytes} {v : V} (hv : s.Valid d)
    (hd : d.length ≤ usizeMax) (hw : w.WF (s.i d)) (hm : w.eltf.Marshallable v)
    (ha : w.Appendable (s.i d) v) :
    ∃ d', w.execAppend s d v = .ok d' ∧ s.AgreeBeyond d d' ∧
      w.spec.Appends w.WF (s.i d) v (s.i d') ∧
      (∀ i, i < w.length (s.i d) → w.getData (s.i d') i = w.getData (s.i d) i) ∧
      w.freeSpace (s.i d') = w.freeSpace (s.i d) - (w.bt.size + w.eltf.size v) := by
  have t := (wf_iff h _).mp hw
  have hap := t.apart h
  unfold Appendable at ha
  rw [freeSpace_eq t h] at ha
  have hst : w.sizeOfTable (w.length (s.i d)) =
    w.lent.size + w.length (s.i d) * w.bt.size := rfl
  have hst1 : w.sizeOfTable (w.length (s.i d) + 1) =
      w.sizeOfTable (w.length (s.i d)) + w.bt.size := by
    unfold sizeOfTable; rw [Nat.add_mul, Nat.one_mul]; omega
  -- names for the numbers involved
  generalize hn : w.length (s.i d) = n at *
  generalize hup : w.elementsStart (s.i d) = up at *
  generalize hz : w.eltf.size v = z at *
  have hl := hv.len_i
  have hv1 := hv.1
  have hv2 := hv.2
  have hlong := t.long
  have hbp := w.bt.size_pos
  have hlu := execLengthAndUpperBound_ok h hv hd t
  rw [hn, hup] at hlu
  -- the element is written
  obtain ⟨d1, m1, m2, m3, m4⟩ := h.elt.marshalls (v := v) (d := d) (start := s.start + (up - z)) hm
    (by omega) hd
  rw [hz] at m1 m2 m3 m4
  have hend : s.start + (up - z) + z = s.start + up := by omega
  rw [hend] at m1 m2 m3 m4
  have hv' := m2.valid hv
  have hl1 : (s.i d1).length = (s.i d).length := by rw [hv'.len_i, hl]
  have hlen1 : w.bdyf.length (s.i d1) = n := by
    rw [← hn]
    exact Rsz.length_keep (r := w.bdyf) m2 (show s.start + w.lent.size ≤ _ by omega)
      (show s.start + w.lent.size ≤ _ by omega)
  have hbd1 : ∀ i, i < n → w.bdyf.getData (s.i d1) i = w.bdyf.getData (s.i d) i := by
    intro i hi
    have hmul := Uniform.mul_step (u := w.bt.size) hi
    exact Rsz.getData_keep (r := w.bdyf) m2
      (show s.start + w.lent.size + i * w.bt.size + w.bt.size ≤ _ by omega)
      (Or.inl (show s.start + w.lent.size + i * w.bt.size + w.bt.size ≤ _ by omega))
  -- the boundary is appended
  have hstart : w.bt.fromUsize (up - z) = up - z := IntTy.fromUsize_eq (by have := h.bt; omega)
  have hnmax : n + 1 ≤ w.bdyf.maxLength := max_of_table h (by omega)
  have hnb : n + 1 ≤ w.total := by
    have h1 : (n + 1) * 1 ≤ (n + 1) * w.bt.size := Nat.mul_le_mul_left _ hbp
    rw [Nat.mul_one, Nat.add_mul, Nat.one_mul] at h1
    omega
  obtain ⟨d2, o1, o2, o3, o4, o5⟩ := Rsz.execAppend_ok h.bdyf (v := w.bt.fromUsize (up - z)) hv'
    (by rw [m2.len]; exact hd) (show w.total ≤ _ by omega)
    ⟨by rw [hlen1]; omega, by rw [hstart]; show _ ≤ w.bt.max; have := h.bt; omega, rfl, by
      rw [hlen1]; show _ ≤ w.lent.max; have := h.lent; omega⟩
  rw [hlen1] at o2 o5
  obtain ⟨p1, p2, _, _, _, p6, _⟩ := o4
  have p2 : w.length (s.i d2) = n + 1 := by rw [← hlen1]; exact p2
  have p6 : w.g (s.i d2) n = up - z := by rw [← hstart, ← hlen1]; exact p6
  have hgk : ∀ i, i < n → w.g (s.i d2) i = w.g (s.i d) i := by
    intro i hi
    show IntTy.fromLE (sub (w.bdyf.getData (s.i d2) i) 0 _) =
      IntTy.fromLE (sub (w.bdyf.getData (s.i d) i) 0 _)
    rw [o5 i hi, hbd1 i hi]
  have hmul1 : (n + 1) * w.bt.size = n * w.bt.size + w.bt.size := by rw [Nat.add_mul, Nat.one_mul]
  have o2 : Wrote d1 d2 s.start (s.start + w.lent.size + (n + 1) * w.bt.size) := o2
  have hl2 : (s.i d2).length = (s.i d).length := p1.trans hl1
  -- bytes from the old elements on are those of `d`
  have hkeep : ∀ x y, up ≤ x → y ≤ (s.i d).length → sub (s.i d2) x y = sub (s.i d) x y := by
    intro x y hx hy
    unfold Slice.i
    rw [sub_sub (by omega), sub_sub (by omega), o2.sub_out (by omega), m2.sub_out (by omega)]
  have hupg : 0 < n → up = w.g (s.i d) (n - 1) := by
    intro hp
    rw [← hup, elementsStart_eq, hn, if_pos hp]
  have hup0 : n = 0 → up = w.total := by
    intro hp
    rw [← hup, elementsStart_eq, hn, if_neg (by omega)]
  have hupb : ∀ i, i < n → up ≤ w.g (s.i d) i := by
    intro i hi
    rw [hupg (by omega)]
    exact t.desc i _ (by omega) (by omega)
  have t2 : w.Tbl (s.i d2) := by
    refine ⟨by rw [hl2]; exact hlong, by rw [p2]; exact hnmax, ?_, ?_, ?_⟩
    · intro i j hij hj
      rw [p2] at hj
      by_cases hjn : j < n
      · rw [hgk j hjn, hgk i (by omega)]
        exact t.desc i j hij (by omega)
      · have : j = n := by omega
        subst this
        rw [p6]
        by_cases hin : i < j
        · rw [hgk i hin]; have := hupb i hin; omega
        · have : i = j := by omega
          subst this
          rw [p6]; exact Nat.le_refl _
    · intro _
      by_cases h0 : 0 < n
      · rw [hgk 0 h0]; exact t.top (by omega)
      · have : n = 0 := by omega
        subst this
        rw [p6]; omega
    · intro _
      rw [p2, Nat.add_sub_cancel, p6]
      omega
  have hdE : ∀ i, i < n → w.dataEnd (s.i d2) i = w.dataEnd (s.i d) i := by
    intro i hi
    unfold dataEnd
    split
    · rfl
    · exact hgk (i - 1) (by omega)
  have hdata : ∀ i, i < n → w.getData (s.i d2) i = w.getData (s.i d) i := by
    intro i hi
    have he := t.elt h (i := i) (by omega)
    unfold getData
    rw [hdE i hi, show w.dataBegin (s.i d2) i = w.dataBegin (s.i d) i from hgk i hi]
    exact hkeep _ _ (by rw [← hup]; exact he.1) (Nat.le_trans he.2.2 hlong)
  have hnew : w.getData (s.i d2) n = sub d1 (s.start + (up - z)) (s.start + up) := by
    have he : w.dataEnd (s.i d2) n = up := by
      unfold dataEnd
      split
      · exact (hup0 (by assumption)).symm
      · rw [hupg (by omega)]; exact hgk (n - 1) (by omega)
    unfold getData
    rw [he, show w.dataBegin (s.i d2) n = up - z from p6]
    unfold Slice.i
    rw [sub_sub (by omega), o2.sub_out (by omega)]
  refine ⟨d2, ?_, ?_, ⟨hl2, ?_, ?_, ?_, ?_, ?_, (wf_iff h _).mpr t2⟩, hdata, ?_⟩
  · unfold execAppend
    rw [hlu, Exec.ok_bind, h.elt.size_ok hm, hz, Exec.ok_bind,
      usub_ok (by show z ≤ up; omega), Exec.ok_bind, uadd_ok (by show s.start + (up - z) ≤ _; omega),
      Exec.ok_bind]
    show (w.eltf.marshall v d (s.start + (up - z)) >>= _) = _
    rw [m1, Exec.ok_bind]
    exact o1
  · have a1 := m2.agree (s := s) (by omega) (by omega)
    exact ⟨o3.1.trans a1.1, fun j hj => (o3.2.1 j hj).trans (a1.2.1 j hj),
      fun j hj => (o3.2.2 j hj).trans (a1.2.2 j hj)⟩
  · show w.length _ = w.length _ + 1
    rw [p2, hn]
  · intro i hi
    have hi : i ≠ n := by rw [← hn]; exact hi
    refine ⟨fun hg => ?_, fun hg => ?_⟩
    · have hin : i < n := by have := hg.2.1; omega
      exact t2.gettable h (by omega)
    · have hin : i < n := by have := hg.1.2.1; omega
      show w.eltf.Parsable (w.getData (s.i d2) i) ∧ w.eltf.parse (w.getData (s.i d2) i) = _
      rw [hdata i hin]
      exact ⟨hg.2, rfl⟩
  · show w.spec.Gettable _ (w.length _)
    rw [hn]
    exact t2.gettable h (by omega)
  · show w.eltf.Parsable (w.getData (s.i d2) (w.length (s.i d)))
    rw [hn, hnew]; exact m3
  · show w.eltf.parse (w.getData (s.i d2) (w.length (s.i d))) = v
    rw [hn, hnew]; exact m4
  · rw [freeSpace_eq t2 h, freeSpace_eq t h, elementsStart_eq, p2, if_pos (by omega),
      Nat.add_sub_cancel, p6, hup, hn]
    omega

/-! ### The check -/

theorem descLoop_ok {tbl : List Nat} : ∀ (n i : Nat), i + n < tbl.length →
    ∃ b, descLoop tbl n i = .ok b ∧ (b = true ↔
      ∀ j x y, i ≤ j → j < i + n → tbl[j]? = some x → tbl[j + 1]? = some y → y ≤ x)
  | 0, i, _ => ⟨true, rfl, by
      refine ⟨fun _ j x y h1 h2 => by omega, fun _ => rfl⟩⟩
  | n + 1, i, hlt => by
    have e1 : tbl[i]? = some tbl[i] := List.getElem?_eq_getElem (by omega)
    have e2 : tbl[i + 1]? = some tbl[i + 1] := List.getElem?_eq_getElem (by omega)
    unfold descLoop
    rw [vget_ok e1, Exec.ok_bind, vget_ok e2, Exec.ok_bind]
    by_cases hc : tbl[i] < tbl[i + 1]
    · rw [if_pos hc]
      refine ⟨false, rfl, ?_⟩
      refine ⟨fun hf => by simp at hf, fun hf => ?_⟩
      have := hf i _ _ (Nat.le_refl _) (by omega) e1 e2
      omega
    · rw [if_neg hc]
      obtain ⟨b, b1, b2⟩ := descLoop_ok (tbl := tbl) n (i + 1) (by omega)
      refine ⟨b, b1, b2.trans ⟨fun hf j x y h1 h2 h3 h4 => ?_,
        fun hf j x y h1 h2 => hf j x y (by omega) (by omega)⟩⟩
      by_cases e : j = i
      · subst e
        rw [e1] at h3; rw [e2] at h4
        simp only [Option.some.injEq] at h3 h4
        omega
      · exact hf j x y (by omega) (by omega) h3 h4

theorem desc_of_adjacent {g : Nat → Nat} {n : Nat} (h : ∀ j, j + 1 < n → g (j + 1) ≤ g j) :
    ∀ i j, i ≤ j → j < n → g j ≤ g i := by
  intro i j hij hj
  induction j with
  | zero => have : i = 0 := by omega
            subst this; exact Nat.le_refl _
  | succ j ih =>
    by_cases e : i = j + 1
    · subst e; exact Nat.le_refl _
    · exact Nat.le_trans (h j hj) (ih (by omega) (by omega))

/-- The executable check of a page decides `WF`, when there is memory for the claimed table. -/
theorem execWellFormed_ok (h : w.Valid) {s : Slice} {d : Bytes} {mem : Nat} (hv : s.Valid d)
    (hd : d.length ≤ usizeMax)
    (hm : w.total ≤ (s.i d).length → w.length (s.i d) ≤ mem) :
    ∃ b, w.execWellFormed mem s d = .ok b ∧ (b = true ↔ w.WF (s.i d)) := by
  have hp := Rsz.tryParse_ok h.bdyf (mem := mem) hv hd
    (fun ht => ⟨hm ht, fun _ _ _ => trivial⟩)
  unfold execWellFormed
  by_cases ht : w.Tableable (s.i d)
  · rw [hp.1 ht]
    simp only [Exec.ok_bind]
    have htl : (w.bdyf.spec.parseAll (s.i d)).length = w.length (s.i d) := table_length _
    have htg : ∀ i, (w.bdyf.spec.parseAll (s.i d))[i]? =
      if i < w.length (s.i d) then some (w.g (s.i d) i) else none := table_get _
    generalize w.bdyf.spec.parseAll (s.i d) = tbl at htl htg
    have hsm : w.length (s.i d) ≤ w.bdyf.maxLength := by
      by_cases hz : w.length (s.i d) = 0
      · omega
      · have := (ht.2 (w.length (s.i d) - 1) (show _ < w.length (s.i d) by omega)).1.2
        omega
    have htot := table_of_max h hsm
    have hu := h.usize
    have hst : w.sizeOfTable (w.length (s.i d)) =
      w.lent.size + w.length (s.i d) * w.bt.size := rfl
    by_cases hz : tbl.length = 0
    · rw [if_pos hz]
      refine ⟨true, rfl, fun _ => (wf_iff h _).mpr ⟨ht.1, hsm, ?_, ?_, ?_⟩, fun _ => rfl⟩
      · intro i j _ hj; omega
      · intro hpos; omega
      · intro hpos; omega
    · rw [if_neg hz, umul_ok (by rw [htl]; omega), Exec.ok_bind, uadd_ok (by rw [htl]; omega),
        Exec.ok_bind, vget_ok (by rw [htg, if_pos (by omega)]), Exec.ok_bind, htl]
      by_cases h1 : w.g (s.i d) (w.length (s.i d) - 1) <
          w.lent.size + w.length (s.i d) * w.bt.size
      · rw [if_pos h1]
        refine ⟨false, rfl, fun hc => by simp at hc, fun hc => ?_⟩
        have := ((wf_iff h _).mp hc).bot (by omega)
        omega
      · rw [if_neg h1, vget_ok (by rw [htg, if_pos (by omega)]), Exec.ok_bind]
        by_cases h2 : w.total < w.g (s.i d) 0
        · rw [if_pos h2]
          refine ⟨false, rfl, fun hc => by simp at hc, fun hc => ?_⟩
          have := ((wf_iff h _).mp hc).top (by omega)
          omega
        · rw [if_neg h2]
          obtain ⟨b, b1, b2⟩ := descLoop_ok (tbl := tbl) (w.length (s.i d) - 1) 0 (by omega)
          refine ⟨b, b1, b2.trans ⟨fun hc => (wf_iff h _).mpr ⟨ht.1, hsm, ?_, ?_, ?_⟩,
            fun hc j x y _ hj hx hy => ?_⟩⟩
          · apply desc_of_adjacent
            intro j hj
            exact hc j _ _ (Nat.zero_le _) (by omega) (by rw [htg, if_pos (by omega)])
              (by rw [htg, if_pos hj])
          · intro _; omega
          · intro _; omega
          · rw [htg, if_pos (by omega)] at hx hy
            simp only [Option.some.injEq] at hx hy
            have := ((wf_iff h _).mp hc).desc j (j + 1) (by omega) (by omega)
            omega
  · rw [hp.2 ht]
    exact ⟨false, rfl, fun hc => by simp at hc, fun hc => absurd hc.1 ht⟩

end Var
end Verif.Marshal
