import Verif.Marshal.KV
import Verif.Marshal.Variable
/-
C25. Decoders are total and exact on arbitrary bytes, and look at nothing but their slice.

Specification: a small grammar, as relations between byte strings and values: `IsInt`, `IsArray`,
`IsTable`, `IsPair`, `IsEntry`.
-/
namespace Verif.C25
open Verif.Marshal

/-! The grammar. Nothing here mentions a parser. -/

/-- The number that `bytes` are the base-256 digits of, least significant first. -/
def number : List UInt8 → Nat
  | [] => 0
  | b :: bs => b.toNat + 256 * number bs

/-- `n` bytes from `a` on. -/
def piece (data : List UInt8) (a n : Nat) : List UInt8 := (data.drop a).take n

/-- The first `size` bytes are a little-endian integer. Later bytes are ignored. -/
def IsInt (size : Nat) (data : List UInt8) (v : Nat) : Prop :=
  size ≤ data.length ∧ v = number (piece data 0 size)

/-- As many elements of `size` bytes as there is room for. -/
def IsArray {V : Type} (elt : List UInt8 → V → Prop) (size : Nat) (data : List UInt8)
    (l : List V) : Prop :=
  l.length = data.length / size ∧ ∀ i v, l[i]? = some v → elt (piece data (i * size) size) v

/-- A count and that many elements, in `total` bytes. -/
def IsTable {V : Type} (elt : List UInt8 → V → Prop) (lenSize size total : Nat)
    (data : List UInt8) (l : List V) : Prop :=
  total ≤ data.length ∧ IsInt lenSize data l.length ∧ l.length ≤ (total - lenSize) / size ∧
  ∀ i v, l[i]? = some v → elt (piece data (lenSize + i * size) size) v

/-- The length of the key, the key, and the value in all the rest. -/
def IsPair {K D : Type} (key : List UInt8 → K → Prop) (val : List UInt8 → D → Prop)
    (lenSize : Nat) (data : List UInt8) (kv : K × D) : Prop :=
  ∃ n, IsInt lenSize data n ∧ lenSize + n ≤ data.length ∧ key (piece data lenSize n) kv.1 ∧
    val (data.drop (lenSize + n)) kv.2

/-- Element `i` of a page with a table of boundaries: from boundary `i` to the one before it, or to
the end of the page. -/
def IsEntry {V : Type} (elt : List UInt8 → V → Prop) (lenSize bdySize total : Nat)
    (data : List UInt8) (i : Nat) (v : V) : Prop :=
  ∃ n a b, total ≤ data.length ∧ IsInt lenSize data n ∧ i < n ∧ i < (total - lenSize) / bdySize ∧
    IsInt bdySize (data.drop (lenSize + i * bdySize)) a ∧
    (i = 0 → b = total) ∧
    (0 < i → IsInt bdySize (data.drop (lenSize + (i - 1) * bdySize)) b) ∧
    a ≤ b ∧ b ≤ total ∧ elt (piece data a (b - a)) v

/-! The formats mean what the grammar says. -/

/-- What a format defines: these bytes are parsable, as this value. -/
def Means {V : Type} (f : Fmt V) (data : List UInt8) (v : V) : Prop := f.Parsable data ∧ f.parse data = v

theorem number_eq (l : List UInt8) : IntTy.fromLE l = number l := by
  induction l with
  | nil => rfl
  | cons b bs ih => rw [IntTy.fromLE, number, ih]

theorem sub_piece (d : Bytes) (a n : Nat) : sub d a (a + n) = piece d a n := by
  unfold sub piece
  rw [List.drop_take, Nat.add_sub_cancel_left]

theorem sub_piece' (d : Bytes) {a b : Nat} (h : a ≤ b) : sub d a b = piece d a (b - a) := by
  rw [← sub_piece]; congr 1; omega

theorem sub_zero (d : Bytes) (n : Nat) : sub d 0 n = piece d 0 n := by
  rw [← sub_piece, Nat.zero_add]

theorem grammar_int (t : IntTy) (data : Bytes) (v : Nat) :
    Means (intFmt t) data v ↔ IsInt t.size data v := by
  unfold Means IsInt
  show t.size ≤ data.length ∧ IntTy.fromLE (sub data 0 t.size) = v ↔ _
  rw [number_eq, sub_zero]
  exact ⟨fun h => ⟨h.1, h.2.symm⟩, fun h => ⟨h.1, h.2.symm⟩⟩

theorem means_all {V : Type} (q : SeqSpec V) {data : Bytes} {l : List V} :
    q.ParsableAll data ∧ q.parseAll data = l ↔ l.length = q.length data ∧
      ∀ i v, l[i]? = some v → (q.Gettable data i ∧ q.EltParsable data i) ∧ q.getElt data i = v := by
  constructor
  · rintro ⟨h1, h2⟩
    have hl : l.length = q.length data := by rw [← h2, q.length_parseAll]
    refine ⟨hl, fun i v hv => ?_⟩
    have hi : i < l.length := by
      rcases Nat.lt_or_ge i l.length with h | h
      · exact h
      · rw [List.getElem?_eq_none h] at hv; simp at hv
    refine ⟨h1 i (by omega), ?_⟩
    rw [← h2, q.getElem?_parseAll, if_pos (by omega)] at hv
    exact Option.some.inj hv
  · rintro ⟨h1, h2⟩
    have hg : ∀ i (hi : i < l.length), _ := fun i hi => h2 i l[i] (List.getElem?_eq_getElem hi)
    exact ⟨fun i hi => (hg i (by omega)).1, q.parseAll_eq h1 fun i hi => (hg i hi).2⟩

theorem lt_of_getElem? {V : Type} {l : List V} {i : Nat} {v : V} (h : l[i]? = some v) :
    i < l.length := by
  rcases Nat.lt_or_ge i l.length with h' | h'
  · exact h'
  · rw [List.getElem?_eq_none h'] at h; simp at h

theorem grammar_array {V : Type} (f : UFmt V) (data : Bytes) (l : List V) :
    Means (Uniform.fmt f) data l ↔ IsArray (Means f.toFmt) f.us data l := by
  refine Iff.trans (means_all (Uniform.spec f)) ?_
  constructor
  · rintro ⟨h1, h2⟩
    refine ⟨h1, fun i v hv => ?_⟩
    rw [← sub_piece]
    exact ⟨(h2 i v hv).1.2, (h2 i v hv).2⟩
  · rintro ⟨h1, h2⟩
    refine ⟨h1, fun i v hv => ?_⟩
    have h3 := h2 i v hv
    rw [← sub_piece] at h3
    refine ⟨⟨?_, h3.1⟩, h3.2⟩
    show i < data.length / f.us
    have := lt_of_getElem? hv
    omega

theorem length_isInt {V : Type} (r : Rsz V) {data : Bytes} (h : r.lent.size ≤ data.length) (n : Nat) :
    n = r.length data ↔ IsInt r.lent.size data n := by
  unfold Rsz.length IsInt
  rw [← sub_zero, ← number_eq]
  have : sub (sub data 0 r.lent.size) 0 r.lent.size = sub data 0 r.lent.size :=
    sub_all' (by rw [length_sub]; omega)
  show n = IntTy.fromLE (sub (sub data 0 r.lent.size) 0 r.lent.size) ↔ _
  rw [this]
  exact ⟨fun e => ⟨h, e⟩, fun e => e.2⟩

theorem grammar_table {V : Type} {r : Rsz V} (h : r.Valid) (data : Bytes) (l : List V) :
    Means r.fmt data l ↔
      IsTable (Means r.eltf.toFmt) r.lent.size r.eltf.us r.total data l := by
  have hle : r.lent.size ≤ r.total := h.len
  have hmax : r.maxLength = (r.total - r.lent.size) / r.eltf.us := h.max
  have e : Means r.fmt data l ↔
      r.total ≤ data.length ∧ r.spec.ParsableAll data ∧ r.spec.parseAll data = l := and_assoc
  rw [e, means_all]
  constructor
  · rintro ⟨h0, h1, h2⟩
    refine ⟨h0, (length_isInt r (by omega) _).mp h1, ?_, fun i v hv => ?_⟩
    · by_cases hz : l.length = 0
      · omega
      · have hi : l.length - 1 < l.length := by omega
        have := (h2 _ _ (List.getElem?_eq_getElem hi)).1.1.2
        omega
    · rw [← sub_piece]
      exact ⟨(h2 i v hv).1.2, (h2 i v hv).2⟩
  · rintro ⟨h0, h1, h2, h3⟩
    refine ⟨h0, (length_isInt r (by omega) _).mpr h1, fun i v hv => ?_⟩
    have h4 := h3 i v hv
    rw [← sub_piece] at h4
    have := lt_of_getElem? hv
    exact ⟨⟨⟨h0, by omega⟩, h4.1⟩, h4.2⟩

theorem grammar_pair {K D : Type} (w : KV K D) (data : Bytes) (kv : K × D) :
    Means w.fmt data kv ↔ IsPair (Means w.keyf) (Means w.dataf) w.lent.size data kv := by
  have hk : w.lent.size ≤ data.length → ∀ n, n = w.keylen data ↔ IsInt w.lent.size data n :=
    fun hl n => length_isInt (V := Nat) ⟨intU .u8, w.lent, 0, 0⟩ hl n
  have hv : w.valueBytes data = data.drop (w.lent.size + w.keylen data) := by
    unfold KV.valueBytes sub
    rw [List.take_length]
  have hkb : w.keyBytes data = piece data w.lent.size (w.keylen data) := sub_piece _ _ _
  constructor
  · rintro ⟨⟨h1, h2, h3, h4⟩, h5⟩
    rw [← h5]
    refine ⟨w.keylen data, (hk h1 _).mp rfl, h3, ?_, ?_⟩
    · rw [← hkb]; exact ⟨h2, rfl⟩
    · rw [← hv]; exact ⟨h4, rfl⟩
  · rintro ⟨n, h1, h2, h3, h4⟩
    have hn := (hk h1.1 n).mpr h1
    subst hn
    rw [← hkb] at h3
    rw [← hv] at h4
    exact ⟨⟨h1.1, h3.1, h2, h4.1⟩, Prod.ext h3.2 h4.2⟩

theorem isInt_drop (t : IntTy) {data : Bytes} {a : Nat} (h : a + t.size ≤ data.length) (v : Nat) :
    IsInt t.size (data.drop a) v ↔ v = (intFmt t).parse (sub data a (a + t.size)) := by
  show _ ↔ v = IntTy.fromLE (sub (sub data a (a + t.size)) 0 t.size)
  rw [sub_all' (by rw [length_sub]; omega), sub_piece, number_eq]
  unfold IsInt piece
  rw [List.drop_zero, List.length_drop]
  exact ⟨fun e => e.2, fun e => ⟨by omega, e⟩⟩

/-- Element `i` of the page, as the format defines it. -/
def MeansEntry {V : Type} (w : Var V) (data : List UInt8) (i : Nat) (v : V) : Prop :=
  w.spec.Gettable data i ∧ w.spec.EltParsable data i ∧ w.spec.getElt data i = v

theorem grammar_entry {V : Type} {w : Var V} (h : w.Valid) (data : Bytes) (i : Nat) (v : V) :
    MeansEntry w data i v ↔
      IsEntry (Means w.eltf) w.lent.size w.bt.size w.total data i v := by
  have hle : w.lent.size ≤ w.total := h.len
  have hbdy : ∀ j, w.total ≤ data.length → j < (w.total - w.lent.size) / w.bt.size → ∀ a,
      IsInt w.bt.size (data.drop (w.lent.size + j * w.bt.size)) a ↔ a = w.g data j := by
    intro j hl hj a
    have := Var.bounds h (i := j) hj
    exact isInt_drop w.bt (by omega) a
  constructor
  · rintro ⟨⟨g1, g2, g3, g4, g5, g6⟩, h2, h3⟩
    have hi : i < (w.total - w.lent.size) / w.bt.size := g3.1.2
    refine ⟨w.length data, w.dataBegin data i, w.dataEnd data i, g1,
      (length_isInt w.bdyf (show w.lent.size ≤ _ by omega) _).mp rfl, g2, hi,
      (hbdy i g1 hi _).mpr rfl, ?_, ?_, g5, g6, ?_⟩
    · intro hz; unfold Var.dataEnd; rw [if_pos hz]
    · intro hp
      have : i - 1 < (w.total - w.lent.size) / w.bt.size := by omega
      unfold Var.dataEnd
      rw [if_neg (by omega)]
      exact (hbdy (i - 1) g1 this _).mpr rfl
    · rw [← sub_piece' _ g5]
      exact ⟨h2, h3⟩
  · rintro ⟨n, a, b, h1, h2, h3, h4, h5, h6, h7, h8, h9, h10⟩
    have hn : n = w.length data := (length_isInt w.bdyf (show w.lent.size ≤ _ by omega) _).mpr h2
    have ha : a = w.dataBegin data i := (hbdy i h1 h4 _).mp h5
    have hb : b = w.dataEnd data i := by
      unfold Var.dataEnd
      by_cases hz : i = 0
      · rw [if_pos hz]; exact h6 hz
      · rw [if_neg hz]
        exact (hbdy (i - 1) h1 (by omega) _).mp (h7 (by omega))
    rw [← sub_piece' _ h8] at h10
    subst ha hb hn
    refine ⟨⟨h1, h3, Var.gettable h h1 h4, fun hp => Var.gettable h h1 ?_, h8, h9⟩, h10.1, h10.2⟩
    show i - 1 < (w.total - w.lent.size) / w.bt.size
    omega

/-! The decoders -/

/-- A decoder is total and exact: given memory enough for what the bytes ask for, it never panics,
and it returns a value exactly when the bytes mean that value. -/
theorem exact {V : Type} {f : Fmt V} (h : f.Lawful) {mem : Nat} {s : Slice} {d : Bytes}
    (hv : s.Valid d) (hd : d.length ≤ usizeMax) (hm : f.Suffices mem (s.i d)) :
    ∃ o, f.tryParse mem s d = .ok o ∧ ∀ v, o = some v ↔ Means f (sub d s.start s.end_) v := by
  by_cases hp : f.Parsable (s.i d)
  · refine ⟨_, h.parses hv hd hp hm, fun v => ?_⟩
    rw [Option.some.injEq]
    exact ⟨fun e => ⟨hp, e⟩, fun e => e.2⟩
  · refine ⟨_, h.refuses hv hd hp hm, fun v => ?_⟩
    simp only [reduceCtorEq, false_iff]
    exact fun e => hp e.1

/-- `exec_parsable` answers the same question. -/
theorem parsable_exact {V : Type} {f : Fmt V} (h : f.Lawful) {mem : Nat} {s : Slice} {d : Bytes}
    (hv : s.Valid d) (hd : d.length ≤ usizeMax) (hm : f.Suffices mem (s.i d)) :
    ∃ b, f.execParsable mem s d = .ok b ∧ (b = true ↔ ∃ v, Means f (sub d s.start s.end_) v) := by
  by_cases hp : f.Parsable (s.i d)
  · exact ⟨_, h.parsable_yes hv hd hm hp, fun _ => ⟨_, hp, rfl⟩, fun _ => rfl⟩
  · exact ⟨_, h.parsable_no hv hd hm hp, by simp, fun ⟨_, hc, _⟩ => absurd hc hp⟩

/-- The formats of the repository, nested in any way, are covered. -/
theorem int_exact (t : IntTy) : (intFmt t).Lawful := int_lawful t
theorem array_exact {V : Type} {f : UFmt V} (h : f.Lawful) : (Uniform.fmt f).Lawful :=
  Uniform.lawful h
theorem table_exact {V : Type} {r : Rsz V} (h : r.Valid) : r.fmt.Lawful := Rsz.lawful h
theorem pair_exact {K D : Type} {w : KV K D} (h : w.Valid) : w.fmt.Lawful := KV.lawful h

/-- Decoding depends on the bytes of the slice only: in another buffer, at another place, with other
surroundings, the result is the same. -/
theorem only_the_slice {V : Type} {f : Fmt V} (h : f.Lawful) {mem : Nat} {s s' : Slice}
    {d d' : Bytes} (hv : s.Valid d) (hv' : s'.Valid d') (hd : d.length ≤ usizeMax)
    (hd' : d'.length ≤ usizeMax) (he : sub d s.start s.end_ = sub d' s'.start s'.end_)
    (hm : f.Suffices mem (s.i d)) : f.tryParse mem s d = f.tryParse mem s' d' := by
  obtain ⟨o, h1, h2⟩ := exact h hv hd hm
  have he' : s.i d = s'.i d' := he
  obtain ⟨o', h3, h4⟩ := exact h hv' hd' (he' ▸ hm)
  rw [h1, h3]
  congr 1
  apply Option.ext
  intro v
  rw [h2 v, h4 v, he]

/-! The element readers -/

/-- Arrays: the length, the place and the value of element `i`. -/
theorem array_reader {V : Type} {f : UFmt V} (h : f.Lawful) {mem : Nat} {s : Slice} {d : Bytes}
    (i : Nat) (hv : s.Valid d) (hd : d.length ≤ usizeMax)
    (hm : ∀ data : Bytes, data.length ≤ f.us → f.Suffices mem data) :
    Uniform.tryLength f s = .ok (some ((s.end_ - s.start) / f.us)) ∧
    (i < (s.end_ - s.start) / f.us → ∃ e, Uniform.tryGet f s i = .ok (some e) ∧
      e.start = s.start + i * f.us ∧ e.end_ = e.start + f.us ∧ e.end_ ≤ s.end_) ∧
    (¬ i < (s.end_ - s.start) / f.us → Uniform.tryGet f s i = .ok none) ∧
    ∃ o, Uniform.tryGetElt f mem s d i = .ok o ∧ ∀ v, o = some v ↔
      i < (s.end_ - s.start) / f.us ∧
      Means f.toFmt (piece (sub d s.start s.end_) (i * f.us) f.us) v := by
  have hli := hv.len_i
  have hlen : Uniform.length f (s.i d) = (s.end_ - s.start) / f.us := by
    unfold Uniform.length; rw [hli]
  have hg := Uniform.tryGet_ok h.pos hv hd i
  rw [hlen] at hg
  refine ⟨?_, fun hi => ?_, fun hi => by rw [hg, if_neg hi], ?_⟩
  · unfold Uniform.tryLength; rw [Uniform.execLength_ok h.pos hv, hlen]; rfl
  · rw [hg, if_pos hi]
    refine ⟨_, rfl, rfl, ?_, ?_⟩
    · show s.start + (i * f.us + f.us) = s.start + i * f.us + f.us; omega
    · show s.start + (i * f.us + f.us) ≤ s.end_
      have := (Nat.le_div_iff_mul_le h.pos).mp (Nat.succ_le_of_lt hi)
      rw [Nat.succ_mul] at this
      have := hv.1
      omega
  · have ht := Uniform.tryGetElt_ok (mem := mem) (i := i) h hv hd (fun _ => hm _ (by
      unfold Uniform.getData; rw [length_sub]; omega))
    rw [hlen] at ht
    rw [show sub d s.start s.end_ = s.i d from rfl, ← sub_piece]
    by_cases hc : i < (s.end_ - s.start) / f.us ∧ f.Parsable (Uniform.getData f (s.i d) i)
    · refine ⟨_, ht.1 hc, fun v => ?_⟩
      rw [Option.some.injEq]
      exact ⟨fun e => ⟨hc.1, hc.2, e⟩, fun e => e.2.2⟩
    · refine ⟨_, ht.2 hc, fun v => ?_⟩
      simp only [reduceCtorEq, false_iff]
      exact fun e => hc ⟨e.1, e.2.1⟩

/-- Tables: the length, the place and the value of element `i`; elements up to the capacity can be
read whatever the length says. -/
theorem table_reader {V : Type} {r : Rsz V} (h : r.Valid) {mem : Nat} {s : Slice} {d : Bytes}
    (i : Nat) (hv : s.Valid d) (hd : d.length ≤ usizeMax)
    (hm : ∀ data : Bytes, data.length ≤ r.eltf.us → r.eltf.Suffices mem data) :
    (∃ o, r.tryLength s d = .ok o ∧ ∀ n, o = some n ↔
      r.total ≤ s.end_ - s.start ∧ IsInt r.lent.size (sub d s.start s.end_) n) ∧
    (∃ o, r.tryGet s d i = .ok o ∧ ∀ e, o = some e ↔
      r.total ≤ s.end_ - s.start ∧ i < (r.total - r.lent.size) / r.eltf.us ∧
      e.start = s.start + r.lent.size + i * r.eltf.us ∧ e.end_ = e.start + r.eltf.us) ∧
    ∃ o, r.tryGetElt mem s d i = .ok o ∧ ∀ v, o = some v ↔
      r.total ≤ s.end_ - s.start ∧ i < (r.total - r.lent.size) / r.eltf.us ∧
      Means r.eltf.toFmt (piece (sub d s.start s.end_) (r.lent.size + i * r.eltf.us) r.eltf.us) v := by
  have hli := hv.len_i
  have hle : r.lent.size ≤ r.total := h.len
  have hmax : r.maxLength = (r.total - r.lent.size) / r.eltf.us := h.max
  refine ⟨⟨_, Rsz.tryLength_ok h hv hd, fun n => ?_⟩, ⟨_, Rsz.tryGet_ok h hv hd i, fun e => ?_⟩, ?_⟩
  · rw [hli]
    by_cases ht : r.total ≤ s.end_ - s.start
    · rw [if_pos ht, Option.some.injEq, eq_comm, length_isInt r (by omega)]
      exact ⟨fun e => ⟨ht, e⟩, fun e => e.2⟩
    · rw [if_neg ht]
      simp only [reduceCtorEq, false_iff]
      exact fun e => ht e.1
  · rw [hli, hmax]
    by_cases ht : r.total ≤ s.end_ - s.start ∧ i < (r.total - r.lent.size) / r.eltf.us
    · rw [if_pos ht, Option.some.injEq]
      obtain ⟨ea, eb⟩ := e
      simp only [Slice.subslice, Slice.mk.injEq, Rsz.ls, Rsz.us]
      constructor
      · intro he; exact ⟨ht.1, ht.2, by omega, by omega⟩
      · intro he; exact ⟨by omega, by omega⟩
    · rw [if_neg ht]
      simp only [reduceCtorEq, false_iff]
      exact fun e => ht ⟨e.1, e.2.1⟩
  · have ht := Rsz.tryGetElt_ok (mem := mem) (i := i) h hv hd (fun _ _ => hm _ (by
      unfold Rsz.getData; rw [length_sub]; show min _ _ - _ ≤ r.us; omega))
    rw [show sub d s.start s.end_ = s.i d from rfl, ← sub_piece]
    by_cases hc : r.spec.Gettable (s.i d) i ∧ r.spec.EltParsable (s.i d) i
    · refine ⟨_, ht.1 hc, fun v => ?_⟩
      rw [Option.some.injEq]
      exact ⟨fun e => ⟨hli ▸ hc.1.1, hmax ▸ hc.1.2, hc.2, e⟩, fun e => e.2.2.2⟩
    · refine ⟨_, ht.2 hc, fun v => ?_⟩
      simp only [reduceCtorEq, false_iff]
      exact fun e => hc ⟨⟨hli ▸ e.1, hmax ▸ e.2.1⟩, e.2.2.1⟩

/-- Pages of variable-sized elements, well formed or not: an element is returned exactly when the
bytes define one, and it lies inside the page. -/
theorem page_reader {V : Type} {w : Var V} (h : w.Valid) {mem : Nat} {s : Slice} {d : Bytes}
    (i : Nat) (hv : s.Valid d) (hd : d.length ≤ usizeMax)
    (hm : ∀ data : Bytes, data.length ≤ w.total → w.eltf.Suffices mem data) :
    (∃ o, w.tryGet s d i = .ok o ∧ ∀ e, o = some e →
      s.start ≤ e.start ∧ e.start ≤ e.end_ ∧ e.end_ ≤ s.start + w.total ∧ e.end_ ≤ s.end_) ∧
    ∃ o, w.tryGetElt mem s d i = .ok o ∧ ∀ v, o = some v ↔
      IsEntry (Means w.eltf) w.lent.size w.bt.size w.total (sub d s.start s.end_) i v := by
  constructor
  · have hg := Var.tryGet_ok h hv hd i
    by_cases hc : w.spec.Gettable (s.i d) i
    · refine ⟨_, (hg.1 hc).1, fun e he => ?_⟩
      rw [← Option.some.inj he]
      obtain ⟨g1, _, _, _, g5, g6⟩ := hc
      rw [hv.len_i] at g1
      unfold Slice.subslice
      have := hv.1
      simp only
      omega
    · exact ⟨_, hg.2 hc, fun e he => by simp at he⟩
  · have ht := Var.tryGetElt_ok (mem := mem) (i := i) h hv hd (fun hg => hm _ (by
      unfold Var.getData; rw [length_sub]
      have := hg.2.2.2.2.2
      omega))
    by_cases hc : w.spec.Gettable (s.i d) i ∧ w.spec.EltParsable (s.i d) i
    · refine ⟨_, ht.1 hc, fun v => ?_⟩
      rw [Option.some.injEq, ← grammar_entry h]
      exact ⟨fun e => ⟨hc.1, hc.2, e⟩, fun e => e.2.2⟩
    · refine ⟨_, ht.2 hc, fun v => ?_⟩
      rw [← grammar_entry h]
      simp only [reduceCtorEq, false_iff]
      exact fun e => hc ⟨e.1, e.2.1⟩

/-! Concrete bytes -/
def strings : Fmt (List Nat) := Uniform.fmt (intU .u8)
theorem strings_modest : strings.Modest := Uniform.modest (intU_lawful .u8).pos (int_modest .u8)
def pairs : KV (List Nat) (List Nat) := ⟨strings, strings, .u8⟩
theorem pairs_valid : pairs.Valid :=
  ⟨Uniform.lawful (intU_lawful _), Uniform.lawful (intU_lawful _), by decide⟩

/-- A key length of 200 in a slice of six bytes: refused, whatever follows the slice. -/
example (rest : Bytes) (hr : rest.length < 1000) :
    pairs.tryParse 6 ⟨0, 6⟩ ([200, 1, 2, 3, 9, 8] ++ rest) = .ok none := by
  rw [show KV.tryParse pairs 6 ⟨0, 6⟩ ([200, 1, 2, 3, 9, 8] ++ rest) =
      pairs.tryParse 6 ⟨0, 6⟩ [200, 1, 2, 3, 9, 8] from
    only_the_slice (pair_exact pairs_valid) (f := pairs.fmt)
      (by show _ ∧ _; simp) (by decide)
      (by rw [List.length_append]; unfold usizeMax; simp only [List.length_cons, List.length_nil]; omega)
      (by decide) (by simp [sub]) (KV.modest strings_modest strings_modest _ _ (by
        show ((List.take 6 _).drop 0).length ≤ 6
        rw [List.length_drop, List.length_take]; omega))]
  decide

/-- A page whose second boundary points past the first: element 1 is refused, element 0 is read. -/
def page : Var (List Nat) := ⟨strings, .u8, .u8, 8⟩
theorem page_valid : page.Valid :=
  ⟨Uniform.lawful (intU_lawful _), by decide, by decide, by decide, by decide⟩
example : page.tryGetElt 8 ⟨0, 8⟩ [2, 5, 7, 0, 0, 10, 11, 12] 0 = .ok (some [10, 11, 12]) := by decide
example : page.tryGetElt 8 ⟨0, 8⟩ [2, 5, 7, 0, 0, 10, 11, 12] 1 = .ok none := by decide
example : IsEntry (Means strings) 1 1 8 [2, 5, 7, 0, 0, 10, 11, 12] 0 [10, 11, 12] := by
  obtain ⟨o, h1, h2⟩ := (page_reader page_valid 0 (mem := 8) (s := ⟨0, 8⟩)
    (d := [2, 5, 7, 0, 0, 10, 11, 12]) (by decide) (by decide)
    (fun data hl => strings_modest _ _ hl)).2
  exact (h2 _).mp (Exec.ok.inj (h1.symm.trans (by decide)))
example : IsPair (Means strings) (Means strings) 1 [3, 1, 2, 3, 9, 8] ([1, 2, 3], [9, 8]) := by
  obtain ⟨o, h1, h2⟩ := exact (pair_exact pairs_valid) (mem := 6) (s := ⟨0, 6⟩)
    (d := [3, 1, 2, 3, 9, 8]) (by decide) (by decide)
    (KV.modest strings_modest strings_modest _ _ (by decide))
  exact (grammar_pair pairs _ _).mp ((h2 _).mp (Exec.ok.inj (h1.symm.trans
    (show pairs.tryParse 6 ⟨0, 6⟩ [3, 1, 2, 3, 9, 8] = _ by decide))))
example : IsTable (Means (intFmt .u16)) 1 2 8 [2, 5, 0, 1, 2, 9, 9, 9] [5, 513] := by
  let r : Rsz Nat := ⟨intU .u16, .u8, 8, 3⟩
  have hr : r.Valid := ⟨intU_lawful _, by decide, by decide, by decide⟩
  obtain ⟨o, h1, h2⟩ := exact (table_exact hr) (mem := 8) (s := ⟨0, 8⟩)
    (d := [2, 5, 0, 1, 2, 9, 9, 9]) (by decide) (by decide)
    (fun _ => ⟨by decide, fun _ _ _ => trivial⟩)
  exact (grammar_table hr _ _).mp ((h2 _).mp (Exec.ok.inj (h1.symm.trans
    (show r.tryParse 8 ⟨0, 8⟩ [2, 5, 0, 1, 2, 9, 9, 9] = _ by decide))))

end Verif.C25
