import Verif.Marshal.Resizable
/-
C22. A length-prefixed sequence in a slot of fixed size is a list with a capacity. Statements are about
the executable functions: what the decoder returns before and after an operation.

Specification: `Cmd`, `apply`: lists of bounded length.
-/
namespace Verif.C22
open Verif.Marshal

variable {V : Type} {r : Rsz V}

/-- The decoder, given enough memory for the buffer, returns `l` for the slot. -/
def Reads (r : Rsz V) (s : Slice) (d : Bytes) (l : List V) : Prop :=
  ∀ mem, d.length ≤ mem → r.tryParse mem s d = .ok (some l)

/-- How many elements the slot can hold: what fits behind the length field, and what the length
field can count. -/
def capacity (total lenSize lenMax eltSize : Nat) : Nat :=
  min ((total - lenSize) / eltSize) lenMax

def cap (r : Rsz V) : Nat := capacity r.total r.lent.size r.lent.max r.eltf.us

theorem reads_iff (h : r.Valid) (hmo : r.eltf.toFmt.Modest) {s : Slice} {d : Bytes} {l : List V}
    (hv : s.Valid d) (hd : d.length ≤ usizeMax) :
    Reads r s d l ↔ r.fmt.Parsable (s.i d) ∧ r.spec.parseAll (s.i d) = l := by
  have hsu : ∀ mem, d.length ≤ mem → r.length (s.i d) ≤ mem → r.fmt.Suffices mem (s.i d) := by
    intro mem hm hl ht
    refine ⟨hl, fun i hi hx => hmo _ _ ?_⟩
    unfold Rsz.getData
    rw [length_sub, hv.len_i]
    have := hv.2
    omega
  constructor
  · intro hr
    have hm : d.length ≤ max d.length (r.length (s.i d)) := Nat.le_max_left ..
    have hp := Rsz.tryParse_ok h hv hd (hsu _ hm (Nat.le_max_right ..))
    have hr := hr _ hm
    by_cases hc : r.fmt.Parsable (s.i d)
    · rw [hp.1 hc] at hr
      exact ⟨hc, by simpa using hr⟩
    · rw [hp.2 hc] at hr
      simp at hr
  · rintro ⟨hp, hl⟩ mem hm
    rw [(Rsz.tryParse_ok h hv hd (hsu mem hm ?_)).1 hp, hl]
    have h1 : r.length (s.i d) ≤ r.maxLength := by
      by_cases hz : r.length (s.i d) = 0
      · omega
      · have := (hp.2 (r.length (s.i d) - 1) (show _ < r.length (s.i d) by omega)).1.2
        omega
    have h2 : r.maxLength ≤ r.total := by
      rw [h.max]
      exact Nat.le_trans (Nat.div_le_self _ _) (Nat.sub_le _ _)
    have h3 := hp.1
    rw [hv.len_i] at h3
    have := hv.2
    omega

theorem len_of {s : Slice} {d : Bytes} {l : List V} (h : r.spec.parseAll (s.i d) = l) :
    r.length (s.i d) = l.length := by
  rw [← h]; exact (r.spec.length_parseAll _).symm

theorem Reads.bound (h : r.Valid) (hmo : r.eltf.toFmt.Modest) {s : Slice} {d : Bytes} {l : List V}
    (hv : s.Valid d) (hd : d.length ≤ usizeMax) (hr : Reads r s d l) : l.length ≤ cap r := by
  obtain ⟨hp, hl⟩ := (reads_iff h hmo hv hd).mp hr
  have h0 := len_of hl
  have h1 := Rsz.length_le_max (r := r) (s.i d)
  have h2 : l.length ≤ r.maxLength := by
    by_cases hz : l.length = 0
    · omega
    · have := (hp.2 (l.length - 1) (show _ < r.length (s.i d) by omega)).1.2
      omega
  rw [h.max] at h2
  replace h2 : l.length ≤ (r.total - r.lent.size) / r.eltf.us := h2
  unfold cap capacity
  omega

/-- Encoding a list that fits, at any offset, and decoding gives the list; no byte outside the slot
changes. -/
theorem encode_decode (h : r.Valid) (hmo : r.eltf.toFmt.Modest) {l : List V} {d : Bytes}
    {start : Nat} (hl : ∀ v ∈ l, r.eltf.Marshallable v ∧ r.eltf.size v = r.eltf.us)
    (hc : l.length ≤ cap r) (room : start + r.total ≤ d.length) (hd : d.length ≤ usizeMax) :
    ∃ d', r.marshall l d start = .ok (d', start + r.total) ∧ d'.length = d.length ∧
      (∀ i, i < start ∨ start + r.total ≤ i → d'[i]? = d[i]?) ∧
      Reads r ⟨start, start + r.total⟩ d' l := by
  unfold cap capacity at hc
  have h1 : l.length * r.eltf.us ≤ r.total - r.lent.size :=
    (Nat.le_div_iff_mul_le h.elt.pos).mp (by omega)
  have h2 : r.lent.size ≤ r.total := h.len
  obtain ⟨d', e1, e2, e3, e4⟩ := (Rsz.lawful h).marshalls (v := l) (d := d) (start := start)
    ⟨hl, by omega, show r.lent.size + l.length * r.eltf.us ≤ r.total by omega⟩ room hd
  refine ⟨d', e1, e2.len, e2.out, ?_⟩
  have hv : Slice.Valid ⟨start, start + r.total⟩ d' :=
    ⟨Nat.le_add_right _ _, by show _ ≤ d'.length; rw [e2.len]; exact room⟩
  exact (reads_iff h hmo hv (by rw [e2.len]; exact hd)).mpr ⟨e3, e4⟩

/-- Initialising gives the empty list. -/
theorem init_empty (h : r.Valid) (hmo : r.eltf.toFmt.Modest) {s : Slice} {d : Bytes}
    (hv : s.Valid d) (hd : d.length ≤ usizeMax) (room : s.start + r.total ≤ s.end_) :
    ∃ d', r.init s d = .ok d' ∧ d'.length = d.length ∧
      (∀ i, i < s.start ∨ s.end_ ≤ i → d'[i]? = d[i]?) ∧ Reads r s d' [] := by
  have ht : r.total ≤ (s.i d).length := by rw [hv.len_i]; omega
  obtain ⟨d', e1, e2, e3, e4, e5, e6, _⟩ := Rsz.resize_ok h (n := 0) hv hd ht (Nat.zero_le _)
  have hv' := e2.valid hv
  refine ⟨d', e1, e2.len, fun i hi => hi.elim (e3.2.1 i) (e3.2.2 i), ?_⟩
  refine (reads_iff h hmo hv' (by rw [e2.len]; exact hd)).mpr
    ⟨⟨by rw [e4]; exact ht, fun i hi => ?_⟩, ?_⟩
  · rw [e6] at hi; omega
  · unfold SeqSpec.parseAll; rw [e6]; rfl

/-- The length of the list, each element, and nothing beyond the end. -/
theorem read_element (h : r.Valid) (hmo : r.eltf.toFmt.Modest) {s : Slice} {d : Bytes}
    {l : List V} {mem : Nat} (hv : s.Valid d) (hd : d.length ≤ usizeMax) (hm : d.length ≤ mem)
    (hr : Reads r s d l) :
    r.tryLength s d = .ok (some l.length) ∧
    ∀ i, (hi : i < l.length) → r.tryGetElt mem s d i = .ok (some l[i]) ∧
      r.execGetElt mem s d i = .ok l[i] := by
  obtain ⟨hp, hl⟩ := (reads_iff h hmo hv hd).mp hr
  have h0 := len_of hl
  refine ⟨by rw [Rsz.tryLength_ok h hv hd, if_pos hp.1, h0], fun i hi => ?_⟩
  have hg := hp.2 i (show i < r.length (s.i d) by omega)
  have hs : r.eltf.Suffices mem (r.getData (s.i d) i) := hmo _ _ (by
    unfold Rsz.getData
    rw [length_sub, hv.len_i]
    have := hv.2
    omega)
  have he : r.spec.getElt (s.i d) i = l[i] := by
    apply Option.some.inj
    rw [← List.getElem?_eq_getElem, ← hl, r.spec.getElem?_parseAll,
      if_pos (show i < r.spec.length (s.i d) from by show i < r.length _; omega)]
  rw [(Rsz.tryGetElt_ok h hv hd (fun _ _ => hs)).1 hg, Rsz.execGetElt_ok h hv hd hg.1 hg.2 hs, he]
  exact ⟨rfl, rfl⟩

/-- Append is offered exactly when the list is not full; then it adds the element at the end. -/
theorem append (h : r.Valid) (hmo : r.eltf.toFmt.Modest) {s : Slice} {d : Bytes} {l : List V}
    {v : V} (hv : s.Valid d) (hd : d.length ≤ usizeMax) (hr : Reads r s d l)
    (hvm : r.eltf.Marshallable v) (hvs : r.eltf.size v = r.eltf.us) :
    r.execAppendable s d v = .ok (decide (l.length < cap r)) ∧
    (l.length < cap r → ∃ d', r.execAppend s d v = .ok d' ∧ d'.length = d.length ∧
      (∀ i, i < s.start ∨ s.end_ ≤ i → d'[i]? = d[i]?) ∧ Reads r s d' (l ++ [v])) := by
  obtain ⟨hp, hl⟩ := (reads_iff h hmo hv hd).mp hr
  have h0 := len_of hl
  have hmax := h.max
  have hiff : r.Appendable (s.i d) v ↔ l.length < cap r := by
    unfold Rsz.Appendable cap capacity
    constructor
    · rintro ⟨a, _, _, b⟩
      rw [h0, hmax] at a
      replace a : l.length < (r.total - r.lent.size) / r.eltf.us := a
      omega
    · intro a
      exact ⟨by rw [h0, hmax]; exact (by omega : l.length < (r.total - r.lent.size) / r.eltf.us), hvm,
        hvs, by omega⟩
  constructor
  · obtain ⟨b, e1, e2⟩ := Rsz.execAppendable_ok h hv hd hp.1 hvm
    rw [e1]
    congr 1
    rw [Bool.eq_iff_iff, e2, hiff, decide_eq_true_iff]
  · intro hc
    obtain ⟨d', e1, e2, e3, e4, _⟩ := Rsz.execAppend_ok h hv hd hp.1 (hiff.mpr hc)
    have hv' := e2.valid hv
    have := SeqSpec.Appends.list _ e4 hp.2
    exact ⟨d', e1, e2.len, fun i hi => hi.elim (e3.2.1 i) (e3.2.2 i),
      (reads_iff h hmo hv' (by rw [e2.len]; exact hd)).mpr
        ⟨⟨by rw [e4.1]; exact hp.1, this.2⟩, by rw [this.1, hl]⟩⟩

/-- Overwriting element `i` changes element `i` and no other. -/
theorem overwrite (h : r.Valid) (hmo : r.eltf.toFmt.Modest) {s : Slice} {d : Bytes} {l : List V}
    {i : Nat} {v : V} (hv : s.Valid d) (hd : d.length ≤ usizeMax) (hr : Reads r s d l)
    (hi : i < l.length) (hvm : r.eltf.Marshallable v) (hvs : r.eltf.size v = r.eltf.us) :
    r.execSettable s d i v = .ok true ∧
    ∃ d', r.execSet s d i v = .ok d' ∧ d'.length = d.length ∧
      (∀ j, j < s.start ∨ s.end_ ≤ j → d'[j]? = d[j]?) ∧ Reads r s d' (l.set i v) := by
  obtain ⟨hp, hl⟩ := (reads_iff h hmo hv hd).mp hr
  have h0 := len_of hl
  have hset : r.Settable (s.i d) i v :=
    ⟨hp.1, (hp.2 i (show i < r.length (s.i d) by omega)).1.2, hvm, hvs⟩
  constructor
  · obtain ⟨b, e1, e2⟩ := Rsz.execSettable_ok (i := i) h hv hd hvm
    rw [e1, e2.mpr hset]
  · obtain ⟨d', e1, e2, e3, e4⟩ := Rsz.execSet_ok h hv hd hset
    have hv' := e2.valid hv
    have := SeqSpec.Sets.list _ e4 hp.1 hp.2
    exact ⟨d', e1, e2.len, fun i hi => hi.elim (e3.2.1 i) (e3.2.2 i),
      (reads_iff h hmo hv' (by rw [e2.len]; exact hd)).mpr
        ⟨⟨by rw [e4.1]; exact hp.1, this.2⟩, by rw [this.1, hl]⟩⟩

/-- Shrinking truncates the list. -/
theorem shrink (h : r.Valid) (hmo : r.eltf.toFmt.Modest) {s : Slice} {d : Bytes} {l : List V}
    {n : Nat} (hv : s.Valid d) (hd : d.length ≤ usizeMax) (hr : Reads r s d l)
    (hn : n ≤ l.length) :
    r.execResizable s d n = .ok true ∧
    ∃ d', r.resize s d n = .ok d' ∧ d'.length = d.length ∧
      (∀ j, j < s.start ∨ s.end_ ≤ j → d'[j]? = d[j]?) ∧ Reads r s d' (l.take n) := by
  obtain ⟨hp, hl⟩ := (reads_iff h hmo hv hd).mp hr
  have h0 := len_of hl
  have hb := Reads.bound h hmo hv hd hr
  unfold cap capacity at hb
  have hmax := h.max
  constructor
  · obtain ⟨b, e1, e2⟩ := Rsz.execResizable_ok (n := n) h hv hd
    rw [e1, e2.mpr ⟨hp.1, by rw [hmax]; exact (by omega : n ≤ (r.total - r.lent.size) / r.eltf.us),
      by omega⟩]
  · obtain ⟨d', e1, e2, e3, e4⟩ := Rsz.resize_ok h hv hd hp.1 (n := n) (by omega)
    have hv' := e2.valid hv
    have := SeqSpec.Resizes.list _ e4 hp.2 (show n ≤ r.length (s.i d) by omega)
    exact ⟨d', e1, e2.len, fun i hi => hi.elim (e3.2.1 i) (e3.2.2 i),
      (reads_iff h hmo hv' (by rw [e2.len]; exact hd)).mpr
        ⟨⟨by rw [e4.1]; exact hp.1, this.2⟩, by rw [this.1, hl]⟩⟩

/-- Resizing in either direction, within the capacity, changes the length and no byte behind the
length field. -/
theorem resize_only_length (h : r.Valid) {s : Slice} {d : Bytes} {n : Nat} (hv : s.Valid d)
    (hd : d.length ≤ usizeMax) (room : s.start + r.total ≤ s.end_) (hn : n ≤ cap r) :
    ∃ d', r.resize s d n = .ok d' ∧ d'.length = d.length ∧ r.tryLength s d' = .ok (some n) ∧
      ∀ j, j < s.start ∨ s.start + r.lent.size ≤ j → d'[j]? = d[j]? := by
  have ht : r.total ≤ (s.i d).length := by rw [hv.len_i]; omega
  unfold cap capacity at hn
  obtain ⟨d', e1, e2, e3, e4⟩ := Rsz.resize_ok h hv hd ht (n := n) (by omega)
  refine ⟨d', e1, e2.len, ?_, e2.out⟩
  rw [Rsz.tryLength_ok h (e2.valid hv) (by rw [e2.len]; exact hd),
    if_pos (by rw [e4.1]; exact ht)]
  exact congrArg (fun x => Exec.ok (some x)) e4.2.2.1

/-! Sequences of operations -/

inductive Cmd (V : Type)
  | append (v : V)
  | set (i : Nat) (v : V)
  | truncate (n : Nat)

/-- The list a sequence of commands leads to. -/
def apply (cap : Nat) : List (Cmd V) → List V → List V
  | [], l => l
  | .append v :: cs, l => apply cap cs (if l.length < cap then l ++ [v] else l)
  | .set i v :: cs, l => apply cap cs (l.set i v)
  | .truncate n :: cs, l => apply cap cs (l.take n)

/-- A client of the format that asks before it acts. -/
def exec (r : Rsz V) (s : Slice) : List (Cmd V) → Bytes → Exec Bytes
  | [], d => .ok d
  | .append v :: cs, d => do
    let ok ← r.execAppendable s d v
    let d ← if ok then r.execAppend s d v else pure d
    exec r s cs d
  | .set i v :: cs, d => do
    let n ← r.execLength s d
    let ok ← r.execSettable s d i v
    let d ← if i < n && ok then r.execSet s d i v else pure d
    exec r s cs d
  | .truncate n :: cs, d => do
    let len ← r.execLength s d
    let d ← if n ≤ len then r.resize s d n else pure d
    exec r s cs d

/-- The values in a command are of the element type and of the fixed size. -/
def Cmd.Ok (r : Rsz V) : Cmd V → Prop
  | .append v | .set _ v => r.eltf.Marshallable v ∧ r.eltf.size v = r.eltf.us
  | .truncate _ => True

/-- Any sequence of appends, overwrites and truncations behaves as on a list of bounded length, and
leaves every byte outside the slot alone. -/
theorem commands (h : r.Valid) (hmo : r.eltf.toFmt.Modest) {s : Slice} (cs : List (Cmd V)) :
    ∀ {d : Bytes} {l : List V}, s.Valid d → d.length ≤ usizeMax → Reads r s d l →
    (∀ c ∈ cs, c.Ok r) →
    ∃ d', exec r s cs d = .ok d' ∧ d'.length = d.length ∧
      (∀ j, j < s.start ∨ s.end_ ≤ j → d'[j]? = d[j]?) ∧ Reads r s d' (apply (cap r) cs l) := by
  induction cs with
  | nil => intro d l hv hd hr _; exact ⟨d, rfl, rfl, fun _ _ => rfl, hr⟩
  | cons c cs ih =>
    intro d l hv hd hr hc
    have key : ∀ (d1 : Bytes) (l1 : List V), d1.length = d.length →
        (∀ j, j < s.start ∨ s.end_ ≤ j → d1[j]? = d[j]?) → Reads r s d1 l1 →
        apply (cap r) (c :: cs) l = apply (cap r) cs l1 → exec r s (c :: cs) d = exec r s cs d1 →
        ∃ d', exec r s (c :: cs) d = .ok d' ∧ d'.length = d.length ∧
          (∀ j, j < s.start ∨ s.end_ ≤ j → d'[j]? = d[j]?) ∧
          Reads r s d' (apply (cap r) (c :: cs) l) := by
      intro d1 l1 k1 k2 k3 k4 k5
      obtain ⟨d', e1, e2, e3, e4⟩ := ih (d := d1) (l := l1) ⟨hv.1, by rw [k1]; exact hv.2⟩
        (by rw [k1]; exact hd) k3 (fun c' h' => hc c' (List.mem_cons_of_mem _ h'))
      exact ⟨d', by rw [k5, e1], by rw [e2, k1], fun j hj => by rw [e3 j hj, k2 j hj],
        by rw [k4]; exact e4⟩
    have hlen : r.execLength s d = .ok l.length := by
      obtain ⟨hp, hl⟩ := (reads_iff h hmo hv hd).mp hr
      rw [Rsz.execLength_ok h hv hd hp.1, len_of hl]
    have hok := hc c (List.mem_cons_self ..)
    cases c with
    | append v =>
      obtain ⟨a1, a2⟩ := append h hmo hv hd hr hok.1 hok.2
      by_cases hf : l.length < cap r
      · obtain ⟨d1, b1, b2, b3, b4⟩ := a2 hf
        refine key d1 _ b2 b3 b4 (by simp only [apply]; rw [if_pos hf]) ?_
        simp only [exec]
        rw [a1, Exec.ok_bind, decide_eq_true hf, if_pos rfl, b1, Exec.ok_bind]
      · refine key d l rfl (fun _ _ => rfl) hr (by simp only [apply]; rw [if_neg hf]) ?_
        simp only [exec]
        rw [a1, Exec.ok_bind, decide_eq_false hf, if_neg (by simp), Exec.pure_eq, Exec.ok_bind]
    | set i v =>
      by_cases hi : i < l.length
      · obtain ⟨a1, d1, b1, b2, b3, b4⟩ := overwrite h hmo hv hd hr hi hok.1 hok.2
        refine key d1 _ b2 b3 b4 rfl ?_
        simp only [exec]
        rw [hlen, Exec.ok_bind, a1, Exec.ok_bind, if_pos (by simp [hi]), b1, Exec.ok_bind]
      · refine key d l rfl (fun _ _ => rfl) hr ?_ ?_
        · simp only [apply]
          rw [List.set_eq_of_length_le (by omega)]
        · obtain ⟨b, e1, _⟩ := Rsz.execSettable_ok (i := i) h hv hd hok.1
          simp only [exec]
          rw [hlen, Exec.ok_bind, e1, Exec.ok_bind, if_neg (by simp [hi]), Exec.pure_eq,
            Exec.ok_bind]
    | truncate n =>
      by_cases hn : n ≤ l.length
      · obtain ⟨_, d1, b1, b2, b3, b4⟩ := shrink h hmo hv hd hr hn
        refine key d1 _ b2 b3 b4 rfl ?_
        simp only [exec]
        rw [hlen, Exec.ok_bind, if_pos hn, b1, Exec.ok_bind]
      · refine key d l rfl (fun _ _ => rfl) hr ?_ ?_
        · simp only [apply]
          rw [List.take_of_length_le (by omega)]
        · simp only [exec]
          rw [hlen, Exec.ok_bind, if_neg hn, Exec.pure_eq, Exec.ok_bind]

/-- The same from a freshly initialised slot. -/
theorem commands_from_init (h : r.Valid) (hmo : r.eltf.toFmt.Modest) {s : Slice} {d : Bytes}
    (cs : List (Cmd V)) (hv : s.Valid d) (hd : d.length ≤ usizeMax)
    (room : s.start + r.total ≤ s.end_) (hc : ∀ c ∈ cs, c.Ok r) :
    ∃ d', (r.init s d >>= exec r s cs) = .ok d' ∧ d'.length = d.length ∧
      (∀ j, j < s.start ∨ s.end_ ≤ j → d'[j]? = d[j]?) ∧ Reads r s d' (apply (cap r) cs []) := by
  obtain ⟨d1, a1, a2, a3, a4⟩ := init_empty h hmo hv hd room
  obtain ⟨d', e1, e2, e3, e4⟩ := commands h hmo cs (d := d1) ⟨hv.1, by rw [a2]; exact hv.2⟩
    (by rw [a2]; exact hd) a4 hc
  exact ⟨d', by rw [a1, Exec.ok_bind, e1], by rw [e2, a2], fun j hj => by rw [e3 j hj, a3 j hj], e4⟩

/-! Up to three u16 behind a u8 length, in an 8-byte slot of which the last byte is never used, in
the middle of a buffer. -/
def demo : Rsz Nat := ⟨intU .u16, .u8, 8, 3⟩
theorem demo_valid : demo.Valid := ⟨intU_lawful _, by decide, by decide, by decide⟩
example : Rsz.new (intU .u16) .u8 8 = .ok demo := rfl
example : cap demo = 3 := rfl
def cmds : List (Cmd Nat) :=
  [.append 1, .append 513, .append 3, .append 4, .set 0 65535, .truncate 2, .append 9]
example : apply (cap demo) cmds [] = [65535, 513, 9] := by decide
example : (demo.init ⟨1, 9⟩ (List.replicate 10 7) >>= exec demo ⟨1, 9⟩ cmds) =
    .ok [7, 3, 255, 255, 1, 2, 9, 0, 7, 7] := by decide
example : ∃ d', (demo.init ⟨1, 9⟩ (List.replicate 10 7) >>= exec demo ⟨1, 9⟩ cmds) = .ok d' ∧
    Reads demo ⟨1, 9⟩ d' [65535, 513, 9] := by
  obtain ⟨d', h1, _, _, h4⟩ := commands_from_init demo_valid (int_modest .u16) (s := ⟨1, 9⟩)
    (d := List.replicate 10 7) cmds (by decide) (by decide) (by decide) (by
      intro c hc
      simp only [cmds, List.mem_cons, List.not_mem_nil, or_false] at hc
      rcases hc with e | e | e | e | e | e | e <;> subst e <;>
        first | exact trivial | exact ⟨by show _ ≤ IntTy.max .u16; decide, rfl⟩)
  exact ⟨d', h1, h4⟩
example : ∃ d', demo.marshall [5, 6] (List.replicate 10 7) 1 = .ok (d', 9) := by
  obtain ⟨d', h1, _⟩ := encode_decode demo_valid (int_modest .u16) (l := [5, 6])
    (d := List.replicate 10 7) (start := 1) (by
      intro v hv
      simp only [List.mem_cons, List.not_mem_nil, or_false] at hv
      rcases hv with e | e <;> subst e <;> exact ⟨by show _ ≤ IntTy.max .u16; decide, rfl⟩)
    (by decide) (by decide) (by decide)
  exact ⟨d', h1⟩

end Verif.C22
