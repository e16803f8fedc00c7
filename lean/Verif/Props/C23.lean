import Verif.Marshal.Variable
/-
C23. A page of variable-sized elements is an append-only list with a byte budget. Statements are
about the executable functions: what the reader returns before and after.

Specification: `fill`: which of the offered elements are taken, from their sizes alone.
-/
namespace Verif.C23
open Verif.Marshal

variable {V : Type} {w : Var V}

/-- The reader, given enough memory for the buffer, finds a well-formed page with the elements `l`. -/
def Reads (w : Var V) (s : Slice) (d : Bytes) (l : List V) : Prop :=
  w.tryLength s d = .ok (some l.length) ∧
  ∀ mem, d.length ≤ mem → w.execWellFormed mem s d = .ok true ∧
    ∀ i, (hi : i < l.length) → w.tryGetElt mem s d i = .ok (some l[i])

theorem getData_le {s : Slice} {d : Bytes} (hv : s.Valid d) (i : Nat) :
    (w.getData (s.i d) i).length ≤ d.length := by
  unfold Var.getData
  rw [length_sub, hv.len_i]
  have := hv.2
  omega

theorem reads_iff (h : w.Valid) (hmo : w.eltf.Modest) {s : Slice} {d : Bytes} {l : List V}
    (hv : s.Valid d) (hd : d.length ≤ usizeMax) :
    Reads w s d l ↔
      w.WF (s.i d) ∧ w.spec.ParsableAll (s.i d) ∧ w.spec.parseAll (s.i d) = l := by
  have hg : ∀ mem i, d.length ≤ mem → _ := fun mem i hm =>
    Var.tryGetElt_ok (w := w) (mem := mem) (i := i) h hv hd
      (fun _ => hmo _ _ (Nat.le_trans (getData_le hv i) hm))
  have hlen := Rsz.tryLength_ok (r := w.bdyf) h.bdyf hv hd
  constructor
  · rintro ⟨h1, h2⟩
    have ht : w.total ≤ (s.i d).length := by
      by_cases ht : w.total ≤ (s.i d).length
      · exact ht
      · have h1 : w.bdyf.tryLength s d = _ := h1
        rw [hlen, if_neg (show ¬ w.bdyf.total ≤ _ from ht)] at h1
        simp at h1
    have hl : w.length (s.i d) = l.length := by
      have h1 : w.bdyf.tryLength s d = _ := h1
      rw [hlen, if_pos (show w.bdyf.total ≤ _ from ht)] at h1
      exact Option.some.inj (Exec.ok.inj h1)
    have hm : d.length ≤ max d.length (w.length (s.i d)) := Nat.le_max_left ..
    obtain ⟨h3, h4⟩ := h2 _ hm
    have hel : ∀ i (hi : i < l.length), (w.spec.Gettable (s.i d) i ∧ w.spec.EltParsable (s.i d) i) ∧
        w.spec.getElt (s.i d) i = l[i] := by
      intro i hi
      have h4 := h4 i hi
      by_cases hc : w.spec.Gettable (s.i d) i ∧ w.spec.EltParsable (s.i d) i
      · rw [(hg _ i hm).1 hc] at h4
        exact ⟨hc, by simpa using h4⟩
      · rw [(hg _ i hm).2 hc] at h4
        simp at h4
    refine ⟨?_, fun i hi => (hel i (hl ▸ hi)).1, w.spec.parseAll_eq hl.symm fun i hi => (hel i hi).2⟩
    obtain ⟨b, e1, e2⟩ := Var.execWellFormed_ok h hv hd
      (mem := max d.length (w.length (s.i d))) (fun _ => Nat.le_max_right ..)
    rw [e1] at h3
    exact e2.mp (Exec.ok.inj h3)
  · rintro ⟨h1, h2, h3⟩
    have hl : w.length (s.i d) = l.length := by
      rw [← h3]; exact (w.spec.length_parseAll _).symm
    have t := (Var.wf_iff h _).mp h1
    refine ⟨?_, fun mem hm => ⟨?_, fun i hi => ?_⟩⟩
    · show w.bdyf.tryLength s d = _
      rw [hlen, if_pos (show w.bdyf.total ≤ _ from t.long)]
      exact congrArg (fun x => Exec.ok (some x)) hl
    · obtain ⟨b, e1, e2⟩ := Var.execWellFormed_ok h hv hd (mem := mem) (fun _ => by
        have a1 := t.small
        have a2 : w.bdyf.maxLength ≤ w.total :=
          Nat.le_trans (Nat.div_le_self _ _) (Nat.sub_le _ _)
        have a3 := t.long
        rw [hv.len_i] at a3
        have := hv.2
        omega)
      rw [e1, e2.mpr h1]
    · have hb : i < w.spec.length (s.i d) := by show i < w.length _; omega
      rw [(hg mem i hm).1 (h2 i hb)]
      congr 1
      rw [← List.getElem?_eq_getElem hi, ← h3, w.spec.getElem?_parseAll, if_pos hb]

/-- Initialising gives the empty page. -/
theorem init_empty (h : w.Valid) (hmo : w.eltf.Modest) {s : Slice} {d : Bytes}
    (hv : s.Valid d) (hd : d.length ≤ usizeMax) (room : s.start + w.total ≤ s.end_) :
    ∃ d', w.init s d = .ok d' ∧ d'.length = d.length ∧
      (∀ i, i < s.start ∨ s.end_ ≤ i → d'[i]? = d[i]?) ∧ Reads w s d' [] ∧
      w.freeSpace (s.i d') = w.total - w.lent.size := by
  obtain ⟨d', e1, e2, e3, e4⟩ := Var.init_ok h hv hd (by rw [hv.len_i]; omega)
  have hv' : s.Valid d' := ⟨hv.1, by rw [e2.1]; exact hv.2⟩
  have hr := reads_iff h hmo hv' (by rw [e2.1]; exact hd) (l := [])
  refine ⟨d', e1, e2.1, fun i hi => hi.elim (e2.2.1 i) (e2.2.2 i), hr.mpr ⟨e3, ?_, ?_⟩, ?_⟩
  · intro i hi
    replace hi : i < w.length (s.i d') := hi
    omega
  · unfold SeqSpec.parseAll
    rw [show w.spec.length (s.i d') = 0 from e4]
    rfl
  · unfold Var.freeSpace
    rw [Var.elementsStart_eq, e4, if_neg (by omega)]
    unfold Var.sizeOfTable
    omega

/-- On any well-formed page, append is offered exactly when the element and its table entry fit
between the table and the lowest element; then it stores the element as the last one, the earlier
ones still read the same, nothing outside the page changes, and the free space shrinks by exactly
what was stored. -/
theorem append (h : w.Valid) (hmo : w.eltf.Modest) {s : Slice} {d : Bytes} {l : List V} {v : V}
    (hv : s.Valid d) (hd : d.length ≤ usizeMax) (hr : Reads w s d l)
    (hvm : w.eltf.Marshallable v) :
    w.execAppendable s d v = .ok (decide ((w.bt.size + w.eltf.size v : Int) ≤
      w.freeSpace (s.i d))) ∧
    ((w.bt.size + w.eltf.size v : Int) ≤ w.freeSpace (s.i d) →
      ∃ d', w.execAppend s d v = .ok d' ∧ d'.length = d.length ∧
        (∀ i, i < s.start ∨ s.end_ ≤ i → d'[i]? = d[i]?) ∧ Reads w s d' (l ++ [v]) ∧
        w.freeSpace (s.i d') = w.freeSpace (s.i d) - (w.bt.size + w.eltf.size v)) := by
  obtain ⟨h1, h2, h3⟩ := (reads_iff h hmo hv hd).mp hr
  constructor
  · obtain ⟨b, e1, e2⟩ := Var.execAppendable_ok h hv hd h1 hvm
    rw [e1]
    congr 1
    rw [Bool.eq_iff_iff, e2, decide_eq_true_iff]
    rfl
  · intro hf
    obtain ⟨d', e1, e2, e3, _, e5⟩ := Var.execAppend_ok h hv hd h1 hvm hf
    have hv' : s.Valid d' := ⟨hv.1, by rw [e2.1]; exact hv.2⟩
    have := SeqSpec.Appends.list _ e3 h2
    exact ⟨d', e1, e2.1, fun i hi => hi.elim (e2.2.1 i) (e2.2.2 i),
      (reads_iff h hmo hv' (by rw [e2.1]; exact hd)).mpr
        ⟨e3.2.2.2.2.2.2, this.2, by rw [this.1, h3]⟩, e5⟩

/-- Where the elements of a well-formed page lie: behind the table, inside the page, later elements
before earlier ones, and the free space is the gap between the table and the lowest element. -/
theorem layout (h : w.Valid) (hmo : w.eltf.Modest) {s : Slice} {d : Bytes} {l : List V}
    (hv : s.Valid d) (hd : d.length ≤ usizeMax) (hr : Reads w s d l) :
    (∀ i, i < l.length → ∃ e, w.tryGet s d i = .ok (some e) ∧
      s.start + w.lent.size + l.length * w.bt.size ≤ e.start ∧ e.start ≤ e.end_ ∧
      e.end_ ≤ s.start + w.total) ∧
    (∀ i j ei ej, i < j → j < l.length → w.tryGet s d i = .ok (some ei) →
      w.tryGet s d j = .ok (some ej) → ej.end_ ≤ ei.start) ∧
    (∀ e, w.tryGet s d (l.length - 1) = .ok (some e) →
      w.freeSpace (s.i d) = (e.start : Int) - (s.start + w.lent.size + l.length * w.bt.size)) := by
  obtain ⟨h1, h2, h3⟩ := (reads_iff h hmo hv hd).mp hr
  have hl : w.length (s.i d) = l.length := by
    rw [← h3]; exact (w.spec.length_parseAll _).symm
  have t := (Var.wf_iff h _).mp h1
  have hap := t.apart h
  unfold Var.sizeOfTable at hap
  rw [hl] at hap
  have hget : ∀ i, i < l.length → w.tryGet s d i =
      .ok (some (s.subslice (w.dataBegin (s.i d) i) (w.dataEnd (s.i d) i))) := fun i hi =>
    ((Var.tryGet_ok h hv hd i).1 (t.gettable h (by omega))).1
  refine ⟨fun i hi => ⟨_, hget i hi, ?_⟩, ?_, ?_⟩
  · have := t.elt h (i := i) (by omega)
    unfold Slice.subslice
    simp only
    omega
  · intro i j ei ej hij hj hi1 hj1
    rw [hget i (by omega)] at hi1
    rw [hget j hj] at hj1
    simp only [Exec.ok.injEq, Option.some.injEq] at hi1 hj1
    rw [← hi1, ← hj1]
    have := t.desc i (j - 1) (by omega) (by omega)
    show s.start + w.dataEnd (s.i d) j ≤ s.start + w.dataBegin (s.i d) i
    unfold Var.dataEnd Var.dataBegin
    rw [if_neg (by omega)]
    exact Nat.add_le_add_left this _
  · intro e he
    have hpos : 0 < l.length := by
      by_cases hp : 0 < l.length
      · exact hp
      · rw [(Var.tryGet_ok h hv hd _).2 (fun hc => by have := hc.2.1; omega)] at he
        simp at he
    rw [hget _ (by omega)] at he
    simp only [Exec.ok.injEq, Option.some.injEq] at he
    rw [← he]
    unfold Var.freeSpace Slice.subslice
    rw [Var.elementsStart_eq, hl, if_pos hpos]
    show ((w.dataBegin (s.i d) (l.length - 1) : Nat) : Int) - (w.lent.size + l.length * w.bt.size : Nat)
      = ((s.start + w.dataBegin (s.i d) (l.length - 1) : Nat) : Int) - _
    omega

/-! Sequences of appends -/

/-- Which of the offered elements a page with `free` bytes takes, each element costing `entry`
bytes of table and its own size. -/
def fill (entry : Nat) (size : V → Nat) : List V → Nat → List V
  | [], _ => []
  | v :: vs, free =>
    if entry + size v ≤ free then v :: fill entry size vs (free - (entry + size v))
    else fill entry size vs free

/-- A client that offers elements one after the other and appends those that are taken. -/
def offer (w : Var V) (s : Slice) : List V → Bytes → Exec Bytes
  | [], d => .ok d
  | v :: vs, d => do
    let ok ← w.execAppendable s d v
    let d ← if ok then w.execAppend s d v else pure d
    offer w s vs d

/-- From any well-formed page. -/
theorem appends (h : w.Valid) (hmo : w.eltf.Modest) {s : Slice} (vs : List V) :
    ∀ {d : Bytes} {l : List V} {free : Nat}, s.Valid d → d.length ≤ usizeMax → Reads w s d l →
    w.freeSpace (s.i d) = free → (∀ v ∈ vs, w.eltf.Marshallable v) →
    ∃ d', offer w s vs d = .ok d' ∧ d'.length = d.length ∧
      (∀ j, j < s.start ∨ s.end_ ≤ j → d'[j]? = d[j]?) ∧
      Reads w s d' (l ++ fill w.bt.size w.eltf.size vs free) := by
  induction vs with
  | nil =>
    intro d l free hv hd hr _ _
    exact ⟨d, rfl, rfl, fun _ _ => rfl, by unfold fill; rw [List.append_nil]; exact hr⟩
  | cons v vs ih =>
    intro d l free hv hd hr hf hm
    obtain ⟨a1, a2⟩ := append h hmo hv hd hr (hm v (List.mem_cons_self ..))
    have hm' : ∀ v ∈ vs, w.eltf.Marshallable v := fun x hx => hm x (List.mem_cons_of_mem _ hx)
    by_cases hc : w.bt.size + w.eltf.size v ≤ free
    · have hc' : (w.bt.size + w.eltf.size v : Int) ≤ w.freeSpace (s.i d) := by omega
      obtain ⟨d1, b1, b2, b3, b4, b5⟩ := a2 hc'
      obtain ⟨d', e1, e2, e3, e4⟩ := ih (d := d1) (free := free - (w.bt.size + w.eltf.size v))
        ⟨hv.1, by rw [b2]; exact hv.2⟩ (by rw [b2]; exact hd) b4 (by omega) hm'
      refine ⟨d', ?_, by rw [e2, b2], fun j hj => by rw [e3 j hj, b3 j hj], ?_⟩
      · simp only [offer]
        rw [a1, Exec.ok_bind, decide_eq_true hc', if_pos rfl, b1, Exec.ok_bind, e1]
      · simp only [fill]
        rw [if_pos hc]
        rw [List.append_assoc] at e4
        exact e4
    · have hc' : ¬ (w.bt.size + w.eltf.size v : Int) ≤ w.freeSpace (s.i d) := by omega
      obtain ⟨d', e1, e2, e3, e4⟩ := ih hv hd hr hf hm'
      refine ⟨d', ?_, e2, e3, ?_⟩
      · simp only [offer]
        rw [a1, Exec.ok_bind, decide_eq_false hc', if_neg (by simp), Exec.pure_eq, Exec.ok_bind, e1]
      · simp only [fill]
        rw [if_neg hc]
        exact e4

/-- From a freshly initialised page the reader finds exactly the elements that fit, in order. -/
theorem appends_from_init (h : w.Valid) (hmo : w.eltf.Modest) {s : Slice} {d : Bytes}
    (vs : List V) (hv : s.Valid d) (hd : d.length ≤ usizeMax)
    (room : s.start + w.total ≤ s.end_) (hm : ∀ v ∈ vs, w.eltf.Marshallable v) :
    ∃ d', (w.init s d >>= offer w s vs) = .ok d' ∧ d'.length = d.length ∧
      (∀ j, j < s.start ∨ s.end_ ≤ j → d'[j]? = d[j]?) ∧
      Reads w s d' (fill w.bt.size w.eltf.size vs (w.total - w.lent.size)) := by
  have hle := h.len
  obtain ⟨d1, a1, a2, a3, a4, a5⟩ := init_empty h hmo hv hd room
  obtain ⟨d', e1, e2, e3, e4⟩ := appends h hmo vs (free := w.total - w.lent.size)
    ⟨hv.1, by rw [a2]; exact hv.2⟩ (by rw [a2]; exact hd) a4 (by omega) hm
  exact ⟨d', by rw [a1, Exec.ok_bind, e1], by rw [e2, a2],
    fun j hj => by rw [e3 j hj, a3 j hj], e4⟩

/-! Byte strings in a 12-byte page with one-byte length and boundaries. -/
def strings : Fmt (List Nat) := Uniform.fmt (intU .u8)
def demo : Var (List Nat) := ⟨strings, .u8, .u8, 12⟩
theorem demo_valid : demo.Valid :=
  ⟨Uniform.lawful (intU_lawful _), by decide, by decide, by decide, by decide⟩
theorem strings_modest : strings.Modest := Uniform.modest (intU_lawful .u8).pos (int_modest .u8)
def offered : List (List Nat) := [[1, 2, 3], [], [9, 9, 9, 9, 9, 9], [4, 5, 6], [7]]
example : fill 1 List.length offered 11 = [[1, 2, 3], [], [4, 5, 6], [7]] := by decide
example : (demo.init ⟨1, 13⟩ (List.replicate 14 77) >>= offer demo ⟨1, 13⟩ offered) =
    .ok [77, 4, 9, 9, 6, 5, 7, 4, 5, 6, 1, 2, 3, 77] := by decide
theorem demo_run : ∃ d', (demo.init ⟨1, 13⟩ (List.replicate 14 77) >>= offer demo ⟨1, 13⟩ offered) =
    .ok d' ∧ Reads demo ⟨1, 13⟩ d' [[1, 2, 3], [], [4, 5, 6], [7]] := by
  obtain ⟨d', h1, _, _, h4⟩ := appends_from_init demo_valid strings_modest (s := ⟨1, 13⟩)
    (d := List.replicate 14 77) offered (by decide) (by decide) (by decide) (by
      intro v hv
      have hall : ∀ v ∈ offered, (∀ x ∈ v, x ≤ 255) ∧ v.length * 1 ≤ usizeMax := by decide
      exact ⟨fun x hx => ⟨(hall v hv).1 x hx, rfl⟩, (hall v hv).2⟩)
  refine ⟨d', h1, ?_⟩
  have : fill demo.bt.size demo.eltf.size offered (demo.total - demo.lent.size) =
      [[1, 2, 3], [], [4, 5, 6], [7]] := by decide
  rw [this] at h4
  exact h4

end Verif.C23
