import Verif.Marshal.Uniform
/-
C21. Fixed-size sequences survive a trip through bytes. Statements are about the executable functions:
what the decoder returns before and after.
-/
namespace Verif.C21
open Verif.Marshal
open Uniform

variable {V : Type} {f : UFmt V}

/-- Encoding any sequence of elements of the fixed size, at any offset with room, and decoding the
written bytes gives the sequence; nothing else in the buffer changes. -/
theorem encode_decode (hf : f.Lawful) (hmo : f.toFmt.Modest) {l : List V} {d : Bytes} {start : Nat}
    (hl : ∀ v ∈ l, f.Marshallable v ∧ f.size v = f.us)
    (room : start + l.length * f.us ≤ d.length) (hd : d.length ≤ usizeMax) :
    ∃ d', (fmt f).marshall l d start = .ok (d', start + l.length * f.us) ∧
      d'.length = d.length ∧
      (∀ i, i < start ∨ start + l.length * f.us ≤ i → d'[i]? = d[i]?) ∧
      ∀ mem, d.length ≤ mem →
        tryParse f mem ⟨start, start + l.length * f.us⟩ d' = .ok (some l) := by
  obtain ⟨d', h1, h2, h3, h4⟩ := (lawful hf).marshalls (v := l) (d := d) (start := start)
    ⟨hl, by omega⟩ room hd
  refine ⟨d', h1, h2.len, h2.out, fun mem hm => ?_⟩
  have hv : Slice.Valid ⟨start, start + l.length * f.us⟩ d' :=
    ⟨Nat.le_add_right _ _, by show _ ≤ d'.length; rw [h2.len]; exact room⟩
  have := (tryParse_ok (mem := mem) hf hv (by rw [h2.len]; exact hd)
    (modest hf.pos hmo _ _ (by
      rw [hv.len_i]; show start + l.length * f.us - start ≤ mem; omega))).1 h3
  rw [this]
  exact congrArg (fun x => Exec.ok (some x)) h4

theorem decoded (hf : f.Lawful) (hmo : f.toFmt.Modest) {s : Slice} {d : Bytes} {mem : Nat}
    {l : List V} (hv : s.Valid d) (hd : d.length ≤ usizeMax) (hm : d.length ≤ mem)
    (h : tryParse f mem s d = .ok (some l)) :
    (spec f).ParsableAll (s.i d) ∧ (spec f).parseAll (s.i d) = l := by
  have hsu : (fmt f).Suffices mem (s.i d) := modest hf.pos hmo _ _ (by
    rw [hv.len_i]; have := hv.2; omega)
  have hp := tryParse_ok hf hv hd hsu
  by_cases hc : (spec f).ParsableAll (s.i d)
  · rw [hp.1 hc] at h
    exact ⟨hc, by simpa using h⟩
  · rw [hp.2 hc] at h
    simp at h

/-- Reading element `i` of a decodable sequence gives element `i`; an index out of range is
refused. -/
theorem read_element (hf : f.Lawful) (hmo : f.toFmt.Modest) {s : Slice} {d : Bytes} {mem : Nat}
    {l : List V} (hv : s.Valid d) (hd : d.length ≤ usizeMax) (hm : d.length ≤ mem)
    (h : tryParse f mem s d = .ok (some l)) (i : Nat) :
    tryLength f s = .ok (some l.length) ∧ tryGetElt f mem s d i = .ok l[i]? ∧
    (∀ v, l[i]? = some v → execGetElt f mem s d i = .ok v) := by
  obtain ⟨h1, h2⟩ := decoded hf hmo hv hd hm h
  have hlen : length f (s.i d) = l.length := by
    rw [← h2]; exact ((spec f).length_parseAll _).symm
  have hsu : (fmt f).Suffices mem (s.i d) := modest hf.pos hmo _ _ (by
    rw [hv.len_i]; have := hv.2; omega)
  have hg := tryGetElt_ok (i := i) hf hv hd (fun hi => hsu.2 i hi)
  have he : l[i]? = if i < length f (s.i d) then some (f.parse (getData f (s.i d) i)) else none := by
    rw [← h2]; exact (spec f).getElem?_parseAll _ i
  refine ⟨?_, ?_, fun v hve => ?_⟩
  · unfold tryLength; rw [execLength_ok hf.pos hv, hlen]; rfl
  · by_cases hi : i < length f (s.i d)
    · rw [hg.1 ⟨hi, (h1 i hi).2⟩, he, if_pos hi]
    · rw [hg.2 (fun hc => hi hc.1), he, if_neg hi]
  · by_cases hi : i < length f (s.i d)
    · rw [execGetElt_ok hf hv hd hi (h1 i hi).2 (hsu.2 i hi)]
      rw [he, if_pos hi] at hve
      exact congrArg Exec.ok (Option.some.inj hve)
    · rw [he, if_neg hi] at hve; simp at hve

/-- Overwriting element `i` changes element `i` and no other, and no byte outside the slice. -/
theorem overwrite (hf : f.Lawful) (hmo : f.toFmt.Modest) {s : Slice} {d : Bytes} {mem : Nat}
    {l : List V} {i : Nat} {v : V} (hv : s.Valid d) (hd : d.length ≤ usizeMax)
    (hm : d.length ≤ mem) (h : tryParse f mem s d = .ok (some l)) (hi : i < l.length)
    (hvm : f.Marshallable v) (hvs : f.size v = f.us) :
    ∃ d', execSet f s d i v = .ok d' ∧ d'.length = d.length ∧
      (∀ j, j < s.start ∨ s.end_ ≤ j → d'[j]? = d[j]?) ∧
      tryParse f mem s d' = .ok (some (l.set i v)) := by
  obtain ⟨h1, h2⟩ := decoded hf hmo hv hd hm h
  have hlen : length f (s.i d) = l.length := by
    rw [← h2]; exact ((spec f).length_parseAll _).symm
  obtain ⟨d', e1, e2, e3, e4⟩ := execSet_ok (i := i) hf hv hd ⟨by omega, hvm, hvs⟩
  have hl := SeqSpec.Sets.list _ e4 trivial h1
  have hv' := e2.valid hv
  refine ⟨d', e1, e3.1, fun j hj => hj.elim (e3.2.1 j) (e3.2.2 j), ?_⟩
  rw [(tryParse_ok hf hv' (by rw [e2.len]; exact hd) (modest hf.pos hmo _ _ (by
    rw [hv'.len_i]; have := hv.2; omega))).1 hl.2, hl.1, h2]

/-- A write is offered exactly for indices in range and values of the right size. -/
theorem settable_iff (hf : f.Lawful) {s : Slice} {d : Bytes} {i : Nat} {v : V} (hv : s.Valid d)
    (hvm : f.Marshallable v) :
    ∃ b, execSettable f s i v = .ok b ∧
      (b = true ↔ i < (s.end_ - s.start) / f.us ∧ f.size v = f.us) := by
  obtain ⟨b, h1, h2⟩ := execSettable_ok (i := i) hf hv hvm
  refine ⟨b, h1, h2.trans ?_⟩
  unfold Settable length
  rw [hv.len_i]
  exact ⟨fun h => ⟨h.1, h.2.2⟩, fun h => ⟨h.1, hvm, h.2⟩⟩

/-! Three u16 in the middle of a buffer. -/
example : (fmt (intU .u16)).marshall [258, 3, 65535] [9, 9, 9, 9, 9, 9, 9, 9] 1 =
    .ok ([9, 2, 1, 3, 0, 255, 255, 9], 7) := by decide
theorem demo : tryParse (intU .u16) 8 ⟨1, 7⟩ [9, 2, 1, 3, 0, 255, 255, 9] =
    .ok (some [258, 3, 65535]) := by decide
example : ∃ d', execSet (intU .u16) ⟨1, 7⟩ [9, 2, 1, 3, 0, 255, 255, 9] 1 77 = .ok d' ∧
    tryParse (intU .u16) 8 ⟨1, 7⟩ d' = .ok (some [258, 77, 65535]) := by
  obtain ⟨d', h1, _, _, h4⟩ := overwrite (intU_lawful .u16) (int_modest .u16) (i := 1) (v := 77)
    (by decide : Slice.Valid ⟨1, 7⟩ [9, 2, 1, 3, 0, 255, 255, 9]) (by decide) (by decide) demo
    (by decide) (by show 77 ≤ IntTy.max .u16; decide) rfl
  exact ⟨d', h1, h4⟩
example : tryGetElt (intU .u16) 8 ⟨1, 7⟩ [9, 2, 1, 3, 0, 255, 255, 9] 3 = .ok none := by
  simpa using (read_element (intU_lawful .u16) (int_modest .u16)
    (by decide : Slice.Valid ⟨1, 7⟩ [9, 2, 1, 3, 0, 255, 255, 9]) (by decide) (by decide) demo 3).2.1

end Verif.C21
