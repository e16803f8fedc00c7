import Verif.Marshal.Seq
/-
Model of Splinter/src/marshalling/UniformSizedSeq_v.rs. The functions that always refuse
(`resize`, `append`; 255-283) are left out.
-/
namespace Verif.Marshal
namespace Uniform
variable {V : Type} (f : UFmt V)

/-- UniformSizedSeq_v.rs 68-71 -/
def length (data : Bytes) : Nat := data.length / f.us

/-- UniformSizedSeq_v.rs 96-101 and SeqMarshalling_v.rs 115-121 -/
def getData (data : Bytes) (i : Nat) : Bytes := sub data (i * f.us) (i * f.us + f.us)

/-- UniformSizedSeq_v.rs 60-117 -/
def spec : SeqSpec V where
  Lengthable _ := True
  length := length f
  Gettable data i := i < length f data
  EltParsable data i := f.Parsable (getData f data i)
  getElt data i := f.parse (getData f data i)

/-- UniformSizedSeq_v.rs 81-85 -/
def execLength (s : Slice) : Exec Nat := do
  let l ← s.len
  udiv l f.us

/-- UniformSizedSeq_v.rs 73-77 -/
def tryLength (s : Slice) : Exec (Option Nat) := do
  let n ← execLength f s
  pure (some n)

/-- UniformSizedSeq_v.rs 140-146 -/
def execGet (s : Slice) (i : Nat) : Exec Slice := do
  let a ← umul i f.us
  let b ← umul i f.us
  let b ← uadd b f.us
  s.execSubslice a b

/-- UniformSizedSeq_v.rs 119-132 -/
def tryGet (s : Slice) (i : Nat) : Exec (Option Slice) := do
  let len ← execLength f s
  if i < len then
    let e ← execGet f s i
    pure (some e)
  else pure none

/-- UniformSizedSeq_v.rs 134-138 -/
def execGettable (s : Slice) (i : Nat) : Exec Bool := do
  let len ← execLength f s
  pure (decide (i < len))

/-- UniformSizedSeq_v.rs 148-169 -/
def tryGetElt (mem : Nat) (s : Slice) (d : Bytes) (i : Nat) : Exec (Option V) := do
  match ← tryGet f s i with
  | none => pure none
  | some e => f.tryParse mem e d

/-- UniformSizedSeq_v.rs 171-181 -/
def execGetElt (mem : Nat) (s : Slice) (d : Bytes) (i : Nat) : Exec V := do
  let e ← execGet f s i
  f.execParse mem e d

/-- UniformSizedSeq_v.rs 192-197 -/
def Settable (data : Bytes) (i : Nat) (v : V) : Prop :=
  i < length f data ∧ f.Marshallable v ∧ f.size v = f.us

/-- UniformSizedSeq_v.rs 199-204 -/
def execSettable (s : Slice) (i : Nat) (v : V) : Exec Bool := do
  let len ← execLength f s
  let sz ← f.execSize v
  pure (decide (i < len) && decide (sz = f.us))

/-- UniformSizedSeq_v.rs 206-253 -/
def execSet (s : Slice) (d : Bytes) (i : Nat) (v : V) : Exec Bytes := do
  let p ← umul i f.us
  let q ← uadd s.start p
  let r ← f.marshall v d q
  pure r.1

/-- UniformSizedSeq_v.rs 329-367 -/
def tryParse (mem : Nat) (s : Slice) (d : Bytes) : Exec (Option (List V)) := do
  match ← tryLength f s with
  | none => pure none
  | some len =>
    withCapacity mem len
    collect (tryGetElt f mem s d) len 0 []

/-- The loop of UniformSizedSeq_v.rs 396-469 -/
def marshallLoop : List V → Bytes → Nat → Exec (Bytes × Nat)
  | [], d, e => .ok (d, e)
  | v :: vs, d, e => do
    let r ← f.marshall v d e
    marshallLoop vs r.1 r.2

/-- UniformSizedSeq_v.rs 314-472 -/
def fmt : Fmt (List V) where
  Parsable data := (spec f).ParsableAll data
  parse data := (spec f).parseAll data
  Suffices mem data := length f data ≤ mem ∧
    ∀ i, i < length f data → f.Suffices mem (getData f data i)
  tryParse := tryParse f
  execParsable := defaultParsable (tryParse f)
  execParse := defaultParse (tryParse f)
  Marshallable l := (∀ v ∈ l, f.Marshallable v ∧ f.size v = f.us) ∧ l.length * f.us ≤ usizeMax
  size l := l.length * f.us
  execSize l := umul l.length f.us
  marshall l d start := marshallLoop f l d start

end Uniform

namespace Uniform
variable {V : Type} {f : UFmt V}

theorem length_spec (hf : 0 < f.us) {n i : Nat} (h : i < n / f.us) : i * f.us + f.us ≤ n := by
  have h1 : (i + 1) * f.us ≤ n / f.us * f.us := Nat.mul_le_mul_right _ h
  have h2 := Nat.div_mul_le_self n f.us
  rw [Nat.add_mul, Nat.one_mul] at h1
  omega

theorem mul_step {i j u : Nat} (h : i < j) : i * u + u ≤ j * u := by
  have h1 : (i + 1) * u ≤ j * u := Nat.mul_le_mul_right _ h
  rw [Nat.add_mul, Nat.one_mul] at h1
  omega

theorem execLength_ok (hf : 0 < f.us) {s : Slice} {d : Bytes} (hv : s.Valid d) :
    execLength f s = .ok (length f (s.i d)) := by
  unfold execLength
  rw [hv.len_ok]
  exact udiv_ok hf

theorem execGet_ok (hf : 0 < f.us) {s : Slice} {d : Bytes} {i : Nat} (hv : s.Valid d)
    (hd : d.length ≤ usizeMax) (hi : i < length f (s.i d)) :
    execGet f s i = .ok (s.subslice (i * f.us) (i * f.us + f.us)) ∧
    (s.subslice (i * f.us) (i * f.us + f.us)).Valid d ∧
    (s.subslice (i * f.us) (i * f.us + f.us)).i d = getData f (s.i d) i := by
  have hb := length_spec hf hi
  have hl := hv.len_i
  have h2 := hv.2
  obtain ⟨c1, c2, c3⟩ := hv.cut hd (a := i * f.us) (b := i * f.us + f.us) (by omega) hb
  refine ⟨?_, c2, c3⟩
  unfold execGet
  simp only [umul_ok (show i * f.us ≤ usizeMax by omega),
    uadd_ok (show i * f.us + f.us ≤ usizeMax by omega), Exec.ok_bind]
  exact c1

theorem tryGet_ok (hf : 0 < f.us) {s : Slice} {d : Bytes} (hv : s.Valid d)
    (hd : d.length ≤ usizeMax) (i : Nat) :
    tryGet f s i = .ok (if i < length f (s.i d) then
      some (s.subslice (i * f.us) (i * f.us + f.us)) else none) := by
  unfold tryGet
  rw [execLength_ok hf hv]
  simp only [Exec.ok_bind]
  by_cases h : i < length f (s.i d)
  · rw [if_pos h, if_pos h, (execGet_ok hf hv hd h).1]; rfl
  · rw [if_neg h, if_neg h]; rfl

theorem tryGetElt_ok (hf : f.Lawful) {s : Slice} {d : Bytes} {mem i : Nat} (hv : s.Valid d)
    (hd : d.length ≤ usizeMax)
    (hm : i < length f (s.i d) → f.Suffices mem (getData f (s.i d) i)) :
    (i < length f (s.i d) ∧ f.Parsable (getData f (s.i d) i) →
      tryGetElt f mem s d i = .ok (some (f.parse (getData f (s.i d) i)))) ∧
    (¬ (i < length f (s.i d) ∧ f.Parsable (getData f (s.i d) i)) →
      tryGetElt f mem s d i = .ok none) := by
  unfold tryGetElt
  rw [tryGet_ok hf.pos hv hd]
  simp only [Exec.ok_bind]
  by_cases h : i < length f (s.i d)
  · obtain ⟨_, g2, g3⟩ := execGet_ok hf.pos hv hd h
    simp only [if_pos h]
    refine ⟨fun hp => ?_, fun hp => ?_⟩
    · rw [hf.fmt.parses g2 hd (by rw [g3]; exact hp.2) (by rw [g3]; exact hm h), g3]
    · rw [hf.fmt.refuses g2 hd (by rw [g3]; exact fun hc => hp ⟨h, hc⟩) (by rw [g3]; exact hm h)]
  · simp only [if_neg h]
    exact ⟨fun hc => absurd hc.1 h, fun _ => rfl⟩

theorem execGetElt_ok (hf : f.Lawful) {s : Slice} {d : Bytes} {mem i : Nat} (hv : s.Valid d)
    (hd : d.length ≤ usizeMax) (h : i < length f (s.i d))
    (hp : f.Parsable (getData f (s.i d) i)) (hm : f.Suffices mem (getData f (s.i d) i)) :
    execGetElt f mem s d i = .ok (f.parse (getData f (s.i d) i)) := by
  obtain ⟨g1, g2, g3⟩ := execGet_ok hf.pos hv hd h
  unfold execGetElt
  rw [g1]
  simp only [Exec.ok_bind]
  rw [hf.fmt.parse_ok g2 hd (by rw [g3]; exact hp) (by rw [g3]; exact hm), g3]

theorem execSettable_ok (hf : f.Lawful) {s : Slice} {d : Bytes} {i : Nat} {v : V} (hv : s.Valid d)
    (hm : f.Marshallable v) :
    ∃ b, execSettable f s i v = .ok b ∧ (b = true ↔ Settable f (s.i d) i v) := by
  refine ⟨decide (i < length f (s.i d)) && decide (f.size v = f.us), ?_, ?_⟩
  · unfold execSettable
    rw [execLength_ok hf.pos hv, Exec.ok_bind, hf.fmt.size_ok hm]
    rfl
  · unfold Settable
    simp [hm]

/-- Overwriting one element. -/
theorem execSet_ok (hf : f.Lawful) {s : Slice} {d : Bytes} {i : Nat} {v : V} (hv : s.Valid d)
    (hd : d.length ≤ usizeMax) (h : Settable f (s.i d) i v) :
    ∃ d', execSet f s d i v = .ok d' ∧
      Wrote d d' (s.start + i * f.us) (s.start + i * f.us + f.us) ∧
      s.AgreeBeyond d d' ∧ (spec f).Sets (s.i d) i v (s.i d') := by
  obtain ⟨hi, hm, hz⟩ := h
  have hb := length_spec hf.pos hi
  have hl := hv.len_i
  have h2 := hv.2
  have h1 := hv.1
  obtain ⟨d', m1, m2, m3, m4⟩ := hf.fmt.marshalls (v := v) (d := d) (start := s.start + i * f.us) hm
    (by omega) hd
  rw [hz] at m1 m2 m3 m4
  have hlen : (s.i d').length = (s.i d).length := by rw [(m2.valid hv).len_i, hl]
  have hget : ∀ j, i ≠ j → j < length f (s.i d) → getData f (s.i d') j = getData f (s.i d) j := by
    intro j hj hjl
    have hjb := length_spec hf.pos hjl
    unfold getData Slice.i
    rw [sub_sub (by omega), sub_sub (by omega)]
    apply m2.sub_out
    by_cases hlt : i < j
    · have := mul_step (u := f.us) hlt; omega
    · have := mul_step (u := f.us) (show j < i by omega); omega
  have hgi : getData f (s.i d') i = sub d' (s.start + i * f.us) (s.start + i * f.us + f.us) := by
    unfold getData Slice.i
    rw [sub_sub (by omega), Nat.add_assoc]
  refine ⟨d', ?_, m2, m2.agree (by omega) (by omega), hlen, fun _ => ⟨trivial, ?_⟩, ?_, ?_, ?_, ?_⟩
  · unfold execSet
    rw [umul_ok (by omega)]
    simp only [Exec.ok_bind]
    rw [uadd_ok (by omega)]
    simp only [Exec.ok_bind, m1, Exec.pure_eq]
  · show (s.i d').length / f.us = _
    rw [hlen]; rfl
  · intro j hj
    refine ⟨fun hg => ?_, fun hg => ?_⟩
    · show j < (s.i d').length / f.us
      rw [hlen]; exact hg
    · show f.Parsable (getData f (s.i d') j) ∧ f.parse (getData f (s.i d') j) = _
      rw [hget j (fun e => hj e.symm) hg.1]
      exact ⟨hg.2, rfl⟩
  · show i < (s.i d').length / f.us
    rw [hlen]; exact hi
  · show f.Parsable (getData f (s.i d') i)
    rw [hgi]; exact m3
  · show f.parse (getData f (s.i d') i) = v
    rw [hgi]; exact m4

theorem tryParse_ok (hf : f.Lawful) {s : Slice} {d : Bytes} {mem : Nat} (hv : s.Valid d)
    (hd : d.length ≤ usizeMax) (hm : (fmt f).Suffices mem (s.i d)) :
    ((spec f).ParsableAll (s.i d) →
      tryParse f mem s d = .ok (some ((spec f).parseAll (s.i d)))) ∧
    (¬ (spec f).ParsableAll (s.i d) → tryParse f mem s d = .ok none) := by
  have h : tryParse f mem s d = collect (tryGetElt f mem s d) (length f (s.i d)) 0 [] := by
    unfold tryParse tryLength
    rw [execLength_ok hf.pos hv]
    simp only [Exec.ok_bind, Exec.pure_eq]
    rw [withCapacity_ok hm.1]
    rfl
  rw [h]
  exact collect_all (P := fun i => i < length f (s.i d) ∧ f.Parsable (getData f (s.i d) i))
    (g := fun i => f.parse (getData f (s.i d) i))
    (fun j hj _ => tryGetElt_ok hf hv hd (fun h => hm.2 j h))

theorem marshallLoop_ok (hf : f.Lawful) : ∀ (l : List V) (d : Bytes) (start : Nat),
    (∀ v ∈ l, f.Marshallable v ∧ f.size v = f.us) → start + l.length * f.us ≤ d.length →
    d.length ≤ usizeMax →
    ∃ d', marshallLoop f l d start = .ok (d', start + l.length * f.us) ∧
      Wrote d d' start (start + l.length * f.us) ∧
      ∀ i v, l[i]? = some v →
        f.Parsable (sub d' (start + i * f.us) (start + i * f.us + f.us)) ∧
        f.parse (sub d' (start + i * f.us) (start + i * f.us + f.us)) = v
  | [], d, start, _, _, _ => ⟨d, by simp [marshallLoop], .refl _ _ _, by simp⟩
  | v :: l, d, start, h, hs, hd => by
    have hv := h v (List.mem_cons_self ..)
    simp only [List.length_cons, Nat.add_mul, Nat.one_mul] at hs ⊢
    obtain ⟨d1, m1, m2, m3, m4⟩ := hf.fmt.marshalls (v := v) (d := d) (start := start) hv.1
      (by omega) hd
    rw [hv.2] at m1 m2 m3 m4
    obtain ⟨d2, n1, n2, n3⟩ := marshallLoop_ok hf l d1 (start + f.us)
      (fun w hw => h w (List.mem_cons_of_mem _ hw)) (by rw [m2.len]; omega) (by rw [m2.len]; exact hd)
    refine ⟨d2, ?_, (m2.mono (by omega) (by omega)).trans (n2.mono (by omega) (by omega)), ?_⟩
    · unfold marshallLoop
      simp only [m1, Exec.ok_bind]
      rw [n1]
      congr 2; omega
    · intro i w hw
      cases i with
      | zero =>
        simp only [List.getElem?_cons_zero, Option.some.injEq] at hw
        subst hw
        rw [Nat.zero_mul, Nat.add_zero, n2.sub_out (by omega)]
        exact ⟨m3, m4⟩
      | succ i =>
        rw [List.getElem?_cons_succ] at hw
        have := n3 i w hw
        rw [Nat.add_mul, Nat.one_mul, show start + (i * f.us + f.us) = start + f.us + i * f.us by omega]
        exact this

/-- A sequence of lawful fixed-size elements is lawful. -/
theorem lawful (hf : f.Lawful) : (fmt f).Lawful := by
  have hp : ∀ {mem s d}, s.Valid d → d.length ≤ usizeMax → (fmt f).Suffices mem (s.i d) →
      ((fmt f).Parsable (s.i d) → (fmt f).tryParse mem s d = .ok (some ((fmt f).parse (s.i d)))) ∧
      (¬ (fmt f).Parsable (s.i d) → (fmt f).tryParse mem s d = .ok none) := by
    intro mem s d hv hd hm
    exact tryParse_ok hf hv hd hm
  refine ⟨fun hv hd h hm => (hp hv hd hm).1 h, fun hv hd h hm => (hp hv hd hm).2 h,
    fun hv hd hm h => (default_laws (hp hv hd hm).1 (hp hv hd hm).2).1 h,
    fun hv hd hm h => (default_laws (hp hv hd hm).1 (hp hv hd hm).2).2.1 h,
    fun hv hd h hm => (default_laws (hp hv hd hm).1 (hp hv hd hm).2).2.2 h,
    fun h => umul_ok h.2, ?_⟩
  intro l d start hm hs hd
  have hs : start + l.length * f.us ≤ d.length := hs
  obtain ⟨d', m1, m2, m3⟩ := marshallLoop_ok hf l d start hm.1 hs hd
  have hlen : (sub d' start (start + l.length * f.us)).length = l.length * f.us := by
    rw [length_sub' (by rw [m2.len]; exact hs)]; omega
  have hn : length f (sub d' start (start + l.length * f.us)) = l.length := by
    unfold length; rw [hlen, Nat.mul_div_cancel _ hf.pos]
  have hg : ∀ i, i < l.length → getData f (sub d' start (start + l.length * f.us)) i =
      sub d' (start + i * f.us) (start + i * f.us + f.us) := by
    intro i hi
    have := mul_step (u := f.us) hi
    unfold getData
    rw [sub_sub (by omega), Nat.add_assoc]
  refine ⟨d', m1, m2, ?_, ?_⟩
  · intro i hi
    have hi' : i < l.length := by rw [← hn]; exact hi
    refine ⟨hi, ?_⟩
    show f.Parsable (getData f (sub d' start (start + l.length * f.us)) i)
    rw [hg i hi']
    exact (m3 i l[i] (List.getElem?_eq_getElem hi')).1
  · apply (spec f).parseAll_eq
    · exact hn.symm
    · intro i hi
      show f.parse (getData f (sub d' start (start + l.length * f.us)) i) = _
      rw [hg i hi]
      exact (m3 i l[i] (List.getElem?_eq_getElem hi)).2

theorem modest (hf : 0 < f.us) (h : f.toFmt.Modest) : (fmt f).Modest := by
  intro mem data hl
  refine ⟨Nat.le_trans (Nat.div_le_self _ _) hl, fun i hi => h _ _ ?_⟩
  unfold getData
  rw [length_sub]
  omega

end Uniform
end Verif.Marshal
