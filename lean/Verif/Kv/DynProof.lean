import Verif.Kv.PsaProof
/-
The packed array that grows is the list of the strings appended. No code is modelled here.
-/
namespace Verif.Kv.SectorBytes

/-- The array holds these strings. -/
structure Holds (d : Dyn) (ss : List (List UInt8)) : Prop where
  n : d.n = ss.length
  room : d.n ≤ d.offsets.length
  offsets : d.offsets.take d.n = offsetsFrom 0 ss
  space : ss.flatten.length ≤ d.data.length
  data : d.data.take ss.flatten.length = ss.flatten
  count : ss.length < 2 ^ 32
  small : d.data.length < 2 ^ 32

theorem Holds.total {d : Dyn} {ss : List (List UInt8)} (h : Holds d ss) : d.total = some ss.flatten.length := by
  unfold Dyn.total
  split
  · rename_i h0
    have : ss = [] := List.length_eq_zero_iff.1 (by rw [← h.n, h0])
    subst this; rfl
  · rename_i h0
    have e : d.offsets[d.n - 1]? = (d.offsets.take d.n)[d.n - 1]? := by
      rw [List.getElem?_take, if_pos (by omega)]
    have hn := h.n
    rw [e, h.offsets, offsets_get ss 0 _ (by omega), Nat.zero_add, List.take_of_length_le (by omega)]

theorem Holds.toPsa {d : Dyn} {ss : List (List UInt8)} (h : Holds d ss) : d.toPsa = some (psaOf ss) := by
  unfold Dyn.toPsa
  split
  · rename_i h0
    have : ss = [] := List.length_eq_zero_iff.1 (by rw [← h.n, h0])
    subst this; rfl
  · rw [h.total]
    simp only [Option.bind_eq_bind, Option.bind_some]
    rw [cut_eq (Nat.zero_le _) h.room, cut_eq (Nat.zero_le _) h.space, h.offsets, h.data]
    rfl

theorem holds_preSized (a : Nat) {b : Nat} (hb : b < 2 ^ 32) : Holds (Dyn.preSized a b) [] where
  n := rfl
  room := Nat.zero_le _
  offsets := by simp [Dyn.preSized, offsetsFrom]
  space := Nat.zero_le _
  data := by simp
  count := by simp
  small := by simpa [Dyn.preSized] using hb

theorem Holds.append1 {d : Dyn} {ss : List (List UInt8)} (h : Holds d ss) {s : List UInt8}
    (h1 : d.n < d.offsets.length) (h2 : ss.flatten.length + s.length ≤ d.data.length) (h3 : ss.length + 1 < 2 ^ 32) :
    ∃ d', d.append1 s = some d' ∧ Holds d' (ss ++ [s]) ∧ d'.offsets.length = d.offsets.length ∧
      d'.data.length = d.data.length := by
  have hs := h.small
  have hlen : (d.data.take ss.flatten.length ++ s ++ d.data.drop (ss.flatten.length + s.length)).length = d.data.length := by
    simp only [List.length_append, List.length_take, List.length_drop]; omega
  have hfl : (ss ++ [s]).flatten.length = ss.flatten.length + s.length := by
    rw [List.flatten_append, List.length_append]; simp
  refine ⟨⟨d.n + 1, d.offsets.set d.n ((ss.flatten.length + s.length) % 2 ^ 32),
      d.data.take ss.flatten.length ++ s ++ d.data.drop (ss.flatten.length + s.length)⟩, ?_, ?_, ?_, hlen⟩
  · unfold Dyn.append1
    rw [h.total]
    simp only [Option.bind_eq_bind, Option.bind_some]
    rw [if_pos ⟨h1, h2⟩]
    rfl
  · exact {
      n := by simp [h.n]
      room := by simp only [List.length_set]; omega
      offsets := by
        dsimp only
        rw [offsets_snoc, ← h.offsets, Nat.zero_add, Nat.mod_eq_of_lt (by omega)]
        rw [List.take_succ_eq_append_getElem (by simpa using h1)]
        congr 1
        · rw [List.take_set_of_le (Nat.le_refl _)]
        · simp
      space := by rw [hfl, hlen]; exact h2
      data := by
        dsimp only
        rw [hfl, List.flatten_append, List.take_left' (by
          rw [List.length_append, List.length_take]; omega), h.data]
        simp
      count := by simpa using h3
      small := by rw [hlen]; exact hs }
  · simp

theorem Holds.reallocOffsets {d : Dyn} {ss : List (List UInt8)} (h : Holds d ss) {len : Nat} (hl : ss.length ≤ len) :
    ∃ d', d.reallocOffsets len = some d' ∧ Holds d' ss ∧ d'.offsets.length = len ∧ d'.data = d.data ∧ d'.n = d.n := by
  have hr := h.room
  have hn := h.n
  refine ⟨_, if_pos ⟨by omega, hr⟩, { h with room := ?_, offsets := ?_ }, ?_, rfl, rfl⟩
  · simp only [List.length_append, List.length_take]; omega
  · dsimp only
    rw [List.take_left' (by rw [List.length_take]; omega)]
    exact h.offsets
  · simp only [List.length_append, List.length_take, List.length_replicate]; omega

theorem Holds.reallocData {d : Dyn} {ss : List (List UInt8)} (h : Holds d ss) {len : Nat} (hl : ss.flatten.length ≤ len)
    (h32 : len < 2 ^ 32) :
    ∃ d', d.reallocData len = some d' ∧ Holds d' ss ∧ d'.data.length = len ∧ d'.offsets = d.offsets ∧ d'.n = d.n := by
  have hsp := h.space
  have e : (d.data.take ss.flatten.length ++ List.replicate (len - ss.flatten.length) 0).length = len := by
    simp only [List.length_append, List.length_take, List.length_replicate]; omega
  refine ⟨{ d with data := d.data.take ss.flatten.length ++ List.replicate (len - ss.flatten.length) 0 }, ?_,
    { h with space := ?_, data := ?_, small := ?_ }, e, rfl, rfl⟩
  · unfold Dyn.reallocData
    rw [h.total]
    simp only [Option.bind_eq_bind, Option.bind_some]
    rw [if_pos ⟨hl, hsp⟩]
    rfl
  · dsimp only; rw [e]; exact hl
  · dsimp only
    rw [List.take_left' (by rw [List.length_take]; omega)]
    exact h.data
  · dsimp only; rw [e]; exact h32

theorem Holds.accomodate {d : Dyn} {ss : List (List UInt8)} (h : Holds d ss) {s : List UInt8}
    (h1 : ss.length + 1 < 2 ^ 32) (h2 : ss.flatten.length + s.length < 2 ^ 32) :
    ∃ d', d.accomodate s = some d' ∧ Holds d' ss ∧ d'.n < d'.offsets.length ∧
      ss.flatten.length + s.length ≤ d'.data.length := by
  have hn := h.n
  have step1 : ∃ d1, d.growOffsets = some d1 ∧ Holds d1 ss ∧ d1.n < d1.offsets.length := by
    unfold Dyn.growOffsets
    split
    · split
      · obtain ⟨d1, e, g, g1, -, g2⟩ := h.reallocOffsets (len := 0xffffffff) (by omega)
        exact ⟨d1, e, g, by omega⟩
      · obtain ⟨d1, e, g, g1, -, g2⟩ := h.reallocOffsets (len := 2 * d.n + 1) (by omega)
        exact ⟨d1, e, g, by omega⟩
    · exact ⟨d, rfl, h, by have := h.room; omega⟩
  obtain ⟨d1, e1, g1, r1⟩ := step1
  unfold Dyn.accomodate
  rw [e1]
  simp only [Option.bind_eq_bind, Option.bind_some, g1.total]
  split
  · split
    · obtain ⟨d2, e, g, g2, g3, g4⟩ := g1.reallocData (len := 0xffffffff) (by omega) (by omega)
      exact ⟨d2, e, g, by rw [g3, g4]; exact r1, by omega⟩
    · obtain ⟨d2, e, g, g2, g3, g4⟩ := g1.reallocData (len := 2 * (ss.flatten.length + s.length)) (by omega) (by omega)
      exact ⟨d2, e, g, by rw [g3, g4]; exact r1, by omega⟩
  · exact ⟨d1, rfl, g1, r1, by omega⟩

theorem Holds.append {d : Dyn} {ss : List (List UInt8)} (h : Holds d ss) {s : List UInt8}
    (h1 : ss.length + 1 < 2 ^ 32) (h2 : ss.flatten.length + s.length < 2 ^ 32) :
    ∃ d', d.append s = some d' ∧ Holds d' (ss ++ [s]) := by
  obtain ⟨d1, e1, g1, g2, g3⟩ := h.accomodate h1 h2
  obtain ⟨d2, e2, g4, -⟩ := g1.append1 g2 g3 h1
  exact ⟨d2, by simp [Dyn.append, e1, e2], g4⟩

theorem totalFrom_eq : ∀ (ss : List (List UInt8)) (t : Nat), totalFrom t ss = t + ss.flatten.length
  | [], _ => rfl
  | s :: ss, t => by rw [totalFrom, totalFrom_eq ss, List.flatten_cons, List.length_append, Nat.add_assoc]

theorem Holds.append1s : ∀ (ts : List (List UInt8)) {d : Dyn} {ss : List (List UInt8)}, Holds d ss →
    d.n + ts.length ≤ d.offsets.length → ss.flatten.length + ts.flatten.length ≤ d.data.length →
    ss.length + ts.length < 2 ^ 32 → ∃ d', d.append1s ts = some d' ∧ Holds d' (ss ++ ts)
  | [], d, ss, h, _, _, _ => ⟨d, rfl, by rw [List.append_nil]; exact h⟩
  | t :: ts, d, ss, h, h1, h2, h3 => by
    rw [List.length_cons] at h1 h3
    rw [List.flatten_cons, List.length_append] at h2
    obtain ⟨d1, e1, g1, g2, g3⟩ := h.append1 (s := t) (by omega) (by omega) (by omega)
    have hn := g1.n
    have hn' := h.n
    rw [List.length_append, List.length_singleton] at hn
    obtain ⟨d2, e2, g4⟩ := Holds.append1s ts g1 (by omega)
      (by rw [List.flatten_append, List.length_append]; simp only [List.flatten_cons, List.flatten_nil, List.append_nil]; omega)
      (by rw [List.length_append, List.length_singleton]; omega)
    refine ⟨d2, by simp [Dyn.append1s, e1, e2], ?_⟩
    rw [List.append_assoc] at g4
    exact g4

theorem Holds.appendSeq {d : Dyn} {ss : List (List UInt8)} (h : Holds d ss) {ts : List (List UInt8)}
    (h1 : ss.length + ts.length < 2 ^ 32) (h2 : ss.flatten.length + ts.flatten.length < 2 ^ 32) :
    ∃ d', d.appendSeq ts = some d' ∧ Holds d' (ss ++ ts) := by
  have hn := h.n
  have step1 : ∃ d1, d.growOffsetsBy ts.length = some d1 ∧
      Holds d1 ss ∧ d1.n + ts.length ≤ d1.offsets.length := by
    unfold Dyn.growOffsetsBy
    split
    · obtain ⟨d1, e, g, g1, -, g2⟩ := h.reallocOffsets (len := d.n + ts.length) (by omega)
      exact ⟨d1, e, g, by omega⟩
    · exact ⟨d, rfl, h, by omega⟩
  obtain ⟨d1, e1, g1, r1⟩ := step1
  have step2 : ∃ d2, d.accomodateSeq ts = some d2 ∧ Holds d2 ss ∧ d2.n + ts.length ≤ d2.offsets.length ∧
      ss.flatten.length + ts.flatten.length ≤ d2.data.length := by
    unfold Dyn.accomodateSeq
    rw [e1]
    simp only [Option.bind_eq_bind, Option.bind_some, g1.total, totalFrom_eq]
    split
    · obtain ⟨d2, e, g, g2, g3, g4⟩ := g1.reallocData (len := ss.flatten.length + ts.flatten.length) (by omega) (by omega)
      exact ⟨d2, e, g, by rw [g3, g4]; exact r1, by omega⟩
    · exact ⟨d1, rfl, g1, r1, by omega⟩
  obtain ⟨d2, e2, g2, r2, r3⟩ := step2
  obtain ⟨d3, e3, g3⟩ := Holds.append1s ts g2 r2 r3 h1
  exact ⟨d3, by simp [Dyn.appendSeq, e2, e3], g3⟩

theorem Holds.shorten {d : Dyn} {ss : List (List UInt8)} (h : Holds d ss) {len : Nat} (hl : len ≤ ss.length) :
    ∃ d', d.shorten len = some d' ∧ Holds d' (ss.take len) := by
  have hn := h.n
  have hf := flat_le ss len
  refine ⟨_, if_pos (by omega), ⟨?_, ?_, ?_, ?_, ?_, ?_, h.small⟩⟩
  · simp only [List.length_take]; omega
  · have := h.room; dsimp only; omega
  · dsimp only
    rw [← offsets_take, ← h.offsets, List.take_take, Nat.min_eq_left (by omega)]
  · have := h.space; dsimp only; omega
  · dsimp only
    have : d.data.take (ss.take len).flatten.length = (d.data.take ss.flatten.length).take (ss.take len).flatten.length := by
      rw [List.take_take, Nat.min_eq_left hf]
    rw [this, h.data, flat_take]
  · have := h.count; rw [List.length_take]; omega

end Verif.Kv.SectorBytes
