import Verif.Kv.Journalist
import Verif.Kv.JournalBytesProof
/-
The journalist keeps its invariant and does to the two parts of the journal what it should.
-/
namespace Verif.Kv.Journalist
open JournalBytes

theorem getElem?_cyclicSlice {α : Type} {t : List α} {s l : Nat} (hs : s < t.length)
    (hl : l ≤ t.length) (i : Nat) :
    (cyclicSlice t s l)[i]? = if i < l then t[basicMod (s + i) t.length]? else none := by
  unfold cyclicSlice basicMod
  by_cases h : s + l ≤ t.length
  · rw [if_pos h, List.getElem?_take, List.getElem?_drop]
    by_cases h1 : i < l
    · rw [if_pos h1, if_pos h1, if_neg (by omega)]
    · rw [if_neg h1, if_neg h1]
  · rw [if_neg h, List.getElem?_append, List.length_drop, List.getElem?_drop, List.getElem?_take]
    by_cases h1 : i < l
    · rw [if_pos h1]
      by_cases h2 : i < t.length - s
      · rw [if_pos h2, if_neg (by omega)]
      · rw [if_neg h2, if_pos (by omega), if_pos (by omega)]
        congr 1; omega
    · rw [if_neg h1, if_neg (by omega), if_neg (by omega)]

theorem sumWeights_append (a b : List Entry) : sumWeights (a ++ b) = sumWeights a + sumWeights b := by
  simp [sumWeights]

theorem eight_le_weight (e : Entry) : 8 ≤ weight e := by cases e <;> simp only [weight] <;> omega

/-- `lenTimes8LeSum`, BlockCacheSystem/JournalRange.i.dfy:332-338 -/
theorem len_le_sum (es : List Entry) : 8 * es.length ≤ sumWeights es := by
  induction es with
  | nil => simp
  | cons e es ih =>
    have := eight_le_weight e
    simp only [sumWeights, List.map_cons, List.sum_cons, List.length_cons] at ih ⊢; omega

theorem len_le_weights (es : List Entry) : 8 * es.length ≤ weights es := by
  have := len_le_sum es
  unfold weights; split <;> omega

/-- `WeightJournalEntriesSum`, JournalRange.i.dfy:373-379 -/
theorem weights_append (a b : List Entry) : weights (a ++ b) ≤ weights a + weights b := by
  unfold weights
  rw [sumWeights_append, List.length_append]
  split
  · omega
  · split
    · rename_i h; have : a = [] := List.eq_nil_of_length_eq_zero h; subst this
      split
      · rename_i h; have : b = [] := List.eq_nil_of_length_eq_zero h; subst this; simp at *
      · simp [sumWeights]
    · split
      · rename_i h; have : b = [] := List.eq_nil_of_length_eq_zero h; subst this; simp [sumWeights]
      · omega

/-- `lemma_weight_append`, Impl/JournalistImpl.i.dfy:58-74 -/
theorem weights_snoc (a : List Entry) (e : Entry) :
    weights (a ++ [e]) = weights a + weight e + (if a.length = 0 then 8 else 0) := by
  unfold weights
  rw [sumWeights_append, List.length_append, if_neg (by simp)]
  have : sumWeights [e] = weight e := by simp [sumWeights]
  rw [this]
  split
  · rename_i h; have : a = [] := List.eq_nil_of_length_eq_zero h; subst this; simp [sumWeights]
  · omega

theorem weights_pos {a : List Entry} (h : a ≠ []) : weights a = 8 + sumWeights a := by
  unfold weights
  rw [if_neg (by simpa using h)]; omega

variable {s : State}

theorem mid_lt (h : s.Inv) : basicMod (s.start + s.len1) s.entries.length < s.entries.length := by
  have := h.start; have := h.lens
  unfold basicMod; split <;> omega

theorem length_frozen (h : s.Inv) : s.frozen.length = s.len1 := by
  have := h.lens
  exact length_cyclicSlice h.start (by omega)

theorem length_mem (h : s.Inv) : s.mem.length = s.len2 := by
  have := h.lens
  exact length_cyclicSlice (mid_lt h) (by omega)

/-- The two parts lie in the ring one after the other. -/
theorem both (h : s.Inv) :
    s.frozen ++ s.mem = cyclicSlice s.entries s.start (s.len1 + s.len2) := by
  have hl := h.lens
  have hs := h.start
  apply List.ext_getElem?
  intro i
  rw [List.getElem?_append, length_frozen h, State.frozen, State.mem,
    getElem?_cyclicSlice hs (by omega), getElem?_cyclicSlice (mid_lt h) (by omega),
    getElem?_cyclicSlice hs hl]
  by_cases h1 : i < s.len1
  · rw [if_pos h1, if_pos h1, if_pos (by omega)]
  · rw [if_neg h1]
    by_cases h2 : i < s.len1 + s.len2
    · rw [if_pos (by omega), if_pos h2]
      congr 1
      unfold basicMod
      split <;> split <;> split <;> omega
    · rw [if_neg (by omega), if_neg h2]

theorem init_length : init.entries.length = 4096 := List.length_replicate

theorem mid_lt0 (hl : init.entries.length = 4096) :
    basicMod (init.start + init.len1) init.entries.length < init.entries.length := by
  rw [hl]; decide

theorem init_inv : init.Inv := by
  have hl := init_length
  have hs : init.start = 0 := rfl
  have e1 : init.frozen = [] := cyclicSlice_zero _ _ (by rw [hl, hs]; omega)
  have e2 : init.mem = [] := cyclicSlice_zero _ _ (mid_lt0 hl)
  refine ⟨by rw [hl]; omega, by rw [hl]; decide, by rw [hl, hs]; omega, Nat.zero_le _, Nat.le_refl _,
    Nat.zero_le _, fun _ h => (nomatch h), fun _ h => (nomatch h), Nat.zero_le _, ?_, ?_, ?_, fun _ => rfl⟩
  · rw [e1]; exact Nat.zero_le _
  · rw [e2]; rfl
  · intro e he
    rw [(List.mem_replicate.mp he).2]; exact ⟨by simp, by simp⟩

theorem init_parts : init.frozen = [] ∧ init.mem = [] ∧ init.replay = [] :=
  ⟨cyclicSlice_zero _ _ (by rw [init_length]; exact Nat.zero_lt_succ _),
    cyclicSlice_zero _ _ (mid_lt0 init_length), rfl⟩

theorem hasFrozen_iff (h : s.Inv) : s.hasFrozen = true ↔ s.frozen ≠ [] := by
  rw [← List.length_pos_iff, length_frozen h, State.hasFrozen]; simp; omega

theorem hasMem_iff (h : s.Inv) : s.hasMem = true ↔ s.mem ≠ [] := by
  rw [← List.length_pos_iff, length_mem h, State.hasMem]; simp; omega

/-- Everything in memory fits in the ring before it has to grow beyond its limit. -/
theorem room (h : s.Inv) : 8 * (s.len1 + s.len2) ≤ 4064 * numJournalBlocks := by
  have h1 := len_le_weights s.frozen
  have h2 := len_le_weights s.mem
  rw [length_frozen h] at h1
  rw [length_mem h, h.mem] at h2
  have h3 := h.frozen
  have h4 := h.space
  have : (s.written + s.frozenBlocks) * 4064 = s.written * 4064 + s.frozenBlocks * 4064 :=
    Nat.add_mul _ _ _
  omega

/-- `append`, JournalistImpl.i.dfy:382-387: what it ensures -/
theorem append_spec (h : s.Inv) {e : Entry} (ho : Ok e) (hc : s.canAppend e = true) :
    (s.append e).Inv ∧ (s.append e).mem = s.mem ++ [e] ∧ (s.append e).frozen = s.frozen := by
  have hl := h.lens
  have hs := h.start
  have hN : numJournalBlocks = 65536 := rfl
  have hM : maxEntries = 33554432 := rfl
  have hroom := room h
  have hc' : 4064 * (s.written + s.frozenBlocks) + s.memWeight + weight e + (if s.len2 = 0 then 8 else 0) ≤
    4064 * numJournalBlocks := by simpa [State.canAppend] using hc
  have parts : (s.append e).mem = s.mem ++ [e] ∧ (s.append e).frozen = s.frozen ∧
      (s.append e).start < (s.append e).entries.length ∧
      s.entries.length ≤ (s.append e).entries.length ∧
      (s.append e).len1 + (s.append e).len2 ≤ (s.append e).entries.length ∧
      (s.append e).entries.length ≤ 2 * maxEntries ∧
      ∀ x ∈ (s.append e).entries, Ok x := by
    by_cases hfull : s.len1 + s.len2 < s.entries.length
    · have ea : s.append e = { s with
          entries := s.entries.set (basicMod (s.start + s.len1 + s.len2) s.entries.length) e
          memWeight := s.memWeight + weight e + (if s.len2 = 0 then 8 else 0)
          len2 := s.len2 + 1 } := by rw [State.append, if_pos hfull]
      have hat : basicMod (s.start + s.len1 + s.len2) s.entries.length < s.entries.length := by
        unfold basicMod; split <;> omega
      rw [ea]
      have hlen : (s.entries.set (basicMod (s.start + s.len1 + s.len2) s.entries.length) e).length =
          s.entries.length := by simp
      refine ⟨?_, ?_, by simpa using hs, by simp, by simp; omega, by simpa using h.ring, ?_⟩
      · apply List.ext_getElem?
        intro i
        rw [List.getElem?_append, length_mem h, State.mem, State.mem]
        dsimp only
        rw [hlen, getElem?_cyclicSlice (by rw [hlen]; exact mid_lt h) (by rw [hlen]; omega),
          getElem?_cyclicSlice (mid_lt h) (by omega), hlen, List.getElem?_set]
        by_cases h1 : i < s.len2
        · rw [if_pos (by omega), if_pos h1, if_pos h1, if_neg]
          unfold basicMod
          split <;> split <;> split <;> omega
        · rw [if_neg h1]
          by_cases h2 : i = s.len2
          · subst h2
            have eq : basicMod (s.start + s.len1 + s.len2) s.entries.length =
                basicMod (basicMod (s.start + s.len1) s.entries.length + s.len2) s.entries.length := by
              unfold basicMod; (repeat' split) <;> omega
            rw [if_pos (by omega), if_pos eq, if_pos hat]; simp
          · rw [if_neg (by omega)]
            rw [List.getElem?_eq_none]; simp; omega
      · apply List.ext_getElem?
        intro i
        rw [State.frozen, State.frozen]
        dsimp only
        rw [getElem?_cyclicSlice (by rw [hlen]; exact hs) (by rw [hlen]; omega),
          getElem?_cyclicSlice hs (by omega), hlen, List.getElem?_set]
        by_cases h1 : i < s.len1
        · rw [if_pos h1, if_pos h1, if_neg]
          unfold basicMod
          split <;> split <;> omega
        · rw [if_neg h1, if_neg h1]
      · intro x hx
        rcases List.mem_or_eq_of_mem_set hx with hx | rfl
        · exact h.ok x hx
        · exact ho
    · have hfull' : s.len1 + s.len2 = s.entries.length := by omega
      have ea : s.append e = { s with
          entries := s.realloc e (s.entries.length * 2)
          start := 0
          memWeight := s.memWeight + weight e + (if s.len2 = 0 then 8 else 0)
          len2 := s.len2 + 1 } := by rw [State.append, if_neg hfull]
      have hpos := h.pos
      have hlen : (s.realloc e (s.entries.length * 2)).length = s.entries.length * 2 := by
        simp [State.realloc]; omega
      have hget : ∀ i, i < s.entries.length → (s.realloc e (s.entries.length * 2))[i]? =
          s.entries[basicMod (s.start + i) s.entries.length]? := by
        intro i hi
        rw [State.realloc, List.append_assoc, List.append_assoc, List.getElem?_append,
          List.length_drop, List.getElem?_drop]
        unfold basicMod
        by_cases h1 : i < s.entries.length - s.start
        · rw [if_pos h1, if_neg (by omega)]
        · rw [if_neg h1, if_pos (by omega), List.getElem?_append_left (by rw [List.length_take]; omega),
            List.getElem?_take, if_pos (by omega)]
          congr 1; omega
      have hget' : (s.realloc e (s.entries.length * 2))[s.entries.length]? = some e := by
        rw [State.realloc]
        have e1 : (s.entries.drop s.start ++ s.entries.take s.start).length = s.entries.length := by
          simp; omega
        rw [List.append_assoc, List.getElem?_append_right (by omega), e1]; simp
      rw [ea]
      refine ⟨?_, ?_, ?_, ?_, ?_, ?_, ?_⟩
      · apply List.ext_getElem?
        intro i
        rw [List.getElem?_append, length_mem h, State.mem, State.mem]
        dsimp only
        rw [hlen, getElem?_cyclicSlice (by rw [hlen]; unfold basicMod; split <;> omega) (by rw [hlen]; omega),
          getElem?_cyclicSlice (mid_lt h) (by omega), hlen]
        have em : basicMod (0 + s.len1) (s.entries.length * 2) = s.len1 := by
          unfold basicMod; split <;> omega
        rw [em]
        by_cases h1 : i < s.len2
        · have e3 : basicMod (s.len1 + i) (s.entries.length * 2) = s.len1 + i := by
            unfold basicMod; split <;> omega
          rw [if_pos (by omega), if_pos h1, if_pos h1, e3, hget _ (by omega)]
          congr 1
          unfold basicMod
          split <;> split <;> split <;> omega
        · rw [if_neg h1]
          by_cases h2 : i = s.len2
          · subst h2
            have e3 : basicMod (s.len1 + s.len2) (s.entries.length * 2) = s.entries.length := by
              unfold basicMod; split <;> omega
            rw [if_pos (by omega), e3, hget']; simp
          · rw [if_neg (by omega), List.getElem?_eq_none]; simp; omega
      · apply List.ext_getElem?
        intro i
        rw [State.frozen, State.frozen]
        dsimp only
        rw [getElem?_cyclicSlice (by rw [hlen]; omega) (by rw [hlen]; omega),
          getElem?_cyclicSlice hs (by omega), hlen]
        by_cases h1 : i < s.len1
        · have e3 : basicMod (0 + i) (s.entries.length * 2) = i := by
            unfold basicMod; split <;> omega
          rw [if_pos h1, if_pos h1, e3, hget _ (by omega)]
        · rw [if_neg h1, if_neg h1]
      · dsimp only; omega
      · dsimp only; omega
      · dsimp only; omega
      · dsimp only; omega
      · intro x hx
        simp only [State.realloc, List.mem_append, List.mem_singleton, List.mem_replicate] at hx
        rcases hx with ((hx | hx) | rfl) | ⟨_, rfl⟩
        · exact h.ok x (List.mem_of_mem_drop hx)
        · exact h.ok x (List.mem_of_mem_take hx)
        · exact ho
        · exact ⟨by simp, by simp⟩
  obtain ⟨p1, p2, p3, p4, p5, p6, p7⟩ := parts
  have f1 : (s.append e).replayJournal = s.replayJournal ∧ (s.append e).replayIdx = s.replayIdx ∧
      (s.append e).front = s.front ∧ (s.append e).back = s.back ∧ (s.append e).written = s.written ∧
      (s.append e).frozenBlocks = s.frozenBlocks ∧ (s.append e).len1 = s.len1 ∧
      (s.append e).memWeight = s.memWeight + weight e + (if s.len2 = 0 then 8 else 0) := by
    by_cases hh : s.len1 + s.len2 < s.entries.length <;> simp [State.append, hh]
  obtain ⟨g1, g2, g3, g4, g5, g6, g7, g8⟩ := f1
  refine ⟨⟨by have := h.pos; omega, p6, p3, p5, by rw [g1, g2]; exact h.idx, by rw [g1]; exact h.replay,
    by rw [g3]; exact h.front, by rw [g4]; exact h.back, ?_, by rw [p2, g6]; exact h.frozen, ?_, p7,
    by rw [g7, g6]; exact h.none⟩, p1, p2⟩
  · rw [g5, g6, g8, Nat.mul_comm]; omega
  · rw [p1, weights_snoc, h.mem, g8, length_mem h]

/-- `freeze`, JournalistImpl.i.dfy:324-331 -/
theorem freeze_spec (h : s.Inv) : s.freeze.Inv ∧ s.freeze.frozen = s.frozen ++ s.mem ∧
    s.freeze.mem = [] := by
  have hb := both h
  have hl := h.lens
  have hs := h.start
  have e1 : s.freeze.frozen = s.frozen ++ s.mem := hb.symm
  have e2 : s.freeze.mem = [] := by
    refine cyclicSlice_zero _ _ ?_
    simp only [State.freeze]
    unfold basicMod; split <;> omega
  have hw := weights_append s.frozen s.mem
  have hf := h.frozen
  have hm := h.mem
  have hsp := h.space
  refine ⟨⟨h.pos, h.ring, h.start, hl, h.idx, h.replay, h.front, h.back, ?_, ?_, ?_, h.ok, ?_⟩, e1, e2⟩
  · simp only [State.freeze, State.memBlocks]
    clear hb e1 e2 hw hf hm
    revert hsp
    have hN : numJournalBlocks = 65536 := rfl
    rw [hN, Nat.add_zero]
    generalize s.written = a
    generalize s.frozenBlocks = b
    generalize s.memWeight = c
    intro hsp
    have hq : a + (b + (c + 4064 - 1) / 4064) ≤ 65536 := by omega
    rw [Nat.mul_comm 4064]
    exact Nat.mul_le_mul_right _ hq
  · rw [e1]; simp only [State.freeze, State.memBlocks]; omega
  · rw [e2]; rfl
  · intro h0
    simp only [State.freeze] at h0 ⊢
    have := h.none (by omega)
    have l2 := length_mem h
    have : s.mem = [] := List.eq_nil_of_length_eq_zero (by omega)
    rw [this] at hm
    simp [weights] at hm
    simp only [State.memBlocks]; omega

variable {crc : List UInt8 → List UInt8}

/-- `packageFrozenJournal`, JournalistImpl.i.dfy:233-244 -/
theorem packageFrozen_spec (hcrc : ∀ x, (crc x).length = 32) (h : s.Inv) (hne : s.frozen ≠ []) :
    (s.packageFrozen crc).2.Inv ∧ (s.packageFrozen crc).2.frozen = [] ∧
    (s.packageFrozen crc).2.mem = s.mem ∧
    (s.packageFrozen crc).2.written ≤ numJournalBlocks ∧
    ∃ bs, rangeOfBytes crc (s.packageFrozen crc).1 = some bs ∧ parseRange bs = some s.frozen ∧
      (s.packageFrozen crc).1.length = 4096 * bs.length ∧ 0 < bs.length ∧
      (s.packageFrozen crc).2.written = s.written + bs.length := by
  have hN : numJournalBlocks = 65536 := rfl
  have hM : maxEntries = 33554432 := rfl
  have hl := h.lens
  have hr := h.ring
  have hf := h.frozen
  have hsp := h.space
  have hmul : (s.written + s.frozenBlocks) * 4064 = s.written * 4064 + s.frozenBlocks * 4064 :=
    Nat.add_mul _ _ _
  rw [weights_pos hne] at hf
  have hwr : s.written + s.frozenBlocks ≤ numJournalBlocks := by omega
  have hfb : 1 ≤ s.frozenBlocks := by omega
  have e1 : (s.packageFrozen crc).2.frozen = [] := cyclicSlice_zero _ _ (mid_lt h)
  have e2 : (s.packageFrozen crc).2.mem = s.mem := by
    simp only [State.packageFrozen, State.mem, Nat.add_zero]
    congr 1
    have := mid_lt h
    generalize basicMod (s.start + s.len1) s.entries.length = m at *
    unfold basicMod; rw [if_neg (by omega)]
  obtain ⟨m1, bs, m2, m3, m4, m5⟩ := marshal_spec hcrc (n := s.frozenBlocks) h.start
    (by omega : s.len1 ≤ s.entries.length) (by omega) hfb (by omega)
    (fun e he => h.ok e (mem_cyclicSlice he)) (by change 8 + sumWeights s.frozen ≤ _; omega)
  refine ⟨⟨h.pos, h.ring, mid_lt h, ?_, h.idx, h.replay, h.front, h.back, ?_, ?_, ?_, h.ok,
    fun _ => rfl⟩, e1, e2, hwr, bs, m2, m5, ?_, by omega, ?_⟩
  · simp only [State.packageFrozen]; omega
  · simp only [State.packageFrozen]; omega
  · rw [e1]; simp [weights]
  · rw [e2]; exact h.mem
  · rw [m3]; exact m1
  · rw [m3]; rfl

/-- `packageInMemoryJournal`, JournalistImpl.i.dfy:263-275 -/
theorem packageMem_spec (hcrc : ∀ x, (crc x).length = 32) (h : s.Inv) (hf : s.frozen = [])
    (hne : s.mem ≠ []) :
    (s.packageMem crc).2.Inv ∧ (s.packageMem crc).2.frozen = [] ∧
    (s.packageMem crc).2.mem = [] ∧
    (s.packageMem crc).2.written ≤ numJournalBlocks ∧
    ∃ bs, rangeOfBytes crc (s.packageMem crc).1 = some bs ∧ parseRange bs = some s.mem ∧
      (s.packageMem crc).1.length = 4096 * bs.length ∧ 0 < bs.length ∧
      (s.packageMem crc).2.written = s.written + bs.length := by
  have hN : numJournalBlocks = 65536 := rfl
  have hM : maxEntries = 33554432 := rfl
  have hl := h.lens
  have hr := h.ring
  have hp := h.pos
  have hm := h.mem
  have hsp := h.space
  have hst := h.start
  have h1 : s.len1 = 0 := by rw [← length_frozen h, hf]; rfl
  have h0 := h.none h1
  rw [weights_pos hne] at hm
  have ed : s.memBlocks = (s.memWeight + 4064 - 1) / 4064 := rfl
  have hb1 : 1 ≤ s.memBlocks := by omega
  have hb2 : s.memWeight ≤ 4064 * s.memBlocks := by omega
  rw [h0] at hsp
  have hwr : s.written + s.memBlocks ≤ numJournalBlocks := by omega
  have emem : cyclicSlice s.entries s.start s.len2 = s.mem := by
    rw [State.mem, h1, Nat.add_zero]
    congr 1
    unfold basicMod; rw [if_neg (by omega)]
  have e1 : (s.packageMem crc).2.frozen = [] := by
    simp only [State.packageMem, State.frozen, h1]
    exact cyclicSlice_zero _ _ (by omega)
  have e2 : (s.packageMem crc).2.mem = [] := by
    simp only [State.packageMem, State.mem, h1]
    exact cyclicSlice_zero _ _ (by unfold basicMod; split <;> omega)
  obtain ⟨m1, bs, m2, m3, m4, m5⟩ := marshal_spec hcrc (n := s.memBlocks) h.start
    (by omega : s.len2 ≤ s.entries.length) (by omega) hb1 (by omega)
    (fun e he => h.ok e (mem_cyclicSlice he)) (by rw [emem]; omega)
  rw [emem] at m5
  refine ⟨⟨h.pos, h.ring, by simp only [State.packageMem]; omega, ?_, h.idx, h.replay, h.front, h.back,
    ?_, ?_, ?_, h.ok, h.none⟩, e1, e2, hwr, bs, m2, m5, ?_, by omega, ?_⟩
  · simp only [State.packageMem]; omega
  · simp only [State.packageMem]
    clear hsp hN
    generalize numJournalBlocks = N at *
    omega
  · rw [e1]; simp [weights]
  · rw [e2]; rfl
  · rw [m3]; exact m1
  · rw [m3]; rfl

/-- `setWrittenJournalLen`, JournalistImpl.i.dfy:301-308 -/
theorem setWritten_spec (h : s.Inv) (hf : s.frozen = []) (hm : s.mem = []) {n : Nat}
    (hn : n ≤ numJournalBlocks) : (s.setWritten n).Inv := by
  have hN : numJournalBlocks = 65536 := rfl
  have := h.mem
  rw [hm] at this
  simp [weights] at this
  refine ⟨h.pos, h.ring, h.start, h.lens, h.idx, h.replay, h.front, h.back, ?_, ?_, h.mem, h.ok,
    fun _ => rfl⟩
  · simp only [State.setWritten]; omega
  · have : (s.setWritten n).frozen = [] := hf
    rw [this]; simp [weights]

/-- `updateWrittenJournalLen`, JournalistImpl.i.dfy:315-319 -/
theorem updateWritten_spec (h : s.Inv) {n : Nat} (hn : n ≤ s.written) : (s.updateWritten n).Inv := by
  have := h.space
  refine ⟨h.pos, h.ring, h.start, h.lens, h.idx, h.replay, h.front, h.back, ?_, h.frozen, h.mem, h.ok,
    h.none⟩
  exact Nat.le_trans (Nat.add_le_add_right (Nat.mul_le_mul_right _ (Nat.add_le_add_right hn _)) _) this

/-- `replayJournalPop`, JournalistImpl.i.dfy:441-446 -/
theorem replayPop_spec (h : s.Inv) (hne : s.replay ≠ []) : s.replayPop.Inv ∧
    ∃ e, s.replayJournal[s.replayIdx]? = some e ∧ s.replay = e :: s.replayPop.replay := by
  have hi := h.idx
  have hlt : s.replayIdx < s.replayJournal.length := by
    have : 0 < s.replay.length := List.length_pos_iff.mpr hne
    rw [State.replay, List.length_drop] at this; omega
  refine ⟨⟨h.pos, h.ring, h.start, h.lens, hlt, h.replay, h.front, h.back, h.space, h.frozen, h.mem, h.ok,
    h.none⟩, s.replayJournal[s.replayIdx], List.getElem?_eq_getElem hlt, ?_⟩
  exact List.drop_eq_getElem_cons hlt

theorem replayEmpty_iff (h : s.Inv) : s.replayEmpty = true ↔ s.replay = [] := by
  have := h.idx
  rw [State.replayEmpty, State.replay, ← List.length_eq_zero_iff, List.length_drop]
  simp; omega

theorem setFront_spec (h : s.Inv) {jr : List Block} (hj : Sizes jr) : (s.setFront jr).Inv :=
  ⟨h.pos, h.ring, h.start, h.lens, h.idx, h.replay, fun _ e => by cases e; exact hj, h.back, h.space,
    h.frozen, h.mem, h.ok, h.none⟩

theorem setBack_spec (h : s.Inv) {jr : List Block} (hj : Sizes jr) : (s.setBack jr).Inv :=
  ⟨h.pos, h.ring, h.start, h.lens, h.idx, h.replay, h.front, fun _ e => by cases e; exact hj, h.space,
    h.frozen, h.mem, h.ok, h.none⟩

/-- `parseJournals`, JournalistImpl.i.dfy:472-486 -/
theorem parse_spec (h : s.Inv) {s' : State} (hp : s.parse = some s') : s'.Inv ∧ s'.front = none ∧
    s'.back = none ∧ s'.frozen = s.frozen ∧ s'.mem = s.mem ∧ s'.written = s.written ∧
    parseRange (s.front.getD [] ++ s.back.getD []) = some s'.replay := by
  unfold State.parse at hp
  split at hp
  · rename_i es he
    split at hp
    · rename_i hle
      cases hp
      exact ⟨⟨h.pos, h.ring, h.start, h.lens, Nat.zero_le _, hle, fun _ e => (nomatch e),
        fun _ e => (nomatch e), h.space, h.frozen, h.mem, h.ok, h.none⟩, rfl, rfl, rfl, rfl, rfl, he⟩
    · cases hp
  · cases hp

end Verif.Kv.Journalist
