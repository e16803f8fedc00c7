import Verif.Betree.Buffer
/-
Model of Splinter/src/betree/BufferSeq_v.rs, BufferOffsets_v.rs and OffsetMap_v.rs.
`BufferSeq` and `BufferOffsets` are lists (wrapper structs dropped), oldest buffer first.
-/
namespace Verif
open Classical

/-- BufferSeq_v.rs 15-17 -/
abbrev BufferSeq := List Buffer

namespace BufferSeq

/-- BufferSeq_v.rs 36-40 -/
def slice (bs : BufferSeq) (a b : Nat) : BufferSeq := (bs.take b).drop a

/-- BufferSeq_v.rs 60-62 `query`: the whole stack. The recursion is that of `query_from` 48-58, which
walks a start index instead of dropping a prefix. -/
def query : BufferSeq → Key → Message
  | [], _ => .nop
  | b :: bs, k => (b.query k).merge (query bs k)

/-- BufferSeq_v.rs 48-58 (total here; Rust wants `start ≤ len`) -/
def queryFrom (bs : BufferSeq) (k : Key) (start : Nat) : Message := query (bs.drop start) k

/-- BufferSeq_v.rs 68-70 -/
def extend (bs new : BufferSeq) : BufferSeq := bs ++ new

/-- BufferSeq_v.rs 72-77 -/
def updateSubrange (bs : BufferSeq) (a b : Nat) (new : Buffer) : BufferSeq :=
  bs.take a ++ [new] ++ bs.drop b

/-- BufferSeq_v.rs 95-99 -/
def KeyInBuffer (bs : BufferSeq) (fromIdx : Nat) (k : Key) (i : Nat) : Prop :=
  fromIdx ≤ i ∧ ∃ b, bs[i]? = some b ∧ b.Contains k

/-- BufferSeq_v.rs 120-127; the offset map of OffsetMap_v.rs is a function -/
def KeyInBufferFiltered (bs : BufferSeq) (offsets : Key → Nat) (fromIdx : Nat) (k : Key)
    (i : Nat) : Prop :=
  KeyInBuffer bs fromIdx k i ∧ offsets k ≤ i

/-- BufferSeq_v.rs 79-88, from the bottom buffer; the tail is taken by dropping a prefix -/
def merged : BufferSeq → Buffer
  | [] => Buffer.empty
  | b :: bs => b.merge (merged bs)

/-- BufferSeq_v.rs 101-113 `i_filtered_from`; `idx` is the position of the first buffer -/
noncomputable def mergedFiltered (offsets : Key → Nat) : Nat → BufferSeq → Buffer
  | _, [] => Buffer.empty
  | idx, b :: bs => (b.applyFilter (fun k => offsets k ≤ idx)).merge (mergedFiltered offsets (idx + 1) bs)

theorem query_append (a b : BufferSeq) (k : Key) :
    query (a ++ b) k = (query a k).merge (query b k) := by
  induction a with
  | nil => simp [query]
  | cons x a ih => simp [query, ih, Message.merge_assoc]

theorem query_single (b : Buffer) (k : Key) : query [b] k = b.query k := by
  simp [query]

/-- `query_from` satisfies the recursion of the Rust definition. -/
theorem queryFrom_rec (bs : BufferSeq) (k : Key) (i : Nat) :
    queryFrom bs k i = match bs[i]? with
      | none => .nop
      | some b => (b.query k).merge (queryFrom bs k (i + 1)) := by
  unfold queryFrom
  cases h : bs[i]? with
  | none => rw [List.drop_eq_nil_of_le (List.getElem?_eq_none_iff.mp h)]; rfl
  | some b =>
    obtain ⟨hl, he⟩ := List.getElem?_eq_some_iff.mp h
    rw [List.drop_eq_getElem_cons hl, he]; rfl

/-- A stack none of whose buffers holds the key answers nothing. -/
theorem query_absent {bs : BufferSeq} {k : Key} (h : ∀ b ∈ bs, ¬ b.Contains k) :
    query bs k = .nop := by
  induction bs with
  | nil => rfl
  | cons b bs ih =>
    have hb : b.query k = .nop := by
      have := h b (by simp)
      unfold Buffer.query
      cases hk : b k with
      | none => rfl
      | some m => exact absurd (by intro h; rw [hk] at h; cases h) this
    simp [query, hb, ih (fun x hx => h x (by simp [hx]))]

/-- BufferSeq_v.rs 129-148 `query_agrees_with_i` -/
theorem query_merged (bs : BufferSeq) (k : Key) : bs.merged.query k = bs.query k := by
  induction bs with
  | nil => rfl
  | cons b bs ih => simp [merged, query, ih]

end BufferSeq

/-- BufferOffsets_v.rs 11-13 -/
abbrev BufferOffsets := List Nat

namespace BufferOffsets

/-- BufferOffsets_v.rs 23-27 -/
def slice (o : BufferOffsets) (a b : Nat) : BufferOffsets := (o.take b).drop a

/-- BufferOffsets_v.rs 29-33 -/
def dup (o : BufferOffsets) (i : Nat) : BufferOffsets := o.insertIdx i (o.getD i 0)

/-- BufferOffsets_v.rs 35-39 -/
def update (o : BufferOffsets) (i v : Nat) : BufferOffsets := o.set i v

/-- BufferOffsets_v.rs 41-44 -/
def AllLte (o : BufferOffsets) (t : Nat) : Prop := ∀ i < o.length, o.getD i 0 ≤ t

/-- BufferOffsets_v.rs 46-49 -/
def AllGte (o : BufferOffsets) (t : Nat) : Prop := ∀ i < o.length, o.getD i 0 ≥ t

/-- BufferOffsets_v.rs 51-55 -/
def shiftLeft (o : BufferOffsets) (t : Nat) : BufferOffsets := o.map (· - t)

/-- BufferOffsets_v.rs 64-76, the body -/
def adjust1 (a b : Nat) (x : Nat) : Nat :=
  if x ≤ a then x else if x < b then a else x - (b - a) + 1

/-- BufferOffsets_v.rs 64-76 -/
def adjustCompact (o : BufferOffsets) (a b : Nat) : BufferOffsets := o.map (adjust1 a b)

theorem getD_map (o : BufferOffsets) (f : Nat → Nat) {i : Nat} (hi : i < o.length) :
    (o.map f).getD i 0 = f (o.getD i 0) := by
  simp [List.getD, List.getElem?_eq_getElem hi]

theorem getD_slice_left (o : BufferOffsets) {i j : Nat} (hj : j < i) :
    (slice o 0 i).getD j 0 = o.getD j 0 := by
  simp only [slice, List.drop_zero, List.getD, List.getElem?_take, if_pos hj]

theorem getD_slice_right (o : BufferOffsets) (i j : Nat) :
    (slice o i o.length).getD j 0 = o.getD (i + j) 0 := by
  simp only [slice, List.take_length, List.getD, List.getElem?_drop]

theorem getD_update (o : BufferOffsets) {i v j : Nat} (hi : i < o.length) :
    (update o i v).getD j 0 = if j = i then v else o.getD j 0 := by
  simp only [update, List.getD, List.getElem?_set]
  by_cases h : i = j
  · subst h; simp [hi]
  · rw [if_neg h, if_neg (Ne.symm h)]

theorem dup_length (o : BufferOffsets) {i : Nat} (hi : i < o.length) :
    (dup o i).length = o.length + 1 := by
  unfold dup
  rw [List.length_insertIdx_of_le_length (by omega)]

theorem getD_dup (o : BufferOffsets) {i : Nat} (hi : i < o.length) (j : Nat) :
    (dup o i).getD j 0 = o.getD (if j ≤ i then j else j - 1) 0 := by
  unfold dup
  simp only [List.getD]
  rw [List.getElem?_insertIdx]
  rcases Nat.lt_trichotomy j i with h | h | h
  · rw [if_pos h, if_pos (by omega)]
  · subst h; simp [hi, Nat.le_of_lt hi]
  · rw [if_neg (by omega), if_neg (by omega), if_neg (by omega)]

end BufferOffsets

namespace BufferSeq

/-- Compaction keeps the answer read from any offset. `c` is the compacted buffer: it holds the key
exactly if a buffer of the range that is active at offset `o` does, and then the merged message. -/
theorem compact_query {bs : BufferSeq} {a b o : Nat} {c : Buffer} {k : Key} (hab : a < b)
    (hb : b ≤ bs.length)
    (hc : c.Contains k ↔ o ≤ b ∧ ∃ i, KeyInBufferFiltered (slice bs a b) (fun _ => o - a) 0 k i)
    (hq : c.Contains k → c.query k = (slice bs a b).queryFrom k (o - a)) :
    (updateSubrange bs a b c).queryFrom k (BufferOffsets.adjust1 a b o) = bs.queryFrom k o := by
  have hsl : (slice bs a b).length = b - a := by simp [slice]; omega
  have hta : (bs.take a).length = a := by simp; omega
  -- the compacted buffer answers as the active part of the range
  have hcq : o ≤ b → c.query k = (slice bs a b).queryFrom k (o - a) := by
    intro hob
    by_cases h : c.Contains k
    · exact hq h
    · have h1 : c.query k = .nop := by
        have := query_absent (bs := [c]) (k := k) (by simpa using h)
        rwa [query_single] at this
      rw [h1]
      refine (query_absent ?_).symm
      intro x hx hxk
      obtain ⟨i, hi⟩ := List.getElem?_of_mem hx
      rw [List.getElem?_drop] at hi
      exact h (hc.mpr ⟨hob, o - a + i, ⟨Nat.zero_le _, x, hi, hxk⟩, Nat.le_add_right _ _⟩)
  -- splitting the stack at the end of the range
  have hsplit : ∀ i, i ≤ b → query (bs.drop i) k =
      (query ((bs.take b).drop i) k).merge (query (bs.drop b) k) := by
    intro i hi
    rw [← query_append]
    congr 1
    rw [← List.drop_append_of_le_length (by simp; omega), List.take_append_drop]
  unfold queryFrom updateSubrange BufferOffsets.adjust1
  by_cases h1 : o ≤ a
  · rw [if_pos h1, List.append_assoc, List.drop_append_of_le_length (by omega), query_append,
      query_append, query_single, hcq (by omega), show o - a = 0 by omega, hsplit o (by omega)]
    unfold queryFrom slice
    rw [List.drop_zero, ← Message.merge_assoc]
    congr 1
    rw [← query_append]
    congr 1
    have : bs.take a = (bs.take b).take a := by rw [List.take_take]; congr 1; omega
    rw [this, ← List.drop_append_of_le_length (by simp; omega), List.take_append_drop]
  · rw [if_neg h1]
    by_cases h2 : o < b
    · rw [if_pos h2, List.append_assoc, List.drop_append, hta,
        List.drop_eq_nil_of_le (by omega), Nat.sub_self, List.nil_append, List.drop_zero,
        query_append, query_single, hcq (by omega), hsplit o (by omega)]
      unfold queryFrom slice
      rw [List.drop_drop, show a + (o - a) = o by omega]
    · rw [if_neg h2, List.drop_append, List.drop_eq_nil_of_le (by simp; omega), List.nil_append,
        List.drop_drop]
      congr 2
      simp
      omega

end BufferSeq
end Verif
