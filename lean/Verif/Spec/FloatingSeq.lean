/-
Model of Splinter/src/spec/FloatingSeq_t.rs.
-/
namespace Verif

/-- FloatingSeq_t.rs 19-29 -/
@[ext] structure FloatingSeq (T : Type) where
  start : Nat
  entries : List T

namespace FloatingSeq
variable {T : Type}

/-- FloatingSeq_t.rs 35-39 (`recommends start <= length`) -/
def new (start length : Nat) (f : Nat → T) : FloatingSeq T :=
  { start := start, entries := (List.range (length - start)).map fun i => f (i + start) }

/-- FloatingSeq_t.rs 46-49 -/
def len (s : FloatingSeq T) : Nat := s.start + s.entries.length

/-- FloatingSeq_t.rs 51-54 -/
def firstActiveIndex (s : FloatingSeq T) : Nat := s.start

/-- FloatingSeq_t.rs 56-59 -/
def IsActive (s : FloatingSeq T) (i : Nat) : Prop := s.start ≤ i ∧ i < s.len

/-- FloatingSeq_t.rs 61-74 (`get` and `spec_index`): `none` outside the active range, where
the Rust spec function is unspecified. -/
def get? (s : FloatingSeq T) (i : Nat) : Option T :=
  if s.start ≤ i then s.entries[i - s.start]? else none

/-- FloatingSeq_t.rs 81-88 -/
def getPrefix (s : FloatingSeq T) (endIdx : Nat) : FloatingSeq T :=
  if endIdx ≤ s.start then { start := endIdx, entries := [] }
  else { start := s.start, entries := s.entries.take (endIdx - s.start) }

/-- FloatingSeq_t.rs 93-102 (`recommends` newStart active or equal to the length) -/
def getSuffix (s : FloatingSeq T) (newStart : Nat) : FloatingSeq T :=
  { start := newStart, entries := s.entries.drop (newStart - s.start) }

/-- FloatingSeq_t.rs 110-113 -/
def append (s : FloatingSeq T) (elts : List T) : FloatingSeq T :=
  { start := s.start, entries := s.entries ++ elts }

/-- FloatingSeq_t.rs 115-121 -/
def last? (s : FloatingSeq T) : Option T := s.get? (s.len - 1)

/-- FloatingSeq_t.rs 123-127 -/
def dropLast (s : FloatingSeq T) : FloatingSeq T := s.getPrefix (s.len - 1)

theorem get?_isSome_iff (s : FloatingSeq T) (i : Nat) : (s.get? i).isSome ↔ s.IsActive i := by
  unfold get? IsActive len
  split
  · rename_i h; simp; omega
  · simp; omega

theorem get?_new (start length : Nat) (f : Nat → T) (i : Nat) :
    (new start length f).get? i = if start ≤ i ∧ i < length then some (f i) else none := by
  unfold get? new
  by_cases h : start ≤ i
  · simp only [h, if_true, true_and]
    by_cases h2 : i < length
    · rw [if_pos h2, List.getElem?_map, List.getElem?_range (by omega)]
      simp; congr 1; omega
    · rw [if_neg h2, List.getElem?_eq_none]; simp; omega
  · simp [h]

@[simp] theorem len_new (start length : Nat) (f : Nat → T) (h : start ≤ length) :
    (new start length f).len = length := by
  simp [len, new]; omega

/-- Extensionality, FloatingSeq_t.rs 139-184. -/
theorem ext_get? {a b : FloatingSeq T} (hs : a.start = b.start) (hl : a.len = b.len)
    (h : ∀ i, a.IsActive i → a.get? i = b.get? i) : a = b := by
  ext1
  · exact hs
  · apply List.ext_getElem?
    intro i
    by_cases hi : i < a.entries.length
    · have := h (a.start + i) ⟨by omega, by unfold len; omega⟩
      simp only [get?, hs] at this
      simpa using this
    · have : a.entries.length = b.entries.length := by unfold len at hl; omega
      rw [List.getElem?_eq_none (by omega), List.getElem?_eq_none (by omega)]

theorem get?_getPrefix (s : FloatingSeq T) (e i : Nat) :
    (s.getPrefix e).get? i = if i < e then s.get? i else none := by
  unfold getPrefix get?
  split
  · rename_i h; simp; intros; omega
  · simp only [List.getElem?_take]
    split <;> split <;> first | rfl | (split <;> first | rfl | omega) | omega

theorem get?_getSuffix (s : FloatingSeq T) (n i : Nat) (h : s.start ≤ n) :
    (s.getSuffix n).get? i = if n ≤ i then s.get? i else none := by
  unfold getSuffix get?
  simp only [List.getElem?_drop]
  split
  · rw [if_pos (by omega)]; congr 1; omega
  · rfl

end FloatingSeq
end Verif
