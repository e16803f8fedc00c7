import Verif.Spec.FloatingSeq
/-
C34. Floating sequences keep absolute positions.
Specification: a floating sequence is observed through `get?` at absolute indices, its first
active index and its absolute length.
-/
namespace Verif.C34
open Verif FloatingSeq
variable {T : Type}

/-- What a client observes: which absolute indices are active and what they hold. -/
theorem ext {a b : FloatingSeq T} (hs : a.firstActiveIndex = b.firstActiveIndex) (hl : a.len = b.len)
    (h : ∀ i, a.get? i = b.get? i) : a = b := ext_get? hs hl (fun i _ => h i)

theorem active_iff (s : FloatingSeq T) (i : Nat) :
    (s.get? i).isSome ↔ s.firstActiveIndex ≤ i ∧ i < s.len := get?_isSome_iff s i

/-- `get_prefix(e)` keeps exactly the entries below `e`, at the same indices. -/
theorem prefix_get (s : FloatingSeq T) (e i : Nat) :
    (s.getPrefix e).get? i = if i < e then s.get? i else none := get?_getPrefix s e i

theorem prefix_len (s : FloatingSeq T) (e : Nat) (he : e ≤ s.len) : (s.getPrefix e).len = e := by
  unfold getPrefix len at *
  split <;> simp <;> omega

/-- `get_suffix(n)` keeps exactly the entries from `n` on, at the same indices. -/
theorem suffix_get (s : FloatingSeq T) (n i : Nat) (h : s.firstActiveIndex ≤ n) :
    (s.getSuffix n).get? i = if n ≤ i then s.get? i else none := get?_getSuffix s n i h

theorem suffix_len (s : FloatingSeq T) (n : Nat) (h : s.firstActiveIndex ≤ n) (h2 : n ≤ s.len) :
    (s.getSuffix n).len = s.len ∧ (s.getSuffix n).firstActiveIndex = n := by
  unfold firstActiveIndex at h
  unfold len at *
  refine ⟨?_, rfl⟩
  simp [getSuffix]; omega

/-- Appending adds entries at the end and moves nothing. -/
theorem append_get (s : FloatingSeq T) (elts : List T) (i : Nat) (h : i < s.len) :
    (s.append elts).get? i = s.get? i := by
  unfold get? append
  unfold len at h
  simp only
  split
  · rw [List.getElem?_append_left (by omega)]
  · rfl

theorem append_get_new (s : FloatingSeq T) (elts : List T) (i : Nat) :
    (s.append elts).get? (s.len + i) = elts[i]? := by
  unfold get? append len
  rw [if_pos (by simp only; omega)]
  simp only
  rw [List.getElem?_append_right (by omega)]
  congr 1; omega

theorem append_len (s : FloatingSeq T) (elts : List T) :
    (s.append elts).len = s.len + elts.length ∧
    (s.append elts).firstActiveIndex = s.firstActiveIndex := by
  simp [append, len, firstActiveIndex]; omega

/-- Prefix and suffix commute. -/
theorem prefix_suffix_comm (s : FloatingSeq T) (n e : Nat) (h1 : s.firstActiveIndex ≤ n)
    (h2 : n < e) (h3 : e ≤ s.len) :
    (s.getPrefix e).getSuffix n = (s.getSuffix n).getPrefix e := by
  unfold firstActiveIndex at h1
  have hp : (s.getPrefix e).start = s.start := by
    unfold getPrefix; rw [if_neg (by omega)]
  have hq : ((s.getSuffix n).getPrefix e).start = n := by
    unfold getPrefix getSuffix; rw [if_neg (by simp only; omega)]
  have hpl := prefix_len s e h3
  have hsl := suffix_len s n h1 (by omega)
  have h4 := suffix_len (s.getPrefix e) n (by unfold firstActiveIndex; omega) (by omega)
  apply ext
  · exact hq.symm
  · rw [h4.1, hpl, prefix_len _ _ (by rw [hsl.1]; exact h3)]
  · intro i
    rw [suffix_get _ _ _ (by unfold firstActiveIndex; omega), prefix_get, prefix_get, suffix_get _ _ _ h1]
    grind

theorem prefix_prefix (s : FloatingSeq T) (a b : Nat) (h0 : s.firstActiveIndex < a) (h1 : a ≤ b) :
    (s.getPrefix b).getPrefix a = s.getPrefix a := by
  unfold firstActiveIndex at h0
  unfold getPrefix
  rw [if_neg (by omega : ¬ b ≤ s.start), if_neg (by simp only; omega), if_neg (by omega)]
  simp only [List.take_take, FloatingSeq.mk.injEq, true_and]
  congr 1; omega

theorem suffix_suffix (s : FloatingSeq T) (a b : Nat) (h0 : s.firstActiveIndex ≤ a) (h1 : a ≤ b) :
    (s.getSuffix a).getSuffix b = s.getSuffix b := by
  unfold firstActiveIndex at h0
  unfold getSuffix
  simp only [List.drop_drop, FloatingSeq.mk.injEq, true_and]
  congr 1; omega

/-- `last` is the entry at `len - 1`; dropping it undoes a one-element append. -/
theorem append_last (s : FloatingSeq T) (x : T) : (s.append [x]).last? = some x := by
  unfold last?
  have : (s.append [x]).len - 1 = s.len + 0 := by rw [(append_len s [x]).1]; simp
  rw [this, append_get_new]; rfl

theorem append_dropLast (s : FloatingSeq T) (x : T) (h : s.firstActiveIndex < s.len) :
    (s.append [x]).dropLast = s := by
  unfold dropLast
  have : (s.append [x]).len - 1 = s.len := by rw [(append_len s [x]).1]; simp
  rw [this]
  unfold firstActiveIndex at h
  unfold getPrefix
  rw [if_neg (by simp only [append]; omega)]
  ext1
  · rfl
  · simp only [append, len]
    rw [show s.start + s.entries.length - s.start = s.entries.length by omega]
    simp

/-- A sequence whose first three entries have been forgotten. -/
def sample : FloatingSeq Nat := { start := 3, entries := [30, 40, 50, 60] }

example : sample.firstActiveIndex < 4 ∧ 4 < 6 ∧ 6 ≤ sample.len ∧ sample.get? 5 = some 50 ∧
    ((sample.getPrefix 6).getSuffix 4).get? 5 = some 50 ∧
    ((sample.getPrefix 6).getSuffix 4).get? 3 = none := by decide

end Verif.C34
