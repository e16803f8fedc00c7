/-
Mathematical multisets, as used by the Verus specifications (`vstd::multiset::Multiset`), as
functions to the number of occurrences. No code in /repo is modelled here.
-/
namespace Verif

/-- vstd `Multiset<V>` (finiteness dropped) -/
abbrev MSet (α : Type) := α → Nat

namespace MSet
variable {α : Type}

/-- `Multiset::empty()` -/
def empty : MSet α := fun _ => 0

/-- `m.contains(x)` -/
def Has (m : MSet α) (x : α) : Prop := 0 < m x

/-- `m.insert(x)` -/
def insert [DecidableEq α] (m : MSet α) (x : α) : MSet α := fun y => if y = x then m y + 1 else m y

/-- `m.remove(x)`: takes one occurrence away if there is one -/
def remove [DecidableEq α] (m : MSet α) (x : α) : MSet α := fun y => if y = x then m y - 1 else m y

/-- `all_elems_single` (MultisetMapRelation_v.rs 10-13) -/
def Single (m : MSet α) : Prop := ∀ x, m x ≤ 1

@[simp] theorem not_has_empty (x : α) : ¬ (empty : MSet α).Has x := by simp [Has, empty]

theorem has_insert [DecidableEq α] {m : MSet α} {x y : α} :
    (m.insert x).Has y ↔ y = x ∨ m.Has y := by
  unfold Has insert; split
  · simp_all
  · simp_all

theorem has_remove [DecidableEq α] {m : MSet α} (h : m.Single) {x y : α} :
    (m.remove x).Has y ↔ y ≠ x ∧ m.Has y := by
  have := h y
  unfold Has remove; split
  · simp_all
  · simp_all

theorem has_of_remove [DecidableEq α] {m : MSet α} {x y : α} (h : (m.remove x).Has y) : m.Has y := by
  unfold Has remove at *; split at h <;> omega

theorem single_empty : (empty : MSet α).Single := fun _ => Nat.zero_le 1

theorem single_insert [DecidableEq α] {m : MSet α} (h : m.Single) {x : α} (hx : ¬ m.Has x) :
    (m.insert x).Single := by
  intro y
  have := h y
  unfold Has at hx; unfold insert; split
  · subst_vars; omega
  · exact this

theorem single_remove [DecidableEq α] {m : MSet α} (h : m.Single) {x : α} : (m.remove x).Single := by
  intro y
  have := h y
  unfold remove; split <;> omega

end MSet
end Verif
