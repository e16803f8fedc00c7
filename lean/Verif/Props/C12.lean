import Verif.Betree.Keys
/-
C12. Searching a sorted run finds the right position.

Only `≤` and `<` of 64-bit integers and list indexing are used in the statements.
-/
namespace Verif.C12
open Verif

/-- Entries in nondecreasing order. -/
def Ordered (run : List UInt64) : Prop :=
  ∀ (i j : Nat) (x y : UInt64), i ≤ j → run[i]? = some x → run[j]? = some y → x ≤ y

/-- Entries in increasing order. -/
def StrictlyOrdered (run : List UInt64) : Prop :=
  ∀ (i j : Nat) (x y : UInt64), i < j → run[i]? = some x → run[j]? = some y → x < y

theorem ordered_iff (run : List UInt64) : Ordered run ↔ KeyT.Sorted run := by
  constructor
  · intro h i j hj hi
    exact h i j _ _ hi (List.getElem?_eq_getElem _) (List.getElem?_eq_getElem _)
  · intro h i j x y hij hx hy
    obtain ⟨hi, rfl⟩ := List.getElem?_eq_some_iff.mp hx
    obtain ⟨hj, rfl⟩ := List.getElem?_eq_some_iff.mp hy
    exact h i j hj hij

/-- `out` is -1 or an index, and it is the last one whose entry satisfies `P`: the entries at or
before it do, the entries after it do not. -/
def LastWhere (P : UInt64 → Prop) (run : List UInt64) (out : Int) : Prop :=
  -1 ≤ out ∧ out < run.length ∧
  (∀ (i : Nat) (x : UInt64), run[i]? = some x → (i : Int) ≤ out → P x) ∧
  (∀ (i : Nat) (x : UInt64), run[i]? = some x → out < (i : Int) → ¬ P x)

/-- There is at most one such position. -/
theorem lastWhere_unique {P run a b} (ha : LastWhere P run a) (hb : LastWhere P run b) : a = b := by
  obtain ⟨a1, a2, a3, a4⟩ := ha
  obtain ⟨b1, b2, b3, b4⟩ := hb
  rcases Int.lt_trichotomy a b with h | h | h
  · obtain ⟨n, rfl⟩ := Int.eq_ofNat_of_zero_le (a := b) (by omega)
    exact absurd (b3 n _ (List.getElem?_eq_getElem (by omega)) (Int.le_refl _))
      (a4 n _ (List.getElem?_eq_getElem (by omega)) h)
  · exact h
  · obtain ⟨n, rfl⟩ := Int.eq_ofNat_of_zero_le (a := a) (by omega)
    exact absurd (a3 n _ (List.getElem?_eq_getElem (by omega)) (Int.le_refl _))
      (b4 n _ (List.getElem?_eq_getElem (by omega)) h)

/-- `largest_lte` finds the last entry not above the needle. -/
theorem largestLte_spec {run : List UInt64} (h : Ordered run) (needle : UInt64) :
    LastWhere (· ≤ needle) run (KeyT.largestLte run needle) := by
  have hs := (ordered_iff run).mp h
  obtain ⟨b1, b2⟩ := KeyT.largestLte_bounds run needle
  refine ⟨b1, b2, ?_, ?_⟩ <;> intro i x hx hi <;>
    obtain ⟨hi', rfl⟩ := List.getElem?_eq_some_iff.mp hx
  · exact (KeyT.largestLte_iff hs needle hi').mpr hi
  · intro hc
    have : KeyT.Lte run[i] needle := hc
    rw [KeyT.largestLte_iff hs needle hi'] at this; omega

/-- `largest_lt` finds the last entry below the needle. -/
theorem largestLt_spec {run : List UInt64} (h : Ordered run) (needle : UInt64) :
    LastWhere (· < needle) run (KeyT.largestLt run needle) := by
  have hs := (ordered_iff run).mp h
  obtain ⟨b1, b2⟩ := KeyT.largestLt_bounds run needle
  have hlt : ∀ a b : UInt64, a < b ↔ KeyT.Lt a b := fun a b => by
    rw [KeyT.lt_iff, UInt64.lt_iff_toNat_lt]
  refine ⟨b1, b2, ?_, ?_⟩ <;> intro i x hx hi <;>
    obtain ⟨hi', rfl⟩ := List.getElem?_eq_some_iff.mp hx
  · rw [hlt]; exact (KeyT.largestLt_iff hs needle hi').mpr hi
  · show ¬ run[i] < needle
    rw [hlt, KeyT.largestLt_iff hs needle hi']; omega

/-- If the needle is in the run, `largest_lte` is the index of an entry equal to it. -/
theorem largestLte_found {run : List UInt64} (h : Ordered run) {needle : UInt64}
    (hm : needle ∈ run) :
    ∃ i : Nat, KeyT.largestLte run needle = i ∧ run[i]? = some needle := by
  obtain ⟨n, hn, hx⟩ := List.getElem_of_mem hm
  obtain ⟨b1, b2, b3, b4⟩ := largestLte_spec h needle
  have hle : (n : Int) ≤ KeyT.largestLte run needle := by
    by_cases hc : (n : Int) ≤ KeyT.largestLte run needle
    · exact hc
    · exact absurd (by rw [hx]; exact UInt64.le_refl _) (b4 n _ (List.getElem?_eq_getElem hn) (by omega))
  obtain ⟨i, hi⟩ := Int.eq_ofNat_of_zero_le (a := KeyT.largestLte run needle) (by omega)
  have hil : i < run.length := by omega
  refine ⟨i, hi, ?_⟩
  rw [List.getElem?_eq_getElem hil]
  have h1 := b3 i _ (List.getElem?_eq_getElem hil) (by omega)
  have h2 := h n i _ _ (by omega) (List.getElem?_eq_getElem hn) (List.getElem?_eq_getElem hil)
  rw [hx] at h2
  rw [UInt64.le_antisymm h1 h2]

/-- If the needle is in the run, it is the entry just after `largest_lt`. -/
theorem largestLt_found {run : List UInt64} (h : Ordered run) {needle : UInt64}
    (hm : needle ∈ run) :
    ∃ i : Nat, KeyT.largestLt run needle + 1 = i ∧ run[i]? = some needle := by
  obtain ⟨n, hn, hx⟩ := List.getElem_of_mem hm
  obtain ⟨b1, b2, b3, b4⟩ := largestLt_spec h needle
  have hle : KeyT.largestLt run needle < n := by
    by_cases hc : (n : Int) ≤ KeyT.largestLt run needle
    · have := b3 n _ (List.getElem?_eq_getElem hn) hc
      rw [hx] at this; exact absurd this (UInt64.lt_irrefl _)
    · omega
  obtain ⟨i, hi⟩ := Int.eq_ofNat_of_zero_le (a := KeyT.largestLt run needle + 1) (by omega)
  have hil : i < run.length := by omega
  refine ⟨i, hi, ?_⟩
  rw [List.getElem?_eq_getElem hil]
  have h1 := b4 i _ (List.getElem?_eq_getElem hil) (by omega)
  have h2 := h i n _ _ (by omega) (List.getElem?_eq_getElem hil) (List.getElem?_eq_getElem hn)
  rw [hx] at h2
  rw [UInt64.le_antisymm h2 (UInt64.not_lt.mp h1)]

/-- In a strictly ordered run `largest_lt` of a present needle is one before its
`largest_lte`. -/
theorem largestLt_pred {run : List UInt64} (h : StrictlyOrdered run) {needle : UInt64}
    (hm : needle ∈ run) : KeyT.largestLt run needle + 1 = KeyT.largestLte run needle := by
  have ho : Ordered run := by
    intro i j x y hij hx hy
    rcases Nat.lt_or_eq_of_le hij with hl | rfl
    · exact UInt64.le_of_lt (h i j x y hl hx hy)
    · rw [hx] at hy; cases hy; exact UInt64.le_refl _
  obtain ⟨i, hi, hi'⟩ := largestLte_found ho hm
  obtain ⟨j, hj, hj'⟩ := largestLt_found ho hm
  rcases Nat.lt_trichotomy i j with hl | hl | hl
  · exact absurd (h i j _ _ hl hi' hj') (UInt64.lt_irrefl _)
  · omega
  · exact absurd (h j i _ _ hl hj' hi') (UInt64.lt_irrefl _)

/-- Position among elements: `largest_lte` on elements, where `Max` lies above every key. The
entries at or before the result are the ones not above the needle. -/
theorem element_largestLte_spec {run : List Element} (h : Element.Sorted run) (needle : Element) :
    -1 ≤ Element.largestLte run needle ∧ Element.largestLte run needle < run.length ∧
    ∀ (i : Nat) (x : Element), run[i]? = some x →
      ((i : Int) ≤ Element.largestLte run needle ↔
        match x, needle with
        | _, .max => True
        | .max, .elem _ => False
        | .elem a, .elem b => a ≤ b) := by
  obtain ⟨b1, b2⟩ := Element.largestLte_bounds run needle
  refine ⟨b1, b2, ?_⟩
  intro i x hx
  obtain ⟨hi, rfl⟩ := List.getElem?_eq_some_iff.mp hx
  rw [← Element.largestLte_iff h needle hi]
  generalize run[i] = x
  cases x <;> cases needle <;> simp [Element.Lte, KeyT.Lte]

/-- Concrete run with a repeated entry. -/
example : Ordered [1, 3, 3, 7] ∧ KeyT.largestLte [1, 3, 3, 7] 3 = 2 ∧
    KeyT.largestLt [1, 3, 3, 7] 3 = 0 ∧ KeyT.largestLte [1, 3, 3, 7] 0 = -1 ∧
    KeyT.largestLt [1, 3, 3, 7] 9 = 3 := by
  refine ⟨?_, by decide, by decide, by decide, by decide⟩
  rw [ordered_iff, KeyT.sorted_iff]; decide

/-- Joining two maps at a pivot: keys below it come from the left, the pivot and above from the
right. -/
theorem pivoted_union {V : Type} (l r : PMap UInt64 V) (p k : UInt64) :
    KeyT.mapPivotedUnion l p r k = if k < p then l k else r k := by
  unfold KeyT.mapPivotedUnion PMap.unionRight
  simp only [KeyT.lt_iff, KeyT.lte_iff, UInt64.lt_iff_toNat_lt]
  by_cases h : k.toNat < p.toNat
  · simp [h, Nat.not_le.mpr h]
  · simp [h, Nat.not_lt.mp h]
    cases r k <;> rfl

example : KeyT.mapPivotedUnion (fun k => if k = 5 then some 1 else none) 5
    (fun k => if k = 5 then some 2 else none) 5 = some 2 := by rw [pivoted_union]; decide

end Verif.C12
