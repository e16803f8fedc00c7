import Verif.Betree.Keys
/-
C13. Every key is routed to exactly one child.
-/
namespace Verif.C13
open Verif

/-- `k` is below the element `e` (every key is below `Max`). -/
def Below (k : UInt64) : Element → Prop
  | .max => True
  | .elem e => k < e

/-- `k` is at or above the element `e` (no key is at `Max`). -/
def AtLeast (k : UInt64) (e : Element) : Prop := ¬ Below k e

/-- `k` lies in the `i`-th range of the table: from the `i`-th pivot to just before the next. -/
def InRange (t : PivotTable) (i : Nat) (k : UInt64) : Prop :=
  ∃ lo hi, t.pivots[i]? = some lo ∧ t.pivots[i + 1]? = some hi ∧ AtLeast k lo ∧ Below k hi

/-- `k` lies between the first and the last pivot. -/
def Covered (t : PivotTable) (k : UInt64) : Prop :=
  ∃ lo hi, t.pivots.head? = some lo ∧ t.pivots.getLast? = some hi ∧ AtLeast k lo ∧ Below k hi

theorem below_iff (k : UInt64) (e : Element) : Below k e ↔ k.toNat < e.rank := by
  cases e with
  | max => have := k.toNat_lt; simp only [Below, Element.rank, true_iff]; omega
  | elem x => simp only [Below, Element.rank]; exact UInt64.lt_iff_toNat_lt

theorem atLeast_iff (k : UInt64) (e : Element) : AtLeast k e ↔ e.rank ≤ k.toNat := by
  unfold AtLeast; rw [below_iff]; omega

theorem inRange_iff (t : PivotTable) (i : Nat) (k : UInt64) :
    InRange t i k ↔ i + 1 < t.pivots.length ∧ (t.get i).rank ≤ k.toNat ∧
      k.toNat < (t.get (i + 1)).rank := by
  constructor
  · rintro ⟨lo, hi, h1, h2, h3, h4⟩
    obtain ⟨b1, rfl⟩ := List.getElem?_eq_some_iff.mp h1
    obtain ⟨b2, rfl⟩ := List.getElem?_eq_some_iff.mp h2
    rw [PivotTable.get_eq b1, PivotTable.get_eq b2]
    exact ⟨b2, (atLeast_iff _ _).mp h3, (below_iff _ _).mp h4⟩
  · rintro ⟨h1, h2, h3⟩
    have h0 : i < t.pivots.length := by omega
    rw [PivotTable.get_eq h0] at h2
    rw [PivotTable.get_eq h1] at h3
    exact ⟨_, _, List.getElem?_eq_getElem h0, List.getElem?_eq_getElem h1,
      (atLeast_iff _ _).mpr h2, (below_iff _ _).mpr h3⟩

theorem covered_iff {t : PivotTable} (h : t.WF) (k : UInt64) : Covered t k ↔ t.BoundedKey k := by
  have hl := h.len
  rw [PivotTable.boundedKey_iff, PivotTable.get_eq (by omega), PivotTable.get_eq (by omega)]
  unfold Covered
  rw [List.head?_eq_getElem?, List.getLast?_eq_getElem?, List.getElem?_eq_getElem (by omega),
    List.getElem?_eq_getElem (by omega)]
  constructor
  · rintro ⟨lo, hi, h1, h2, h3, h4⟩
    cases h1; cases h2
    exact ⟨(atLeast_iff _ _).mp h3, (below_iff _ _).mp h4⟩
  · rintro ⟨h1, h2⟩
    exact ⟨_, _, rfl, rfl, (atLeast_iff _ _).mpr h1, (below_iff _ _).mpr h2⟩

/-- A covered key lies in the range `route` returns. -/
theorem route_in_range {t : PivotTable} (h : t.WF) {k : UInt64} (hk : Covered t k) :
    ∃ i, t.route k = (i : Nat) ∧ i < t.numRanges ∧ InRange t i k := by
  obtain ⟨i, h1, h2, h3, h4⟩ := PivotTable.route_lemma h ((covered_iff h k).mp hk)
  exact ⟨i, h1, h2, (inRange_iff t i k).mpr ⟨by unfold PivotTable.numRanges at h2; omega, h3, h4⟩⟩

/-- `route` is right: it returns `i` for a covered key exactly when the key is in range `i`. -/
theorem route_iff {t : PivotTable} (h : t.WF) (i : Nat) (k : UInt64) :
    (Covered t k ∧ t.route k = i) ↔ InRange t i k := by
  constructor
  · rintro ⟨hc, hr⟩
    obtain ⟨j, h1, _, h3⟩ := route_in_range h hc
    have : j = i := by omega
    subst this; exact h3
  · intro hi
    obtain ⟨h1, h2, h3⟩ := (inRange_iff t i k).mp hi
    obtain ⟨a, b⟩ := PivotTable.route_is h (r := i) (by unfold PivotTable.numRanges; omega) h2 h3
    exact ⟨(covered_iff h k).mpr a, b⟩

/-- Every covered key lies in exactly one range; keys that are not covered lie in none. -/
theorem exactly_one_range {t : PivotTable} (h : t.WF) (k : UInt64) :
    (Covered t k → ∃ i, InRange t i k ∧ ∀ j, InRange t j k → j = i) ∧
    (¬ Covered t k → ∀ i, ¬ InRange t i k) := by
  constructor
  · intro hc
    obtain ⟨i, h1, _, h3⟩ := route_in_range h hc
    refine ⟨i, h3, fun j hj => ?_⟩
    have := ((route_iff h j k).mpr hj).2; omega
  · intro hc i hi
    exact hc ((route_iff h i k).mpr hi).1

/-- No range is empty of elements: the pivots increase. (A range can still hold no key only if
its pivots are adjacent, which distinct 64-bit pivots never make empty.) -/
theorem range_inhabited {t : PivotTable} (h : t.WF) {i} (hi : i < t.numRanges) :
    ∃ k, InRange t i k := by
  unfold PivotTable.numRanges at hi
  have hw := (PivotTable.wf_iff t).mp h
  have hne := hw.2.2 i (by omega)
  have hlt := hw.2.1 i (i + 1) (by omega) (by omega)
  cases he : t.get i with
  | max => exact absurd he hne
  | elem x =>
    rw [he] at hlt
    refine ⟨x, (inRange_iff t i x).mpr ⟨by omega, by rw [he]; exact Nat.le_refl _, hlt⟩⟩

/-- A table over the whole key space covers every key. -/
theorem total_covers {t : PivotTable} (h0 : t.pivots.head? = some (.elem 0))
    (h1 : t.pivots.getLast? = some .max) (k : UInt64) : Covered t k :=
  ⟨_, _, h0, h1, by unfold AtLeast Below; exact UInt64.not_lt.mpr (by simp [UInt64.le_iff_toNat_le]), trivial⟩

/-- The two-pivot table of a domain covers exactly the keys from its start to just before its
end, which are the keys the domain contains. -/
theorem domain_table {a b : Element} (h : (Domain.range a b).WF) (k : UInt64) :
    (PivotTable.ofDomain (.range a b)).WF ∧
    (Covered (PivotTable.ofDomain (.range a b)) k ↔ AtLeast k a ∧ Below k b) ∧
    ((Domain.range a b).Contains k ↔ AtLeast k a ∧ Below k b) := by
  refine ⟨PivotTable.wf_of (by simp [PivotTable.ofDomain]) (by simpa [PivotTable.ofDomain] using h.1)
    (by simpa [PivotTable.ofDomain] using h.2), ?_, ?_⟩
  · unfold Covered
    simp [PivotTable.ofDomain]
  · rw [atLeast_iff, below_iff]
    simp only [Domain.Contains, Element.lte_iff, Element.lt_iff, Element.rank_ofKey]

/-- Inserting a legal pivot keeps the table well formed. -/
theorem insert_wf {t : PivotTable} {i e} (h : t.CanInsert i e) : (t.insert i e).WF :=
  PivotTable.insert_wf h

/-- Inserting a legal pivot strictly inside the table subdivides range `i - 1` at `e`, and leaves
every other range alone, shifting the later ones by one. -/
theorem insert_inside {t : PivotTable} {i e} (h : t.CanInsert i e) (h0 : 0 < i)
    (hn : i < t.pivots.length) (j : Nat) (k : UInt64) :
    InRange (t.insert i e) j k ↔
      if j + 1 < i then InRange t j k
      else if j + 1 = i then InRange t j k ∧ Below k e
      else if j = i then InRange t (i - 1) k ∧ AtLeast k e
      else InRange t (j - 1) k := by
  obtain ⟨hw, he, hi, _, _, hm⟩ := h
  obtain ⟨m1, m2⟩ := hm ⟨h0, hn⟩
  rw [Element.lt_iff] at m1 m2
  rw [inRange_iff, PivotTable.insert_length hi, PivotTable.insert_get hi, PivotTable.insert_get hi]
  simp only [inRange_iff, below_iff, atLeast_iff]
  by_cases c1 : j + 1 < i
  · rw [if_pos c1, if_pos c1, if_pos (show j < i by omega)]
    constructor
    · rintro ⟨_, a, b⟩; exact ⟨by omega, a, b⟩
    · rintro ⟨_, a, b⟩; exact ⟨by omega, a, b⟩
  · rw [if_neg c1, if_neg c1]
    by_cases c2 : j + 1 = i
    · rw [if_pos c2, if_pos c2, if_pos (show j < i by omega), c2]
      have : j = i - 1 := by omega
      subst this
      constructor
      · rintro ⟨_, a, b⟩; exact ⟨⟨by omega, a, by omega⟩, b⟩
      · rintro ⟨⟨_, a, _⟩, c⟩; exact ⟨by omega, a, c⟩
    · rw [if_neg c2, if_neg c2, if_neg (show ¬ j < i by omega)]
      by_cases c3 : j = i
      · rw [if_pos c3, if_pos c3]
        subst c3
        rw [show j - 1 + 1 = j from by omega, show j + 1 - 1 = j from by omega]
        constructor
        · rintro ⟨_, a, b⟩; exact ⟨⟨by omega, by omega, b⟩, a⟩
        · rintro ⟨⟨_, _, b⟩, c⟩; exact ⟨by omega, c, b⟩
      · rw [if_neg c3, if_neg c3]
        rw [show j - 1 + 1 = j from by omega, show j + 1 - 1 = j from by omega]
        constructor
        · rintro ⟨_, a, b⟩; exact ⟨by omega, a, b⟩
        · rintro ⟨_, a, b⟩; exact ⟨by omega, a, b⟩

/-- Inserting inside covers the same keys as before. -/
theorem insert_inside_covers {t : PivotTable} {i e} (h : t.CanInsert i e) (h0 : 0 < i)
    (hn : i < t.pivots.length) (k : UInt64) : Covered (t.insert i e) k ↔ Covered t k := by
  have hw := h.1
  have hi := h.2.2.1
  have hl := hw.len
  rw [covered_iff (insert_wf h), covered_iff hw, PivotTable.boundedKey_iff,
    PivotTable.boundedKey_iff, PivotTable.insert_length hi, PivotTable.insert_get hi,
    PivotTable.insert_get hi, if_pos h0, if_neg (by omega), if_neg (by omega)]
  rfl

/-- Inserting at either end adds one range outside the old ones. -/
theorem insert_front {t : PivotTable} {e} (h : t.CanInsert 0 e) (j : Nat) (k : UInt64) :
    InRange (t.insert 0 e) (j + 1) k ↔ InRange t j k := by
  obtain ⟨hw, _, hi, _⟩ := h
  rw [inRange_iff, inRange_iff, PivotTable.insert_length hi, PivotTable.insert_get hi,
    PivotTable.insert_get hi, if_neg (by omega), if_neg (by omega), if_neg (by omega),
    if_neg (by omega)]
  simp only [Nat.add_sub_cancel]
  constructor
  · rintro ⟨_, a⟩; exact ⟨by omega, a⟩
  · rintro ⟨_, a⟩; exact ⟨by omega, a⟩

theorem insert_back {t : PivotTable} {e} (h : t.CanInsert t.pivots.length e) (j : Nat)
    (hj : j < t.numRanges) (k : UInt64) :
    InRange (t.insert t.pivots.length e) j k ↔ InRange t j k := by
  obtain ⟨hw, _, hi, _⟩ := h
  unfold PivotTable.numRanges at hj
  rw [inRange_iff, inRange_iff, PivotTable.insert_length hi, PivotTable.insert_get hi,
    PivotTable.insert_get hi, if_pos (by omega), if_pos (by omega)]
  constructor
  · rintro ⟨_, a⟩; exact ⟨by omega, a⟩
  · rintro ⟨_, a⟩; exact ⟨by omega, a⟩

/-- Concrete table: three ranges over the whole key space, and a legal insertion into the last. -/
def demo : PivotTable := ⟨[.elem 0, .elem 10, .elem 20, .max]⟩

theorem demo_wf : demo.WF := PivotTable.wf_of (by decide) (by decide) (by decide)

example : demo.CanInsert 3 (.elem 30) ∧ Covered demo 25 ∧ demo.route 25 = 2 ∧
    (demo.insert 3 (.elem 30)).route 35 = 3 := by
  refine ⟨⟨demo_wf, by decide, by decide, by decide, by decide, by decide⟩, ?_, by decide,
    by decide⟩
  exact total_covers rfl rfl 25

end Verif.C13
