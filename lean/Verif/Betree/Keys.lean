import Verif.Spec.Messages
/-
Model of Splinter/src/spec/KeyType_t.rs (comparison and search), betree/Domain_v.rs and
betree/PivotTable_v.rs. Sequence indices (`int`) are `Nat`; search results stay `Int` because
they can be -1.
-/
namespace Verif

namespace KeyT

/-- KeyType_t.rs 71-73 -/
def Lte (a b : Key) : Prop := a ≤ b
/-- KeyType_t.rs 75-78 -/
def Lt (a b : Key) : Prop := Lte a b ∧ a ≠ b

instance (a b : Key) : Decidable (Lte a b) := inferInstanceAs (Decidable (a ≤ b))
instance (a b : Key) : Decidable (Lt a b) := inferInstanceAs (Decidable (_ ∧ _))

/-- KeyType_t.rs 80-82 -/
def StrictlySorted (run : List Key) : Prop :=
  ∀ i j (hj : j < run.length) (hi : i < j), Lt (run[i]'(Nat.lt_trans hi hj)) run[j]

/-- KeyType_t.rs 120-122 -/
def Sorted (run : List Key) : Prop :=
  ∀ i j (hj : j < run.length) (hi : i ≤ j), Lte (run[i]'(Nat.lt_of_le_of_lt hi hj)) run[j]

/-- KeyType_t.rs 91-99 -/
def largestLte : List Key → Key → Int
  | [], _ => -1
  | x :: r, needle => if Lt needle x then -1 else 1 + largestLte r needle

/-- KeyType_t.rs 101-109 -/
def largestLt : List Key → Key → Int
  | [], _ => -1
  | x :: r, needle => if Lte needle x then -1 else 1 + largestLt r needle

/-- KeyType_t.rs 111-118 `map_pivoted_union` -/
def mapPivotedUnion {V} (left : PMap Key V) (pivot : Key) (right : PMap Key V) : PMap Key V :=
  PMap.unionRight (fun k => if Lt k pivot then left k else none)
    (fun k => if Lte pivot k then right k else none)

theorem lte_iff (a b : Key) : Lte a b ↔ a.toNat ≤ b.toNat := UInt64.le_iff_toNat_le
theorem eq_iff (a b : Key) : a = b ↔ a.toNat = b.toNat := UInt64.toNat_inj.symm
theorem lt_iff (a b : Key) : Lt a b ↔ a.toNat < b.toNat := by
  unfold Lt; rw [lte_iff, Ne, eq_iff]; omega
theorem not_lt (a b : Key) : ¬ Lt a b ↔ Lte b a := by rw [lt_iff, lte_iff]; omega
theorem not_lte (a b : Key) : ¬ Lte a b ↔ Lt b a := by rw [lt_iff, lte_iff]; omega

theorem Sorted.tail {x r} (h : Sorted (x :: r)) : Sorted r := by
  intro i j hj hi
  have := h (i + 1) (j + 1) (by simp; omega) (by omega)
  simpa using this

theorem Sorted.head {x r} (h : Sorted (x :: r)) : ∀ y ∈ r, Lte x y := by
  intro y hy
  obtain ⟨i, hi, rfl⟩ := List.getElem_of_mem hy
  have := h 0 (i + 1) (by simp; omega) (by omega)
  simpa using this

theorem StrictlySorted.sorted {run} (h : StrictlySorted run) : Sorted run := by
  intro i j hj hi
  rcases Nat.lt_or_eq_of_le hi with hlt | rfl
  · exact (h i j hj hlt).1
  · exact UInt64.le_refl _

theorem StrictlySorted.tail {x r} (h : StrictlySorted (x :: r)) : StrictlySorted r := by
  intro i j hj hi
  have := h (i + 1) (j + 1) (by simp; omega) (by omega)
  simpa using this

theorem StrictlySorted.head {x r} (h : StrictlySorted (x :: r)) : ∀ y ∈ r, Lt x y := by
  intro y hy
  obtain ⟨i, hi, rfl⟩ := List.getElem_of_mem hy
  have := h 0 (i + 1) (by simp; omega) (by omega)
  simpa using this

/-- Decidable forms, for concrete runs. -/
theorem strictlySorted_iff (run : List Key) : StrictlySorted run ↔ run.Pairwise Lt := by
  rw [List.pairwise_iff_getElem]
  exact ⟨fun h i j _ hj hi => h i j hj hi, fun h i j hj hi => h i j _ hj hi⟩

theorem sorted_iff (run : List Key) : Sorted run ↔ run.Pairwise Lte := by
  rw [List.pairwise_iff_getElem]
  refine ⟨fun h i j _ hj hi => h i j hj (Nat.le_of_lt hi), fun h i j hj hi => ?_⟩
  rcases Nat.lt_or_eq_of_le hi with hlt | rfl
  · exact h i j _ hj hlt
  · exact UInt64.le_refl _

theorem largestLte_bounds (run : List Key) (n : Key) :
    -1 ≤ largestLte run n ∧ largestLte run n < run.length := by
  induction run with
  | nil => simp [largestLte]
  | cons x r ih =>
    simp only [largestLte, List.length_cons]
    split <;> omega

theorem largestLt_bounds (run : List Key) (n : Key) :
    -1 ≤ largestLt run n ∧ largestLt run n < run.length := by
  induction run with
  | nil => simp [largestLt]
  | cons x r ih =>
    simp only [largestLt, List.length_cons]
    split <;> omega

theorem largestLte_iff {run : List Key} (hs : Sorted run) (n : Key) {i} (hi : i < run.length) :
    Lte run[i] n ↔ (i : Int) ≤ largestLte run n := by
  induction run generalizing i with
  | nil => simp at hi
  | cons x r ih =>
    have hb := largestLte_bounds r n
    simp only [largestLte]
    split
    · rename_i hlt
      cases i with
      | zero =>
        simp only [List.getElem_cons_zero]
        rw [lt_iff] at hlt; rw [lte_iff]; omega
      | succ i =>
        simp only [List.getElem_cons_succ]
        have := hs.head (r[i]'(by simpa using hi)) (List.getElem_mem _)
        rw [lt_iff] at hlt; rw [lte_iff] at *; omega
    · rename_i hlt
      cases i with
      | zero =>
        simp only [List.getElem_cons_zero]
        rw [lt_iff] at hlt; rw [lte_iff]; omega
      | succ i =>
        simp only [List.getElem_cons_succ]
        rw [ih hs.tail (by simpa using hi)]
        omega

theorem largestLt_iff {run : List Key} (hs : Sorted run) (n : Key) {i} (hi : i < run.length) :
    Lt run[i] n ↔ (i : Int) ≤ largestLt run n := by
  induction run generalizing i with
  | nil => simp at hi
  | cons x r ih =>
    have hb := largestLt_bounds r n
    simp only [largestLt]
    split
    · rename_i hlt
      cases i with
      | zero =>
        simp only [List.getElem_cons_zero]
        rw [lte_iff] at hlt; rw [lt_iff]; omega
      | succ i =>
        simp only [List.getElem_cons_succ]
        have := hs.head (r[i]'(by simpa using hi)) (List.getElem_mem _)
        rw [lte_iff] at *; rw [lt_iff]; omega
    · rename_i hlt
      cases i with
      | zero =>
        simp only [List.getElem_cons_zero]
        rw [lte_iff] at hlt; rw [lt_iff]; omega
      | succ i =>
        simp only [List.getElem_cons_succ]
        rw [ih hs.tail (by simpa using hi)]
        omega

end KeyT

/-- KeyType_t.rs 45-50 -/
inductive Element where
  | max
  | elem (e : UInt64)
  deriving DecidableEq, Repr

namespace Element

/-- KeyType_t.rs 62-64 `to_element` -/
def ofKey (k : Key) : Element := .elem k

/-- KeyType_t.rs 54-60 `to_key` (arbitrary on `Max` in Rust, 0 here) -/
def toKey : Element → Key
  | .elem e => e
  | .max => 0

/-- KeyType_t.rs 248-251 -/
def Lte (a b : Element) : Prop :=
  b = .max ∨ ∃ x y, a = .elem x ∧ b = .elem y ∧ KeyT.Lte x y

/-- KeyType_t.rs 253-256 -/
def Lt (a b : Element) : Prop := Lte a b ∧ a ≠ b

/-- KeyType_t.rs 298-301 -/
def minElem : Element := .elem 0

/-- Position in the total order, used in proofs only. -/
def rank : Element → Nat
  | .max => 2 ^ 64
  | .elem e => e.toNat

theorem rank_elem_lt (e : UInt64) : rank (.elem e) < 2 ^ 64 := e.toNat_lt

theorem lte_iff (a b : Element) : Lte a b ↔ a.rank ≤ b.rank := by
  cases b with
  | max =>
    simp only [Lte, rank, true_or, true_iff]
    cases a with
    | max => exact Nat.le_refl _
    | elem e => exact Nat.le_of_lt (rank_elem_lt e)
  | elem y =>
    cases a with
    | max =>
      have := rank_elem_lt y
      simp only [Lte, rank, reduceCtorEq, false_or, false_and, exists_false, false_iff] at *; omega
    | elem x =>
      simp only [Lte, rank, reduceCtorEq, false_or]
      constructor
      · rintro ⟨a, b, h1, h2, h⟩; cases h1; cases h2; exact (KeyT.lte_iff _ _).mp h
      · intro h; exact ⟨x, y, rfl, rfl, (KeyT.lte_iff _ _).mpr h⟩

theorem rank_inj {a b : Element} (h : a.rank = b.rank) : a = b := by
  cases a with
  | max =>
    cases b with
    | max => rfl
    | elem y => have := rank_elem_lt y; simp only [rank] at *; omega
  | elem x =>
    cases b with
    | max => have := rank_elem_lt x; simp only [rank] at *; omega
    | elem y => simp only [rank] at h; rw [UInt64.toNat_inj.mp h]

theorem lt_iff (a b : Element) : Lt a b ↔ a.rank < b.rank := by
  unfold Lt
  rw [lte_iff]
  constructor
  · rintro ⟨h1, h2⟩
    rcases Nat.lt_or_eq_of_le h1 with h | h
    · exact h
    · exact absurd (rank_inj h) h2
  · intro h
    refine ⟨Nat.le_of_lt h, ?_⟩
    rintro rfl; omega

instance (a b : Element) : Decidable (Lte a b) := decidable_of_iff _ (lte_iff a b).symm
instance (a b : Element) : Decidable (Lt a b) := decidable_of_iff _ (lt_iff a b).symm

theorem rank_ofKey (k : Key) : (ofKey k).rank = k.toNat := rfl
theorem rank_min : minElem.rank = 0 := rfl
theorem rank_max : max.rank = 2 ^ 64 := rfl

/-- KeyType_t.rs 303-305 -/
def Sorted (run : List Element) : Prop :=
  ∀ i j (hj : j < run.length) (hi : i ≤ j), Lte (run[i]'(Nat.lt_of_le_of_lt hi hj)) run[j]

/-- KeyType_t.rs 307-309 -/
def StrictlySorted (run : List Element) : Prop :=
  ∀ i j (hj : j < run.length) (hi : i < j), Lt (run[i]'(Nat.lt_trans hi hj)) run[j]

/-- KeyType_t.rs 331-339 -/
def largestLte : List Element → Element → Int
  | [], _ => -1
  | x :: r, needle => if Lt needle x then -1 else 1 + largestLte r needle

theorem Sorted.tail {x r} (h : Sorted (x :: r)) : Sorted r := by
  intro i j hj hi
  have := h (i + 1) (j + 1) (by simp; omega) (by omega)
  simpa using this

theorem Sorted.head {x r} (h : Sorted (x :: r)) : ∀ y ∈ r, Lte x y := by
  intro y hy
  obtain ⟨i, hi, rfl⟩ := List.getElem_of_mem hy
  have := h 0 (i + 1) (by simp; omega) (by omega)
  simpa using this

theorem StrictlySorted.sorted {run} (h : StrictlySorted run) : Sorted run := by
  intro i j hj hi
  rcases Nat.lt_or_eq_of_le hi with hlt | rfl
  · exact (h i j hj hlt).1
  · rw [lte_iff]; exact Nat.le_refl _

/-- Decidable form, for concrete runs. -/
theorem strictlySorted_iff (run : List Element) : StrictlySorted run ↔ run.Pairwise Lt := by
  rw [List.pairwise_iff_getElem]
  exact ⟨fun h i j _ hj hi => h i j hj hi, fun h i j hj hi => h i j _ hj hi⟩

theorem largestLte_bounds (run : List Element) (n : Element) :
    -1 ≤ largestLte run n ∧ largestLte run n < run.length := by
  induction run with
  | nil => simp [largestLte]
  | cons x r ih =>
    simp only [largestLte, List.length_cons]
    split <;> omega

theorem largestLte_iff {run : List Element} (hs : Sorted run) (n : Element) {i}
    (hi : i < run.length) : Lte run[i] n ↔ (i : Int) ≤ largestLte run n := by
  induction run generalizing i with
  | nil => simp at hi
  | cons x r ih =>
    have hb := largestLte_bounds r n
    simp only [largestLte]
    split
    · rename_i hlt
      cases i with
      | zero =>
        simp only [List.getElem_cons_zero]
        rw [lt_iff] at hlt; rw [lte_iff]; omega
      | succ i =>
        simp only [List.getElem_cons_succ]
        have := hs.head (r[i]'(by simpa using hi)) (List.getElem_mem _)
        rw [lt_iff] at hlt; rw [lte_iff] at *; omega
    · rename_i hlt
      cases i with
      | zero =>
        simp only [List.getElem_cons_zero]
        rw [lt_iff] at hlt; rw [lte_iff]; omega
      | succ i =>
        simp only [List.getElem_cons_succ]
        rw [ih hs.tail (by simpa using hi)]
        omega

end Element

/-- Domain_v.rs 9-14 -/
inductive Domain where
  | empty
  | range (start stop : Element)
  deriving DecidableEq, Repr

namespace Domain

/-- Domain_v.rs 16-19 -/
def total : Domain := .range .minElem .max

/-- Domain_v.rs 22-28 -/
def WF : Domain → Prop
  | .empty => True
  | .range s e => Element.Lt s e ∧ s ≠ .max

/-- Domain_v.rs 30-35 -/
def Contains : Domain → Key → Prop
  | .empty, _ => False
  | .range s e, k => Element.Lte s (.ofKey k) ∧ Element.Lt (.ofKey k) e

/-- Domain_v.rs 37-43 -/
def Includes : Domain → Domain → Prop
  | .range s e, .range s' e' => Element.Lte s s' ∧ Element.Lte e' e
  | _, _ => False

instance (d : Domain) (k : Key) : Decidable (d.Contains k) := by
  cases d <;> unfold Contains <;> infer_instance

theorem total_contains (k : Key) : total.Contains k := by
  have := k.toNat_lt
  simp only [total, Contains, Element.lte_iff, Element.lt_iff, Element.rank_ofKey,
    Element.rank_min, Element.rank_max]
  omega

theorem Includes.contains {d d' : Domain} (h : d.Includes d') {k} (hk : d'.Contains k) :
    d.Contains k := by
  cases d <;> cases d' <;> simp only [Includes, Contains] at *
  simp only [Element.lte_iff, Element.lt_iff] at *
  omega

end Domain

/-- PivotTable_v.rs 25-27 -/
@[ext] structure PivotTable where
  pivots : List Element
  deriving DecidableEq, Repr

namespace PivotTable

/-- PivotTable_v.rs 29-32 `domain_to_pivots` (arbitrary on the empty domain in Rust) -/
def ofDomain : Domain → PivotTable
  | .range s e => ⟨[s, e]⟩
  | .empty => ⟨[]⟩

/-- PivotTable_v.rs 36-39. Natural subtraction: an empty table (excluded by `WF`) has 0 ranges
instead of -1. -/
def numRanges (t : PivotTable) : Nat := t.pivots.length - 1

/-- PivotTable_v.rs 41-46 -/
def WF (t : PivotTable) : Prop :=
  0 < t.numRanges ∧ Element.StrictlySorted t.pivots ∧
  ∀ i (h : i < t.numRanges), t.pivots[i]'(by unfold numRanges at h; omega) ≠ .max

/-- PivotTable_v.rs 53-58 `spec_index`, total: `Max` outside the table -/
def get (t : PivotTable) (i : Nat) : Element := t.pivots.getD i .max

/-- PivotTable_v.rs 60-64 -/
def update (t : PivotTable) (i : Nat) (e : Element) : PivotTable := ⟨t.pivots.set i e⟩

/-- PivotTable_v.rs 66-70 -/
def subrange (t : PivotTable) (a b : Nat) : PivotTable := ⟨(t.pivots.take b).drop a⟩

/-- PivotTable_v.rs 72-80 -/
def CanInsert (t : PivotTable) (i : Nat) (e : Element) : Prop :=
  t.WF ∧ e ≠ .max ∧ i ≤ t.pivots.length ∧
  (i = 0 → Element.Lt e (t.get 0)) ∧
  (i = t.pivots.length → Element.Lt (t.get (t.pivots.length - 1)) e) ∧
  (0 < i ∧ i < t.pivots.length → Element.Lt (t.get (i - 1)) e ∧ Element.Lt e (t.get i))

/-- PivotTable_v.rs 82-86 -/
def insert (t : PivotTable) (i : Nat) (e : Element) : PivotTable := ⟨t.pivots.insertIdx i e⟩

/-- PivotTable_v.rs 105-111 -/
def BoundedKey (t : PivotTable) (k : Key) : Prop :=
  Element.Lte (t.get 0) (.ofKey k) ∧ Element.Lt (.ofKey k) (t.get (t.pivots.length - 1))

/-- PivotTable_v.rs 113-119 -/
def route (t : PivotTable) (k : Key) : Int := Element.largestLte t.pivots (.ofKey k)

/-- PivotTable_v.rs 143-147 -/
def RangeKeyset (t : PivotTable) (i : Nat) (k : Key) : Prop := t.BoundedKey k ∧ t.route k = i

instance (t : PivotTable) (k : Key) : Decidable (t.BoundedKey k) :=
  inferInstanceAs (Decidable (_ ∧ _))

theorem get_eq {t : PivotTable} {i} (h : i < t.pivots.length) : t.get i = t.pivots[i] := by
  simp [get, List.getD, h]

theorem WF.len {t : PivotTable} (h : t.WF) : 2 ≤ t.pivots.length := by
  have := h.1; unfold numRanges at this; omega

/-- Ranks increase along the table. -/
theorem WF.lt {t : PivotTable} (h : t.WF) {i j} (hi : i < j) (hj : j < t.pivots.length) :
    (t.get i).rank < (t.get j).rank := by
  rw [get_eq hj, get_eq (by omega)]
  exact (Element.lt_iff _ _).mp (h.2.1 i j hj hi)

theorem WF.le {t : PivotTable} (h : t.WF) {i j} (hi : i ≤ j) (hj : j < t.pivots.length) :
    (t.get i).rank ≤ (t.get j).rank := by
  rcases Nat.lt_or_eq_of_le hi with hlt | rfl
  · exact Nat.le_of_lt (h.lt hlt hj)
  · exact Nat.le_refl _

/-- `well-formed` in terms of ranks. -/
theorem wf_iff (t : PivotTable) : t.WF ↔ 2 ≤ t.pivots.length ∧
    (∀ i j, i < j → j < t.pivots.length → (t.get i).rank < (t.get j).rank) ∧
    ∀ i, i + 1 < t.pivots.length → t.get i ≠ .max := by
  constructor
  · intro h
    refine ⟨h.len, fun i j hi hj => h.lt hi hj, fun i hi => ?_⟩
    rw [get_eq (by omega)]
    exact h.2.2 i (by unfold numRanges; omega)
  · rintro ⟨h1, h2, h3⟩
    refine ⟨by unfold numRanges; omega, ?_, ?_⟩
    · intro i j hj hi
      have := h2 i j hi hj
      rw [get_eq hj, get_eq (by omega)] at this
      exact (Element.lt_iff _ _).mpr this
    · intro i hi
      have := h3 i (by unfold numRanges at hi; omega)
      rwa [get_eq (by unfold numRanges at hi; omega)] at this

/-- Decidable form, for concrete tables. -/
theorem wf_of {t : PivotTable} (h1 : 2 ≤ t.pivots.length) (h2 : t.pivots.Pairwise Element.Lt)
    (h3 : ∀ e ∈ t.pivots.dropLast, e ≠ .max) : t.WF := by
  refine ⟨by unfold numRanges; omega, (Element.strictlySorted_iff _).mpr h2, ?_⟩
  intro i hi
  unfold numRanges at hi
  apply h3
  rw [List.mem_iff_getElem]
  exact ⟨i, by simp; omega, by simp⟩

theorem route_le_iff {t : PivotTable} (h : t.WF) (k : Key) {i} (hi : i < t.pivots.length) :
    (t.get i).rank ≤ k.toNat ↔ (i : Int) ≤ t.route k := by
  rw [get_eq hi, ← Element.rank_ofKey, ← Element.lte_iff]
  exact Element.largestLte_iff h.2.1.sorted _ hi

theorem route_bounds (t : PivotTable) (k : Key) : -1 ≤ t.route k ∧ t.route k < t.pivots.length :=
  Element.largestLte_bounds _ _

theorem boundedKey_iff (t : PivotTable) (k : Key) : t.BoundedKey k ↔
    (t.get 0).rank ≤ k.toNat ∧ k.toNat < (t.get (t.pivots.length - 1)).rank := by
  unfold BoundedKey
  rw [Element.lte_iff, Element.lt_iff, Element.rank_ofKey]

/-- PivotTable_v.rs 121-129 `route_lemma` -/
theorem route_lemma {t : PivotTable} (h : t.WF) {k} (hk : t.BoundedKey k) :
    ∃ i, t.route k = (i : Nat) ∧ i < t.numRanges ∧ (t.get i).rank ≤ k.toNat ∧
      k.toNat < (t.get (i + 1)).rank := by
  have hl := h.len
  rw [boundedKey_iff] at hk
  have hb := t.route_bounds k
  have h0 := (route_le_iff h k (i := 0) (by omega)).mp hk.1
  obtain ⟨i, hi⟩ := Int.eq_ofNat_of_zero_le h0
  have hlast : ¬ ((t.pivots.length - 1 : Nat) : Int) ≤ t.route k := by
    rw [← route_le_iff h k (by omega)]; omega
  have hi' : i + 1 < t.pivots.length := by omega
  refine ⟨i, hi, by unfold numRanges; omega, ?_, ?_⟩
  · rw [route_le_iff h k (by omega)]; omega
  · have : ¬ (t.get (i + 1)).rank ≤ k.toNat := by
      rw [route_le_iff h k hi']; omega
    omega

/-- PivotTable_v.rs 131-141 `route_is_lemma` -/
theorem route_is {t : PivotTable} (h : t.WF) {k r} (hr : r < t.numRanges)
    (h1 : (t.get r).rank ≤ k.toNat) (h2 : k.toNat < (t.get (r + 1)).rank) :
    t.BoundedKey k ∧ t.route k = r := by
  have hl := h.len
  unfold numRanges at hr
  have hb := t.route_bounds k
  constructor
  · rw [boundedKey_iff]
    exact ⟨Nat.le_trans (h.le (Nat.zero_le r) (by omega)) h1,
      Nat.lt_of_lt_of_le h2 (h.le (by omega) (by omega))⟩
  · have a1 := (route_le_iff h k (i := r) (by omega)).mp h1
    have a2 : ¬ ((r + 1 : Nat) : Int) ≤ t.route k := by
      rw [← route_le_iff h k (by omega)]; omega
    omega

theorem rangeKeyset_iff {t : PivotTable} (h : t.WF) {k r} (hr : r < t.numRanges) :
    t.RangeKeyset r k ↔ (t.get r).rank ≤ k.toNat ∧ k.toNat < (t.get (r + 1)).rank := by
  constructor
  · rintro ⟨hb, he⟩
    obtain ⟨i, h1, _, h3, h4⟩ := route_lemma h hb
    have : i = r := by omega
    subst this; exact ⟨h3, h4⟩
  · rintro ⟨h1, h2⟩; exact route_is h hr h1 h2

theorem insert_length {t : PivotTable} {i e} (hi : i ≤ t.pivots.length) :
    (t.insert i e).pivots.length = t.pivots.length + 1 := by
  simp [insert, List.length_insertIdx, hi]

theorem insert_get {t : PivotTable} {i e} (hi : i ≤ t.pivots.length) (j : Nat) :
    (t.insert i e).get j = if j < i then t.get j else if j = i then e else t.get (j - 1) := by
  simp only [get, insert, List.getD, List.getElem?_insertIdx]
  split
  · rfl
  · split
    · rw [if_pos (by omega)]; rfl
    · rfl

theorem elem_rank_lt {e : Element} (h : e ≠ .max) : e.rank < 2 ^ 64 := by
  cases e with
  | max => exact absurd rfl h
  | elem x => exact Element.rank_elem_lt x

theorem rank_lt_ne_max {e : Element} (h : e.rank < 2 ^ 64) : e ≠ .max := by
  rintro rfl; exact absurd h (by decide)

/-- PivotTable_v.rs 88-103 `insert_wf` -/
theorem insert_wf {t : PivotTable} {i e} (h : t.CanInsert i e) : (t.insert i e).WF := by
  obtain ⟨hw, he, hi, h0, hn, hm⟩ := h
  have hl := hw.len
  simp only [Element.lt_iff] at h0 hn hm
  rw [wf_iff, insert_length hi]
  refine ⟨by omega, ?_, ?_⟩
  · intro a b hab hb
    rw [insert_get hi, insert_get hi]
    by_cases hb1 : b < i
    · rw [if_pos (by omega), if_pos hb1]; exact hw.lt hab (by omega)
    · rw [if_neg hb1]
      by_cases hb2 : b = i
      · rw [if_pos hb2, if_pos (by omega)]
        by_cases hil : i = t.pivots.length
        · have h1 := hn hil
          have h2 := hw.le (i := a) (j := t.pivots.length - 1) (by omega) (by omega)
          omega
        · have h1 := (hm ⟨by omega, by omega⟩).1
          have h2 := hw.le (i := a) (j := i - 1) (by omega) (by omega)
          omega
      · rw [if_neg hb2]
        by_cases ha1 : a < i
        · rw [if_pos ha1]; exact hw.lt (by omega) (by omega)
        · rw [if_neg ha1]
          by_cases ha2 : a = i
          · rw [if_pos ha2]
            have h2 := hw.le (i := i) (j := b - 1) (by omega) (by omega)
            by_cases hi0 : i = 0
            · have h1 := h0 hi0
              subst hi0; omega
            · have h1 := (hm ⟨by omega, by omega⟩).2
              omega
          · rw [if_neg ha2]; exact hw.lt (by omega) (by omega)
  · intro a ha
    rw [insert_get hi]
    have hw' := (wf_iff t).mp hw
    by_cases ha1 : a < i
    · rw [if_pos ha1]
      by_cases hal : a + 1 < t.pivots.length
      · exact hw'.2.2 a hal
      · have h1 := hn (by omega)
        have h3 := elem_rank_lt he
        have : a = t.pivots.length - 1 := by omega
        subst this
        exact rank_lt_ne_max (by omega)
    · rw [if_neg ha1]
      by_cases ha2 : a = i
      · rw [if_pos ha2]; exact he
      · rw [if_neg ha2]; exact hw'.2.2 _ (by omega)

theorem total_wf : (ofDomain .total).WF := by
  rw [wf_iff]
  refine ⟨by simp [ofDomain, Domain.total], ?_, ?_⟩
  · intro i j hij hj
    have : j < 2 := hj
    have hi : i = 0 := by omega
    have hj : j = 1 := by omega
    subst hi; subst hj
    decide
  · intro i hi
    have : i + 1 < 2 := hi
    have hi : i = 0 := by omega
    subst hi; decide

end PivotTable

end Verif
