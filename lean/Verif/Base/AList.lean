import Verif.Base.PMap
/-
Finite maps as lists of pairs, in the order in which a hash map would give its entries back. Used where
the code has a hash map (`LinearMutableMap`) or a finite map that it counts or walks through.
No code in /repo is modelled here.
-/
set_option linter.unusedSectionVars false
namespace Verif

/-- A finite map, in some order. -/
abbrev AList (K V : Type) := List (K × V)

namespace AList
variable {K V : Type} [DecidableEq K]

/-- The value at a key. -/
def get : AList K V → K → Option V
  | [], _ => none
  | (a, v) :: m, k => if k = a then some v else get m k

/-- Put a value at a key: in its place if the key is there, else at the end. -/
def set : AList K V → K → V → AList K V
  | [], k, w => [(k, w)]
  | (a, v) :: m, k, w => if k = a then (a, w) :: m else (a, v) :: set m k w

/-- Take a key out. -/
def del (m : AList K V) (k : K) : AList K V := m.filter (fun x => decide (x.1 ≠ k))

/-- The keys. -/
def keys (m : AList K V) : List K := m.map (·.1)

/-- The map as a function. -/
def toMap (m : AList K V) : PMap K V := fun k => m.get k

@[simp] theorem get_nil (k : K) : get ([] : AList K V) k = none := rfl

theorem get_cons (a : K) (v : V) (m : AList K V) (k : K) :
    get ((a, v) :: m) k = if k = a then some v else get m k := rfl

theorem get_set (m : AList K V) (k x : K) (w : V) :
    (m.set k w).get x = if x = k then some w else m.get x := by
  induction m with
  | nil => by_cases h : x = k <;> simp [set, get, h]
  | cons a m ih =>
    obtain ⟨a, v⟩ := a
    unfold set
    by_cases hk : k = a
    · subst hk
      rw [if_pos rfl]
      by_cases hx : x = k
      · subst hx; simp [get]
      · simp [get, hx]
    · rw [if_neg hk]
      unfold get
      by_cases hx : x = a
      · subst hx
        rw [if_pos rfl, if_neg (fun h => hk h.symm), if_pos rfl]
      · rw [if_neg hx, if_neg hx, ih]

theorem get_set_same (m : AList K V) (k : K) (w : V) : (m.set k w).get k = some w := by
  rw [get_set, if_pos rfl]

theorem get_set_other (m : AList K V) {k x : K} (w : V) (h : x ≠ k) : (m.set k w).get x = m.get x := by
  rw [get_set, if_neg h]

theorem get_del (m : AList K V) (k x : K) : (m.del k).get x = if x = k then none else m.get x := by
  induction m with
  | nil => simp [del]
  | cons a m ih =>
    obtain ⟨a, v⟩ := a
    unfold del at ih ⊢
    by_cases ha : a = k
    · subst ha
      rw [List.filter_cons_of_neg (by simp), ih]
      by_cases hx : x = a
      · rw [if_pos hx, if_pos hx]
      · rw [if_neg hx, if_neg hx, get_cons, if_neg hx]
    · rw [List.filter_cons_of_pos (by simpa using ha), get_cons, get_cons, ih]
      by_cases hx : x = a
      · subst hx; rw [if_pos rfl, if_neg ha, if_pos rfl]
      · rw [if_neg hx, if_neg hx]

theorem toMap_set (m : AList K V) (k : K) (w : V) : (m.set k w).toMap = m.toMap.insert k w := by
  funext x; unfold toMap PMap.insert; rw [get_set]

theorem toMap_del (m : AList K V) (k : K) : (m.del k).toMap = m.toMap.remove k := by
  funext x; unfold toMap PMap.remove; rw [get_del]

theorem toMap_nil : toMap ([] : AList K V) = .empty := rfl

theorem get_mem {m : AList K V} {k : K} {v : V} (h : m.get k = some v) : (k, v) ∈ m := by
  induction m with
  | nil => cases h
  | cons a m ih =>
    obtain ⟨a, w⟩ := a
    unfold get at h
    split at h
    · rename_i e; subst e; cases h; exact List.mem_cons_self ..
    · exact List.mem_cons_of_mem _ (ih h)

theorem get_none {m : AList K V} {k : K} : m.get k = none ↔ k ∉ m.keys := by
  induction m with
  | nil => simp [keys]
  | cons a m ih =>
    obtain ⟨a, w⟩ := a
    unfold get keys
    by_cases h : k = a
    · subst h; simp
    · rw [if_neg h, ih]; simp [h, keys]

theorem get_keys {m : AList K V} {k : K} : m.get k ≠ none ↔ k ∈ m.keys := by
  rw [ne_eq, get_none, Classical.not_not]

theorem mem_get {m : AList K V} (hn : m.keys.Nodup) {k : K} {v : V} (h : (k, v) ∈ m) :
    m.get k = some v := by
  induction m with
  | nil => cases h
  | cons a m ih =>
    obtain ⟨a, w⟩ := a
    have hn' : a ∉ keys m ∧ (keys m).Nodup := List.nodup_cons.mp hn
    unfold get
    rcases List.mem_cons.mp h with e | h
    · cases e; rw [if_pos rfl]
    · have hk : k ∈ keys m := List.mem_map_of_mem (f := (·.1)) h
      rw [if_neg (fun e : k = a => hn'.1 (e ▸ hk)), ih hn'.2 h]

theorem keys_set (m : AList K V) (k : K) (w : V) :
    (m.set k w).keys = if k ∈ m.keys then m.keys else m.keys ++ [k] := by
  induction m with
  | nil => simp [set, keys]
  | cons a m ih =>
    obtain ⟨a, v⟩ := a
    unfold set
    by_cases h : k = a
    · subst h; simp [keys]
    · rw [if_neg h]
      show a :: keys (set m k w) = _
      rw [ih]
      show _ = if k ∈ a :: keys m then a :: keys m else a :: keys m ++ [k]
      by_cases hk : k ∈ keys m
      · rw [if_pos hk, if_pos (List.mem_cons_of_mem _ hk)]
      · rw [if_neg hk, if_neg (by simp [h, hk])]; rfl

theorem mem_keys_set {m : AList K V} {k x : K} {w : V} : x ∈ (m.set k w).keys ↔ x = k ∨ x ∈ m.keys := by
  rw [← get_keys, ← get_keys, get_set]
  by_cases h : x = k <;> simp [h]

theorem keys_del (m : AList K V) (k : K) : (m.del k).keys = m.keys.filter (fun x => decide (x ≠ k)) := by
  unfold keys del
  rw [List.filter_map]; rfl

theorem nodup_set {m : AList K V} (h : m.keys.Nodup) (k : K) (w : V) : (m.set k w).keys.Nodup := by
  rw [keys_set]
  split
  · exact h
  · rename_i hk
    refine List.nodup_append.mpr ⟨h, by simp, ?_⟩
    intro a ha b hb e
    simp only [List.mem_cons, List.not_mem_nil, or_false] at hb
    subst hb; subst e; exact hk ha

theorem nodup_del {m : AList K V} (h : m.keys.Nodup) (k : K) : (m.del k).keys.Nodup := by
  rw [keys_del]; exact h.sublist List.filter_sublist

theorem length_keys (m : AList K V) : m.keys.length = m.length := List.length_map ..

theorem length_set_mem {m : AList K V} {k : K} (h : m.get k ≠ none) (w : V) :
    (m.set k w).length = m.length := by
  rw [← length_keys, keys_set, if_pos (get_keys.mp h), length_keys]

theorem length_set_new {m : AList K V} {k : K} (h : m.get k = none) (w : V) :
    (m.set k w).length = m.length + 1 := by
  rw [← length_keys, keys_set, if_neg (get_none.mp h), List.length_append, length_keys]; rfl

theorem length_set_le (m : AList K V) (k : K) (w : V) : (m.set k w).length ≤ m.length + 1 := by
  by_cases h : m.get k = none
  · rw [length_set_new h]; exact Nat.le_refl _
  · rw [length_set_mem h]; exact Nat.le_succ _

theorem length_del_le (m : AList K V) (k : K) : (m.del k).length ≤ m.length := List.length_filter_le ..

theorem del_none {m : AList K V} {k : K} (h : m.get k = none) : m.del k = m := by
  unfold del
  refine List.filter_eq_self.mpr fun x hx => ?_
  have : x.1 ∈ m.keys := List.mem_map_of_mem (f := (·.1)) hx
  have hk := get_none.mp h
  simpa using fun e : x.1 = k => hk (e ▸ this)

theorem length_del {m : AList K V} (hn : m.keys.Nodup) {k : K} (h : m.get k ≠ none) :
    (m.del k).length + 1 = m.length := by
  induction m with
  | nil => exact absurd rfl h
  | cons a m ih =>
    obtain ⟨a, v⟩ := a
    have hn' : a ∉ keys m ∧ (keys m).Nodup := List.nodup_cons.mp hn
    by_cases hk : a = k
    · subst hk
      have : del ((a, v) :: m) a = del m a := List.filter_cons_of_neg (by simp)
      rw [this, del_none (get_none.mpr hn'.1)]; rfl
    · have : del ((a, v) :: m) k = (a, v) :: del m k := List.filter_cons_of_pos (by simpa using hk)
      rw [this, List.length_cons, List.length_cons, ih hn'.2]
      unfold get at h
      rwa [if_neg (fun e => hk e.symm)] at h

/-- The sum of a quantity over all entries. -/
def sum (f : V → Nat) (m : AList K V) : Nat := (m.map (fun x => f x.2)).sum

@[simp] theorem sum_nil (f : V → Nat) : sum f ([] : AList K V) = 0 := rfl

theorem sum_cons (f : V → Nat) (a : K × V) (m : AList K V) :
    sum f (a :: m) = f a.2 + sum f m := by simp [sum]

theorem sum_set (f : V → Nat) (m : AList K V) (k : K) (w : V) :
    sum f (m.set k w) + ((m.get k).map f).getD 0 = sum f m + f w := by
  induction m with
  | nil => simp [set, sum]
  | cons a m ih =>
    obtain ⟨a, v⟩ := a
    unfold set get
    by_cases h : k = a
    · subst h
      rw [if_pos rfl, if_pos rfl, sum_cons, sum_cons]
      simp only [Option.map_some, Option.getD_some]; omega
    · rw [if_neg h, if_neg h, sum_cons, sum_cons]
      omega

theorem sum_del (f : V → Nat) {m : AList K V} (hn : m.keys.Nodup) (k : K) :
    sum f (m.del k) + ((m.get k).map f).getD 0 = sum f m := by
  induction m with
  | nil => simp [del]
  | cons a m ih =>
    obtain ⟨a, v⟩ := a
    have hn' : a ∉ keys m ∧ (keys m).Nodup := List.nodup_cons.mp hn
    by_cases hk : a = k
    · subst hk
      have : del ((a, v) :: m) a = del m a := List.filter_cons_of_neg (by simp)
      rw [this, del_none (get_none.mpr hn'.1), sum_cons]
      simp [get]; omega
    · have : del ((a, v) :: m) k = (a, v) :: del m k := List.filter_cons_of_pos (by simpa using hk)
      rw [this, sum_cons, sum_cons]
      unfold get
      rw [if_neg (fun e => hk e.symm)]
      have := ih hn'.2
      omega

theorem sum_pos {f : V → Nat} {m : AList K V} {k : K} {v : V} (h : m.get k = some v) : f v ≤ sum f m := by
  induction m with
  | nil => cases h
  | cons a m ih =>
    obtain ⟨a, w⟩ := a
    rw [sum_cons]
    rw [get_cons] at h
    split at h
    · cases h; exact Nat.le_add_right _ _
    · exact Nat.le_trans (ih h) (Nat.le_add_left _ _)

theorem sum_zero {f : V → Nat} {m : AList K V} (h : sum f m = 0) {k : K} {v : V} (hg : m.get k = some v) :
    f v = 0 := by have := sum_pos (f := f) hg; omega

theorem sum_eq_zero {f : V → Nat} {m : AList K V} (h : ∀ x ∈ m, f x.2 = 0) : sum f m = 0 := by
  induction m with
  | nil => rfl
  | cons a m ih =>
    rw [sum_cons, h a (List.mem_cons_self ..), ih (fun x hx => h x (List.mem_cons_of_mem _ hx))]

/-- Adding up over the entries up to a place. -/
theorem sum_append (f : V → Nat) (m n : AList K V) : sum f (m ++ n) = sum f m + sum f n := by
  simp [sum]

/-- Setting an entry that is there changes no other place in the order. -/
theorem set_take {m : AList K V} {k : K} (h : m.get k ≠ none) (w : V) (i : Nat) (x : K × V)
    (hx : x ∈ (m.set k w).take i) : x = (k, w) ∨ x ∈ m.take i := by
  induction m generalizing i with
  | nil => exact absurd rfl h
  | cons a m ih =>
    obtain ⟨a, v⟩ := a
    cases i with
    | zero => simp at hx
    | succ i =>
      unfold set at hx
      by_cases hk : k = a
      · subst hk
        rw [if_pos rfl, List.take_succ_cons] at hx
        rcases List.mem_cons.mp hx with e | hx
        · exact .inl e
        · exact .inr (List.mem_cons_of_mem _ hx)
      · rw [if_neg hk, List.take_succ_cons] at hx
        rcases List.mem_cons.mp hx with e | hx
        · exact .inr (by rw [e]; exact List.mem_cons_self ..)
        · unfold get at h; rw [if_neg hk] at h
          rcases ih h i hx with e | hx
          · exact .inl e
          · exact .inr (List.mem_cons_of_mem _ hx)

end AList
end Verif
