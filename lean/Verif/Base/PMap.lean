/-
Mathematical maps and sets, as used by the Verus specifications (`vstd::map::Map`,
`vstd::set::Set`). `Map<K,V>` is `K → Option V`, `Set<T>` is `T → Prop`.
No code in /repo is modelled here.
-/
namespace Verif

/-- vstd `Map<K,V>` -/
abbrev PMap (K V : Type) := K → Option V

namespace PMap
variable {K V : Type}

/-- `Map::empty()` -/
def empty : PMap K V := fun _ => none

/-- `m.dom().contains(k)` -/
def Has (m : PMap K V) (k : K) : Prop := m k ≠ none

/-- `m.insert(k, v)` -/
def insert [DecidableEq K] (m : PMap K V) (k : K) (v : V) : PMap K V :=
  fun x => if x = k then some v else m x

/-- `m.remove(k)` -/
def remove [DecidableEq K] (m : PMap K V) (k : K) : PMap K V :=
  fun x => if x = k then none else m x

/-- `m.union_prefer_right(n)` -/
def unionRight (m n : PMap K V) : PMap K V :=
  fun x => match n x with
    | some v => some v
    | none => m x

@[simp] theorem empty_apply (k : K) : (empty : PMap K V) k = none := rfl

@[simp] theorem insert_same [DecidableEq K] (m : PMap K V) (k : K) (v : V) :
    insert m k v k = some v := by simp [insert]

theorem insert_other [DecidableEq K] (m : PMap K V) {k x : K} (v : V) (h : x ≠ k) :
    insert m k v x = m x := by simp [insert, h]

@[simp] theorem remove_same [DecidableEq K] (m : PMap K V) (k : K) :
    remove m k k = none := by simp [remove]

theorem remove_other [DecidableEq K] (m : PMap K V) {k x : K} (h : x ≠ k) :
    remove m k x = m x := by simp [remove, h]

theorem has_iff (m : PMap K V) (k : K) : m.Has k ↔ ∃ v, m k = some v := by
  unfold Has; cases h : m k <;> simp

/-- `Map::new(|k| n.contains_key(k), |k| f(n[k]))` -/
def mapVal {W : Type} (f : V → W) (m : PMap K V) : PMap K W := fun k => (m k).map f

/-- `m.contains_value(v)` -/
def HasValue (m : PMap K V) (v : V) : Prop := ∃ k, m k = some v

/-- `m.is_injective()` -/
def Injective (m : PMap K V) : Prop := ∀ j k v, m j = some v → m k = some v → j = k

open Classical in
/-- `m.remove_keys(s)` -/
noncomputable def removeKeys (m : PMap K V) (s : K → Prop) : PMap K V :=
  fun k => if s k then none else m k

open Classical in
/-- `m.restrict(s)` -/
noncomputable def restrict (m : PMap K V) (s : K → Prop) : PMap K V :=
  fun k => if s k then m k else none

open Classical in
/-- `Map::new(|k| s(k), |k| v)` -/
noncomputable def const (s : K → Prop) (v : V) : PMap K V :=
  fun k => if s k then some v else none

open Classical in
/-- `m.invert()`: picks some key for each value. -/
noncomputable def invert (m : PMap K V) : PMap V K :=
  fun v => if h : ∃ k, m k = some v then some (Classical.choose h) else none

theorem invert_some {m : PMap K V} {v : V} {k : K} (h : m.invert v = some k) : m k = some v := by
  unfold invert at h
  split at h
  next h' => cases h; exact Classical.choose_spec h'
  next => cases h

theorem invert_of {m : PMap K V} (hi : m.Injective) {v : V} {k : K} (h : m k = some v) :
    m.invert v = some k := by
  unfold invert
  rw [dif_pos ⟨k, h⟩]
  exact congrArg some (hi _ _ _ (Classical.choose_spec (⟨k, h⟩ : ∃ k, m k = some v)) h)

theorem invert_iff {m : PMap K V} (hi : m.Injective) {v : V} {k : K} :
    m.invert v = some k ↔ m k = some v := ⟨invert_some, invert_of hi⟩

theorem invert_none {m : PMap K V} {v : V} (h : ∀ k, m k ≠ some v) : m.invert v = none := by
  unfold invert
  rw [dif_neg]; rintro ⟨k, hk⟩; exact h k hk

theorem unionRight_some {m n : PMap K V} {k : K} {v : V} :
    m.unionRight n k = some v ↔ n k = some v ∨ (n k = none ∧ m k = some v) := by
  unfold unionRight; cases n k <;> simp

theorem unionRight_none {m n : PMap K V} {k : K} :
    m.unionRight n k = none ↔ n k = none ∧ m k = none := by
  unfold unionRight; cases n k <;> simp

theorem removeKeys_some {m : PMap K V} {s : K → Prop} {k : K} {v : V} :
    m.removeKeys s k = some v ↔ ¬ s k ∧ m k = some v := by
  unfold removeKeys; by_cases h : s k <;> simp [h]

theorem restrict_some {m : PMap K V} {s : K → Prop} {k : K} {v : V} :
    m.restrict s k = some v ↔ s k ∧ m k = some v := by
  unfold restrict; by_cases h : s k <;> simp [h]

theorem const_some {s : K → Prop} {v w : V} {k : K} :
    const s v k = some w ↔ s k ∧ v = w := by
  unfold const; by_cases h : s k <;> simp [h]

theorem const_none {s : K → Prop} {v : V} {k : K} : const s v k = none ↔ ¬ s k := by
  unfold const; by_cases h : s k <;> simp [h]

end PMap

/-- vstd `Set<T>` -/
abbrev PSet (α : Type) := α → Prop

namespace PSet
variable {α : Type}
/-- `set!{}` -/
def empty : PSet α := fun _ => False
/-- `s.insert(x)` -/
def insert (s : PSet α) (x : α) : PSet α := fun y => y = x ∨ s y
/-- `s.remove(x)` -/
def remove (s : PSet α) (x : α) : PSet α := fun y => s y ∧ y ≠ x

@[simp] theorem empty_apply (x : α) : (empty : PSet α) x = False := rfl
@[simp] theorem insert_apply (s : PSet α) (x y : α) : s.insert x y = (y = x ∨ s y) := rfl
@[simp] theorem remove_apply (s : PSet α) (x y : α) : s.remove x y = (s y ∧ y ≠ x) := rfl
end PSet

end Verif
