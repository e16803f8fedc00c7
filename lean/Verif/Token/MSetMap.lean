import Verif.Token.Tokens
/-
Multisets of pairs read as maps: the lemmas of Splinter/src/implementation/MultisetMapRelation_v.rs.
-/
namespace Verif.MSet
variable {K V : Type}

theorem toMap_some {m : MSet (K × V)} {k v} (h : m.toMap k = some v) : m.Has (k, v) := by
  unfold toMap at h
  split at h
  next he => cases h; exact Classical.choose_spec he
  next => cases h

/-- MultisetMapRelation_v.rs `multiset_map_membership` -/
theorem toMap_of_has {m : MSet (K × V)} (hu : m.UniqueKeys) {k v} (h : m.Has (k, v)) :
    m.toMap k = some v := by
  have he : ∃ v, m.Has (k, v) := ⟨v, h⟩
  have := hu.2 _ _ (Classical.choose_spec he) h rfl
  simp only [toMap, dif_pos he]
  rw [show Classical.choose he = v from congrArg Prod.snd this]

theorem toMap_none {m : MSet (K × V)} {k} : m.toMap k = none ↔ ∀ v, ¬ m.Has (k, v) := by
  unfold toMap
  split
  next he => simp only [reduceCtorEq, false_iff]; intro h; obtain ⟨v, hv⟩ := he; exact h v hv
  next he => simp only [true_iff]; exact fun v hv => he ⟨v, hv⟩

theorem toMap_iff {m : MSet (K × V)} (hu : m.UniqueKeys) {k v} : m.toMap k = some v ↔ m.Has (k, v) :=
  ⟨toMap_some, toMap_of_has hu⟩

@[simp] theorem toMap_empty : (empty : MSet (K × V)).toMap = PMap.empty := by
  funext k; exact toMap_none.mpr (fun v => not_has_empty _)

theorem UniqueKeys.le {m n : MSet (K × V)} (hu : n.UniqueKeys) (h : m.Le n) : m.UniqueKeys := by
  have hh : ∀ p, m.Has p → n.Has p := fun p hp => Nat.lt_of_lt_of_le hp (h p)
  exact ⟨fun x => Nat.le_trans (h x) (hu.1 x), fun p q hp hq => hu.2 p q (hh p hp) (hh q hq)⟩

theorem uniqueKeys_empty : (empty : MSet (K × V)).UniqueKeys :=
  ⟨single_empty, fun _ _ h => absurd h (not_has_empty _)⟩

/-- `unique_multiset_insert` -/
theorem UniqueKeys.insert [DecidableEq (K × V)] {m : MSet (K × V)} (hu : m.UniqueKeys) {k v}
    (hk : ∀ p, m.Has p → p.1 ≠ k) : (m.insert (k, v)).UniqueKeys := by
  refine ⟨single_insert hu.1 (fun h => hk _ h rfl), ?_⟩
  intro p q hp hq he
  rcases has_insert.mp hp with rfl | hp <;> rcases has_insert.mp hq with rfl | hq
  · rfl
  · exact absurd he.symm (hk q hq)
  · exact absurd he (hk p hp)
  · exact hu.2 p q hp hq he

theorem remove_le [DecidableEq (K × V)] (m : MSet (K × V)) (x : K × V) : (m.remove x).Le m := by
  intro y; unfold remove; split <;> omega

/-- `unique_multiset_remove` -/
theorem UniqueKeys.remove [DecidableEq (K × V)] {m : MSet (K × V)} (hu : m.UniqueKeys) {x} :
    (m.remove x).UniqueKeys := hu.le (remove_le m x)

/-- `unique_multiset_map_insert_equiv` -/
theorem toMap_insert [DecidableEq K] [DecidableEq (K × V)] {m : MSet (K × V)} (hu : m.UniqueKeys) {k v}
    (hk : ∀ p, m.Has p → p.1 ≠ k) : (m.insert (k, v)).toMap = m.toMap.insert k v := by
  have hu' := hu.insert (v := v) hk
  funext j
  by_cases hj : j = k
  · subst hj; rw [PMap.insert_same]; exact toMap_of_has hu' (has_insert.mpr (.inl rfl))
  · rw [PMap.insert_other _ _ hj]
    cases hm : m.toMap j with
    | some w => exact toMap_of_has hu' (has_insert.mpr (.inr (toMap_some hm)))
    | none =>
      rw [toMap_none] at hm ⊢
      intro w hw
      rcases has_insert.mp hw with he | hw
      · exact hj (congrArg Prod.fst he)
      · exact hm w hw

/-- `unique_multiset_map_remove_equiv` -/
theorem toMap_remove [DecidableEq K] [DecidableEq (K × V)] {m : MSet (K × V)} (hu : m.UniqueKeys) {k v}
    (h : m.Has (k, v)) : (m.remove (k, v)).toMap = m.toMap.remove k := by
  have hu' := hu.remove (x := (k, v))
  funext j
  by_cases hj : j = k
  · subst hj; rw [PMap.remove_same, toMap_none]
    intro w hw
    have hw' := (has_remove hu.1).mp hw
    exact hw'.1 (hu.2 _ _ hw'.2 h rfl)
  · rw [PMap.remove_other _ hj]
    cases hm : m.toMap j with
    | some w =>
      exact toMap_of_has hu' ((has_remove hu.1).mpr ⟨fun he => hj (congrArg Prod.fst he), toMap_some hm⟩)
    | none =>
      rw [toMap_none] at hm ⊢
      exact fun w hw => hm w (has_of_remove hw)

/-- `multiset_map_singleton_ensures` -/
theorem toMap_single [DecidableEq (K × V)] [DecidableEq K] (k : K) (v : V) :
    (single (k, v)).toMap = PMap.empty.insert k v := by
  unfold single
  rw [toMap_insert uniqueKeys_empty (fun p hp => absurd hp (not_has_empty _)), toMap_empty]

theorem has_add {α : Type} {m n : MSet α} {x : α} : (m.add n).Has x ↔ m.Has x ∨ n.Has x := by
  unfold Has add; omega

theorem has_sub {α : Type} {m n : MSet α} (hm : m.Single) {x : α} :
    (m.sub n).Has x ↔ m.Has x ∧ ¬ n.Has x := by
  have := hm x
  unfold Has sub; omega

theorem sub_le {α : Type} (m n : MSet α) : (m.sub n).Le m := fun _ => Nat.sub_le _ _

theorem le_add_left {α : Type} (m n : MSet α) : m.Le (m.add n) := fun _ => Nat.le_add_right _ _
theorem le_add_right {α : Type} (m n : MSet α) : n.Le (m.add n) := fun _ => Nat.le_add_left _ _

theorem toMap_add {m n : MSet (K × V)} (hu : (m.add n).UniqueKeys) :
    (m.add n).toMap = m.toMap.unionRight n.toMap := by
  have hm := hu.le (le_add_left m n)
  have hn := hu.le (le_add_right m n)
  funext k
  simp only [PMap.unionRight]
  cases h : n.toMap k with
  | some v => exact toMap_of_has hu (has_add.mpr (.inr (toMap_some h)))
  | none =>
    cases h' : m.toMap k with
    | some v => exact toMap_of_has hu (has_add.mpr (.inl (toMap_some h')))
    | none =>
      rw [toMap_none] at *
      intro v hv
      rcases has_add.mp hv with hv | hv
      · exact h' v hv
      · exact h v hv

theorem toMap_sub {m n : MSet (K × V)} (hu : m.UniqueKeys) (hn : n.Le m) (k : K) :
    (m.sub n).toMap k = if n.toMap k = none then m.toMap k else none := by
  have hus := hu.le (sub_le m n)
  split
  next h =>
    cases h' : m.toMap k with
    | some v =>
      exact toMap_of_has hus ((has_sub hu.1).mpr ⟨toMap_some h', toMap_none.mp h v⟩)
    | none => exact toMap_none.mpr (fun v hv => toMap_none.mp h' v ((has_sub hu.1).mp hv).1)
  next h =>
    rw [toMap_none]
    intro v hv
    have hv' := (has_sub hu.1).mp hv
    cases hk : n.toMap k with
    | none => exact h hk
    | some w =>
      have hw := toMap_some hk
      have := hu.2 (k, w) (k, v) (Nat.lt_of_lt_of_le hw (hn _)) hv'.1 rfl
      exact hv'.2 (this ▸ hw)

end Verif.MSet
