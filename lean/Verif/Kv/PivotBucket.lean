import Verif.Kv.Pivot
/-
Lemmas on buckets and on routing by pivots. No code is modelled here.
-/
namespace Verif.Kv.Pivot
open Betree (Message)

/-! ### Buckets -/

theorem Bucket.get_mem {b : Bucket} (hs : b.Sorted) {k : Key} {m : Message} (h : (k, m) ∈ b) :
    b.get k = m := by
  have one : ∀ m', (k, m') ∈ b → m' = m := by
    intro m' h'
    by_contra hne
    have hp := List.pairwise_iff_getElem.mp hs
    obtain ⟨i, hi, e1⟩ := List.getElem_of_mem h
    obtain ⟨j, hj, e2⟩ := List.getElem_of_mem h'
    rcases Nat.lt_trichotomy i j with c | c | c
    · have := hp i j hi hj c
      rw [e1, e2] at this
      exact lt_irrefl _ this
    · subst c
      rw [e1] at e2; cases e2; exact hne rfl
    · have := hp j i hj hi c
      rw [e1, e2] at this
      exact lt_irrefl _ this
  unfold Bucket.get
  cases hf : b.reverse.find? (fun x => x.1 == k) with
  | none =>
    have := List.find?_eq_none.mp hf (k, m) (by simpa using h)
    simp at this
  | some x =>
    have h1 := List.find?_some hf
    have h2 := List.mem_of_find?_eq_some hf
    obtain ⟨a, m'⟩ := x
    simp only [beq_iff_eq] at h1
    subst h1
    exact one m' (by simpa using h2)

theorem Bucket.get_none {b : Bucket} {k : Key} (h : ∀ m, (k, m) ∉ b) : b.get k = .update := by
  unfold Bucket.get
  cases hf : b.reverse.find? (fun x => x.1 == k) with
  | none => rfl
  | some x =>
    have h1 := List.find?_some hf
    have h2 := List.mem_of_find?_eq_some hf
    obtain ⟨a, m'⟩ := x
    simp only [beq_iff_eq] at h1
    subst h1
    exact absurd (by simpa using h2) (h m')

theorem Bucket.get_congr {b b' : Bucket} (hs : b.Sorted) (hs' : b'.Sorted) {k k' : Key}
    (h : ∀ m, (k, m) ∈ b ↔ (k', m) ∈ b') : b.get k = b'.get k' := by
  by_cases hm : ∃ m, (k, m) ∈ b
  · obtain ⟨m, hm⟩ := hm
    rw [Bucket.get_mem hs hm, Bucket.get_mem hs' ((h m).mp hm)]
  · rw [Bucket.get_none (fun m hm' => hm ⟨m, hm'⟩),
      Bucket.get_none (fun m hm' => hm ⟨m, (h m).mpr hm'⟩)]

theorem Bucket.get_define {b : Bucket} {k : Key} {v} (h : b.get k = .define v) : (k, .define v) ∈ b := by
  unfold Bucket.get at h
  cases hf : b.reverse.find? (fun x => x.1 == k) with
  | none => rw [hf] at h; cases h
  | some x =>
    have h1 := List.find?_some hf
    have h2 := List.mem_of_find?_eq_some hf
    obtain ⟨a, m'⟩ := x
    simp only [beq_iff_eq] at h1
    subst h1
    rw [hf] at h
    cases h
    simpa using h2

theorem Bucket.mem_left {b : Bucket} (hs : b.Sorted) {p : Key} {x} :
    x ∈ b.left p ↔ x ∈ b ∧ Elem.key x.1 < .key p := by
  induction b with
  | nil => simp [Bucket.left]
  | cons y ys ih =>
    have hy := List.pairwise_cons.mp hs
    have ih := ih hy.2
    unfold Bucket.left at ih ⊢
    by_cases c : Elem.key y.1 < .key p
    · simp only [List.takeWhile_cons, c, decide_true, if_true, List.mem_cons, ih]
      constructor
      · rintro (rfl | h)
        · exact ⟨.inl rfl, c⟩
        · exact ⟨.inr h.1, h.2⟩
      · rintro ⟨rfl | h, h'⟩
        · exact .inl rfl
        · exact .inr ⟨h, h'⟩
    · simp only [List.takeWhile_cons, c, decide_false, Bool.false_eq_true, if_false, List.not_mem_nil,
        List.mem_cons, false_iff]
      rintro ⟨rfl | h, h'⟩
      · exact c h'
      · exact c (lt_trans (hy.1 x h) h')

theorem Bucket.mem_right {b : Bucket} (hs : b.Sorted) {p : Key} {x} :
    x ∈ b.right p ↔ x ∈ b ∧ Elem.key p ≤ .key x.1 := by
  induction b with
  | nil => simp [Bucket.right]
  | cons y ys ih =>
    have hy := List.pairwise_cons.mp hs
    have ih := ih hy.2
    unfold Bucket.right at ih ⊢
    by_cases c : Elem.key y.1 < .key p
    · simp only [List.dropWhile_cons, c, decide_true, if_true, List.mem_cons, ih]
      constructor
      · rintro h
        exact ⟨.inr h.1, h.2⟩
      · rintro ⟨rfl | h, h'⟩
        · exact absurd c (not_lt.mpr h')
        · exact ⟨h, h'⟩
    · simp only [List.dropWhile_cons, c, decide_false, Bool.false_eq_true, if_false]
      constructor
      · rintro h
        refine ⟨h, ?_⟩
        rcases List.mem_cons.mp h with rfl | h
        · exact not_lt.mp c
        · exact le_of_lt (lt_of_le_of_lt (not_lt.mp c) (hy.1 x h))
      · exact fun h => h.1

theorem Bucket.Sorted.left {b : Bucket} (hs : b.Sorted) (p : Key) : (b.left p).Sorted :=
  hs.sublist (List.takeWhile_sublist _)

theorem Bucket.Sorted.right {b : Bucket} (hs : b.Sorted) (p : Key) : (b.right p).Sorted :=
  hs.sublist (List.dropWhile_sublist _)

theorem Bucket.Sorted.nil : Bucket.Sorted [] := List.Pairwise.nil

/-- No entry of a bucket is a mere update. -/
def Bucket.Defs (b : Bucket) : Prop := ∀ x ∈ b, x.2 ≠ .update

theorem merge_ne {m m' : Message} (h : m ≠ .update) : m.merge m' = m := by
  cases m with
  | define v => rfl
  | update => exact absurd rfl h

theorem Bucket.mem_merge (t b : Bucket) (ht : t.Sorted) (hb : b.Sorted) (hd : t.Defs) {x} :
    x ∈ Bucket.merge t b ↔ x ∈ t ∨ (x ∈ b ∧ ∀ m, (x.1, m) ∉ t) := by
  induction t, b using Bucket.merge.induct with
  | case1 b => simp [Bucket.merge]
  | case2 t ht' => simp [Bucket.merge]
  | case3 k m t k' m' b c ih =>
    have ht' := List.pairwise_cons.mp ht
    have hb' := List.pairwise_cons.mp hb
    rw [Bucket.merge, if_pos c, List.mem_cons, ih ht'.2 hb (fun x hx => hd x (by simp [hx]))]
    constructor
    · rintro (rfl | h | ⟨h1, h2⟩)
      · simp
      · exact .inl (by simp [h])
      · refine .inr ⟨h1, fun m0 h0 => ?_⟩
        rcases List.mem_cons.mp h0 with e | h0
        · cases e
          rcases List.mem_cons.mp h1 with rfl | h1
          · exact lt_irrefl _ c
          · exact lt_irrefl _ (lt_trans c (hb'.1 _ h1))
        · exact h2 _ h0
    · rintro (h | ⟨h1, h2⟩)
      · rcases List.mem_cons.mp h with h | h
        · exact .inl h
        · exact .inr (.inl h)
      · exact .inr (.inr ⟨h1, fun m0 h0 => h2 m0 (by simp [h0])⟩)
  | case4 k m t k' m' b c c' ih =>
    have ht' := List.pairwise_cons.mp ht
    have hb' := List.pairwise_cons.mp hb
    rw [Bucket.merge, if_neg c, if_pos c', List.mem_cons, ih ht hb'.2 hd]
    constructor
    · rintro (rfl | h | ⟨h1, h2⟩)
      · refine .inr ⟨by simp, fun m0 h0 => ?_⟩
        rcases List.mem_cons.mp h0 with e | h0
        · cases e; exact lt_irrefl _ c'
        · exact lt_irrefl _ (lt_trans c' (ht'.1 _ h0))
      · exact .inl h
      · exact .inr ⟨by simp [h1], h2⟩
    · rintro (h | ⟨h1, h2⟩)
      · exact .inr (.inl h)
      · rcases List.mem_cons.mp h1 with h | h
        · exact .inl h
        · exact .inr (.inr ⟨h, h2⟩)
  | case5 k m t k' m' b c c' e ih =>
    rw [merge_ne (hd (k, m) (by simp))] at e
    exact absurd e (hd (k, m) (by simp))
  | case6 k m t k' m' b c c' e ih =>
    have ht' := List.pairwise_cons.mp ht
    have hb' := List.pairwise_cons.mp hb
    have hk : k = k' := by
      have := le_antisymm (not_lt.mp c') (not_lt.mp c)
      cases this; rfl
    subst hk
    rw [Bucket.merge, if_neg c, if_neg c', if_neg e, List.mem_cons,
      ih ht'.2 hb'.2 (fun x hx => hd x (by simp [hx])), merge_ne (hd (k, m) (by simp))]
    constructor
    · rintro (rfl | h | ⟨h1, h2⟩)
      · simp
      · exact .inl (by simp [h])
      · refine .inr ⟨by simp [h1], fun m0 h0 => ?_⟩
        rcases List.mem_cons.mp h0 with e | h0
        · cases e; exact lt_irrefl _ (hb'.1 x h1)
        · exact h2 _ h0
    · rintro (h | ⟨h1, h2⟩)
      · rcases List.mem_cons.mp h with h | h
        · exact .inl h
        · exact .inr (.inl h)
      · rcases List.mem_cons.mp h1 with rfl | h
        · exact absurd (by simp) (h2 m)
        · exact .inr (.inr ⟨h, fun m0 h0 => h2 m0 (by simp [h0])⟩)

theorem Bucket.Sorted.merge (t b : Bucket) (ht : t.Sorted) (hb : b.Sorted) (hd : t.Defs) :
    (Bucket.merge t b).Sorted := by
  induction t, b using Bucket.merge.induct with
  | case1 b => simpa [Bucket.merge] using hb
  | case2 t ht' => simpa [Bucket.merge] using ht
  | case3 k m t k' m' b c ih =>
    have ht' := List.pairwise_cons.mp ht
    have hb' := List.pairwise_cons.mp hb
    have hd' : Bucket.Defs t := fun x hx => hd x (by simp [hx])
    rw [Bucket.merge, if_pos c]
    refine List.pairwise_cons.mpr ⟨fun x hx => ?_, ih ht'.2 hb hd'⟩
    rcases (Bucket.mem_merge _ _ ht'.2 hb hd').mp hx with h | ⟨h, _⟩
    · exact ht'.1 x h
    · rcases List.mem_cons.mp h with rfl | h
      · exact c
      · exact lt_trans c (hb'.1 x h)
  | case4 k m t k' m' b c c' ih =>
    have ht' := List.pairwise_cons.mp ht
    have hb' := List.pairwise_cons.mp hb
    rw [Bucket.merge, if_neg c, if_pos c']
    refine List.pairwise_cons.mpr ⟨fun x hx => ?_, ih ht hb'.2 hd⟩
    rcases (Bucket.mem_merge _ _ ht hb'.2 hd).mp hx with h | ⟨h, _⟩
    · rcases List.mem_cons.mp h with rfl | h
      · exact c'
      · exact lt_trans c' (ht'.1 x h)
    · exact hb'.1 x h
  | case5 k m t k' m' b c c' e ih =>
    rw [merge_ne (hd (k, m) (by simp))] at e
    exact absurd e (hd (k, m) (by simp))
  | case6 k m t k' m' b c c' e ih =>
    have ht' := List.pairwise_cons.mp ht
    have hb' := List.pairwise_cons.mp hb
    have hd' : Bucket.Defs t := fun x hx => hd x (by simp [hx])
    have hk : k = k' := by
      have := le_antisymm (not_lt.mp c') (not_lt.mp c)
      cases this; rfl
    subst hk
    rw [Bucket.merge, if_neg c, if_neg c', if_neg e]
    refine List.pairwise_cons.mpr ⟨fun x hx => ?_, ih ht'.2 hb'.2 hd'⟩
    rcases (Bucket.mem_merge _ _ ht'.2 hb'.2 hd').mp hx with h | ⟨h, _⟩
    · exact ht'.1 x h
    · exact hb'.1 x h

theorem Bucket.mem_add {b : Bucket} {k : Key} {v} {x} : x ∈ b.add k (.define v) ↔
    x = (k, .define v) ∨ (x ∈ b ∧ x.1 ≠ k) := by
  have e : (Message.define v).merge (b.get k) = .define v := rfl
  have ne : ∀ a, (Elem.key a < .key k ∨ Elem.key k < .key a) ↔ a ≠ k := fun a => by
    rw [lt_or_lt_iff_ne]
    simp
  simp only [Bucket.add, e, reduceCtorEq, if_false, List.mem_append, List.mem_filter,
    decide_eq_true_eq, List.mem_singleton]
  constructor
  · rintro ((⟨h1, h2⟩ | h) | ⟨h1, h2⟩)
    · exact .inr ⟨h1, (ne _).mp (.inl h2)⟩
    · exact .inl h
    · exact .inr ⟨h1, (ne _).mp (.inr h2)⟩
  · rintro (h | ⟨h1, h2⟩)
    · exact .inl (.inr h)
    · rcases (ne _).mpr h2 with h | h
      · exact .inl (.inl ⟨h1, h⟩)
      · exact .inr ⟨h1, h⟩

theorem Bucket.Sorted.add {b : Bucket} (hs : b.Sorted) (k : Key) (v) : (b.add k (.define v)).Sorted := by
  have e : (Message.define v).merge (b.get k) = .define v := rfl
  unfold Bucket.add Bucket.Sorted
  rw [e, if_neg (by simp), List.append_assoc, List.pairwise_append]
  refine ⟨hs.sublist List.filter_sublist, List.pairwise_append.mpr
    ⟨List.pairwise_singleton _ _, hs.sublist List.filter_sublist, ?_⟩, ?_⟩
  · intro x hx y hy
    rw [List.mem_singleton] at hx; subst hx
    simpa using (List.mem_filter.mp hy).2
  · intro x hx y hy
    have hx' : Elem.key x.1 < .key k := by simpa using (List.mem_filter.mp hx).2
    rcases List.mem_append.mp hy with hy | hy
    · rw [List.mem_singleton] at hy; subst hy; exact hx'
    · have : Elem.key k < .key y.1 := by simpa using (List.mem_filter.mp hy).2
      exact lt_trans hx' this

theorem changePrefix_append (p q s : Key) : changePrefix p q (p ++ s) = q ++ s := by
  simp [changePrefix]

theorem Bucket.mem_translate {b : Bucket} {p q : Key} {x} : x ∈ b.translate p q ↔
    ∃ s, x.1 = q ++ s ∧ (p ++ s, x.2) ∈ b := by
  simp only [Bucket.translate, List.mem_filterMap]
  constructor
  · rintro ⟨y, hy, h⟩
    split at h
    · next c =>
      obtain ⟨s, hs⟩ := List.isPrefixOf_iff_prefix.mp c
      cases h
      refine ⟨s, by simp [← hs], ?_⟩
      rw [hs]
      exact hy
    · cases h
  · rintro ⟨s, h1, h2⟩
    refine ⟨_, h2, ?_⟩
    rw [if_pos (List.isPrefixOf_iff_prefix.mpr (List.prefix_append _ _))]
    obtain ⟨a, m⟩ := x
    simp only at h1
    subst h1
    simp

theorem Bucket.Sorted.translate {b : Bucket} (hs : b.Sorted) (p q : Key) : (b.translate p q).Sorted := by
  unfold Bucket.translate Bucket.Sorted
  rw [List.pairwise_filterMap]
  refine hs.imp ?_
  intro x y hxy a ha b hb
  split at ha
  · next c =>
    split at hb
    · next c' =>
      cases ha; cases hb
      obtain ⟨s, hs⟩ := List.isPrefixOf_iff_prefix.mp c
      obtain ⟨s', hs'⟩ := List.isPrefixOf_iff_prefix.mp c'
      rw [← hs, ← hs', Elem.append_lt] at hxy
      simpa [← hs, ← hs', Elem.append_lt] using hxy
    · cases hb
  · cases ha

/-! ### Routing -/

theorem takeWhile_length {α : Type} {f : α → Bool} : ∀ {l : List α} {n : Nat},
    (∀ j x, j < n → l[j]? = some x → f x = true) → (∀ x, l[n]? = some x → f x = false) →
    n ≤ l.length → (l.takeWhile f).length = n
  | [], n, _, _, h => by simp at h; simp [h]
  | a :: l, 0, _, h2, _ => by
    have := h2 a rfl
    simp [this]
  | a :: l, n + 1, h1, h2, h3 => by
    have ha := h1 0 a (by omega) rfl
    rw [List.takeWhile_cons, if_pos ha, List.length_cons, takeWhile_length (n := n)]
    · intro j x hj hx; exact h1 (j + 1) x (by omega) (by simpa using hx)
    · intro x hx; exact h2 x (by simpa using hx)
    · simpa using h3

theorem getElem?_lt_of_sorted {pt : List Elem} (hs : pt.Pairwise (· < ·)) {i j : Nat} {a b : Elem}
    (hi : pt[i]? = some a) (hj : pt[j]? = some b) (h : i < j) : a < b := by
  obtain ⟨hi', rfl⟩ := List.getElem?_eq_some_iff.mp hi
  obtain ⟨hj', rfl⟩ := List.getElem?_eq_some_iff.mp hj
  exact List.pairwise_iff_getElem.mp hs i j hi' hj' h

theorem getElem?_le_of_sorted {pt : List Elem} (hs : pt.Pairwise (· < ·)) {i j : Nat} {a b : Elem}
    (hi : pt[i]? = some a) (hj : pt[j]? = some b) (h : i ≤ j) : a ≤ b := by
  rcases Nat.lt_or_ge i j with c | c
  · exact le_of_lt (getElem?_lt_of_sorted hs hi hj c)
  · have : i = j := by omega
    subst this
    rw [hi] at hj; cases hj; exact le_refl _

theorem route_eq {pt : List Elem} (hs : pt.Pairwise (· < ·)) {i : Nat} {lo hi : Elem} {k : Key}
    (hl : pt[i]? = some lo) (hh : pt[i + 1]? = some hi) (h : lo ≤ .key k) (h' : .key k < hi) :
    route pt k = i := by
  unfold route
  rw [takeWhile_length (n := i + 1)]
  · omega
  · intro j x hj hx
    simpa using le_trans (getElem?_le_of_sorted hs hx hl (by omega)) h
  · intro x hx
    rw [hh] at hx; cases hx
    simpa using h'
  · have := (List.getElem?_eq_some_iff.mp hh).1; omega

theorem cutoffLeft_eq {pt : List Elem} (hs : pt.Pairwise (· < ·)) {i : Nat} {lo hi : Elem} {k : Key}
    (hl : pt[i]? = some lo) (hh : pt[i + 1]? = some hi) (h : lo < .key k) (h' : .key k ≤ hi) :
    cutoffLeft pt k = i := by
  unfold cutoffLeft
  rw [takeWhile_length (n := i + 1)]
  · omega
  · intro j x hj hx
    simpa using lt_of_le_of_lt (getElem?_le_of_sorted hs hx hl (by omega)) h
  · intro x hx
    rw [hh] at hx; cases hx
    simpa using h'
  · have := (List.getElem?_eq_some_iff.mp hh).1; omega

theorem exists_switch {α : Type} (f : α → Prop) : ∀ {l : List α} {a b : α}, l.head? = some a →
    l.getLast? = some b → f a → ¬ f b → ∃ i x y, l[i]? = some x ∧ l[i + 1]? = some y ∧ f x ∧ ¬ f y
  | [], _, _, h, _, _, _ => by cases h
  | [x], a, b, h1, h2, h3, h4 => by
    cases h1; simp at h2; subst h2; exact absurd h3 h4
  | x :: y :: l, a, b, h1, h2, h3, h4 => by
    cases h1
    by_cases c : f y
    · obtain ⟨i, u, w, e1, e2, e3, e4⟩ := exists_switch f (l := y :: l) (a := y) (b := b) rfl
        (by simpa using h2) c h4
      exact ⟨i + 1, u, w, by simpa using e1, by simpa using e2, e3, e4⟩
    · exact ⟨0, x, y, rfl, rfl, h3, c⟩

theorem Bounded.slot {pt : List Elem} {k : Key} (h : Bounded pt k) : ∃ i lo hi, pt[i]? = some lo ∧
    pt[i + 1]? = some hi ∧ lo ≤ .key k ∧ .key k < hi := by
  obtain ⟨a, b, h1, h2, h3, h4⟩ := h
  obtain ⟨i, x, y, e1, e2, e3, e4⟩ := exists_switch (fun e => e ≤ Elem.key k) h1 h2 h3 (not_le.mpr h4)
  exact ⟨i, x, y, e1, e2, e3, not_le.mp e4⟩

theorem head?_getElem? {α : Type} (l : List α) : l.head? = l[0]? := by cases l <;> rfl

theorem head_le {pt : List Elem} (hs : pt.Pairwise (· < ·)) {i : Nat} {a x : Elem}
    (h : pt.head? = some a) (hx : pt[i]? = some x) : a ≤ x := by
  rw [head?_getElem?] at h
  exact getElem?_le_of_sorted hs h hx (Nat.zero_le _)

theorem le_last {pt : List Elem} (hs : pt.Pairwise (· < ·)) {i : Nat} {b x : Elem}
    (h : pt.getLast? = some b) (hx : pt[i]? = some x) : x ≤ b := by
  rw [List.getLast?_eq_getElem?] at h
  have := (List.getElem?_eq_some_iff.mp hx).1
  exact getElem?_le_of_sorted hs hx h (by omega)

theorem bounded_of_slot {pt : List Elem} (hs : pt.Pairwise (· < ·)) {i j : Nat} {lo hi : Elem} {k : Key}
    (hl : pt[i]? = some lo) (hh : pt[j]? = some hi) (h : lo ≤ .key k) (h' : .key k < hi) :
    Bounded pt k := by
  have hn : pt ≠ [] := by rintro rfl; simp at hl
  refine ⟨pt.head hn, pt.getLast hn, List.head?_eq_some_head hn, List.getLast?_eq_some_getLast hn, ?_, ?_⟩
  · exact le_trans (head_le hs (List.head?_eq_some_head hn) hl) h
  · exact lt_of_lt_of_le h' (le_last hs (List.getLast?_eq_some_getLast hn) hh)

end Verif.Kv.Pivot
