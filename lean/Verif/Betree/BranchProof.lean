import Verif.Betree.Branch
/-
Proofs about B+trees. Specification vocabulary: `BNode.entries`, the pairs in the leaves from left
to right.
-/
namespace Verif

theorem insertIdx_eq {α : Type} {l : List α} {i : Nat} (h : i ≤ l.length) (a : α) :
    l.insertIdx i a = l.take i ++ a :: l.drop i := by
  induction l generalizing i with
  | nil => simp at h; subst h; rfl
  | cons x l ih =>
    cases i with
    | zero => rfl
    | succ i => simp [ih (by simpa using h)]

theorem set_eq {α : Type} {l : List α} {i : Nat} (h : i < l.length) (a : α) :
    l.set i a = l.take i ++ a :: l.drop (i + 1) := by
  rw [List.set_eq_take_append_cons_drop, if_pos h]

theorem exists_last {α : Type} {l : List α} (h : l ≠ []) : ∃ a, l.getLast? = some a :=
  ⟨_, List.getLast?_eq_some_getLast h⟩

theorem split_at {α : Type} {l : List α} {i : Nat} {a : α} (h : l[i]? = some a) :
    l = l.take i ++ a :: l.drop (i + 1) := by
  obtain ⟨hi, rfl⟩ := List.getElem?_eq_some_iff.mp h
  rw [← set_eq hi, List.set_getElem_self]

namespace BNode

/-- Specification: the pairs stored in the leaves, left to right. -/
def entries : BNode → List (Key × Message)
  | leaf ks ms => ks.zip ms
  | index _ cs => cs.attach.flatMap fun ⟨c, _⟩ => entries c

/-- Specification: the tree maps `k` to `m`. -/
def Holds (t : BNode) (k : Key) (m : Message) : Prop := (k, m) ∈ t.entries

theorem entries_index (ps : List Key) (cs : List BNode) :
    (index ps cs).entries = cs.flatMap entries := by
  rw [entries]
  exact List.flatMap_subtype (by intro x h; rfl) |>.trans (by simp)

theorem holds_index {ps : List Key} {cs : List BNode} {k m} :
    (index ps cs).Holds k m ↔ ∃ c ∈ cs, c.Holds k m := by
  unfold Holds; rw [entries_index, List.mem_flatMap]

theorem allKeys_index {ps : List Key} {cs : List BNode} {k} :
    (index ps cs).AllKeys k ↔ k ∈ ps ∨ ∃ c ∈ cs, c.AllKeys k := by
  rw [AllKeys]; simp only [exists_prop]

theorem ind {motive : BNode → Prop} (hl : ∀ ks ms, motive (leaf ks ms))
    (hi : ∀ ps cs, (∀ c ∈ cs, motive c) → motive (index ps cs)) (t : BNode) : motive t :=
  match t with
  | leaf ks ms => hl ks ms
  | index ps cs => hi ps cs (fun c hc => ind hl hi c)
termination_by sizeOf t
decreasing_by
  have := List.sizeOf_lt_of_mem hc
  simp only [index.sizeOf_spec]; omega

/-- The child a key is routed to. -/
def slot (ps : List Key) (k : Key) : Nat := (KeyT.largestLte ps k + 1).toNat

theorem lt_slot {ps : List Key} (hs : KeyT.StrictlySorted ps) {j : Nat} {x k : Key}
    (h : ps[j]? = some x) : j < slot ps k ↔ KeyT.Lte x k := by
  obtain ⟨hj, rfl⟩ := List.getElem?_eq_some_iff.mp h
  rw [KeyT.largestLte_iff hs.sorted k hj]
  have := KeyT.largestLte_bounds ps k
  unfold slot; omega

theorem slot_le (ps : List Key) (k : Key) : slot ps k ≤ ps.length := by
  have := KeyT.largestLte_bounds ps k
  unfold slot; omega

theorem slot_unique {ps : List Key} (hs : KeyT.StrictlySorted ps) {i : Nat} {k : Key}
    (hi : i ≤ ps.length) (h : ∀ j x, ps[j]? = some x → (j < i ↔ KeyT.Lte x k)) :
    slot ps k = i := by
  have h1 := slot_le ps k
  rcases Nat.lt_trichotomy (slot ps k) i with h2 | h2 | h2
  · have hx := List.getElem?_eq_getElem (l := ps) (i := slot ps k) (by omega)
    have := (h _ _ hx).mp h2
    rw [← lt_slot hs hx] at this; omega
  · exact h2
  · have hx := List.getElem?_eq_getElem (l := ps) (i := i) (by omega)
    have := (lt_slot hs hx).mp h2
    rw [← h _ _ hx] at this; omega

theorem wf_leaf {ks ms} : (leaf ks ms).WF ↔
    0 < ks.length ∧ ks.length = ms.length ∧ KeyT.StrictlySorted ks := by rw [WF]

/-- Well-formedness of an index by routing: every key below child `i` is routed to child `i`. -/
theorem wf_index {ps : List Key} {cs : List BNode} : (index ps cs).WF ↔
    ps.length + 1 = cs.length ∧ KeyT.StrictlySorted ps ∧ (∀ c ∈ cs, c.WF) ∧
    ∀ (i : Nat) c x, cs[i]? = some c → c.AllKeys x → slot ps x = i := by
  rw [WF]
  refine and_congr_right fun hl => and_congr_right fun hs => and_congr_right fun _ => ?_
  constructor
  · rintro ⟨h1, h2⟩ i c x hc hx
    obtain ⟨hi, _⟩ := List.getElem?_eq_some_iff.mp hc
    refine slot_unique hs (by omega) fun j p hp => ?_
    constructor
    · intro hj
      have hi' : i = i - 1 + 1 := by omega
      have hpi := List.getElem?_eq_getElem (l := ps) (i := i - 1) (by omega)
      have hlow := h2 (i - 1) c _ (by rw [← hi']; exact hc) hpi x hx
      obtain ⟨hj', rfl⟩ := List.getElem?_eq_some_iff.mp hp
      have := hs.sorted j (i - 1) (by omega) (by omega)
      rw [KeyT.lte_iff] at *; omega
    · intro hpx
      apply Nat.lt_of_not_le
      intro hij
      obtain ⟨hj', rfl⟩ := List.getElem?_eq_some_iff.mp hp
      have hpi := List.getElem?_eq_getElem (l := ps) (i := i) (by omega)
      have hup := h1 i c _ hc hpi x hx
      have := hs.sorted i j (by omega) (by omega)
      rw [KeyT.lte_iff] at *; rw [KeyT.lt_iff] at hup; omega
  · intro h
    refine ⟨fun i c p hc hp k hk => ?_, fun i c p hc hp k hk => ?_⟩
    · have := h i c k hc hk
      have h2 := lt_slot hs hp (k := k)
      rw [← KeyT.not_lte, ← h2]; omega
    · have := h (i + 1) c k hc hk
      rw [← lt_slot hs hp]; omega

theorem entry_key {t : BNode} : ∀ {k m}, t.Holds k m → t.AllKeys k := by
  refine ind (motive := fun t => ∀ {k m}, t.Holds k m → t.AllKeys k) ?_ ?_ t
  · intro ks ms k m h
    rw [AllKeys]
    unfold Holds at h; rw [entries] at h
    exact (List.of_mem_zip h).1
  · intro ps cs ih k m h
    obtain ⟨c, hc, h⟩ := holds_index.mp h
    exact allKeys_index.mpr (.inr ⟨c, hc, ih c hc h⟩)

/-- Every well-formed tree holds something. -/
theorem exists_entry {t : BNode} : t.WF → ∃ k m, t.Holds k m := by
  refine ind (motive := fun t => t.WF → ∃ k m, t.Holds k m) ?_ ?_ t
  · intro ks ms h
    obtain ⟨h1, h2, _⟩ := wf_leaf.mp h
    match ks, ms, h1, h2 with
    | k :: ks, m :: ms, _, _ => exact ⟨k, m, by unfold Holds; rw [entries]; simp⟩
  · intro ps cs ih h
    obtain ⟨h1, _, h3, _⟩ := wf_index.mp h
    match cs, h1 with
    | c :: cs, _ =>
      obtain ⟨k, m, hk⟩ := ih c (by simp) (h3 c (by simp))
      exact ⟨k, m, holds_index.mpr ⟨c, by simp, hk⟩⟩

theorem child_index {ps cs k} : (index ps cs).child k = cs.getD (slot ps k) invalid := rfl

theorem child_some {ps cs} (h : (index ps cs).WF) (k : Key) :
    cs[slot ps k]? = some ((index ps cs).child k) := by
  have := (wf_index.mp h).1
  have h2 := slot_le ps k
  rw [child_index]
  simp [List.getElem?_eq_getElem (l := cs) (i := slot ps k) (by omega)]

theorem child_mem {ps cs} (h : (index ps cs).WF) (k : Key) : (index ps cs).child k ∈ cs :=
  List.mem_of_getElem? (child_some h k)

theorem child_wf {ps cs} (h : (index ps cs).WF) (k : Key) : ((index ps cs).child k).WF :=
  (wf_index.mp h).2.2.1 _ (child_mem h k)

/-- A pair in an index is in the child its key is routed to. -/
theorem holds_child {ps cs} (h : (index ps cs).WF) {k m} :
    (index ps cs).Holds k m ↔ ((index ps cs).child k).Holds k m := by
  constructor
  · intro hk
    obtain ⟨c, hc, hk⟩ := holds_index.mp hk
    obtain ⟨i, hi, rfl⟩ := List.getElem_of_mem hc
    have h1 := (wf_index.mp h).2.2.2 i _ k (List.getElem?_eq_getElem hi) (entry_key hk)
    have h2 := child_some h k
    rw [h1, List.getElem?_eq_getElem hi] at h2
    rw [← Option.some.inj h2]; exact hk
  · intro hk; exact holds_index.mpr ⟨_, child_mem h k, hk⟩

theorem sorted_inj {ks : List Key} (hs : KeyT.StrictlySorted ks) {i j : Nat} {k : Key}
    (hi : ks[i]? = some k) (hj : ks[j]? = some k) : i = j := by
  obtain ⟨hi', h1⟩ := List.getElem?_eq_some_iff.mp hi
  obtain ⟨hj', h2⟩ := List.getElem?_eq_some_iff.mp hj
  rcases Nat.lt_trichotomy i j with h | h | h
  · have := hs i j hj' h
    rw [h1, h2] at this; exact absurd rfl this.2
  · exact h
  · have := hs j i hi' h
    rw [h1, h2] at this; exact absurd rfl this.2

/-- Where a leaf finds a key. -/
theorem leaf_find {ks : List Key} (hs : KeyT.StrictlySorted ks) {i : Nat} {k : Key}
    (h : ks[i]? = some k) : KeyT.largestLte ks k = i := by
  obtain ⟨hi, rfl⟩ := List.getElem?_eq_some_iff.mp h
  have h1 := (KeyT.largestLte_iff hs.sorted ks[i] hi).mp (by rw [KeyT.lte_iff]; omega)
  have hb := KeyT.largestLte_bounds ks ks[i]
  apply Int.le_antisymm _ h1
  apply Int.not_lt.mp
  intro hlt
  have h2 : KeyT.Lte ks[i + 1] ks[i] :=
    (KeyT.largestLte_iff hs.sorted ks[i] (by omega)).mpr (by omega)
  have h3 := hs i (i + 1) (by omega) (by omega)
  rw [KeyT.lte_iff] at h2; rw [KeyT.lt_iff] at h3; omega

theorem holds_leaf {ks : List Key} {ms : List Message} {k m} :
    (leaf ks ms).Holds k m ↔ ∃ i : Nat, ks[i]? = some k ∧ ms[i]? = some m := by
  unfold Holds; rw [entries, List.mem_iff_getElem?]
  refine exists_congr fun i => ?_
  rw [List.getElem?_zip_eq_some]

theorem query_spec {t : BNode} {k : Key} : t.WF → (∀ m, t.Holds k m → t.query k = m) ∧
    ((∀ m, ¬ t.Holds k m) → t.query k = .nop) := by
  refine ind (motive := fun t => t.WF → (∀ m, t.Holds k m → t.query k = m) ∧
    ((∀ m, ¬ t.Holds k m) → t.query k = .nop)) ?_ ?_ t
  · intro ks ms h
    obtain ⟨h1, h2, h3⟩ := wf_leaf.mp h
    rw [query]
    refine ⟨fun m hm => ?_, fun hn => ?_⟩
    · obtain ⟨i, hi, hm⟩ := holds_leaf.mp hm
      have := leaf_find h3 hi
      simp only [this, Int.toNat_natCast]
      rw [if_pos ⟨by omega, hi⟩]
      simp [List.getD, hm]
    · rw [if_neg]
      rintro ⟨h4, h5⟩
      obtain ⟨h6, _⟩ := List.getElem?_eq_some_iff.mp h5
      exact hn _ (holds_leaf.mpr ⟨_, h5, List.getElem?_eq_getElem (by omega)⟩)
  · intro ps cs ih h
    have e : (index ps cs).query k = ((index ps cs).child k).query k := by
      have := child_some h k
      rw [query]
      obtain ⟨h1, h2⟩ := List.getElem?_eq_some_iff.mp this
      rw [← h2]
      have : (KeyT.largestLte ps k + 1).toNat < cs.attach.length := by
        rw [List.length_attach]; exact h1
      rw [List.getElem?_eq_getElem this]
      simp [slot]
    obtain ⟨h1, h2⟩ := ih _ (child_mem h k) (child_wf h k)
    rw [e]
    exact ⟨fun m hm => h1 m ((holds_child h).mp hm), fun hn => h2 fun m hm =>
      hn m ((holds_child h).mpr hm)⟩

theorem holds_functional {t : BNode} (h : t.WF) {k m m'} (h1 : t.Holds k m) (h2 : t.Holds k m') :
    m = m' := by
  rw [← (query_spec h).1 m h1, (query_spec h).1 m' h2]

end BNode

/-! ### Paths -/

namespace BPath
open BNode

/-- `x` takes the same way down as `key`, `d` steps. -/
def Same (t : BNode) (key x : Key) : Nat → Prop
  | 0 => True
  | d + 1 => t.route x = t.route key ∧ Same (t.child key) key x d

theorem route_child {ps : List Key} {cs : List BNode} {x k : Key}
    (h : slot ps x = slot ps k) : (index ps cs).route x = (index ps cs).route k := by
  have h1 := KeyT.largestLte_bounds ps x
  have h2 := KeyT.largestLte_bounds ps k
  unfold slot at h
  show KeyT.largestLte ps x = KeyT.largestLte ps k
  omega

theorem slot_of_route {ps : List Key} {cs : List BNode} {x k : Key}
    (h : (index ps cs).route x = (index ps cs).route k) : slot ps x = slot ps k := by
  have h : KeyT.largestLte ps x = KeyT.largestLte ps k := h
  unfold slot; rw [h]

theorem same_self (t : BNode) (key : Key) : ∀ d, Same t key key d
  | 0 => trivial
  | d + 1 => ⟨rfl, same_self (t.child key) key d⟩

theorem target_wf {key : Key} : ∀ (d : Nat) {t : BNode}, ValidFrom t key d → (targetFrom t key d).WF
  | 0, _, h => h
  | d + 1, t, h => target_wf d (t := t.child key) h.2.2

theorem valid_wf {key : Key} : ∀ {d : Nat} {t : BNode}, ValidFrom t key d → t.WF
  | 0, _, h => h
  | _ + 1, _, h => h.1

/-- Keys below the target take the path. -/
theorem target_keys {key x : Key} : ∀ (d : Nat) {t : BNode}, ValidFrom t key d →
    (targetFrom t key d).AllKeys x → Same t key x d ∧ t.AllKeys x
  | 0, _, _, hx => ⟨trivial, hx⟩
  | d + 1, .leaf _ _, h, _ => absurd h.2.1 (fun h => h)
  | d + 1, .index ps cs, h, hx => by
    obtain ⟨h1, h2⟩ := target_keys d h.2.2 hx
    refine ⟨⟨?_, h1⟩, allKeys_index.mpr (.inr ⟨_, child_mem h.1 key, h2⟩)⟩
    exact route_child ((wf_index.mp h.1).2.2.2 _ _ x (child_some h.1 key) h2)

/-- A pair on the path is in the target. -/
theorem target_holds {key k : Key} {m : Message} : ∀ (d : Nat) {t : BNode}, ValidFrom t key d →
    Same t key k d → (t.Holds k m ↔ (targetFrom t key d).Holds k m)
  | 0, _, _, _ => Iff.rfl
  | d + 1, .leaf _ _, h, _ => absurd h.2.1 (fun h => h)
  | d + 1, .index ps cs, h, hs => by
    rw [holds_child h.1]
    have : (index ps cs).child k = (index ps cs).child key := by
      rw [child_index, child_index, slot_of_route hs.1]
    rw [this]
    exact target_holds d h.2.2 hs.2

/-- Replacing the target by a tree whose keys belong there keeps the tree well formed. -/
theorem substitute_wf {key : Key} {n : BNode} (hn : n.WF) : ∀ (d : Nat) {t : BNode},
    ValidFrom t key d → (∀ x, n.AllKeys x → Same t key x d) →
    (substituteFrom t key n d).WF ∧
    (∀ x, (substituteFrom t key n d).AllKeys x → t.AllKeys x ∨ n.AllKeys x)
  | 0, _, _, _ => ⟨hn, fun _ h => .inr h⟩
  | d + 1, .leaf _ _, h, _ => absurd h.2.1 (fun h => h)
  | d + 1, .index ps cs, h, hs => by
    obtain ⟨h1, h2⟩ := substitute_wf hn d h.2.2 (fun x hx => (hs x hx).2)
    obtain ⟨w1, w2, w3, w4⟩ := wf_index.mp h.1
    have hslot := child_some h.1 key
    refine ⟨wf_index.mpr ⟨(by rw [List.length_set]; exact w1), w2, ?_, ?_⟩, ?_⟩
    · intro c hc
      rcases List.mem_or_eq_of_mem_set hc with hc | rfl
      · exact w3 c hc
      · exact h1
    · intro i c x hc hx
      rw [List.getElem?_set] at hc
      by_cases hi : (BNode.route (index ps cs) key + 1).toNat = i
      · rw [if_pos hi] at hc
        have hi : slot ps key = i := hi
        split at hc
        · cases hc
          rcases h2 x hx with h3 | h3
          · rw [← hi]; exact w4 _ _ x hslot h3
          · rw [← hi]; exact slot_of_route (hs x h3).1
        · cases hc
      · rw [if_neg hi] at hc
        exact w4 i c x hc hx
    · intro x hx
      rcases allKeys_index.mp hx with hx | ⟨c, hc, hx⟩
      · exact .inl (allKeys_index.mpr (.inl hx))
      · rcases List.mem_or_eq_of_mem_set hc with hc | rfl
        · exact .inl (allKeys_index.mpr (.inr ⟨c, hc, hx⟩))
        · rcases h2 x hx with h3 | h3
          · exact .inl (allKeys_index.mpr (.inr ⟨_, child_mem h.1 key, h3⟩))
          · exact .inr h3

/-- What lies left and right of the target stays in place. -/
theorem substitute_entries {key : Key} : ∀ (d : Nat) {t : BNode}, ValidFrom t key d →
    ∃ pre post, t.entries = pre ++ (targetFrom t key d).entries ++ post ∧
      ∀ n, (substituteFrom t key n d).entries = pre ++ n.entries ++ post
  | 0, t, _ => ⟨[], [], by simp [targetFrom], fun n => by simp [substituteFrom]⟩
  | d + 1, .leaf _ _, h => absurd h.2.1 (fun h => h)
  | d + 1, .index ps cs, h => by
    obtain ⟨pre, post, h1, h2⟩ := substitute_entries d h.2.2
    have hslot := child_some h.1 key
    have hlt := (List.getElem?_eq_some_iff.mp hslot).1
    refine ⟨(cs.take (slot ps key)).flatMap entries ++ pre,
      post ++ (cs.drop (slot ps key + 1)).flatMap entries, ?_, fun n => ?_⟩
    · rw [entries_index]
      have e := split_at hslot
      have e2 := congrArg (List.flatMap entries) e
      rw [e2, List.flatMap_append, List.flatMap_cons, h1]
      simp [List.append_assoc, targetFrom]
    · have e : substituteFrom (.index ps cs) key n (d + 1) = .index ps
          (cs.set (slot ps key) (substituteFrom ((index ps cs).child key) key n d)) := rfl
      rw [e, entries_index, set_eq hlt, List.flatMap_append, List.flatMap_cons, h2]
      simp [List.append_assoc]

/-- The target of the new tree is the replacement. -/
theorem substitute_target {key : Key} {n : BNode} : ∀ (d : Nat) {t : BNode}, ValidFrom t key d →
    targetFrom (substituteFrom t key n d) key d = n
  | 0, _, _ => rfl
  | d + 1, .leaf _ _, h => absurd h.2.1 (fun h => h)
  | d + 1, .index ps cs, h => by
    have hlt := (List.getElem?_eq_some_iff.mp (child_some h.1 key)).1
    show targetFrom ((index ps (cs.set (slot ps key) _)).child key) key d = n
    rw [child_index]
    simp only [List.getD, List.getElem?_set_self hlt, Option.getD_some]
    exact substitute_target d h.2.2

/-- The path is valid in the new tree. -/
theorem substitute_valid {key : Key} {n : BNode} (hn : n.WF) : ∀ (d : Nat) {t : BNode},
    ValidFrom t key d → (∀ x, n.AllKeys x → Same t key x d) →
    ValidFrom (substituteFrom t key n d) key d
  | 0, _, _, _ => hn
  | d + 1, .leaf _ _, h, _ => absurd h.2.1 (fun h => h)
  | d + 1, .index ps cs, h, hs => by
    have hlt := (List.getElem?_eq_some_iff.mp (child_some h.1 key)).1
    refine ⟨(substitute_wf hn (d + 1) h hs).1, trivial, ?_⟩
    show ValidFrom ((index ps (cs.set (slot ps key) _)).child key) key d
    rw [child_index]
    simp only [List.getD, List.getElem?_set_self hlt, Option.getD_some]
    exact substitute_valid hn d h.2.2 (fun x hx => (hs x hx).2)

end BPath

namespace BNode

/-! ### Insertion -/

theorem getElem?_insertIdx' {α : Type} {l : List α} {i : Nat} (h : i ≤ l.length) (a : α) (q : Nat) :
    (l.insertIdx i a)[q]? = if q < i then l[q]? else if q = i then some a else l[q - 1]? := by
  rw [insertIdx_eq h, List.getElem?_append]
  have hl : (l.take i).length = i := by rw [List.length_take]; omega
  rw [hl]
  by_cases h1 : q < i
  · simp [h1]
  · by_cases h2 : q = i
    · simp [h2]
    · have : q - i = (q - i - 1) + 1 := by omega
      rw [if_neg h1, if_neg h1, if_neg h2, this, List.getElem?_cons_succ, List.getElem?_drop]
      congr 1; omega

theorem zip_insertIdx {α β : Type} : ∀ {as : List α} {bs : List β} {i : Nat} (a : α) (b : β),
    as.length = bs.length → i ≤ as.length →
    (as.insertIdx i a).zip (bs.insertIdx i b) = (as.zip bs).insertIdx i (a, b)
  | _, _, 0, _, _, _, _ => rfl
  | [], _, _ + 1, _, _, _, h => by simp at h
  | x :: as, [], _ + 1, _, _, h, _ => by simp at h
  | x :: as, y :: bs, i + 1, a, b, h, hi => by
    simp only [List.insertIdx_succ_cons, List.zip_cons_cons]
    rw [zip_insertIdx a b (by simpa using h) (by simpa using hi)]

theorem sorted_insertIdx {ks : List Key} (hs : KeyT.StrictlySorted ks) {i : Nat} {k : Key}
    (hi : i ≤ ks.length) (h1 : ∀ j x, ks[j]? = some x → j < i → KeyT.Lt x k)
    (h2 : ∀ j x, ks[j]? = some x → i ≤ j → KeyT.Lt k x) :
    KeyT.StrictlySorted (ks.insertIdx i k) := by
  rw [KeyT.strictlySorted_iff] at hs ⊢
  rw [insertIdx_eq hi]
  rw [← List.take_append_drop i ks, List.pairwise_append] at hs
  rw [List.pairwise_append, List.pairwise_cons]
  have t1 : ∀ x ∈ ks.take i, KeyT.Lt x k := by
    intro x hx
    obtain ⟨j, hj⟩ := List.mem_iff_getElem?.mp hx
    rw [List.getElem?_take] at hj
    split at hj
    · exact h1 j x hj (by assumption)
    · cases hj
  have t2 : ∀ x ∈ ks.drop i, KeyT.Lt k x := by
    intro x hx
    obtain ⟨j, hj⟩ := List.mem_iff_getElem?.mp hx
    rw [List.getElem?_drop] at hj
    exact h2 _ x hj (by omega)
  refine ⟨hs.1, ⟨t2, hs.2.1⟩, ?_⟩
  intro a ha b hb
  rcases List.mem_cons.mp hb with rfl | hb
  · exact t1 a ha
  · exact hs.2.2 a ha b hb

/-- Replacing or inserting a pair in a leaf. -/
theorem insertLeaf_spec {ks ms} (h : (leaf ks ms).WF) (k : Key) (m : Message) :
    ((leaf ks ms).insertLeaf k m).WF ∧
    (∀ x, ((leaf ks ms).insertLeaf k m).AllKeys x → x = k ∨ (leaf ks ms).AllKeys x) ∧
    ∀ k' m', ((leaf ks ms).insertLeaf k m).Holds k' m' ↔
      if k' = k then m' = m else (leaf ks ms).Holds k' m' := by
  obtain ⟨h1, h2, h3⟩ := wf_leaf.mp h
  have hb := KeyT.largestLte_bounds ks k
  unfold insertLeaf
  simp only [show (leaf ks ms).route k = KeyT.largestLte ks k from rfl,
    show (leaf ks ms).keys = ks from rfl, show (leaf ks ms).msgs = ms from rfl]
  generalize hr : KeyT.largestLte ks k = r at *
  by_cases hp : 0 ≤ r ∧ ks[r.toNat]? = some k
  · rw [if_pos hp]
    have hlt := (List.getElem?_eq_some_iff.mp hp.2).1
    refine ⟨wf_leaf.mpr ⟨h1, by simpa using h2, h3⟩, fun x hx => .inr ?_, fun k' m' => ?_⟩
    · rw [AllKeys] at hx ⊢; exact hx
    · rw [holds_leaf, holds_leaf]
      by_cases hk : k' = k
      · subst hk
        simp only [if_pos]
        constructor
        · rintro ⟨i, hi, hm⟩
          have := sorted_inj h3 hi hp.2
          subst this
          rw [List.getElem?_set_self (by omega)] at hm
          exact (Option.some.inj hm).symm
        · rintro rfl
          exact ⟨_, hp.2, List.getElem?_set_self (by omega)⟩
      · rw [if_neg hk]
        refine exists_congr fun i => and_congr_right fun hi => ?_
        rw [List.getElem?_set_ne]
        rintro rfl
        rw [hp.2] at hi; exact hk (Option.some.inj hi).symm
  · rw [if_neg hp]
    have hfind := fun (j : Nat) (hj : j < ks.length) => KeyT.largestLte_iff h3.sorted k hj
    rw [hr] at hfind
    have hi : (r + 1).toNat ≤ ks.length := by omega
    have hsort : KeyT.StrictlySorted (ks.insertIdx (r + 1).toNat k) := by
      refine sorted_insertIdx h3 hi ?_ ?_
      · intro j x hx hj
        obtain ⟨hj', rfl⟩ := List.getElem?_eq_some_iff.mp hx
        refine ⟨(hfind j hj').mpr (by omega), ?_⟩
        intro he
        have hjr : (j : Int) ≠ r := by
          intro e
          apply hp
          rw [← e]
          exact ⟨by omega, by rw [Int.toNat_natCast, hx, he]⟩
        have h4 := (hfind r.toNat (by omega)).mpr (by omega)
        have h5 := h3 j r.toNat (by omega) (by omega)
        rw [he, KeyT.lt_iff] at h5
        rw [KeyT.lte_iff] at h4
        omega
      · intro j x hx hj
        obtain ⟨hj', rfl⟩ := List.getElem?_eq_some_iff.mp hx
        rw [← KeyT.not_lte, hfind j hj']
        omega
    have hholds : ∀ k' m', (leaf (ks.insertIdx (r + 1).toNat k)
        (ms.insertIdx (r + 1).toNat m)).Holds k' m' ↔
        (k' = k ∧ m' = m) ∨ (leaf ks ms).Holds k' m' := by
      intro k' m'
      unfold Holds
      rw [entries, entries, zip_insertIdx k m h2 hi, List.mem_insertIdx (by rw [List.length_zip]; omega)]
      simp
    have hnew : ∀ m', ¬ (leaf ks ms).Holds k m' := by
      intro m' hm
      obtain ⟨i, hi, _⟩ := holds_leaf.mp hm
      have := leaf_find h3 hi
      rw [hr] at this
      exact hp ⟨by omega, by rw [this, Int.toNat_natCast]; exact hi⟩
    refine ⟨wf_leaf.mpr ⟨?_, ?_, hsort⟩, fun x hx => ?_, fun k' m' => ?_⟩
    · rw [List.length_insertIdx_of_le_length hi]; omega
    · rw [List.length_insertIdx_of_le_length hi, List.length_insertIdx_of_le_length (by omega)]
      omega
    · rw [AllKeys] at hx ⊢
      exact (List.mem_insertIdx hi).mp hx
    · rw [hholds]
      by_cases hk : k' = k
      · subst hk; simp [hnew]
      · simp [hk]

theorem insert_spec {t : BNode} {k : Key} {m : Message} {p : BPath} (h : t.CanInsert k p) :
    (t.insert k m p).WF ∧ ∀ k' m', (t.insert k m p).Holds k' m' ↔
      if k' = k then m' = m else t.Holds k' m' := by
  obtain ⟨h1, h2, rfl, rfl, h5⟩ := h
  obtain ⟨node, key, d⟩ := p
  have hw := BPath.target_wf d h2
  unfold insert BPath.substitute BPath.target
  simp only
  simp only [BPath.target] at h5
  have hkeys := fun x => BPath.target_keys (x := x) d h2
  have htgt := fun m => BPath.target_holds (k := key) (m := m) d h2 (BPath.same_self node key d)
  generalize htt : BPath.targetFrom node key d = tt at *
  match tt, h5 with
  | leaf ks ms, _ =>
    obtain ⟨s1, s2, s3⟩ := insertLeaf_spec hw key m
    generalize (leaf ks ms).insertLeaf key m = n at *
    have hsame : ∀ x, n.AllKeys x → BPath.Same node key x d := by
      intro x hx
      rcases s2 x hx with rfl | hx
      · exact BPath.same_self _ _ d
      · exact (hkeys x hx).1
    have w := (BPath.substitute_wf s1 d h2 hsame).1
    refine ⟨w, fun k' m' => ?_⟩
    obtain ⟨pre, post, e1, e2⟩ := BPath.substitute_entries d h2
    by_cases hk : k' = key
    · subst hk
      have v := BPath.substitute_valid s1 d h2 hsame
      rw [BPath.target_holds d v (BPath.same_self _ _ d), BPath.substitute_target d h2, s3]
      simp
    · have s4 := s3 k' m'
      rw [if_neg hk] at s4 ⊢
      unfold Holds at s4 ⊢
      rw [e2, e1, htt]
      simp only [List.mem_append]
      rw [s4]

/-! ### Appending -/

theorem slot_mono {ps : List Key} (hs : KeyT.StrictlySorted ps) {a b : Key} (h : KeyT.Lte a b) :
    slot ps a ≤ slot ps b := by
  apply Nat.le_of_not_lt
  intro hlt
  have hle := slot_le ps a
  have hx := List.getElem?_eq_getElem (l := ps) (i := slot ps b) (by omega)
  have h1 := (lt_slot hs hx).mp hlt
  have : ¬ KeyT.Lte ps[slot ps b] b := fun h2 => by
    have := (lt_slot (k := b) hs hx).mpr h2
    omega
  rw [KeyT.lte_iff] at *
  omega

/-- Keys between two keys of a path are on the path. -/
theorem same_between {key last x : Key} (h1 : KeyT.Lte key x) (h2 : KeyT.Lte x last) :
    ∀ (d : Nat) {t : BNode}, BPath.ValidFrom t key d → BPath.EquivFrom t key last d →
    BPath.Same t key x d
  | 0, _, _, _ => trivial
  | d + 1, .leaf _ _, h, _ => absurd h.2.1 (fun h => h)
  | d + 1, .index ps cs, h, he => by
    have hs := (wf_index.mp h.1).2.1
    refine ⟨BPath.route_child ?_, same_between h1 h2 d h.2.2 he.2⟩
    have e := BPath.slot_of_route (cs := cs) he.1
    have m1 := slot_mono hs h1
    have m2 := slot_mono hs h2
    omega

theorem head_lte {ks : List Key} (hs : KeyT.StrictlySorted ks) {a x : Key}
    (ha : ks[0]? = some a) (hx : x ∈ ks) : KeyT.Lte a x := by
  obtain ⟨j, hj, rfl⟩ := List.getElem_of_mem hx
  obtain ⟨h0, rfl⟩ := List.getElem?_eq_some_iff.mp ha
  exact hs.sorted 0 j (by omega) (by omega)

theorem lte_last {ks : List Key} (hs : KeyT.StrictlySorted ks) {b x : Key}
    (hb : ks.getLast? = some b) (hx : x ∈ ks) : KeyT.Lte x b := by
  obtain ⟨j, hj, rfl⟩ := List.getElem_of_mem hx
  rw [List.getLast?_eq_getElem?] at hb
  obtain ⟨h0, rfl⟩ := List.getElem?_eq_some_iff.mp hb
  exact hs.sorted j _ (by omega) (by omega)

theorem appendLeaf_spec {ks ms} (h : (leaf ks ms).WF) {ks' : List Key} {ms' : List Message}
    (hl : ks'.length = ms'.length) (hs : KeyT.StrictlySorted ks')
    (hlt : ∀ last first, ks.getLast? = some last → ks'[0]? = some first → KeyT.Lt last first) :
    ((leaf ks ms).appendLeaf ks' ms').WF ∧
    ((leaf ks ms).appendLeaf ks' ms').entries = (leaf ks ms).entries ++ ks'.zip ms' := by
  obtain ⟨h1, h2, h3⟩ := wf_leaf.mp h
  refine ⟨wf_leaf.mpr ⟨?_, ?_, ?_⟩, ?_⟩
  · show 0 < (ks ++ ks').length
    simp; omega
  · show (ks ++ ks').length = (ms ++ ms').length
    simp; omega
  · show KeyT.StrictlySorted (ks ++ ks')
    rw [KeyT.strictlySorted_iff, List.pairwise_append]
    refine ⟨(KeyT.strictlySorted_iff _).mp h3, (KeyT.strictlySorted_iff _).mp hs, ?_⟩
    intro a ha b hb
    obtain ⟨last, hlast⟩ : ∃ l, ks.getLast? = some l :=
      exists_last (by rintro rfl; simp at ha)
    obtain ⟨first, hfirst⟩ : ∃ f, ks'[0]? = some f :=
      ⟨ks'[0]'(List.length_pos_of_mem hb), List.getElem?_eq_getElem _⟩
    have a1 := lte_last h3 hlast ha
    have a2 := head_lte hs hfirst hb
    have a3 := hlt _ _ hlast hfirst
    rw [KeyT.lte_iff] at *; rw [KeyT.lt_iff] at *; omega
  · show (leaf (ks ++ ks') (ms ++ ms')).entries = _
    rw [entries, entries, List.zip_append h2]

theorem append_spec {t : BNode} {ks : List Key} {ms : List Message} {p : BPath}
    (h : t.CanAppend ks ms p) :
    (t.append ks ms p).WF ∧
    (∃ pre post, t.entries = pre ++ post ∧ (t.append ks ms p).entries = pre ++ ks.zip ms ++ post) ∧
    ∀ k ∈ ks, ∀ m, ¬ t.Holds k m := by
  obtain ⟨h2, rfl, h3, h4, h5, h6, h7, h8, h9⟩ := h
  obtain ⟨node, key, d⟩ := p
  have hw := BPath.target_wf d h2
  unfold append BPath.substitute BPath.target
  simp only
  simp only [BPath.target] at h6 h7 h8
  have hkeys := fun x => BPath.target_keys (x := x) d h2
  have htgt := fun k m => BPath.target_holds (k := k) (m := m) d h2
  obtain ⟨last, hlast⟩ : ∃ l, ks.getLast? = some l :=
      exists_last (by rintro rfl; simp at h3)
  have hon : ∀ x ∈ ks, BPath.Same node key x d := fun x hx =>
    same_between (head_lte h5 h8 hx) (lte_last h5 hlast hx) d h2 (h9 last hlast)
  obtain ⟨pre, post, e1, e2⟩ := BPath.substitute_entries d h2
  generalize htt : BPath.targetFrom node key d = tt at *
  match tt, h6 with
  | leaf lk lm, _ =>
    obtain ⟨s1, s2⟩ := appendLeaf_spec hw h4 h5 h7
    have hsame : ∀ x, ((leaf lk lm).appendLeaf ks ms).AllKeys x → BPath.Same node key x d := by
      intro x hx
      have hx : x ∈ lk ++ ks := by unfold appendLeaf at hx; rw [AllKeys] at hx; exact hx
      rcases List.mem_append.mp hx with hx | hx
      · exact (hkeys x (by rw [AllKeys]; exact hx)).1
      · exact hon x hx
    refine ⟨(BPath.substitute_wf s1 d h2 hsame).1, ⟨pre ++ (leaf lk lm).entries, post, ?_, ?_⟩, ?_⟩
    · exact e1
    · rw [e2, s2]; simp [List.append_assoc]
    · intro k hk m hm
      rw [htgt k m (hon k hk)] at hm
      obtain ⟨i, hi, _⟩ := holds_leaf.mp hm
      obtain ⟨_, _, l3⟩ := wf_leaf.mp hw
      obtain ⟨llast, hll⟩ : ∃ l, lk.getLast? = some l :=
      exists_last (by rintro rfl; simp at hi)
      have a1 := lte_last l3 hll (List.mem_of_getElem? hi)
      have a2 := head_lte h5 h8 hk
      have a3 := h7 _ _ hll h8
      rw [KeyT.lte_iff] at *; rw [KeyT.lt_iff] at *; omega

/-! ### Growing and splitting -/

theorem grow_spec {t : BNode} (h : t.WF) : t.grow.WF ∧ t.grow.entries = t.entries := by
  refine ⟨wf_index.mpr ⟨rfl, ?_, ?_, ?_⟩, ?_⟩
  · rw [KeyT.strictlySorted_iff]; exact .nil
  · intro c hc; simp at hc; subst hc; exact h
  · intro i c x hc _
    have := (List.getElem?_eq_some_iff.mp hc).1
    have h2 := slot_le [] x
    simp at this h2; omega
  · unfold grow; rw [entries_index]; simp

/-- What splitting a node in two at a pivot must do. -/
structure Halves (c l r : BNode) (p : Key) : Prop where
  lwf : l.WF
  rwf : r.WF
  left : ∀ x, l.AllKeys x → c.AllKeys x ∧ KeyT.Lt x p
  right : ∀ x, r.AllKeys x → c.AllKeys x ∧ KeyT.Lte p x
  entries : c.entries = l.entries ++ r.entries

theorem splitLeaf_halves {ks ms} {p : Key} (h : (leaf ks ms).WF) (ha : (SplitArg.leaf p).WF (leaf ks ms)) :
    Halves (leaf ks ms) ((leaf ks ms).splitLeaf (.leaf p)).1 ((leaf ks ms).splitLeaf (.leaf p)).2 p := by
  obtain ⟨h1, h2, h3⟩ := wf_leaf.mp h
  obtain ⟨_, _, a1, a2⟩ := ha
  simp only [keys] at a1 a2
  have hfind := fun (j : Nat) (hj : j < ks.length) => KeyT.largestLt_iff h3.sorted p hj
  show Halves (leaf ks ms) (leaf (ks.take (KeyT.largestLt ks p + 1).toNat)
      (ms.take (KeyT.largestLt ks p + 1).toNat)) (leaf (ks.drop (KeyT.largestLt ks p + 1).toNat)
      (ms.drop (KeyT.largestLt ks p + 1).toNat)) p
  generalize KeyT.largestLt ks p = r at *
  rw [KeyT.strictlySorted_iff] at h3
  constructor
  · rw [wf_leaf, KeyT.strictlySorted_iff]
    refine ⟨by simp; omega, by simp; omega, h3.sublist (List.take_sublist _ _)⟩
  · rw [wf_leaf, KeyT.strictlySorted_iff]
    refine ⟨by simp; omega, by simp; omega, h3.sublist (List.drop_sublist _ _)⟩
  · intro x hx
    rw [AllKeys] at hx ⊢
    refine ⟨List.mem_of_mem_take hx, ?_⟩
    obtain ⟨j, hj, rfl⟩ := List.getElem_of_mem hx
    rw [List.length_take] at hj
    rw [List.getElem_take]
    exact (hfind j (by omega)).mpr (by omega)
  · intro x hx
    rw [AllKeys] at hx ⊢
    refine ⟨List.mem_of_mem_drop hx, ?_⟩
    obtain ⟨j, hj, rfl⟩ := List.getElem_of_mem hx
    rw [List.length_drop] at hj
    rw [List.getElem_drop, ← KeyT.not_lt, hfind _ (by omega)]
    omega
  · rw [BNode.entries, BNode.entries, BNode.entries,
      ← List.zip_append (by rw [List.length_take, List.length_take]; omega),
      List.take_append_drop, List.take_append_drop]

theorem splitIndex_halves {ps cs} {p : Key} {i : Nat} (h : (index ps cs).WF)
    (hp : ps[i]? = some p) :
    Halves (index ps cs) ((index ps cs).splitIndex i).1 ((index ps cs).splitIndex i).2 p := by
  obtain ⟨h1, h2, h3, h4⟩ := wf_index.mp h
  have hi := (List.getElem?_eq_some_iff.mp hp).1
  show Halves (index ps cs) (index ((ps.take (i + 1 - 1)).drop 0) ((cs.take (i + 1)).drop 0))
    (index ((ps.take (cs.length - 1)).drop (i + 1)) ((cs.take cs.length).drop (i + 1))) p
  rw [List.drop_zero, List.drop_zero, List.take_length, Nat.add_sub_cancel,
    show cs.length - 1 = ps.length by omega, List.take_length]
  have hs := (KeyT.strictlySorted_iff _).mp h2
  have tl : KeyT.StrictlySorted (ps.take i) :=
    (KeyT.strictlySorted_iff _).mpr (hs.sublist (List.take_sublist _ _))
  have tr : KeyT.StrictlySorted (ps.drop (i + 1)) :=
    (KeyT.strictlySorted_iff _).mpr (hs.sublist (List.drop_sublist _ _))
  constructor
  · refine wf_index.mpr ⟨by simp; omega, tl, fun c hc => h3 c (List.mem_of_mem_take hc), ?_⟩
    intro q c x hc hx
    rw [List.getElem?_take] at hc
    split at hc
    · refine slot_unique tl (by simp; omega) fun j y hy => ?_
      rw [List.getElem?_take] at hy
      split at hy
      · rw [← h4 q c x hc hx]; exact lt_slot h2 hy
      · cases hy
    · cases hc
  · refine wf_index.mpr ⟨by simp; omega, tr, fun c hc => h3 c (List.mem_of_mem_drop hc), ?_⟩
    intro q c x hc hx
    rw [List.getElem?_drop] at hc
    have hq := (List.getElem?_eq_some_iff.mp hc).1
    refine slot_unique tr (by simp; omega) fun j y hy => ?_
    rw [List.getElem?_drop] at hy
    rw [← lt_slot h2 hy, h4 _ c x hc hx]; omega
  · intro x hx
    rcases allKeys_index.mp hx with hx | ⟨c, hc, hx⟩
    · refine ⟨allKeys_index.mpr (.inl (List.mem_of_mem_take hx)), ?_⟩
      obtain ⟨j, hj, rfl⟩ := List.getElem_of_mem hx
      rw [List.length_take] at hj
      rw [List.getElem_take]
      obtain ⟨_, rfl⟩ := List.getElem?_eq_some_iff.mp hp
      exact h2 j i (by omega) (by omega)
    · refine ⟨allKeys_index.mpr (.inr ⟨c, List.mem_of_mem_take hc, hx⟩), ?_⟩
      obtain ⟨j, hj⟩ := List.mem_iff_getElem?.mp hc
      rw [List.getElem?_take] at hj
      split at hj
      · rw [← KeyT.not_lte, ← lt_slot h2 hp, h4 j c x hj hx]; omega
      · cases hj
  · intro x hx
    rcases allKeys_index.mp hx with hx | ⟨c, hc, hx⟩
    · refine ⟨allKeys_index.mpr (.inl (List.mem_of_mem_drop hx)), ?_⟩
      obtain ⟨j, hj, rfl⟩ := List.getElem_of_mem hx
      rw [List.length_drop] at hj
      rw [List.getElem_drop]
      obtain ⟨_, rfl⟩ := List.getElem?_eq_some_iff.mp hp
      exact h2.sorted i _ (by omega) (by omega)
    · refine ⟨allKeys_index.mpr (.inr ⟨c, List.mem_of_mem_drop hc, hx⟩), ?_⟩
      obtain ⟨j, hj⟩ := List.mem_iff_getElem?.mp hc
      rw [List.getElem?_drop] at hj
      rw [← lt_slot h2 hp, h4 _ c x hj hx]; omega
  · rw [entries_index, entries_index, entries_index, ← List.flatMap_append, List.take_append_drop]

theorem splitNode_halves {c : BNode} {a : SplitArg} (h : c.WF) (ha : a.WF c) :
    Halves c (c.splitNode a).1 (c.splitNode a).2 a.pivot := by
  match c, a, ha with
  | leaf ks ms, .leaf p, ha => exact splitLeaf_halves h ha
  | index ps cs, .index p i, ha => exact splitIndex_halves h ha.2.2
  | leaf ks ms, .index p i, ha => exact absurd ha.1 (fun h => h)
  | index ps cs, .leaf p, ha => exact absurd ha.1 (fun h => h)

/-- The child a key is routed to once a pivot has been put in its place. -/
theorem slot_insertIdx {ps : List Key} (hs : KeyT.StrictlySorted ps) {p : Key}
    (hs' : KeyT.StrictlySorted (ps.insertIdx (slot ps p) p)) (x : Key) :
    (KeyT.Lt x p → slot (ps.insertIdx (slot ps p) p) x = slot ps x) ∧
    (KeyT.Lte p x → slot (ps.insertIdx (slot ps p) p) x = slot ps x + 1) := by
  have hle := slot_le ps p
  have hlx := slot_le ps x
  have hlen := List.length_insertIdx_of_le_length hle p
  constructor
  · intro hx
    have hm := slot_mono hs (a := x) (b := p) hx.1
    refine slot_unique hs' (by omega) fun j y hy => ?_
    rw [getElem?_insertIdx' hle] at hy
    by_cases h1 : j < slot ps p
    · rw [if_pos h1] at hy; exact lt_slot hs hy
    · rw [if_neg h1] at hy
      by_cases h2 : j = slot ps p
      · rw [if_pos h2] at hy
        cases hy
        rw [KeyT.lt_iff] at hx
        rw [KeyT.lte_iff]; omega
      · rw [if_neg h2] at hy
        have h3 := lt_slot (k := p) hs hy
        have h4 : ¬ KeyT.Lte y p := fun h => by have := h3.mpr h; omega
        rw [KeyT.lt_iff] at hx
        rw [KeyT.lte_iff] at *; omega
  · intro hx
    have hm := slot_mono hs hx
    refine slot_unique hs' (by omega) fun j y hy => ?_
    rw [getElem?_insertIdx' hle] at hy
    by_cases h1 : j < slot ps p
    · rw [if_pos h1] at hy
      have h3 := (lt_slot (k := p) hs hy).mp h1
      rw [KeyT.lte_iff] at *; omega
    · rw [if_neg h1] at hy
      by_cases h2 : j = slot ps p
      · rw [if_pos h2] at hy
        cases hy
        exact ⟨fun _ => hx, fun _ => by omega⟩
      · rw [if_neg h2] at hy
        rw [← lt_slot hs hy]; omega

theorem splitChild_spec {t : BNode} {a : SplitArg} (h : t.CanSplitChild a) :
    (t.splitChild a).WF ∧ (∀ x, (t.splitChild a).AllKeys x → t.AllKeys x ∨ x = a.pivot) ∧
    (t.splitChild a).entries = t.entries := by
  obtain ⟨hw, hi, ha⟩ := h
  match t, hi with
  | index ps cs, _ =>
    obtain ⟨h1, h2, h3, h4⟩ := wf_index.mp hw
    have hc := child_some hw a.pivot
    have hlt := (List.getElem?_eq_some_iff.mp hc).1
    have H := splitNode_halves (child_wf hw a.pivot) ha
    have hle := slot_le ps a.pivot
    unfold splitChild
    simp only [show ((index ps cs).route a.pivot + 1).toNat = slot ps a.pivot from rfl,
      show (index ps cs).pivots = ps from rfl, show (index ps cs).children = cs from rfl]
    generalize (index ps cs).child a.pivot = c at *
    generalize c.splitNode a = lr at *
    obtain ⟨l, r⟩ := lr
    generalize a.pivot = p at *
    have hlen : (cs.set (slot ps p) l).length = cs.length := by simp
    have hle2 : slot ps p + 1 ≤ (cs.set (slot ps p) l).length := by omega
    have hsort : KeyT.StrictlySorted (ps.insertIdx (slot ps p) p) := by
      obtain ⟨k, m, hk⟩ := exists_entry H.lwf
      obtain ⟨k1, k2⟩ := H.left k (entry_key hk)
      have hsl := h4 _ _ k hc k1
      refine sorted_insertIdx h2 hle ?_ ?_
      · intro j x hx hj
        rw [← hsl] at hj
        have := (lt_slot h2 hx).mp hj
        rw [KeyT.lt_iff] at *; rw [KeyT.lte_iff] at this; omega
      · intro j x hx hj
        rw [← KeyT.not_lte, ← lt_slot h2 hx]; omega
    have hget : ∀ q : Nat, ((cs.set (slot ps p) l).insertIdx (slot ps p + 1) r)[q]? =
        if q < slot ps p then cs[q]? else if q = slot ps p then some l
        else if q = slot ps p + 1 then some r else cs[q - 1]? := by
      intro q
      rw [getElem?_insertIdx' hle2, List.getElem?_set, List.getElem?_set]
      by_cases q1 : q < slot ps p
      · rw [if_pos (by omega), if_pos q1, if_neg (by omega)]
      · rw [if_neg q1]
        by_cases q2 : q = slot ps p
        · rw [if_pos (by omega), if_pos q2, if_pos q2.symm, if_pos (by omega)]
        · rw [if_neg q2, if_neg (by omega)]
          by_cases q3 : q = slot ps p + 1
          · rw [if_pos q3, if_pos q3]
          · rw [if_neg q3, if_neg q3, if_neg (by omega)]
    have hmem : ∀ d, d ∈ (cs.set (slot ps p) l).insertIdx (slot ps p + 1) r →
        d = r ∨ d = l ∨ d ∈ cs := by
      intro d hd
      rcases (List.mem_insertIdx hle2).mp hd with hd | hd
      · exact .inl hd
      · rcases List.mem_or_eq_of_mem_set hd with hd | hd
        · exact .inr (.inr hd)
        · exact .inr (.inl hd)
    refine ⟨wf_index.mpr ⟨?_, hsort, ?_, ?_⟩, ?_, ?_⟩
    · rw [List.length_insertIdx_of_le_length hle, List.length_insertIdx_of_le_length hle2, hlen, h1]
    · intro d hd
      rcases hmem d hd with rfl | rfl | hd
      · exact H.rwf
      · exact H.lwf
      · exact h3 d hd
    · intro q d x hd hx
      rw [hget] at hd
      have hins := slot_insertIdx h2 hsort x
      by_cases q1 : q < slot ps p
      · rw [if_pos q1] at hd
        have hq := h4 q d x hd hx
        rw [hins.1, hq]
        rw [← KeyT.not_lte]
        intro hpx
        have := slot_mono h2 hpx; omega
      · rw [if_neg q1] at hd
        by_cases q2 : q = slot ps p
        · rw [if_pos q2] at hd
          cases hd
          obtain ⟨x1, x2⟩ := H.left x hx
          rw [hins.1 x2, h4 _ _ x hc x1, q2]
        · rw [if_neg q2] at hd
          by_cases q3 : q = slot ps p + 1
          · rw [if_pos q3] at hd
            cases hd
            obtain ⟨x1, x2⟩ := H.right x hx
            rw [hins.2 x2, h4 _ _ x hc x1, q3]
          · rw [if_neg q3] at hd
            have hq := h4 _ d x hd hx
            rw [hins.2, hq]
            · omega
            · rw [← KeyT.not_lt]
              intro hpx
              have := slot_mono h2 (a := x) (b := p) hpx.1; omega
    · intro x hx
      rcases allKeys_index.mp hx with hx | ⟨d, hd, hxd⟩
      · rcases (List.mem_insertIdx hle).mp hx with hx | hx
        · exact .inr hx
        · exact .inl (allKeys_index.mpr (.inl hx))
      · left
        rcases hmem d hd with rfl | rfl | hd
        · exact allKeys_index.mpr (.inr ⟨c, List.mem_of_getElem? hc, (H.right x hxd).1⟩)
        · exact allKeys_index.mpr (.inr ⟨c, List.mem_of_getElem? hc, (H.left x hxd).1⟩)
        · exact allKeys_index.mpr (.inr ⟨d, hd, hxd⟩)
    · rw [entries_index, entries_index, insertIdx_eq hle2, set_eq hlt]
      have t1 : (cs.take (slot ps p) ++ l :: cs.drop (slot ps p + 1)).take (slot ps p + 1) =
          cs.take (slot ps p) ++ [l] := by
        rw [List.take_append]
        have : (cs.take (slot ps p)).length = slot ps p := by rw [List.length_take]; omega
        rw [this, Nat.add_sub_cancel_left, List.take_of_length_le (by omega)]
        rfl
      have t2 : (cs.take (slot ps p) ++ l :: cs.drop (slot ps p + 1)).drop (slot ps p + 1) =
          cs.drop (slot ps p + 1) := by
        rw [List.drop_append]
        have : (cs.take (slot ps p)).length = slot ps p := by rw [List.length_take]; omega
        rw [this, Nat.add_sub_cancel_left, List.drop_of_length_le (by omega)]
        rfl
      rw [t1, t2]
      have e := congrArg (List.flatMap entries) (split_at hc)
      rw [e]
      simp only [List.flatMap_append, List.flatMap_cons, List.flatMap_nil, List.append_nil,
        H.entries, List.append_assoc]

theorem split_spec {t : BNode} {p : BPath} {a : SplitArg} (h : t.CanSplit p a) :
    (t.split p a).WF ∧ (t.split p a).entries = t.entries := by
  obtain ⟨h1, h2, rfl, h4, h5⟩ := h
  obtain ⟨node, key, d⟩ := p
  have h4 : key = a.pivot := h4
  obtain ⟨s1, s2, s3⟩ := splitChild_spec h5
  have hsame : ∀ x, ((BPath.mk node key d).target.splitChild a).AllKeys x →
      BPath.Same node key x d := by
    intro x hx
    rcases s2 x hx with hx | rfl
    · exact (BPath.target_keys d h2 hx).1
    · rw [← h4]; exact BPath.same_self _ _ d
  refine ⟨(BPath.substitute_wf s1 d h2 hsame).1, ?_⟩
  obtain ⟨pre, post, e1, e2⟩ := BPath.substitute_entries d h2
  show (BPath.substituteFrom node key _ d).entries = node.entries
  rw [e2, s3, e1]; rfl


/-! ### The tree as a map -/

/-- Specification: the map a tree stands for. -/
def contents (t : BNode) : PMap Key Message := fun k => t.entries.lookup k

/-- The pairs of a well-formed tree are in strictly increasing order of their keys. -/
theorem entries_sorted {t : BNode} : t.WF → t.entries.Pairwise (fun a b => KeyT.Lt a.1 b.1) := by
  refine ind (motive := fun t => t.WF → t.entries.Pairwise (fun a b => KeyT.Lt a.1 b.1)) ?_ ?_ t
  · intro ks ms h
    obtain ⟨_, h2, h3⟩ := wf_leaf.mp h
    rw [entries, ← List.pairwise_map (f := Prod.fst) (R := KeyT.Lt),
      List.map_fst_zip (by omega)]
    exact (KeyT.strictlySorted_iff _).mp h3
  · intro ps cs ih h
    obtain ⟨_, h2, h3, h4⟩ := wf_index.mp h
    rw [entries_index, List.pairwise_flatMap]
    refine ⟨fun c hc => ih c hc (h3 c hc), List.pairwise_iff_getElem.mpr ?_⟩
    intro i j hi hj hij x hx y hy
    have e1 := h4 i _ x.1 (List.getElem?_eq_getElem hi) (entry_key (m := x.2) hx)
    have e2 := h4 j _ y.1 (List.getElem?_eq_getElem hj) (entry_key (m := y.2) hy)
    rw [← KeyT.not_lte]
    intro hle
    have := slot_mono h2 hle
    omega

theorem lookup_mem {α β : Type} [DecidableEq α] {k : α} {v : β} :
    ∀ {l : List (α × β)}, l.lookup k = some v → (k, v) ∈ l
  | [], h => by simp at h
  | (a, b) :: l, h => by
    rw [List.lookup_cons] at h
    split at h
    · rename_i he
      have he : k = a := by simpa using he
      cases h; subst he; simp
    · exact List.mem_cons_of_mem _ (lookup_mem h)

theorem lookup_of_mem {α β : Type} [DecidableEq α] {k : α} {v : β} :
    ∀ {l : List (α × β)}, (k, v) ∈ l → ∃ v', l.lookup k = some v'
  | (a, b) :: l, h => by
    rw [List.lookup_cons]
    split
    · exact ⟨b, rfl⟩
    · rename_i he
      rcases List.mem_cons.mp h with h | h
      · cases h; simp at he
      · exact lookup_of_mem h

theorem contents_iff {t : BNode} (h : t.WF) {k m} : t.contents k = some m ↔ t.Holds k m := by
  constructor
  · exact lookup_mem
  · intro hm
    obtain ⟨m', h'⟩ := lookup_of_mem hm
    rw [holds_functional h hm (lookup_mem h')]; exact h'

theorem contents_eq {t : BNode} (h : t.WF) {f : PMap Key Message}
    (hf : ∀ k m, t.Holds k m ↔ f k = some m) : t.contents = f := by
  funext k
  apply Option.ext
  intro m
  rw [contents_iff h, hf]

theorem query_contents {t : BNode} (h : t.WF) (k : Key) :
    t.query k = (t.contents k).getD .nop := by
  obtain ⟨h1, h2⟩ := query_spec (k := k) h
  cases e : t.contents k with
  | none =>
    refine h2 fun m hm => ?_
    rw [(contents_iff h).mpr hm] at e; cases e
  | some m => exact h1 m ((contents_iff h).mp e)

/-! ### Uniform height -/

/-- Specification: every leaf is `h` levels down. -/
def Height : BNode → Nat → Prop
  | leaf _ _, h => h = 0
  | index _ _, 0 => False
  | index _ cs, h + 1 => ∀ c ∈ cs, Height c h

theorem substitute_height {key : Key} {n : BNode} : ∀ (d : Nat) {t : BNode} {h : Nat},
    BPath.ValidFrom t key d → t.Height h →
    (∀ h', (BPath.targetFrom t key d).Height h' → n.Height h') →
    (BPath.substituteFrom t key n d).Height h
  | 0, _, _, _, hh, hn => hn _ hh
  | d + 1, .leaf _ _, _, h, _, _ => absurd h.2.1 (fun h => h)
  | d + 1, .index ps cs, 0, _, hh, _ => absurd hh (by unfold Height; exact fun h => h)
  | d + 1, .index ps cs, h + 1, hv, hh, hn => by
    show (index ps (cs.set (slot ps key) _)).Height (h + 1)
    unfold Height at hh ⊢
    intro c hc
    rcases List.mem_or_eq_of_mem_set hc with hc | rfl
    · exact hh c hc
    · exact substitute_height d hv.2.2 (hh _ (child_mem hv.1 key)) hn

theorem leaf_height {ks ms h} : (leaf ks ms).Height h ↔ h = 0 := by rw [Height]

theorem insert_height {t : BNode} {k m p h} (hc : t.CanInsert k p) (hh : t.Height h) :
    (t.insert k m p).Height h := by
  obtain ⟨h1, h2, rfl, rfl, h5⟩ := hc
  refine substitute_height p.depth h2 hh ?_
  intro h' ht
  have h5 : (BPath.targetFrom p.node p.key p.depth).IsLeaf := h5
  unfold BPath.target
  generalize BPath.targetFrom p.node p.key p.depth = tt at *
  match tt, h5 with
  | leaf ks ms, _ =>
    rw [leaf_height] at ht
    unfold insertLeaf
    simp only
    split
    · exact leaf_height.mpr ht
    · exact leaf_height.mpr ht

theorem append_height {t : BNode} {ks ms p h} (hc : t.CanAppend ks ms p) (hh : t.Height h) :
    (t.append ks ms p).Height h := by
  obtain ⟨h2, rfl, h3, h4, h5, h6, h7, h8, h9⟩ := hc
  refine substitute_height p.depth h2 hh ?_
  intro h' ht
  have h6 : (BPath.targetFrom p.node p.key p.depth).IsLeaf := h6
  unfold BPath.target
  generalize BPath.targetFrom p.node p.key p.depth = tt at *
  match tt, h6 with
  | leaf ks ms, _ =>
    rw [leaf_height] at ht
    exact leaf_height.mpr ht

theorem splitNode_height {c : BNode} {a : SplitArg} {h} (hh : c.Height h) :
    (c.splitNode a).1.Height h ∧ (c.splitNode a).2.Height h := by
  match c, h, hh with
  | leaf ks ms, h, hh => exact ⟨leaf_height.mpr (leaf_height.mp hh), leaf_height.mpr (leaf_height.mp hh)⟩
  | index ps cs, 0, hh => exact absurd hh (by unfold Height; exact fun h => h)
  | index ps cs, h + 1, hh =>
    unfold Height at hh
    constructor
    · show (subIndex _ _ _).Height (h + 1)
      unfold subIndex Height
      intro c hc
      exact hh c (List.mem_of_mem_take (List.mem_of_mem_drop hc))
    · show (subIndex _ _ _).Height (h + 1)
      unfold subIndex Height
      intro c hc
      exact hh c (List.mem_of_mem_take (List.mem_of_mem_drop hc))

theorem split_height {t : BNode} {p a h} (hc : t.CanSplit p a) (hh : t.Height h) :
    (t.split p a).Height h := by
  obtain ⟨h1, h2, rfl, h4, h5⟩ := hc
  refine substitute_height p.depth h2 hh ?_
  intro h' ht
  have hw := BPath.target_wf p.depth h2
  obtain ⟨_, hi, ha⟩ := h5
  unfold BPath.target at *
  generalize BPath.targetFrom p.node p.key p.depth = tt at *
  match tt, h', hi, ht with
  | index ps cs, 0, _, ht => exact absurd ht (by unfold Height; exact fun h => h)
  | index ps cs, h' + 1, _, ht =>
    unfold Height at ht
    unfold splitChild
    simp only
    unfold Height
    intro c hc
    have hs := splitNode_height (a := a) (ht _ (child_mem hw a.pivot))
    have hlt := (List.getElem?_eq_some_iff.mp (child_some hw a.pivot)).1
    rcases (List.mem_insertIdx (by rw [List.length_set]; exact hlt)).mp hc with rfl | hc
    · exact hs.2
    · rcases List.mem_or_eq_of_mem_set hc with hc | rfl
      · exact ht c hc
      · exact hs.1

theorem grow_height {t : BNode} {h} (hh : t.Height h) : t.grow.Height (h + 1) := by
  unfold grow Height
  intro c hc; simp at hc; subst hc; exact hh

/-! ### Legal operations exist -/

theorem leaf_path {t : BNode} (k : Key) : t.WF → ∃ d, BPath.ValidFrom t k d ∧
    (BPath.targetFrom t k d).IsLeaf := by
  refine ind (motive := fun t => t.WF → ∃ d, BPath.ValidFrom t k d ∧
    (BPath.targetFrom t k d).IsLeaf) ?_ ?_ t
  · intro ks ms h; exact ⟨0, h, trivial⟩
  · intro ps cs ih h
    obtain ⟨d, h1, h2⟩ := ih _ (child_mem h k) (child_wf h k)
    exact ⟨d + 1, ⟨h, trivial, h1⟩, h2⟩

theorem insert_possible {t : BNode} (h : t.WF) (k : Key) : ∃ p, t.CanInsert k p := by
  obtain ⟨d, h1, h2⟩ := leaf_path k h
  exact ⟨⟨t, k, d⟩, h, h1, rfl, rfl, h2⟩

/-- Any key that is not the least of a leaf is a legal pivot to split it at. -/
theorem leaf_splittable {ks ms} (h : (leaf ks ms).WF) {i : Nat} {p : Key} (hi : 0 < i)
    (hp : ks[i]? = some p) : (SplitArg.leaf p).WF (leaf ks ms) := by
  obtain ⟨h1, h2, h3⟩ := wf_leaf.mp h
  obtain ⟨hlt, rfl⟩ := List.getElem?_eq_some_iff.mp hp
  have hb := KeyT.largestLt_bounds ks ks[i]
  have a1 := (KeyT.largestLt_iff h3.sorted ks[i] (i := 0) (by omega)).mp (h3 0 i hlt hi)
  refine ⟨trivial, h2, ?_, ?_⟩
  · show 0 < KeyT.largestLt ks ks[i] + 1
    omega
  · show KeyT.largestLt ks ks[i] + 1 < ks.length
    have : ¬ ((i : Int) ≤ KeyT.largestLt ks ks[i]) := by
      intro h
      exact ((KeyT.largestLt_iff h3.sorted ks[i] hlt).mpr h).2 rfl
    omega

end BNode
end Verif
