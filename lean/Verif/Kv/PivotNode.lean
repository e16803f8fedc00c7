import Verif.Kv.PivotBucket
/-
What the operations on nodes do, key by key. No code is modelled here.
-/
namespace Verif.Kv.Pivot
open Betree (Message)

/-- The range number `i` of a node, with its edge and bucket. -/
structure Slot (n : Node) (i : Nat) (lo hi : Elem) (e : Option Key) (b : Bucket) : Prop where
  lo : n.pivots[i]? = some lo
  hi : n.pivots[i + 1]? = some hi
  e : n.edges[i]? = some e
  b : n.buckets[i]? = some b

/-- The child of a range. -/
def Node.childAt (n : Node) (i : Nat) : Option Ref := n.children.bind (fun cs => cs[i]?)

/-- A key on its way to the child of a range. -/
def tr (lo hi : Elem) (e : Option Key) (k : Key) : Key :=
  match e with
  | none => k
  | some e => changePrefix (pivotLcp lo hi) e k

/-- What holds of a range of a good node. -/
structure SlotOK (lo hi : Elem) (e : Option Key) (b : Bucket) : Prop where
  lt : lo < hi
  lcp : e ≠ none → pivotLcp lo hi ≠ []
  keys : ∀ x ∈ b, lo ≤ .key x.1 ∧ Elem.key x.1 < hi
  defs : b.Defs
  sorted : b.Sorted

/-- The lists of a node fit together. -/
structure Shape (n : Node) : Prop where
  sorted : n.pivots.Pairwise (· < ·)
  two : 2 ≤ n.pivots.length
  buckets : n.pivots.length = n.buckets.length + 1
  edges : n.edges.length = n.buckets.length
  children : ∀ cs, n.children = some cs → cs.length = n.buckets.length

/-- A good node. -/
structure Good (n : Node) : Prop extends Shape n where
  slots : ∀ i lo hi e b, Slot n i lo hi e b → SlotOK lo hi e b

theorem getElem?_of_lt {α : Type} {l : List α} {i : Nat} (h : i < l.length) : ∃ a, l[i]? = some a :=
  ⟨l[i], List.getElem?_eq_getElem h⟩

theorem lt_of_getElem? {α : Type} {l : List α} {i : Nat} {a : α} (h : l[i]? = some a) : i < l.length :=
  (List.getElem?_eq_some_iff.mp h).1

theorem Shape.slot {n : Node} (h : Shape n) {i : Nat} (hi : i < n.buckets.length) :
    ∃ lo hi e b, Slot n i lo hi e b := by
  obtain ⟨lo, h1⟩ := getElem?_of_lt (l := n.pivots) (i := i) (by rw [h.buckets]; omega)
  obtain ⟨hi', h2⟩ := getElem?_of_lt (l := n.pivots) (i := i + 1) (by rw [h.buckets]; omega)
  obtain ⟨e, h3⟩ := getElem?_of_lt (l := n.edges) (i := i) (by rw [h.edges]; omega)
  obtain ⟨b, h4⟩ := getElem?_of_lt hi
  exact ⟨lo, hi', e, b, h1, h2, h3, h4⟩

theorem Slot.bound {n : Node} {i lo hi e b} (h : Slot n i lo hi e b) : i < n.buckets.length :=
  lt_of_getElem? h.b

theorem Shape.slot_lt {n : Node} (h : Shape n) {i lo hi e b} (hs : Slot n i lo hi e b) : lo < hi :=
  getElem?_lt_of_sorted h.sorted hs.lo hs.hi (by omega)

theorem Slot.unique {n : Node} {i lo hi e b lo' hi' e' b'} (h : Slot n i lo hi e b)
    (h' : Slot n i lo' hi' e' b') : lo = lo' ∧ hi = hi' ∧ e = e' ∧ b = b' := by
  have a1 := h.lo.symm.trans h'.lo
  have a2 := h.hi.symm.trans h'.hi
  have a3 := h.e.symm.trans h'.e
  have a4 := h.b.symm.trans h'.b
  simp at a1 a2 a3 a4
  exact ⟨a1, a2, a3, a4⟩

/-- The range of a key. -/
theorem Shape.find {n : Node} (h : Shape n) {k : Key} (hb : Bounded n.pivots k) :
    ∃ i lo hi e b, Slot n i lo hi e b ∧ lo ≤ .key k ∧ .key k < hi := by
  obtain ⟨i, lo, hi, h1, h2, h3, h4⟩ := hb.slot
  have := lt_of_getElem? h2
  obtain ⟨lo', hi', e, b, hs⟩ := h.slot (i := i) (by rw [h.buckets] at this; omega)
  have e1 := h1.symm.trans hs.lo
  have e2 := h2.symm.trans hs.hi
  simp at e1 e2
  subst e1; subst e2
  exact ⟨i, lo, hi, e, b, hs, h3, h4⟩

theorem Shape.bounded {n : Node} (h : Shape n) {i lo hi e b} (hs : Slot n i lo hi e b) {k : Key}
    (h1 : lo ≤ .key k) (h2 : .key k < hi) : Bounded n.pivots k :=
  bounded_of_slot h.sorted hs.lo hs.hi h1 h2

theorem Good.of_inv {n : Node} (h : InvNode n) : Good n := by
  refine { sorted := h.wf.sorted, two := h.wf.two, buckets := h.wf.buckets, edges := h.wf.edges,
           children := h.wf.children, slots := ?_ }
  intro i lo hi e b hs
  refine ⟨getElem?_lt_of_sorted h.wf.sorted hs.lo hs.hi (by omega), ?_, ?_, ?_, h.sorted i b hs.b⟩
  · intro he
    cases e with
    | none => exact absurd rfl he
    | some e =>
      have := h.wf.lcps i e hs.e
      simpa [lcpAt, hs.lo, hs.hi] using this
  · intro x hx
    obtain ⟨h1, h2⟩ := h.proper i b x hs.b hx
    obtain ⟨j, lo', hi', a1, a2, a3, a4⟩ := h1.slot
    have := route_eq h.wf.sorted a1 a2 a3 a4
    rw [h2] at this
    subst this
    have e1 := a1.symm.trans hs.lo
    have e2 := a2.symm.trans hs.hi
    simp at e1 e2
    rw [← e1, ← e2]
    exact ⟨a3, a4⟩
  · intro x hx
    exact h.wf.msgs i b x hs.b hx

theorem Good.inv {n : Node} (h : Good n) : InvNode n := by
  have slot : ∀ {i b}, n.buckets[i]? = some b → ∃ lo hi e, Slot n i lo hi e b := by
    intro i b hb
    obtain ⟨lo, hi, e, b', hs⟩ := h.slot (lt_of_getElem? hb)
    have := hb.symm.trans hs.b
    simp at this
    subst this
    exact ⟨lo, hi, e, hs⟩
  refine ⟨⟨h.sorted, h.two, h.buckets, h.edges, h.children, ?_, ?_⟩, ?_, ?_⟩
  · intro i e he
    obtain ⟨lo, hi, e', b, hs⟩ := h.slot (i := i) (by have := lt_of_getElem? he; rw [h.edges] at this; exact this)
    have := he.symm.trans hs.e
    simp at this
    subst this
    simpa [lcpAt, hs.lo, hs.hi] using (h.slots _ _ _ _ _ hs).lcp (by simp)
  · intro i b x hb hx
    obtain ⟨lo, hi, e, hs⟩ := slot hb
    exact (h.slots _ _ _ _ _ hs).defs x hx
  · intro i b x hb hx
    obtain ⟨lo, hi, e, hs⟩ := slot hb
    obtain ⟨h1, h2⟩ := (h.slots _ _ _ _ _ hs).keys x hx
    exact ⟨h.bounded hs h1 h2, route_eq h.sorted hs.lo hs.hi h1 h2⟩
  · intro i b hb
    obtain ⟨lo, hi, e, hs⟩ := slot hb
    exact (h.slots _ _ _ _ _ hs).sorted

theorem inv_iff {n : Node} : InvNode n ↔ Good n := ⟨Good.of_inv, Good.inv⟩

/-! ### The node as a function of the key -/

/-- What a node has for a key: the key its child knows it by, the child, the message. -/
structure Item where
  key : Key
  child : Option Ref
  msg : Message

open Classical in
/-- What a node has for a key, if the key lies between its first and last pivot. -/
noncomputable def view (n : Node) (k : Key) : Option Item :=
  if Bounded n.pivots k then
    some ⟨translateKey n.pivots n.edges k, n.childAt (route n.pivots k), (n.bucketAt k).get k⟩
  else none

theorem view_none {n : Node} {k : Key} (h : ¬ Bounded n.pivots k) : view n k = none := by
  simp [view, h]

theorem view_slot {n : Node} (h : Shape n) {i lo hi e b} (hs : Slot n i lo hi e b) {k : Key}
    (h1 : lo ≤ .key k) (h2 : .key k < hi) :
    view n k = some ⟨tr lo hi e k, n.childAt i, b.get k⟩ := by
  have hr := route_eq h.sorted hs.lo hs.hi h1 h2
  simp only [view, h.bounded hs h1 h2, if_true, translateKey, translate, Node.bucketAt, hr, hs.e, hs.b,
    Option.getD_some, lcpAt, hs.lo, hs.hi]
  cases e <;> rfl

theorem view_cases {n : Node} (h : Shape n) (k : Key) : (¬ Bounded n.pivots k ∧ view n k = none) ∨
    ∃ i lo hi e b, Slot n i lo hi e b ∧ lo ≤ .key k ∧ .key k < hi ∧
      view n k = some ⟨tr lo hi e k, n.childAt i, b.get k⟩ := by
  by_cases hb : Bounded n.pivots k
  · obtain ⟨i, lo, hi, e, b, hs, h1, h2⟩ := h.find hb
    exact .inr ⟨i, lo, hi, e, b, hs, h1, h2, view_slot h hs h1 h2⟩
  · exact .inl ⟨hb, view_none hb⟩

/-! ### Restricting ranges -/

/-- The edge of a part of a range. -/
structure EdgeSub (lo hi : Elem) (e : Option Key) (lo' hi' : Elem) (e' : Option Key) : Prop where
  none : e = none → e' = none
  some : ∀ e0, e = some e0 → ∃ u, pivotLcp lo' hi' = pivotLcp lo hi ++ u ∧ e' = some (e0 ++ u)

/-- A part of a range. -/
structure Sub (lo hi : Elem) (e : Option Key) (b : Bucket) (lo' hi' : Elem) (e' : Option Key)
    (b' : Bucket) : Prop where
  hlo : lo ≤ lo'
  hhi : hi' ≤ hi
  lt : lo' < hi'
  edge : EdgeSub lo hi e lo' hi' e'
  mem : ∀ x, x ∈ b' ↔ x ∈ b ∧ lo' ≤ .key x.1 ∧ Elem.key x.1 < hi'
  sorted : b'.Sorted

theorem EdgeSub.refl (lo hi : Elem) (e : Option Key) : EdgeSub lo hi e lo hi e :=
  ⟨id, fun e0 h => ⟨[], by simp, by simp [h]⟩⟩

theorem Sub.refl {lo hi e b} (h : SlotOK lo hi e b) : Sub lo hi e b lo hi e b :=
  ⟨le_refl _, le_refl _, h.lt, .refl _ _ _, fun x => ⟨fun hx => ⟨hx, h.keys x hx⟩, fun hx => hx.1⟩, h.sorted⟩

theorem Sub.ok {lo hi e b lo' hi' e' b'} (h : Sub lo hi e b lo' hi' e' b') (hk : SlotOK lo hi e b) :
    SlotOK lo' hi' e' b' := by
  refine ⟨h.lt, ?_, fun x hx => ((h.mem x).mp hx).2, fun x hx => hk.defs x ((h.mem x).mp hx).1, h.sorted⟩
  intro he
  cases e with
  | none => exact absurd (h.edge.none rfl) he
  | some e0 =>
    obtain ⟨u, h1, _⟩ := h.edge.some e0 rfl
    rw [h1]
    intro hc
    exact hk.lcp (by simp) (List.append_eq_nil_iff.mp hc).1

theorem EdgeSub.tr {lo hi e lo' hi' e'} (h : EdgeSub lo hi e lo' hi' e') {k : Key}
    (h1 : lo' ≤ .key k) (h2 : .key k < hi') : tr lo' hi' e' k = tr lo hi e k := by
  cases e with
  | none => rw [h.none rfl]; rfl
  | some e0 =>
    obtain ⟨u, h3, h4⟩ := h.some e0 rfl
    obtain ⟨w, hw⟩ := pivotLcp_prefix h1 h2
    rw [h4]
    simp only [Pivot.tr, changePrefix]
    rw [← hw, h3]
    simp

theorem Sub.get {lo hi e b lo' hi' e' b'} (h : Sub lo hi e b lo' hi' e' b') (hs : b.Sorted) {k : Key}
    (h1 : lo' ≤ .key k) (h2 : .key k < hi') : Bucket.get b' k = Bucket.get b k :=
  Bucket.get_congr h.sorted hs (fun _ => ⟨fun hm => ((h.mem _).mp hm).1, fun hm => (h.mem _).mpr ⟨hm, h1, h2⟩⟩)

/-- A node whose ranges are parts of the ranges of another. -/
theorem restrict {n n' : Node} (hg : Good n) (hs : Shape n')
    (h : ∀ i' lo' hi' e' b', Slot n' i' lo' hi' e' b' → ∃ i lo hi e b, Slot n i lo hi e b ∧
      Sub lo hi e b lo' hi' e' b' ∧ n'.childAt i' = n.childAt i) :
    Good n' ∧ ∀ k, Bounded n'.pivots k → view n' k = view n k := by
  refine ⟨{ hs with slots := ?_ }, ?_⟩
  · intro i' lo' hi' e' b' hsl
    obtain ⟨i, lo, hi, e, b, h1, h2, _⟩ := h _ _ _ _ _ hsl
    exact h2.ok (hg.slots _ _ _ _ _ h1)
  · intro k hb
    obtain ⟨i', lo', hi', e', b', hsl, a1, a2⟩ := hs.find hb
    obtain ⟨i, lo, hi, e, b, h1, h2, h3⟩ := h _ _ _ _ _ hsl
    rw [view_slot hs hsl a1 a2,
      view_slot hg.toShape h1 (le_trans h2.hlo a1) (lt_of_lt_of_le a2 h2.hhi), h3, h2.edge.tr a1 a2,
      h2.get (hg.slots _ _ _ _ _ h1).sorted a1 a2]

/-- The edge of the left part of a range. -/
theorem edge_cut {lo hi lo' hi' : Elem} {e0 : Key} (h1 : lo ≤ lo') (h2 : hi' ≤ hi) (h3 : lo' < hi') :
    EdgeSub lo hi (some e0) lo' hi'
      (some (changePrefix (pivotLcp lo hi) e0 (pivotLcp lo' hi'))) := by
  obtain ⟨u, hu⟩ := pivotLcp_mono h1 h2 h3
  refine ⟨by simp, fun e1 h => ⟨u, hu.symm, ?_⟩⟩
  cases h
  simp [changePrefix, ← hu]

theorem leftEdges_eq {n : Node} (hg : Good n) {c lo hi e b} (hs : Slot n c lo hi e b) {p : Key}
    (h1 : lo < .key p) (h2 : .key p ≤ hi) : ∃ e', leftEdges n.edges n.pivots p = n.edges.take c ++ [e'] ∧
      EdgeSub lo hi e lo (.key p) e' := by
  have hc := cutoffLeft_eq hg.sorted hs.lo hs.hi h1 h2
  have ht : n.edges.take (c + 1) = n.edges.take c ++ [e] := by
    rw [List.take_add_one, hs.e]; rfl
  cases e with
  | none =>
    refine ⟨none, ?_, ⟨id, by simp⟩⟩
    simp only [leftEdges, hc, hs.lo, hs.e]
    exact ht
  | some e0 =>
    by_cases hh : hi = .key p
    · subst hh
      refine ⟨some e0, ?_, .refl _ _ _⟩
      simp only [leftEdges, hc, hs.lo, hs.e, hs.hi, if_true]
      exact ht
    · refine ⟨_, ?_, edge_cut (le_refl _) h2 h1⟩
      simp only [leftEdges, hc, hs.lo, hs.e, hs.hi, Option.some.injEq, hh, if_false, lcpAt]

theorem rightEdges_eq {n : Node} (hg : Good n) {c lo hi e b} (hs : Slot n c lo hi e b) {p : Key}
    (h1 : lo ≤ .key p) (h2 : .key p < hi) : ∃ e', rightEdges n.edges n.pivots p = e' :: n.edges.drop (c + 1) ∧
      EdgeSub lo hi e (.key p) hi e' := by
  have hc := route_eq hg.sorted hs.lo hs.hi h1 h2
  have ht : n.edges.drop c = e :: n.edges.drop (c + 1) := by
    obtain ⟨h, he⟩ := List.getElem?_eq_some_iff.mp hs.e
    rw [List.drop_eq_getElem_cons h, he]
  cases e with
  | none =>
    refine ⟨none, ?_, ⟨id, by simp⟩⟩
    simp only [rightEdges, hc, hs.hi, hs.e]
    exact ht
  | some e0 =>
    by_cases hh : lo = .key p
    · subst hh
      refine ⟨some e0, ?_, .refl _ _ _⟩
      simp only [rightEdges, hc, hs.lo, hs.e, hs.hi, if_true]
      exact ht
    · refine ⟨_, ?_, edge_cut h1 (le_refl _) h2⟩
      simp only [rightEdges, hc, hs.lo, hs.e, hs.hi, Option.some.injEq, hh, if_false, lcpAt]

theorem sorted_take {pt : List Elem} (hs : pt.Pairwise (· < ·)) (i : Nat) :
    (pt.take i).Pairwise (· < ·) := hs.sublist (List.take_sublist _ _)
theorem sorted_drop {pt : List Elem} (hs : pt.Pairwise (· < ·)) (i : Nat) :
    (pt.drop i).Pairwise (· < ·) := hs.sublist (List.drop_sublist _ _)

theorem mem_take_le {pt : List Elem} (hs : pt.Pairwise (· < ·)) {i : Nat} {lo x : Elem}
    (h : pt[i]? = some lo) (hx : x ∈ pt.take (i + 1)) : x ≤ lo := by
  obtain ⟨j, hj⟩ := List.mem_iff_getElem?.mp hx
  have hl := lt_of_getElem? hj
  rw [List.length_take] at hl
  rw [List.getElem?_take, if_pos (by omega)] at hj
  exact getElem?_le_of_sorted hs hj h (by omega)

theorem mem_drop_ge {pt : List Elem} (hs : pt.Pairwise (· < ·)) {i : Nat} {hi x : Elem}
    (h : pt[i]? = some hi) (hx : x ∈ pt.drop i) : hi ≤ x := by
  obtain ⟨j, hj⟩ := List.mem_iff_getElem?.mp hx
  rw [List.getElem?_drop] at hj
  exact getElem?_le_of_sorted hs h hj (by omega)

/-- What `keepLeft` does. -/
theorem keepLeft_spec {n : Node} (hg : Good n) {p : Key} {a z : Elem} (ha : n.pivots.head? = some a)
    (hz : n.pivots.getLast? = some z) (h1 : a < .key p) (h2 : .key p ≤ z) :
    Good (n.keepLeft p) ∧ (n.keepLeft p).pivots.head? = some a ∧
      (n.keepLeft p).pivots.getLast? = some (.key p) ∧
      (∀ k, .key k < Elem.key p → view (n.keepLeft p) k = view n k) ∧
      ((n.keepLeft p).children = none ↔ n.children = none) ∧
      (∀ r, Succs (n.keepLeft p) r → Succs n r) := by
  obtain ⟨c, lo, hi, e1, e2, e3, e4⟩ := exists_switch (fun e => e < Elem.key p) ha hz h1 (not_lt.mpr h2)
  have e4 := not_lt.mp e4
  have hcb : c < n.buckets.length := by have := lt_of_getElem? e2; rw [hg.buckets] at this; omega
  obtain ⟨lo', hi', e, b, hs⟩ := hg.slot hcb
  have q1 := e1.symm.trans hs.lo
  have q2 := e2.symm.trans hs.hi
  simp at q1 q2
  subst q1; subst q2
  have hc := cutoffLeft_eq hg.sorted e1 e2 e3 e4
  obtain ⟨e', he', hsub⟩ := leftEdges_eq hg hs e3 e4
  have hok := hg.slots _ _ _ _ _ hs
  have hpl := hg.buckets
  have hel := hg.edges
  have hform : n.keepLeft p = ⟨n.pivots.take (c + 1) ++ [.key p], n.edges.take c ++ [e'],
      n.children.map (·.take (c + 1)), n.buckets.take c ++ [Bucket.left b p]⟩ := by
    simp [Node.keepLeft, hc, he', hs.b]
  have hhead : (n.keepLeft p).pivots.head? = some a := by
    rw [hform, head?_getElem?]
    show (n.pivots.take (c + 1) ++ [.key p])[0]? = some a
    rw [List.getElem?_append_left (by rw [List.length_take]; omega), List.getElem?_take, if_pos (by omega),
      ← head?_getElem?]
    exact ha
  have hlast : (n.keepLeft p).pivots.getLast? = some (.key p) := by rw [hform]; simp
  have shape : Shape (n.keepLeft p) := by
    rw [hform]
    refine ⟨?_, ?_, ?_, ?_, ?_⟩
    · refine List.pairwise_append.mpr ⟨sorted_take hg.sorted _, List.pairwise_singleton _ _, ?_⟩
      intro x hx y hy
      rw [List.mem_singleton] at hy; subst hy
      exact lt_of_le_of_lt (mem_take_le hg.sorted hs.lo hx) e3
    · simp only [List.length_append, List.length_take, List.length_singleton]; omega
    · simp only [List.length_append, List.length_take, List.length_singleton]; omega
    · simp only [List.length_append, List.length_take, List.length_singleton]; omega
    · intro cs hcs
      obtain ⟨cs0, h0, rfl⟩ := Option.map_eq_some_iff.mp hcs
      have := hg.children cs0 h0
      simp only [List.length_append, List.length_take, List.length_singleton]; omega
  have key := restrict (n' := n.keepLeft p) hg shape ?_
  · refine ⟨key.1, hhead, hlast, ?_, ?_, ?_⟩
    · intro k hk
      by_cases hb : Bounded n.pivots k
      · obtain ⟨a', z', b1, b2, b3, b4⟩ := hb
        rw [ha] at b1; cases b1
        exact key.2 k ⟨a, _, hhead, hlast, b3, hk⟩
      · rw [view_none hb, view_none]
        rintro ⟨a', z', b1, b2, b3, b4⟩
        rw [hhead] at b1; cases b1
        exact hb ⟨a, z, ha, hz, b3, lt_of_lt_of_le hk h2⟩
    · rw [hform]; simp
    · rw [hform]
      rintro r ⟨cs, hcs, hr⟩
      obtain ⟨cs0, h0, rfl⟩ := Option.map_eq_some_iff.mp hcs
      exact ⟨cs0, h0, List.mem_of_mem_take hr⟩
  · intro i' lo' hi' e'' b' hsl
    have hb := hsl.bound
    rw [hform] at hsl hb ⊢
    simp only [List.length_append, List.length_take, List.length_singleton] at hb
    obtain ⟨s1, s2, s3, s4⟩ := hsl
    simp only at s1 s2 s3 s4
    by_cases hi'c : i' = c
    · subst hi'c
      rw [List.getElem?_append_left (by rw [List.length_take]; omega), List.getElem?_take,
        if_pos (by omega), hs.lo] at s1
      rw [List.getElem?_append_right (by rw [List.length_take]; omega)] at s2
      rw [List.getElem?_append_right (by rw [List.length_take]; omega)] at s3 s4
      have z1 : i' + 1 - (n.pivots.take (i' + 1)).length = 0 := by rw [List.length_take]; omega
      have z2 : i' - (n.edges.take i').length = 0 := by rw [List.length_take]; omega
      have z3 : i' - (n.buckets.take i').length = 0 := by rw [List.length_take]; omega
      rw [z1] at s2; rw [z2] at s3; rw [z3] at s4
      cases s1; cases s2; cases s3; cases s4
      refine ⟨i', lo, hi, e, b, hs, ⟨le_refl _, e4, e3, hsub, ?_, hok.sorted.left p⟩, ?_⟩
      · intro x
        rw [Bucket.mem_left hok.sorted]
        exact ⟨fun h => ⟨h.1, (hok.keys x h.1).1, h.2⟩, fun h => ⟨h.1, h.2.2⟩⟩
      · simp only [Node.childAt]
        cases n.children with
        | none => rfl
        | some cs => simp
    · have hlt : i' < c := by omega
      rw [List.getElem?_append_left (by rw [List.length_take]; omega), List.getElem?_take,
        if_pos (by omega)] at s1 s2 s3 s4
      have hs' : Slot n i' lo' hi' e'' b' := ⟨s1, s2, s3, s4⟩
      refine ⟨i', lo', hi', e'', b', hs', .refl (hg.slots _ _ _ _ _ hs'), ?_⟩
      simp only [Node.childAt]
      cases n.children with
      | none => rfl
      | some cs =>
        simp only [Option.map_some, Option.bind_some]
        rw [List.getElem?_take, if_pos (by omega)]

/-- What `keepRight` does. -/
theorem keepRight_spec {n : Node} (hg : Good n) {p : Key} {a z : Elem} (ha : n.pivots.head? = some a)
    (hz : n.pivots.getLast? = some z) (h1 : a ≤ .key p) (h2 : .key p < z) :
    Good (n.keepRight p) ∧ (n.keepRight p).pivots.head? = some (.key p) ∧
      (n.keepRight p).pivots.getLast? = some z ∧
      (∀ k, Elem.key p ≤ .key k → view (n.keepRight p) k = view n k) ∧
      ((n.keepRight p).children = none ↔ n.children = none) ∧
      (∀ r, Succs (n.keepRight p) r → Succs n r) := by
  obtain ⟨c, lo, hi, e1, e2, e3, e4⟩ := exists_switch (fun e => e ≤ Elem.key p) ha hz h1 (not_le.mpr h2)
  have e4 := not_le.mp e4
  have hcb : c < n.buckets.length := by have := lt_of_getElem? e2; rw [hg.buckets] at this; omega
  obtain ⟨lo', hi', e, b, hs⟩ := hg.slot hcb
  have q1 := e1.symm.trans hs.lo
  have q2 := e2.symm.trans hs.hi
  simp at q1 q2
  subst q1; subst q2
  have hc := route_eq hg.sorted e1 e2 e3 e4
  obtain ⟨e', he', hsub⟩ := rightEdges_eq hg hs e3 e4
  have hok := hg.slots _ _ _ _ _ hs
  have hpl := hg.buckets
  have hel := hg.edges
  have hform : n.keepRight p = ⟨.key p :: n.pivots.drop (c + 1), e' :: n.edges.drop (c + 1),
      n.children.map (·.drop c), Bucket.right b p :: n.buckets.drop (c + 1)⟩ := by
    simp [Node.keepRight, hc, he', hs.b]
  have hhead : (n.keepRight p).pivots.head? = some (.key p) := by rw [hform]; rfl
  have hlast : (n.keepRight p).pivots.getLast? = some z := by
    rw [hform]
    show (Elem.key p :: n.pivots.drop (c + 1)).getLast? = some z
    rw [List.getLast?_cons, List.getLast?_drop, if_neg (by omega), hz]
    rfl
  have shape : Shape (n.keepRight p) := by
    rw [hform]
    refine ⟨?_, ?_, ?_, ?_, ?_⟩
    · refine List.pairwise_cons.mpr ⟨?_, sorted_drop hg.sorted _⟩
      intro x hx
      exact lt_of_lt_of_le e4 (mem_drop_ge hg.sorted hs.hi hx)
    · simp only [List.length_cons, List.length_drop]; omega
    · simp only [List.length_cons, List.length_drop]; omega
    · simp only [List.length_cons, List.length_drop]; omega
    · intro cs hcs
      obtain ⟨cs0, h0, rfl⟩ := Option.map_eq_some_iff.mp hcs
      have := hg.children cs0 h0
      simp only [List.length_cons, List.length_drop]; omega
  have key := restrict (n' := n.keepRight p) hg shape ?_
  · refine ⟨key.1, hhead, hlast, ?_, ?_, ?_⟩
    · intro k hk
      by_cases hb : Bounded n.pivots k
      · obtain ⟨a', z', b1, b2, b3, b4⟩ := hb
        rw [hz] at b2; cases b2
        exact key.2 k ⟨_, z, hhead, hlast, hk, b4⟩
      · rw [view_none hb, view_none]
        rintro ⟨a', z', b1, b2, b3, b4⟩
        rw [hlast] at b2; cases b2
        exact hb ⟨a, z, ha, hz, le_trans h1 hk, b4⟩
    · rw [hform]; simp
    · rw [hform]
      rintro r ⟨cs, hcs, hr⟩
      obtain ⟨cs0, h0, rfl⟩ := Option.map_eq_some_iff.mp hcs
      exact ⟨cs0, h0, List.mem_of_mem_drop hr⟩
  · intro i' lo' hi' e'' b' hsl
    rw [hform] at hsl ⊢
    obtain ⟨s1, s2, s3, s4⟩ := hsl
    simp only at s1 s2 s3 s4
    cases i' with
    | zero =>
      simp only [List.getElem?_cons_zero, List.getElem?_cons_succ, List.getElem?_drop, Nat.add_zero] at s1 s2 s3 s4
      cases s1; cases s3; cases s4
      have := s2.symm.trans hs.hi
      simp at this
      subst this
      refine ⟨c, lo, hi', e, b, hs, ⟨e3, le_refl _, e4, hsub, ?_, hok.sorted.right p⟩, ?_⟩
      · intro x
        rw [Bucket.mem_right hok.sorted]
        exact ⟨fun h => ⟨h.1, h.2, (hok.keys x h.1).2⟩, fun h => ⟨h.1, h.2.1⟩⟩
      · simp only [Node.childAt]
        cases n.children with
        | none => rfl
        | some cs => simp
    | succ j =>
      simp only [List.getElem?_cons_succ, List.getElem?_drop] at s1 s2 s3 s4
      have hs' : Slot n (c + 1 + j) lo' hi' e'' b' := ⟨s1, s2, s3, s4⟩
      refine ⟨_, lo', hi', e'', b', hs', .refl (hg.slots _ _ _ _ _ hs'), ?_⟩
      simp only [Node.childAt]
      cases n.children with
      | none => rfl
      | some cs =>
        simp only [Option.map_some, Option.bind_some, List.getElem?_drop]
        congr 1
        omega

/-- What `cutoff` does. -/
theorem cutoff_spec {n : Node} (hg : Good n) {l : Key} {r a z : Elem} (ha : n.pivots.head? = some a)
    (hz : n.pivots.getLast? = some z) (h1 : a ≤ .key l) (h2 : .key l < r) (h3 : r ≤ z) :
    Good (n.cutoff l r) ∧ (n.cutoff l r).pivots.head? = some (.key l) ∧
      (n.cutoff l r).pivots.getLast? = some r ∧
      (∀ k, Elem.key l ≤ .key k → .key k < r → view (n.cutoff l r) k = view n k) ∧
      ((n.cutoff l r).children = none ↔ n.children = none) ∧
      (∀ x, Succs (n.cutoff l r) x → Succs n x) := by
  cases r with
  | top =>
    have hzt : z = .top := le_antisymm (Elem.le_top z) h3
    subst hzt
    obtain ⟨a1, a2, a3, a4, a5, a6⟩ := keepRight_spec hg ha hz h1 h2
    exact ⟨a1, a2, a3, fun k hk _ => a4 k hk, a5, a6⟩
  | key r =>
    obtain ⟨a1, a2, a3, a4, a5, a6⟩ := keepLeft_spec hg ha hz (lt_of_le_of_lt h1 h2) h3
    obtain ⟨b1, b2, b3, b4, b5, b6⟩ := keepRight_spec a1 a2 a3 h1 h2
    exact ⟨b1, b2, b3, fun k hk hk' => (b4 k hk).trans (a4 k hk'), b5.trans a5, fun x hx => a6 x (b6 x hx)⟩

/-! ### Changing the prefix -/

/-- Two ranges that correspond under a change of prefix. -/
structure Corr (p q : Key) (lo hi : Elem) (e : Option Key) (b : Bucket) (lo' hi' : Elem)
    (e' : Option Key) (b' : Bucket) : Prop where
  keys : ∀ s, (lo ≤ .key (p ++ s) ∧ .key (p ++ s) < hi) ↔ (lo' ≤ .key (q ++ s) ∧ .key (q ++ s) < hi')
  pre : ∀ k, lo ≤ .key k → .key k < hi → p <+: k
  pre' : ∀ k, lo' ≤ .key k → .key k < hi' → q <+: k
  lt' : lo' < hi'
  edge : e' = some (e.getD (pivotLcp lo hi))
  bucket : b' = Bucket.translate b p q

theorem Corr.ok {p q lo hi e b lo' hi' e' b'} (h : Corr p q lo hi e b lo' hi' e' b')
    (hk : SlotOK lo hi e b) (hq : q ≠ []) : SlotOK lo' hi' e' b' := by
  refine ⟨h.lt', ?_, ?_, ?_, ?_⟩
  · intro _
    obtain ⟨u, _, h2⟩ := pivotLcp_corr hk.lt h.lt' h.pre h.pre' h.keys
    rw [h2]
    intro hc
    exact hq (List.append_eq_nil_iff.mp hc).1
  · intro x hx
    rw [h.bucket, Bucket.mem_translate] at hx
    obtain ⟨s, h1, h2⟩ := hx
    rw [h1]
    exact (h.keys s).mp (hk.keys _ h2)
  · intro x hx
    rw [h.bucket, Bucket.mem_translate] at hx
    obtain ⟨s, h1, h2⟩ := hx
    exact hk.defs (p ++ s, x.2) h2
  · rw [h.bucket]; exact hk.sorted.translate p q

theorem Corr.tr {p q lo hi e b lo' hi' e' b'} (h : Corr p q lo hi e b lo' hi' e' b')
    (hk : SlotOK lo hi e b) {s : Key} (h1 : lo ≤ .key (p ++ s)) (h2 : .key (p ++ s) < hi) :
    tr lo' hi' e' (q ++ s) = tr lo hi e (p ++ s) := by
  obtain ⟨u, e1, e2⟩ := pivotLcp_corr hk.lt h.lt' h.pre h.pre' h.keys
  obtain ⟨w, hw⟩ := pivotLcp_prefix h1 h2
  have hs : s = u ++ w := by
    rw [e1, List.append_assoc] at hw
    exact (List.append_cancel_left hw).symm
  subst hs
  rw [h.edge]
  cases e with
  | none =>
    simp only [Pivot.tr, Option.getD_none, e1, e2, changePrefix]
    rw [← List.append_assoc, List.drop_left]
    simp
  | some e0 =>
    simp only [Pivot.tr, Option.getD_some, e1, e2, changePrefix]
    rw [← List.append_assoc, List.drop_left, ← List.append_assoc, List.drop_left]

theorem Corr.get {p q lo hi e b lo' hi' e' b'} (h : Corr p q lo hi e b lo' hi' e' b')
    (hk : SlotOK lo hi e b) (s : Key) : Bucket.get b' (q ++ s) = Bucket.get b (p ++ s) := by
  rw [h.bucket]
  refine Bucket.get_congr (hk.sorted.translate p q) hk.sorted (fun m => ?_)
  rw [Bucket.mem_translate]
  constructor
  · rintro ⟨t, h1, h2⟩
    have := List.append_cancel_left h1
    subst this
    exact h2
  · intro hm
    exact ⟨s, rfl, hm⟩

/-- What `translate` does. -/
theorem translate_spec {n : Node} (hg : Good n) {p q : Key} {z stop : Elem} {s0 : Key} (hq : q ≠ [])
    (ha : n.pivots.head? = some (.key (p ++ s0))) (hz : n.pivots.getLast? = some z)
    (hp : ∀ k, Elem.key (p ++ s0) ≤ .key k → .key k < z → p <+: k)
    (hq' : ∀ k, Elem.key (q ++ s0) ≤ .key k → .key k < stop → q <+: k)
    (hst : ∀ s, Elem.key (p ++ s) < z ↔ Elem.key (q ++ s) < stop) :
    Good (n.translate p q stop) ∧ (n.translate p q stop).pivots.head? = some (.key (q ++ s0)) ∧
      (n.translate p q stop).pivots.getLast? = some stop ∧
      (∀ s, view (n.translate p q stop) (q ++ s) = view n (p ++ s)) := by
  have hpl := hg.buckets
  have hel := hg.edges
  have h2 := hg.two
  have hzi : n.pivots[n.buckets.length]? = some z := by
    rw [List.getLast?_eq_getElem?, hpl] at hz
    simpa using hz
  -- the pivots of the old node but the last
  have old : ∀ i, i < n.buckets.length → ∃ s, n.pivots[i]? = some (.key (p ++ s)) := by
    intro i hi
    obtain ⟨x, hx⟩ := getElem?_of_lt (l := n.pivots) (i := i) (by omega)
    have hxz := getElem?_lt_of_sorted hg.sorted hx hzi hi
    obtain ⟨k, rfl⟩ := Elem.key_of_lt hxz
    obtain ⟨s, rfl⟩ := hp k (head_le hg.sorted ha hx) hxz
    exact ⟨s, hx⟩
  have len : (n.translate p q stop).pivots.length = n.pivots.length := by
    simp only [Node.translate, translatePivots, List.length_append, List.length_map, List.length_dropLast,
      List.length_singleton]
    omega
  have new : ∀ i s, i < n.buckets.length → n.pivots[i]? = some (.key (p ++ s)) →
      (n.translate p q stop).pivots[i]? = some (.key (q ++ s)) := by
    intro i s hi hx
    simp only [Node.translate, translatePivots]
    rw [List.getElem?_append_left (by simp; omega), List.getElem?_map, List.getElem?_dropLast,
      if_pos (by omega), hx]
    simp [translateElem, changePrefix_append]
  have newlast : (n.translate p q stop).pivots[n.buckets.length]? = some stop := by
    simp only [Node.translate, translatePivots]
    rw [List.getElem?_append_right (by simp; omega)]
    simp [hpl]
  have sorted : (n.translate p q stop).pivots.Pairwise (· < ·) := by
    rw [List.pairwise_iff_getElem]
    intro i j hi hj hij
    rw [len] at hi hj
    obtain ⟨s, hs⟩ := old i (by omega)
    have e1 := new i s (by omega) hs
    by_cases hjl : j < n.buckets.length
    · obtain ⟨t, ht⟩ := old j hjl
      have e2 := new j t hjl ht
      rw [(List.getElem?_eq_some_iff.mp e1).2, (List.getElem?_eq_some_iff.mp e2).2, Elem.append_lt]
      exact (Elem.append_lt p).mp (getElem?_lt_of_sorted hg.sorted hs ht hij)
    · have : j = n.buckets.length := by omega
      subst this
      rw [(List.getElem?_eq_some_iff.mp e1).2, (List.getElem?_eq_some_iff.mp newlast).2]
      exact (hst s).mp (getElem?_lt_of_sorted hg.sorted hs hzi (by omega))
  have hhead : (n.translate p q stop).pivots.head? = some (.key (q ++ s0)) := by
    rw [head?_getElem?]
    refine new 0 s0 (by omega) ?_
    rw [← head?_getElem?]; exact ha
  have hlast : (n.translate p q stop).pivots.getLast? = some stop := by
    simp [Node.translate, translatePivots]
  have shape : Shape (n.translate p q stop) := by
    refine ⟨sorted, by rw [len]; omega, ?_, ?_, ?_⟩
    · rw [len]; simp [Node.translate, hpl]
    · simp [Node.translate, translateEdges, hel]
    · intro cs hcs
      have := hg.children cs hcs
      simp [Node.translate, this]
  have corr : ∀ i lo' hi' e' b', Slot (n.translate p q stop) i lo' hi' e' b' →
      ∃ lo hi e b, Slot n i lo hi e b ∧ Corr p q lo hi e b lo' hi' e' b' := by
    intro i lo' hi' e' b' hs
    have hb := hs.bound
    have hb' : i < n.buckets.length := by simpa [Node.translate] using hb
    obtain ⟨lo, hi, e, b, hs0⟩ := hg.slot hb'
    obtain ⟨s, hls⟩ := old i hb'
    have e1 := hls.symm.trans hs0.lo
    simp at e1; subst e1
    have e2 := (new i s hb' hls).symm.trans hs.lo
    simp at e2; subst e2
    have hlo : Elem.key (p ++ s0) ≤ .key (p ++ s) := head_le hg.sorted ha hls
    have hhi : hi ≤ z := le_last hg.sorted hz hs0.hi
    have hhi' : hi' ≤ stop := le_last sorted hlast hs.hi
    have hcut : ∀ t, Elem.key (p ++ t) < hi ↔ Elem.key (q ++ t) < hi' := by
      intro t
      by_cases hl : i + 1 < n.buckets.length
      · obtain ⟨t', ht'⟩ := old (i + 1) hl
        have e3 := ht'.symm.trans hs0.hi
        simp at e3; subst e3
        have e4 := (new (i + 1) t' hl ht').symm.trans hs.hi
        simp at e4; subst e4
        rw [Elem.append_lt, Elem.append_lt]
      · have : i + 1 = n.buckets.length := by omega
        have e3 := hs0.hi
        rw [this, hzi] at e3
        cases e3
        have e4 := hs.hi
        rw [this, newlast] at e4
        cases e4
        exact hst t
    refine ⟨_, hi, e, b, hs0, ?_, ?_, ?_, shape.slot_lt hs, ?_, ?_⟩
    · intro t
      rw [Elem.append_le, Elem.append_le, hcut t]
    · intro k h1 h2
      exact hp k (le_trans hlo h1) (lt_of_lt_of_le h2 hhi)
    · intro k h1 h2
      refine hq' k (le_trans ?_ h1) (lt_of_lt_of_le h2 hhi')
      rw [Elem.append_le]; rwa [Elem.append_le] at hlo
    · have := hs.e
      simp only [Node.translate, translateEdges, List.getElem?_mapIdx, hs0.e, Option.map_some, lcpAt,
        hs0.lo, hs0.hi] at this
      exact (Option.some.inj this).symm
    · have := hs.b
      simp only [Node.translate, List.getElem?_map, hs0.b, Option.map_some] at this
      exact (Option.some.inj this).symm
  refine ⟨{ shape with slots := ?_ }, hhead, hlast, ?_⟩
  · intro i lo' hi' e' b' hs
    obtain ⟨lo, hi, e, b, h1, h2⟩ := corr _ _ _ _ _ hs
    exact h2.ok (hg.slots _ _ _ _ _ h1) hq
  · intro s
    rcases view_cases shape (q ++ s) with ⟨hb, hv⟩ | ⟨i, lo', hi', e', b', hs, h1, h2, hv⟩
    · rw [hv, view_none]
      rintro ⟨a', z', b1, b2, b3, b4⟩
      rw [ha] at b1; cases b1
      rw [hz] at b2; cases b2
      refine hb ⟨_, _, hhead, hlast, ?_, (hst s).mp b4⟩
      rw [Elem.append_le]; rwa [Elem.append_le] at b3
    · obtain ⟨lo, hi, e, b, h3, h4⟩ := corr _ _ _ _ _ hs
      have hok := hg.slots _ _ _ _ _ h3
      obtain ⟨c1, c2⟩ := (h4.keys s).mpr ⟨h1, h2⟩
      rw [hv, view_slot hg.toShape h3 c1 c2, h4.tr hok c1 c2, h4.get hok]
      rfl

theorem translateEnd_lt {p q : Key} {hi : Elem} (h : Elem.key p < hi) (s : Key) :
    Elem.key (q ++ s) < translateEnd p q hi ↔ Elem.key (p ++ s) < hi := by
  have big : Elem.key (q ++ s) < prefixEnd q := ((prefixEnd_iff q (q ++ s)).mpr (List.prefix_append _ _)).2
  cases hi with
  | top => exact ⟨fun _ => Elem.key_lt_top _, fun _ => big⟩
  | key x =>
    by_cases hx : p <+: x
    · obtain ⟨t, rfl⟩ := hx
      simp only [translateEnd, List.isPrefixOf_iff_prefix, List.prefix_append, if_true, changePrefix_append]
      rw [Elem.append_lt, Elem.append_lt]
    · simp only [translateEnd, List.isPrefixOf_iff_prefix, hx, if_false]
      refine ⟨fun _ => below_of_prefix h ?_ (List.prefix_append _ _), fun _ => big⟩
      rintro y hy
      cases hy; exact hx

theorem translateEnd_le (p q : Key) (hi : Elem) : translateEnd p q hi ≤ prefixEnd q := by
  cases hi with
  | top => exact le_refl _
  | key x =>
    by_cases hx : p <+: x
    · obtain ⟨t, rfl⟩ := hx
      simp only [translateEnd, List.isPrefixOf_iff_prefix, List.prefix_append, if_true, changePrefix_append]
      exact le_of_lt ((prefixEnd_iff q (q ++ t)).mpr (List.prefix_append _ _)).2
    · simp only [translateEnd, List.isPrefixOf_iff_prefix, hx, if_false]
      exact le_refl _

theorem childRange_slot {n : Node} {i lo hi e b} (hs : Slot n i lo hi e b) :
    n.childRange i = some (match e with
      | none => (lo, hi)
      | some e => (translateElem (pivotLcp lo hi) e lo, translateEnd (pivotLcp lo hi) e hi)) := by
  simp only [Node.childRange, hs.lo, hs.hi, hs.e]
  cases e <;> rfl

theorem Slot.lo_key {n : Node} (h : Shape n) {i lo hi e b} (hs : Slot n i lo hi e b) :
    ∃ k, lo = .key k := Elem.key_of_lt (h.slot_lt hs)

/-- What `restrictChild` does. -/
theorem restrictChild_spec {parent child : Node} (hp : Good parent) (hc : Good child) {i lo hi e b}
    (hs : Slot parent i lo hi e b) (hr : InChildRange parent child i) :
    Good (restrictChild parent child i) ∧ (restrictChild parent child i).pivots.head? = some lo ∧
      (restrictChild parent child i).pivots.getLast? = some hi ∧
      (∀ k, lo ≤ .key k → .key k < hi →
        view (restrictChild parent child i) k = view child (tr lo hi e k)) ∧
      ((restrictChild parent child i).children = none ↔ child.children = none) ∧
      (∀ x, Succs (restrictChild parent child i) x → Succs child x) := by
  have hok := hp.slots _ _ _ _ _ hs
  obtain ⟨lk, rfl⟩ := hs.lo_key hp.toShape
  obtain ⟨l, r, hcr, a, z, ha, hz, h1, h2⟩ := hr
  have hcr' := childRange_slot hs
  cases e with
  | none =>
    rw [hcr] at hcr'; cases hcr'
    have hform : restrictChild parent child i = child.cutoff lk hi := by
      simp [restrictChild, hcr, hs.e]
    rw [hform]
    obtain ⟨a1, a2, a3, a4, a5, a6⟩ := cutoff_spec hc ha hz h1 hok.lt h2
    exact ⟨a1, a2, a3, a4, a5, a6⟩
  | some e0 =>
    rw [hcr] at hcr'; cases hcr'
    obtain ⟨s0, hs0⟩ := pivotLcp_prefix (le_refl (Elem.key lk)) hok.lt
    have hlo : translateElem (pivotLcp (.key lk) hi) e0 (.key lk) = .key (e0 ++ s0) := by
      conv => lhs; rw [translateElem]
      conv => lhs; arg 1; arg 3; rw [← hs0]
      rw [changePrefix_append]
    rw [hlo] at h1 hcr
    have hform : restrictChild parent child i = (child.cutoff (e0 ++ s0)
        (translateEnd (pivotLcp (.key lk) hi) e0 hi)).translate e0 (pivotLcp (.key lk) hi) hi := by
      simp [restrictChild, hcr, hs.e, hs.hi, lcpAt, hs.lo]
    have hplt : Elem.key (pivotLcp (.key lk) hi) < hi :=
      lt_of_le_of_lt (Elem.prefix_le (pivotLcp_prefix (le_refl _) hok.lt)) hok.lt
    have hlt : Elem.key (e0 ++ s0) < translateEnd (pivotLcp (.key lk) hi) e0 hi := by
      rw [translateEnd_lt hplt, hs0]; exact hok.lt
    obtain ⟨a1, a2, a3, a4, a5, a6⟩ := cutoff_spec hc ha hz h1 hlt h2
    have key := translate_spec (stop := hi) a1 (hok.lcp (by simp)) a2 a3 ?_ ?_ ?_
    · rw [hform]
      obtain ⟨b1, b2, b3, b4⟩ := key
      refine ⟨b1, by rw [b2, hs0], b3, ?_, a5, a6⟩
      intro k hk1 hk2
      obtain ⟨s, hsk⟩ := pivotLcp_prefix hk1 hk2
      have : tr (.key lk) hi (some e0) k = e0 ++ s := by
        simp only [tr]
        conv => lhs; arg 3; rw [← hsk]
        exact changePrefix_append _ _ _
      rw [this]
      conv => lhs; arg 2; rw [← hsk]
      rw [b4]
      refine a4 _ ?_ ?_
      · rw [Elem.append_le]
        rw [← hs0, ← hsk, Elem.append_le] at hk1
        exact hk1
      · rw [translateEnd_lt hplt, hsk]; exact hk2
    · intro k hk1 hk2
      refine (prefixEnd_iff e0 k).mp ⟨le_trans (Elem.prefix_le (List.prefix_append _ _)) hk1, ?_⟩
      exact lt_of_lt_of_le hk2 (translateEnd_le _ _ _)
    · intro k hk1 hk2
      rw [hs0] at hk1
      exact pivotLcp_prefix hk1 hk2
    · intro s
      exact translateEnd_lt hplt s

/-! ### Putting nodes together -/

/-- Two nodes side by side. -/
def join (a b : Node) : Node :=
  ⟨a.pivots.dropLast ++ b.pivots, a.edges ++ b.edges, a.children.map (· ++ b.children.getD []),
    a.buckets ++ b.buckets⟩

/-- What `join` does. -/
theorem join_spec {a b : Node} (ha : Good a) (hb : Good b) {p : Elem} (h1 : a.pivots.getLast? = some p)
    (h2 : b.pivots.head? = some p) (hk : a.children = none ↔ b.children = none) :
    Good (join a b) ∧ (join a b).pivots.head? = a.pivots.head? ∧
      (join a b).pivots.getLast? = b.pivots.getLast? ∧
      (∀ k, .key k < p → view (join a b) k = view a k) ∧
      (∀ k, p ≤ .key k → view (join a b) k = view b k) ∧
      ((join a b).children = none ↔ a.children = none) ∧
      (∀ r, Succs (join a b) r → Succs a r ∨ Succs b r) := by
  have la := ha.buckets
  have lb := hb.buckets
  have ta := ha.two
  have tb := hb.two
  have ea := ha.edges
  have eb := hb.edges
  have hap : a.pivots[a.buckets.length]? = some p := by
    rw [List.getLast?_eq_getElem?, la] at h1
    simpa using h1
  have hbp : b.pivots[0]? = some p := by rw [← head?_getElem?]; exact h2
  have pa : ∀ i, i ≤ a.buckets.length → (join a b).pivots[i]? = a.pivots[i]? := by
    intro i hi
    simp only [join]
    by_cases c : i < a.buckets.length
    · rw [List.getElem?_append_left (by rw [List.length_dropLast]; omega), List.getElem?_dropLast,
        if_pos (by omega)]
    · have : i = a.buckets.length := by omega
      subst this
      rw [List.getElem?_append_right (by rw [List.length_dropLast]; omega), List.length_dropLast, la, hap]
      simpa using hbp
  have pb : ∀ i, (join a b).pivots[a.buckets.length + i]? = b.pivots[i]? := by
    intro i
    simp only [join]
    rw [List.getElem?_append_right (by rw [List.length_dropLast]; omega), List.length_dropLast, la]
    congr 1
    omega
  have ca : ∀ i, i < a.buckets.length → (join a b).childAt i = a.childAt i := by
    intro i hi
    simp only [join, Node.childAt]
    cases hc : a.children with
    | none => rfl
    | some cs =>
      have := ha.children cs hc
      simp only [Option.map_some, Option.bind_some]
      rw [List.getElem?_append_left (by omega)]
  have cb : ∀ i, (join a b).childAt (a.buckets.length + i) = b.childAt i := by
    intro i
    simp only [join, Node.childAt]
    cases hc : a.children with
    | none => rw [hk.mp hc]; rfl
    | some cs =>
      have := ha.children cs hc
      cases hc' : b.children with
      | none => rw [hk.mpr hc'] at hc; cases hc
      | some cs' =>
        simp only [Option.map_some, Option.bind_some, Option.getD_some]
        rw [List.getElem?_append_right (by omega)]
        congr 1
        omega
  have hlen : (join a b).pivots.length = a.buckets.length + b.buckets.length + 1 := by
    simp only [join, List.length_append, List.length_dropLast]; omega
  have shape : Shape (join a b) := by
    refine ⟨?_, by omega, ?_, ?_, ?_⟩
    · refine List.pairwise_append.mpr ⟨ha.sorted.sublist (List.dropLast_sublist _), hb.sorted, ?_⟩
      intro x hx y hy
      obtain ⟨i, hi⟩ := List.mem_iff_getElem?.mp hx
      obtain ⟨j, hj⟩ := List.mem_iff_getElem?.mp hy
      have hl := lt_of_getElem? hi
      rw [List.length_dropLast] at hl
      rw [List.getElem?_dropLast, if_pos (by omega)] at hi
      exact lt_of_lt_of_le (getElem?_lt_of_sorted ha.sorted hi hap (by omega)) (head_le hb.sorted h2 hj)
    · rw [hlen]; simp [join]
    · simp only [join, List.length_append]; omega
    · intro cs hcs
      obtain ⟨cs0, h0, rfl⟩ := Option.map_eq_some_iff.mp hcs
      have e1 := ha.children cs0 h0
      cases hc' : b.children with
      | none => rw [hk.mpr hc'] at h0; cases h0
      | some cs' =>
        have e2 := hb.children cs' hc'
        simp only [join, List.length_append, Option.getD_some]; omega
  have fa : ∀ {i lo hi e bk}, i < a.buckets.length → (Slot (join a b) i lo hi e bk ↔ Slot a i lo hi e bk) := by
    intro i lo hi e bk hi'
    have e1 : (join a b).edges[i]? = a.edges[i]? := by
      simp only [join]; rw [List.getElem?_append_left (by omega)]
    have e2 : (join a b).buckets[i]? = a.buckets[i]? := by
      simp only [join]; rw [List.getElem?_append_left (by omega)]
    constructor
    · rintro ⟨s1, s2, s3, s4⟩
      exact ⟨(pa _ (by omega)).symm.trans s1, (pa _ (by omega)).symm.trans s2, e1.symm.trans s3, e2.symm.trans s4⟩
    · rintro ⟨s1, s2, s3, s4⟩
      exact ⟨(pa _ (by omega)).trans s1, (pa _ (by omega)).trans s2, e1.trans s3, e2.trans s4⟩
  have fb : ∀ {i lo hi e bk}, (Slot (join a b) (a.buckets.length + i) lo hi e bk ↔ Slot b i lo hi e bk) := by
    intro i lo hi e bk
    have e1 : (join a b).edges[a.buckets.length + i]? = b.edges[i]? := by
      simp only [join]; rw [List.getElem?_append_right (by omega)]; congr 1; omega
    have e2 : (join a b).buckets[a.buckets.length + i]? = b.buckets[i]? := by
      simp only [join]; rw [List.getElem?_append_right (by omega)]; congr 1; omega
    constructor
    · rintro ⟨s1, s2, s3, s4⟩
      exact ⟨(pb _).symm.trans s1, (pb (i + 1)).symm.trans s2, e1.symm.trans s3, e2.symm.trans s4⟩
    · rintro ⟨s1, s2, s3, s4⟩
      exact ⟨(pb _).trans s1, (pb (i + 1)).trans s2, e1.trans s3, e2.trans s4⟩
  have hhead : (join a b).pivots.head? = a.pivots.head? := by
    rw [head?_getElem?, head?_getElem?, pa 0 (by omega)]
  have hlast : (join a b).pivots.getLast? = b.pivots.getLast? := by
    rw [List.getLast?_eq_getElem?, List.getLast?_eq_getElem?, hlen, lb]
    have := pb b.buckets.length
    simpa using this
  refine ⟨{ shape with slots := ?_ }, hhead, hlast, ?_, ?_, ?_, ?_⟩
  · intro i lo hi e bk hs
    by_cases c : i < a.buckets.length
    · exact ha.slots _ _ _ _ _ ((fa c).mp hs)
    · obtain ⟨j, rfl⟩ := Nat.exists_eq_add_of_le (Nat.le_of_not_lt c)
      exact hb.slots _ _ _ _ _ (fb.mp hs)
  · intro k hk'
    rcases view_cases ha.toShape k with ⟨hnb, hv⟩ | ⟨i, lo, hi, e, bk, hs, c1, c2, hv⟩
    · rw [hv, view_none]
      rintro ⟨x, y, b1, b2, b3, b4⟩
      rw [hhead] at b1
      exact hnb ⟨x, p, b1, h1, b3, hk'⟩
    · rw [hv, view_slot shape ((fa hs.bound).mpr hs) c1 c2, ca _ hs.bound]
  · intro k hk'
    rcases view_cases hb.toShape k with ⟨hnb, hv⟩ | ⟨i, lo, hi, e, bk, hs, c1, c2, hv⟩
    · rw [hv, view_none]
      rintro ⟨x, y, b1, b2, b3, b4⟩
      rw [hlast] at b2
      exact hnb ⟨p, y, h2, b2, hk', b4⟩
    · rw [hv, view_slot shape (fb.mpr hs) c1 c2, cb]
  · simp [join]
  · rintro r ⟨cs, hcs, hr⟩
    obtain ⟨cs0, h0, rfl⟩ := Option.map_eq_some_iff.mp hcs
    rcases List.mem_append.mp hr with hr | hr
    · exact .inl ⟨cs0, h0, hr⟩
    · cases hc' : b.children with
      | none => rw [hc'] at hr; simp at hr
      | some cs' => rw [hc'] at hr; exact .inr ⟨cs', hc', hr⟩

end Verif.Kv.Pivot
