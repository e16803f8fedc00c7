import Verif.Kv.PivotNode
/-
What the nodes written by each step hold, key by key. No code is modelled here.
-/
namespace Verif.Kv.Pivot
open Betree (Message)

/-! ### Lists -/

theorem get_replace1with2 {α : Type} {s : List α} {a b : α} {pos : Nat} (h : pos < s.length) (j : Nat) :
    (replace1with2 s a b pos)[j]? = if j < pos then s[j]? else if j = pos then some a else
      if j = pos + 1 then some b else s[j - 1]? := by
  unfold replace1with2
  split
  · rw [List.getElem?_append_left (by rw [List.length_take]; omega), List.getElem?_take, if_pos (by omega)]
  · rw [List.getElem?_append_right (by rw [List.length_take]; omega), List.length_take,
      Nat.min_eq_left (by omega)]
    split
    · next h1 => subst h1; simp
    · split
      · next h1 => subst h1; simp
      · obtain ⟨d, rfl⟩ := Nat.exists_eq_add_of_le (show pos + 2 ≤ j by omega)
        have : pos + 2 + d - pos = d + 2 := by omega
        rw [this, List.getElem?_cons_succ, List.getElem?_cons_succ, List.getElem?_drop]
        congr 1; omega

theorem get_replace2with1 {α : Type} {s : List α} {a : α} {pos : Nat} (h : pos + 1 < s.length) (j : Nat) :
    (replace2with1 s a pos)[j]? = if j < pos then s[j]? else if j = pos then some a else s[j + 1]? := by
  unfold replace2with1
  split
  · rw [List.getElem?_append_left (by rw [List.length_take]; omega), List.getElem?_take, if_pos (by omega)]
  · rw [List.getElem?_append_right (by rw [List.length_take]; omega), List.length_take,
      Nat.min_eq_left (by omega)]
    split
    · next h1 => subst h1; simp
    · obtain ⟨d, rfl⟩ := Nat.exists_eq_add_of_le (show pos + 1 ≤ j by omega)
      have : pos + 1 + d - pos = d + 1 := by omega
      rw [this, List.getElem?_cons_succ, List.getElem?_drop]
      congr 1; omega

theorem get_insertAt {α : Type} {s : List α} {a : α} {pos : Nat} (h : pos ≤ s.length) (j : Nat) :
    (s.take pos ++ a :: s.drop pos)[j]? = if j < pos then s[j]? else if j = pos then some a else
      s[j - 1]? := by
  split
  · rw [List.getElem?_append_left (by rw [List.length_take]; omega), List.getElem?_take, if_pos (by omega)]
  · rw [List.getElem?_append_right (by rw [List.length_take]; omega), List.length_take,
      Nat.min_eq_left (by omega)]
    split
    · next h1 => subst h1; simp
    · obtain ⟨d, rfl⟩ := Nat.exists_eq_add_of_le (show pos + 1 ≤ j by omega)
      have : pos + 1 + d - pos = d + 1 := by omega
      rw [this, List.getElem?_cons_succ, List.getElem?_drop]
      congr 1; omega

theorem get_removeAt {α : Type} {s : List α} {pos : Nat} (h : pos ≤ s.length) (j : Nat) :
    (s.take pos ++ s.drop (pos + 1))[j]? = if j < pos then s[j]? else s[j + 1]? := by
  split
  · rw [List.getElem?_append_left (by rw [List.length_take]; omega), List.getElem?_take, if_pos (by omega)]
  · rw [List.getElem?_append_right (by rw [List.length_take]; omega), List.length_take,
      Nat.min_eq_left (by omega), List.getElem?_drop]
    congr 1; omega

/-! ### Nodes with some ranges replaced -/

theorem reslots {n n' : Node} (hg : Good n) (sh : Shape n') (hh : n'.pivots.head? = n.pivots.head?)
    (hl : n'.pivots.getLast? = n.pivots.getLast?) (Q : Nat → Prop)
    (New : Elem → Elem → Option Key → Bucket → Option Ref → Prop)
    (h : ∀ j lo hi e b, Slot n' j lo hi e b →
      (∃ j', Q j' ∧ Slot n j' lo hi e b ∧ n'.childAt j = n.childAt j') ∨
      (SlotOK lo hi e b ∧ New lo hi e b (n'.childAt j))) :
    Good n' ∧ ∀ k, (view n' k = view n k ∧ (Bounded n.pivots k → Q (route n.pivots k))) ∨
      ∃ lo hi e b c, New lo hi e b c ∧ lo ≤ .key k ∧ .key k < hi ∧
        view n' k = some ⟨tr lo hi e k, c, b.get k⟩ := by
  refine ⟨{ sh with slots := ?_ }, ?_⟩
  · intro j lo hi e b hs
    rcases h _ _ _ _ _ hs with ⟨j', _, h1, _⟩ | ⟨h1, _⟩
    · exact hg.slots _ _ _ _ _ h1
    · exact h1
  · intro k
    rcases view_cases sh k with ⟨hb, hv⟩ | ⟨j, lo, hi, e, b, hs, h1, h2, hv⟩
    · have hb' : ¬ Bounded n.pivots k := by
        rintro ⟨a, z, b1, b2, b3, b4⟩
        exact hb ⟨a, z, hh.trans b1, hl.trans b2, b3, b4⟩
      exact .inl ⟨by rw [hv, view_none hb'], fun c => absurd c hb'⟩
    · rcases h _ _ _ _ _ hs with ⟨j', hq, h3, h4⟩ | ⟨_, h3⟩
      · refine .inl ⟨by rw [hv, view_slot hg.toShape h3 h1 h2, h4], fun _ => ?_⟩
        rw [route_eq hg.sorted h3.lo h3.hi h1 h2]; exact hq
      · exact .inr ⟨lo, hi, e, b, _, h3, h1, h2, hv⟩

/-- A node with one range changed. -/
def setSlot (n : Node) (i : Nat) (e : Option Key) (cs : Option (List Ref)) (b : Bucket) : Node :=
  ⟨n.pivots, n.edges.set i e, cs, n.buckets.set i b⟩

theorem setSlot_spec {n : Node} (hg : Good n) {i lo hi e b e' b' cs} (hs : Slot n i lo hi e b)
    (hok : SlotOK lo hi e' b') (hcs : ∀ l, cs = some l → l.length = n.buckets.length)
    (hch : ∀ j, j ≠ i → (setSlot n i e' cs b').childAt j = n.childAt j) :
    Good (setSlot n i e' cs b') ∧
      (∀ k, lo ≤ .key k → .key k < hi → view (setSlot n i e' cs b') k =
        some ⟨tr lo hi e' k, (setSlot n i e' cs b').childAt i, b'.get k⟩) ∧
      (∀ k, ¬ (lo ≤ .key k ∧ .key k < hi) → view (setSlot n i e' cs b') k = view n k) := by
  have hib := hs.bound
  have hie := lt_of_getElem? hs.e
  have sh : Shape (setSlot n i e' cs b') := by
    refine ⟨hg.sorted, hg.two, ?_, ?_, ?_⟩
    · simp [setSlot, hg.buckets]
    · simp [setSlot, hg.edges]
    · intro l hl; simp [setSlot, hcs l hl]
  have key := reslots (n' := setSlot n i e' cs b') hg sh rfl rfl (fun j => j ≠ i)
    (fun l h e b c => l = lo ∧ h = hi ∧ e = e' ∧ b = b' ∧ c = (setSlot n i e' cs b').childAt i) ?_
  · refine ⟨key.1, ?_, ?_⟩
    · intro k h1 h2
      rcases key.2 k with ⟨_, hq⟩ | ⟨l, h, x, y, c, ⟨rfl, rfl, rfl, rfl, rfl⟩, _, _, hv⟩
      · exact absurd (route_eq hg.sorted hs.lo hs.hi h1 h2) (hq (hg.bounded hs h1 h2))
      · exact hv
    · intro k hk
      rcases key.2 k with ⟨hv, _⟩ | ⟨l, h, x, y, c, ⟨rfl, rfl, rfl, rfl, rfl⟩, h1, h2, _⟩
      · exact hv
      · exact absurd ⟨h1, h2⟩ hk
  · rintro j l h x y ⟨s1, s2, s3, s4⟩
    simp only [setSlot] at s1 s2 s3 s4
    by_cases hj : i = j
    · subst hj
      rw [List.getElem?_set_self hie] at s3
      rw [List.getElem?_set_self hib] at s4
      cases s3; cases s4
      have e1 := s1.symm.trans hs.lo
      have e2 := s2.symm.trans hs.hi
      simp at e1 e2
      subst e1; subst e2
      exact .inr ⟨hok, rfl, rfl, rfl, rfl, rfl⟩
    · rw [List.getElem?_set_ne hj] at s3 s4
      exact .inl ⟨j, fun c => hj c.symm, ⟨s1, s2, s3, s4⟩, hch j (fun c => hj c.symm)⟩

/-- What a put does to a node. -/
theorem add_spec {n : Node} (hg : Good n) {k : Key} (hb : Bounded n.pivots k) (v : Value) :
    Good (n.add k (.define v)) ∧ (n.add k (.define v)).children = n.children ∧
      (∃ x, view n k = some x ∧ view (n.add k (.define v)) k = some { x with msg := .define v }) ∧
      (∀ k', k' ≠ k → view (n.add k (.define v)) k' = view n k') := by
  obtain ⟨i, lo, hi, e, b, hs, h1, h2⟩ := hg.find hb
  have hr := route_eq hg.sorted hs.lo hs.hi h1 h2
  have hok := hg.slots _ _ _ _ _ hs
  have hform : n.add k (.define v) = setSlot n i e n.children (b.add k (.define v)) := by
    simp only [Node.add, setSlot, hr, Node.bucketAt, hs.b, Option.getD_some, Node.mk.injEq, true_and,
      and_true]
    refine List.ext_getElem? (fun j => ?_)
    by_cases hj : i = j
    · subst hj
      rw [List.getElem?_set_self (lt_of_getElem? hs.e), hs.e]
    · rw [List.getElem?_set_ne hj]
  have hok' : SlotOK lo hi e (b.add k (.define v)) := by
    refine ⟨hok.lt, hok.lcp, ?_, ?_, hok.sorted.add k v⟩
    · intro x hx
      rcases Bucket.mem_add.mp hx with rfl | ⟨hx, _⟩
      · exact ⟨h1, h2⟩
      · exact hok.keys x hx
    · intro x hx
      rcases Bucket.mem_add.mp hx with rfl | ⟨hx, _⟩
      · simp
      · exact hok.defs x hx
  obtain ⟨a1, a2, a3⟩ := setSlot_spec (e' := e) (b' := b.add k (.define v)) (cs := n.children) hg hs hok'
    hg.children (fun j _ => rfl)
  rw [hform]
  refine ⟨a1, rfl, ⟨_, view_slot hg.toShape hs h1 h2, ?_⟩, ?_⟩
  · rw [a2 k h1 h2, Bucket.get_mem (hok.sorted.add k v) (Bucket.mem_add.mpr (.inl rfl))]
    rfl
  · intro k' hk'
    by_cases hin : lo ≤ .key k' ∧ .key k' < hi
    · rw [a2 k' hin.1 hin.2, view_slot hg.toShape hs hin.1 hin.2]
      have : (b.add k (.define v)).get k' = b.get k' := by
        refine Bucket.get_congr (hok.sorted.add k v) hok.sorted (fun m => ?_)
        rw [Bucket.mem_add]
        constructor
        · rintro (h | h)
          · cases h; exact absurd rfl hk'
          · exact h.1
        · exact fun h => .inr ⟨h, hk'⟩
      rw [this]; rfl
    · exact a3 k' hin

/-! ### Flush -/

theorem get_filter {b : Bucket} (hs : b.Sorted) (f : Key × Message → Bool) (g : Key → Bool)
    (k : Key) (hf : ∀ m, f (k, m) = g k) :
    Bucket.get (b.filter f) k = if g k then b.get k else .update := by
  have hs' : Bucket.Sorted (b.filter f) := hs.sublist List.filter_sublist
  split
  · next h =>
    exact Bucket.get_congr hs' hs (fun m => by rw [List.mem_filter, hf, h]; simp)
  · next h =>
    refine Bucket.get_none (fun m hm => ?_)
    rw [List.mem_filter, hf] at hm
    exact h hm.2

theorem get_merge {t b : Bucket} (ht : t.Sorted) (hb : b.Sorted) (hd : t.Defs) (k : Key) :
    Bucket.get (Bucket.merge t b) k = (t.get k).merge (b.get k) := by
  have hs := Bucket.Sorted.merge t b ht hb hd
  by_cases h : ∃ m, (k, m) ∈ t
  · obtain ⟨m, hm⟩ := h
    rw [Bucket.get_mem hs ((Bucket.mem_merge t b ht hb hd).mpr (.inl hm)), Bucket.get_mem ht hm,
      merge_ne (hd _ hm)]
  · have hn : ∀ m, (k, m) ∉ t := fun m hm => h ⟨m, hm⟩
    rw [Bucket.get_none hn]
    refine Bucket.get_congr hs hb (fun m => ?_)
    rw [Bucket.mem_merge t b ht hb hd]
    exact ⟨fun h => h.elim (fun h => absurd h (hn m)) (·.1), fun h => .inr ⟨h, hn⟩⟩

/-- The child of a flush. -/
theorem flush_child {f : Flush} (hp : Good f.parent) (hc : Good f.child) {lo hi e b}
    (hs : Slot f.parent f.slot lo hi e b) (hr : InChildRange f.parent f.child f.slot) :
    Good f.newchild ∧ (f.newchild.children = none ↔ f.child.children = none) ∧
      (∀ k, ¬ (lo ≤ .key k ∧ .key k < hi) → view f.newchild k = none) ∧
      (∀ k, lo ≤ .key k → .key k < hi → ∃ x, view f.child (tr lo hi e k) = some x ∧
        view f.newchild k = some { x with msg :=
          (if f.flushed k then b.get k else .update).merge x.msg }) ∧
      (∀ x, Succs f.newchild x → Succs f.child x) := by
  have hok := hp.slots _ _ _ _ _ hs
  obtain ⟨a1, a2, a3, a4, a5, a6⟩ := restrictChild_spec hp hc hs hr
  have hcut : f.cut = restrictChild f.parent f.child f.slot := rfl
  have hbk : f.bucket = b := by simp [Flush.bucket, hs.b]
  rw [← hcut] at a1 a2 a3 a4 a5 a6
  have sh : Shape f.newchild := by
    refine ⟨a1.sorted, a1.two, ?_, ?_, ?_⟩
    · simp [Flush.newchild, a1.buckets]
    · simp [Flush.newchild, a1.edges]
    · intro l hl; simp [Flush.newchild, a1.children l hl]
  have td : ∀ i, Bucket.Defs (f.bucket.filter
      (fun x => f.flushed x.1 && route f.cut.pivots x.1 == i)) := by
    intro i x hx
    rw [hbk] at hx
    exact hok.defs x (List.mem_filter.mp hx).1
  have ts : ∀ i, Bucket.Sorted (f.bucket.filter
      (fun x => f.flushed x.1 && route f.cut.pivots x.1 == i)) := by
    intro i
    rw [hbk]
    exact hok.sorted.sublist List.filter_sublist
  have slot : ∀ {i lo' hi' e' b'}, Slot f.cut i lo' hi' e' b' → Slot f.newchild i lo' hi' e' (Bucket.merge
      (f.bucket.filter (fun x => f.flushed x.1 && route f.cut.pivots x.1 == i)) b') := by
    rintro i lo' hi' e' b' ⟨s1, s2, s3, s4⟩
    refine ⟨s1, s2, s3, ?_⟩
    simp [Flush.newchild, List.getElem?_mapIdx, s4]
  have inb : ∀ k, Bounded f.cut.pivots k ↔ lo ≤ .key k ∧ .key k < hi := by
    intro k
    constructor
    · rintro ⟨x, y, b1, b2, b3, b4⟩
      rw [a2] at b1; rw [a3] at b2; cases b1; cases b2
      exact ⟨b3, b4⟩
    · rintro ⟨h1, h2⟩
      exact ⟨lo, hi, a2, a3, h1, h2⟩
  refine ⟨{ sh with slots := ?_ }, ?_, ?_, ?_, a6⟩
  · intro i lo' hi' e' b'' hs'
    obtain ⟨l0, h0, e0, b0, hs0⟩ := a1.slot (i := i) (by simpa [Flush.newchild] using hs'.bound)
    obtain ⟨rfl, rfl, rfl, rfl⟩ := (slot hs0).unique hs'
    have ok0 := a1.slots _ _ _ _ _ hs0
    refine ⟨ok0.lt, ok0.lcp, ?_, ?_, Bucket.Sorted.merge _ _ (ts i) ok0.sorted (td i)⟩
    · intro x hx
      rcases (Bucket.mem_merge _ _ (ts i) ok0.sorted (td i)).mp hx with hx | ⟨hx, _⟩
      · rw [List.mem_filter, hbk] at hx
        obtain ⟨hx1, hx2⟩ := hx
        simp only [Bool.and_eq_true, beq_iff_eq] at hx2
        obtain ⟨j, l1, h1, e1, b1, hs1, c1, c2⟩ := a1.find ((inb x.1).mpr (hok.keys x hx1))
        have := route_eq a1.sorted hs1.lo hs1.hi c1 c2
        rw [hx2.2] at this
        subst this
        obtain ⟨rfl, rfl, _, _⟩ := hs0.unique hs1
        exact ⟨c1, c2⟩
      · exact ok0.keys x hx
    · intro x hx
      rcases (Bucket.mem_merge _ _ (ts i) ok0.sorted (td i)).mp hx with hx | ⟨hx, _⟩
      · exact td i x hx
      · exact ok0.defs x hx
  · exact a5
  · intro k hk
    exact view_none (fun h => hk ((inb k).mp h))
  · intro k h1 h2
    obtain ⟨i, l0, h0, e0, b0, hs0, c1, c2⟩ := a1.find ((inb k).mpr ⟨h1, h2⟩)
    have ok0 := a1.slots _ _ _ _ _ hs0
    have hv := view_slot a1.toShape hs0 c1 c2
    rw [a4 k h1 h2] at hv
    refine ⟨_, hv, ?_⟩
    rw [view_slot sh (slot hs0) c1 c2, get_merge (ts i) ok0.sorted (td i), hbk,
      get_filter hok.sorted _ f.flushed]
    · rfl
    · intro m
      simp [route_eq a1.sorted hs0.lo hs0.hi c1 c2]

/-- The parent of a flush. -/
theorem flush_parent {f : Flush} (hp : Good f.parent) {lo hi e b}
    (hs : Slot f.parent f.slot lo hi e b) (hi' : f.parent.children ≠ none) :
    Good f.newparent ∧ f.newparent.children ≠ none ∧
      (∀ k, lo ≤ .key k → .key k < hi → view f.newparent k =
        some ⟨k, some f.newchildref, if f.flushed k then .update else b.get k⟩) ∧
      (∀ k, ¬ (lo ≤ .key k ∧ .key k < hi) → view f.newparent k = view f.parent k) := by
  have hok := hp.slots _ _ _ _ _ hs
  have hbk : f.bucket = b := by simp [Flush.bucket, hs.b]
  cases hc : f.parent.children with
  | none => exact absurd hc hi'
  | some cs =>
    have hl := hp.children cs hc
    have hform : f.newparent = setSlot f.parent f.slot none (some (cs.set f.slot f.newchildref))
        (b.filter (fun x => !f.flushed x.1)) := by
      simp [Flush.newparent, setSlot, hc, hbk]
    have hok' : SlotOK lo hi none (b.filter (fun x => !f.flushed x.1)) :=
      ⟨hok.lt, by simp, fun x hx => hok.keys x (List.mem_filter.mp hx).1,
        fun x hx => hok.defs x (List.mem_filter.mp hx).1, hok.sorted.sublist List.filter_sublist⟩
    obtain ⟨b1, b2, b3⟩ := setSlot_spec (cs := some (cs.set f.slot f.newchildref)) hp hs hok'
      (by intro l h; cases h; simp [hl]) (by
        intro j hj
        simp only [Node.childAt, setSlot, hc, Option.bind_some]
        rw [List.getElem?_set_ne (fun h => hj h.symm)])
    rw [hform]
    refine ⟨b1, by simp [setSlot], ?_, b3⟩
    intro k h1 h2
    rw [b2 k h1 h2, get_filter hok.sorted _ (fun k => !f.flushed k) k (fun _ => rfl)]
    have : (setSlot f.parent f.slot none (some (cs.set f.slot f.newchildref))
        (b.filter (fun x => !f.flushed x.1))).childAt f.slot = some f.newchildref := by
      simp only [Node.childAt, setSlot, Option.bind_some]
      rw [List.getElem?_set_self (by rw [hl]; exact hs.bound)]
    rw [this]
    cases f.flushed k <;> rfl

/-! ### Split -/

theorem splitLeft_spec {n : Node} (hg : Good n) {num : Nat} (h1 : 1 ≤ num) (h2 : num < n.buckets.length)
    {p : Elem} (hp : n.pivots[num]? = some p) :
    Good (n.splitLeft num) ∧ (∀ k, .key k < p → view (n.splitLeft num) k = view n k) ∧
      (∀ k, p ≤ .key k → view (n.splitLeft num) k = none) ∧
      ((n.splitLeft num).children = none ↔ n.children = none) ∧
      (∀ x, Succs (n.splitLeft num) x → Succs n x) := by
  have hpl := hg.buckets
  have hel := hg.edges
  have sh : Shape (n.splitLeft num) := by
    refine ⟨sorted_take hg.sorted _, ?_, ?_, ?_, ?_⟩
    · simp only [Node.splitLeft, List.length_take]; omega
    · simp only [Node.splitLeft, List.length_take]; omega
    · simp only [Node.splitLeft, List.length_take]; omega
    · intro cs hcs
      obtain ⟨cs0, h0, rfl⟩ := Option.map_eq_some_iff.mp hcs
      have := hg.children cs0 h0
      simp only [Node.splitLeft, List.length_take]; omega
  have hhead : (n.splitLeft num).pivots.head? = n.pivots.head? := by
    rw [head?_getElem?, head?_getElem?]
    simp only [Node.splitLeft]
    rw [List.getElem?_take, if_pos (by omega)]
  have hlast : (n.splitLeft num).pivots.getLast? = some p := by
    rw [List.getLast?_eq_getElem?]
    simp only [Node.splitLeft, List.length_take]
    rw [Nat.min_eq_left (by omega), List.getElem?_take, if_pos (by omega)]
    exact hp
  have key := restrict (n' := n.splitLeft num) hg sh ?_
  · refine ⟨key.1, ?_, ?_, by simp [Node.splitLeft], ?_⟩
    · intro k hk
      by_cases hb : Bounded n.pivots k
      · obtain ⟨x, y, b1, b2, b3, b4⟩ := hb
        exact key.2 k ⟨x, p, hhead.trans b1, hlast, b3, hk⟩
      · rw [view_none hb, view_none]
        rintro ⟨x, y, b1, b2, b3, b4⟩
        rw [hhead, head?_getElem?] at b1
        exact hb (bounded_of_slot hg.sorted b1 hp b3 hk)
    · intro k hk
      refine view_none ?_
      rintro ⟨x, y, b1, b2, b3, b4⟩
      rw [hlast] at b2; cases b2
      exact absurd b4 (not_lt.mpr hk)
    · rintro x ⟨cs, hcs, hx⟩
      obtain ⟨cs0, h0, rfl⟩ := Option.map_eq_some_iff.mp hcs
      exact ⟨cs0, h0, List.mem_of_mem_take hx⟩
  · rintro i lo hi e b hs
    have hb := hs.bound
    simp only [Node.splitLeft, List.length_take] at hb
    obtain ⟨s1, s2, s3, s4⟩ := hs
    simp only [Node.splitLeft] at s1 s2 s3 s4
    rw [List.getElem?_take, if_pos (by omega)] at s1 s2 s3 s4
    have hs' : Slot n i lo hi e b := ⟨s1, s2, s3, s4⟩
    refine ⟨i, lo, hi, e, b, hs', .refl (hg.slots _ _ _ _ _ hs'), ?_⟩
    simp only [Node.childAt, Node.splitLeft]
    cases n.children with
    | none => rfl
    | some cs =>
      simp only [Option.map_some, Option.bind_some]
      rw [List.getElem?_take, if_pos (by omega)]

theorem splitRight_spec {n : Node} (hg : Good n) {num : Nat} (h2 : num < n.buckets.length)
    {p : Elem} (hp : n.pivots[num]? = some p) :
    Good (n.splitRight num) ∧ (∀ k, p ≤ .key k → view (n.splitRight num) k = view n k) ∧
      (∀ k, .key k < p → view (n.splitRight num) k = none) ∧
      ((n.splitRight num).children = none ↔ n.children = none) ∧
      (∀ x, Succs (n.splitRight num) x → Succs n x) := by
  have hpl := hg.buckets
  have hel := hg.edges
  have sh : Shape (n.splitRight num) := by
    refine ⟨sorted_drop hg.sorted _, ?_, ?_, ?_, ?_⟩
    · simp only [Node.splitRight, List.length_drop]; omega
    · simp only [Node.splitRight, List.length_drop]; omega
    · simp only [Node.splitRight, List.length_drop]; omega
    · intro cs hcs
      obtain ⟨cs0, h0, rfl⟩ := Option.map_eq_some_iff.mp hcs
      have := hg.children cs0 h0
      simp only [Node.splitRight, List.length_drop]; omega
  have hhead : (n.splitRight num).pivots.head? = some p := by
    rw [head?_getElem?]
    simp only [Node.splitRight]
    rw [List.getElem?_drop]
    simpa using hp
  have hlast : (n.splitRight num).pivots.getLast? = n.pivots.getLast? := by
    simp only [Node.splitRight]
    rw [List.getLast?_drop, if_neg (by omega)]
  have key := restrict (n' := n.splitRight num) hg sh ?_
  · refine ⟨key.1, ?_, ?_, by simp [Node.splitRight], ?_⟩
    · intro k hk
      by_cases hb : Bounded n.pivots k
      · obtain ⟨x, y, b1, b2, b3, b4⟩ := hb
        exact key.2 k ⟨p, y, hhead, hlast.trans b2, hk, b4⟩
      · rw [view_none hb, view_none]
        rintro ⟨x, y, b1, b2, b3, b4⟩
        rw [hlast, List.getLast?_eq_getElem?] at b2
        exact hb (bounded_of_slot hg.sorted hp b2 hk b4)
    · intro k hk
      refine view_none ?_
      rintro ⟨x, y, b1, b2, b3, b4⟩
      rw [hhead] at b1; cases b1
      exact absurd hk (not_lt.mpr b3)
    · rintro x ⟨cs, hcs, hx⟩
      obtain ⟨cs0, h0, rfl⟩ := Option.map_eq_some_iff.mp hcs
      exact ⟨cs0, h0, List.mem_of_mem_drop hx⟩
  · rintro i lo hi e b hs
    obtain ⟨s1, s2, s3, s4⟩ := hs
    simp only [Node.splitRight, List.getElem?_drop] at s1 s2 s3 s4
    have hs' : Slot n (num + i) lo hi e b := ⟨s1, s2, s3, s4⟩
    refine ⟨_, lo, hi, e, b, hs', .refl (hg.slots _ _ _ _ _ hs'), ?_⟩
    simp only [Node.childAt, Node.splitRight]
    cases n.children with
    | none => rfl
    | some cs => simp only [Option.map_some, Option.bind_some, List.getElem?_drop]

theorem splitParent_spec {n : Node} (hg : Good n) {i lo hi e b} (hs : Slot n i lo hi e b) {p : Key}
    (h1 : lo < .key p) (h2 : .key p < hi) {l r : Ref} (hi' : n.children ≠ none) :
    Good (n.splitParent p i l r) ∧ (n.splitParent p i l r).children ≠ none ∧
      (∀ k, lo ≤ .key k → .key k < Elem.key p →
        view (n.splitParent p i l r) k = some ⟨k, some l, b.get k⟩) ∧
      (∀ k, Elem.key p ≤ .key k → .key k < hi →
        view (n.splitParent p i l r) k = some ⟨k, some r, b.get k⟩) ∧
      (∀ k, ¬ (lo ≤ .key k ∧ .key k < hi) → view (n.splitParent p i l r) k = view n k) := by
  have hok := hg.slots _ _ _ _ _ hs
  have hpl := hg.buckets
  have hel := hg.edges
  have hib := hs.bound
  obtain ⟨cs, hcs⟩ := Option.ne_none_iff_exists'.mp hi'
  have hcl := hg.children cs hcs
  have gp := fun j => get_insertAt (s := n.pivots) (a := Elem.key p) (pos := i + 1) (by omega) j
  have ge := fun j => get_replace1with2 (s := n.edges) (a := none) (b := none) (pos := i) (by omega) j
  have gb := fun j => get_replace1with2 (s := n.buckets) (a := b.left p) (b := b.right p) (pos := i) hib j
  have gc := fun j => get_replace1with2 (s := cs) (a := l) (b := r) (pos := i) (by omega) j
  have hform : n.splitParent p i l r = ⟨n.pivots.take (i + 1) ++ .key p :: n.pivots.drop (i + 1),
      replace1with2 n.edges none none i, some (replace1with2 cs l r i),
      replace1with2 n.buckets (b.left p) (b.right p) i⟩ := by
    simp [Node.splitParent, hcs, hs.b]
  rw [hform]
  have sh : Shape ⟨n.pivots.take (i + 1) ++ .key p :: n.pivots.drop (i + 1),
      replace1with2 n.edges none none i, some (replace1with2 cs l r i),
      replace1with2 n.buckets (b.left p) (b.right p) i⟩ := by
    refine ⟨?_, ?_, ?_, ?_, ?_⟩
    · refine List.pairwise_append.mpr ⟨sorted_take hg.sorted _, List.pairwise_cons.mpr
        ⟨fun x hx => lt_of_lt_of_le h2 (mem_drop_ge hg.sorted hs.hi hx), sorted_drop hg.sorted _⟩, ?_⟩
      intro x hx y hy
      have hx' := mem_take_le hg.sorted hs.lo hx
      rcases List.mem_cons.mp hy with rfl | hy
      · exact lt_of_le_of_lt hx' h1
      · exact lt_of_le_of_lt hx' (lt_of_lt_of_le hok.lt (mem_drop_ge hg.sorted hs.hi hy))
    · simp only [List.length_append, List.length_cons, List.length_take, List.length_drop]; omega
    · simp only [replace1with2, List.length_append, List.length_cons, List.length_take, List.length_drop]; omega
    · simp only [replace1with2, List.length_append, List.length_cons, List.length_take, List.length_drop]; omega
    · intro cs' h; cases h
      simp only [replace1with2, List.length_append, List.length_cons, List.length_take, List.length_drop]; omega
  have key := reslots hg sh ?_ ?_ (fun j => j ≠ i)
    (fun l' h' e' b' c' => e' = none ∧ ((l' = lo ∧ h' = .key p ∧ b' = b.left p ∧ c' = some l) ∨
      (l' = .key p ∧ h' = hi ∧ b' = b.right p ∧ c' = some r))) ?_
  · have getl : ∀ k, .key k < Elem.key p → (b.left p).get k = b.get k := fun k hk =>
      Bucket.get_congr (hok.sorted.left p) hok.sorted (fun m => by
        rw [Bucket.mem_left hok.sorted]; exact ⟨fun h => h.1, fun h => ⟨h, hk⟩⟩)
    have getr : ∀ k, Elem.key p ≤ .key k → (b.right p).get k = b.get k := fun k hk =>
      Bucket.get_congr (hok.sorted.right p) hok.sorted (fun m => by
        rw [Bucket.mem_right hok.sorted]; exact ⟨fun h => h.1, fun h => ⟨h, hk⟩⟩)
    refine ⟨key.1, by simp, ?_, ?_, ?_⟩
    · intro k k1 k2
      have k3 := lt_trans k2 h2
      rcases key.2 k with ⟨_, hq⟩ | ⟨l', h', e', b', c', ⟨rfl, ⟨rfl, rfl, rfl, rfl⟩ | ⟨rfl, rfl, rfl, rfl⟩⟩, c1, c2, hv⟩
      · exact absurd (route_eq hg.sorted hs.lo hs.hi k1 k3) (hq (hg.bounded hs k1 k3))
      · rw [hv, getl k k2]; rfl
      · exact absurd k2 (not_lt.mpr c1)
    · intro k k1 k2
      have k3 := le_trans (le_of_lt h1) k1
      rcases key.2 k with ⟨_, hq⟩ | ⟨l', h', e', b', c', ⟨rfl, ⟨rfl, rfl, rfl, rfl⟩ | ⟨rfl, rfl, rfl, rfl⟩⟩, c1, c2, hv⟩
      · exact absurd (route_eq hg.sorted hs.lo hs.hi k3 k2) (hq (hg.bounded hs k3 k2))
      · exact absurd c2 (not_lt.mpr k1)
      · rw [hv, getr k k1]; rfl
    · intro k hk
      rcases key.2 k with ⟨hv, _⟩ | ⟨l', h', e', b', c', ⟨rfl, ⟨rfl, rfl, rfl, rfl⟩ | ⟨rfl, rfl, rfl, rfl⟩⟩, c1, c2, hv⟩
      · exact hv
      · exact absurd ⟨c1, lt_trans c2 h2⟩ hk
      · exact absurd ⟨le_trans (le_of_lt h1) c1, c2⟩ hk
  · rw [head?_getElem?, head?_getElem?, gp, if_pos (by omega)]
  · rw [List.getLast?_eq_getElem?, List.getLast?_eq_getElem?, gp]
    have : (n.pivots.take (i + 1) ++ Elem.key p :: n.pivots.drop (i + 1)).length = n.pivots.length + 1 := by
      simp only [List.length_append, List.length_cons, List.length_take, List.length_drop]; omega
    rw [this, if_neg (by omega), if_neg (by omega)]
    congr 1
  · rintro j l' h' e' b' ⟨s1, s2, s3, s4⟩
    simp only [gp, ge, gb] at s1 s2 s3 s4
    simp only [Node.childAt, Option.bind_some, gc]
    by_cases c1 : j < i
    · rw [if_pos (by omega)] at s1 s2 s3 s4
      refine .inl ⟨j, by omega, ⟨s1, s2, s3, s4⟩, ?_⟩
      rw [if_pos c1, hcs]; rfl
    · by_cases c2 : j = i
      · subst c2
        rw [if_pos (by omega)] at s1
        rw [if_neg (by omega), if_pos rfl] at s2
        rw [if_neg (by omega), if_pos rfl] at s3 s4
        cases s2; cases s3; cases s4
        have := s1.symm.trans hs.lo
        simp at this; subst this
        refine .inr ⟨⟨h1, by simp, ?_, ?_, hok.sorted.left p⟩, rfl, .inl ⟨rfl, rfl, rfl, ?_⟩⟩
        · intro x hx
          obtain ⟨hx1, hx2⟩ := (Bucket.mem_left hok.sorted).mp hx
          exact ⟨(hok.keys x hx1).1, hx2⟩
        · intro x hx
          exact hok.defs x ((Bucket.mem_left hok.sorted).mp hx).1
        · rw [if_neg (by omega), if_pos rfl]
      · by_cases c3 : j = i + 1
        · subst c3
          rw [if_neg (by omega), if_pos rfl] at s1
          rw [if_neg (by omega), if_neg (by omega)] at s2
          rw [if_neg (by omega), if_neg (by omega), if_pos rfl] at s3 s4
          cases s1; cases s3; cases s4
          have := s2.symm.trans hs.hi
          simp at this; subst this
          refine .inr ⟨⟨h2, by simp, ?_, ?_, hok.sorted.right p⟩, rfl, .inr ⟨rfl, rfl, rfl, ?_⟩⟩
          · intro x hx
            obtain ⟨hx1, hx2⟩ := (Bucket.mem_right hok.sorted).mp hx
            exact ⟨hx2, (hok.keys x hx1).2⟩
          · intro x hx
            exact hok.defs x ((Bucket.mem_right hok.sorted).mp hx).1
          · rw [if_neg (by omega), if_neg (by omega), if_pos rfl]
        · rw [if_neg (by omega), if_neg (by omega)] at s1 s2
          rw [if_neg (by omega), if_neg (by omega), if_neg (by omega)] at s3 s4
          obtain ⟨d, rfl⟩ := Nat.exists_eq_add_of_le (show 1 ≤ j by omega)
          have ed : 1 + d - 1 = d := by omega
          have ed' : 1 + d + 1 - 1 = d + 1 := by omega
          rw [ed] at s1 s3 s4; rw [ed'] at s2
          refine .inl ⟨d, by omega, ⟨s1, s2, s3, s4⟩, ?_⟩
          rw [if_neg (by omega), if_neg (by omega), if_neg (by omega), ed, hcs]; rfl

/-! ### Merge -/

theorem fusedParent_spec {n : Node} (hg : Good n) {i lo mid hi e1 b1 e2 b2} (hs1 : Slot n i lo mid e1 b1)
    (hs2 : Slot n (i + 1) mid hi e2 b2) {c : Ref} (hi' : n.children ≠ none) :
    Good (n.fusedParent i c) ∧ (n.fusedParent i c).children ≠ none ∧
      (∀ k, lo ≤ .key k → .key k < hi → view (n.fusedParent i c) k =
        some ⟨k, some c, if Elem.key k < mid then b1.get k else b2.get k⟩) ∧
      (∀ k, ¬ (lo ≤ .key k ∧ .key k < hi) → view (n.fusedParent i c) k = view n k) := by
  have hok1 := hg.slots _ _ _ _ _ hs1
  have hok2 := hg.slots _ _ _ _ _ hs2
  have hpl := hg.buckets
  have hel := hg.edges
  have hib := hs2.bound
  obtain ⟨cs, hcs⟩ := Option.ne_none_iff_exists'.mp hi'
  have hcl := hg.children cs hcs
  have gp := fun j => get_removeAt (s := n.pivots) (pos := i + 1) (by omega) j
  have ge := fun j => get_replace2with1 (s := n.edges) (a := none) (pos := i) (by omega) j
  have gb := fun j => get_replace2with1 (s := n.buckets) (a := b1 ++ b2) (pos := i) hib j
  have gc := fun j => get_replace2with1 (s := cs) (a := c) (pos := i) (by omega) j
  have hform : n.fusedParent i c = ⟨n.pivots.take (i + 1) ++ n.pivots.drop (i + 1 + 1),
      replace2with1 n.edges none i, some (replace2with1 cs c i),
      replace2with1 n.buckets (b1 ++ b2) i⟩ := by
    simp [Node.fusedParent, hcs, hs1.b, hs2.b]
  rw [hform]
  have hsort : Bucket.Sorted (b1 ++ b2) := List.pairwise_append.mpr ⟨hok1.sorted, hok2.sorted,
    fun x hx y hy => lt_of_lt_of_le (hok1.keys x hx).2 (hok2.keys y hy).1⟩
  have sh : Shape ⟨n.pivots.take (i + 1) ++ n.pivots.drop (i + 1 + 1),
      replace2with1 n.edges none i, some (replace2with1 cs c i),
      replace2with1 n.buckets (b1 ++ b2) i⟩ := by
    refine ⟨?_, ?_, ?_, ?_, ?_⟩
    · refine List.pairwise_append.mpr ⟨sorted_take hg.sorted _, sorted_drop hg.sorted _, ?_⟩
      intro x hx y hy
      exact lt_of_le_of_lt (mem_take_le hg.sorted hs1.lo hx)
        (lt_of_lt_of_le (lt_trans hok1.lt hok2.lt) (mem_drop_ge hg.sorted hs2.hi hy))
    · simp only [List.length_append, List.length_take, List.length_drop]; omega
    · simp only [replace2with1, List.length_append, List.length_cons, List.length_take, List.length_drop]; omega
    · simp only [replace2with1, List.length_append, List.length_cons, List.length_take, List.length_drop]; omega
    · intro cs' h; cases h
      simp only [replace2with1, List.length_append, List.length_cons, List.length_take, List.length_drop]; omega
  have key := reslots hg sh ?_ ?_ (fun j => j ≠ i ∧ j ≠ i + 1)
    (fun l' h' e' b' c' => e' = none ∧ l' = lo ∧ h' = hi ∧ b' = b1 ++ b2 ∧ c' = some c) ?_
  · refine ⟨key.1, by simp, ?_, ?_⟩
    · intro k k1 k2
      rcases key.2 k with ⟨_, hq⟩ | ⟨l', h', e', b', c', ⟨rfl, rfl, rfl, rfl, rfl⟩, c1, c2, hv⟩
      · by_cases hm : Elem.key k < mid
        · exact absurd (route_eq hg.sorted hs1.lo hs1.hi k1 hm) (hq (hg.bounded hs1 k1 hm)).1
        · have hm := not_lt.mp hm
          exact absurd (route_eq hg.sorted hs2.lo hs2.hi hm k2) (hq (hg.bounded hs2 hm k2)).2
      · rw [hv]
        have : (b1 ++ b2 : Bucket).get k = if Elem.key k < mid then b1.get k else b2.get k := by
          split
          · next hm =>
            refine Bucket.get_congr hsort hok1.sorted (fun m => ?_)
            rw [List.mem_append]
            exact ⟨fun h => h.elim id (fun h => absurd (hok2.keys _ h).1 (not_le.mpr hm)), .inl⟩
          · next hm =>
            refine Bucket.get_congr hsort hok2.sorted (fun m => ?_)
            rw [List.mem_append]
            exact ⟨fun h => h.elim (fun h => absurd (hok1.keys _ h).2 hm) id, .inr⟩
        rw [this]; rfl
    · intro k hk
      rcases key.2 k with ⟨hv, _⟩ | ⟨l', h', e', b', c', ⟨rfl, rfl, rfl, rfl, rfl⟩, c1, c2, hv⟩
      · exact hv
      · exact absurd ⟨c1, c2⟩ hk
  · rw [head?_getElem?, head?_getElem?, gp, if_pos (by omega)]
  · rw [List.getLast?_eq_getElem?, List.getLast?_eq_getElem?, gp]
    have : (n.pivots.take (i + 1) ++ n.pivots.drop (i + 1 + 1)).length = n.pivots.length - 1 := by
      simp only [List.length_append, List.length_take, List.length_drop]; omega
    rw [this, if_neg (by omega)]
    congr 1
    omega
  · rintro j l' h' e' b' ⟨s1, s2, s3, s4⟩
    simp only [gp, ge, gb] at s1 s2 s3 s4
    simp only [Node.childAt, Option.bind_some, gc]
    by_cases c1 : j < i
    · rw [if_pos (by omega)] at s1 s2 s3 s4
      refine .inl ⟨j, ⟨by omega, by omega⟩, ⟨s1, s2, s3, s4⟩, ?_⟩
      rw [if_pos c1, hcs]; rfl
    · by_cases c2 : j = i
      · subst c2
        rw [if_pos (by omega)] at s1
        rw [if_neg (by omega)] at s2
        rw [if_neg (by omega), if_pos rfl] at s3 s4
        cases s3; cases s4
        have e1 := s1.symm.trans hs1.lo
        have e2 := s2.symm.trans hs2.hi
        simp at e1 e2; subst e1; subst e2
        refine .inr ⟨⟨lt_trans hok1.lt hok2.lt, by simp, ?_, ?_, hsort⟩, rfl, rfl, rfl, rfl, ?_⟩
        · intro x hx
          rcases List.mem_append.mp hx with hx | hx
          · exact ⟨(hok1.keys x hx).1, lt_trans (hok1.keys x hx).2 hok2.lt⟩
          · exact ⟨le_trans (le_of_lt hok1.lt) (hok2.keys x hx).1, (hok2.keys x hx).2⟩
        · intro x hx
          rcases List.mem_append.mp hx with hx | hx
          · exact hok1.defs x hx
          · exact hok2.defs x hx
        · rw [if_neg (by omega), if_pos rfl]
      · rw [if_neg (by omega)] at s1 s2
        rw [if_neg (by omega), if_neg (by omega)] at s3 s4
        refine .inl ⟨j + 1, ⟨by omega, by omega⟩, ⟨s1, s2, s3, s4⟩, ?_⟩
        rw [if_neg (by omega), if_neg (by omega), hcs]; rfl

theorem fusedChild_eq {l r : Node} {p : Key} (h : r.pivots.head? = some (.key p)) :
    fusedChild l r p = join l r := by
  have : Elem.key p :: r.pivots.tail = r.pivots := by
    cases hr : r.pivots with
    | nil => rw [hr] at h; cases h
    | cons a as => rw [hr] at h; cases h; rfl
  simp [fusedChild, join, this]

/-! ### Repivot -/

theorem allKeys {pt : List Elem} (h : ContainsAll pt) (k : Key) : Bounded pt k :=
  ⟨_, _, h.1, h.2, Elem.nil_le k, Elem.key_lt_top k⟩

theorem repivot_spec {n : Node} (hg : Good n) {p : Key} (hv : ValidRepivot n p) :
    Good (n.repivot p) ∧ (n.repivot p).children = none ∧
      ∀ k, ∃ x, view (n.repivot p) k = some x ∧ x.child = none ∧
        x.msg = match view n k with
          | some y => y.msg
          | none => .update := by
  obtain ⟨lo, hi, e, b, hs⟩ := hg.slot (i := 0) (by rw [hv.single]; omega)
  have hok := hg.slots _ _ _ _ _ hs
  have hlt : Elem.key [] < .key p := by
    refine lt_of_le_of_ne (Elem.nil_le p) ?_
    rintro h; cases h; exact hv.nonempty rfl
  have hform : n.repivot p = ⟨[.key [], .key p, .top], [none, none], none, [b.left p, b.right p]⟩ := by
    simp [Node.repivot, hs.b]
  rw [hform]
  have sh : Shape ⟨[.key [], .key p, .top], [none, none], none, [b.left p, b.right p]⟩ := by
    refine ⟨?_, by simp, by simp, by simp, by simp⟩
    simp only [List.pairwise_cons, List.mem_cons, List.not_mem_nil, or_false, forall_eq_or_imp, forall_eq,
      List.Pairwise.nil, and_true]
    exact ⟨⟨hlt, Elem.key_lt_top _⟩, Elem.key_lt_top _, by simp⟩
  have s0 : Slot ⟨[.key [], .key p, .top], [none, none], none, [b.left p, b.right p]⟩ 0 (.key []) (.key p)
      none (b.left p) := ⟨rfl, rfl, rfl, rfl⟩
  have s1 : Slot ⟨[.key [], .key p, .top], [none, none], none, [b.left p, b.right p]⟩ 1 (.key p) .top
      none (b.right p) := ⟨rfl, rfl, rfl, rfl⟩
  have old : ∀ k, b.get k = match view n k with
      | some y => y.msg
      | none => .update := by
    intro k
    rcases view_cases hg.toShape k with ⟨hb, hv'⟩ | ⟨i, lo', hi', e', b', hs', c1, c2, hv'⟩
    · rw [hv']
      refine Bucket.get_none (fun m hm => hb ?_)
      obtain ⟨h1, h2⟩ := hok.keys _ hm
      exact hg.bounded hs h1 h2
    · have hi0 : i = 0 := by have := hs'.bound; rw [hv.single] at this; omega
      subst hi0
      obtain ⟨rfl, rfl, rfl, rfl⟩ := hs.unique hs'
      rw [hv']
  refine ⟨{ sh with slots := ?_ }, rfl, ?_⟩
  · intro i lo' hi' e' b' hs'
    have hb := hs'.bound
    simp only [List.length_cons, List.length_nil] at hb
    have : i = 0 ∨ i = 1 := by omega
    rcases this with rfl | rfl
    · obtain ⟨rfl, rfl, rfl, rfl⟩ := s0.unique hs'
      refine ⟨hlt, by simp, ?_, ?_, hok.sorted.left p⟩
      · intro x hx
        exact ⟨Elem.nil_le _, ((Bucket.mem_left hok.sorted).mp hx).2⟩
      · intro x hx
        exact hok.defs x ((Bucket.mem_left hok.sorted).mp hx).1
    · obtain ⟨rfl, rfl, rfl, rfl⟩ := s1.unique hs'
      refine ⟨Elem.key_lt_top _, by simp, ?_, ?_, hok.sorted.right p⟩
      · intro x hx
        exact ⟨((Bucket.mem_right hok.sorted).mp hx).2, Elem.key_lt_top _⟩
      · intro x hx
        exact hok.defs x ((Bucket.mem_right hok.sorted).mp hx).1
  · intro k
    rw [← old k]
    by_cases hk : Elem.key k < .key p
    · refine ⟨_, view_slot sh s0 (Elem.nil_le k) hk, rfl, ?_⟩
      exact Bucket.get_congr (hok.sorted.left p) hok.sorted (fun m => by
        rw [Bucket.mem_left hok.sorted]; exact ⟨fun h => h.1, fun h => ⟨h, hk⟩⟩)
    · have hk := not_lt.mp hk
      refine ⟨_, view_slot sh s1 hk (Elem.key_lt_top k), rfl, ?_⟩
      exact Bucket.get_congr (hok.sorted.right p) hok.sorted (fun m => by
        rw [Bucket.mem_right hok.sorted]; exact ⟨fun h => h.1, fun h => ⟨h, hk⟩⟩)

/-! ### Clone -/

/-- A node with all its buckets emptied. -/
theorem emptied_spec {n : Node} (hg : Good n) :
    Good { n with buckets := n.buckets.map (fun _ => []) } ∧
      ∀ k, view { n with buckets := n.buckets.map (fun _ => []) } k =
        (view n k).map (fun x => { x with msg := .update }) := by
  have sh : Shape { n with buckets := n.buckets.map (fun _ => []) } := by
    refine ⟨hg.sorted, hg.two, ?_, ?_, ?_⟩
    · simp [hg.buckets]
    · simp [hg.edges]
    · intro cs hcs; simp [hg.children cs hcs]
  have slot : ∀ {i lo hi e b}, Slot n i lo hi e b →
      Slot { n with buckets := n.buckets.map (fun _ => []) } i lo hi e [] := by
    rintro i lo hi e b ⟨s1, s2, s3, s4⟩
    exact ⟨s1, s2, s3, by simp [s4]⟩
  refine ⟨{ sh with slots := ?_ }, ?_⟩
  · intro i lo hi e b hs
    obtain ⟨l0, h0, e0, b0, hs0⟩ := hg.slot (i := i) (by simpa using hs.bound)
    obtain ⟨rfl, rfl, rfl, rfl⟩ := (slot hs0).unique hs
    have ok0 := hg.slots _ _ _ _ _ hs0
    exact ⟨ok0.lt, ok0.lcp, by simp, fun x hx => by simp at hx, .nil⟩
  · intro k
    rcases view_cases hg.toShape k with ⟨hb, hv⟩ | ⟨i, lo, hi, e, b, hs, c1, c2, hv⟩
    · rw [hv, view_none]; rfl
      exact hb
    · rw [hv, view_slot sh (slot hs) c1 c2]; rfl

/-- The cloned part of the root. -/
theorem cloned_spec {n : Node} (hg : Good n) (hall : ContainsAll n.pivots) {src dst : Key}
    (hd : dst ≠ []) :
    Good (n.cloned src dst) ∧ (n.cloned src dst).pivots.head? = some (.key dst) ∧
      (n.cloned src dst).pivots.getLast? = some (prefixEnd dst) ∧
      (∀ s, view (n.cloned src dst) (dst ++ s) =
        (view n (src ++ s)).map (fun x => { x with msg := .update })) ∧
      ((n.cloned src dst).children = none ↔ n.children = none) ∧
      (∀ x, Succs (n.cloned src dst) x → Succs n x) := by
  have hlt : ∀ p s : Key, Elem.key (p ++ s) < prefixEnd p := fun p s =>
    ((prefixEnd_iff p (p ++ s)).mpr (List.prefix_append _ _)).2
  have hlt0 : Elem.key src < prefixEnd src := by simpa using hlt src []
  obtain ⟨a1, a2, a3, a4, a5, a6⟩ := cutoff_spec hg hall.1 hall.2 (Elem.nil_le src) hlt0 (Elem.le_top _)
  obtain ⟨b1, b2, b3, b4⟩ := translate_spec (s0 := []) (q := dst) (stop := prefixEnd dst) a1 hd
    (by simpa using a2) a3 (fun k h1 h2 => (prefixEnd_iff src k).mp ⟨by simpa using h1, h2⟩)
    (fun k h1 h2 => (prefixEnd_iff dst k).mp ⟨by simpa using h1, h2⟩)
    (fun s => ⟨fun _ => hlt dst s, fun _ => hlt src s⟩)
  obtain ⟨c1, c2⟩ := emptied_spec b1
  rw [List.append_nil] at b2
  refine ⟨c1, b2, b3, ?_, a5, a6⟩
  intro s
  have := c2 (dst ++ s)
  rw [b4, a4 _ (Elem.prefix_le (List.prefix_append _ _)) (hlt src s)] at this
  exact this

theorem cloneRoot_spec {n : Node} (hg : Good n) {src dst : Key} (hv : ValidClone n src dst) :
    Good (n.cloneRoot src dst) ∧ (n.cloneRoot src dst).children ≠ none ∧
      (∀ s, view (n.cloneRoot src dst) (dst ++ s) =
        (view n (src ++ s)).map (fun x => { x with msg := .update })) ∧
      (∀ k, ¬ dst <+: k → view (n.cloneRoot src dst) k = view n k) := by
  obtain ⟨t1, t2, t3, t4, t5, t6⟩ := cloned_spec (src := src) hg hv.all hv.nonempty
  have hpos : Elem.key [] < .key dst := by
    refine lt_of_le_of_ne (Elem.nil_le dst) ?_
    rintro h; cases h; exact hv.nonempty rfl
  obtain ⟨l1, l2, l3, l4, l5, l6⟩ := keepLeft_spec hg hv.all.1 hv.all.2 hpos (Elem.le_top _)
  obtain ⟨j1, j2, j3, j4, j5, j6, j7⟩ := join_spec l1 t1 l3 t2 (l5.trans t5.symm)
  have hin : ∀ s, Elem.key dst ≤ .key (dst ++ s) ∧ Elem.key (dst ++ s) < prefixEnd dst := fun s =>
    (prefixEnd_iff dst _).mpr (List.prefix_append _ _)
  obtain ⟨lcs, hlc⟩ := Option.ne_none_iff_exists'.mp (show (n.keepLeft dst).children ≠ none from
    fun h => hv.inner (l5.mp h))
  obtain ⟨tcs, htc⟩ := Option.ne_none_iff_exists'.mp (show (n.cloned src dst).children ≠ none from
    fun h => hv.inner (t5.mp h))
  cases he : prefixEnd dst with
  | top =>
    have hform : n.cloneRoot src dst = join (n.keepLeft dst) (n.cloned src dst) := by
      simp [Node.cloneRoot, he, join, hlc]
    rw [hform]
    refine ⟨j1, fun h => hv.inner (l5.mp (j6.mp h)), ?_, ?_⟩
    · intro s
      rw [j5 _ (hin s).1, t4]
    · intro k hk
      have hk' : Elem.key k < .key dst := by
        by_contra hc
        exact hk ((prefixEnd_iff dst k).mp ⟨not_lt.mp hc, by rw [he]; exact Elem.key_lt_top k⟩)
      rw [j4 k hk', l4 k hk']
  | key en =>
    obtain ⟨r1, r2, r3, r4, r5, r6⟩ := keepRight_spec (p := en) hg hv.all.1 hv.all.2 (Elem.nil_le en)
      (Elem.key_lt_top en)
    have hne : (n.cloned src dst).pivots ≠ [] := by
      intro h; rw [h] at t2; cases t2
    obtain ⟨q1, q2, q3, q4, q5, q6, q7⟩ := join_spec (p := .key en) j1 r1 (by rw [j3, t3, he]) r2
      (j6.trans (l5.trans r5.symm))
    have hform : n.cloneRoot src dst =
        join (join (n.keepLeft dst) (n.cloned src dst)) (n.keepRight en) := by
      have hp : (n.keepLeft dst).pivots.dropLast ++ (n.cloned src dst).pivots ++
          (n.keepRight en).pivots.tail =
          ((n.keepLeft dst).pivots.dropLast ++ (n.cloned src dst).pivots).dropLast ++
          (n.keepRight en).pivots := by
        rw [List.dropLast_append_of_ne_nil hne]
        have h1 : (n.cloned src dst).pivots = (n.cloned src dst).pivots.dropLast ++ [.key en] := by
          rw [he] at t3
          obtain ⟨ys, hys⟩ := List.getLast?_eq_some_iff.mp t3
          rw [hys]; simp
        have h2 : (n.keepRight en).pivots = .key en :: (n.keepRight en).pivots.tail := rfl
        conv => lhs; rw [h1]
        conv => rhs; rw [h2]
        simp
      simp only [Node.cloneRoot, he, join, hlc, htc, Option.map_some, Option.getD_some]
      rw [hp]
    rw [hform]
    refine ⟨q1, fun h => hv.inner (l5.mp (j6.mp (q6.mp h))), ?_, ?_⟩
    · intro s
      have hs := (hin s).2
      rw [he] at hs
      rw [q4 _ hs, j5 _ (hin s).1, t4]
    · intro k hk
      by_cases hk' : Elem.key k < .key dst
      · have h3 : Elem.key dst < .key en := by
          have := hin []
          rw [he, List.append_nil] at this
          exact this.2
        rw [q4 k (lt_trans hk' h3), j4 k hk', l4 k hk']
      · have h3 : Elem.key en ≤ .key k := by
          by_contra hc
          exact hk ((prefixEnd_iff dst k).mp ⟨not_lt.mp hk', by rw [he]; exact not_le.mp hc⟩)
        rw [q5 k h3, r4 k h3]

/-- No message is on its way to a key with the prefix. -/
theorem clone_source {n : Node} (hg : Good n) {src dst : Key} (hv : ValidClone n src dst) (s : Key) :
    ∃ x, view n (src ++ s) = some x ∧ x.msg = .update := by
  obtain ⟨i, lo, hi, e, b, hs, c1, c2⟩ := hg.find (allKeys hv.all (src ++ s))
  obtain ⟨j, lo', hi', e', b', hs', d1, d2⟩ := hg.find (allKeys hv.all src)
  have hr := route_eq hg.sorted hs'.lo hs'.hi d1 d2
  have hin := (prefixEnd_iff src (src ++ s)).mpr (List.prefix_append _ _)
  refine ⟨_, view_slot hg.toShape hs c1 c2, ?_⟩
  show b.get (src ++ s) = .update
  refine Bucket.get_none (fun m hm => ?_)
  refine hv.buckets i b (src ++ s, m) ?_ ?_ hs.b hm (List.prefix_append _ _)
  · rw [hr]
    by_contra hc
    have := getElem?_le_of_sorted hg.sorted hs.hi hs'.lo (by omega)
    exact absurd (lt_of_lt_of_le c2 (le_trans this (le_trans d1 hin.1))) (lt_irrefl _)
  · cases he : prefixEnd src with
    | top => exact hs.bound
    | key en =>
      obtain ⟨j2, lo2, hi2, e2, b2, hs2, f1, f2⟩ := hg.find (allKeys hv.all en)
      show i < route n.pivots en + 1
      rw [route_eq hg.sorted hs2.lo hs2.hi f1 f2]
      by_contra hc
      have := getElem?_le_of_sorted hg.sorted hs2.hi hs.lo (by omega)
      have hin2 := hin.2
      rw [he] at hin2
      exact absurd (lt_of_le_of_lt (le_trans this c1) (lt_trans hin2 f2)) (lt_irrefl _)

end Verif.Kv.Pivot
