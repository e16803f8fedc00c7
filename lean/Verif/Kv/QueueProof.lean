import Verif.Kv.Queue
import Verif.Kv.HashProof

/-! Proofs about the queues of `Verif.Kv.Queue`. -/

namespace Verif.Queue

variable {A : Type}

def nx (nodes : List (Node A)) (p : Nat) : Nat := (nodes[p]?.map (·.next)).getD 0
def pv (nodes : List (Node A)) (p : Nat) : Nat := (nodes[p]?.map (·.prev)).getD 0
def dt (nodes : List (Node A)) (p : Nat) : Option A := nodes[p]?.bind (·.data)

/-- `f` with `p` sent to `q`. -/
def ov {B : Type} (f : Nat → B) (p : Nat) (q : B) : Nat → B := fun x => if x = p then q else f x

theorem ov_same {B : Type} (f : Nat → B) (p : Nat) (q : B) : ov f p q p = q := by simp [ov]
theorem ov_ne {B : Type} {f : Nat → B} {p x : Nat} {q : B} (h : x ≠ p) : ov f p q x = f x := by
  simp [ov, h]

theorem setNode_spec {nodes : List (Node A)} {p : Nat} (hp : p < nodes.length) (n : Node A) :
    ∃ nodes', setNode nodes p n = some nodes' ∧ nodes'.length = nodes.length ∧
      nx nodes' = ov (nx nodes) p n.next ∧ pv nodes' = ov (pv nodes) p n.prev ∧
      dt nodes' = ov (dt nodes) p n.data := by
  refine ⟨nodes.set p n, by simp [setNode, hp], by simp, ?_, ?_, ?_⟩ <;>
  · funext x
    simp only [nx, pv, dt, ov, List.getElem?_set]
    by_cases h : x = p
    · subst h; simp [hp]
    · have : ¬ p = x := fun h' => h h'.symm
      simp [h, this]

theorem setNext_spec {nodes : List (Node A)} {p : Nat} (hp : p < nodes.length) (q : Nat) :
    ∃ nodes', setNext nodes p q = some nodes' ∧ nodes'.length = nodes.length ∧
      nx nodes' = ov (nx nodes) p q ∧ pv nodes' = pv nodes ∧ dt nodes' = dt nodes := by
  refine ⟨nodes.set p { nodes[p] with next := q }, by simp [setNext, hp], by simp, ?_, ?_, ?_⟩ <;>
  · funext x
    simp only [nx, pv, dt, ov, List.getElem?_set]
    by_cases h : x = p
    · subst h; simp [hp]
    · have : ¬ p = x := fun h' => h h'.symm
      simp [h, this]

theorem setPrev_spec {nodes : List (Node A)} {p : Nat} (hp : p < nodes.length) (q : Nat) :
    ∃ nodes', setPrev nodes p q = some nodes' ∧ nodes'.length = nodes.length ∧
      nx nodes' = nx nodes ∧ pv nodes' = ov (pv nodes) p q ∧ dt nodes' = dt nodes := by
  refine ⟨nodes.set p { nodes[p] with prev := q }, by simp [setPrev, hp], by simp, ?_, ?_, ?_⟩ <;>
  · funext x
    simp only [nx, pv, dt, ov, List.getElem?_set]
    by_cases h : x = p
    · subst h; simp [hp]
    · have : ¬ p = x := fun h' => h h'.symm
      simp [h, this]

/-- From `x` through the pointers of the list to `y`, linked both ways. -/
def Seg (n p : Nat → Nat) : Nat → List Nat → Nat → Prop
  | x, [], y => n x = y ∧ p y = x
  | x, q :: l, y => n x = q ∧ p q = x ∧ Seg n p q l y

theorem seg_append (n p : Nat → Nat) (b y : Nat) (l2 : List Nat) : ∀ (l1 : List Nat) (x : Nat),
    Seg n p x (l1 ++ b :: l2) y ↔ Seg n p x l1 b ∧ Seg n p b l2 y := by
  intro l1
  induction l1 with
  | nil => intro x; simp [Seg, and_assoc]
  | cons q l ih => intro x; simp only [List.cons_append, Seg]; rw [ih]; simp [and_assoc]

theorem seg_congr {n p n' p' : Nat → Nat} : ∀ {l : List Nat} {x y : Nat},
    (∀ q, q ∈ x :: l → n' q = n q) → (∀ q, q ∈ l ++ [y] → p' q = p q) →
    Seg n p x l y → Seg n' p' x l y := by
  intro l
  induction l with
  | nil =>
    intro x y hn hp h
    exact ⟨by rw [hn x (by simp)]; exact h.1, by rw [hp y (by simp)]; exact h.2⟩
  | cons q l ih =>
    intro x y hn hp h
    refine ⟨by rw [hn x (by simp)]; exact h.1, by rw [hp q (by simp)]; exact h.2.1, ?_⟩
    exact ih (fun r hr => hn r (List.mem_cons_of_mem _ hr)) (fun r hr => hp r (by
      rw [List.cons_append]; exact List.mem_cons_of_mem _ hr)) h.2.2

/-- The last of the pointers before `y`. -/
theorem seg_last {n p : Nat → Nat} : ∀ {l : List Nat} {x y : Nat}, Seg n p x l y →
    p y ∈ x :: l := by
  intro l
  induction l with
  | nil => intro x y h; rw [h.2]; simp
  | cons q l ih => intro x y h; exact List.mem_cons_of_mem _ (ih h.2.2)

theorem seg_first {n p : Nat → Nat} {l : List Nat} {x y : Nat} (h : Seg n p x l y) :
    n x ∈ l ++ [y] := by
  cases l with
  | nil => rw [h.1]; simp
  | cons q l => rw [h.1]; simp

/-- A new pointer at the end of a segment. -/
theorem seg_push {n p : Nat → Nat} {r : Nat} : ∀ {l : List Nat} {x y : Nat},
    Seg n p x l y → (x :: l).Nodup → y ∉ l → r ∉ x :: l → r ≠ y →
    Seg (ov (ov n (p y) r) r y) (ov (ov p y r) r (p y)) x (l ++ [r]) y := by
  intro l
  induction l with
  | nil =>
    intro x y h hn hy hr hry
    have hrx : x ≠ r := fun h' => hr (by simp [h'])
    refine ⟨?_, ?_, ?_, ?_⟩
    · rw [ov_ne hrx, h.2, ov_same]
    · rw [ov_same, h.2]
    · rw [ov_same]
    · rw [ov_ne (Ne.symm hry), ov_same]
  | cons q l ih =>
    intro x y h hn hy hr hry
    rw [List.nodup_cons] at hn
    have hlast := seg_last h.2.2
    have hrx : x ≠ r := fun h' => hr (by simp [h'])
    have hrq : q ≠ r := fun h' => hr (by simp [h'])
    have hxl : x ≠ p y := fun h' => hn.1 (h' ▸ hlast)
    have hqy : q ≠ y := fun h' => hy (by simp [h'])
    refine ⟨?_, ?_, ?_⟩
    · rw [ov_ne hrx, ov_ne hxl]; exact h.1
    · rw [ov_ne hrq, ov_ne hqy]; exact h.2.1
    · exact ih h.2.2 hn.2 (fun h' => hy (List.mem_cons_of_mem _ h'))
        (fun h' => hr (List.mem_cons_of_mem _ h')) hry

/-- A new pointer at the start of a segment. -/
theorem seg_unshift {n p : Nat → Nat} {r x y : Nat} {l : List Nat}
    (h : Seg n p x l y) (hn : (x :: l).Nodup) (hy : y ∉ l) (hr : r ∉ x :: l) (hry : r ≠ y) :
    Seg (ov (ov n x r) r (n x)) (ov (ov p (n x) r) r x) x (r :: l) y := by
  have hrx : x ≠ r := fun h' => hr (by simp [h'])
  cases l with
  | nil =>
    refine ⟨?_, ?_, ?_, ?_⟩
    · rw [ov_ne hrx, ov_same]
    · rw [ov_same]
    · rw [ov_same, h.1]
    · rw [ov_ne (Ne.symm hry), h.1, ov_same]
  | cons q l =>
    have hrq : q ≠ r := fun h' => hr (by simp [h'])
    rw [List.nodup_cons, List.nodup_cons] at hn
    refine ⟨?_, ?_, ?_, ?_, ?_⟩
    · rw [ov_ne hrx, ov_same]
    · rw [ov_same]
    · rw [ov_same, h.1]
    · rw [ov_ne hrq, h.1, ov_same]
    · apply seg_congr ?_ ?_ h.2.2
      · intro z hz
        have hzr : z ≠ r := fun h' => hr (h' ▸ List.mem_cons_of_mem _ hz)
        have hzx : z ≠ x := fun h' => hn.1 (h' ▸ hz)
        rw [ov_ne hzr, ov_ne hzx]
      · intro z hz
        have hzr : z ≠ r := by
          intro h'
          rw [List.mem_append] at hz
          rcases hz with hz | hz
          · exact hr (h' ▸ List.mem_cons_of_mem _ (List.mem_cons_of_mem _ hz))
          · exact hry (h' ▸ List.mem_singleton.1 hz)
        have hzq : z ≠ n x := by
          intro h'
          rw [h.1] at h'
          rw [List.mem_append] at hz
          rcases hz with hz | hz
          · exact hn.2.1 (h' ▸ hz)
          · rw [List.mem_singleton] at hz
            exact hy (by rw [← hz, h']; simp)
        rw [ov_ne hzr, ov_ne hzq]

/-- Two segments joined, without the pointer between them. -/
theorem seg_join {n p : Nat → Nat} {r y : Nat} {l2 : List Nat} : ∀ {l1 : List Nat} {x : Nat},
    Seg n p x l1 r → Seg n p r l2 y → (x :: (l1 ++ r :: l2)).Nodup → y ∉ l1 ++ r :: l2 →
    Seg (ov n (p r) (n r)) (ov p (n r) (p r)) x (l1 ++ l2) y := by
  intro l1
  induction l1 with
  | nil =>
    intro x h1 h2 hn hy
    rw [List.nil_append] at *
    rw [h1.2]
    cases l2 with
    | nil => exact ⟨by rw [ov_same, h2.1], by rw [h2.1, ov_same]⟩
    | cons b l2 =>
      refine ⟨by rw [ov_same, h2.1], by rw [h2.1, ov_same], ?_⟩
      rw [List.nodup_cons, List.nodup_cons, List.nodup_cons] at hn
      apply seg_congr ?_ ?_ h2.2.2
      · intro z hz
        exact ov_ne (fun h' => hn.1 (h' ▸ List.mem_cons_of_mem _ hz))
      · intro z hz
        apply ov_ne
        intro h'
        rw [h2.1] at h'
        rw [List.mem_append] at hz
        rcases hz with hz | hz
        · exact hn.2.2.1 (h' ▸ hz)
        · rw [List.mem_singleton] at hz
          exact hy (by rw [← hz, h']; simp)
  | cons q l1 ih =>
    intro x h1 h2 hn hy
    have hlast := seg_last h1.2.2
    have hfirst := seg_first h2
    rw [List.nodup_cons] at hn
    refine ⟨?_, ?_, ?_⟩
    · rw [ov_ne]
      · exact h1.1
      · intro h'
        apply hn.1
        rw [h']
        rw [List.cons_append]
        rcases List.mem_cons.1 hlast with h | h
        · rw [h]; simp
        · exact List.mem_cons_of_mem _ (List.mem_append_left _ h)
    · rw [ov_ne]
      · exact h1.2.1
      · intro h'
        rw [← h', List.mem_append] at hfirst
        have hn2 := hn.2
        rw [List.cons_append, List.nodup_cons] at hn2
        rcases hfirst with h | h
        · exact hn2.1 (List.mem_append_right _ (List.mem_cons_of_mem _ h))
        · rw [List.mem_singleton] at h
          exact hy (by rw [← h]; simp)
    · exact ih h1.2.2 h2 hn.2 (fun h' => hy (List.mem_cons_of_mem _ h'))

/-- The stack of free nodes from `x`. -/
def Free (n : Nat → Nat) (d : Nat → Option A) : Nat → List Nat → Prop
  | x, [] => x = 0
  | x, q :: l => x = q ∧ d q = none ∧ Free n d (n q) l

theorem free_congr {n n' : Nat → Nat} {d d' : Nat → Option A} : ∀ {l : List Nat} {x : Nat},
    (∀ q, q ∈ l → n' q = n q ∧ d' q = d q) → Free n d x l → Free n' d' x l := by
  intro l
  induction l with
  | nil => intro x _ h; exact h
  | cons q l ih =>
    intro x hq h
    have := hq q (by simp)
    refine ⟨h.1, by rw [this.2]; exact h.2.1, ?_⟩
    rw [this.1]
    exact ih (fun r hr => hq r (List.mem_cons_of_mem _ hr)) h.2.2

/-- The list `L` of pointers with their values, and the free nodes `fs`. -/
structure DRep (d : DList A) (L : List (Nat × A)) (fs : List Nat) : Prop where
  seg : Seg (nx d.nodes) (pv d.nodes) 0 (L.map Prod.fst) 0
  data : ∀ pa, pa ∈ L → dt d.nodes pa.1 = some pa.2
  free : Free (nx d.nodes) (dt d.nodes) d.freeStack fs
  nodup : (0 :: (L.map Prod.fst ++ fs)).Nodup
  lt : ∀ p, p ∈ L.map Prod.fst ++ fs → p < d.nodes.length
  len : d.nodes.length = L.length + fs.length + 1

theorem DRep.zero_lt {d : DList A} {L : List (Nat × A)} {fs : List Nat} (h : DRep d L fs) :
    0 < d.nodes.length := by have := h.len; omega

theorem node_at {nodes : List (Node A)} {p : Nat} (h : p < nodes.length) :
    ∃ n, nodes[p]? = some n ∧ n.next = nx nodes p ∧ n.prev = pv nodes p ∧ n.data = dt nodes p :=
  ⟨nodes[p], by simp [h], by simp [nx, h], by simp [pv, h], by simp [dt, h]⟩

theorem seg_lt {d : DList A} {L : List (Nat × A)} {fs : List Nat} (h : DRep d L fs) {p : Nat}
    (hp : p ∈ 0 :: L.map Prod.fst) : p < d.nodes.length := by
  rcases List.mem_cons.1 hp with h' | h'
  · rw [h']; exact h.zero_lt
  · exact h.lt p (List.mem_append_left _ h')

theorem seg_pv_mem {n p : Nat → Nat} : ∀ {l : List Nat} {x y q : Nat}, Seg n p x l y →
    q ∈ l ++ [y] → p q ∈ x :: l := by
  intro l
  induction l with
  | nil => intro x y q h hq; rw [List.nil_append, List.mem_singleton] at hq; rw [hq, h.2]; simp
  | cons a l ih =>
    intro x y q h hq
    rw [List.cons_append] at hq
    rcases List.mem_cons.1 hq with h' | h'
    · rw [h', h.2.1]; simp
    · exact List.mem_cons_of_mem _ (ih h.2.2 h')

theorem seg_nx_mem {n p : Nat → Nat} : ∀ {l : List Nat} {x y q : Nat}, Seg n p x l y →
    q ∈ x :: l → n q ∈ l ++ [y] := by
  intro l
  induction l with
  | nil => intro x y q h hq; rw [List.mem_singleton] at hq; rw [hq, h.1]; simp
  | cons a l ih =>
    intro x y q h hq
    rcases List.mem_cons.1 hq with h' | h'
    · rw [h', h.1]; simp
    · rw [List.cons_append]; exact List.mem_cons_of_mem _ (ih h.2.2 h')

/-- Where the links of a node in use lead. -/
theorem links_lt {d : DList A} {L : List (Nat × A)} {fs : List Nat} (h : DRep d L fs) {p : Nat}
    (hp : p ∈ 0 :: L.map Prod.fst) :
    nx d.nodes p ∈ 0 :: L.map Prod.fst ∧ pv d.nodes p ∈ 0 :: L.map Prod.fst := by
  constructor
  · have := seg_nx_mem h.seg hp
    rw [List.mem_append, List.mem_singleton] at this
    rw [List.mem_cons]; exact this.symm
  · apply seg_pv_mem h.seg
    rw [List.mem_append, List.mem_singleton]
    exact (List.mem_cons.1 hp).symm

theorem remove_spec {d : DList A} {L1 L2 : List (Nat × A)} {p : Nat} {a : A} {fs : List Nat}
    (h : DRep d (L1 ++ (p, a) :: L2) fs) :
    ∃ d', d.remove p = some d' ∧ DRep d' (L1 ++ L2) (p :: fs) ∧
      d'.nodes.length = d.nodes.length := by
  have hmem : p ∈ 0 :: (L1 ++ (p, a) :: L2).map Prod.fst := by simp
  have hplt := seg_lt h hmem
  obtain ⟨hnm, hpm⟩ := links_lt h hmem
  obtain ⟨node, hat, hnn, hnp, _⟩ := node_at hplt
  obtain ⟨n1, e1, l1, a1, b1, c1⟩ := setNext_spec (seg_lt h hpm) (nx d.nodes p)
  obtain ⟨n2, e2, l2, a2, b2, c2⟩ := setPrev_spec (nodes := n1) (p := nx d.nodes p)
    (by rw [l1]; exact seg_lt h hnm) (pv d.nodes p)
  obtain ⟨n3, e3, l3, a3, b3, c3⟩ := setNode_spec (nodes := n2) (p := p) (by omega)
    { data := none, next := d.freeStack, prev := 0 }
  have hnd := h.nodup
  have hseg := h.seg
  rw [List.map_append, List.map_cons] at hnd hseg
  simp only at hnd hseg
  rw [List.append_assoc, List.cons_append] at hnd
  have hperm : (0 :: ((L1 ++ L2).map Prod.fst ++ p :: fs)).Perm
      (0 :: (L1.map Prod.fst ++ p :: (L2.map Prod.fst ++ fs))) := by
    apply List.Perm.cons
    rw [List.map_append, List.append_assoc]
    apply List.Perm.append_left
    exact List.perm_middle
  have hnd' := hperm.nodup_iff.2 hnd
  have hp0 : p ≠ 0 := by
    intro h'
    rw [List.nodup_cons] at hnd
    exact hnd.1 (by simp [h'])
  -- `p` is in no other place
  have hpL : p ∉ (L1 ++ L2).map Prod.fst ∧ p ∉ fs := by
    rw [List.nodup_cons] at hnd'
    have := (List.perm_middle.nodup_iff.1 hnd'.2)
    rw [List.nodup_cons, List.mem_append, not_or] at this
    exact this.1
  refine ⟨⟨n3, p⟩, ?_, ⟨?_, ?_, ?_, hnd', ?_, ?_⟩, by simp only; omega⟩
  · unfold DList.remove
    rw [hat]
    simp only [Option.bind_eq_bind, Option.bind_some, hnn, hnp, e1, e2, e3]
    rfl
  · simp only
    rw [seg_append] at hseg
    have hj := seg_join hseg.1 hseg.2 (by
        have : (0 :: (L1.map Prod.fst ++ p :: L2.map Prod.fst)).Sublist
            (0 :: (L1.map Prod.fst ++ p :: (L2.map Prod.fst ++ fs))) := by
          apply List.Sublist.cons₂
          apply List.Sublist.append_left
          apply List.Sublist.cons₂
          exact List.sublist_append_left _ _
        exact this.nodup hnd)
      (by
        rw [List.nodup_cons] at hnd
        intro h'
        apply hnd.1
        rw [List.mem_append, List.mem_cons] at h' ⊢
        rw [List.mem_append]
        rcases h' with h' | h' | h'
        · exact Or.inl h'
        · exact Or.inr (Or.inl h')
        · exact Or.inr (Or.inr (Or.inl h')))
    rw [a3, b3, a2, b2, a1, b1, List.map_append]
    rw [List.map_append] at hpL
    apply seg_congr ?_ ?_ hj
    · intro q hq
      apply ov_ne
      intro h'
      subst h'
      rcases List.mem_cons.1 hq with h' | h'
      · exact hp0 h'
      · exact hpL.1 h'
    · intro q hq
      apply ov_ne
      intro h'
      subst h'
      rw [List.mem_append, List.mem_singleton] at hq
      rcases hq with h' | h'
      · exact hpL.1 h'
      · exact hp0 h'
  · intro pa hpa
    simp only
    rw [c3, c2, c1, ov_ne]
    · apply h.data
      rw [List.mem_append, List.mem_cons]
      rcases List.mem_append.1 hpa with h' | h'
      · exact Or.inl h'
      · exact Or.inr (Or.inr h')
    · intro h'
      exact hpL.1 (List.mem_map.2 ⟨pa, hpa, h'⟩)
  · simp only
    refine ⟨rfl, by rw [c3, ov_same], ?_⟩
    rw [a3, ov_same]
    apply free_congr ?_ h.free
    intro q hq
    have hqp : q ≠ p := fun h' => hpL.2 (h' ▸ hq)
    have hqa : q ≠ pv d.nodes p := by
      intro h'
      rw [← h'] at hpm
      have hnd2 := h.nodup
      rw [← List.cons_append, List.nodup_append] at hnd2
      exact hnd2.2.2 _ hpm _ hq rfl
    rw [ov_ne hqp, a2, a1, ov_ne hqa, c3, c2, c1, ov_ne hqp]
    exact ⟨rfl, rfl⟩
  · intro q hq
    simp only
    rw [l3, l2, l1]
    have := hperm.mem_iff.1 (List.mem_cons_of_mem 0 hq)
    rcases List.mem_cons.1 this with h' | h'
    · rw [h']; exact h.zero_lt
    · apply h.lt
      rw [List.map_append, List.map_cons, List.append_assoc, List.cons_append]
      exact h'
  · have := h.len
    simp only [List.length_append, List.length_cons] at *
    omega

theorem bfs_length (l : List (Node A)) : ∀ k, (buildFreeStack l k).length = l.length := by
  induction l with
  | nil => intro k; rfl
  | cons a l ih => intro k; simp [buildFreeStack, ih]

theorem bfs_get (l : List (Node A)) : ∀ k i, i < l.length →
    (buildFreeStack l k)[i]? = some { data := none, next := k + i - 1, prev := 0 } := by
  induction l with
  | nil => intro k i h; simp at h
  | cons a l ih =>
    intro k i h
    cases i with
    | zero => simp [buildFreeStack]
    | succ i =>
      rw [buildFreeStack, List.getElem?_cons_succ, ih (k + 1) i (by simpa using h)]
      rw [Nat.add_assoc, Nat.add_comm 1 i]

/-- `lo + k - 1` down to `lo`. -/
def down (lo : Nat) : Nat → List Nat
  | 0 => []
  | k + 1 => (lo + k) :: down lo k

theorem mem_down {lo k q : Nat} : q ∈ down lo k ↔ lo ≤ q ∧ q < lo + k := by
  induction k with
  | zero => simp [down]
  | succ k ih => rw [down, List.mem_cons, ih]; omega

theorem down_nodup (lo k : Nat) : (down lo k).Nodup := by
  induction k with
  | zero => simp [down]
  | succ k ih =>
    rw [down, List.nodup_cons]
    refine ⟨?_, ih⟩
    rw [mem_down]; omega

theorem down_length (lo k : Nat) : (down lo k).length = k := by
  induction k with
  | zero => rfl
  | succ k ih => rw [down, List.length_cons, ih]

theorem free_down {n : Nat → Nat} {d : Nat → Option A} {lo : Nat} : ∀ {k : Nat},
    (∀ i, i < k → n (lo + i) = (if i = 0 then 0 else lo + i - 1) ∧ d (lo + i) = none) →
    Free n d (if k = 0 then 0 else lo + k - 1) (down lo k) := by
  intro k
  induction k with
  | zero => intro _; rfl
  | succ k ih =>
    intro h
    have hk := h k (by omega)
    refine ⟨by rw [if_neg (by omega)]; omega, hk.2, ?_⟩
    rw [hk.1]
    exact ih (fun i hi => h i (by omega))

theorem alloc_spec {n : Nat} (hn : 0 < n) :
    DRep (alloc (A := A) n) [] (down 1 (n - 1)) ∧ (alloc (A := A) n).nodes.length = n := by
  have hnodes : (alloc (A := A) n).nodes = { data := none, next := 0, prev := 0 } ::
      buildFreeStack (List.replicate (n - 1) { data := none, next := 0, prev := 0 }) 1 := by
    obtain ⟨m, rfl⟩ : ∃ m, n = m + 1 := ⟨n - 1, by omega⟩
    simp [alloc, buildFree, List.replicate_succ]
  have hlen : (alloc (A := A) n).nodes.length = n := by
    rw [hnodes, List.length_cons, bfs_length, List.length_replicate]; omega
  refine ⟨⟨?_, by simp, ?_, ?_, ?_, ?_⟩, hlen⟩
  · rw [hnodes]; exact ⟨rfl, rfl⟩
  · have := free_down (n := nx (alloc (A := A) n).nodes) (d := dt (alloc (A := A) n).nodes)
      (lo := 1) (k := n - 1) (by
        intro i hi
        have hg : (alloc (A := A) n).nodes[1 + i]? =
            some { data := none, next := 1 + i - 1, prev := 0 } := by
          rw [hnodes, Nat.add_comm 1 i, List.getElem?_cons_succ, bfs_get _ _ _ (by simpa using hi)]
          rw [Nat.add_comm 1 i]
        constructor
        · simp only [nx, hg, Option.map_some, Option.getD_some]
          split <;> omega
        · simp only [dt, hg, Option.bind_some])
    have e : (if n - 1 = 0 then 0 else 1 + (n - 1) - 1) = (alloc (A := A) n).freeStack := by
      simp only [alloc]
      split <;> omega
    rw [e] at this
    exact this
  · simp only [List.map_nil, List.nil_append]
    rw [List.nodup_cons]
    refine ⟨?_, down_nodup _ _⟩
    rw [mem_down]; omega
  · intro p hp
    simp only [List.map_nil, List.nil_append, mem_down] at hp
    omega
  · rw [hlen, down_length]; simp; omega

theorem expand_spec {d : DList A} {L : List (Nat × A)} (h : DRep d L [])
    (h0 : d.freeStack = 0) :
    ∃ k, DRep (expand d) L (down d.nodes.length (k + 1)) ∧
      (expand d).nodes.length ≤ 2 * d.nodes.length ∧
      (expand d).nodes.length = d.nodes.length + (k + 1) := by
  have hz := h.zero_lt
  obtain ⟨len', hlen'⟩ : ∃ x, x = if d.nodes.length < 0x7fffffffffffffff then
    d.nodes.length + d.nodes.length else d.nodes.length + 1 := ⟨_, rfl⟩
  have hge : d.nodes.length + 1 ≤ len' ∧ len' ≤ 2 * d.nodes.length := by
    rw [hlen']; split <;> omega
  obtain ⟨k, hk⟩ : ∃ k, len' = d.nodes.length + (k + 1) := ⟨len' - d.nodes.length - 1, by omega⟩
  have hnodes : (expand d).nodes = d.nodes ++ { data := none, next := 0, prev := 0 } ::
      buildFreeStack (List.replicate k { data := none, next := 0, prev := 0 })
        (d.nodes.length + 1) := by
    simp only [expand, ← hlen', h0]
    rw [hk, Nat.add_sub_cancel_left, buildFree, List.replicate_succ]
    rw [List.take_append, List.drop_append, List.take_of_length_le (by omega),
      List.drop_eq_nil_of_le (by omega)]
    simp
  have hl : (expand d).nodes.length = d.nodes.length + (k + 1) := by
    rw [hnodes, List.length_append, List.length_cons, bfs_length, List.length_replicate]
  have hold : ∀ q, q < d.nodes.length → (expand d).nodes[q]? = d.nodes[q]? := by
    intro q hq
    rw [hnodes, List.getElem?_append_left hq]
  have hnew : ∀ i, i < k + 1 → (expand d).nodes[d.nodes.length + i]? =
      some { data := none, next := if i = 0 then 0 else d.nodes.length + i - 1, prev := 0 } := by
    intro i hi
    rw [hnodes, List.getElem?_append_right (by omega), Nat.add_sub_cancel_left]
    cases i with
    | zero => simp
    | succ i =>
      rw [List.getElem?_cons_succ, bfs_get _ _ _ (by simp; omega)]
      rw [if_neg (by omega), Nat.add_assoc, Nat.add_comm 1 i]
  refine ⟨k, ⟨?_, ?_, ?_, ?_, ?_, ?_⟩, by omega, hl⟩
  · apply seg_congr ?_ ?_ h.seg
    · intro q hq
      simp only [nx, hold q (seg_lt h hq)]
    · intro q hq
      have : q ∈ 0 :: L.map Prod.fst := by
        rw [List.mem_append, List.mem_singleton] at hq
        exact List.mem_cons.2 hq.symm
      simp only [pv, hold q (seg_lt h this)]
  · intro pa hpa
    have : pa.1 < d.nodes.length :=
      h.lt _ (List.mem_append_left _ (List.mem_map.2 ⟨pa, hpa, rfl⟩))
    rw [← h.data pa hpa]
    simp only [dt, hold _ this]
  · have := free_down (n := nx (expand d).nodes) (d := dt (expand d).nodes)
      (lo := d.nodes.length) (k := k + 1) (by
        intro i hi
        exact ⟨by simp [nx, hnew i hi], by simp [dt, hnew i hi]⟩)
    have e : (if k + 1 = 0 then 0 else d.nodes.length + (k + 1) - 1) = (expand d).freeStack := by
      simp only [expand, ← hlen']
      rw [hk, if_neg (by omega)]
    rw [e] at this
    exact this
  · have hnd := h.nodup
    rw [List.append_nil] at hnd
    rw [← List.cons_append, List.nodup_append]
    refine ⟨hnd, down_nodup _ _, ?_⟩
    intro a ha b hb hab
    have := seg_lt h ha
    rw [mem_down] at hb
    omega
  · intro p hp
    rw [List.mem_append, mem_down] at hp
    rw [hl]
    rcases hp with hp | hp
    · have := h.lt p (List.mem_append_left _ hp); omega
    · omega
  · have := h.len
    rw [down_length]
    simp only [List.length_nil] at this
    omega

theorem freeNode_spec {d : DList A} {L : List (Nat × A)} {fs : List Nat} (h : DRep d L fs) :
    ∃ d' p' n fs', freeNode d = some (d', p', n) ∧ DRep d' L (p' :: fs') ∧
      n.next = nx d'.nodes p' ∧
      d'.nodes.length ≤ max d.nodes.length (2 * (L.length + 1)) := by
  cases fs with
  | nil =>
    have h0 : d.freeStack = 0 := h.free
    obtain ⟨k, hk, hle, hl⟩ := expand_spec h h0
    obtain ⟨n0, hn0, _⟩ := node_at h.zero_lt
    have hfs : (expand d).freeStack = d.nodes.length + k := hk.free.1
    obtain ⟨n, hn, hnn, _⟩ := node_at (nodes := (expand d).nodes) (p := (expand d).freeStack)
      (by omega)
    refine ⟨expand d, (expand d).freeStack, n, down d.nodes.length k, ?_, ?_, hnn, ?_⟩
    · unfold freeNode
      simp only [h0, hn0, Option.bind_eq_bind, Option.bind_some, true_or, if_true, hn]
      rfl
    · rw [hfs]; exact hk
    · have := h.len
      simp only [List.length_nil] at this
      omega
  | cons f r =>
    have hf := h.free
    have hf1 : d.freeStack = f := hf.1
    have hlt : f < d.nodes.length := h.lt f (by simp)
    obtain ⟨n, hn, hnn, _, hnd⟩ := node_at hlt
    have hne : f ≠ 0 := by
      intro h'
      have := h.nodup
      rw [List.nodup_cons] at this
      exact this.1 (by simp [h'])
    refine ⟨d, f, n, r, ?_, h, hnn, by omega⟩
    unfold freeNode
    have hd2 : n.data = none := by rw [hnd]; exact hf.2.1
    simp only [hf1, hn, Option.bind_eq_bind, Option.bind_some]
    rw [if_neg]
    · rfl
    · rintro (h' | h')
      · exact hne h'
      · rw [hd2] at h'; cases h'

theorem insert_rep {d : DList A} {L1 L2 : List (Nat × A)} {r : Nat} {fs : List Nat} {a : A}
    (h : DRep d (L1 ++ L2) (r :: fs)) {nodes : List (Node A)}
    (hl : nodes.length = d.nodes.length)
    (hseg : Seg (nx nodes) (pv nodes) 0 (L1.map Prod.fst ++ r :: L2.map Prod.fst) 0)
    (hdt : dt nodes = ov (dt d.nodes) r (some a))
    (hnx : ∀ q, q ∈ fs → nx nodes q = nx d.nodes q) :
    DRep ⟨nodes, nx d.nodes r⟩ (L1 ++ (r, a) :: L2) fs := by
  have hperm : (0 :: ((L1 ++ L2).map Prod.fst ++ r :: fs)).Perm
      (0 :: ((L1 ++ (r, a) :: L2).map Prod.fst ++ fs)) := by
    apply List.Perm.cons
    rw [List.map_append, List.map_append, List.append_assoc, List.append_assoc]
    apply List.Perm.append_left
    exact List.perm_middle
  have hnd := hperm.nodup_iff.1 h.nodup
  have hr : r ∉ (L1 ++ L2).map Prod.fst ∧ r ∉ fs := by
    have := h.nodup
    rw [List.nodup_cons] at this
    have := (List.perm_middle.nodup_iff.1 this.2)
    rw [List.nodup_cons, List.mem_append, not_or] at this
    exact this.1
  refine ⟨?_, ?_, ?_, hnd, ?_, ?_⟩
  · simp only; rw [List.map_append, List.map_cons]; exact hseg
  · intro pa hpa
    simp only
    rw [hdt]
    rw [List.mem_append, List.mem_cons] at hpa
    rcases hpa with h' | h' | h'
    · rw [ov_ne]
      · exact h.data pa (List.mem_append_left _ h')
      · intro e; exact hr.1 (List.mem_map.2 ⟨pa, List.mem_append_left _ h', e⟩)
    · subst h'; rw [ov_same]
    · rw [ov_ne]
      · exact h.data pa (List.mem_append_right _ h')
      · intro e; exact hr.1 (List.mem_map.2 ⟨pa, List.mem_append_right _ h', e⟩)
  · simp only
    apply free_congr ?_ h.free.2.2
    intro q hq
    refine ⟨hnx q hq, ?_⟩
    rw [hdt, ov_ne]
    intro e; exact hr.2 (e ▸ hq)
  · intro q hq
    simp only
    rw [hl]
    have := hperm.mem_iff.2 (List.mem_cons_of_mem 0 hq)
    rcases List.mem_cons.1 this with h' | h'
    · rw [h']; exact h.zero_lt
    · exact h.lt _ h'
  · have := h.len
    simp only [List.length_append, List.length_cons] at *
    omega

/-- Inserting before the first pointer of `L2`, or before the sentinel, that is at the end. -/
theorem insertBefore_spec {d : DList A} {L1 L2 : List (Nat × A)} {fs : List Nat}
    (h : DRep d (L1 ++ L2) fs) {p : Nat} (hp : p = (L2.map Prod.fst).headD 0) (a : A) :
    ∃ d' p' fs', d.insertBefore p a = some (d', p') ∧ DRep d' (L1 ++ (p', a) :: L2) fs' ∧
      d'.nodes.length ≤ max d.nodes.length (2 * ((L1 ++ L2).length + 1)) := by
  obtain ⟨d1, r, n, fs', hf, h1, hn, hl⟩ := freeNode_spec h
  have hmem : p ∈ 0 :: (L1 ++ L2).map Prod.fst := by
    subst hp
    cases L2 with
    | nil => simp
    | cons b L2 => simp
  have hplt := seg_lt h1 hmem
  obtain ⟨hnm, hpm⟩ := links_lt h1 hmem
  obtain ⟨node, hat, hnn, hnp, _⟩ := node_at hplt
  obtain ⟨n1, e1, l1, a1, b1, c1⟩ := setPrev_spec hplt r
  obtain ⟨n2, e2, l2, a2, b2, c2⟩ := setNext_spec (nodes := n1) (p := pv d1.nodes p)
    (by rw [l1]; exact seg_lt h1 hpm) r
  have hrlt : r < d1.nodes.length := h1.lt r (by simp)
  obtain ⟨n3, e3, l3, a3, b3, c3⟩ := setNode_spec (nodes := n2) (p := r) (by omega)
    { data := some a, next := p, prev := pv d1.nodes p }
  have hnd := h1.nodup
  have hr : r ≠ 0 ∧ r ∉ (L1 ++ L2).map Prod.fst ∧ r ∉ fs' := by
    have hnd := hnd
    rw [List.nodup_cons] at hnd
    refine ⟨fun e => hnd.1 (by simp [e]), ?_⟩
    have := (List.perm_middle.nodup_iff.1 hnd.2)
    rw [List.nodup_cons, List.mem_append, not_or] at this
    exact this.1
  have hndL : (0 :: (L1 ++ L2).map Prod.fst).Nodup := by
    rw [← List.cons_append, List.nodup_append] at hnd
    exact hnd.1
  have hdisj : ∀ q, q ∈ fs' → q ∉ 0 :: (L1 ++ L2).map Prod.fst := by
    intro q hq hq'
    rw [← List.cons_append, List.nodup_append] at hnd
    exact hnd.2.2 _ hq' q (by simp [hq]) rfl
  have hnx3 : nx n3 = ov (ov (nx d1.nodes) (pv d1.nodes p) r) r p := by rw [a3, a2, a1]
  have hpv3 : pv n3 = ov (ov (pv d1.nodes) p r) r (pv d1.nodes p) := by rw [b3, b2, b1]
  refine ⟨⟨n3, nx d1.nodes r⟩, r, fs', ?_, insert_rep h1 (by omega) ?_ (by rw [c3, c2, c1]) ?_,
    by simp only; omega⟩
  · unfold DList.insertBefore
    rw [hf]
    simp only [Option.bind_eq_bind, Option.bind_some, hat, hnp, e1, e2, e3, hn]
    rfl
  · rw [hnx3, hpv3]
    have hseg := h1.seg
    rw [List.map_append] at hseg hndL hr
    rw [List.nodup_cons] at hndL
    rw [List.mem_append, not_or] at hr
    cases L2 with
    | nil =>
      have hp0 : p = 0 := hp
      subst hp0
      rw [List.map_nil, List.append_nil] at hseg hndL
      exact seg_push hseg (List.nodup_cons.2 hndL) hndL.1
        (by rw [List.mem_cons, not_or]; exact ⟨hr.1, hr.2.1.1⟩) hr.1
    | cons b L2 =>
      have hpb : p = b.1 := hp
      subst hpb
      rw [List.map_cons] at hseg hndL hr ⊢
      rw [seg_append] at hseg
      have hn2 := hndL.2
      rw [List.nodup_append, List.nodup_cons] at hn2
      have hpush := seg_push hseg.1
        (List.nodup_cons.2 ⟨fun h' => hndL.1 (List.mem_append_left _ h'), hn2.1⟩)
        (fun h' => hn2.2.2 _ h' b.1 (by simp) rfl)
        (by rw [List.mem_cons, not_or]; exact ⟨hr.1, hr.2.1.1⟩)
        (fun h' => hr.2.1.2 (by rw [h']; simp))
      have hlast := seg_last hseg.1
      have hrest := seg_congr (n' := ov (ov (nx d1.nodes) (pv d1.nodes b.1) r) r b.1)
        (p' := ov (ov (pv d1.nodes) b.1 r) r (pv d1.nodes b.1)) ?_ ?_ hseg.2
      · rw [List.append_cons, seg_append]
        exact ⟨hpush, hrest⟩
      · intro q hq
        rw [ov_ne (fun h' : q = r => hr.2.1.2 (h' ▸ hq)), ov_ne]
        intro h'
        rw [← h'] at hlast
        rcases List.mem_cons.1 hlast with h0 | h0
        · exact hndL.1 (List.mem_append_right _ (h0 ▸ hq))
        · exact hn2.2.2 _ h0 _ hq rfl
      · intro q hq
        rw [List.mem_append, List.mem_singleton] at hq
        have hqr : q ≠ r := by
          intro h'
          rcases hq with h0 | h0
          · exact hr.2.1.2 (List.mem_cons_of_mem _ (h' ▸ h0))
          · exact hr.1 (h' ▸ h0)
        have hqb : q ≠ b.1 := by
          intro h'
          rcases hq with h0 | h0
          · exact hn2.2.1.1 (h' ▸ h0)
          · exact hndL.1 (List.mem_append_right _ (by rw [← h0, h']; simp))
        rw [ov_ne hqr, ov_ne hqb]
  · intro q hq
    rw [hnx3, ov_ne (fun h' : q = r => hr.2.2 (h' ▸ hq)), ov_ne]
    intro h'
    exact hdisj q hq (h' ▸ hpm)

/-- Inserting after the last pointer of `L1`, or after the sentinel, that is at the start. -/
theorem insertAfter_spec {d : DList A} {L1 L2 : List (Nat × A)} {fs : List Nat}
    (h : DRep d (L1 ++ L2) fs) {p : Nat} (hp : p = (L1.map Prod.fst).getLastD 0) (a : A) :
    ∃ d' p' fs', d.insertAfter p a = some (d', p') ∧ DRep d' (L1 ++ (p', a) :: L2) fs' ∧
      d'.nodes.length ≤ max d.nodes.length (2 * ((L1 ++ L2).length + 1)) := by
  obtain ⟨d1, r, n, fs', hf, h1, hn, hl⟩ := freeNode_spec h
  have hcase : (L1 = [] ∧ p = 0) ∨ ∃ L0 b, L1 = L0 ++ [b] ∧ p = b.1 := by
    rcases List.eq_nil_or_concat L1 with h' | ⟨L0, b, h'⟩
    · left; subst h'; exact ⟨rfl, hp⟩
    · right
      refine ⟨L0, b, by simpa using h', ?_⟩
      rw [hp, h']; simp
  have hmem : p ∈ 0 :: (L1 ++ L2).map Prod.fst := by
    rcases hcase with ⟨_, h'⟩ | ⟨L0, b, h', h''⟩
    · rw [h']; simp
    · rw [h', h'']; simp
  have hplt := seg_lt h1 hmem
  obtain ⟨hnm, hpm⟩ := links_lt h1 hmem
  obtain ⟨node, hat, hnn, hnp, _⟩ := node_at hplt
  obtain ⟨n1, e1, l1, a1, b1, c1⟩ := setNext_spec hplt r
  obtain ⟨n2, e2, l2, a2, b2, c2⟩ := setPrev_spec (nodes := n1) (p := nx d1.nodes p)
    (by rw [l1]; exact seg_lt h1 hnm) r
  have hrlt : r < d1.nodes.length := h1.lt r (by simp)
  obtain ⟨n3, e3, l3, a3, b3, c3⟩ := setNode_spec (nodes := n2) (p := r) (by omega)
    { data := some a, next := nx d1.nodes p, prev := p }
  have hnd := h1.nodup
  have hr : r ≠ 0 ∧ r ∉ (L1 ++ L2).map Prod.fst ∧ r ∉ fs' := by
    have hnd := hnd
    rw [List.nodup_cons] at hnd
    refine ⟨fun e => hnd.1 (by simp [e]), ?_⟩
    have := (List.perm_middle.nodup_iff.1 hnd.2)
    rw [List.nodup_cons, List.mem_append, not_or] at this
    exact this.1
  have hndL : (0 :: (L1 ++ L2).map Prod.fst).Nodup := by
    rw [← List.cons_append, List.nodup_append] at hnd
    exact hnd.1
  have hdisj : ∀ q, q ∈ fs' → q ∉ 0 :: (L1 ++ L2).map Prod.fst := by
    intro q hq hq'
    rw [← List.cons_append, List.nodup_append] at hnd
    exact hnd.2.2 _ hq' q (by simp [hq]) rfl
  have hnx3 : nx n3 = ov (ov (nx d1.nodes) p r) r (nx d1.nodes p) := by rw [a3, a2, a1]
  have hpv3 : pv n3 = ov (ov (pv d1.nodes) (nx d1.nodes p) r) r p := by rw [b3, b2, b1]
  refine ⟨⟨n3, nx d1.nodes r⟩, r, fs', ?_, insert_rep h1 (by omega) ?_ (by rw [c3, c2, c1]) ?_,
    by simp only; omega⟩
  · unfold DList.insertAfter
    rw [hf]
    simp only [Option.bind_eq_bind, Option.bind_some, hat, hnn, e1, e2, e3, hn]
    rfl
  · rw [hnx3, hpv3]
    have hseg := h1.seg
    rw [List.map_append] at hseg hndL hr
    rw [List.nodup_cons] at hndL
    rw [List.mem_append, not_or] at hr
    rcases hcase with ⟨h', hp0⟩ | ⟨L0, b, h', hpb⟩
    · subst h'
      subst hp0
      rw [List.map_nil, List.nil_append] at hseg hndL ⊢
      exact seg_unshift hseg (List.nodup_cons.2 hndL) hndL.1
        (by rw [List.mem_cons, not_or]; exact ⟨hr.1, hr.2.1.2⟩) hr.1
    · subst h'
      subst hpb
      rw [List.map_append, List.map_cons, List.map_nil] at hseg hndL hr ⊢
      rw [← List.append_cons, seg_append] at hseg
      rw [← List.append_cons] at hndL
      have hr1 : r ∉ L0.map Prod.fst ∧ r ≠ b.1 := by
        have := hr.2.1.1
        rw [List.mem_append, not_or, List.mem_singleton] at this
        exact this
      have hn2 := hndL.2
      rw [List.nodup_append] at hn2
      have h0L2 : (0 : Nat) ∉ L2.map Prod.fst := fun h' =>
        hndL.1 (List.mem_append_right _ (List.mem_cons_of_mem _ h'))
      have hun := seg_unshift hseg.2 hn2.2.1 h0L2
        (by rw [List.mem_cons, not_or]; exact ⟨hr1.2, hr.2.1.2⟩) hr.1
      have hfirst := seg_first hseg.2
      have hrest := seg_congr (n' := ov (ov (nx d1.nodes) b.1 r) r (nx d1.nodes b.1))
        (p' := ov (ov (pv d1.nodes) (nx d1.nodes b.1) r) r b.1) ?_ ?_ hseg.1
      · rw [← List.append_cons, seg_append]
        exact ⟨hrest, hun⟩
      · intro q hq
        have hqr : q ≠ r := by
          intro h'
          rcases List.mem_cons.1 hq with h0 | h0
          · exact hr.1 (h' ▸ h0)
          · exact hr1.1 (h' ▸ h0)
        have hqb : q ≠ b.1 := by
          intro h'
          rcases List.mem_cons.1 hq with h0 | h0
          · exact hndL.1 (List.mem_append_right _ (by rw [← h0, h']; simp))
          · exact hn2.2.2 _ h0 b.1 (by simp) h'
        rw [ov_ne hqr, ov_ne hqb]
      · intro q hq
        rw [List.mem_append, List.mem_singleton] at hq
        have hqr : q ≠ r := by
          intro h'
          rcases hq with h0 | h0
          · exact hr1.1 (h' ▸ h0)
          · exact hr1.2 (by rw [← h0, h'])
        have hqn : q ≠ nx d1.nodes b.1 := by
          intro h'
          rw [← h', List.mem_append, List.mem_singleton] at hfirst
          rcases hq with h0 | h0
          · rcases hfirst with h3 | h3
            · exact hn2.2.2 _ h0 q (List.mem_cons_of_mem _ h3) rfl
            · exact hndL.1 (List.mem_append_left _ (h3 ▸ h0))
          · rcases hfirst with h3 | h3
            · exact (List.nodup_cons.1 hn2.2.1).1 (h0 ▸ h3)
            · exact hndL.1 (List.mem_append_right _ (by rw [← h3, h0]; simp))
        rw [ov_ne hqr, ov_ne hqn]
  · intro q hq
    rw [hnx3, ov_ne (fun h' : q = r => hr.2.2 (h' ▸ hq)), ov_ne]
    intro h'
    exact hdisj q hq (h' ▸ hmem)

/-- The queue holds `s`, in that order. -/
def QRep (q : Queue) (s : List UInt64) : Prop :=
  s.Nodup ∧ ∃ L fs M, DRep q.dlist L fs ∧ s = L.map Prod.snd ∧ Hash.MInv q.ptrMap ∧
    Hash.Rep q.ptrMap.underlying.storage M ∧ ∀ x p, M x = some p ↔ (p, x) ∈ L

theorem qrep_empty : QRep Queue.empty [] := by
  refine ⟨List.nodup_nil, [], down 1 128, fun _ => none, (alloc_spec (by omega)).1, rfl,
    Hash.minv_new (by decide), Hash.rep_new _, ?_⟩
  simp

theorem count_eq {m : Hash.Map Nat} (hm : Hash.MInv m) {M : UInt64 → Option Nat}
    (hr : Hash.Rep m.underlying.storage M) {L : List (Nat × UInt64)}
    (hs : (L.map Prod.snd).Nodup) (hL : ∀ x p, M x = some p ↔ (p, x) ∈ L) :
    m.count.toNat = (L.map Prod.snd).length := by
  rw [hm.cnt, ← Hash.entries_length, ← List.length_map (as := Hash.entries _) Prod.fst]
  apply List.Perm.length_eq
  rw [List.perm_ext_iff_of_nodup (Hash.entries_nodup hm.f.uniq) hs]
  intro x
  rw [List.mem_map, List.mem_map]
  constructor
  · rintro ⟨⟨k, p⟩, h, rfl⟩
    exact ⟨(p, k), (hL k p).1 ((Hash.rep_entries hr k p).1 h), rfl⟩
  · rintro ⟨⟨p, k⟩, h, rfl⟩
    exact ⟨(k, p), (Hash.rep_entries hr k p).2 ((hL k p).2 h), rfl⟩

/-- The sizes of the two arrays. -/
def Small (q : Queue) (N M : Nat) : Prop :=
  q.dlist.nodes.length ≤ N ∧ q.ptrMap.underlying.storage.length ≤ M

theorem snd_inj {L : List (Nat × UInt64)} (h : (L.map Prod.snd).Nodup) {p p' : Nat} {x : UInt64}
    (h1 : (p, x) ∈ L) (h2 : (p', x) ∈ L) : p = p' := by
  induction L with
  | nil => cases h1
  | cons b L ih =>
    rw [List.map_cons, List.nodup_cons] at h
    rcases List.mem_cons.1 h1 with e1 | e1
    · rcases List.mem_cons.1 h2 with e2 | e2
      · rw [← e1] at e2; exact (Prod.mk.inj e2).1.symm
      · exact absurd (List.mem_map.2 ⟨_, e2, by rw [← e1]⟩) h.1
    · rcases List.mem_cons.1 h2 with e2 | e2
      · exact absurd (List.mem_map.2 ⟨_, e1, by rw [← e2]⟩) h.1
      · exact ih h.2 e1 e2

theorem queue_remove_spec {q : Queue} {s : List UInt64} (h : QRep q s) (x : UInt64) :
    ∃ q', q.remove x = some q' ∧ QRep q' (s.filter (· ≠ x)) ∧
      ∀ N M, Small q N M → Small q' N M := by
  obtain ⟨hn, L, fs, M, hd, rfl, hm, hr, hL⟩ := h
  obtain ⟨m', h1, h2, h3, _, h5⟩ := Hash.remove_spec hm hr x
  unfold Queue.remove
  rw [h1]
  cases hx : M x with
  | none =>
    refine ⟨{ q with ptrMap := m' }, rfl, ?_, ?_⟩
    · have hnot : ∀ y ∈ L.map Prod.snd, y ≠ x := by
        rintro y hy rfl
        obtain ⟨⟨p, k⟩, hpk, rfl⟩ := List.mem_map.1 hy
        have := (hL k p).2 hpk
        rw [hx] at this; cases this
      rw [List.filter_eq_self.2 (by intro y hy; simpa using hnot y hy)]
      refine ⟨hn, L, fs, _, hd, rfl, h2, h3, ?_⟩
      intro y p
      unfold Hash.upd
      split
      · rename_i hy
        subst hy
        constructor
        · intro h; cases h
        · intro h; exact absurd rfl (hnot y (List.mem_map.2 ⟨_, h, rfl⟩))
      · exact hL y p
    · intro N M' hs
      exact ⟨hs.1, by simp only; rw [h5]; exact hs.2⟩
  | some p =>
    have hmem := (hL x p).1 hx
    obtain ⟨L1, L2, rfl⟩ := List.append_of_mem hmem
    obtain ⟨d', g1, g2, g3⟩ := remove_spec hd
    have hn2 := hn
    rw [List.map_append, List.map_cons, List.nodup_append, List.nodup_cons] at hn2
    have hx1 : x ∉ L1.map Prod.snd := fun h' => hn2.2.2 _ h' x (by simp) rfl
    have hx2 : x ∉ L2.map Prod.snd := hn2.2.1.1
    refine ⟨{ dlist := d', ptrMap := m' }, ?_, ?_, ?_⟩
    · simp [g1]
    · have hf : ((L1 ++ (p, x) :: L2).map Prod.snd).filter (· ≠ x) = (L1 ++ L2).map Prod.snd := by
        rw [List.map_append, List.map_cons, List.filter_append, List.filter_cons_of_neg (by simp),
          List.filter_eq_self.2 (fun y hy => by
            simp only [ne_eq, decide_not, Bool.not_eq_true', decide_eq_false_iff_not]
            rintro rfl; exact hx1 hy),
          List.filter_eq_self.2 (fun y hy => by
            simp only [ne_eq, decide_not, Bool.not_eq_true', decide_eq_false_iff_not]
            rintro rfl; exact hx2 hy), List.map_append]
      refine ⟨hn.sublist List.filter_sublist, L1 ++ L2, _, _, g2, hf, h2, h3, ?_⟩
      intro y p'
      unfold Hash.upd
      split
      · rename_i hy
        subst hy
        constructor
        · intro h; cases h
        · intro h
          have : y ∈ (L1 ++ L2).map Prod.snd := List.mem_map.2 ⟨_, h, rfl⟩
          rw [List.map_append, List.mem_append] at this
          rcases this with h' | h'
          · exact absurd h' hx1
          · exact absurd h' hx2
      · rename_i hy
        rw [hL]
        simp only [List.mem_append, List.mem_cons, Prod.mk.injEq]
        constructor
        · rintro (h | ⟨_, h⟩ | h)
          · exact Or.inl h
          · exact absurd h hy
          · exact Or.inr h
        · rintro (h | h)
          · exact Or.inl h
          · exact Or.inr (Or.inr h)
    · intro N M' hs
      exact ⟨by simp only; rw [g3]; exact hs.1, by simp only; rw [h5]; exact hs.2⟩

theorem queue_push_spec {q : Queue} {s : List UInt64} (h : QRep q s) {x : UInt64} (hx : x ∉ s)
    (hlen : s.length < 2 ^ 61) :
    ∃ q', q.push x = some q' ∧ QRep q' (s ++ [x]) ∧
      ∀ N M, Small q N M → 2 * (s.length + 1) ≤ N → 4 * (128 + s.length) ≤ M → Small q' N M := by
  obtain ⟨hn, L, fs, M, hd, rfl, hm, hr, hL⟩ := h
  have hc := count_eq hm hr hn hL
  obtain ⟨d', p', fs', g1, g2, g3⟩ := insertBefore_spec (L1 := L) (L2 := []) (p := 0)
    (by simpa using hd) rfl x
  obtain ⟨m', h1, h2, h3, _, h5⟩ := Hash.insert_spec hm hr (by rw [hc]; exact hlen) x p'
  refine ⟨{ dlist := d', ptrMap := m' }, ?_, ?_, ?_⟩
  · unfold Queue.push
    rw [g1]
    simp [h1]
  · refine ⟨?_, L ++ [(p', x)], fs', _, g2, by simp, h2, h3, ?_⟩
    · rw [List.nodup_append]
      refine ⟨hn, by simp, ?_⟩
      intro a ha b hb hab
      rw [List.mem_singleton] at hb
      exact hx (by rw [← hb, ← hab]; exact ha)
    · intro y p
      unfold Hash.upd
      rw [List.mem_append, List.mem_singleton, Prod.mk.injEq]
      split
      · rename_i hy
        subst hy
        constructor
        · intro h; exact Or.inr ⟨(Option.some.inj h).symm, rfl⟩
        · rintro (h | h)
          · exact absurd (List.mem_map.2 ⟨_, h, rfl⟩) hx
          · rw [h.1]
      · rename_i hy
        rw [hL]
        constructor
        · intro h; exact Or.inl h
        · rintro (h | h)
          · exact h
          · exact absurd h.2 hy
  · intro N M' hs hN hM
    rw [hc] at h5
    simp only [List.append_nil] at g3
    have := hs.1
    have := hs.2
    simp only [List.length_map] at *
    exact ⟨by simp only; omega, by simp only; omega⟩

theorem queue_use_spec {q : Queue} {s : List UInt64} (h : QRep q s) (x : UInt64)
    (hlen : s.length < 2 ^ 61) :
    ∃ q', q.use x = some q' ∧ QRep q' (s.filter (· ≠ x) ++ [x]) ∧
      ∀ N M, Small q N M → 2 * (s.length + 1) ≤ N → 4 * (128 + s.length) ≤ M → Small q' N M := by
  obtain ⟨q1, h1, h2, h3⟩ := queue_remove_spec h x
  have hle : (s.filter (· ≠ x)).length ≤ s.length := List.length_filter_le _ _
  obtain ⟨q2, g1, g2, g3⟩ := queue_push_spec h2 (x := x) (by simp) (by omega)
  refine ⟨q2, by simp [Queue.use, h1, g1], g2, ?_⟩
  intro N M hs hN hM
  exact g3 N M (h3 N M hs) (by omega) (by omega)

theorem queue_add_spec {q : Queue} {s : List UInt64} (h : QRep q s) (x : UInt64)
    (hlen : s.length < 2 ^ 61) :
    ∃ q', q.add x = some q' ∧ QRep q' (if x ∈ s then s else s ++ [x]) ∧
      ∀ N M, Small q N M → 2 * (s.length + 1) ≤ N → 4 * (128 + s.length) ≤ M → Small q' N M := by
  have hx : ∃ v, Hash.get q.ptrMap x = some v ∧ (v.isSome = true ↔ x ∈ s) := by
    obtain ⟨_, L, fs, M, hd, rfl, hm, hr, hL⟩ := h
    refine ⟨M x, Hash.get_spec hm hr x, ?_⟩
    rw [Option.isSome_iff_exists, List.mem_map]
    constructor
    · rintro ⟨p, hp⟩; exact ⟨(p, x), (hL x p).1 hp, rfl⟩
    · rintro ⟨⟨p, y⟩, hp, rfl⟩; exact ⟨p, (hL y p).2 hp⟩
  obtain ⟨v, hv, hvs⟩ := hx
  by_cases hxs : x ∈ s
  · rw [if_pos hxs]
    refine ⟨q, ?_, h, fun N M hs _ _ => hs⟩
    simp [Queue.add, hv, hvs.2 hxs]
  · rw [if_neg hxs]
    obtain ⟨q2, g1, g2, g3⟩ := queue_push_spec h hxs hlen
    refine ⟨q2, ?_, g2, g3⟩
    have : v.isSome = false := by
      cases hb : v.isSome with
      | false => rfl
      | true => exact absurd (hvs.1 hb) hxs
    simp [Queue.add, hv, this, g1]

theorem queue_first_spec {q : Queue} {s : List UInt64} (h : QRep q s) :
    q.first = some s.head? := by
  obtain ⟨_, L, fs, M, hd, rfl, _⟩ := h
  obtain ⟨n0, hat, hnn, _⟩ := node_at hd.zero_lt
  have hnext : q.dlist.next 0 = some (nx q.dlist.nodes 0) := by
    simp [DList.next, hat, hnn]
  unfold Queue.first
  rw [hnext]
  cases L with
  | nil =>
    have : nx q.dlist.nodes 0 = 0 := hd.seg.1
    simp [this]
  | cons b L =>
    have hn : nx q.dlist.nodes 0 = b.1 := hd.seg.1
    have hb0 : b.1 ≠ 0 := by
      intro h'
      have := hd.nodup
      rw [List.nodup_cons] at this
      exact this.1 (by simp [h'])
    have hdt : q.dlist.get b.1 = some b.2 := hd.data b (by simp)
    simp [hn, hb0, hdt]

end Verif.Queue
