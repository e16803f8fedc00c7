import Verif.Kv.PivotMap
import Verif.Kv.ClientProof
/-
The pivot betree as a machine, and a run of it. No code is modelled here.
-/
namespace Verif.Kv.PivotDemo
open Pivot BlockSystem BlockCache
open Betree (Message)

/-- The tree as a machine. -/
def M : Machine (Graph Node) UIOp :=
  ⟨(KvSystem.graphs app (fun n => n = emptyNode)).Init, (KvSystem.graphs app (fun n => n = emptyNode)).Next⟩

/-- Every execution is one of the client's, and the graph stands for what its history gives. -/
theorem exec_abs {tr : List UIOp} {g : Graph Node} (h : M.Exec tr g) :
    ∃ c, Client.machine.Exec tr c ∧ c.log = tr.flatMap UIOp.entries ∧
      Abs g (contents (tr.flatMap UIOp.entries)) := by
  have key : ∃ c, Client.machine.Exec tr c ∧ c.durable ≤ c.log.length ∧
      c.log = tr.flatMap UIOp.entries ∧ Abs g (contents c.log) := by
    refine Machine.exec_invariant (M := M)
      (I := fun tr g => ∃ c, Client.machine.Exec tr c ∧ c.durable ≤ c.log.length ∧
        c.log = tr.flatMap UIOp.entries ∧ Abs g (contents c.log)) ?_ ?_ h
    · intro g hg
      exact ⟨Client.initial, ⟨_, rfl, .nil _⟩, Nat.zero_le _, rfl, isMap.init g hg⟩
    · rintro tr g u g' ⟨c, h1, h2, h3, h4⟩ hs
      obtain ⟨m', h5, h6⟩ := isMap.next g _ u g' h4 hs
      have he := Composite.next_contents rfl h5
      refine ⟨_, h1.snoc (Composite.next_client h5 h2), ?_, ?_, he ▸ h6⟩
      · exact Nat.le_trans h2 (by simp)
      · simp [h3]
  obtain ⟨c, h1, _, h3, h4⟩ := key
  exact ⟨c, h1, h3, h3 ▸ h4⟩

/-- A key can be queried. -/
theorem query_step {g : Graph Node} {m : MapSpec.View} (ha : Abs g m) (k : Key) :
    M.Step g (.get k (m k)) g := by
  obtain ⟨n, xs, h1, h2, h3, h4⟩ := eval_lookup ha.good (ha.eval k)
  refine .inl ⟨lookupReads (⟨rootRef, n, k⟩ :: xs), [], .query ⟨⟨_, _, rfl, rfl, rfl⟩, ?_, h2, h1⟩
    (fun _ => h4), ?_, .nil⟩
  · intro y hy
    exact (ha.good _ _ (h3 y hy)).inv.wf
  · intro y n hy
    obtain ⟨z, hz, e⟩ := List.mem_map.mp hy
    cases e
    exact h3 z hz

theorem wf_of {tr : List UIOp} {g : Graph Node} (h : M.Exec tr g) {r n} (hg : g r = some n) : WFNode n := by
  obtain ⟨_, _, _, ha⟩ := exec_abs h
  exact (ha.good r n hg).inv.wf

/-! ### The run -/

def d (a : UInt8) : Message := .define [a]
def k0 : Elem := .key []

/-- The root with one entry. -/
def n1 : Node := ⟨[k0, .top], [none], none, [[([5, 1], d 7)]]⟩
/-- The new root with one entry. -/
def n3 : Node := ⟨[k0, .top], [none], some [1], [[([5, 2], d 8)]]⟩
/-- The leaf with both entries. -/
def c2 : Node := ⟨[k0, .top], [none], none, [[([5, 1], d 7), ([5, 2], d 8)]]⟩
/-- The root after the clone: the middle range leads to the same leaf, by the edge `[5]`. -/
def n5 : Node := ⟨[k0, .key [6], .key [7], .top], [none, some [5], none], some [2, 2, 2], [[], [], []]⟩
/-- The root with an entry in the clone. -/
def n7 : Node := ⟨[k0, .key [6], .key [7], .top], [none, some [5], none], some [2, 2, 2],
  [[], [([6, 1], d 9)], []]⟩
/-- The leaf of the clone after the flush. -/
def c3 : Node := ⟨[.key [6], .key [7]], [some [5]], none, [[([6, 1], d 9), ([6, 2], d 8)]]⟩
def n8 : Node := ⟨[k0, .key [6], .key [7], .top], [none, none, none], some [2, 3, 2], [[], [], []]⟩
/-- The first leaf with two ranges. -/
def c2' : Node := ⟨[k0, .key [5, 2], .top], [none, none], none, [[([5, 1], d 7)], [([5, 2], d 8)]]⟩
def c4 : Node := ⟨[k0, .key [5, 2]], [none], none, [[([5, 1], d 7)]]⟩
def c5 : Node := ⟨[.key [5, 2], .key [6]], [none], none, [[([5, 2], d 8)]]⟩
def n9 : Node := ⟨[k0, .key [5, 2], .key [6], .key [7], .top], [none, none, none, none], some [4, 5, 3, 2],
  [[], [], [], []]⟩
def c6 : Node := ⟨[k0, .key [5, 2], .key [6]], [none, none], none, [[([5, 1], d 7)], [([5, 2], d 8)]]⟩
def n10 : Node := ⟨[k0, .key [6], .key [7], .top], [none, none, none], some [6, 3, 2], [[], [], []]⟩

def g0 : Graph Node := PMap.insert .empty rootRef emptyNode
def g1 : Graph Node := g0.insert rootRef n1
def g2 : Graph Node := (g1.insert 1 n1).insert rootRef (grownRoot 1)
def g3 : Graph Node := g2.insert rootRef n3
def g4 : Graph Node := (g3.insert 2 c2).insert rootRef (grownRoot 2)
def g4' : Graph Node := g4.remove 1
def g5 : Graph Node := g4'.insert rootRef n5
def g7 : Graph Node := g5.insert rootRef n7
def g8 : Graph Node := (g7.insert 3 c3).insert rootRef n8
def g8' : Graph Node := g8.insert 2 c2'
def g9 : Graph Node := ((g8'.insert 4 c4).insert 5 c5).insert rootRef n9
def g10 : Graph Node := (g9.insert 6 c6).insert rootRef n10

/-- A transaction that reads only the root. -/
theorem root_txn {g : Graph Node} {n n' : Node} {u} (hg : g rootRef = some n)
    (hv : Valid u [(rootRef, n)] [.write rootRef n']) (hs : ∀ x, Succs n' x → g x ≠ none) :
    M.Step g u (g.insert rootRef n') :=
  .inl ⟨_, _, hv, (by intro x m hx; cases List.mem_singleton.mp hx; exact hg),
    .cons (.write hs (by rw [hg]; simp)) .nil⟩

def f1 : Flush := ⟨rootRef, n3, 1, n1, 2, 0, fun _ => true⟩
def f2 : Flush := ⟨rootRef, n7, 2, c2, 3, 1, fun _ => true⟩

theorem e1 : emptyNode.add [5, 1] (.define [7]) = n1 := by rfl
theorem e3 : (grownRoot 1).add [5, 2] (.define [8]) = n3 := by rfl
theorem e4p : f1.newparent = grownRoot 2 := by rfl
theorem e5 : (grownRoot 2).cloneRoot [5] [6] = n5 := by rfl
theorem e7 : n5.add [6, 1] (.define [9]) = n7 := by rfl
theorem e8p : f2.newparent = n8 := by rfl
theorem e8 : c2.repivot [5, 2] = c2' := by rfl
theorem e9l : (restrictChild n8 c2' 0).splitLeft 1 = c4 := by rfl
theorem e9r : (restrictChild n8 c2' 0).splitRight 1 = c5 := by rfl
theorem e9p : n8.splitParent [5, 2] 0 4 5 = n9 := by rfl
theorem e10c : fusedChild (restrictChild n9 c4 0) (restrictChild n9 c5 1) [5, 2] = c6 := by rfl
theorem e10p : n9.fusedParent 0 6 = n10 := by rfl
theorem e8cut : f2.cut = ⟨[.key [6], .key [7]], [some [5]], none, [[([6, 1], d 7), ([6, 2], d 8)]]⟩ := by rfl
theorem e4cut : f1.cut = n1 := by rfl

theorem merge_cons (k k' : Key) (m m' : Message) (t b : Bucket) :
    Bucket.merge ((k, m) :: t) ((k', m') :: b) =
      if Elem.key k < .key k' then (k, m) :: Bucket.merge t ((k', m') :: b)
      else if Elem.key k' < .key k then (k', m') :: Bucket.merge ((k, m) :: t) b
      else if m.merge m' = .update then Bucket.merge t b
      else (k, m.merge m') :: Bucket.merge t b := by rw [Bucket.merge]

theorem nil_merge (b : Bucket) : Bucket.merge [] b = b := by rw [Bucket.merge]
theorem merge_nil (b : Bucket) : Bucket.merge b [] = b := by
  cases b with
  | nil => rw [Bucket.merge]
  | cons x xs => rw [Bucket.merge]; simp

theorem e4c : f1.newchild = c2 := by
  have hb : f1.cut.buckets.mapIdx (fun i b => Bucket.merge
      (f1.bucket.filter (fun x => f1.flushed x.1 && route f1.cut.pivots x.1 == i)) b) =
      [Bucket.merge [([5, 2], d 8)] [([5, 1], d 7)]] := by rfl
  unfold Flush.newchild
  rw [hb, merge_cons, if_neg (by decide), if_pos (by decide), merge_nil]
  rfl
theorem e8c : f2.newchild = c3 := by
  have hb : f2.cut.buckets.mapIdx (fun i b => Bucket.merge
      (f2.bucket.filter (fun x => f2.flushed x.1 && route f2.cut.pivots x.1 == i)) b) =
      [Bucket.merge [([6, 1], d 9)] [([6, 1], d 7), ([6, 2], d 8)]] := by rfl
  unfold Flush.newchild
  rw [hb, merge_cons, if_neg (by decide), if_neg (by decide), if_neg (by decide), nil_merge]
  rfl

theorem all1 : ContainsAll n1.pivots := ⟨rfl, rfl⟩
theorem bounded_all {pt : List Elem} (h : ContainsAll pt) (k : Key) : Bounded pt k := allKeys h k

/-- The path of the range query in the clone. -/
def path : List Layer := [⟨rootRef, n7, [6]⟩, ⟨2, c2, [5]⟩]

theorem path_upper : upper path = .key [7] := by rfl
theorem path_buckets : succBuckets path =
    [[([6, 1], d 9)], [([6, 1], d 7), ([6, 2], d 8)]] := by rfl

def results : List (Key × Value) := [([6, 1], [9]), ([6, 2], [8])]

theorem path_get (k : Key) : (composeGet (succBuckets path) k).merge (.define []) =
    .define (if k = [6, 1] then [9] else if k = [6, 2] then [8] else []) := by
  rw [path_buckets]
  by_cases h1 : k = [6, 1]
  · subst h1; rfl
  · by_cases h2 : k = [6, 2]
    · subst h2; rfl
    · have a1 : ([6, 1] == k) = false := by simpa using fun h => h1 h.symm
      have a2 : ([6, 2] == k) = false := by simpa using fun h => h2 h.symm
      simp [composeGet, Bucket.get, a1, a2, h1, h2, Message.merge]

theorem path_valid (hw : WFNode n7) (hw' : WFNode c2) :
    ValidSucc (.incl [6]) results (.excl [7]) path where
  lookup := by
    refine ⟨⟨_, _, rfl, rfl, rfl⟩, ?_, ?_, ?_⟩
    · intro x hx
      simp [path] at hx
      rcases hx with rfl | rfl
      · exact hw
      · exact hw'
    · intro x hx
      simp [path] at hx
      rcases hx with rfl | rfl
      · exact bounded_all ⟨rfl, rfl⟩ _
      · exact bounded_all ⟨rfl, rfl⟩ _
    · intro i hi
      have : i = 0 := by simp [path] at hi; omega
      subst this
      exact ⟨⟨_, rfl, rfl⟩, rfl⟩
  leaf := by intro x hx; cases hx; rfl
  range := fun _ => ⟨by decide, by decide⟩
  bound := by
    intro _ u hu h
    rw [path_upper] at hu
    cases hu
    exact h.2 rfl
  results := by
    intro _ k v
    rw [path_get]
    constructor
    · intro h
      simp [results] at h
      rcases h with ⟨rfl, rfl⟩ | ⟨rfl, rfl⟩
      · exact ⟨⟨(by decide : MapSpec.lte _ _ = true), by decide, by decide⟩, by decide, rfl⟩
      · exact ⟨⟨(by decide : MapSpec.lte _ _ = true), by decide, by decide⟩, by decide, rfl⟩
    · rintro ⟨_, h2, h3⟩
      by_cases h4 : k = [6, 1]
      · subst h4
        simp at h3
        simp [results, ← h3]
      · by_cases h5 : k = [6, 2]
        · subst h5
          simp at h3
          simp [results, ← h3]
        · simp [h4, h5] at h3
          exact absurd h3 (fun h => h2 h)
  order := fun _ => by
    simp only [results, List.pairwise_cons, List.mem_cons, List.not_mem_nil, or_false, forall_eq]
    exact ⟨⟨by decide, by decide⟩, by simp, .nil⟩

def t1 : List UIOp := [.put [5, 1] [7]]
def t4 : List UIOp := t1 ++ [.noop] ++ [.put [5, 2] [8]] ++ [.noop] ++ [.noop]
def t5 : List UIOp := t4 ++ [.clone [5] [6]]
def t7 : List UIOp := t5 ++ [.get [6, 1] [7]] ++ [.put [6, 1] [9]] ++
  [.succ (.incl [6]) results (.excl [7])]
def t8 : List UIOp := t7 ++ [.noop] ++ [.noop]
def t10 : List UIOp := t8 ++ [.noop] ++ [.noop]
def trace : List UIOp := t10 ++ [.get [6, 1] [9]] ++ [.get [5, 1] [7]] ++ [.get [6, 2] [8]]

theorem succs_list {n : Node} {cs : List Ref} (h : n.children = some cs) {g : Graph Node}
    (hg : ∀ x ∈ cs, g x ≠ none) : ∀ x, app.succs n x → g x ≠ none := by
  rintro x ⟨cs', h1, h2⟩
  rw [h] at h1; cases h1
  exact hg x h2

theorem succs_leaf {n : Node} (h : n.children = none) {g : Graph Node} :
    ∀ x, app.succs n x → g x ≠ none := by
  rintro x ⟨cs', h1, h2⟩
  rw [h] at h1; cases h1

theorem run1 : M.Exec t1 g1 := by
  have s0 : M.Exec [] g0 := ⟨_, ⟨_, rfl, rfl, by rintro x ⟨cs, h, _⟩; cases h⟩, .nil _⟩
  refine s0.snoc ?_
  have := root_txn (g := g0) (n := emptyNode) (u := .put [5, 1] [7]) (PMap.insert_same _ _ _)
    (.insert (wf_of s0 (PMap.insert_same _ _ _)) (bounded_all ⟨rfl, rfl⟩ _)) (succs_leaf rfl)
  rw [e1] at this
  exact this

theorem run4 : M.Exec t4 g4' := by
  have hw1 := wf_of run1 (PMap.insert_same _ _ _)
  have s2 : M.Exec (t1 ++ [.noop]) g2 := by
    refine run1.snoc (.inl ⟨_, _, .grow (old := n1) (child := 1) hw1 all1, ?_,
      .cons (.alloc (succs_leaf rfl) (by rfl)) (.cons (.write (succs_list rfl ?_) ?_) .nil)⟩)
    · intro x m hx; cases List.mem_singleton.mp hx; exact PMap.insert_same _ _ _
    · simp
    · simp [g1]; decide
  have s3 : M.Exec (t1 ++ [.noop] ++ [.put [5, 2] [8]]) g3 := by
    refine s2.snoc ?_
    have := root_txn (g := g2) (n := grownRoot 1) (u := .put [5, 2] [8]) (PMap.insert_same _ _ _)
      (.insert (wf_of s2 (PMap.insert_same _ _ _)) (bounded_all ⟨rfl, rfl⟩ _)) (succs_list (cs := [1]) rfl (by
        intro x hx; rw [List.mem_singleton] at hx; subst hx; decide))
    rw [e3] at this
    exact this
  have h3 : g3 rootRef = some n3 := PMap.insert_same _ _ _
  have h31 : g3 1 = some n1 := by rfl
  have s4 : M.Exec (t1 ++ [.noop] ++ [.put [5, 2] [8]] ++ [.noop]) g4 := by
    refine s3.snoc (.inl ⟨_, _, .flush (f := f1) ⟨wf_of s3 h3, wf_of s3 h31, by decide, ⟨_, rfl, rfl⟩,
      ⟨_, _, rfl, _, _, rfl, rfl, le_refl _, le_refl _⟩⟩, ?_, ?_⟩)
    · intro x m hx
      simp [f1] at hx
      rcases hx with ⟨rfl, rfl⟩ | ⟨rfl, rfl⟩
      · exact h3
      · exact h31
    · rw [e4c, e4p]
      exact .cons (.alloc (succs_leaf rfl) (by rfl)) (.cons (.write (succs_list (cs := [2]) rfl (by
        intro x hx; rw [List.mem_singleton] at hx; subst hx
        show (g3.insert 2 c2) 2 ≠ none
        simp)) (by decide)) .nil)
  refine s4.snoc (.inr ⟨rfl, 1, by decide, by decide, ?_, rfl⟩)
  intro x n hx
  by_cases a0 : x = rootRef
  · subst a0
    rw [g4, PMap.insert_same] at hx
    cases hx
    rintro ⟨cs, h, h'⟩; cases h; simp at h'
  · rw [g4, PMap.insert_other _ _ a0] at hx
    by_cases a1 : x = 2
    · subst a1; rw [PMap.insert_same] at hx; cases hx
      rintro ⟨cs, h, h'⟩; cases h
    · rw [PMap.insert_other _ _ a1, g3, PMap.insert_other _ _ a0, g2, PMap.insert_other _ _ a0] at hx
      by_cases a2 : x = 1
      · subst a2; rw [PMap.insert_same] at hx; cases hx
        rintro ⟨cs, h, h'⟩; cases h
      · rw [PMap.insert_other _ _ a2, g1, PMap.insert_other _ _ a0, g0, PMap.insert_other _ _ a0] at hx
        cases hx

theorem run5 : M.Exec t5 g5 := by
  refine run4.snoc ?_
  have := root_txn (g := g4') (n := grownRoot 2) (u := .clone [5] [6]) (by rfl)
    (.clone ⟨wf_of run4 (r := rootRef) (by rfl), ⟨rfl, rfl⟩, by simp [grownRoot], by simp, by
      intro i b x h1 h2 h3 hx
      have hi : i < (grownRoot 2).buckets.length := lt_of_getElem? h3
      have : i = 0 := by simp [grownRoot] at hi; omega
      subst this
      cases h3
      cases hx⟩) (by
        rw [e5]
        exact succs_list (cs := [2, 2, 2]) rfl (by
          intro x hx
          simp at hx
          subst hx; decide))
  rw [e5] at this
  exact this

theorem run7 : M.Exec t7 g7 := by
  obtain ⟨_, _, _, ha⟩ := exec_abs run5
  have s6 : M.Exec (t5 ++ [.get [6, 1] [7]]) g5 := run5.snoc (query_step ha [6, 1])
  have s7 : M.Exec (t5 ++ [.get [6, 1] [7]] ++ [.put [6, 1] [9]]) g7 := by
    refine s6.snoc ?_
    have := root_txn (g := g5) (n := n5) (u := .put [6, 1] [9]) (PMap.insert_same _ _ _)
      (.insert (wf_of s6 (PMap.insert_same _ _ _)) (bounded_all ⟨rfl, rfl⟩ _))
      (succs_list (cs := [2, 2, 2]) rfl (by
        intro x hx
        simp at hx
        subst hx; decide))
    rw [e7] at this
    exact this
  refine s7.snoc (.inl ⟨_, _, .succ (path_valid (wf_of s7 (r := rootRef) (by rfl))
    (wf_of s7 (r := 2) (by rfl))), ?_, .nil⟩)
  intro x n hx
  simp [lookupReads, path] at hx
  rcases hx with ⟨rfl, rfl⟩ | ⟨rfl, rfl⟩
  · rfl
  · rfl

theorem run8 : M.Exec t8 g8' := by
  have s8 : M.Exec (t7 ++ [.noop]) g8 := by
    refine run7.snoc (.inl ⟨_, _, .flush (f := f2) ⟨wf_of run7 (r := rootRef) (by rfl),
      wf_of run7 (r := 2) (by rfl), by decide, ⟨_, rfl, rfl⟩,
      ⟨.key [5], .key [6], rfl, _, _, rfl, rfl, by decide, by decide⟩⟩, ?_, ?_⟩)
    · intro x m hx
      simp [f2] at hx
      rcases hx with ⟨rfl, rfl⟩ | ⟨rfl, rfl⟩
      · rfl
      · rfl
    · rw [e8c, e8p]
      exact .cons (.alloc (succs_leaf rfl) (by rfl)) (.cons (.write (succs_list (cs := [2, 3, 2]) rfl (by
        intro x hx
        simp at hx
        rcases hx with rfl | rfl | rfl <;> decide)) (by decide)) .nil)
  refine s8.snoc (.inl ⟨_, _, .repivot (ref := 2) (leaf := c2) (pivot := [5, 2])
    ⟨wf_of s8 (r := 2) (by rfl), rfl, by decide, rfl, rfl⟩, ?_, ?_⟩)
  · intro x m hx; cases List.mem_singleton.mp hx; rfl
  · rw [e8]
    exact .cons (.write (succs_leaf rfl) (by decide)) .nil

theorem run10 : M.Exec t10 g10 := by
  have s9 : M.Exec (t8 ++ [.noop]) g9 := by
    refine run8.snoc (.inl ⟨_, _, .split (parentref := rootRef) (parent := n8) (childref := 2)
      (child := c2') (slot := 0) (num := 1) (pivot := [5, 2]) (l := 4) (r := 5)
      ⟨wf_of run8 (r := rootRef) (by rfl), wf_of run8 (r := 2) (by rfl), by decide,
        ⟨_, _, rfl, rfl, by decide, by decide⟩, ⟨_, rfl, rfl⟩,
        ⟨_, _, rfl, _, _, rfl, rfl, by decide, by decide⟩, by decide, by decide, rfl⟩, ?_, ?_⟩)
    · intro x m hx
      simp at hx
      rcases hx with ⟨rfl, rfl⟩ | ⟨rfl, rfl⟩
      · rfl
      · rfl
    · rw [e9l, e9r, e9p]
      exact .cons (.alloc (succs_leaf rfl) (by rfl)) (.cons (.alloc (succs_leaf rfl) (by rfl))
        (.cons (.write (succs_list (cs := [4, 5, 3, 2]) rfl (by
          intro x hx
          simp at hx
          rcases hx with rfl | rfl | rfl | rfl <;> decide)) (by decide)) .nil))
  refine s9.snoc (.inl ⟨_, _, .merge (parentref := rootRef) (parent := n9) (leftref := 4)
      (left := c4) (rightref := 5) (right := c5) (slot := 0) (pivot := [5, 2]) (c := 6)
      ⟨wf_of s9 (r := rootRef) (by rfl), wf_of s9 (r := 4) (by rfl), wf_of s9 (r := 5) (by rfl), by decide,
        rfl, ⟨_, rfl, rfl, rfl⟩, fun h => absurd h (by decide), ⟨fun _ => rfl, fun _ => rfl⟩,
        ⟨_, _, rfl, _, _, rfl, rfl, by decide, by decide⟩,
        ⟨_, _, rfl, _, _, rfl, rfl, by decide, by decide⟩⟩, ?_, ?_⟩)
  · intro x m hx
    simp at hx
    rcases hx with ⟨rfl, rfl⟩ | ⟨rfl, rfl⟩ | ⟨rfl, rfl⟩ <;> rfl
  · rw [e10c, e10p]
    exact .cons (.alloc (succs_leaf rfl) (by rfl))
      (.cons (.write (succs_list (cs := [6, 3, 2]) rfl (by
        intro x hx
        simp at hx
        rcases hx with rfl | rfl | rfl <;> decide)) (by decide)) .nil)

theorem run : M.Exec trace g10 := by
  obtain ⟨_, _, _, ha⟩ := exec_abs run10
  exact ((run10.snoc (query_step ha [6, 1])).snoc (query_step ha [5, 1])).snoc (query_step ha [6, 2])

end Verif.Kv.PivotDemo
