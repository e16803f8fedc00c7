import Verif.Kv.PivotStep
import Verif.Kv.BetreeProof
/-
The betree with pivot nodes does what the betree with one entry per key does. No code is modelled here.
-/
namespace Verif.Kv.Pivot
open Betree (Message)
open BlockSystem (GStep)
open BlockCache (Ops)

theorem merge_assoc (a b c : Message) : (a.merge b).merge c = a.merge (b.merge c) := by
  cases a <;> rfl

theorem merge_define (m : Message) (d : Value) : ∃ v, m.merge (.define d) = .define v := by
  cases m with
  | define v => exact ⟨v, rfl⟩
  | update => exact ⟨d, rfl⟩

/-! ### The abstraction -/

/-- The edge that an item stands for. -/
def kid : Option Item → Option Betree.Edge
  | some ⟨k, some c, _⟩ => some ⟨k, c⟩
  | _ => none

/-- The message that an item stands for; `d` is what stands outside the range of the node. -/
def buf (d : Value) : Option Item → Message
  | some ⟨_, some _, m⟩ => m
  | some ⟨_, none, m⟩ => m.merge (.define [])
  | none => .define d

/-- The node of the betree that a pivot node stands for. -/
noncomputable def I (d : Value) (n : Node) : Betree.Node :=
  ⟨fun k => kid (view n k), fun k => some (buf d (view n k))⟩

/-- The graph of the betree that a graph of pivot nodes stands for. -/
noncomputable def gI (d : Value) (g : Graph Node) : Graph Betree.Node := fun r => (g r).map (I d)

/-- An operation of the betree. -/
noncomputable def opI (d : Value) : GOp Node → GOp Betree.Node
  | .alloc r n => .alloc r (I d n)
  | .write r n => .write r (I d n)

theorem I_wf (d : Value) (n : Node) : Betree.WFNode (I d n) := by
  refine ⟨fun k => by simp [I], fun k h => ?_⟩
  simp only [I] at h ⊢
  match view n k, h with
  | none, _ => exact ⟨d, rfl⟩
  | some ⟨x, none, m⟩, _ =>
    obtain ⟨v, hv⟩ := merge_define m []
    exact ⟨v, by simp [buf, hv]⟩

theorem I_succs {d : Value} {n : Node} {r : Ref} (h : Betree.Succs (I d n) r) : Succs n r := by
  obtain ⟨k, e, h1, h2⟩ := h
  simp only [I, view] at h1
  split at h1
  · simp only [kid] at h1
    split at h1
    · next hc =>
      cases h1
      simp only [Option.some.injEq, Item.mk.injEq] at hc
      obtain ⟨_, hc, _⟩ := hc
      obtain ⟨cs, h3, h4⟩ := Option.bind_eq_some_iff.mp hc
      subst h2
      exact ⟨cs, h3, List.mem_of_getElem? h4⟩
    · cases h1
  · cases h1

/-- The node that an operation writes. -/
def opNode : GOp Node → Node
  | .alloc _ n => n
  | .write _ n => n

theorem gI_insert (d : Value) (g : Graph Node) (r : Ref) (n : Node) :
    gI d (g.insert r n) = (gI d g).insert r (I d n) := by
  funext x
  by_cases h : x = r
  · subst h; simp [gI]
  · simp [gI, PMap.insert, h]

theorem step_gI (d : Value) {g g' : Graph Node} {op : GOp Node} (h : GStep app g op g') :
    GStep Betree.app (gI d g) (opI d op) (gI d g') := by
  have succs : ∀ {n : Node} {g : Graph Node}, (∀ x, app.succs n x → g x ≠ none) →
      ∀ x, Betree.app.succs (I d n) x → gI d g x ≠ none := by
    intro n g h x hx
    have := h x (I_succs hx)
    simpa [gI] using this
  cases h with
  | alloc h1 h2 =>
    rw [gI_insert]
    exact .alloc (succs h1) (by simp [gI, h2])
  | write h1 h2 =>
    rw [gI_insert]
    exact .write (succs h1) (by simpa [gI] using h2)

theorem ops_gI (d : Value) {g g' : Graph Node} {ops : List (GOp Node)} (h : Ops (GStep app) g ops g') :
    Ops (GStep Betree.app) (gI d g) (ops.map (opI d)) (gI d g') := by
  induction h with
  | nil => exact .nil
  | cons h1 _ ih => exact .cons (step_gI d h1) ih

/-- All nodes of the graph are good. -/
def AllGood (g : Graph Node) : Prop := ∀ r n, g r = some n → Good n

theorem AllGood.insert {g : Graph Node} (h : AllGood g) {r : Ref} {n : Node} (hn : Good n) :
    AllGood (g.insert r n) := by
  intro x m hx
  by_cases e : x = r
  · subst e
    rw [PMap.insert_same] at hx; cases hx
    exact hn
  · rw [PMap.insert_other _ _ e] at hx
    exact h x m hx

theorem ops_good {g g' : Graph Node} {ops : List (GOp Node)} (h : Ops (GStep app) g ops g')
    (hg : AllGood g) (ho : ∀ op ∈ ops, Good (opNode op)) : AllGood g' := by
  induction h with
  | nil => exact hg
  | cons h1 _ ih =>
    refine ih ?_ (fun op hop => ho op (List.mem_cons_of_mem _ hop))
    cases h1 with
    | alloc _ _ => exact hg.insert (ho _ List.mem_cons_self)
    | write _ _ => exact hg.insert (ho _ List.mem_cons_self)

/-! ### Queries -/

theorem view_at {n : Node} {k : Key} (h : Bounded n.pivots k) : view n k =
    some ⟨translateKey n.pivots n.edges k, n.childAt (route n.pivots k), (n.bucketAt k).get k⟩ := by
  simp [view, h]

theorem childAt_none {n : Node} (hg : Good n) {k : Key} (h : Bounded n.pivots k) :
    n.childAt (route n.pivots k) = none ↔ n.children = none := by
  obtain ⟨i, lo, hi, e, b, hs, h1, h2⟩ := hg.find h
  rw [route_eq hg.sorted hs.lo hs.hi h1 h2]
  unfold Node.childAt
  cases hc : n.children with
  | none => simp
  | some cs =>
    have := hg.children cs hc
    have hb := hs.bound
    simp [this, hb]

/-- A layer of the betree. -/
noncomputable def layerI (d : Value) (x : Layer) : Betree.Layer := ⟨x.ref, I d x.node, x.key⟩

theorem Follows.tail {x : Layer} {xs : List Layer} (h : Follows (x :: xs)) : Follows xs := by
  intro i hi
  have := h (i + 1) (by simpa using hi)
  simpa using this

theorem Follows.head {x y : Layer} {xs : List Layer} (h : Follows (x :: y :: xs)) :
    x.node.childAt (route x.node.pivots x.key) = some y.ref ∧
      translateKey x.node.pivots x.node.edges x.key = y.key := by
  obtain ⟨⟨cs, h1, h2⟩, h3⟩ := h 0 (by simp)
  refine ⟨?_, h3⟩
  simp only [List.getElem_cons_zero, List.getElem_cons_succ] at h1 h2
  simp [Node.childAt, h1, h2]

theorem follows_cons {x y : Layer} {xs : List Layer}
    (h1 : x.node.childAt (route x.node.pivots x.key) = some y.ref)
    (h2 : translateKey x.node.pivots x.node.edges x.key = y.key) (h : Follows (y :: xs)) :
    Follows (x :: y :: xs) := by
  intro i hi
  cases i with
  | zero =>
    obtain ⟨cs, h3, h4⟩ := Option.bind_eq_some_iff.mp h1
    exact ⟨⟨cs, h3, h4⟩, h2⟩
  | succ i => exact h i (by simpa using hi)

theorem follows_I (d : Value) : ∀ (l : List Layer), Follows l → (∀ x ∈ l, Bounded x.node.pivots x.key) →
    Betree.Follows (l.map (layerI d)) := by
  intro l hf hb i hi
  rw [List.length_map] at hi
  obtain ⟨⟨cs, h1, h2⟩, h3⟩ := hf i hi
  simp only [List.getElem_map, layerI, I]
  rw [view_at (hb _ (List.getElem_mem _)), h3]
  simp [Node.childAt, h1, h2, kid]

/-- What a lookup of the betree adds up to. -/
theorem foldl_I (d : Value) : ∀ (l : List Layer) (x : Layer) (m : Message), Follows (x :: l) →
    (∀ y ∈ x :: l, Good y.node) → (∀ y ∈ x :: l, Bounded y.node.pivots y.key) →
    ((x :: l).map (layerI d)).foldl (fun m x => m.merge ((x.node.buffer x.key).getD .update)) m =
      match (x :: l).getLast? with
      | some z => if z.node.children = none then
          ((x :: l).foldl (fun m x => m.merge ((x.node.bucketAt x.key).get x.key)) m).merge (.define [])
        else (x :: l).foldl (fun m x => m.merge ((x.node.bucketAt x.key).get x.key)) m
      | none => m := by
  intro l
  induction l with
  | nil =>
    intro x m _ hg hb
    have hbx := hb x List.mem_cons_self
    have hc := childAt_none (hg x List.mem_cons_self) hbx
    simp only [List.map_cons, List.map_nil, List.foldl_cons, List.foldl_nil, layerI, I, view_at hbx,
      Option.getD_some, List.getLast?_singleton]
    cases hk : x.node.childAt (route x.node.pivots x.key) with
    | none => simp [buf, hc.mp hk, merge_assoc]
    | some c =>
      have : x.node.children ≠ none := fun h => by rw [hc.mpr h] at hk; cases hk
      simp [buf, this]
  | cons y ys ih =>
    intro x m hf hg hb
    have hbx := hb x List.mem_cons_self
    obtain ⟨h1, _⟩ := hf.head
    have := ih y (m.merge ((x.node.bucketAt x.key).get x.key)) hf.tail
      (fun z hz => hg z (List.mem_cons_of_mem _ hz)) (fun z hz => hb z (List.mem_cons_of_mem _ hz))
    rw [List.map_cons, List.foldl_cons]
    have e : ((layerI d x).node.buffer (layerI d x).key).getD .update =
        (x.node.bucketAt x.key).get x.key := by
      simp [layerI, I, view_at hbx, h1, buf]
    rw [e, this, List.getLast?_cons_cons]
    rfl

theorem interpret_I (d : Value) {l : List Layer} (hne : l ≠ []) (hf : Follows l)
    (hg : ∀ y ∈ l, Good y.node) (hb : ∀ y ∈ l, Bounded y.node.pivots y.key) :
    Betree.interpret (l.map (layerI d)) = interpretLeaf l := by
  cases l with
  | nil => exact absurd rfl hne
  | cons x xs =>
    have := foldl_I d xs x .update hf hg hb
    unfold Betree.interpret interpretLeaf
    rw [this]
    cases h : (x :: xs).getLast? with
    | none => simp at h
    | some z => rfl

theorem marshalled {l : List Layer} (hg : ∀ y ∈ l, Good y.node)
    (hb : ∀ y ∈ l, Bounded y.node.pivots y.key) : Marshalled l := by
  intro x hx
  obtain ⟨i, lo, hi, e, b, hs, h1, h2⟩ := (hg x hx).find (hb x hx)
  have : x.node.bucketAt x.key = b := by
    simp [Node.bucketAt, route_eq (hg x hx).sorted hs.lo hs.hi h1 h2, hs.b]
  rw [this]
  exact ((hg x hx).slots _ _ _ _ _ hs).sorted

theorem lookup_I (d : Value) {l : List Layer} {k : Key} (h : WFLookup l k) :
    Betree.WFLookup (l.map (layerI d)) k := by
  obtain ⟨x, xs, rfl, h1, h2⟩ := h.head
  refine ⟨⟨layerI d x, xs.map (layerI d), rfl, h1, h2⟩, follows_I d _ h.follows h.bounded, ?_⟩
  intro y hy
  obtain ⟨z, _, rfl⟩ := List.mem_map.mp hy
  exact I_wf _ _

theorem reads_I (d : Value) (l : List Layer) :
    Betree.lookupReads (l.map (layerI d)) = (lookupReads l).map (fun x => (x.1, I d x.2)) := by
  simp [Betree.lookupReads, lookupReads, layerI]

/-! ### Range queries -/

/-- A key, and the key it becomes. -/
def Moves : Option PrefixSet → Key → Key → Prop
  | none, k, k' => k' = k
  | some s, k, k' => ∃ t, k = s.pre ++ t ∧ k' = s.new ++ t

theorem moves_compose {s b : Option PrefixSet} {k k' K : Key} (h : Moves s k K) (h' : Moves b k k') :
    Moves (composePrefix s b) k' K := by
  cases s with
  | none =>
    cases h
    cases b with
    | none => cases h'; rfl
    | some b => obtain ⟨t, rfl, rfl⟩ := h'; exact ⟨t, rfl, rfl⟩
  | some a =>
    obtain ⟨t, rfl, rfl⟩ := h
    cases b with
    | none => cases h'; exact ⟨t, rfl, rfl⟩
    | some b =>
      obtain ⟨u, h1, rfl⟩ := h'
      simp only [composePrefix]
      rcases List.append_eq_append_iff.mp h1 with ⟨w, e1, e2⟩ | ⟨w, e1, e2⟩
      · subst e2
        rw [if_pos (by rw [e1]; simp)]
        refine ⟨u, rfl, ?_⟩
        rw [e1]
        simp [applyPrefix, changePrefix]
      · subst e2
        split
        · next hl =>
          have : w = [] := by
            rw [e1, List.length_append] at hl
            exact List.length_eq_zero_iff.mp (by omega)
          subst this
          rw [List.append_nil] at e1
          refine ⟨t, rfl, ?_⟩
          simp [applyPrefix, changePrefix, e1]
        · refine ⟨t, ?_, rfl⟩
          rw [e1]
          simp [applyPrefix, changePrefix]

theorem moves_lt {x : Layer} {s : Option PrefixSet} {k K K0 : Key} {hi : Elem} (h0 : Moves s x.key K0)
    (he : x.node.pivots[route x.node.pivots x.key + 1]? = some hi) (hx : .key x.key < hi)
    (h : Moves s k K) : .key K < upperAt x s ↔ .key k < hi := by
  unfold upperAt
  rw [he]
  cases s with
  | none => cases h; rfl
  | some a =>
    obtain ⟨t, rfl, rfl⟩ := h
    obtain ⟨u, hu, _⟩ := h0
    rw [hu] at hx
    exact translateEnd_lt (lt_of_le_of_lt (Elem.prefix_le (List.prefix_append _ _)) hx) t

theorem moves_le {s : Option PrefixSet} {x k K K0 : Key} (h0 : Moves s x K0) (h : Moves s k K)
    (hle : Elem.key K0 ≤ .key K) : Elem.key x ≤ .key k := by
  cases s with
  | none => cases h; cases h0; exact hle
  | some a =>
    obtain ⟨t, rfl, rfl⟩ := h
    obtain ⟨u, rfl, rfl⟩ := h0
    rw [Elem.append_le] at hle ⊢
    exact hle

theorem get_translate {b : Bucket} (hs : b.Sorted) (p q t : Key) :
    (Bucket.translate b p q).get (q ++ t) = b.get (p ++ t) := by
  refine Bucket.get_congr (hs.translate p q) hs (fun m => ?_)
  rw [Bucket.mem_translate]
  constructor
  · rintro ⟨t', h1, h2⟩
    have := List.append_cancel_left h1
    subst this
    exact h2
  · intro h
    exact ⟨t, rfl, h⟩

/-- The bucket of a layer as the first layer sees it. -/
def succBucket (x : Layer) (s : Option PrefixSet) : Bucket :=
  match s with
  | none => x.node.bucketAt x.key
  | some s => Bucket.translate (x.node.bucketAt x.key) s.pre s.new

theorem get_succBucket {x : Layer} {s : Option PrefixSet} {k K : Key} (hs : (x.node.bucketAt x.key).Sorted)
    (h : Moves s k K) : (succBucket x s).get K = (x.node.bucketAt x.key).get k := by
  cases s with
  | none => cases h; rfl
  | some a =>
    obtain ⟨t, rfl, rfl⟩ := h
    exact get_translate hs _ _ _

/-- All keys below the upper bound take the path of the first key. -/
theorem same_path {K0 K : Key} (hle : Elem.key K0 ≤ .key K) : ∀ (l : List Layer) (x : Layer)
    (s : Option PrefixSet) (k : Key), Follows (x :: l) → (∀ y ∈ x :: l, Good y.node) →
    (∀ y ∈ x :: l, Bounded y.node.pivots y.key) → Moves s x.key K0 → Moves s k K →
    (∀ p ∈ (x :: l).zip (prefixes s (x :: l)), Elem.key K < upperAt p.1 p.2) →
    ∃ ys, lookupReads (⟨x.ref, x.node, k⟩ :: ys) = lookupReads (x :: l) ∧
      Follows (⟨x.ref, x.node, k⟩ :: ys) ∧
      (∀ y ∈ (⟨x.ref, x.node, k⟩ : Layer) :: ys, Bounded y.node.pivots y.key) ∧
      ∀ m : Message, ((⟨x.ref, x.node, k⟩ : Layer) :: ys).foldl (fun m x => m.merge ((x.node.bucketAt x.key).get x.key)) m =
        ((x :: l).zip (prefixes s (x :: l))).foldl (fun m p => m.merge ((succBucket p.1 p.2).get K)) m := by
  intro l
  induction l with
  | nil =>
    intro x s k hf hg hb h0 h hu
    have hgx := hg x List.mem_cons_self
    obtain ⟨i, lo, hi, e, b, hs, c1, c2⟩ := hgx.find (hb x List.mem_cons_self)
    have hr := route_eq hgx.sorted hs.lo hs.hi c1 c2
    have hux := hu (x, s) (by simp [prefixes])
    have hk1 := le_trans c1 (moves_le h0 h hle)
    have hk2 : .key k < hi := (moves_lt h0 (by rw [hr]; exact hs.hi) c2 h).mp hux
    have hr' := route_eq hgx.sorted hs.lo hs.hi hk1 hk2
    refine ⟨[], rfl, fun i hi => by simp at hi, ?_, ?_⟩
    · intro y hy
      rw [List.mem_singleton] at hy
      subst hy
      exact hgx.bounded hs hk1 hk2
    · intro m
      have : x.node.bucketAt k = x.node.bucketAt x.key := by simp [Node.bucketAt, hr, hr']
      have hbk : x.node.bucketAt x.key = b := by simp [Node.bucketAt, hr, hs.b]
      simp only [List.foldl_cons, List.foldl_nil, prefixes, List.zip_cons_cons, List.zip_nil_right]
      rw [get_succBucket (by rw [hbk]; exact (hgx.slots _ _ _ _ _ hs).sorted) h, this]
  | cons z zs ih =>
    intro x s k hf hg hb h0 h hu
    have hgx := hg x List.mem_cons_self
    obtain ⟨i, lo, hi, e, b, hs, c1, c2⟩ := hgx.find (hb x List.mem_cons_self)
    have hr := route_eq hgx.sorted hs.lo hs.hi c1 c2
    have hux := hu (x, s) (by simp [prefixes])
    have hk1 := le_trans c1 (moves_le h0 h hle)
    have hk2 : .key k < hi := (moves_lt h0 (by rw [hr]; exact hs.hi) c2 h).mp hux
    have hr' := route_eq hgx.sorted hs.lo hs.hi hk1 hk2
    have hbk : x.node.bucketAt x.key = b := by simp [Node.bucketAt, hr, hs.b]
    obtain ⟨f1, f2⟩ := hf.head
    have ht : ∀ k', route x.node.pivots k' = i → translate x.node.pivots x.node.edges k' =
        translate x.node.pivots x.node.edges x.key := by
      intro k' hk'
      simp [translate, hr, hk']
    have hmv : ∀ k', lo ≤ .key k' → .key k' < hi →
        Moves (translate x.node.pivots x.node.edges x.key) k' (translateKey x.node.pivots x.node.edges k') := by
      intro k' d1 d2
      have hr2 := route_eq hgx.sorted hs.lo hs.hi d1 d2
      unfold translateKey
      rw [ht k' hr2]
      have : translate x.node.pivots x.node.edges x.key =
          e.map (fun e => ⟨pivotLcp lo hi, e⟩) := by
        simp only [translate, hr, hs.e, lcpAt, hs.lo, hs.hi]
        cases e <;> rfl
      rw [this]
      cases e with
      | none => rfl
      | some e0 =>
        obtain ⟨w, hw⟩ := pivotLcp_prefix d1 d2
        refine ⟨w, hw.symm, ?_⟩
        simp [applyPrefix, ← hw, changePrefix]
    have n0 := moves_compose h0 (hmv _ c1 c2)
    have n1 := moves_compose h (hmv _ hk1 hk2)
    rw [f2] at n0
    obtain ⟨ys, e1, e2, e3, e4⟩ := ih z _ _ hf.tail (fun y hy => hg y (List.mem_cons_of_mem _ hy))
      (fun y hy => hb y (List.mem_cons_of_mem _ hy)) n0 n1 (fun p hp => hu p (by
        simp only [prefixes, List.zip_cons_cons, List.mem_cons]
        exact .inr (by simpa [prefixes] using hp)))
    refine ⟨⟨z.ref, z.node, translateKey x.node.pivots x.node.edges k⟩ :: ys, ?_, ?_, ?_, ?_⟩
    · simp only [lookupReads, List.map_cons] at e1 ⊢
      rw [e1]
    · exact follows_cons (by simpa [hr, hr'] using f1) rfl e2
    · intro y hy
      rcases List.mem_cons.mp hy with rfl | hy
      · exact hgx.bounded hs hk1 hk2
      · exact e3 y hy
    · intro m
      rw [List.foldl_cons, e4]
      have : x.node.bucketAt k = x.node.bucketAt x.key := by simp [Node.bucketAt, hr, hr']
      simp only [prefixes, List.zip_cons_cons, List.foldl_cons]
      rw [get_succBucket (by rw [hbk]; exact (hgx.slots _ _ _ _ _ hs).sorted) h, this]

theorem lt_foldl_min {K : Elem} : ∀ (l : List Elem) (a : Elem), K < l.foldl min a →
    K < a ∧ ∀ x ∈ l, K < x := by
  intro l
  induction l with
  | nil => intro a h; exact ⟨h, by simp⟩
  | cons y ys ih =>
    intro a h
    obtain ⟨h1, h2⟩ := ih _ h
    have h4 := lt_of_lt_of_le h1 (min_le_right _ _)
    refine ⟨lt_of_lt_of_le h1 (min_le_left _ _), fun x hx => ?_⟩
    rcases List.mem_cons.mp hx with rfl | hx
    · exact h4
    · exact h2 x hx

theorem start_le {start : RangeStart} {k : Key} (h : MapSpec.LowerBound start k) :
    Elem.key (startKey start) ≤ .key k := by
  cases start with
  | incl a => exact h
  | excl a => exact h.1
  | negInf => exact Elem.nil_le k

theorem upper_mono {a b : Key} {stop : RangeEnd} (h : MapSpec.UpperBound b stop)
    (hab : Elem.key a ≤ .key b) : MapSpec.UpperBound a stop := by
  cases stop with
  | incl c => exact MapSpec.lte_trans hab h
  | excl c => exact Elem.lt_iff.mp (lt_of_le_of_lt hab (Elem.lt_iff.mpr h))
  | posInf => trivial

/-- A range query of the pivot betree is one of the betree. -/
theorem succ_I (d : Value) {start rs stop l} (hv : ValidSucc start rs stop l) (hg : ∀ y ∈ l, Good y.node) :
    Betree.ValidSucc start rs stop (l.map (layerI d)) := by
  have hb := hv.lookup.bounded
  have hm := marshalled hg hb
  have hf := hv.lookup.follows
  have path : ∀ k v, MapSpec.InRange start k stop →
      (composeGet (succBuckets l) k).merge (.define []) = .define v →
      ∃ l', Betree.SamePath (l.map (layerI d)) l' k v := by
    intro k v hk hval
    obtain ⟨x, xs, rfl, h1, h2⟩ := hv.lookup.head
    have hup : Elem.key k < upper (x :: xs) := by
      cases hu : upper (x :: xs) with
      | top => exact Elem.key_lt_top k
      | key u =>
        by_contra hc
        exact hv.bound hm u hu (upper_mono hk.2 (not_lt.mp hc))
    have hups := (lt_foldl_min _ _ hup).2
    obtain ⟨ys, e1, e2, e3, e4⟩ := same_path (start_le hk.1) xs x none k hf hg hb h2.symm rfl
      (fun p hp => hups _ (List.mem_map.mpr ⟨p, hp, rfl⟩))
    have nodes : ∀ y ∈ (⟨x.ref, x.node, k⟩ : Layer) :: ys, Good y.node := by
      intro y hy
      have : (y.ref, y.node) ∈ lookupReads (x :: xs) := by
        rw [← e1]; exact List.mem_map.mpr ⟨y, hy, rfl⟩
      obtain ⟨z, hz, e⟩ := List.mem_map.mp this
      have := hg z hz
      simp only [Prod.mk.injEq] at e
      rw [e.2] at this
      exact this
    refine ⟨((⟨x.ref, x.node, k⟩ : Layer) :: ys).map (layerI d), ?_, ?_, ?_⟩
    · rw [reads_I, reads_I, e1]
    · exact lookup_I d ⟨⟨_, _, rfl, h1, rfl⟩, fun y hy => (nodes y hy).inv.wf, e3, e2⟩
    · rw [interpret_I d (by simp) e2 nodes e3]
      unfold interpretLeaf
      cases hl : ((⟨x.ref, x.node, k⟩ : Layer) :: ys).getLast? with
      | none => simp at hl
      | some z =>
        have hz : z.node.children = none := by
          have h3 := congrArg List.getLast? e1
          simp only [lookupReads, List.getLast?_map, hl, Option.map_some] at h3
          cases hl' : (x :: xs).getLast? with
          | none => simp at hl'
          | some w =>
            rw [hl'] at h3
            simp only [Option.map_some, Option.some.injEq, Prod.mk.injEq] at h3
            rw [h3.2]
            exact hv.leaf w hl'
        simp only [hz, if_true]
        rw [← hval]
        congr 1
        unfold interpret composeGet succBuckets
        rw [e4, List.foldl_map]
        rfl
  refine ⟨hv.range hm, ?_, ?_, ?_, ?_, ?_⟩
  · intro k v hk
    obtain ⟨h1, _, h3⟩ := (hv.results hm k v).mp hk
    exact path k v h1 h3
  · intro i hi
    exact ((hv.results hm rs[i].1 rs[i].2).mp (List.getElem_mem hi)).1
  · intro i hi
    exact ((hv.results hm rs[i].1 rs[i].2).mp (List.getElem_mem hi)).2.1
  · intro i j hi hj hij
    exact List.pairwise_iff_getElem.mp (hv.order hm) i j hi hj hij
  · intro k hk hno
    obtain ⟨v, hval⟩ := merge_define (composeGet (succBuckets l) k) []
    by_cases hv0 : v = []
    · subst hv0
      exact path k [] hk hval
    · obtain ⟨i, hi, e⟩ := List.mem_iff_getElem.mp ((hv.results hm k v).mpr ⟨hk, hv0, hval⟩)
      exact absurd (by rw [e]) (hno i hi)

end Verif.Kv.Pivot
