import Verif.Kv.TreeImplProof
import Verif.Kv.PivotProof
/-
The range query as it is coded (generators, loop and path) gives what the specification of the tree asks.
No code is modelled here.
-/
namespace Verif.Kv.TreeImpl
open Pivot BlockImpl
open Betree (Message)
open BlockCache (OpStep Ops)

/-! ### Generators -/

theorem mem_dropWhile_sorted {b : Bucket} (hs : b.Sorted) (p : Elem → Bool)
    (mono : ∀ a c : Elem, a < c → p c = true → p a = true) {x : Key × Message} :
    x ∈ b.dropWhile (fun x => p (.key x.1)) ↔ x ∈ b ∧ p (.key x.1) = false := by
  induction b with
  | nil => simp
  | cons y t ih =>
    have hs' := List.pairwise_cons.mp hs
    by_cases hy : p (.key y.1) = true
    · rw [List.dropWhile_cons_of_pos (p := fun x : Key × Message => p (.key x.1)) hy, ih hs'.2]
      constructor
      · rintro ⟨h1, h2⟩; exact ⟨.tail _ h1, h2⟩
      · rintro ⟨h1, h2⟩
        rcases List.mem_cons.mp h1 with e | e
        · rw [e, hy] at h2; cases h2
        · exact ⟨e, h2⟩
    · rw [List.dropWhile_cons_of_neg (p := fun x : Key × Message => p (.key x.1)) hy]
      constructor
      · intro h1
        refine ⟨h1, ?_⟩
        rcases List.mem_cons.mp h1 with e | e
        · rw [e]; simpa using hy
        · cases hx : p (.key x.1) with
          | false => rfl
          | true => exact absurd (mono _ _ (hs'.1 x e) hx) hy
      · exact fun h => h.1

theorem not_lowerBound_start {start : RangeStart} {k : Key} :
    MapSpec.LowerBound start k ↔ match start with
      | .incl a => Elem.key a ≤ .key k
      | .excl a => Elem.key a < .key k
      | .negInf => True := by
  cases start with
  | incl a => exact Iff.rfl
  | excl a => exact Elem.lt_iff.symm
  | negInf => exact Iff.rfl

theorem moves_key {s : Option PrefixSet} {k K : Key} (h : Moves s k K) : applyPrefix (revPrefix s) K = k := by
  cases s with
  | none => exact h
  | some a =>
    obtain ⟨t, rfl, rfl⟩ := h
    exact changePrefix_append _ _ _

/-- A generator yields what its bucket, as the first layer sees it, has from the start on. -/
theorem genBasic_mem {x : Layer} {pset : Option PrefixSet} {start : RangeStart}
    (hs : (x.node.bucketAt x.key).Sorted) (hm : Moves pset x.key (startKey start)) {y : Key × Message} :
    y ∈ genBasic (x.node.bucketAt x.key) pset start ↔
      y ∈ succBucket x pset ∧ MapSpec.LowerBound start y.1 := by
  unfold genBasic
  rw [moves_key hm]
  -- what is left of the bucket
  have hrest : ∀ z, z ∈ iterFrom (x.node.bucketAt x.key) x.key start ↔ z ∈ x.node.bucketAt x.key ∧ (match start with
        | .incl _ => Elem.key x.key ≤ .key z.1
        | .excl _ => Elem.key x.key < .key z.1
        | .negInf => True) := by
    intro z
    cases start with
    | incl a =>
      unfold iterFrom
      rw [mem_dropWhile_sorted hs (fun e => decide (e < .key x.key)) (fun a c h1 h2 => by
        simp only [decide_eq_true_eq] at h2 ⊢; exact lt_trans h1 h2)]
      simp
    | excl a =>
      unfold iterFrom
      rw [mem_dropWhile_sorted hs (fun e => decide (e ≤ .key x.key)) (fun a c h1 h2 => by
        simp only [decide_eq_true_eq] at h2 ⊢; exact le_trans (le_of_lt h1) h2)]
      simp
    | negInf => simp [iterFrom]
  dsimp only
  cases pset with
  | none =>
    dsimp only [succBucket]
    rw [hrest, not_lowerBound_start]
    have e : startKey start = x.key := hm
    cases start with
    | incl a => change a = x.key at e; dsimp only; rw [e]
    | excl a => change a = x.key at e; dsimp only; rw [e]
    | negInf => exact Iff.rfl
  | some p =>
    dsimp only [succBucket]
    obtain ⟨t, h1, h2⟩ := hm
    rw [Bucket.mem_translate, Bucket.mem_translate, not_lowerBound_start]
    constructor
    · rintro ⟨w, e1, e2⟩
      obtain ⟨e2, e3⟩ := (hrest _).mp e2
      refine ⟨⟨w, e1, e2⟩, ?_⟩
      cases start with
      | incl a =>
        change a = p.new ++ t at h2
        dsimp only at e3 ⊢
        rw [e1, h2, Elem.append_le]; rw [h1, Elem.append_le] at e3; exact e3
      | excl a =>
        change a = p.new ++ t at h2
        dsimp only at e3 ⊢
        rw [e1, h2, Elem.append_lt]; rw [h1, Elem.append_lt] at e3; exact e3
      | negInf => trivial
    · rintro ⟨⟨w, e1, e2⟩, e3⟩
      refine ⟨w, e1, (hrest _).mpr ⟨e2, ?_⟩⟩
      cases start with
      | incl a =>
        change a = p.new ++ t at h2
        dsimp only at e3 ⊢
        rw [e1, h2, Elem.append_le] at e3; rw [h1, Elem.append_le]; exact e3
      | excl a =>
        change a = p.new ++ t at h2
        dsimp only at e3 ⊢
        rw [e1, h2, Elem.append_lt] at e3; rw [h1, Elem.append_lt]; exact e3
      | negInf => trivial

theorem genBasic_sorted {b : Bucket} (hs : b.Sorted) (pset : Option PrefixSet) (start : RangeStart) :
    (genBasic b pset start).Sorted := by
  have hrest : ∀ k : Key, Bucket.Sorted (iterFrom b k start) := by
    intro k
    cases start with
    | incl a => exact hs.sublist (List.dropWhile_sublist _)
    | excl a => exact hs.sublist (List.dropWhile_sublist _)
    | negInf => exact hs
  unfold genBasic
  dsimp only
  cases pset with
  | none => exact hrest _
  | some p => exact (hrest _).translate _ _

theorem succBucket_sorted {x : Layer} (hs : (x.node.bucketAt x.key).Sorted) (pset : Option PrefixSet) :
    (succBucket x pset).Sorted := by
  cases pset with
  | none => exact hs
  | some p => exact hs.translate _ _

theorem succBucket_defs {x : Layer} (hd : Bucket.Defs (x.node.bucketAt x.key)) (pset : Option PrefixSet) :
    Bucket.Defs (succBucket x pset) := by
  cases pset with
  | none => exact hd
  | some p =>
    intro y hy
    obtain ⟨w, _, h⟩ := Bucket.mem_translate.mp hy
    exact hd (p.pre ++ w, y.2) h

theorem genMerge_eq (t b : Bucket) (hd : t.Defs) : genMerge t b = Bucket.merge t b := by
  fun_induction genMerge t b with
  | case1 b => rw [merge_nil_left]
  | case2 t h => rw [merge_nil_right]
  | case3 m t k m' b ih =>
    have hne : m.merge m' ≠ .update := by
      have h0 : m ≠ .update := hd (k, m) (.head _)
      rw [merge_ne h0]; exact h0
    rw [Bucket.merge, if_neg (lt_irrefl _), if_neg (lt_irrefl _), if_neg hne,
      ih (fun x hx => hd x (.tail _ hx))]
  | case4 k m t k' m' b hne hlt ih =>
    rw [Bucket.merge, if_pos hlt, ih (fun x hx => hd x (.tail _ hx))]
  | case5 k m t k' m' b hne hlt ih =>
    have hgt : Elem.key k' < .key k := by
      rcases lt_trichotomy (Elem.key k) (Elem.key k') with h | h | h
      · exact absurd h hlt
      · exact absurd (Elem.key.inj h) hne
      · exact h
    rw [Bucket.merge, if_neg hlt, if_pos hgt, ih hd]

/-! ### The loop -/

theorem upper_endOf {upTo : Elem} {k : Key} : MapSpec.UpperBound k (endOf upTo) ↔ Elem.key k < upTo := by
  cases upTo with
  | key u => exact Elem.lt_iff.symm
  | top => exact ⟨fun _ => Elem.key_lt_top k, fun _ => trivial⟩

theorem process_spec (max : Nat) (upTo : Elem) (g : Bucket) : ∀ rs : List (Key × Value), g.Sorted →
    ∃ rs', (process max upTo rs g).1 = rs ++ rs' ∧ rs'.Pairwise (fun x y => MapSpec.lt x.1 y.1) ∧
      (∀ k v, (k, v) ∈ rs' ↔ (∃ m, (k, m) ∈ g ∧ m.merge (.define []) = .define v) ∧ v ≠ [] ∧
        MapSpec.UpperBound k (process max upTo rs g).2) ∧
      ((process max upTo rs g).2 = endOf upTo ∨
        ∃ k m, (process max upTo rs g).2 = .incl k ∧ (k, m) ∈ g ∧ Elem.key k < upTo) := by
  induction g with
  | nil =>
    intro rs _
    refine ⟨[], by simp [process], .nil, fun k v => ⟨(fun h => nomatch h), ?_⟩, .inl rfl⟩
    rintro ⟨⟨m, h, _⟩, _⟩; cases h
  | cons y g ih =>
    obtain ⟨k, m⟩ := y
    intro rs hs
    have hs' := List.pairwise_cons.mp hs
    -- the loop goes on
    have go : ∀ rs1 : List (Key × Value), (∀ v, m.merge (.define []) = .define v → v ≠ [] → False) →
        ∃ rs', (process max upTo rs1 g).1 = rs1 ++ rs' ∧ rs'.Pairwise (fun x y => MapSpec.lt x.1 y.1) ∧
          (∀ k' v, (k', v) ∈ rs' ↔ (∃ m', (k', m') ∈ (k, m) :: g ∧ m'.merge (.define []) = .define v) ∧ v ≠ [] ∧
            MapSpec.UpperBound k' (process max upTo rs1 g).2) ∧
          ((process max upTo rs1 g).2 = endOf upTo ∨
            ∃ k' m', (process max upTo rs1 g).2 = .incl k' ∧ (k', m') ∈ (k, m) :: g ∧ Elem.key k' < upTo) := by
      intro rs1 hno
      obtain ⟨rs', i1, i2, i3, i4⟩ := ih rs1 hs'.2
      refine ⟨rs', i1, i2, fun k' v => ?_, i4.imp id (fun ⟨a, c, e1, e2, e3⟩ => ⟨a, c, e1, .tail _ e2, e3⟩)⟩
      rw [i3]
      constructor
      · rintro ⟨⟨m', h1, h2⟩, h3⟩; exact ⟨⟨m', .tail _ h1, h2⟩, h3⟩
      · rintro ⟨⟨m', h1, h2⟩, h3⟩
        rcases List.mem_cons.mp h1 with e | e
        · cases e; exact absurd (hno v h2 h3.1) id
        · exact ⟨⟨m', e, h2⟩, h3⟩
    unfold process
    split
    · rename_i hlt
      split
      · rename_i v hv
        split
        · rename_i hne
          split
          · obtain ⟨rs', i1, i2, i3, i4⟩ := ih (rs ++ [(k, v)]) hs'.2
            refine ⟨(k, v) :: rs', by rw [i1]; simp, ?_, ?_, ?_⟩
            · refine List.pairwise_cons.mpr ⟨fun z hz => ?_, i2⟩
              obtain ⟨⟨m', h1, _⟩, _⟩ := (i3 z.1 z.2).mp hz
              exact Elem.lt_iff.mp (hs'.1 _ h1)
            · intro k' v'
              rw [List.mem_cons, i3]
              constructor
              · rintro (e | ⟨⟨m', h1, h2⟩, h3⟩)
                · cases e
                  refine ⟨⟨m, .head _, hv⟩, hne, ?_⟩
                  rcases i4 with e | ⟨a, c, e1, e2, e3⟩
                  · rw [e]; exact upper_endOf.mpr hlt
                  · rw [e1]; exact le_of_lt (hs'.1 _ e2)
                · exact ⟨⟨m', .tail _ h1, h2⟩, h3⟩
              · rintro ⟨⟨m', h1, h2⟩, h3⟩
                rcases List.mem_cons.mp h1 with e | e
                · cases e; rw [hv] at h2; cases h2; exact .inl rfl
                · exact .inr ⟨⟨m', e, h2⟩, h3⟩
            · exact i4.imp id (fun ⟨a, c, e1, e2, e3⟩ => ⟨a, c, e1, .tail _ e2, e3⟩)
          · refine ⟨[(k, v)], rfl, List.pairwise_singleton _ _, ?_, .inr ⟨k, m, rfl, .head _, hlt⟩⟩
            intro k' v'
            rw [List.mem_singleton]
            constructor
            · intro e; cases e
              exact ⟨⟨m, .head _, hv⟩, hne, le_refl (Elem.key k)⟩
            · rintro ⟨⟨m', h1, h2⟩, h3, h4⟩
              rcases List.mem_cons.mp h1 with e | e
              · cases e; rw [hv] at h2; cases h2; rfl
              · have h5 : Elem.key k' ≤ .key k := h4
                exact absurd (hs'.1 _ e) (not_lt.mpr h5)
        · rename_i hnil
          exact go rs (fun v' h1 h2 => by
            rw [hv] at h1; cases h1; exact hnil h2)
      · rename_i hu
        obtain ⟨v, hv⟩ := merge_define m []
        rw [hv] at hu; cases hu
    · rename_i hge
      refine ⟨[], by simp, .nil, fun k' v => ⟨(fun h => nomatch h), ?_⟩, .inl rfl⟩
      rintro ⟨⟨m', h1, h2⟩, h3, h4⟩
      have h5 : Elem.key k' < upTo := upper_endOf.mp h4
      rcases List.mem_cons.mp h1 with e | e
      · cases e; exact absurd h5 hge
      · exact absurd (lt_trans (hs'.1 _ e) h5) hge

/-! ### The path -/

/-- The change of prefix after the layers. -/
def after : Option PrefixSet → List Layer → Option PrefixSet
  | s, [] => s
  | s, x :: xs => after (composePrefix s (translate x.node.pivots x.node.edges x.key)) xs

theorem after_snoc (s : Option PrefixSet) (l : List Layer) (x : Layer) :
    after s (l ++ [x]) = composePrefix (after s l) (translate x.node.pivots x.node.edges x.key) := by
  induction l generalizing s with
  | nil => rfl
  | cons y ys ih => exact ih _

theorem prefixes_snoc (s : Option PrefixSet) (l : List Layer) (x : Layer) :
    prefixes s (l ++ [x]) = prefixes s l ++ [after s l] := by
  induction l generalizing s with
  | nil => rfl
  | cons y ys ih =>
    show s :: prefixes _ (ys ++ [x]) = s :: (prefixes _ ys ++ [_])
    rw [ih]; rfl

theorem prefixes_length (s : Option PrefixSet) (l : List Layer) : (prefixes s l).length = l.length := by
  induction l generalizing s with
  | nil => rfl
  | cons y ys ih => simp [prefixes, ih]

theorem zip_snoc (l : List Layer) (x : Layer) : (l ++ [x]).zip (prefixes none (l ++ [x])) =
    l.zip (prefixes none l) ++ [(x, after none l)] := by
  rw [prefixes_snoc, List.zip_append (prefixes_length _ _).symm]; rfl

theorem upper_snoc (l : List Layer) (x : Layer) : upper (l ++ [x]) = min (upper l) (upperAt x (after none l)) := by
  unfold upper
  rw [zip_snoc, List.map_append, List.foldl_append]; rfl

theorem composeGet_snoc (l : List Layer) (x : Layer) (k : Key) : composeGet (succBuckets (l ++ [x])) k =
    (composeGet (succBuckets l) k).merge ((succBucket x (after none l)).get k) := by
  unfold composeGet succBuckets
  rw [zip_snoc, List.map_append, List.foldl_append]; rfl

theorem moves_translate {n : Node} (hg : Pivot.Good n) {k : Key} (hb : Bounded n.pivots k) :
    Moves (translate n.pivots n.edges k) k (translateKey n.pivots n.edges k) := by
  obtain ⟨i, lo, hi, e, b, hs, c1, c2⟩ := hg.find hb
  have hr := route_eq hg.sorted hs.lo hs.hi c1 c2
  unfold translateKey
  have : translate n.pivots n.edges k = e.map (fun e => ⟨pivotLcp lo hi, e⟩) := by
    simp only [translate, hr, hs.e, lcpAt, hs.lo, hs.hi]
    cases e <;> rfl
  rw [this]
  cases e with
  | none => rfl
  | some e0 =>
    obtain ⟨w, hw⟩ := pivotLcp_prefix c1 c2
    refine ⟨w, hw.symm, ?_⟩
    simp [applyPrefix, ← hw, changePrefix]

theorem lt_upperAt {x : Layer} (hg : Pivot.Good x.node) (hb : Bounded x.node.pivots x.key)
    {s : Option PrefixSet} {K : Key} (hm : Moves s x.key K) : Elem.key K < upperAt x s := by
  obtain ⟨i, lo, hi, e, b, hs, c1, c2⟩ := hg.find hb
  have hr := route_eq hg.sorted hs.lo hs.hi c1 c2
  exact (moves_lt hm (by rw [hr]; exact hs.hi) c2 hm).mpr c2

theorem bucketAt_ok {n : Node} (hg : Pivot.Good n) {k : Key} (hb : Bounded n.pivots k) :
    (n.bucketAt k).Sorted ∧ Bucket.Defs (n.bucketAt k) := by
  obtain ⟨i, lo, hi, e, b, hs, c1, c2⟩ := hg.find hb
  have hr := route_eq hg.sorted hs.lo hs.hi c1 c2
  have hbk : n.bucketAt k = b := by simp [Node.bucketAt, hr, hs.b]
  have hok := hg.slots _ _ _ _ _ hs
  rw [hbk]; exact ⟨hok.sorted, hok.defs⟩

/-- What the generator knows after the layers. -/
structure GenOk (start : RangeStart) (l : List Layer) (g : Bucket) : Prop where
  sorted : g.Sorted
  defs : g.Defs
  lower : ∀ x ∈ g, MapSpec.LowerBound start x.1
  get : ∀ k, MapSpec.LowerBound start k → g.get k = composeGet (succBuckets l) k

theorem GenOk.snoc {start : RangeStart} {l : List Layer} {g : Bucket} (h : GenOk start l g) {x : Layer}
    (hg : Pivot.Good x.node) (hb : Bounded x.node.pivots x.key)
    (hm : Moves (after none l) x.key (startKey start)) :
    GenOk start (l ++ [x]) (genMerge g (genBasic (x.node.bucketAt x.key) (after none l) start)) := by
  obtain ⟨b1, b2⟩ := bucketAt_ok hg hb
  have gs := genBasic_sorted b1 (after none l) start
  rw [genMerge_eq _ _ h.defs]
  refine ⟨Bucket.Sorted.merge _ _ h.sorted gs h.defs, ?_, ?_, ?_⟩
  · intro y hy
    rcases (Bucket.mem_merge _ _ h.sorted gs h.defs).mp hy with k | k
    · exact h.defs y k
    · exact succBucket_defs b2 _ y ((genBasic_mem b1 hm).mp k.1).1
  · intro y hy
    rcases (Bucket.mem_merge _ _ h.sorted gs h.defs).mp hy with k | k
    · exact h.lower y k
    · exact ((genBasic_mem b1 hm).mp k.1).2
  · intro k hk
    rw [get_merge h.sorted gs h.defs, h.get k hk, composeGet_snoc]
    congr 1
    refine Bucket.get_congr gs (succBucket_sorted b1 _) (fun m => ?_)
    rw [genBasic_mem b1 hm]
    exact ⟨fun k => k.1, fun k => ⟨k, hk⟩⟩

/-- The loop's result is a valid one. -/
theorem process_valid {start : RangeStart} {l : List Layer} {g : Bucket} (h : GenOk start l g)
    (hw : WFLookup l (startKey start)) (hleaf : ∀ x, l.getLast? = some x → x.node.children = none)
    (hup : Elem.key (startKey start) < upper l) (max : Nat) :
    ValidSucc start (process max (upper l) [] g).1 (process max (upper l) [] g).2 l := by
  obtain ⟨rs', i1, i2, i3, i4⟩ := process_spec max (upper l) g [] h.sorted
  rw [List.nil_append] at i1
  refine ⟨hw, hleaf, fun _ => ?_, fun _ u hu => ?_, fun _ k v => ?_, fun _ => by rw [i1]; exact i2⟩
  · rcases i4 with e | ⟨k, m, e, hk, _⟩
    · rw [e]
      cases hul : upper l with
      | top => cases start <;> trivial
      | key u =>
        rw [hul] at hup
        cases start with
        | incl a => exact Elem.lt_iff.mp hup
        | excl a => exact Elem.lt_iff.mp hup
        | negInf => trivial
    · rw [e]
      have := h.lower _ hk
      cases start with
      | incl a => exact this
      | excl a => exact this
      | negInf => trivial
  · rcases i4 with e | ⟨k, m, e, _, hlt⟩
    · rw [e, hu, upper_endOf]
      exact lt_irrefl _
    · rw [e]
      rw [hu] at hlt
      intro hle
      have hle' : Elem.key u ≤ .key k := hle
      exact absurd hlt (not_lt.mpr hle')
  · rw [i1, i3]
    constructor
    · rintro ⟨⟨m, h1, h2⟩, h3, h4⟩
      have hl := h.lower _ h1
      refine ⟨⟨hl, h4⟩, h3, ?_⟩
      rw [← h.get k hl, Bucket.get_mem h.sorted h1]; exact h2
    · rintro ⟨⟨h1, h2⟩, h3, h4⟩
      refine ⟨?_, h3, h2⟩
      rw [← h.get k h1] at h4
      by_cases hm : ∃ m, (k, m) ∈ g
      · obtain ⟨m, hm⟩ := hm
        rw [Bucket.get_mem h.sorted hm] at h4
        exact ⟨m, hm, h4⟩
      · rw [Bucket.get_none (fun m k => hm ⟨m, k⟩)] at h4
        cases h4
        exact absurd rfl h3

theorem pageInReq_cache (s : S) (io : Env Node) (ref : Ref) : (s.pageInReq io ref).next.cache = s.cache := by
  unfold Ready.pageInReq
  split
  · rfl
  · split <;> rfl

theorem use_good {s : S} {o : Out Node} (h : BlockImpl.Good app kids s o) {ref : Ref}
    (hc : o.next.cache.get ref ≠ none) :
    BlockImpl.Good app kids s { o with next := { o.next with lru := lruUse o.next.lru ref } } :=
  ⟨h.1, Inv.use h.2 hc⟩

theorem succFrom_good {io : Env Node} (start : RangeStart) (max : Nat) (s : S) (h : Inv kids s)
    (hS : Sound s) (fuel : Nat) : ∀ (key : Key) (pset : Option PrefixSet) (upTo : Elem) (g : Option Bucket)
      (ref : Ref) (l : List Layer), Path s (startKey start) l ref key → pset = after none l →
      Moves pset key (startKey start) → upTo = upper l → Elem.key (startKey start) < upTo →
      GenOk start l (g.getD []) →
      BlockImpl.Good app kids s (succFrom io start max fuel s key pset upTo g ref l) ∧
      (succFrom io start max fuel s key pset upTo g ref l).next.cache = s.cache := by
  induction fuel using Nat.strong_induction_on with
  | _ fuel ih =>
    intro key pset upTo g ref l hp hps hm hu hlt hg
    unfold succFrom
    split
    · rename_i hc
      split
      · rename_i hsz; exact ⟨pageInReq_good h hc hsz, pageInReq_cache s io ref⟩
      · exact ⟨noop_good h, rfl⟩
    rename_i n hn
    split
    case isFalse => exact ⟨noop_good h, rfl⟩
    rename_i hbd
    have hb := (boundedB_iff _ _).mp hbd
    have hG := hS _ _ hn
    obtain ⟨p1, p2, p3⟩ := hp.snoc hS hn hb
    have hup : Elem.key (startKey start) < min upTo (upperAt ⟨ref, n, key⟩ pset) :=
      lt_min hlt (lt_upperAt (x := ⟨ref, n, key⟩) hG hb hm)
    have hupe : min upTo (upperAt ⟨ref, n, key⟩ pset) = upper (l ++ [⟨ref, n, key⟩]) := by
      rw [upper_snoc, hu, hps]
    have hgen : GenOk start (l ++ [⟨ref, n, key⟩])
        (genNext g (genBasic (n.bucketAt key) pset start)) := by
      have := hg.snoc (x := ⟨ref, n, key⟩) hG hb (by rw [← hps]; exact hm)
      rw [← hps] at this
      cases g with
      | some g => exact this
      | none =>
        have e : genMerge [] (genBasic (n.bucketAt key) pset start) = genBasic (n.bucketAt key) pset start := by
          rw [genMerge]
        change GenOk start _ (genMerge [] (genBasic (n.bucketAt key) pset start)) at this
        rw [e] at this
        exact this
    dsimp only
    generalize genNext g (genBasic (n.bucketAt key) pset start) = g1 at *
    -- the output before the last use
    have main : ∀ o : Out Node, (BlockImpl.Good app kids s o ∧ o.next.cache = s.cache) →
        BlockImpl.Good app kids s { o with next := { o.next with lru := lruUse o.next.lru ref } } ∧
        ({ o with next := { o.next with lru := lruUse o.next.lru ref } } : Out Node).next.cache = s.cache := by
      intro o ho
      exact ⟨use_good ho.1 (by rw [ho.2, hn]; simp), ho.2⟩
    refine main _ ?_
    split
    · rename_i cs hcs
      split
      · rename_i f c hc
        refine ih f (by omega) _ _ _ _ _ _ (p3 cs c hcs hc) ?_ ?_ hupe hup hgen
        · rw [after_snoc, ← hps]
        · exact moves_compose hm (moves_translate hG hb)
      · exact ⟨noop_good h, rfl⟩
    · rename_i hleaf
      refine ⟨txn_good h (.succ ?_) (reads_cached p2) .nil h, rfl⟩
      have := process_valid hgen p1 (fun x hx => by
        rw [List.getLast?_append] at hx
        simp at hx
        subst hx
        exact hleaf) (by rw [← hupe]; exact hup) max
      rw [hupe]
      exact this

theorem succ_good {s : S} (h : Inv kids s) (hS : Sound s) (io : Env Node) (start : RangeStart) (max : Nat) :
    BlockImpl.Good app kids s (succ s io start max) :=
  (succFrom_good start max s h hS 40 (startKey start) none .top none rootRef [] (Path.start s _) rfl rfl rfl
    (Elem.key_lt_top _) ⟨.nil, (fun _ k => nomatch k), (fun _ k => nomatch k), (fun _ _ => rfl)⟩).1

end Verif.Kv.TreeImpl
