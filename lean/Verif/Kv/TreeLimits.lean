import Verif.Kv.FullImplProof
/-
The nodes the code makes stay within their limits. No code is modelled here.
-/
namespace Verif.Kv.TreeImpl
open Pivot BlockImpl
open Betree (Message)
open SectorBytes (bucketWeight weight messageWeight maxWeight maxChildren maxTable)

/-! ### Weights -/

theorem bucketWeight_cons (x : Key × Message) (l : Bucket) :
    bucketWeight (x :: l) = 4 + x.1.length + messageWeight x.2 + bucketWeight l := by simp [bucketWeight]

theorem bucketWeight_append (a b : Bucket) : bucketWeight (a ++ b) = bucketWeight a + bucketWeight b := by
  simp [bucketWeight]

theorem weight_cons (b : Bucket) (l : List Bucket) : weight (b :: l) = bucketWeight b + weight l := by simp [weight]

theorem weight_append (a b : List Bucket) : weight (a ++ b) = weight a + weight b := by simp [weight]

theorem bucketWeight_sublist {a b : Bucket} (h : a.Sublist b) : bucketWeight a ≤ bucketWeight b := by
  induction h with
  | slnil => exact Nat.le_refl _
  | cons x _ ih => rw [bucketWeight_cons]; omega
  | cons_cons x _ ih => rw [bucketWeight_cons, bucketWeight_cons]; omega

theorem weight_split (l : List Bucket) (i : Nat) : weight l = weight (l.take i) + weight (l.drop i) := by
  conv => lhs; rw [← List.take_append_drop i l]
  rw [weight_append]

theorem weight_at (l : List Bucket) (i : Nat) :
    weight l = weight (l.take i) + bucketWeight (l[i]?.getD []) + weight (l.drop (i + 1)) := by
  rw [weight_split l i]
  cases h : l[i]? with
  | none =>
    have hl : l.length ≤ i := List.getElem?_eq_none_iff.mp h
    rw [List.drop_of_length_le hl, List.drop_of_length_le (by omega)]
    rfl
  | some b =>
    obtain ⟨hi, e⟩ := List.getElem?_eq_some_iff.mp h
    rw [List.drop_eq_getElem_cons hi, e, weight_cons, Option.getD_some]
    omega

theorem weight_set (l : List Bucket) (i : Nat) {b : Bucket} (h : bucketWeight b ≤ bucketWeight (l[i]?.getD [])) :
    weight (l.set i b) ≤ weight l := by
  rw [weight_at l i]
  by_cases hi : i < l.length
  · rw [List.set_eq_take_append_cons_drop, if_pos hi, weight_append, weight_cons]
    omega
  · rw [List.set_eq_of_length_le (by omega), weight_at l i]

theorem left_right (b : Bucket) (p : Key) : b.left p ++ b.right p = b := List.takeWhile_append_dropWhile

/-- A bucket with an entry added weighs at most the entry more. -/
theorem add_weight (b : Bucket) (k : Key) (v : Value) :
    bucketWeight (b.add k (.define v)) ≤ (4 + k.length) + messageWeight (.define v) + bucketWeight b := by
  unfold Bucket.add
  rw [if_neg (by simp [Message.merge]), bucketWeight_append, bucketWeight_append]
  have h : bucketWeight (b.filter (fun x => decide (Elem.key x.1 < Elem.key k))) +
      bucketWeight (b.filter (fun x => decide (Elem.key k < Elem.key x.1))) ≤ bucketWeight b := by
    induction b with
    | nil => exact Nat.le_refl _
    | cons x b ih =>
      rw [bucketWeight_cons, List.filter_cons, List.filter_cons]
      by_cases h1 : Elem.key x.1 < Elem.key k
      · have h2 : ¬ Elem.key k < Elem.key x.1 := not_lt.mpr (le_of_lt h1)
        simp only [h1, h2, decide_true, decide_false, if_true, Bool.false_eq_true, if_false]
        rw [bucketWeight_cons]
        omega
      · by_cases h2 : Elem.key k < Elem.key x.1
        · simp only [h1, h2, decide_true, decide_false, if_true, Bool.false_eq_true, if_false]
          rw [bucketWeight_cons]
          omega
        · simp only [h1, h2, decide_false, Bool.false_eq_true, if_false]
          omega
  have e : Message.merge (.define v) (b.get k) = .define v := rfl
  have h1 : bucketWeight [(k, (Message.define v))] = 4 + k.length + messageWeight (.define v) := by
    simp [bucketWeight]
  rw [e, h1]
  omega

/-- What is left of the upper bucket is a part of it. -/
theorem mergeIter_rest (bots : List Bucket) : ∀ (top : Bucket) (pt : List Elem) (slack : Nat),
    (mergeIter top pt bots slack).2.Sublist top := by
  induction bots with
  | nil =>
    intro top pt slack
    rw [mergeIter]
    · exact List.nil_sublist _
    · exact fun _ _ _ _ _ _ e => nomatch e
  | cons b bs ih =>
    intro top pt slack
    cases pt with
    | nil => rw [mergeIter]; exact List.nil_sublist _; exact fun _ _ _ _ _ e => nomatch e
    | cons lo ps =>
      cases ps with
      | nil => rw [mergeIter]; exact List.nil_sublist _; exact fun _ _ _ _ _ e => nomatch e
      | cons hi ps =>
        rw [mergeIter]
        dsimp only
        split
        · exact (ih _ _ _).trans (List.dropWhile_sublist _)
        · obtain ⟨j, _, h2, _⟩ := mergeOne_spec (top.takeWhile (fun x => decide (Elem.key x.1 < hi))) b slack
          rw [h2]
          conv => rhs; rw [← List.takeWhile_append_dropWhile (p := fun x => decide (Elem.key x.1 < hi)) (l := top)]
          exact (List.drop_sublist _ _).append (List.Sublist.refl _)

theorem mergeIter_length (bots : List Bucket) : ∀ (top : Bucket) (pt : List Elem) (slack : Nat),
    (mergeIter top pt bots slack).1.length = bots.length := by
  induction bots with
  | nil =>
    intro top pt slack
    rw [mergeIter]
    exact fun _ _ _ _ _ _ e => nomatch e
  | cons b bs ih =>
    intro top pt slack
    cases pt with
    | nil => rw [mergeIter]; exact fun _ _ _ _ _ e => nomatch e
    | cons lo ps =>
      cases ps with
      | nil => rw [mergeIter]; exact fun _ _ _ _ _ e => nomatch e
      | cons hi ps =>
        rw [mergeIter]
        dsimp only
        split
        · simp [ih]
        · simp

theorem partialFlush_rest (top : Bucket) (pt : List Elem) (bots : List Bucket) :
    bucketWeight (partialFlush top pt bots).2 ≤ bucketWeight top :=
  bucketWeight_sublist ((mergeIter_rest _ _ _ _).trans (List.dropWhile_sublist _))

/-! ### Numbers of children -/

theorem keepLeft_length {n : Node} (hg : Pivot.Good n) {p : Key} {a z : Elem} (ha : n.pivots.head? = some a)
    (hz : n.pivots.getLast? = some z) (h1 : a < .key p) (h2 : .key p ≤ z) :
    (n.keepLeft p).buckets.length ≤ n.buckets.length := by
  obtain ⟨c, lo, hi, e1, e2, e3, e4⟩ := exists_switch (fun e => e < Elem.key p) ha hz h1 (not_lt.mpr h2)
  have hcb : c < n.buckets.length := by have := lt_of_getElem? e2; rw [hg.buckets] at this; omega
  have hc := cutoffLeft_eq hg.sorted e1 e2 e3 (not_lt.mp e4)
  simp only [Node.keepLeft, hc, List.length_append, List.length_take, List.length_singleton]
  omega

theorem keepRight_length {n : Node} (hg : Pivot.Good n) (p : Key) :
    (n.keepRight p).buckets.length ≤ n.buckets.length := by
  have h1 := hg.two
  have h2 := hg.buckets
  simp only [Node.keepRight, List.length_cons, List.length_drop]
  omega

theorem cutoff_length {n : Node} (hg : Pivot.Good n) {l : Key} {r a z : Elem} (ha : n.pivots.head? = some a)
    (hz : n.pivots.getLast? = some z) (h1 : a ≤ .key l) (h2 : .key l < r) (h3 : r ≤ z) :
    (n.cutoff l r).buckets.length ≤ n.buckets.length := by
  cases r with
  | top => exact keepRight_length hg l
  | key r =>
    have hl := keepLeft_length hg ha hz (lt_of_le_of_lt h1 h2) h3
    obtain ⟨a1, _⟩ := keepLeft_spec hg ha hz (lt_of_le_of_lt h1 h2) h3
    exact Nat.le_trans (keepRight_length a1 l) hl

theorem restrictChild_length {parent child : Node} (hp : Pivot.Good parent) (hc : Pivot.Good child) {i lo hi e b}
    (hs : Slot parent i lo hi e b) (hr : InChildRange parent child i) :
    (restrictChild parent child i).buckets.length ≤ child.buckets.length := by
  have hok := hp.slots _ _ _ _ _ hs
  obtain ⟨lk, rfl⟩ := hs.lo_key hp.toShape
  obtain ⟨l, r, hcr, a, z, ha, hz, h1, h2⟩ := hr
  have hcr' := childRange_slot hs
  cases e with
  | none =>
    rw [hcr] at hcr'; cases hcr'
    have hform : restrictChild parent child i = child.cutoff lk hi := by
      simp [restrictChild, hcr, hs.e]
    rw [hform]
    exact cutoff_length hc ha hz h1 hok.lt h2
  | some e0 =>
    rw [hcr] at hcr'; cases hcr'
    obtain ⟨s0, hs0⟩ := pivotLcp_prefix (le_refl (Elem.key lk)) hok.lt
    have hlo : translateElem (pivotLcp (.key lk) hi) e0 (.key lk) = .key (e0 ++ s0) := by
      conv => lhs; rw [translateElem]
      conv => lhs; arg 1; arg 3; rw [← hs0]
      rw [changePrefix_append]
    rw [hlo] at h1 hcr
    have hform : restrictChild parent child i = (child.cutoff (e0 ++ s0)
        (translateEnd (pivotLcp (.key lk) hi) e0 hi)).translate e0 (pivotLcp (.key lk) hi) hi := by
      simp [restrictChild, hcr, hs.e, hs.hi, lcpAt, hs.lo]
    have hplt : Elem.key (pivotLcp (.key lk) hi) < hi :=
      lt_of_le_of_lt (Elem.prefix_le (pivotLcp_prefix (le_refl _) hok.lt)) hok.lt
    have hlt : Elem.key (e0 ++ s0) < translateEnd (pivotLcp (.key lk) hi) e0 hi := by
      rw [translateEnd_lt hplt, hs0]; exact hok.lt
    rw [hform]
    simp only [Node.translate, List.length_map]
    exact cutoff_length hc ha hz h1 hlt h2

/-! ### Clones -/

theorem takeWhile_mono {α : Type} {f g : α → Bool} (h : ∀ x, f x = true → g x = true) :
    ∀ l : List α, (l.takeWhile f).length ≤ (l.takeWhile g).length
  | [] => Nat.le_refl _
  | x :: l => by
    by_cases hf : f x = true
    · rw [List.takeWhile_cons_of_pos hf, List.takeWhile_cons_of_pos (h x hf)]
      simpa using takeWhile_mono h l
    · rw [List.takeWhile_cons_of_neg hf]; exact Nat.zero_le _

theorem cut_weight {f g : Key × Message → Bool} (h : ∀ x, f x = true → g x = true) :
    ∀ b : Bucket, bucketWeight (b.takeWhile f) + bucketWeight (b.dropWhile g) ≤ bucketWeight b
  | [] => Nat.le_refl _
  | x :: b => by
    have ih := cut_weight h b
    by_cases hf : f x = true
    · rw [List.takeWhile_cons_of_pos hf, List.dropWhile_cons_of_pos (h x hf), bucketWeight_cons, bucketWeight_cons]
      omega
    · rw [List.takeWhile_cons_of_neg hf]
      have := bucketWeight_sublist (List.dropWhile_sublist g (l := x :: b))
      have h0 : bucketWeight [] = 0 := rfl
      omega

theorem keepLeft_weight (n : Node) (p : Key) : weight (n.keepLeft p).buckets ≤ weight n.buckets := by
  rw [weight_at n.buckets (cutoffLeft n.pivots p)]
  simp only [Node.keepLeft]
  rw [weight_append, weight_cons]
  have := bucketWeight_sublist (List.takeWhile_sublist (fun x => decide (Elem.key x.1 < .key p))
    (l := n.buckets[cutoffLeft n.pivots p]?.getD []))
  have h0 : weight [] = 0 := rfl
  unfold Bucket.left
  omega

/-- What is left and right of a gap weighs no more than the whole. -/
theorem sides_weight (n : Node) {p e : Key} (h : Elem.key p < .key e) :
    weight (n.keepLeft p).buckets + weight (n.keepRight e).buckets ≤ weight n.buckets := by
  have hc : cutoffLeft n.pivots p ≤ route n.pivots e := by
    have := takeWhile_mono (f := fun q => decide (q < Elem.key p)) (g := fun q => decide (q ≤ Elem.key e))
      (fun x hx => by
        simp only [decide_eq_true_eq] at hx ⊢
        exact le_of_lt (lt_trans hx h)) n.pivots
    unfold cutoffLeft route
    omega
  have hz : weight [] = 0 := rfl
  simp only [Node.keepLeft, Node.keepRight]
  rw [weight_append, weight_cons, weight_cons]
  rcases Nat.lt_or_eq_of_le hc with hlt | heq
  · have h1 := weight_at (n.buckets.take (route n.pivots e)) (cutoffLeft n.pivots p)
    have h2 := weight_at n.buckets (route n.pivots e)
    rw [List.take_take, Nat.min_eq_left hc, List.getElem?_take, if_pos hlt] at h1
    have h3 := bucketWeight_sublist (List.takeWhile_sublist (fun x => decide (Elem.key x.1 < .key p))
      (l := n.buckets[cutoffLeft n.pivots p]?.getD []))
    have h4 := bucketWeight_sublist (List.dropWhile_sublist (fun x => decide (Elem.key x.1 < .key e))
      (l := n.buckets[route n.pivots e]?.getD []))
    unfold Bucket.left Bucket.right
    omega
  · rw [← heq]
    have h2 := weight_at n.buckets (cutoffLeft n.pivots p)
    have h3 := cut_weight (f := fun x => decide (Elem.key x.1 < .key p)) (g := fun x => decide (Elem.key x.1 < .key e))
      (fun x hx => by
        simp only [decide_eq_true_eq] at hx ⊢
        exact lt_trans hx h) (n.buckets[cutoffLeft n.pivots p]?.getD [])
    unfold Bucket.left Bucket.right
    omega

theorem cloned_weight (n : Node) (src dst : Key) : weight (n.cloned src dst).buckets = 0 := by
  simp only [Node.cloned]
  generalize ((n.cutoff src (prefixEnd src)).translate src dst (prefixEnd dst)).buckets = l
  induction l with
  | nil => rfl
  | cons b l ih => rw [List.map_cons, weight_cons, ih]; rfl

theorem cloneRoot_weight (n : Node) (src dst : Key) : weight (n.cloneRoot src dst).buckets ≤ weight n.buckets := by
  unfold Node.cloneRoot
  dsimp only
  split
  · rw [weight_append, cloned_weight]
    exact keepLeft_weight n dst
  · rename_i e he
    have : Elem.key dst < .key e := by
      have := ((prefixEnd_iff dst dst).mpr (List.prefix_refl _)).2
      rw [he] at this
      exact this
    rw [weight_append, weight_append, cloned_weight]
    have := sides_weight n this
    omega

/-! ### The limits -/

/-- `BoundedNode`, PivotBetree/PivotBetreeSpec.i.dfy:53-57 -/
structure NodeLim (n : Node) : Prop where
  many : n.buckets.length ≤ maxChildren
  weight : weight n.buckets ≤ maxWeight

/-- All nodes cached are within their limits. -/
def Lim (s : S) : Prop := ∀ r n, s.cache.get r = some n → NodeLim n

theorem Lim.of_cache {s s' : S} (h : Lim s) (he : ∀ r n, s'.cache.get r = some n → s.cache.get r = some n) : Lim s' :=
  fun r n hn => h r n (he r n hn)

theorem Lim.set {s : S} (h : Lim s) {ref : Ref} {n : Node} (hn : NodeLim n) : Lim (s.write kids ref n) := by
  intro r m hm
  rw [write_cache, AList.get_set] at hm
  split at hm
  · cases hm; exact hn
  · exact h r m hm

theorem grow_lim {s : S} (h : Lim s) : Lim (grow s).next := by
  unfold grow
  split
  · rename_i old hold
    split
    · exact h
    · split
      · split
        · exact (h.set (h _ _ hold)).set ⟨by simp [grownRoot, maxChildren], Nat.zero_le _⟩
        · exact h
      · exact h
  · exact h

theorem flush_lim {s : S} (h : Lim s) (hS : Sound s) (p : Ref) (slot : Nat) : Lim (flush s p slot).next := by
  unfold flush
  split
  case h_2 => exact h
  rename_i parent hpar
  split
  case h_2 => exact h
  rename_i c hslot
  split
  case h_2 => exact h
  rename_i child hch
  split
  · exact h
  split
  case isFalse => exact h
  rename_i hchk
  have hr : InChildRange parent child slot := by
    rw [Bool.and_eq_true] at hchk
    exact (inRangeB_iff _ _ _).mp hchk.1
  dsimp only
  split
  case isFalse => exact h
  rename_i hw
  split
  case h_2 => exact h
  obtain ⟨lo, hi, e, b, hs⟩ := slot_of (hS _ _ hpar) hslot
  refine (h.set ⟨?_, partialFlush_weight _ _ hw⟩).set ⟨?_, ?_⟩
  · have h1 := restrictChild_length (hS _ _ hpar) (hS _ _ hch) hs hr
    have h2 := (h _ _ hch).many
    unfold partialFlush
    dsimp only
    rw [mergeIter_length]
    omega
  · simpa using (h _ _ hpar).many
  · exact Nat.le_trans (weight_set _ _ (partialFlush_rest _ _ _)) (h _ _ hpar).weight

theorem split_lim {s : S} (h : Lim s) (hS : Sound s) {p : Ref} {slot : Nat}
    (hp : ∀ n, s.cache.get p = some n → (kids n).length < maxChildren) : Lim (split s p slot).next := by
  unfold split
  split
  case h_2 => exact h
  rename_i parent hpar
  split
  case h_2 => exact h
  rename_i c hslot
  split
  case h_2 => exact h
  rename_i child hch
  split
  · exact h
  split
  case isFalse => exact h
  rename_i hchk
  have hr : InChildRange parent child slot := by
    rw [Bool.and_eq_true] at hchk
    exact (inRangeB_iff _ _ _).mp hchk.1
  dsimp only
  split
  · exact h
  split
  case h_2 => exact h
  split
  case h_2 => exact h
  split
  case h_2 => exact h
  rename_i pivot lo hi hpiv hlo hhi
  split
  case isFalse => exact h
  rename_i hcond
  obtain ⟨lo', hi', e, b, hs⟩ := slot_of (hS _ _ hpar) hslot
  have h1 := restrictChild_length (hS _ _ hpar) (hS _ _ hch) hs hr
  have h2 := (h _ _ hch).many
  refine ((h.set ⟨?_, hcond.2.2.1⟩).set ⟨?_, hcond.2.2.2⟩).set ⟨?_, ?_⟩
  · simp only [Node.splitLeft, List.length_take]; omega
  · simp only [Node.splitRight, List.length_drop]; omega
  · have h3 := hp _ hpar
    obtain ⟨cs, hcs, _⟩ := kids_some hslot
    have h4 := (hS _ _ hpar).children cs hcs
    have hk : kids parent = cs := by unfold kids; rw [hcs]; rfl
    rw [hk] at h3
    have h5 := hs.bound
    simp only [Node.splitParent, replace1with2, List.length_append, List.length_take, List.length_cons, List.length_drop]
    omega
  · have h3 := weight_at parent.buckets slot
    have h4 := (h _ _ hpar).weight
    simp only [Node.splitParent, replace1with2]
    rw [weight_append, weight_cons, weight_cons]
    have h5 := bucketWeight_append ((parent.buckets[slot]?.getD []).left pivot) ((parent.buckets[slot]?.getD []).right pivot)
    rw [left_right] at h5
    omega

theorem repivot_lim {s : S} (h : Lim s) (ref : Ref) : Lim (repivot s ref).next := by
  unfold repivot
  split
  case h_2 => exact h
  rename_i leaf hleaf
  split
  · exact h
  split
  case h_2 => exact h
  refine h.set ⟨by simp [Node.repivot, maxChildren], ?_⟩
  have h3 := weight_at leaf.buckets 0
  have h4 := (h _ _ hleaf).weight
  have h0 : weight [] = 0 := rfl
  simp only [Node.repivot]
  rw [weight_cons, weight_cons]
  have h5 := bucketWeight_append (Bucket.left (leaf.buckets[0]?.getD []) (middleKey (leaf.buckets[0]?.getD [])))
    (Bucket.right (leaf.buckets[0]?.getD []) (middleKey (leaf.buckets[0]?.getD [])))
  rw [left_right] at h5
  omega

/-- A node to be split into has room. -/
def ActLim (s : S) : Action → Prop
  | .split p _ => ∀ n, s.cache.get p = some n → (kids n).length < maxChildren
  | _ => True

theorem toSplit_lim (s : S) (cur : Ref) (path : List (Ref × Nat)) : ActLim s (toSplit s cur path) := by
  induction path generalizing cur with
  | nil => unfold toSplit; split <;> trivial
  | cons x rest ih =>
    obtain ⟨p, slot⟩ := x
    unfold toSplit
    split
    case h_2 => trivial
    rename_i pn n hp hn
    split
    · rename_i hlt
      split
      · trivial
      · split
        · intro n' hn'
          rw [hp] at hn'; cases hn'
          exact hlt
        · trivial
    · exact ih p

theorem toFlush_lim (fuel : Nat) : ∀ (s : S) (cur : Ref) (path : List (Ref × Nat)),
    (toFlush fuel s cur path).1.cache = s.cache ∧ ActLim (toFlush fuel s cur path).1 (toFlush fuel s cur path).2 := by
  induction fuel with
  | zero => intro s cur path; exact ⟨rfl, trivial⟩
  | succ fuel ih =>
    intro s cur path
    unfold toFlush
    split
    case h_2 => exact ⟨rfl, trivial⟩
    split
    · exact ⟨rfl, toSplit_lim _ _ _⟩
    · split
      · exact ⟨rfl, toSplit_lim _ _ _⟩
      · dsimp only
        split
        case h_2 => exact ⟨rfl, trivial⟩
        split
        · split
          · refine ⟨rfl, ?_⟩
            dsimp only
            split <;> trivial
          · exact ih _ _ _
        · refine ⟨rfl, ?_⟩
          dsimp only
          split <;> trivial

theorem dealloc_cache (s : S) (ref : Ref) {r : Ref} {n : Node} (h : (s.dealloc ref).next.cache.get r = some n) :
    s.cache.get r = some n := by
  unfold Ready.dealloc at h
  split at h
  · exact h
  · dsimp only at h
    rw [AList.get_del] at h
    split at h
    · cases h
    · exact h

theorem assigned_cache (s : S) (id : ReqId) (ref : Ref) (loc : Loc) :
    (((s.assignEph ref loc).assignOutstanding id ref loc).assignFrozen ref loc).cache = s.cache := by
  unfold Ready.assignFrozen
  split <;> rfl

theorem tryToWrite_cache (s : S) (io : Env Node) (ref : Ref) : (s.tryToWrite io ref).next.cache = s.cache := by
  unfold Ready.tryToWrite
  split
  · split
    · split
      · exact assigned_cache _ _ _ _
      · rfl
    · rfl
  · rfl

theorem evict_cache (s : S) (io : Env Node) {r : Ref} {n : Node} (h : (s.evictOrDealloc io).next.cache.get r = some n) :
    s.cache.get r = some n := by
  unfold Ready.evictOrDealloc at h
  split at h
  · exact dealloc_cache s _ h
  · split at h
    · split at h
      · split at h
        · rw [tryToWrite_cache] at h; exact h
        · exact h
      · split at h
        · dsimp only at h
          rw [AList.get_del] at h
          split at h
          · cases h
          · exact h
        · exact h
    · exact h

theorem pageIn_cache (s : S) (io : Env Node) (ref : Ref) {r : Ref} {n : Node}
    (h : (s.pageInOrMakeRoom io ref).next.cache.get r = some n) : s.cache.get r = some n := by
  unfold Ready.pageInOrMakeRoom at h
  split at h
  · rw [pageInReq_cache] at h; exact h
  · split at h
    · exact evict_cache s io h
    · exact h

theorem runFlushPolicy_lim {s : S} (h : Lim s) (hS : Sound s) (io : Env Node) : Lim (runFlushPolicy s io).next := by
  unfold runFlushPolicy
  obtain ⟨i3, i4⟩ := toFlush_lim 39 { s with lru := lruUse s.lru rootRef } rootRef []
  generalize toFlush 39 { s with lru := lruUse s.lru rootRef } rootRef [] = a at *
  have i3 : a.1.cache = s.cache := i3
  have hS' : Sound a.1 := fun r n hn => hS r n (by rw [← i3]; exact hn)
  have h' : Lim a.1 := fun r n hn => h r n (by rw [← i3]; exact hn)
  dsimp only
  split
  · exact h'.of_cache (fun r n hn => by rw [pageInReq_cache] at hn; exact hn)
  · rename_i p slot e; rw [e] at i4; exact split_lim h' hS' i4
  · exact repivot_lim h' _
  · exact flush_lim h' hS' _ _
  · exact grow_lim h'
  · exact h'.of_cache (fun r n hn => evict_cache _ _ hn)
  · exact h'

theorem insert_lim {s : S} (h : Lim s) (hS : Sound s) (io : Env Node) (k : Key) (v : Value) (replay : Bool) :
    Lim (insert s io k v replay).next := by
  unfold insert
  split
  case isFalse => exact h
  split
  · split
    · exact h.of_cache (fun r n hn => by rw [pageInReq_cache] at hn; exact hn)
    · exact h
  · rename_i old hold
    split
    case isFalse => exact h
    split
    · rename_i hw
      split
      · exact h
      · intro r m hm
        dsimp only [Ready.writeSame] at hm
        rw [AList.get_set] at hm
        split at hm
        · cases hm
          refine ⟨by simpa [Node.add] using (h _ _ hold).many, ?_⟩
          have h1 := weight_at old.buckets (route old.pivots k)
          have h2 := add_weight (old.bucketAt k) k v
          by_cases hi : route old.pivots k < old.buckets.length
          · simp only [Node.add]
            rw [List.set_eq_take_append_cons_drop, if_pos hi, weight_append, weight_cons]
            unfold Node.bucketAt at h2 ⊢
            omega
          · simp only [Node.add]
            rw [List.set_eq_of_length_le (by omega)]
            omega
        · exact h r m hm
    · exact runFlushPolicy_lim h hS io

theorem clone_lim {s : S} (h : Lim s) (hS : Sound s) (io : Env Node) (src dst : Key) (replay : Bool) :
    Lim (clone s io src dst replay).next := by
  unfold clone
  split
  case isFalse => exact h
  split
  · split
    · exact h.of_cache (fun r n hn => by rw [pageInReq_cache] at hn; exact hn)
    · exact h
  · rename_i old hold
    split
    · exact h
    split
    case isFalse => exact h
    rename_i hchk
    simp only [Bool.and_eq_true, decide_eq_true_eq] at hchk
    obtain ⟨⟨⟨⟨c1, c2⟩, c3⟩, c4⟩, c5⟩ := hchk
    have hv : ValidClone old src dst := ⟨(hS _ _ hold).inv.wf, (containsAllB_iff _).mp c3,
      (by intro e; rw [e] at c2; cases c2), c1, (noKeyB_iff _ _).mp c4⟩
    obtain ⟨g1, g2, _⟩ := cloneRoot_spec (hS _ _ hold) hv
    refine h.set ⟨?_, Nat.le_trans (cloneRoot_weight _ _ _) (h _ _ hold).weight⟩
    obtain ⟨cs, hcs⟩ := Option.ne_none_iff_exists'.mp g2
    have h4 := g1.children cs hcs
    have hk : kids (old.cloneRoot src dst) = cs := by unfold kids; rw [hcs]; rfl
    rw [hk] at c5
    omega

theorem queryFrom_cache (io : Env Node) (q : Key) (fuel : Nat) : ∀ (s : S) (key : Key) (msg : Message) (ref : Ref)
    (l : List Layer) {r : Ref} {n : Node}, (queryFrom io q fuel s key msg ref l).next.cache.get r = some n →
    s.cache.get r = some n := by
  induction fuel with
  | zero => intro s key msg ref l r n h; exact h
  | succ fuel ih =>
    intro s key msg ref l r n h
    unfold queryFrom at h
    split at h
    · exact pageIn_cache s io ref h
    · split at h
      · dsimp only at h
        split at h
        · exact h
        · split at h
          · split at h
            · exact ih { s with lru := lruUse s.lru ref } _ _ _ _ h
            · exact h
          · exact h
      · exact h

theorem succFrom_cache (io : Env Node) (start : RangeStart) (max : Nat) (fuel : Nat) : ∀ (s : S) (key : Key)
    (pset : Option PrefixSet) (upTo : Elem) (g : Option Bucket) (ref : Ref) (l : List Layer),
    (succFrom io start max fuel s key pset upTo g ref l).next.cache = s.cache := by
  induction fuel with
  | zero =>
    intro s key pset upTo g ref l
    unfold succFrom
    split
    · split
      · exact pageInReq_cache s io ref
      · rfl
    · split
      · dsimp only
        split <;> rfl
      · rfl
  | succ fuel ih =>
    intro s key pset upTo g ref l
    unfold succFrom
    split
    · split
      · exact pageInReq_cache s io ref
      · rfl
    · split
      · dsimp only
        split
        · split
          · rename_i h1 h2
            cases h1
            exact ih _ _ _ _ _ _ _
          · rfl
        · rfl
      · rfl

end Verif.Kv.TreeImpl
