import Verif.Kv.TreeImpl
import Verif.Kv.PivotStep
/-
The flush of a bucket as it is coded moves a first part of the bucket, whole entries, each into the bucket
it belongs to, and never makes the child too heavy. No code is modelled here.
-/
namespace Verif.Kv.TreeImpl
open Pivot BlockImpl
open Betree (Message)
open SectorBytes (bucketWeight weight messageWeight maxWeight)

theorem merge_nil_left (b : Bucket) : Bucket.merge [] b = b := by rw [Bucket.merge]

theorem merge_nil_right (b : Bucket) : Bucket.merge b [] = b := by
  cases b with
  | nil => rw [Bucket.merge]
  | cons x t => rw [Bucket.merge]; exact fun h => nomatch h

/-- One child: a first part of the entries is merged in. -/
theorem mergeOne_spec (t b : Bucket) (slack : Nat) : ∃ j, j ≤ t.length ∧
    (mergeOne t b slack).2.1 = t.drop j ∧ (mergeOne t b slack).1 = Bucket.merge (t.take j) b := by
  fun_induction mergeOne t b slack with
  | case1 b slack => exact ⟨0, Nat.le_refl _, rfl, (merge_nil_left b).symm⟩
  | case2 k m t slack h => exact ⟨0, Nat.zero_le _, rfl, (merge_nil_left _).symm⟩
  | case3 k m t slack h r ih =>
    obtain ⟨j, h1, h2, h3⟩ := ih
    refine ⟨j + 1, by simpa using h1, by simpa using h2, ?_⟩
    rw [List.take_succ_cons, merge_nil_right]
    rw [merge_nil_right] at h3
    show (k, m) :: r.1 = _
    rw [h3]
  | case4 m t k m' b slack h ih =>
    obtain ⟨j, h1, h2, h3⟩ := ih
    refine ⟨j + 1, by simpa using h1, by simpa using h2, ?_⟩
    rw [List.take_succ_cons, Bucket.merge, if_neg (lt_irrefl _), if_neg (lt_irrefl _), if_pos h]
    exact h3
  | case5 m t k m' b slack h h' => exact ⟨0, Nat.zero_le _, rfl, (merge_nil_left _).symm⟩
  | case6 m t k m' b slack h h' r ih =>
    obtain ⟨j, h1, h2, h3⟩ := ih
    refine ⟨j + 1, by simpa using h1, by simpa using h2, ?_⟩
    rw [List.take_succ_cons, Bucket.merge, if_neg (lt_irrefl _), if_neg (lt_irrefl _), if_neg h]
    show (k, m.merge m') :: r.1 = _
    rw [h3]
  | case7 k m t k' m' b slack hne hlt h => exact ⟨0, Nat.zero_le _, rfl, (merge_nil_left _).symm⟩
  | case8 k m t k' m' b slack hne hlt h r ih =>
    obtain ⟨j, h1, h2, h3⟩ := ih
    refine ⟨j + 1, by simpa using h1, by simpa using h2, ?_⟩
    rw [List.take_succ_cons, Bucket.merge, if_pos hlt]
    show (k, m) :: r.1 = _
    rw [h3]
  | case9 k m t k' m' b slack hne hlt r ih =>
    obtain ⟨j, h1, h2, h3⟩ := ih
    refine ⟨j, h1, h2, ?_⟩
    have hgt : Elem.key k' < .key k := by
      rcases lt_trichotomy (Elem.key k) (Elem.key k') with h | h | h
      · exact absurd h hlt
      · exact absurd (Elem.key.inj h) hne
      · exact h
    cases j with
    | zero =>
      rw [List.take_zero, merge_nil_left] at h3 ⊢
      show (k', m') :: r.1 = _
      rw [h3]
    | succ j =>
      rw [List.take_succ_cons] at h3 ⊢
      rw [Bucket.merge, if_neg hlt, if_pos hgt]
      show (k', m') :: r.1 = _
      rw [h3]

/-- One child: what its bucket gains, the slack loses. -/
theorem mergeOne_weight (t b : Bucket) (slack : Nat) :
    bucketWeight (mergeOne t b slack).1 + (mergeOne t b slack).2.2 = bucketWeight b + slack := by
  have hc : ∀ (x : Key × Message) (l : Bucket),
      bucketWeight (x :: l) = 4 + x.1.length + messageWeight x.2 + bucketWeight l := by
    intro x l; simp [bucketWeight]
  fun_induction mergeOne t b slack with
  | case1 b slack => rfl
  | case2 k m t slack h => rfl
  | case3 k m t slack h r ih =>
    show bucketWeight ((k, m) :: r.1) + r.2.2 = _
    rw [hc]
    have h0 : bucketWeight [] = 0 := rfl
    rw [h0] at ih
    dsimp only
    change bucketWeight r.1 + r.2.2 = _ at ih
    omega
  | case4 m t k m' b slack h ih => rw [hc]; dsimp only; omega
  | case5 m t k m' b slack h h' => rfl
  | case6 m t k m' b slack h h' r ih =>
    show bucketWeight ((k, m.merge m') :: r.1) + r.2.2 = _
    rw [hc, hc]
    dsimp only
    change bucketWeight r.1 + r.2.2 = _ at ih
    omega
  | case7 k m t k' m' b slack hne hlt h => rfl
  | case8 k m t k' m' b slack hne hlt h r ih =>
    show bucketWeight ((k, m) :: r.1) + r.2.2 = _
    rw [hc]
    change bucketWeight r.1 + r.2.2 = _ at ih
    dsimp only
    omega
  | case9 k m t k' m' b slack hne hlt r ih =>
    show bucketWeight ((k', m') :: r.1) + r.2.2 = _
    rw [hc, hc]
    change bucketWeight r.1 + r.2.2 = _ at ih
    dsimp only
    omega

theorem route_zero {lo hi : Elem} {ps : List Elem} {k : Key} (h1 : lo ≤ .key k) (h2 : .key k < hi) :
    route (lo :: hi :: ps) k = 0 := by
  unfold route
  rw [List.takeWhile_cons_of_pos (by simpa using h1), List.takeWhile_cons_of_neg (by simpa using h2)]
  rfl

theorem route_succ {lo hi : Elem} {ps : List Elem} {k : Key} (h1 : lo ≤ .key k) (h2 : hi ≤ .key k) :
    route (lo :: hi :: ps) k = route (hi :: ps) k + 1 := by
  unfold route
  rw [List.takeWhile_cons_of_pos (by simpa using h1), List.takeWhile_cons_of_pos (by simpa using h2)]
  simp

theorem dropWhile_ge {t : Bucket} (hs : t.Sorted) (hi : Elem) :
    ∀ x ∈ t.dropWhile (fun x => decide (Elem.key x.1 < hi)), hi ≤ .key x.1 := by
  induction t with
  | nil => intro x hx; cases hx
  | cons y t ih =>
    have hs' := List.pairwise_cons.mp hs
    intro x hx
    by_cases hy : Elem.key y.1 < hi
    · rw [List.dropWhile_cons_of_pos (by simpa using hy)] at hx
      exact ih hs'.2 x hx
    · rw [List.dropWhile_cons_of_neg (by simpa using hy)] at hx
      rcases List.mem_cons.mp hx with e | h
      · rw [e]; exact not_lt.mp hy
      · exact le_trans (not_lt.mp hy) (le_of_lt (hs'.1 x h))

theorem takeWhile_lt {t : Bucket} (hi : Elem) :
    ∀ x ∈ t.takeWhile (fun x => decide (Elem.key x.1 < hi)), Elem.key x.1 < hi := fun x hx => by
  have := (List.all_eq_true.mp (List.all_takeWhile (p := fun x : Key × Message => decide (Elem.key x.1 < hi)) (l := t))) x hx
  simpa using this

theorem mapIdx_cons' {α β : Type} (f : Nat → α → β) (a : α) (l : List α) :
    (a :: l).mapIdx f = f 0 a :: l.mapIdx (fun i x => f (i + 1) x) := List.mapIdx_cons

/-- All children: a first part of the upper bucket is moved, every entry into the child it belongs to. -/
theorem mergeIter_spec (bots : List Bucket) : ∀ (top : Bucket) (pt : List Elem) (slack : Nat),
    pt.Pairwise (· < ·) → pt.length = bots.length + 1 → top.Sorted →
    (∀ x ∈ top, ∃ a z, pt.head? = some a ∧ pt.getLast? = some z ∧ a ≤ .key x.1 ∧ Elem.key x.1 < z) →
    ∃ n, (mergeIter top pt bots slack).2 = top.drop n ∧
      (mergeIter top pt bots slack).1 = bots.mapIdx (fun i b =>
        Bucket.merge ((top.take n).filter (fun x => route pt x.1 == i)) b) := by
  induction bots with
  | nil =>
    intro top pt slack hp hl hs hb
    cases pt with
    | nil => simp at hl
    | cons p ps =>
      cases ps with
      | cons q ps => simp at hl
      | nil =>
        have : top = [] := by
          cases top with
          | nil => rfl
          | cons x t =>
            obtain ⟨a, z, h1, h2, h3, h4⟩ := hb x (.head _)
            simp at h1 h2
            rw [← h1] at h3; rw [← h2] at h4
            exact absurd h4 (not_lt.mpr h3)
        subst this
        refine ⟨0, ?_, ?_⟩
        · rw [mergeIter]; rfl
          exact fun _ _ _ _ _ _ e => nomatch e
        · rw [mergeIter]; rfl
          exact fun _ _ _ _ _ _ e => nomatch e
  | cons b bs ih =>
    intro top pt slack hp hl hs hb
    obtain ⟨lo, hi, ps, rfl⟩ : ∃ lo hi ps, pt = lo :: hi :: ps := by
      cases pt with
      | nil => simp at hl
      | cons lo ps => cases ps with
        | nil => simp at hl
        | cons hi ps => exact ⟨lo, hi, ps, rfl⟩
    have hlo : ∀ x ∈ top, lo ≤ .key x.1 := fun x hx => by
      obtain ⟨a, z, h1, _, h3, _⟩ := hb x hx
      simp at h1; rw [h1]; exact h3
    have hsplit : top = top.takeWhile (fun x => decide (Elem.key x.1 < hi)) ++
        top.dropWhile (fun x => decide (Elem.key x.1 < hi)) := List.takeWhile_append_dropWhile.symm
    have hseg := takeWhile_lt (t := top) hi
    have hrest := dropWhile_ge hs hi
    have hsr : Bucket.Sorted (top.dropWhile (fun x => decide (Elem.key x.1 < hi))) :=
      hs.sublist (List.dropWhile_sublist _)
    rw [mergeIter]
    generalize hseg' : top.takeWhile (fun x => decide (Elem.key x.1 < hi)) = seg at *
    generalize hrest' : top.dropWhile (fun x => decide (Elem.key x.1 < hi)) = rest at *
    have hmem : ∀ x, x ∈ seg ∨ x ∈ rest → x ∈ top := fun x hx => by
      rw [hsplit]; exact List.mem_append.mpr hx
    obtain ⟨j, h1, h2, h3⟩ := mergeOne_spec seg b slack
    have hr0 : ∀ x ∈ seg, route (lo :: hi :: ps) x.1 = 0 := fun x hx =>
      route_zero (hlo x (hmem x (.inl hx))) (hseg x hx)
    have hr1 : ∀ x ∈ rest, route (lo :: hi :: ps) x.1 = route (hi :: ps) x.1 + 1 := fun x hx =>
      route_succ (hlo x (hmem x (.inr hx))) (hrest x hx)
    dsimp only
    by_cases hdone : (mergeOne seg b slack).2.1 = []
    · rw [if_pos hdone]
      have hj : j = seg.length := by
        rw [h2, List.drop_eq_nil_iff] at hdone
        omega
      rw [hj, List.take_length] at h3
      obtain ⟨n, i1, i2⟩ := ih rest (hi :: ps) (mergeOne seg b slack).2.2 (List.pairwise_cons.mp hp).2
        (by simpa using hl) hsr (fun x hx => by
          obtain ⟨a, z, _, g2, _, g4⟩ := hb x (hmem x (.inr hx))
          exact ⟨hi, z, rfl, by simpa using g2, hrest x hx, g4⟩)
      have e1 : top.take (seg.length + n) = seg ++ rest.take n := by
        rw [hsplit, List.take_length_add_append]
      have e2 : top.drop (seg.length + n) = rest.drop n := by
        rw [hsplit, List.drop_length_add_append]
      refine ⟨seg.length + n, by rw [e2]; exact i1, ?_⟩
      rw [mapIdx_cons', e1]
      refine List.cons_eq_cons.mpr ⟨?_, ?_⟩
      · rw [h3, List.filter_append, List.filter_eq_self.mpr (fun x hx => by simp [hr0 x hx]),
          List.filter_eq_nil_iff.mpr (fun x hx => by simp [hr1 x (List.mem_of_mem_take hx)]), List.append_nil]
      · rw [i2]
        congr 1
        funext i c
        congr 1
        rw [List.filter_append, List.filter_eq_nil_iff (l := seg) |>.mpr (fun x hx => by simp [hr0 x hx]),
          List.nil_append]
        refine List.filter_congr (fun x hx => ?_)
        rw [hr1 x (List.mem_of_mem_take hx)]
        simp
    · rw [if_neg hdone]
      have e1 : top.take j = seg.take j := by
        rw [hsplit, List.take_append_of_le_length h1]
      have e2 : top.drop j = seg.drop j ++ rest := by
        rw [hsplit, List.drop_append_of_le_length h1]
      refine ⟨j, by rw [e2, ← h2], ?_⟩
      rw [mapIdx_cons', e1]
      refine List.cons_eq_cons.mpr ⟨?_, ?_⟩
      · rw [h3, List.filter_eq_self.mpr (fun x hx => by simp [hr0 x (List.mem_of_mem_take hx)])]
      · symm
        apply List.ext_getElem?
        intro i
        rw [List.getElem?_mapIdx]
        rw [List.filter_eq_nil_iff.mpr (fun x hx => by simp [hr0 x (List.mem_of_mem_take hx)])]
        cases bs[i]? with
        | none => rfl
        | some c => simp [merge_nil_left]

/-- All children: what their buckets gain is at most the slack. -/
theorem mergeIter_weight (bots : List Bucket) : ∀ (top : Bucket) (pt : List Elem) (slack : Nat),
    weight (mergeIter top pt bots slack).1 ≤ weight bots + slack := by
  induction bots with
  | nil =>
    intro top pt slack
    rw [mergeIter]
    · exact Nat.le_add_right _ _
    · exact fun _ _ _ _ _ _ e => nomatch e
  | cons b bs ih =>
    intro top pt slack
    have hc : ∀ (x : Bucket) (l : List Bucket), weight (x :: l) = bucketWeight x + weight l := by
      intro x l; simp [weight]
    cases pt with
    | nil => rw [mergeIter]; exact Nat.le_add_right _ _; exact fun _ _ _ _ _ e => nomatch e
    | cons lo ps =>
      cases ps with
      | nil => rw [mergeIter]; exact Nat.le_add_right _ _; exact fun _ _ _ _ _ e => nomatch e
      | cons hi ps =>
        rw [mergeIter]
        have hw := mergeOne_weight (top.takeWhile (fun x => decide (Elem.key x.1 < hi))) b slack
        dsimp only
        split
        · have := ih (top.dropWhile (fun x => decide (Elem.key x.1 < hi))) (hi :: ps)
            (mergeOne (top.takeWhile (fun x => decide (Elem.key x.1 < hi))) b slack).2.2
          rw [hc, hc]; omega
        · rw [hc, hc]; omega

/-- The whole flush of a bucket. -/
theorem partialFlush_spec {top : Bucket} {pt : List Elem} {bots : List Bucket} (hp : pt.Pairwise (· < ·))
    (hl : pt.length = bots.length + 1) (hs : top.Sorted) (hb : ∀ x ∈ top, Bounded pt x.1) :
    ∃ n, (partialFlush top pt bots).2 = top.drop n ∧
      (partialFlush top pt bots).1 = bots.mapIdx (fun i b =>
        Bucket.merge ((top.take n).filter (fun x => route pt x.1 == i)) b) := by
  unfold partialFlush
  have e : top.dropWhile (fun x => decide (Elem.key x.1 < pt.headD .top)) = top := by
    cases top with
    | nil => rfl
    | cons x t =>
      obtain ⟨a, z, h1, _, h3, _⟩ := hb x (.head _)
      rw [List.dropWhile_cons_of_neg]
      have : pt.headD .top = a := by rw [List.headD_eq_head?_getD, h1]; rfl
      rw [this]
      simpa using h3
  rw [e]
  exact mergeIter_spec bots top pt _ hp hl hs hb

/-- The children never get too heavy. -/
theorem partialFlush_weight (top : Bucket) (pt : List Elem) {bots : List Bucket} (h : weight bots ≤ maxWeight) :
    weight (partialFlush top pt bots).1 ≤ maxWeight := by
  have := mergeIter_weight bots (top.dropWhile (fun x => decide (Elem.key x.1 < pt.headD .top))) pt
    (maxWeight - weight bots)
  unfold partialFlush
  omega

/-- The entries moved are those of the first keys. -/
theorem filter_take {top : Bucket} (hs : top.Sorted) (n : Nat) :
    top.filter (fun x => (top.take n).any (fun y => y.1 == x.1)) = top.take n ∧
    top.filter (fun x => !(top.take n).any (fun y => y.1 == x.1)) = top.drop n := by
  have hin : ∀ x ∈ top.take n, (top.take n).any (fun y => y.1 == x.1) = true := fun x hx =>
    List.any_eq_true.mpr ⟨x, hx, by simp⟩
  have hs' : (top.take n ++ top.drop n).Pairwise (fun x y => Elem.key x.1 < Elem.key y.1) := by
    rw [List.take_append_drop]; exact hs
  have hout : ∀ x ∈ top.drop n, (top.take n).any (fun y => y.1 == x.1) = false := fun x hx => by
    rw [List.any_eq_false]
    intro y hy e
    have e' : y.1 = x.1 := by simpa using e
    have := (List.pairwise_append.mp hs').2.2 y hy x hx
    rw [e'] at this
    exact absurd this (lt_irrefl _)
  constructor
  · have e := congrArg (List.filter (fun x => (top.take n).any (fun y => y.1 == x.1))) (List.take_append_drop n top)
    rw [← e, List.filter_append, List.filter_eq_self.mpr hin, List.filter_eq_nil_iff.mpr
      (fun x hx => by simp [hout x hx]), List.append_nil]
  · have e := congrArg (List.filter (fun x => !(top.take n).any (fun y => y.1 == x.1))) (List.take_append_drop n top)
    rw [← e, List.filter_append, List.filter_eq_nil_iff.mpr (fun x hx => by simp [hin x hx]),
      List.filter_eq_self.mpr (fun x hx => by simp [hout x hx]), List.nil_append]

/-- One child: it stops only at an entry for which the slack does not suffice. -/
theorem mergeOne_full (t b : Bucket) (slack : Nat) {k : Key} {m : Message} {t' : Bucket}
    (h : (mergeOne t b slack).2.1 = (k, m) :: t') :
    (mergeOne t b slack).2.2 < 4 + k.length + messageWeight m := by
  fun_induction mergeOne t b slack with
  | case1 b slack => cases h
  | case2 k m t slack h' => cases h; exact h'
  | case3 k m t slack h' r ih => exact ih h
  | case4 m t k m' b slack h' ih => exact ih h
  | case5 m t k m' b slack h1 h2 =>
    cases h
    dsimp only
    have : messageWeight (m.merge m') ≤ messageWeight m + messageWeight m' := by
      cases m <;> simp [Message.merge, messageWeight]
    omega
  | case6 m t k m' b slack h1 h2 r ih => exact ih h
  | case7 k m t k' m' b slack hne hlt h' => cases h; exact h'
  | case8 k m t k' m' b slack hne hlt h' r ih => exact ih h
  | case9 k m t k' m' b slack hne hlt r ih => exact ih h

/-- All children: it stops only when the next entry does not fit. -/
theorem mergeIter_full (bots : List Bucket) : ∀ (top : Bucket) (pt : List Elem) (slack : Nat)
    {k : Key} {m : Message} {t' : Bucket}, (mergeIter top pt bots slack).2 = (k, m) :: t' →
    weight bots + slack < weight (mergeIter top pt bots slack).1 + (4 + k.length + messageWeight m) := by
  induction bots with
  | nil =>
    intro top pt slack k m t' h
    rw [mergeIter] at h
    · cases h
    · exact fun _ _ _ _ _ _ e => nomatch e
  | cons b bs ih =>
    intro top pt slack k m t' h
    have hc : ∀ (x : Bucket) (l : List Bucket), weight (x :: l) = bucketWeight x + weight l := by
      intro x l; simp [weight]
    cases pt with
    | nil => rw [mergeIter] at h; cases h; exact fun _ _ _ _ _ e => nomatch e
    | cons lo ps =>
      cases ps with
      | nil => rw [mergeIter] at h; cases h; exact fun _ _ _ _ _ e => nomatch e
      | cons hi ps =>
        rw [mergeIter] at h ⊢
        have hw := mergeOne_weight (top.takeWhile (fun x => decide (Elem.key x.1 < hi))) b slack
        dsimp only at h ⊢
        split at h
        · rename_i e
          rw [if_pos e]
          have := ih _ _ _ h
          rw [hc, hc]; omega
        · rename_i e
          rw [if_neg e]
          generalize hr : mergeOne (top.takeWhile (fun x => decide (Elem.key x.1 < hi))) b slack = r at *
          obtain ⟨r1, r2, r3⟩ := r
          cases r2 with
          | nil => exact absurd rfl e
          | cons y ys =>
            obtain ⟨k', m'⟩ := y
            have hf := mergeOne_full _ b slack (congrArg (fun x => x.2.1) hr)
            rw [hr] at hf
            dsimp only at h hf hw ⊢
            cases h
            rw [hc, hc]; omega

end Verif.Kv.TreeImpl
