import Verif.Kv.IndTableProof
/-
Reading an indirection table: the counts computed from its rows are exact, and the bitmap computed from
it has exactly the blocks it uses. No code is modelled here.
-/
namespace Verif.Kv.IndTable

/-- The table with these counts. -/
def withPreds (t : AList Ref Entry) (f : Ref → Nat) : AList Ref Entry :=
  t.map (fun x => (x.1, { x.2 with preds := f x.1 }))

theorem withPreds_keys (t : AList Ref Entry) (f : Ref → Nat) : AList.keys (withPreds t f) = t.keys := by
  unfold AList.keys withPreds; rw [List.map_map]; rfl

theorem withPreds_get (t : AList Ref Entry) (f : Ref → Nat) (r : Ref) :
    AList.get (withPreds t f) r = (t.get r).map (fun e => { e with preds := f r }) := by
  induction t with
  | nil => rfl
  | cons a t ih =>
    obtain ⟨a, e⟩ := a
    have h1 : withPreds ((a, e) :: t) f = (a, { e with preds := f a }) :: withPreds t f := rfl
    rw [h1, AList.get_cons, AList.get_cons]
    split
    · rename_i k; subst k; rfl
    · exact ih

theorem withPreds_ext {t : AList Ref Entry} {f g : Ref → Nat} (h : ∀ r ∈ t.keys, f r = g r) :
    withPreds t f = withPreds t g := by
  unfold withPreds
  refine List.map_congr_left fun x hx => ?_
  rw [h x.1 (List.mem_map_of_mem hx)]

theorem withPreds_set {t : AList Ref Entry} (hn : t.keys.Nodup) {f : Ref → Nat} {r : Ref} {e : Entry}
    (h : t.get r = some e) (n : Nat) :
    AList.set (withPreds t f) r { e with preds := n } = withPreds t (fun x => if x = r then n else f x) := by
  induction t with
  | nil => cases h
  | cons a t ih =>
    obtain ⟨a, e0⟩ := a
    have h1 : ∀ g, withPreds ((a, e0) :: t) g = (a, { e0 with preds := g a }) :: withPreds t g := fun _ => rfl
    have hn' : a ∉ AList.keys t ∧ (AList.keys t).Nodup := List.nodup_cons.mp hn
    rw [h1, h1]
    rw [AList.get_cons] at h
    unfold AList.set
    by_cases k : r = a
    · subst k
      rw [if_pos rfl] at h ⊢
      cases h
      rw [if_pos rfl]
      congr 1
      exact withPreds_ext fun x hx => (if_neg (fun k : x = r => hn'.1 (k ▸ hx))).symm
    · rw [if_neg k] at h ⊢
      rw [if_neg (fun k' => k k'.symm), ih hn'.2 h]

theorem bump_eq {t : AList Ref Entry} (hn : t.keys.Nodup) (f : Ref → Nat) (r : Ref) :
    bump (withPreds t f) r =
      if t.get r = none then none else some (withPreds t (fun x => f x + [r].count x)) := by
  unfold bump
  rw [withPreds_get]
  cases h : t.get r with
  | none => rfl
  | some e =>
    dsimp only [Option.map_some]
    rw [if_neg (by simp)]
    congr 1
    have := withPreds_set hn (f := f) h (f r + 1)
    rw [this]
    refine withPreds_ext fun x _ => ?_
    by_cases k : x = r
    · subst k; rw [if_pos rfl, List.count_cons_self]; rfl
    · rw [if_neg k, List.count_cons_of_ne (fun k' => k k'.symm)]; rfl

theorem bumps_eq {t : AList Ref Entry} (hn : t.keys.Nodup) (l : List Ref) (f : Ref → Nat) :
    (∀ u, l.foldlM bump (withPreds t f) = some u →
      (∀ r ∈ l, t.get r ≠ none) ∧ u = withPreds t (fun x => f x + l.count x)) ∧
    ((∀ r ∈ l, t.get r ≠ none) → ∃ u, l.foldlM bump (withPreds t f) = some u) := by
  induction l generalizing f with
  | nil =>
    refine ⟨fun u hu => ⟨(fun _ k => nomatch k), ?_⟩, fun _ => ⟨_, rfl⟩⟩
    cases hu; rfl
  | cons a l ih =>
    rw [List.foldlM_cons, bump_eq hn]
    by_cases k : t.get a = none
    · rw [if_pos k]
      exact ⟨(fun u hu => nomatch hu), fun h => absurd k (h a (List.mem_cons_self ..))⟩
    · rw [if_neg k]
      obtain ⟨i1, i2⟩ := ih (fun x => f x + [a].count x)
      constructor
      · intro u hu
        obtain ⟨h1, h2⟩ := i1 u hu
        refine ⟨fun r hr => ?_, ?_⟩
        · rcases List.mem_cons.mp hr with k' | k'
          · subst k'; exact k
          · exact h1 r k'
        · rw [h2]
          refine withPreds_ext fun x _ => ?_
          have : (a :: l).count x = [a].count x + l.count x := by
            rw [← List.count_append]; rfl
          omega
      · intro h
        exact i2 fun r hr => h r (List.mem_cons_of_mem _ hr)

theorem rows_eq {t : AList Ref Entry} (hn : t.keys.Nodup) (m : AList Ref Entry) (f : Ref → Nat) :
    (∀ u, m.foldlM (fun t1 x => x.2.succs.foldlM bump t1) (withPreds t f) = some u →
      (∀ x ∈ m, ∀ r ∈ x.2.succs, t.get r ≠ none) ∧ u = withPreds t (fun x => f x + inDeg m x)) ∧
    ((∀ x ∈ m, ∀ r ∈ x.2.succs, t.get r ≠ none) →
      ∃ u, m.foldlM (fun t1 x => x.2.succs.foldlM bump t1) (withPreds t f) = some u) := by
  induction m generalizing f with
  | nil =>
    refine ⟨fun u hu => ⟨(fun _ k => nomatch k), ?_⟩, fun _ => ⟨_, rfl⟩⟩
    cases hu; rfl
  | cons a m ih =>
    obtain ⟨b1, b2⟩ := bumps_eq hn a.2.succs f
    rw [List.foldlM_cons]
    cases hb : a.2.succs.foldlM bump (withPreds t f) with
    | none =>
      refine ⟨(fun u hu => nomatch hu), fun h => ?_⟩
      obtain ⟨u, hu⟩ := b2 (h a (List.mem_cons_self ..))
      rw [hb] at hu; cases hu
    | some u1 =>
      obtain ⟨c1, c2⟩ := b1 u1 hb
      subst c2
      obtain ⟨i1, i2⟩ := ih (fun x => f x + a.2.succs.count x)
      constructor
      · intro u hu
        obtain ⟨h1, h2⟩ := i1 u hu
        refine ⟨fun x hx => ?_, ?_⟩
        · rcases List.mem_cons.mp hx with k' | k'
          · subst k'; exact c1
          · exact h1 x k'
        · rw [h2]
          refine withPreds_ext fun x _ => ?_
          have : inDeg (a :: m) x = a.2.succs.count x + inDeg m x := AList.sum_cons ..
          omega
      · intro h
        exact i2 fun x hx => h x (List.mem_cons_of_mem _ hx)

theorem withPreds_id {t : AList Ref Entry} {f : Ref → Nat} (h : ∀ x ∈ t, x.2.preds = f x.1) :
    withPreds t f = t := by
  unfold withPreds
  conv => rhs; rw [← List.map_id t]
  refine List.map_congr_left fun x hx => ?_
  rw [← h x hx]; rfl

/-- **`ComputeRefCounts`**: succeeds exactly on tables with a root whose successors all have entries, and
then the counts are exact. -/
theorem computeRefCounts_eq {t : AList Ref Entry} (hn : t.keys.Nodup) (hz : ∀ x ∈ t, x.2.preds = 0) :
    (∀ u, computeRefCounts t = some u →
      t.get rootRef ≠ none ∧ (∀ x ∈ t, ∀ r ∈ x.2.succs, t.get r ≠ none) ∧
      u = withPreds t (fun r => inDeg t r + isRoot r)) ∧
    (t.get rootRef ≠ none → (∀ x ∈ t, ∀ r ∈ x.2.succs, t.get r ≠ none) →
      ∃ u, computeRefCounts t = some u) := by
  unfold computeRefCounts
  cases h : t.get rootRef with
  | none => exact ⟨(fun u hu => nomatch hu), fun k => absurd rfl k⟩
  | some e =>
    dsimp only
    have e1 := withPreds_set hn (f := fun _ => 0) h 1
    rw [withPreds_id (f := fun _ => 0) hz] at e1
    rw [e1]
    obtain ⟨h1, h2⟩ := rows_eq hn t (fun x => if x = rootRef then 1 else 0)
    refine ⟨fun u hu => ?_, fun _ k => h2 k⟩
    obtain ⟨k1, k2⟩ := h1 u hu
    refine ⟨by simp, k1, ?_⟩
    rw [k2]
    exact withPreds_ext fun x _ => Nat.add_comm ..

theorem foldl_max_le (l : List Nat) (n : Nat) : n ≤ l.foldl max n ∧ ∀ x ∈ l, x ≤ l.foldl max n := by
  induction l generalizing n with
  | nil => exact ⟨Nat.le_refl _, fun _ k => nomatch k⟩
  | cons a l ih =>
    obtain ⟨h1, h2⟩ := ih (max n a)
    refine ⟨Nat.le_trans (Nat.le_max_left ..) h1, fun x hx => ?_⟩
    rcases List.mem_cons.mp hx with k | k
    · subst k; exact Nat.le_trans (Nat.le_max_right ..) h1
    · exact h2 x k

/-- The table the rows describe, before counting. -/
def rawRows (rows : List TRow) : AList Ref Entry := rows.map (fun x => (x.1, ⟨some x.2.1, x.2.2, 0⟩))

/-- The table of the rows, as the specification has it. -/
def rowsView (rows : List TRow) : Table := (Tab.mk (rawRows rows) none 0 none).view

theorem inDeg_withPreds (t : AList Ref Entry) (f : Ref → Nat) (r : Ref) : inDeg (withPreds t f) r = inDeg t r := by
  unfold inDeg withPreds AList.sum
  rw [List.map_map]; rfl

/-- **Reading a table gives one that is in order, with the rows it was read from.** -/
theorem ofRows_inv {rows : List TRow} (hn : (rows.map (·.1)).Nodup) {s : Tab} (h : ofRows rows = some s) :
    s.Inv ∧ s.view = rowsView rows ∧ s.queue ≠ none ∧ s.t.keys = rows.map (·.1) ∧
      ∀ r e, s.t.get r = some e → e.loc ≠ none := by
  have hk : (rawRows rows).keys = rows.map (·.1) := by
    unfold rawRows AList.keys; rw [List.map_map]; rfl
  have hn' : (rawRows rows).keys.Nodup := hk ▸ hn
  have hz : ∀ x ∈ rawRows rows, x.2.preds = 0 := by
    intro x hx
    obtain ⟨y, _, e⟩ := List.mem_map.mp hx
    rw [← e]
  have hl : ∀ x ∈ rawRows rows, x.2.loc ≠ none := by
    intro x hx
    obtain ⟨y, _, e⟩ := List.mem_map.mp hx
    rw [← e]; simp
  unfold ofRows at h
  have e0 : rows.map (fun x => (x.1, (⟨some x.2.1, x.2.2, 0⟩ : Entry))) = rawRows rows := rfl
  rw [e0] at h
  cases hc : computeRefCounts (rawRows rows) with
  | none => rw [hc] at h; cases h
  | some u =>
    rw [hc] at h
    cases h
    obtain ⟨k1, k2, k3⟩ := (computeRefCounts_eq hn' hz).1 u hc
    have hv : (Tab.mk u (some ((u.filter (fun x => x.2.preds == 0)).map (·.1))) ((u.map (·.1)).foldl max 0) none).view
        = rowsView rows := by
      unfold rowsView Tab.view
      dsimp only
      rw [k3]
      congr 1 <;>
      · funext r
        rw [withPreds_get]
        cases (rawRows rows).get r <;> rfl
    have hku : u.keys = (rawRows rows).keys := by rw [k3, withPreds_keys]
    have hnu : u.keys.Nodup := hku ▸ hn'
    have hgn : ∀ r, u.get r = none ↔ (rawRows rows).get r = none := by
      intro r; rw [AList.get_none, AList.get_none, hku]
    refine ⟨⟨hnu, ?_, ?_, ?_, ?_, ?_, (fun _ k => nomatch k)⟩, hv, by simp, by rw [← hk, ← hku], ?_⟩
    · intro r e hr
      dsimp only at hr ⊢
      rw [k3, inDeg_withPreds]
      rw [k3, withPreds_get] at hr
      cases hg : (rawRows rows).get r with
      | none => rw [hg] at hr; cases hr
      | some e0 => rw [hg] at hr; cases hr; rfl
    · intro q hq
      cases hq
      refine ⟨?_, fun r => ?_⟩
      · exact List.Nodup.sublist (List.Sublist.map _ List.filter_sublist) hnu
      · dsimp only
        constructor
        · intro hr
          obtain ⟨x, hx, e⟩ := List.mem_map.mp hr
          obtain ⟨h1, h2⟩ := List.mem_filter.mp hx
          refine ⟨x.2, ?_, by simpa using h2⟩
          rw [← e]
          exact AList.mem_get hnu h1
        · rintro ⟨e, h1, h2⟩
          exact List.mem_map.mpr ⟨(r, e), List.mem_filter.mpr ⟨AList.get_mem h1, by simpa using h2⟩, rfl⟩
    · rw [hv]
      intro r ss hr y hy
      obtain ⟨e, h1, h2⟩ := Tab.graph_get hr
      have := k2 (r, e) (AList.get_mem h1) y (by rw [h2]; exact hy)
      intro k
      exact this (Tab.graph_none.mp k)
    · dsimp only; rw [ne_eq, hgn]; exact k1
    · intro r hr
      dsimp only at hr ⊢
      exact (foldl_max_le _ 0).2 r (AList.get_keys.mp hr)
    · intro r e hr
      dsimp only at hr
      rw [k3, withPreds_get] at hr
      cases hg : (rawRows rows).get r with
      | none => rw [hg] at hr; cases hr
      | some e0 =>
        rw [hg] at hr; cases hr
        exact hl _ (AList.get_mem hg)

/-- **Only tables that are not closed are refused.** -/
theorem ofRows_some {rows : List TRow} (hn : (rows.map (·.1)).Nodup)
    (hroot : (rowsView rows).graph rootRef ≠ none) (hc : BlockCache.GraphClosed (rowsView rows).graph) :
    ∃ s, ofRows rows = some s := by
  have hk : (rawRows rows).keys = rows.map (·.1) := by
    unfold rawRows AList.keys; rw [List.map_map]; rfl
  have hn' : (rawRows rows).keys.Nodup := hk ▸ hn
  have hz : ∀ x ∈ rawRows rows, x.2.preds = 0 := by
    intro x hx
    obtain ⟨y, _, e⟩ := List.mem_map.mp hx
    rw [← e]
  obtain ⟨u, hu⟩ := (computeRefCounts_eq hn' hz).2 (fun k => hroot (Tab.graph_none.mpr k)) (by
    intro x hx r hr
    have hg := AList.mem_get hn' (k := x.1) (v := x.2) hx
    have := hc x.1 x.2.succs (by
      show (AList.get (rawRows rows) x.1).map _ = _
      rw [hg]; rfl) r hr
    intro k
    exact this (Tab.graph_none.mpr k))
  unfold ofRows
  have e0 : rows.map (fun x => (x.1, (⟨some x.2.1, x.2.2, 0⟩ : Entry))) = rawRows rows := rfl
  rw [e0, hu]
  exact ⟨_, rfl⟩

/-- `IsLocAllocIndirectionTable`, SectorType.i.dfy:28-41: the blocks a table uses. -/
def UsedBy (t : Table) (i : Nat) : Prop :=
  i < minNodeBlockIndex ∨ ∃ r l, t.locs r = some l ∧ l.addr / nodeBlockSize = i

theorem markLocs_eq {b0 : Bitmap} (m : AList Ref Entry) {b : Bitmap} (h : m.foldlM markLoc b0 = some b) :
    (∀ x ∈ m, ∃ l, x.2.loc = some l ∧ l.addr / nodeBlockSize < numBlocks ∧ b0 (l.addr / nodeBlockSize) = false) ∧
    (m.map (fun x => x.2.loc.map (fun l => l.addr / nodeBlockSize))).Nodup ∧
    ∀ i, b i = true ↔ (b0 i = true ∨ ∃ x ∈ m, ∃ l, x.2.loc = some l ∧ l.addr / nodeBlockSize = i) := by
  induction m generalizing b0 with
  | nil =>
    cases h
    exact ⟨(fun _ k => nomatch k), List.nodup_nil, fun i => by simp⟩
  | cons a m ih =>
    rw [List.foldlM_cons] at h
    cases hm : markLoc b0 a with
    | none => rw [hm] at h; cases h
    | some b1 =>
      rw [hm] at h
      obtain ⟨i1, i2, i3⟩ := ih h
      unfold markLoc at hm
      cases hl : a.2.loc with
      | none => rw [hl] at hm; cases hm
      | some l =>
        rw [hl] at hm
        dsimp only at hm
        split at hm
        · rename_i hc
          cases hm
          refine ⟨?_, ?_, ?_⟩
          · intro x hx
            rcases List.mem_cons.mp hx with k | k
            · subst k; exact ⟨l, hl, hc⟩
            · obtain ⟨l', h1, h2, h3⟩ := i1 x k
              refine ⟨l', h1, h2, ?_⟩
              unfold Bitmap.set at h3
              split at h3
              · cases h3
              · exact h3
          · rw [List.map_cons]
            refine List.nodup_cons.mpr ⟨fun k => ?_, i2⟩
            obtain ⟨x, hx, e⟩ := List.mem_map.mp k
            obtain ⟨l', h1, _, h3⟩ := i1 x hx
            rw [h1, hl] at e
            simp only [Option.map_some, Option.some.injEq] at e
            unfold Bitmap.set at h3
            rw [if_pos e] at h3
            cases h3
          · intro i
            rw [i3]
            unfold Bitmap.set
            constructor
            · rintro (k | ⟨x, hx, l', h1, h2⟩)
              · split at k
                · rename_i e; exact .inr ⟨a, List.mem_cons_self .., l, hl, e.symm⟩
                · exact .inl k
              · exact .inr ⟨x, List.mem_cons_of_mem _ hx, l', h1, h2⟩
            · rintro (k | ⟨x, hx, l', h1, h2⟩)
              · left; split
                · rfl
                · exact k
              · rcases List.mem_cons.mp hx with k | k
                · subst k
                  rw [hl] at h1; cases h1
                  left; rw [if_pos h2.symm]
                · exact .inr ⟨x, k, l', h1, h2⟩
        · cases hm

/-- **The bitmap read off a table has exactly the blocks in use, and no block is used twice.** -/
theorem initBitmap_eq {s : Tab} (h : s.Inv) {b : Bitmap} (hb : s.initBitmap = some b) :
    (∀ i, b i = true ↔ UsedBy s.view i) ∧ BlockCache.Distinct s.view ∧
    (∀ r l, s.view.locs r = some l → l.addr / nodeBlockSize < numBlocks ∧ minNodeBlockIndex ≤ l.addr / nodeBlockSize) ∧
    (∀ r, s.view.graph r ≠ none → s.view.locs r ≠ none) := by
  obtain ⟨h1, h2, h3⟩ := markLocs_eq s.t hb
  have hloc : ∀ r l, s.view.locs r = some l → ∃ x ∈ s.t, x.1 = r ∧ x.2.loc = some l := by
    intro r l hl
    obtain ⟨e, k1, k2⟩ := Tab.locs_get hl
    exact ⟨(r, e), AList.get_mem k1, rfl, k2⟩
  refine ⟨fun i => ?_, ?_, ?_, ?_⟩
  · rw [h3]
    unfold UsedBy
    rw [decide_eq_true_eq]
    refine or_congr Iff.rfl ⟨?_, ?_⟩
    · rintro ⟨x, hx, l, k1, k2⟩
      refine ⟨x.1, l, ?_, k2⟩
      rw [Tab.view_locs, AList.mem_get h.nodup (k := x.1) (v := x.2) hx]
      exact k1
    · rintro ⟨r, l, k1, k2⟩
      obtain ⟨x, hx, _, k3⟩ := hloc r l k1
      exact ⟨x, hx, l, k3, k2⟩
  · intro r r' l l' k1 k2 k3
    obtain ⟨x, hx, e1, e2⟩ := hloc r l k1
    obtain ⟨y, hy, e3, e4⟩ := hloc r' l' k2
    obtain ⟨i, hi, ei⟩ := List.mem_iff_getElem.mp hx
    obtain ⟨j, hj, ej⟩ := List.mem_iff_getElem.mp hy
    have : i = j := by
      refine (List.getElem_inj (h₀ := by simpa using hi) (h₁ := by simpa using hj) h2).mp ?_
      rw [List.getElem_map, List.getElem_map, ei, ej, e2, e4]
      simp [k3]
    subst this
    rw [ei] at ej
    rw [← e1, ← e3, ej]
  · intro r l k1
    obtain ⟨x, hx, _, e2⟩ := hloc r l k1
    obtain ⟨l', k2, k3, k4⟩ := h1 x hx
    rw [e2] at k2; cases k2
    refine ⟨k3, ?_⟩
    have := of_decide_eq_false k4
    exact Nat.le_of_not_lt this
  · intro r hr hl
    cases hg : s.t.get r with
    | none => exact hr (Tab.graph_none.mpr hg)
    | some e =>
      obtain ⟨l, k1, _⟩ := h1 _ (AList.get_mem hg)
      rw [Tab.view_locs, hg] at hl
      exact absurd (k1.symm.trans hl) (by simp)

end Verif.Kv.IndTable
