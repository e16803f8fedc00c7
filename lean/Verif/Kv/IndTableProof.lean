import Verif.Kv.IndTable
/-
The reference counts of the indirection table are exact, and its queue holds exactly the references
nothing points to. No code is modelled here.
-/
namespace Verif.Kv.IndTable
open AList (get_set get_set_same get_set_other get_del)

/-- How often a reference occurs in the successor lists of a table. -/
def inDeg (t : AList Ref Entry) (r : Ref) : Nat := AList.sum (fun e => e.succs.count r) t

/-- `IsRoot`, IndirectionTable.i.dfy:113-116 -/
def isRoot (r : Ref) : Nat := if r = rootRef then 1 else 0

namespace Tab

/-- While the counts are brought up to date: `new` are still to be counted, `old` still to be taken off
(`RefcountUpdateInv`, IndirectionTable.i.dfy:458-477). -/
structure Mid (s : Tab) (new old : List Ref) : Prop where
  nodup : s.t.keys.Nodup
  count : ∀ r e, s.t.get r = some e → e.preds + new.count r = inDeg s.t r + isRoot r + old.count r
  queue : ∀ q, s.queue = some q → q.Nodup ∧ ∀ r, r ∈ q ↔ ∃ e, s.t.get r = some e ∧ e.preds = 0
  newIn : ∀ r ∈ new, s.t.get r ≠ none
  oldIn : ∀ r ∈ old, s.t.get r ≠ none

/-- Two tables that differ only in counts and queue. -/
structure Same (s s' : Tab) : Prop where
  entry : ∀ r, (s'.t.get r).map (fun e => (e.loc, e.succs)) = (s.t.get r).map (fun e => (e.loc, e.succs))
  keys : s'.t.keys = s.t.keys
  upper : s'.upper = s.upper
  iter : s'.iter = s.iter
  queue : s'.queue.isSome = s.queue.isSome

theorem Same.refl (s : Tab) : Same s s := ⟨fun _ => rfl, rfl, rfl, rfl, rfl⟩

theorem Same.trans {s s' s'' : Tab} (h : Same s s') (h' : Same s' s'') : Same s s'' :=
  ⟨fun r => (h'.entry r).trans (h.entry r), h'.keys.trans h.keys, h'.upper.trans h.upper,
    h'.iter.trans h.iter, h'.queue.trans h.queue⟩

theorem Same.view {s s' : Tab} (h : Same s s') : s'.view = s.view := by
  unfold Tab.view
  congr 1
  · funext r
    have := h.entry r
    cases h1 : s.t.get r <;> cases h2 : s'.t.get r <;> rw [h1, h2] at this <;> simp at this ⊢
    exact this.1
  · funext r
    have := h.entry r
    cases h1 : s.t.get r <;> cases h2 : s'.t.get r <;> rw [h1, h2] at this <;> simp at this ⊢
    exact this.2

theorem Same.isNone {s s' : Tab} (h : Same s s') (r : Ref) : s'.t.get r = none ↔ s.t.get r = none := by
  have := h.entry r
  cases h1 : s.t.get r <;> cases h2 : s'.t.get r <;> rw [h1, h2] at this <;> simp at this ⊢

theorem inDeg_set {t : AList Ref Entry} {r : Ref} {e e' : Entry} (h : t.get r = some e)
    (hs : e'.succs = e.succs) (x : Ref) : inDeg (t.set r e') x = inDeg t x := by
  unfold inDeg
  have := AList.sum_set (fun e : Entry => e.succs.count x) t r e'
  rw [h] at this
  simp only [Option.map_some, Option.getD_some] at this
  rw [hs] at this
  omega

theorem same_set {s : Tab} {r : Ref} {e e' : Entry} {q : Option (List Ref)} (h : s.t.get r = some e)
    (hl : e'.loc = e.loc) (hs : e'.succs = e.succs) (hq : q.isSome = s.queue.isSome) :
    Same s { s with t := s.t.set r e', queue := q } := by
  refine ⟨fun x => ?_, ?_, rfl, rfl, hq⟩
  · dsimp only
    rw [get_set]
    split
    · rename_i hx; subst hx; rw [h]; simp [hl, hs]
    · rfl
  · dsimp only
    rw [AList.keys_set, if_pos (AList.get_keys.mp (by rw [h]; simp))]

theorem predInc_same (s : Tab) (x : Ref) : Same s (s.predInc x) := by
  unfold predInc
  split
  · rename_i e h
    exact same_set h rfl rfl (by split <;> simp)
  · exact .refl s

theorem predDec_same (s : Tab) (x : Ref) : Same s (s.predDec x) := by
  unfold predDec
  split
  · rename_i e h
    exact same_set h rfl rfl (by split <;> simp)
  · exact .refl s

theorem Mid.inc {s : Tab} {x : Ref} {new old : List Ref} (h : Mid s (x :: new) old) :
    Mid (s.predInc x) new old := by
  cases hx : s.t.get x with
  | none => exact absurd hx (h.newIn x (List.mem_cons_self ..))
  | some e =>
    have hs := predInc_same s x
    have eq : s.predInc x = { s with
      t := s.t.set x { e with preds := e.preds + 1 }
      queue := if e.preds = 0 then s.queue.map (·.erase x) else s.queue } := by
      unfold predInc; rw [hx]
    refine ⟨by rw [hs.keys]; exact h.nodup, ?_, ?_, ?_, ?_⟩
    · intro r e' hr
      rw [eq] at hr ⊢
      dsimp only at hr ⊢
      rw [inDeg_set (e' := { e with preds := e.preds + 1 }) hx rfl]
      rw [get_set] at hr
      split at hr
      · rename_i e1; subst e1
        cases hr
        have := h.count r e hx
        rw [List.count_cons_self] at this
        dsimp only; omega
      · rename_i e1
        have := h.count r e' hr
        rw [List.count_cons_of_ne (fun k => e1 k.symm)] at this
        exact this
    · intro q hq
      rw [eq] at hq ⊢
      dsimp only at hq ⊢
      have aux : ∀ q0, s.queue = some q0 → (∀ r, r ∈ q ↔ r ∈ q0 ∧ r ≠ x) → q.Nodup →
          q.Nodup ∧ ∀ r, r ∈ q ↔ ∃ e', (s.t.set x { e with preds := e.preds + 1 }).get r = some e' ∧
            e'.preds = 0 := by
        intro q0 h0 hm hn
        refine ⟨hn, fun r => ?_⟩
        rw [hm, get_set]
        by_cases hr : r = x
        · subst hr
          rw [if_pos rfl]
          constructor
          · rintro ⟨_, k⟩; exact absurd rfl k
          · rintro ⟨e', k1, k2⟩; cases k1; simp at k2
        · rw [if_neg hr, (h.queue q0 h0).2 r]
          exact ⟨fun k => k.1, fun k => ⟨k, hr⟩⟩
      split at hq
      · rename_i e0
        cases h0 : s.queue with
        | none => rw [h0] at hq; cases hq
        | some q0 =>
          rw [h0] at hq; cases hq
          have hn := (h.queue q0 h0).1
          exact aux q0 h0 (fun r => by rw [hn.mem_erase_iff]; exact And.comm) (hn.erase x)
      · rename_i e0
        refine aux q hq (fun r => ⟨fun k => ⟨k, ?_⟩, fun k => k.1⟩) (h.queue q hq).1
        rintro rfl
        obtain ⟨e', k1, k2⟩ := ((h.queue q hq).2 r).mp k
        rw [hx] at k1; cases k1; exact e0 k2
    · intro r hr
      rw [ne_eq, hs.isNone]
      exact h.newIn r (List.mem_cons_of_mem _ hr)
    · intro r hr
      rw [ne_eq, hs.isNone]
      exact h.oldIn r hr

theorem Mid.dec {s : Tab} {x : Ref} {old : List Ref} (h : Mid s [] (x :: old)) :
    Mid (s.predDec x) [] old := by
  cases hx : s.t.get x with
  | none => exact absurd hx (h.oldIn x (List.mem_cons_self ..))
  | some e =>
    have hs := predDec_same s x
    have eq : s.predDec x = { s with
      t := s.t.set x { e with preds := e.preds - 1 }
      queue := if e.preds = 1 then s.queue.map (qAdd · x) else s.queue } := by
      unfold predDec; rw [hx]
    have hpos : e.preds = inDeg s.t x + isRoot x + (old.count x + 1) := by
      have := h.count x e hx
      rw [List.count_cons_self, List.count_nil] at this
      exact this
    refine ⟨by rw [hs.keys]; exact h.nodup, ?_, ?_, (fun r hr => nomatch hr), ?_⟩
    · intro r e' hr
      rw [eq] at hr ⊢
      dsimp only at hr ⊢
      rw [inDeg_set (e' := { e with preds := e.preds - 1 }) hx rfl]
      rw [get_set] at hr
      split at hr
      · rename_i e1; subst e1
        cases hr
        dsimp only
        rw [List.count_nil]; omega
      · rename_i e1
        have := h.count r e' hr
        rw [List.count_cons_of_ne (fun k => e1 k.symm)] at this
        exact this
    · intro q hq
      rw [eq] at hq ⊢
      dsimp only at hq ⊢
      split at hq
      · rename_i e1
        cases h0 : s.queue with
        | none => rw [h0] at hq; cases hq
        | some q0 =>
          rw [h0] at hq; cases hq
          obtain ⟨hn, hm⟩ := h.queue q0 h0
          have hnx : x ∉ q0 := fun k => by
            obtain ⟨e', k1, k2⟩ := (hm x).mp k
            rw [hx] at k1; cases k1; omega
          have : qAdd q0 x = q0 ++ [x] := by unfold qAdd; rw [if_neg hnx]
          dsimp only
          rw [this]
          refine ⟨List.nodup_append.mpr ⟨hn, by simp, ?_⟩, fun r => ?_⟩
          · intro a ha b hb k
            simp only [List.mem_cons, List.not_mem_nil, or_false] at hb
            subst hb; subst k; exact hnx ha
          · rw [List.mem_append, List.mem_singleton, get_set]
            by_cases hr : r = x
            · subst hr
              rw [if_pos rfl]
              exact ⟨fun _ => ⟨_, rfl, by dsimp only; omega⟩, fun _ => .inr rfl⟩
            · rw [if_neg hr, hm r]
              exact ⟨fun k => k.resolve_right hr, .inl⟩
      · rename_i e1
        obtain ⟨hn, hm⟩ := h.queue q hq
        refine ⟨hn, fun r => ?_⟩
        rw [hm, get_set]
        by_cases hr : r = x
        · subst hr
          rw [if_pos rfl]
          constructor
          · rintro ⟨e', k1, k2⟩
            rw [hx] at k1; cases k1; omega
          · rintro ⟨e', k1, k2⟩
            cases k1
            dsimp only at k2; omega
        · rw [if_neg hr]
    · intro r hr
      rw [ne_eq, hs.isNone]
      exact h.oldIn r (List.mem_cons_of_mem _ hr)

theorem Mid.foldInc {new old : List Ref} {s : Tab} (h : Mid s new old) :
    Mid (new.foldl predInc s) [] old ∧ Same s (new.foldl predInc s) := by
  induction new generalizing s with
  | nil => exact ⟨h, .refl s⟩
  | cons x new ih =>
    obtain ⟨h1, h2⟩ := ih h.inc
    exact ⟨h1, (predInc_same s x).trans h2⟩

theorem Mid.foldDec {old : List Ref} {s : Tab} (h : Mid s [] old) :
    Mid (old.foldl predDec s) [] [] ∧ Same s (old.foldl predDec s) := by
  induction old generalizing s with
  | nil => exact ⟨h, .refl s⟩
  | cons x old ih =>
    obtain ⟨h1, h2⟩ := ih h.dec
    exact ⟨h1, (predDec_same s x).trans h2⟩

theorem Mid.updatePreds {new old : List Ref} {s : Tab} (h : Mid s new old) :
    Mid (s.updatePreds new old) [] [] ∧ Same s (s.updatePreds new old) := by
  obtain ⟨h1, h2⟩ := h.foldInc
  obtain ⟨h3, h4⟩ := h1.foldDec
  exact ⟨h3, h2.trans h4⟩

/-- `Inv`, IndirectionTable.i.dfy:166-191 -/
structure Inv (s : Tab) : Prop where
  nodup : s.t.keys.Nodup
  count : ∀ r e, s.t.get r = some e → e.preds = inDeg s.t r + isRoot r
  queue : ∀ q, s.queue = some q → q.Nodup ∧ ∀ r, r ∈ q ↔ ∃ e, s.t.get r = some e ∧ e.preds = 0
  closed : BlockCache.GraphClosed s.view.graph
  root : s.t.get rootRef ≠ none
  upper : ∀ r, s.t.get r ≠ none → r ≤ s.upper
  iter : ∀ i, s.iter = some i → ∀ x ∈ s.t.take i, x.2.loc ≠ none

theorem Inv.mid {s : Tab} (h : Inv s) : Mid s [] [] :=
  ⟨h.nodup, fun r e he => h.count r e he, h.queue, (fun _ k => nomatch k), (fun _ k => nomatch k)⟩

theorem view_graph (s : Tab) (r : Ref) : s.view.graph r = (s.t.get r).map (·.succs) := rfl

theorem view_locs (s : Tab) (r : Ref) : s.view.locs r = (s.t.get r).bind (·.loc) := rfl

theorem graph_get {s : Tab} {r : Ref} {ss : List Ref} (h : s.view.graph r = some ss) :
    ∃ e, s.t.get r = some e ∧ e.succs = ss := by
  rw [view_graph] at h
  cases he : s.t.get r with
  | none => rw [he] at h; cases h
  | some e => rw [he] at h; cases h; exact ⟨e, rfl, rfl⟩

theorem graph_none {s : Tab} {r : Ref} : s.view.graph r = none ↔ s.t.get r = none := by
  rw [view_graph]; cases s.t.get r <;> simp

theorem locs_get {s : Tab} {r : Ref} {l : Loc} (h : s.view.locs r = some l) :
    ∃ e, s.t.get r = some e ∧ e.loc = some l := by
  rw [view_locs] at h
  cases he : s.t.get r with
  | none => rw [he] at h; cases h
  | some e => rw [he] at h; exact ⟨e, rfl, h⟩

/-! ### The views of the operations -/

theorem clone_view (s : Tab) : s.clone.view = s.view := rfl

theorem hasEmptyLoc_eq (s : Tab) (r : Ref) :
    s.hasEmptyLoc r = true ↔ s.view.graph r ≠ none ∧ s.view.locs r = none := by
  unfold hasEmptyLoc
  rw [view_graph, view_locs]
  cases h : s.t.get r with
  | none => simp
  | some e => cases e.loc <;> simp

theorem removeLoc_view {s : Tab} (r : Ref) :
    (s.removeLoc r).2.view = ⟨s.view.locs.remove r, s.view.graph⟩ ∧ (s.removeLoc r).1 = s.view.locs r := by
  unfold removeLoc
  cases h : s.t.get r with
  | none =>
    refine ⟨?_, by rw [view_locs, h]; rfl⟩
    unfold view
    dsimp only
    congr 1
    funext x
    unfold PMap.remove
    split
    · rename_i e; subst e; rw [h]; rfl
    · rfl
  | some e =>
    refine ⟨?_, by rw [view_locs, h]; rfl⟩
    unfold view
    dsimp only
    congr 1
    · funext x
      rw [get_set]; unfold PMap.remove
      split <;> rfl
    · funext x
      rw [get_set]
      split
      · rename_i k; subst k; rw [h]; rfl
      · rfl

theorem addLoc_view (s : Tab) (r : Ref) (l : Loc) :
    (s.addLoc r l).2.view = BlockCache.assign s.view r l ∧
    ((s.addLoc r l).1 = true ↔ s.view.graph r ≠ none ∧ s.view.locs r = none) := by
  unfold addLoc BlockCache.assign
  cases h : s.t.get r with
  | none =>
    have hg : s.view.graph r = none := graph_none.mpr h
    rw [if_neg (fun k => k.1 hg)]
    exact ⟨rfl, by simp [hg]⟩
  | some e =>
    have hg : s.view.graph r ≠ none := by rw [ne_eq, graph_none, h]; simp
    have hl : s.view.locs r = e.loc := by rw [view_locs, h]; rfl
    by_cases hn : e.loc = none
    · dsimp only
      rw [if_pos hn, if_pos ⟨hg, hl.trans hn⟩]
      refine ⟨?_, by simp [hg, hl, hn]⟩
      unfold view
      dsimp only
      congr 1
      · funext x
        rw [get_set]; unfold PMap.insert
        split <;> rfl
      · funext x
        rw [get_set]
        split
        · rename_i k; subst k; rw [h]; rfl
        · rfl
    · dsimp only
      rw [if_neg hn, if_neg (fun k => hn (hl ▸ k.2))]
      exact ⟨rfl, by simp [hg, hl, hn]⟩

/-! ### The operations keep the invariant -/

theorem Inv.clone {s : Tab} (h : Inv s) : Inv s.clone :=
  ⟨h.nodup, h.count, (fun _ k => nomatch k), h.closed, h.root, h.upper, (fun _ k => nomatch k)⟩

/-- Changing the location of an entry changes nothing else. -/
theorem Inv.setLoc {s : Tab} (h : Inv s) {r : Ref} {e : Entry} {l : Option Loc} {it : Option Nat}
    (hr : s.t.get r = some e)
    (hi : ∀ i, it = some i → ∀ x ∈ (s.t.set r { e with loc := l }).take i, x.2.loc ≠ none) :
    Inv { s with t := s.t.set r { e with loc := l }, iter := it } := by
  have hg : ∀ x e', (s.t.set r { e with loc := l }).get x = some e' →
      ∃ e0, s.t.get x = some e0 ∧ e0.preds = e'.preds ∧ e0.succs = e'.succs := by
    intro x e' hx
    rw [get_set] at hx
    split at hx
    · rename_i k; subst k; cases hx; exact ⟨e, hr, rfl, rfl⟩
    · exact ⟨e', hx, rfl, rfl⟩
  have hg' : ∀ x e0, s.t.get x = some e0 → ∃ e', (s.t.set r { e with loc := l }).get x = some e' ∧
      e0.preds = e'.preds ∧ e0.succs = e'.succs := by
    intro x e0 hx
    rw [get_set]
    split
    · rename_i k; subst k; rw [hr] at hx; cases hx; exact ⟨_, rfl, rfl, rfl⟩
    · exact ⟨e0, hx, rfl, rfl⟩
  have hnone : ∀ x, (s.t.set r { e with loc := l }).get x = none ↔ s.t.get x = none := by
    intro x
    rw [get_set]
    split
    · rename_i k; subst k; rw [hr]; simp
    · exact Iff.rfl
  refine ⟨AList.nodup_set h.nodup _ _, ?_, ?_, ?_, ?_, ?_, hi⟩
  · intro x e' hx
    obtain ⟨e0, k1, k2, _⟩ := hg x e' hx
    dsimp only
    rw [inDeg_set (e' := { e with loc := l }) hr rfl, ← k2]
    exact h.count x e0 k1
  · intro q hq
    obtain ⟨k1, k2⟩ := h.queue q hq
    refine ⟨k1, fun x => ?_⟩
    rw [k2]
    constructor
    · rintro ⟨e0, k3, k4⟩
      obtain ⟨e', k5, k6, _⟩ := hg' x e0 k3
      exact ⟨e', k5, k6 ▸ k4⟩
    · rintro ⟨e', k3, k4⟩
      obtain ⟨e0, k5, k6, _⟩ := hg x e' k3
      exact ⟨e0, k5, k6.trans k4⟩
  · intro x ss hx y hy
    obtain ⟨e', k1, k2⟩ := graph_get hx
    obtain ⟨e0, k3, _, k4⟩ := hg x e' k1
    have := h.closed x e0.succs (by rw [view_graph, k3]; rfl) y (by rw [k4, k2]; exact hy)
    rw [ne_eq, graph_none] at this ⊢
    rw [hnone]; exact this
  · dsimp only; rw [ne_eq, hnone]; exact h.root
  · intro x hx
    dsimp only at hx ⊢
    rw [ne_eq, hnone] at hx
    exact h.upper x hx

theorem Inv.removeLoc {s : Tab} (h : Inv s) (r : Ref) : Inv (s.removeLoc r).2 := by
  unfold Tab.removeLoc
  cases hr : s.t.get r with
  | none => exact h
  | some e => exact h.setLoc hr (fun _ k => nomatch k)

theorem Inv.addLoc {s : Tab} (h : Inv s) (r : Ref) (l : Loc) : Inv (s.addLoc r l).2 := by
  unfold Tab.addLoc
  cases hr : s.t.get r with
  | none => exact h
  | some e =>
    dsimp only
    split
    · refine h.setLoc hr fun i hi x hx => ?_
      rcases AList.set_take (by rw [hr]; simp) _ i x hx with k | k
      · rw [k]; exact fun k => nomatch k
      · exact h.iter i hi x k
    · exact h

/-- `DeallocableRef`, IndirectionTable.i.dfy:368-373 -/
structure Deallocable (s : Tab) (r : Ref) : Prop where
  here : s.view.graph r ≠ none
  notRoot : r ≠ rootRef
  noPreds : ∀ x ss, s.view.graph x = some ss → r ∉ ss

theorem Inv.preds_zero {s : Tab} (h : Inv s) {r : Ref} {e : Entry} (hr : s.t.get r = some e) :
    e.preds = 0 ↔ Deallocable s r := by
  rw [h.count r e hr]
  constructor
  · intro hz
    have h1 : inDeg s.t r = 0 := by omega
    have h2 : isRoot r = 0 := by omega
    refine ⟨by rw [ne_eq, graph_none, hr]; simp, fun k => by subst k; simp [isRoot] at h2, ?_⟩
    intro x ss hx hm
    obtain ⟨e', k1, k2⟩ := graph_get hx
    have := AList.sum_zero h1 k1
    rw [k2] at this
    have := List.count_pos_iff.mpr hm
    omega
  · rintro ⟨_, h2, h3⟩
    have e1 : isRoot r = 0 := if_neg h2
    have e2 : inDeg s.t r = 0 := AList.sum_eq_zero fun x hx => by
      have := AList.mem_get h.nodup (k := x.1) (v := x.2) hx
      exact List.count_eq_zero.mpr (h3 x.1 x.2.succs (by rw [view_graph, this]; rfl))
    omega

/-- **What the queue gives out may be freed.** -/
theorem Inv.findDeallocable {s : Tab} (h : Inv s) {r : Ref} (hf : s.findDeallocable = some r) :
    Deallocable s r := by
  unfold Tab.findDeallocable at hf
  cases hq : s.queue with
  | none => rw [hq] at hf; cases hf
  | some q =>
    rw [hq] at hf
    have hm : r ∈ q := List.mem_of_head? hf
    obtain ⟨e, k1, k2⟩ := ((h.queue q hq).2 r).mp hm
    exact (h.preds_zero k1).mp k2

/-- **If it gives nothing out there is nothing to free.** -/
theorem Inv.findDeallocable_none {s : Tab} (h : Inv s) (hq : s.queue ≠ none)
    (hf : s.findDeallocable = none) (r : Ref) : ¬ Deallocable s r := by
  intro hd
  unfold Tab.findDeallocable at hf
  cases hq' : s.queue with
  | none => exact hq hq'
  | some q =>
    rw [hq'] at hf
    have hq0 : q = [] := List.head?_eq_none_iff.mp hf
    cases hr : s.t.get r with
    | none => exact hd.here (graph_none.mpr hr)
    | some e =>
      have := ((h.queue q hq').2 r).mpr ⟨e, hr, (h.preds_zero hr).mpr hd⟩
      rw [hq0] at this
      cases this

theorem inDeg_del {t : AList Ref Entry} (hn : t.keys.Nodup) {r : Ref} {e : Entry} (h : t.get r = some e)
    (x : Ref) : inDeg (t.del r) x + e.succs.count x = inDeg t x := by
  have := AList.sum_del (fun e : Entry => e.succs.count x) hn r
  rw [h] at this
  exact this

theorem Inv.removeRef_mid {s : Tab} (h : Inv s) {r : Ref} {e : Entry} (hr : s.t.get r = some e)
    (hd : Deallocable s r) :
    Mid { s with t := s.t.del r, queue := s.queue.map (·.erase r) } [] e.succs := by
  refine ⟨AList.nodup_del h.nodup r, ?_, ?_, (fun _ k => nomatch k), ?_⟩
  · intro x e' hx
    dsimp only at hx ⊢
    rw [get_del] at hx
    split at hx
    · cases hx
    · have := inDeg_del h.nodup hr x
      have := h.count x e' hx
      rw [List.count_nil]; omega
  · intro q hq
    dsimp only at hq ⊢
    cases hq' : s.queue with
    | none => rw [hq'] at hq; cases hq
    | some q0 =>
      rw [hq'] at hq; cases hq
      obtain ⟨k1, k2⟩ := h.queue q0 hq'
      refine ⟨k1.erase r, fun x => ?_⟩
      rw [k1.mem_erase_iff, k2, get_del]
      by_cases hx : x = r
      · rw [if_pos hx]
        exact ⟨fun k => absurd hx k.1, fun ⟨_, k, _⟩ => nomatch k⟩
      · rw [if_neg hx]; exact ⟨fun k => k.2, fun k => ⟨hx, k⟩⟩
  · intro x hx
    dsimp only
    rw [get_del]
    have hg : s.view.graph r = some e.succs := by rw [view_graph, hr]; rfl
    rw [if_neg (fun k : x = r => hd.noPreds r e.succs hg (k ▸ hx))]
    have := h.closed r e.succs hg x hx
    rw [ne_eq, graph_none] at this
    exact this

theorem Inv.removeRef {s : Tab} (h : Inv s) {r : Ref} (hd : Deallocable s r) :
    Inv (s.removeRef r).2 ∧ (s.removeRef r).2.view = ⟨s.view.locs.remove r, s.view.graph.remove r⟩ ∧
      (s.removeRef r).1 = s.view.locs r ∧ (s.removeRef r).2.queue.isSome = s.queue.isSome ∧
      (s.removeRef r).2.upper = s.upper ∧ (s.removeRef r).2.t.length ≤ s.t.length := by
  cases hr : s.t.get r with
  | none => exact absurd (graph_none.mpr hr) hd.here
  | some e =>
    obtain ⟨hm, hs⟩ := (h.removeRef_mid hr hd).updatePreds
    have eq : s.removeRef r = (e.loc, { Tab.updatePreds { s with t := s.t.del r, queue := s.queue.map (·.erase r) } [] e.succs with iter := none }) := by
      unfold Tab.removeRef; rw [hr]
    rw [eq]
    dsimp only
    generalize hs1 : Tab.updatePreds { s with t := s.t.del r, queue := s.queue.map (·.erase r) } [] e.succs = s1 at hm hs ⊢
    have hv : ({ s1 with iter := none } : Tab).view = ⟨s.view.locs.remove r, s.view.graph.remove r⟩ := by
      have e1 : ({ s1 with iter := none } : Tab).view = s1.view := rfl
      rw [e1, hs.view]
      unfold view
      dsimp only
      congr 1 <;>
      · funext x
        rw [get_del]; unfold PMap.remove
        split <;> rfl
    have hnone : ∀ x, s1.t.get x = none ↔ (x = r ∨ s.t.get x = none) := by
      intro x
      rw [hs.isNone]
      dsimp only
      rw [get_del]
      by_cases k : x = r <;> simp [k]
    refine ⟨⟨hm.nodup, fun x e' hx => hm.count x e' hx, hm.queue, ?_, ?_, ?_, (fun _ k => nomatch k)⟩, hv, ?_, ?_, ?_, ?_⟩
    · rw [hv]
      intro x ss hx y hy
      dsimp only [PMap.remove] at hx ⊢
      split at hx
      · cases hx
      · rw [if_neg (fun k : y = r => hd.noPreds x ss hx (k ▸ hy))]
        exact h.closed x ss hx y hy
    · dsimp only
      rw [ne_eq, hnone]
      exact fun k => k.elim (fun k => hd.notRoot k.symm) h.root
    · intro x hx
      dsimp only at hx ⊢
      rw [ne_eq, hnone] at hx
      rw [hs.upper]
      exact h.upper x (fun k => hx (.inr k))
    · rw [view_locs, hr]; rfl
    · rw [hs.queue]; simp
    · rw [hs.upper]
    · rw [← AList.length_keys, hs.keys, AList.length_keys]
      exact AList.length_del_le ..

theorem Inv.update_mid {s : Tab} (h : Inv s) {r : Ref} {succs : List Ref}
    (hs : ∀ x ∈ succs, s.t.get x ≠ none) :
    Mid { s with
      t := s.t.set r ⟨none, succs, ((s.t.get r).map (·.preds)).getD 0⟩
      queue := if (s.t.get r).isNone then s.queue.map (qAdd · r) else s.queue } succs
      (((s.t.get r).map (·.succs)).getD []) := by
  have hin : ∀ x, s.t.get x ≠ none →
      (s.t.set r ⟨none, succs, ((s.t.get r).map (·.preds)).getD 0⟩).get x ≠ none := by
    intro x hx
    rw [get_set]
    split
    · simp
    · exact hx
  have hdeg : ∀ x, inDeg (s.t.set r ⟨none, succs, ((s.t.get r).map (·.preds)).getD 0⟩) x +
      (((s.t.get r).map (·.succs)).getD []).count x = inDeg s.t x + succs.count x := by
    intro x
    have := AList.sum_set (fun e : Entry => e.succs.count x) s.t r
      ⟨none, succs, ((s.t.get r).map (·.preds)).getD 0⟩
    unfold inDeg
    cases hr : s.t.get r with
    | none => rw [hr] at this; simpa using this
    | some e => rw [hr] at this; simpa using this
  refine ⟨AList.nodup_set h.nodup _ _, ?_, ?_, ?_, ?_⟩
  · intro x e' hx
    dsimp only at hx ⊢
    have hd := hdeg x
    rw [get_set] at hx
    split at hx
    · rename_i k; subst k; cases hx
      dsimp only
      cases hr : s.t.get x with
      | none =>
        rw [hr] at hd
        simp only [Option.map_none, Option.getD_none, List.count_nil] at hd ⊢
        have h1 : isRoot x = 0 := if_neg (fun k : x = rootRef => h.root (k ▸ hr))
        have h2 : inDeg s.t x = 0 := AList.sum_eq_zero fun y hy => by
          have := AList.mem_get h.nodup (k := y.1) (v := y.2) hy
          refine List.count_eq_zero.mpr fun hm => ?_
          have := h.closed y.1 y.2.succs (by rw [view_graph, this]; rfl) x hm
          exact this (graph_none.mpr hr)
        omega
      | some e =>
        rw [hr] at hd
        have := h.count x e hr
        simp only [Option.map_some, Option.getD_some] at hd ⊢
        omega
    · have := h.count x e' hx
      omega
  · intro q hq
    dsimp only at hq ⊢
    cases hr : s.t.get r with
    | none =>
      rw [hr] at hq
      simp only [Option.isNone_none, if_true] at hq
      cases hq' : s.queue with
      | none => rw [hq'] at hq; cases hq
      | some q0 =>
        rw [hq'] at hq; cases hq
        obtain ⟨k1, k2⟩ := h.queue q0 hq'
        have hnr : r ∉ q0 := fun k => by
          obtain ⟨e', k3, _⟩ := (k2 r).mp k
          rw [hr] at k3; cases k3
        have e1 : qAdd q0 r = q0 ++ [r] := by unfold qAdd; rw [if_neg hnr]
        dsimp only
        rw [e1]
        refine ⟨List.nodup_append.mpr ⟨k1, by simp, ?_⟩, fun x => ?_⟩
        · intro a ha b hb k
          simp only [List.mem_cons, List.not_mem_nil, or_false] at hb
          subst hb; subst k; exact hnr ha
        · rw [List.mem_append, List.mem_singleton, get_set]
          by_cases hx : x = r
          · subst hx
            rw [if_pos rfl]
            exact ⟨fun _ => ⟨_, rfl, rfl⟩, fun _ => .inr rfl⟩
          · rw [if_neg hx, k2 x]
            exact ⟨fun k => k.resolve_right hx, .inl⟩
    | some e =>
      rw [hr] at hq
      simp only [Option.isNone_some, Bool.false_eq_true, if_false] at hq
      obtain ⟨k1, k2⟩ := h.queue q hq
      refine ⟨k1, fun x => ?_⟩
      rw [k2, get_set]
      by_cases hx : x = r
      · subst hx
        rw [if_pos rfl, hr]
        constructor
        · rintro ⟨e', k3, k4⟩; cases k3; exact ⟨_, rfl, k4⟩
        · rintro ⟨e', k3, k4⟩; cases k3; exact ⟨_, rfl, k4⟩
      · rw [if_neg hx]
  · intro x hx; exact hin x (hs x hx)
  · intro x hx
    refine hin x ?_
    cases hr : s.t.get r with
    | none => rw [hr] at hx; cases hx
    | some e =>
      rw [hr] at hx
      have := h.closed r e.succs (by rw [view_graph, hr]; rfl) x hx
      rw [ne_eq, graph_none] at this
      exact this

theorem Inv.update {s : Tab} (h : Inv s) {r : Ref} {succs : List Ref}
    (hs : ∀ x ∈ succs, s.t.get x ≠ none) :
    Inv (s.update r succs).2 ∧ (s.update r succs).2.view = ⟨s.view.locs.remove r, s.view.graph.insert r succs⟩ ∧
      (s.update r succs).1 = s.view.locs r ∧ (s.update r succs).2.queue.isSome = s.queue.isSome ∧
      (s.update r succs).2.t.length ≤ s.t.length + (if s.t.get r = none then 1 else 0) := by
  obtain ⟨hm, hsm⟩ := (h.update_mid (r := r) hs).updatePreds
  unfold Tab.update
  dsimp only
  generalize hs0 : ({ s with
      t := s.t.set r ⟨none, succs, ((s.t.get r).map (·.preds)).getD 0⟩
      queue := if (s.t.get r).isNone then s.queue.map (qAdd · r) else s.queue } : Tab) = s0 at hm hsm ⊢
  generalize hs1 : s0.updatePreds succs (((s.t.get r).map (·.succs)).getD []) = s1 at hm hsm ⊢
  have hv0 : s0.view = ⟨s.view.locs.remove r, s.view.graph.insert r succs⟩ := by
    rw [← hs0]
    unfold view
    dsimp only
    congr 1
    · funext x
      rw [get_set]; unfold PMap.remove
      split <;> rfl
    · funext x
      rw [get_set]; unfold PMap.insert
      split <;> rfl
  have hv : s1.view = ⟨s.view.locs.remove r, s.view.graph.insert r succs⟩ := by rw [hsm.view, hv0]
  have hnone : ∀ x, s1.t.get x = none ↔ (x ≠ r ∧ s.t.get x = none) := by
    intro x
    rw [← graph_none, hv]
    dsimp only [PMap.insert]
    by_cases k : x = r
    · rw [if_pos k]; simp [k]
    · rw [if_neg k, graph_none]; simp [k]
  have hup : s1.upper = s.upper := by rw [hsm.upper, ← hs0]
  refine ⟨⟨hm.nodup, fun x e' hx => hm.count x e' hx, hm.queue, ?_, ?_, ?_, (fun _ k => nomatch k)⟩, hv, ?_, ?_, ?_⟩
  · have e1 : ∀ u, ({ s1 with upper := u, iter := none } : Tab).view = s1.view := fun _ => rfl
    rw [e1, hv]
    intro x ss hx y hy
    have key : s.view.graph y ≠ none → (s.view.graph.insert r succs) y ≠ none := by
      intro k
      unfold PMap.insert
      split
      · simp
      · exact k
    dsimp only [PMap.insert] at hx
    split at hx
    · cases hx
      exact key (by rw [ne_eq, graph_none]; exact hs y hy)
    · exact key (h.closed x ss hx y hy)
  · dsimp only
    rw [ne_eq, hnone]
    exact fun k => h.root k.2
  · intro x hx
    dsimp only at hx ⊢
    rw [ne_eq, hnone] at hx
    rw [hup]
    by_cases k : x = r
    · subst k
      by_cases k2 : s.upper < x
      · rw [if_pos k2]; exact Nat.le_refl _
      · rw [if_neg k2]; exact Nat.le_of_not_lt k2
    · have k1 := h.upper x (fun k' => hx ⟨k, k'⟩)
      by_cases k2 : s.upper < r
      · rw [if_pos k2]; exact Nat.le_of_lt (Nat.lt_of_le_of_lt k1 k2)
      · rw [if_neg k2]; exact k1
  · rfl
  · rw [hsm.queue, ← hs0]; dsimp only; split <;> simp
  · rw [← AList.length_keys, hsm.keys, AList.length_keys, ← hs0]
    dsimp only
    split
    · exact AList.length_set_le ..
    · rename_i k; rw [AList.length_set_mem k]; exact Nat.le_refl _

theorem Inv.findNoLoc {s : Tab} (h : Inv s) :
    Inv s.findNoLoc.2 ∧ s.findNoLoc.2.view = s.view ∧ s.findNoLoc.2.t = s.t ∧
    (∀ r, s.findNoLoc.1 = some r → s.view.graph r ≠ none ∧ s.view.locs r = none) ∧
    (s.findNoLoc.1 = none → ∀ r, s.view.graph r ≠ none → s.view.locs r ≠ none) := by
  unfold Tab.findNoLoc
  dsimp only
  generalize hi : s.iter.getD 0 = i
  have hpre : ∀ x ∈ s.t.take i, x.2.loc ≠ none := by
    cases hit : s.iter with
    | none => rw [hit] at hi; subst hi; intro x hx; simp at hx
    | some j => rw [hit] at hi; cases hi; exact h.iter _ hit
  generalize hw : (s.t.drop i).takeWhile (fun x => x.2.loc.isSome) = w
  have hall : ∀ x ∈ w, x.2.loc ≠ none := by
    intro x hx
    rw [← hw] at hx
    have := List.all_eq_true.mp (List.all_takeWhile (p := fun x : Ref × Entry => x.2.loc.isSome) (l := s.t.drop i)) x hx
    exact Option.isSome_iff_ne_none.mp this
  have hsplit : s.t.drop i = w ++ (s.t.drop i).dropWhile (fun x => x.2.loc.isSome) := by
    rw [← hw]; exact (List.takeWhile_append_dropWhile).symm
  have hjpre : ∀ x ∈ s.t.take (i + w.length), x.2.loc ≠ none := by
    intro x hx
    rw [List.take_add] at hx
    rcases List.mem_append.mp hx with k | k
    · exact hpre x k
    · rw [hsplit, List.take_left' rfl] at k; exact hall x k
  have hj : s.t[i + w.length]? = ((s.t.drop i).dropWhile (fun x => x.2.loc.isSome)).head? := by
    rw [← List.getElem?_drop, hsplit, List.getElem?_append_right (Nat.le_refl _), Nat.sub_self,
      List.head?_eq_getElem?]
    rw [← hsplit]
  refine ⟨⟨h.nodup, h.count, h.queue, h.closed, h.root, h.upper, ?_⟩, rfl, rfl, ?_, ?_⟩
  · intro j hj' x hx; cases hj'; exact hjpre x hx
  · intro r hr
    rw [hj] at hr
    cases hd : (s.t.drop i).dropWhile (fun x => x.2.loc.isSome) with
    | nil => rw [hd] at hr; cases hr
    | cons a l =>
      rw [hd] at hr
      cases hr
      have ha : ¬ (a.2.loc.isSome = true) := by
        have := List.head?_dropWhile_not (p := fun x : Ref × Entry => x.2.loc.isSome) (l := s.t.drop i)
        rw [hd] at this
        simpa using this
      have hmem : a ∈ s.t := by
        refine List.mem_of_mem_drop (i := i) ?_
        rw [hsplit, hd]; simp
      have hg := AList.mem_get h.nodup (k := a.1) (v := a.2) hmem
      rw [view_graph, view_locs, hg]
      refine ⟨by simp, ?_⟩
      simpa using ha
  · intro hn r hr hl
    rw [hj] at hn
    have hd : (s.t.drop i).dropWhile (fun x => x.2.loc.isSome) = [] := by
      cases hd : (s.t.drop i).dropWhile (fun x => x.2.loc.isSome) with
      | nil => rfl
      | cons a l => rw [hd] at hn; cases hn
    rw [hd, List.append_nil] at hsplit
    cases hg : s.t.get r with
    | none => exact hr (graph_none.mpr hg)
    | some e =>
      have hm := AList.get_mem hg
      have : e.loc = none := by rw [view_locs, hg] at hl; exact hl
      rw [← List.take_append_drop i s.t, hsplit] at hm
      rcases List.mem_append.mp hm with k | k
      · exact hpre _ k this
      · exact hall _ k this

end Tab
end Verif.Kv.IndTable
