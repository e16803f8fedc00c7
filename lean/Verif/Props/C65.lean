import Verif.Kv.IndTableInit
/-
C65. The indirection table of VeriBetrKV counts references exactly: whatever is read from the disk and
whatever operations follow, the reference it offers for deallocation is one nothing points to and not the
root, it offers one whenever there is one, and it finds a node without a place on disk exactly when there
is one.

Specification: a table is a partial map from references to places and a partial map from references to
lists of successors (`Table`, Verif/Kv/BlockDisk.lean); an operation changes it as `after` says. `Garbage` is
the set of references that may be freed. Nothing here mentions counts, queues or iterators.
-/
namespace Verif.C65
open Verif.Kv Verif.Kv.IndTable

/-- The calls the program makes to its table after it has been read. -/
inductive Call where
  /-- a node is written in memory, or allocated: `UpdateAndRemoveLoc` -/
  | update (r : Ref) (succs : List Ref)
  /-- a node is freed: `RemoveRef` -/
  | free (r : Ref)
  /-- a node is written in memory and its children stay the same: `RemoveLoc` -/
  | dropLoc (r : Ref)
  /-- a node has got a place on the disk: `AddLocIfPresent` -/
  | addLoc (r : Ref) (l : Loc)
  /-- `FindRefWithNoLoc` -/
  | find

/-- What a call does to the table. -/
def after (t : Table) : Call → Table
  | .update r ss => ⟨t.locs.remove r, t.graph.insert r ss⟩
  | .free r => ⟨t.locs.remove r, t.graph.remove r⟩
  | .dropLoc r => ⟨t.locs.remove r, t.graph⟩
  | .addLoc r l => if t.graph r ≠ none ∧ t.locs r = none then ⟨t.locs.insert r l, t.graph⟩ else t
  | .find => t

/-- References nothing points to, other than the root. -/
def Garbage (t : Table) (r : Ref) : Prop :=
  t.graph r ≠ none ∧ r ≠ rootRef ∧ ∀ x ss, t.graph x = some ss → r ∉ ss

/-- What the caller has to see to. -/
def Allowed (t : Table) : Call → Prop
  | .update _ ss => ∀ x ∈ ss, t.graph x ≠ none
  | .free r => Garbage t r
  | _ => True

/-- The code of each call. -/
def exec (s : Tab) : Call → Tab
  | .update r ss => (s.update r ss).2
  | .free r => (s.removeRef r).2
  | .dropLoc r => (s.removeLoc r).2
  | .addLoc r l => (s.addLoc r l).2
  | .find => s.findNoLoc.2

/-- A program that makes these calls, as long as each is allowed. -/
inductive Runs : Tab → Table → List Call → Tab → Table → Prop where
  | nil (s : Tab) (t : Table) : Runs s t [] s t
  | cons {s s' : Tab} {t t' : Table} {c : Call} {cs : List Call} : Allowed t c →
      Runs (exec s c) (after t c) cs s' t' → Runs s t (c :: cs) s' t'

theorem exec_inv {s : Tab} (h : s.Inv) (hq : s.queue ≠ none) {c : Call} (ha : Allowed s.view c) :
    (exec s c).Inv ∧ (exec s c).view = after s.view c ∧ (exec s c).queue ≠ none := by
  have some_ne : ∀ q : Option (List Ref), q.isSome = s.queue.isSome → q ≠ none := by
    intro q hq' e
    rw [e] at hq'
    cases hs : s.queue with
    | none => exact hq hs
    | some _ => rw [hs] at hq'; cases hq'
  cases c with
  | update r ss =>
    obtain ⟨h1, h2, _, h4, _⟩ := h.update (r := r) (succs := ss)
      (fun x hx => fun k => ha x hx (Tab.graph_none.mpr k))
    exact ⟨h1, h2, some_ne _ h4⟩
  | free r =>
    obtain ⟨h1, h2, _, h4, _⟩ := h.removeRef ⟨ha.1, ha.2.1, ha.2.2⟩
    exact ⟨h1, h2, some_ne _ h4⟩
  | dropLoc r =>
    refine ⟨h.removeLoc r, (Tab.removeLoc_view r).1, ?_⟩
    show (s.removeLoc r).2.queue ≠ none
    unfold Tab.removeLoc
    split <;> exact hq
  | addLoc r l =>
    refine ⟨h.addLoc r l, (Tab.addLoc_view s r l).1, ?_⟩
    show (s.addLoc r l).2.queue ≠ none
    unfold Tab.addLoc
    split
    · split <;> exact hq
    · exact hq
  | find => exact ⟨h.findNoLoc.1, h.findNoLoc.2.1, hq⟩

theorem runs_inv {s s' : Tab} {t t' : Table} {cs : List Call} (hr : Runs s t cs s' t') (h : s.Inv)
    (hv : s.view = t) (hq : s.queue ≠ none) : s'.Inv ∧ s'.view = t' ∧ s'.queue ≠ none := by
  induction hr with
  | nil => exact ⟨h, hv, hq⟩
  | cons ha _ ih =>
    subst hv
    obtain ⟨h1, h2, h3⟩ := exec_inv h hq ha
    exact ih h1 h2 h3

/-- **The table on disk is accepted** exactly when its root has an entry and so has every successor. -/
theorem read_iff {rows : List TRow} (hn : (rows.map (·.1)).Nodup) :
    ofRows rows ≠ none ↔ ((rowsView rows).graph rootRef ≠ none ∧
      ∀ r ss, (rowsView rows).graph r = some ss → ∀ x ∈ ss, (rowsView rows).graph x ≠ none) := by
  constructor
  · intro h
    cases hs : ofRows rows with
    | none => exact absurd hs h
    | some s =>
      obtain ⟨h1, h2, _⟩ := ofRows_inv hn hs
      have := h1.closed
      rw [h2] at this
      refine ⟨?_, this⟩
      rw [← h2]
      exact fun k => h1.root (Tab.graph_none.mp k)
  · rintro ⟨h1, h2⟩ h
    obtain ⟨s, hs⟩ := ofRows_some hn h1 h2
    rw [h] at hs; cases hs

/-- **The table means what the calls made of it.** -/
theorem table_follows {rows : List TRow} (hn : (rows.map (·.1)).Nodup) {s0 s : Tab}
    (h0 : ofRows rows = some s0) {cs : List Call} {t : Table} (hr : Runs s0 (rowsView rows) cs s t) :
    s.view = t := by
  obtain ⟨h1, h2, h3, _⟩ := ofRows_inv hn h0
  exact (runs_inv hr h1 h2 h3).2.1

/-- **Only garbage is offered.** -/
theorem offers_garbage {rows : List TRow} (hn : (rows.map (·.1)).Nodup) {s0 s : Tab}
    (h0 : ofRows rows = some s0) {cs : List Call} {t : Table} (hr : Runs s0 (rowsView rows) cs s t)
    {r : Ref} (hf : s.findDeallocable = some r) : Garbage t r := by
  obtain ⟨h1, h2, h3, _⟩ := ofRows_inv hn h0
  obtain ⟨k1, k2, _⟩ := runs_inv hr h1 h2 h3
  obtain ⟨d1, d2, d3⟩ := k1.findDeallocable hf
  subst k2
  exact ⟨d1, d2, d3⟩

/-- **All garbage is found**: nothing is offered only if there is none. -/
theorem finds_all_garbage {rows : List TRow} (hn : (rows.map (·.1)).Nodup) {s0 s : Tab}
    (h0 : ofRows rows = some s0) {cs : List Call} {t : Table} (hr : Runs s0 (rowsView rows) cs s t)
    (hf : s.findDeallocable = none) (r : Ref) : ¬ Garbage t r := by
  obtain ⟨h1, h2, h3, _⟩ := ofRows_inv hn h0
  obtain ⟨k1, k2, k3⟩ := runs_inv hr h1 h2 h3
  subst k2
  intro hg
  exact k1.findDeallocable_none k3 hf r ⟨hg.1, hg.2.1, hg.2.2⟩

/-- **The search for a node without a place** finds one, or there is none. -/
theorem finds_unwritten {rows : List TRow} (hn : (rows.map (·.1)).Nodup) {s0 s : Tab}
    (h0 : ofRows rows = some s0) {cs : List Call} {t : Table} (hr : Runs s0 (rowsView rows) cs s t) :
    match s.findNoLoc.1 with
    | some r => t.graph r ≠ none ∧ t.locs r = none
    | none => ∀ r, t.graph r ≠ none → t.locs r ≠ none := by
  obtain ⟨h1, h2, h3, _⟩ := ofRows_inv hn h0
  obtain ⟨k1, k2, _⟩ := runs_inv hr h1 h2 h3
  obtain ⟨_, _, _, f1, f2⟩ := k1.findNoLoc
  subst k2
  split
  · rename_i r e; exact f1 r e
  · rename_i e; exact f2 e

/-- The copy that is frozen for a sync is searched the same way. -/
theorem frozen_finds_unwritten {rows : List TRow} (hn : (rows.map (·.1)).Nodup) {s0 s : Tab}
    (h0 : ofRows rows = some s0) {cs : List Call} {t : Table} (hr : Runs s0 (rowsView rows) cs s t) :
    s.clone.view = t ∧
    match s.clone.findNoLoc.1 with
    | some r => t.graph r ≠ none ∧ t.locs r = none
    | none => ∀ r, t.graph r ≠ none → t.locs r ≠ none := by
  obtain ⟨h1, h2, h3, _⟩ := ofRows_inv hn h0
  obtain ⟨k1, k2, _⟩ := runs_inv hr h1 h2 h3
  obtain ⟨_, _, _, f1, f2⟩ := k1.clone.findNoLoc
  rw [Tab.clone_view, k2] at f1 f2
  refine ⟨k2, ?_⟩
  split
  · rename_i r e; exact f1 r e
  · rename_i e; exact f2 e

/-- **The blocks in use** are read off a table exactly, and no two nodes share one. -/
theorem bitmap_exact {rows : List TRow} (hn : (rows.map (·.1)).Nodup) {s : Tab} {b : Bitmap}
    (h0 : ofRows rows = some s) (hb : s.initBitmap = some b) :
    (∀ i, b i = true ↔ (i < minNodeBlockIndex ∨
      ∃ r l, (rowsView rows).locs r = some l ∧ l.addr / nodeBlockSize = i)) ∧
    ∀ r r' l l', (rowsView rows).locs r = some l → (rowsView rows).locs r' = some l' →
      l.addr = l'.addr → r = r' := by
  obtain ⟨h1, h2, _⟩ := ofRows_inv hn h0
  obtain ⟨k1, k2, _⟩ := initBitmap_eq h1 hb
  rw [← h2]
  exact ⟨k1, k2⟩

/-! ### A case: a root with two children is read; the root forgets one of them, which points to a third -/

def loc (i : Nat) : Loc := ⟨nodeBlockSize * (minNodeBlockIndex + i), 4096⟩

def rows : List TRow := [(0, loc 0, [5, 7]), (5, loc 1, [9]), (7, loc 2, [9]), (9, loc 3, [])]

theorem rows_nodup : (rows.map (·.1)).Nodup := by decide

def s0 : Tab := (ofRows rows).getD ⟨[], none, 0, none⟩

theorem rows_read : ofRows rows = some s0 := by
  have : (ofRows rows).isSome = true := by decide
  unfold s0
  cases h : ofRows rows with
  | none => rw [h] at this; cases this
  | some _ => rfl

def calls : List Call := [.update 0 [7], .free 5, .update 7 [], .addLoc 0 (loc 4)]

example : ∃ s t, Runs s0 (rowsView rows) calls s t ∧ s.findDeallocable = some 9 ∧ s.findNoLoc.1 = some 7 := by
  refine ⟨_, _, .cons ?_ (.cons ?_ (.cons ?_ (.cons trivial (.nil _ _)))), ?_, ?_⟩
  · intro x hx
    have : x = 7 := by simpa using hx
    subst this
    exact fun k => nomatch k
  · refine ⟨(fun k => nomatch k), (by decide), fun x ss hx => ?_⟩
    have h : (fun r => if r = 0 then some [7] else (rowsView rows).graph r) x = some ss := hx
    dsimp only at h
    split at h
    · cases h; decide
    · obtain ⟨e, k1, k2⟩ := Tab.graph_get h
      have := AList.get_mem k1
      have hall : ∀ y ∈ rawRows rows, y.1 ≠ 0 → 5 ∉ y.2.succs := by decide
      rw [← k2]
      exact hall _ this (by assumption)
  · intro x hx; cases hx
  · decide
  · decide

/-- Before the calls nothing is garbage, and nothing is offered. -/
example : s0.findDeallocable = none := by decide

end Verif.C65
