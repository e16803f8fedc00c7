import Verif.Filesys.Demo

/-!
C88.  When the last name of a file is deleted or replaced, the file is gone for good: nothing of it is kept, its number can be used for a
new file, and a new file never shows what another had. No number is lost.

This is false for the code, because of the renames of C85: the file system keeps for ever what was in a directory that was
renamed to a path beneath itself, with no name to reach it by, and its numbers can never be used again (`lost_for_ever`). For all
other histories it is proved (`free_partial`). That a new file is empty holds always (C86).

Specification: a number of a file is free if `Create` can be called with it.
-/

namespace Verif.C88
open Verif.Filesys Classical

/-- The operation is no rename of a path to itself or to a path beneath it. -/
def Proper (o : Op) : Prop := ∀ src dst t, o = .rename src dst t → ¬ ∃ u, dst = src ++ u

theorem proper_iff (o : Op) : Proper o ↔ Sane o := by
  cases o with
  | rename src dst t =>
    simp only [Proper, Sane, under_iff]
    constructor
    · intro h; exact h _ _ _ rfl
    · rintro h _ _ _ ⟨⟩; exact h
  | _ => exact ⟨fun _ => trivial, fun _ _ _ _ => nofun⟩

/-- After any history of proper operations, each number that no path has is free. Missing: the renames of a path to itself or beneath,
after which it is false. -/
theorem free_partial {s : State} {tr : List Op} (h : machine.Exec tr s) (hp : ∀ o ∈ tr, Proper o) {n : Nat}
    (hn : ∀ p, s.pathMap p ≠ .id n) {p : Path} {m : Meta} (hv : ValidNewPath s p) (hm : ValidNewMeta m) :
    Guard s (.create p (.id n) m) := by
  obtain ⟨h1, h2⟩ := Freed.exec h (fun o ho => (proper_iff o).mp (hp o ho)) (.id n) nofun hn
  exact ⟨hv, hm, ⟨nofun, hn⟩, h1, h2⟩

/-- After any history at all: a number that no path has and that is not free never becomes free, and no path ever has it. -/
theorem stays_lost {s s' : State} {tr : List Op} (hr : machine.Run s tr s') {i : ID} (hi : i ≠ .nonexistent)
    (hn : ∀ p, s.pathMap p ≠ i) (hm : s.metaMap i ≠ none) :
    (∀ p, s'.pathMap p ≠ i) ∧ (∀ p m, ¬ Guard s' (.create p i m)) ∧ s'.metaMap i = s.metaMap i ∧ s'.dataMap i = s.dataMap i := by
  induction hr with
  | nil => exact ⟨hn, fun p m hg => hm hg.2.2.2.1, rfl, rfl⟩
  | @cons s o s1 tr s2 hs _ ih =>
    obtain ⟨hg, rfl⟩ := hs
    obtain ⟨h1, h2, h3⟩ := unnamed_step hg hi hn (by rintro p m rfl; exact hm hg.2.2.2.1)
    obtain ⟨h4, h5, h6, h7⟩ := ih h1 (h2 ▸ hm)
    exact ⟨h4, h5, h6.trans h2, h7.trans h3⟩

/-- When a directory is renamed to a new path in itself, every file all of whose names are beneath it is kept and can never again be reached, and
its number is never free again. -/
theorem lost_for_ever {s : State} (h : machine.Reachable s) {p q : Path} {d : Data} (hp : look s p = some (.directory, d))
    {x : PathElement} (hx : look s (p ++ [x]) = none) (t : Int) (hq : PathExists s q)
    (ho : ∀ r, s.pathMap r = s.pathMap q → ∃ u, r = p ++ u) :
    machine.Step s (.rename p (p ++ [x]) t) (next s (.rename p (p ++ [x]) t)) ∧
    ∀ tr s', machine.Run (next s (.rename p (p ++ [x]) t)) tr s' →
      (∀ r, s'.pathMap r ≠ s.pathMap q) ∧ (∀ r m, ¬ Guard s' (.create r (s.pathMap q) m)) ∧
      s'.metaMap (s.pathMap q) ≠ none ∧ s'.dataMap (s.pathMap q) = s.dataMap (s.pathMap q) := by
  have hi := Inv.reachable h
  have he := Demo.exists_of hp
  have hnx := Demo.none_of hi hx
  have hg : Guard s (.rename p (p ++ [x]) t) := by
    refine ⟨he, ?_, .inr ⟨?_, hnx⟩, fun k => absurd hnx k.1⟩
    · rintro ⟨hl, _⟩; simp at hl; omega
    · have : parentDir (p ++ [x]) = p := by simp [parentDir]
      unfold ParentDirIsDir
      rw [this]
      exact ⟨he, (Demo.type_of hp).1⟩
  refine ⟨⟨hg, rfl⟩, fun tr s' hr => ?_⟩
  have hn : ∀ r, (next s (.rename p (p ++ [x]) t)).pathMap r ≠ s.pathMap q := by
    intro r e
    have hr' : pathMapRename s p (p ++ [x]) r ≠ .nonexistent := by
      show (next s (.rename p (p ++ [x]) t)).pathMap r ≠ _
      rw [e]; exact hq.1
    obtain ⟨h1, ⟨u, rfl, _⟩ | ⟨_, h2⟩⟩ := rename_cases hr'
    · exact h1 ⟨[x] ++ u, by simp⟩
    · exact h1 (ho r (h2 ▸ e))
  have hty : ty (next s (.rename p (p ++ [x]) t)) (s.pathMap q) = ty s (s.pathMap q) := by
    rcases ty_rename (s := s) (src := p) (dst := p ++ [x]) (t := t) (s.pathMap q) with e | ⟨e, _, _⟩
    · exact e
    · exact absurd (e.trans hnx) hq.1
  have hm : (next s (.rename p (p ++ [x]) t)).metaMap (s.pathMap q) ≠ none := by
    rw [ne_eq, ← ty_none, hty, ty_none]; exact hq.2
  obtain ⟨h1, h2, h3, h4⟩ := stays_lost hr hq.1 hn hm
  refine ⟨h1, h2, h3 ▸ hm, h4.trans ?_⟩
  show Function.update s.dataMap (s.pathMap (p ++ [x])) _ _ = _
  rw [hnx, Function.update_of_ne hq.1]

/-- The cases are met: in the state with `/a`, `/a/f` and the second name `/g`, made by proper operations, the number 7 is free; and
before there was a second name, all names of the file were beneath `/a`, so that it can be lost. -/
theorem demo : machine.Exec Demo.trace Demo.s4 ∧ (∀ o ∈ Demo.trace, Proper o) ∧ (∀ p, Demo.s4.pathMap p ≠ .id 7) ∧
    ValidNewPath Demo.s4 [[98]] ∧ machine.Reachable Demo.s3 ∧ look Demo.s3 Demo.a = some (.directory, []) ∧
    look Demo.s3 (Demo.a ++ [[98]]) = none ∧ look Demo.s3 Demo.f = some (.file, [104, 105]) ∧
    ∀ r, Demo.s3.pathMap r = Demo.s3.pathMap Demo.f → ∃ u, r = Demo.a ++ u := by
  have h0 : look Demo.s4 [] = some (.directory, []) := by simp [Demo.look4, Demo.a, Demo.f, Demo.g]
  have hc : look Demo.s4 [[98]] = none := by simp [Demo.look4, Demo.a, Demo.f, Demo.g]
  have hf3 : look Demo.s3 Demo.f = some (.file, [104, 105]) := by simp [Demo.look3]
  refine ⟨Demo.run, ?_, ?_, ⟨⟨Demo.exists_of h0, (Demo.type_of h0).1⟩, Demo.none_of Demo.inv4 hc⟩, ?_, ?_, ?_, hf3, ?_⟩
  · intro o ho
    simp only [Demo.trace, List.mem_cons, List.not_mem_nil, or_false] at ho
    rcases ho with rfl | rfl | rfl | rfl <;> exact fun _ _ _ => nofun
  · intro p
    simp only [Demo.s4, Demo.s3, Demo.s2, Demo.s1, next, init, Function.update_apply, Demo.f, Demo.a, Demo.g]
    repeat' split
    all_goals simp_all [rootID]
  · exact ⟨_, init, rfl, .cons ⟨Demo.guard1, rfl⟩ (.cons ⟨Demo.guard2, rfl⟩ (.cons ⟨Demo.guard3, rfl⟩ (.nil _)))⟩
  · simp [Demo.look3, Demo.a, Demo.f]
  · simp [Demo.look3, Demo.a, Demo.f]
  · intro r hr
    have hs : Same Demo.s3 Demo.f r := Demo.inv3.same_iff.mpr ⟨(Demo.exists_of hf3).1, hr.symm⟩
    have hs : Same Demo.s2 Demo.f r := (same_of Demo.inv2 Demo.inv3 rfl).mp hs
    exact ⟨[[102]], (Demo.same2 r).mp hs⟩

end Verif.C88
