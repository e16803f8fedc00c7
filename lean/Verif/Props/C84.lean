import Verif.Filesys.Demo

/-!
C84.  The file system of /repo/Filesys is always one tree of directories: when there is something at a path, each path
above it is a directory; a directory has one name only; and what has a name has metadata, so that
it can be looked at and deleted.

Specification: `GetAttr` is the call a user makes to see whether there is something at a path and of what type it is;
the statements are on the answers it can give.
-/

namespace Verif.C84
open Verif.Filesys

/-- `GetAttr` can answer for this path, with this type. -/
def Shows (s : State) (p : Path) (t : FileType) : Prop := ∃ attr, Guard s (.getAttr p attr) ∧ attr.ftype = t

/-- Everything above what exists is a directory. -/
theorem tree {s : State} (h : machine.Reachable s) {p : Path} {t : FileType} (hp : Shows s p t) {d e : Path} (he : e ≠ [])
    (hd : p = d ++ e) : Shows s d .directory := by
  subst hd
  have hi := Inv.reachable h
  obtain ⟨attr, hg, _⟩ := hp
  have ha := hi.1.above e he hg.1.1
  have hx := hi.exists_iff.mpr (hi.1.dir_ne ha)
  obtain ⟨m, hm, hf⟩ := isDir_iff.mpr ha
  exact ⟨m, ⟨hx, hm⟩, hf⟩

/-- A directory has one name. -/
theorem one_name {s : State} (h : machine.Reachable s) {p q : Path} (hp : Shows s p .directory)
    (hq : s.pathMap q = s.pathMap p) : q = p := by
  obtain ⟨attr, hg, ht⟩ := hp
  exact (Inv.reachable h).1.dirs p q (isDir_iff.mp ⟨attr, hg.2, ht⟩) hq

/-- What has a name can be looked at. -/
theorem named {s : State} (h : machine.Reachable s) {p : Path} (hp : s.pathMap p ≠ .nonexistent) : ∃ t, Shows s p t := by
  have hx := (Inv.reachable h).exists_iff.mpr hp
  cases hm : s.metaMap (s.pathMap p) with
  | none => exact absurd hm hx.2
  | some m => exact ⟨m.ftype, m, ⟨hx, hm⟩, rfl⟩

/-- A listing can only show what can be looked at, with its type. -/
theorem listed {s : State} {dir : Path} {start res done} (hg : Guard s (.readDir dir start res done)) {e : DirEntry}
    (he : e ∈ res) : Shows s e.path e.ftype := by
  obtain ⟨hx, hid, m, hm, ht⟩ := hg.1.2.2.2.2.1 e he
  exact ⟨m, ⟨hx, hid ▸ hm⟩, ht.symm⟩

/-- The cases are met: a state with a file in a directory and a second name for it. -/
theorem demo : machine.Reachable Demo.s4 ∧ Shows Demo.s4 Demo.f .file ∧ Shows Demo.s4 Demo.a .directory ∧
    Demo.f = Demo.a ++ [[102]] ∧ Demo.s4.pathMap Demo.g = Demo.s4.pathMap Demo.f ∧ Demo.g ≠ Demo.f := by
  have hf : look Demo.s4 Demo.f = some (.file, [104, 105]) := by simp [Demo.look4]
  have ha : look Demo.s4 Demo.a = some (.directory, []) := by simp [Demo.look4, Demo.a, Demo.f, Demo.g]
  refine ⟨Demo.reachable, ?_, ?_, rfl, Demo.same4.2.2.symm, by simp [Demo.g, Demo.f]⟩
  · obtain ⟨m, hm, ht⟩ := (Demo.type_of hf).1
    exact ⟨m, ⟨Demo.exists_of hf, hm⟩, ht⟩
  · obtain ⟨m, hm, ht⟩ := (Demo.type_of ha).1
    exact ⟨m, ⟨Demo.exists_of ha, hm⟩, ht⟩

end Verif.C84
