import Verif.Filesys.Freed

/-!
A file system with a directory `/a`, a file `/a/f` that says "hi", and a second name `/g` for it.
-/

namespace Verif.Filesys.Demo
open Classical

def a : Path := [[97]]
def f : Path := [[97], [102]]
def g : Path := [[103]]

def dirMeta : Meta := ⟨.directory, 755, 0, 0, 1, 1, 1⟩
def fileMeta : Meta := ⟨.file, 644, 0, 0, 2, 2, 2⟩

theorem exists_of {s : State} {p : Path} {x} (h : look s p = some x) : PathExists s p := look_some.mp (by simp [h])

theorem type_of {s : State} {p : Path} {t d} (h : look s p = some (t, d)) :
    (∃ m, s.metaMap (s.pathMap p) = some m ∧ m.ftype = t) ∧ s.dataMap (s.pathMap p) = d := by
  have hx := exists_of h
  simp only [look, if_pos hx, Option.map_eq_some_iff, Prod.mk.injEq] at h
  obtain ⟨m, hm, ht, hd⟩ := h
  exact ⟨⟨m, hm, ht⟩, hd⟩

theorem none_of {s : State} (hi : Inv s) {p : Path} (h : look s p = none) : s.pathMap p = .nonexistent := by
  by_contra e
  have := look_some.mpr (hi.exists_iff.mpr e)
  simp [h] at this

noncomputable def s1 : State := next init (.create a (.id 1) dirMeta)
noncomputable def s2 : State := next s1 (.create f (.id 2) fileMeta)
noncomputable def s3 : State := next s2 (.write f 0 [104, 105] 3)
noncomputable def s4 : State := next s3 (.link f g 4)

theorem look0 (x : Path) : look init x = if x = [] then some (.directory, []) else none := by
  rw [look_eq]
  by_cases h : x = []
  · simp [init, ty, rootDir, h, rootID, initRootMeta]
  · simp [init, rootDir, h]

theorem guard1 : Guard init (.create a (.id 1) dirMeta) := by
  have h0 := look0 []
  refine ⟨⟨⟨exists_of h0, (type_of h0).1⟩, none_of Inv.init (by simp [look0, a])⟩, ⟨rfl, rfl⟩, ⟨nofun, ?_⟩, ?_, rfl⟩
  · intro q
    simp only [init]; split <;> simp [rootID]
  · simp [init, rootID]

theorem look1 (x : Path) : look s1 x =
    if x = a then some (.directory, []) else if x = [] then some (.directory, []) else none := by
  rw [s1, create_look guard1, look0]; rfl

theorem guard2 : Guard s1 (.create f (.id 2) fileMeta) := by
  have h0 := look1 a
  refine ⟨⟨⟨exists_of h0, (type_of h0).1⟩, none_of (Inv.init.step guard1) ?_⟩, ⟨rfl, rfl⟩, ⟨nofun, ?_⟩, ?_, rfl⟩
  · show look s1 f = none
    simp [look1, a, f]
  · intro q
    simp only [s1, next, init, Function.update_apply]; split
    · simp
    · split <;> simp [rootID]
  · simp [s1, next, init, rootID, parentDir, a, rootDir]

theorem inv2 : Inv s2 := (Inv.init.step guard1).step guard2

theorem look2 (x : Path) : look s2 x =
    if x = f then some (.file, []) else if x = a then some (.directory, []) else if x = [] then some (.directory, []) else none := by
  rw [s2, create_look guard2, look1]; rfl

theorem guard3 : Guard s2 (.write f 0 [104, 105] 3) := by
  have h0 := look2 f
  rw [if_pos rfl] at h0
  exact ⟨exists_of h0, (type_of h0).1, Nat.zero_le _⟩

theorem same2 (x : Path) : Same s2 f x ↔ x = f := by
  rw [s2, create_same (s := s1) (Inv.init.step guard1) guard2]
  simp

theorem inv3 : Inv s3 := inv2.step guard3

theorem look3 (x : Path) : look s3 x =
    if x = f then some (.file, [104, 105]) else if x = a then some (.directory, []) else if x = [] then some (.directory, []) else none := by
  have h0 := look2 f
  rw [if_pos rfl] at h0
  obtain ⟨⟨m, hm, hf⟩, hd⟩ := type_of h0
  have := data_look (s' := s3) inv2 (p := f) rfl (ty_same (ty_map (s := s2) _ fun _ => rfl)) _ rfl
    (exists_of h0) (by simp [ty, hm, hf]) x
  rw [this, hd, look2]
  simp only [same2]
  split
  · simp [dataWrite]
  · rfl

theorem guard4 : Guard s3 (.link f g 4) := by
  have h0 := look3 f
  have h1 := look3 []
  rw [if_pos rfl] at h0
  simp only [f, a, if_true] at h1
  have h1 : look s3 [] = some (.directory, []) := by simpa using h1
  refine ⟨exists_of h0, ⟨⟨exists_of h1, (type_of h1).1⟩, none_of inv3 ?_⟩, ?_⟩
  · simp [look3, f, g, a]
  · rintro ⟨m, hm, hf⟩
    obtain ⟨⟨m', hm', hf'⟩, _⟩ := type_of h0
    rw [hm] at hm'
    cases hm'
    rw [hf] at hf'
    cases hf'

theorem inv4 : Inv s4 := inv3.step guard4

theorem look4 (x : Path) : look s4 x =
    if x = g then some (.file, [104, 105]) else
    if x = f then some (.file, [104, 105]) else if x = a then some (.directory, []) else if x = [] then some (.directory, []) else none := by
  rw [s4, (link_moves inv3 guard4).look]
  by_cases e : x = g
  · simp [e, look3]
  · simp [e, look3]

theorem same4 : Same s4 f g := by
  rw [s4, (link_moves inv3 guard4).same]
  refine ⟨f, f, by simp [f, g], by simp, ?_⟩
  rw [inv3.same_iff]
  refine ⟨?_, rfl⟩
  exact (exists_of ((look3 f).trans (if_pos rfl))).1

def trace : List Op :=
  [.create a (.id 1) dirMeta, .create f (.id 2) fileMeta, .write f 0 [104, 105] 3, .link f g 4]

theorem run : machine.Exec trace s4 :=
  ⟨init, rfl, .cons ⟨guard1, rfl⟩ (.cons ⟨guard2, rfl⟩ (.cons ⟨guard3, rfl⟩ (.cons ⟨guard4, rfl⟩ (.nil _))))⟩

theorem reachable : machine.Reachable s4 := ⟨_, run⟩

end Verif.Filesys.Demo
