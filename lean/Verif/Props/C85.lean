import Verif.Filesys.Demo

/-!
C85.  Renaming a path moves what is at it and beneath it to the new path, changes nothing else, and loses
nothing but what it replaces.

This is false for the code: the test in `Rename` (FileSystem.s.dfy:200) forbids that the new path is above the old one, but not that
it is the same or beneath it. A file renamed to itself is gone (`onto_itself`); a directory renamed to a path in itself is gone with all
that is in it (`beneath_itself`); and when the root is renamed, nothing is left and nothing can be done any more (`root_ends`).
`moves_partial` is the claim for all other renames.

Specification: `look` (the type and contents found at a path), `Same` (two paths name one file), and `Moved` below.
-/

namespace Verif.C85
open Verif.Filesys Classical

/-- What is at and beneath `src` is found at and beneath `dst` and no longer at its old path; all else stays. -/
structure Moved (s s' : State) (src dst : Path) : Prop where
  there : ∀ t, look s' (dst ++ t) = look s (src ++ t)
  gone : ∀ t, (¬ ∃ u, src ++ t = dst ++ u) → look s' (src ++ t) = none
  rest : ∀ q, (¬ ∃ u, q = src ++ u) → (¬ ∃ u, q = dst ++ u) → look s' q = look s q
  same : ∀ a b, (¬ ∃ u, a = src ++ u) → (¬ ∃ u, a = dst ++ u) → (¬ ∃ u, b = src ++ u) → (¬ ∃ u, b = dst ++ u) →
    (Same s' a b ↔ Same s a b)
  same_there : ∀ t a, (¬ ∃ u, a = src ++ u) → (¬ ∃ u, a = dst ++ u) → (Same s' (dst ++ t) a ↔ Same s (src ++ t) a)

theorem apart {s : State} {src dst : Path} {t : Int} (hg : Guard s (.rename src dst t)) (hs : ¬ ∃ u, dst = src ++ u)
    (u v : Path) : dst ++ u ≠ src ++ v := by
  intro e
  rcases List.append_eq_append_iff.mp e with ⟨w, h1, _⟩ | ⟨w, h1, _⟩
  · by_cases hw : w = []
    · exact hs ⟨[], by simp [h1, hw]⟩
    · exact hg.2.1 (beneath_iff.mpr ⟨w, hw, h1⟩)
  · exact hs ⟨w, h1⟩

/-- A rename to a path that is neither the old one nor beneath it moves what it should, and nothing else. Missing: the
renames of a path to itself and to a path beneath it, which the code allows and which lose all that is there. -/
theorem moves_partial {s : State} (h : machine.Reachable s) {src dst : Path} {t : Int} (hg : Guard s (.rename src dst t))
    (hs : ¬ ∃ u, dst = src ++ u) : Moved s (next s (.rename src dst t)) src dst := by
  have hm := rename_moves (Inv.reachable h) hg
  have hd : ∀ u, renamed src dst (dst ++ u) = some (src ++ u) := by
    intro u
    unfold renamed
    rw [if_neg (fun ⟨v, e⟩ => apart hg hs u v e), if_pos ⟨u, rfl⟩]; simp
  have ho : ∀ q, (¬ ∃ u, q = src ++ u) → (¬ ∃ u, q = dst ++ u) → renamed src dst q = some q := by
    intro q h1 h2
    unfold renamed
    rw [if_neg h1, if_neg h2]
  refine ⟨?_, ?_, ?_, ?_, ?_⟩
  · intro u; rw [hm.look, hd]; rfl
  · intro u _
    rw [hm.look, renamed, if_pos ⟨u, rfl⟩]; rfl
  · intro q h1 h2; rw [hm.look, ho q h1 h2]; rfl
  · intro a b h1 h2 h3 h4
    rw [hm.same, ho a h1 h2, ho b h3 h4]
    simp
  · intro u a h1 h2
    rw [hm.same, hd, ho a h1 h2]
    simp

/-- Any rename: what the code does to what is seen. Nothing is left at or beneath the old path. -/
theorem old_gone {s : State} (h : machine.Reachable s) {src dst : Path} {t : Int} (hg : Guard s (.rename src dst t))
    (u : Path) : look (next s (.rename src dst t)) (src ++ u) = none := by
  rw [(rename_moves (Inv.reachable h) hg).look, renamed, if_pos ⟨u, rfl⟩]; rfl

/-- A file may be renamed to its own path, and is then gone. -/
theorem onto_itself {s : State} (h : machine.Reachable s) {p : Path} {d : Data} (hp : look s p = some (.file, d)) (t : Int) :
    Guard s (.rename p p t) ∧ look (next s (.rename p p t)) p = none := by
  have hx := Demo.exists_of hp
  have hg : Guard s (.rename p p t) := by
    refine ⟨hx, fun hb => by simp [BeneathDir] at hb, .inl hx, fun _ => ⟨Iff.rfl, ?_⟩⟩
    rintro ⟨m, hm, hf⟩
    obtain ⟨⟨m', hm', hf'⟩, _⟩ := Demo.type_of hp
    rw [hm] at hm'
    cases hm'
    rw [hf] at hf'
    cases hf'
  exact ⟨hg, by simpa using old_gone h hg []⟩

/-- A directory may be renamed to a new path in itself, and is then gone with all that is beneath it. -/
theorem beneath_itself {s : State} (h : machine.Reachable s) {p : Path} {d : Data} (hp : look s p = some (.directory, d))
    {x : PathElement} (hx : look s (p ++ [x]) = none) (t : Int) :
    Guard s (.rename p (p ++ [x]) t) ∧ ∀ u, look (next s (.rename p (p ++ [x]) t)) (p ++ u) = none := by
  have hi := Inv.reachable h
  have he := Demo.exists_of hp
  have hn := Demo.none_of hi hx
  have hg : Guard s (.rename p (p ++ [x]) t) := by
    refine ⟨he, ?_, .inr ⟨?_, hn⟩, fun k => absurd hn k.1⟩
    · rintro ⟨hl, _⟩; simp at hl; omega
    · have : parentDir (p ++ [x]) = p := by simp [parentDir]
      unfold ParentDirIsDir
      rw [this]
      exact ⟨he, (Demo.type_of hp).1⟩
  exact ⟨hg, old_gone h hg⟩

/-- The root may be renamed. After that there is nothing in the file system, and nothing but `stutter` can ever be done. -/
theorem root_ends {s : State} (h : machine.Reachable s) {d : Data} (hp : look s [] = some (.directory, d))
    {x : PathElement} (hx : look s [x] = none) (t : Int) :
    Guard s (.rename [] [x] t) ∧ (∀ q, look (next s (.rename [] [x] t)) q = none) ∧
      ∀ tr s', machine.Run (next s (.rename [] [x] t)) tr s' → ∀ o ∈ tr, o = .stutter := by
  obtain ⟨hg, hl⟩ := beneath_itself (p := []) h hp (x := x) hx t
  refine ⟨hg, hl, ?_⟩
  have hi := (Inv.reachable h).step hg
  have hP : ∀ q, (next s (.rename [] [x] t)).pathMap q = .nonexistent := fun q => Demo.none_of hi (hl q)
  generalize next s (.rename [] [x] t) = s1 at hP
  intro tr s' hr
  induction hr with
  | nil => simp
  | @cons s1 o s2 tr s3 hs _ ih =>
    have ho : o = .stutter := by
      have hno : ∀ q, ¬ PathExists s1 q := fun q k => k.1 (hP q)
      have hg := hs.1
      cases o with
      | stutter => rfl
      | create => exact absurd hg.1.1.1 (hno _)
      | delete => exact absurd hg.2.1 (hno _)
      | changeAttr | updateTime => exact absurd hg (hno _)
      | readDir => exact absurd hg.1.1 (hno _)
      | getAttr | readLink | rename | link | truncate | read | write => exact absurd hg.1 (hno _)
    subst ho
    have e : s2 = s1 := hs.2
    subst e
    intro o ho
    rcases List.mem_cons.mp ho with rfl | ho
    · rfl
    · exact ih hP o ho

/-- The claim is false for some renames that the code allows, of each of the three kinds. -/
theorem not_always : machine.Reachable Demo.s4 ∧
    (∃ t, Guard Demo.s4 (.rename Demo.f Demo.f t) ∧ ¬ Moved Demo.s4 (next Demo.s4 (.rename Demo.f Demo.f t)) Demo.f Demo.f) ∧
    (∃ t, Guard Demo.s4 (.rename Demo.a (Demo.a ++ [[98]]) t) ∧
      ¬ Moved Demo.s4 (next Demo.s4 (.rename Demo.a (Demo.a ++ [[98]]) t)) Demo.a (Demo.a ++ [[98]])) ∧
    (∃ t, Guard Demo.s4 (.rename [] [[98]] t) ∧ ¬ Moved Demo.s4 (next Demo.s4 (.rename [] [[98]] t)) [] [[98]]) := by
  have hf : look Demo.s4 Demo.f = some (.file, [104, 105]) := by simp [Demo.look4]
  have ha : look Demo.s4 Demo.a = some (.directory, []) := by simp [Demo.look4, Demo.a, Demo.f, Demo.g]
  have h0 : look Demo.s4 [] = some (.directory, []) := by simp [Demo.look4, Demo.a, Demo.f, Demo.g]
  have hb : look Demo.s4 (Demo.a ++ [[98]]) = none := by simp [Demo.look4, Demo.a, Demo.f, Demo.g]
  have hc : look Demo.s4 [[98]] = none := by simp [Demo.look4, Demo.a, Demo.f, Demo.g]
  have hR := Demo.reachable
  refine ⟨hR, ⟨0, (onto_itself hR hf 0).1, fun hm => ?_⟩, ⟨0, (beneath_itself hR ha hb 0).1, fun hm => ?_⟩,
    ⟨0, (root_ends hR h0 hc 0).1, fun hm => ?_⟩⟩
  · have h1 := hm.there []
    simp only [List.append_nil] at h1
    rw [(onto_itself hR hf 0).2, hf] at h1
    cases h1
  · have h1 := hm.there []
    simp only [List.append_nil] at h1
    rw [(beneath_itself hR ha hb 0).2, ha] at h1
    cases h1
  · have h1 := hm.there []
    simp only [List.append_nil] at h1
    rw [(root_ends hR h0 hc 0).2.1, h0] at h1
    cases h1

/-- The cases of `moves_partial` are met: `/a`, with a file in it, is renamed to `/b`; and then the file is at `/b/f`, and has its
second name. -/
theorem demo : machine.Reachable Demo.s4 ∧ Guard Demo.s4 (.rename Demo.a [[98]] 5) ∧ (¬ ∃ u, ([[98]] : Path) = Demo.a ++ u) ∧
    look (next Demo.s4 (.rename Demo.a [[98]] 5)) [[98], [102]] = some (.file, [104, 105]) ∧
    Same (next Demo.s4 (.rename Demo.a [[98]] 5)) [[98], [102]] Demo.g := by
  have ha : look Demo.s4 Demo.a = some (.directory, []) := by simp [Demo.look4, Demo.a, Demo.f, Demo.g]
  have h0 : look Demo.s4 [] = some (.directory, []) := by simp [Demo.look4, Demo.a, Demo.f, Demo.g]
  have hc : look Demo.s4 [[98]] = none := by simp [Demo.look4, Demo.a, Demo.f, Demo.g]
  have hn := Demo.none_of Demo.inv4 hc
  have hg : Guard Demo.s4 (.rename Demo.a [[98]] 5) := by
    refine ⟨Demo.exists_of ha, fun hb => by simp [BeneathDir, Demo.a] at hb, .inr ⟨⟨Demo.exists_of h0, (Demo.type_of h0).1⟩, hn⟩,
      fun k => absurd hn k.1⟩
  have hs : ¬ ∃ u, ([[98]] : Path) = Demo.a ++ u := by simp [Demo.a]
  have hm := moves_partial Demo.reachable hg hs
  refine ⟨Demo.reachable, hg, hs, ?_, ?_⟩
  · have := hm.there [[102]]
    rw [show ([[98], [102]] : Path) = [[98]] ++ [[102]] from rfl, this]
    show look Demo.s4 Demo.f = _
    simp [Demo.look4]
  · rw [show ([[98], [102]] : Path) = [[98]] ++ [[102]] from rfl,
      hm.same_there _ _ (by simp [Demo.g, Demo.a]) (by simp [Demo.g])]
    exact Demo.same4

end Verif.C85
