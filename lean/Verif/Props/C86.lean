import Verif.Filesys.Demo

/-!
C86.  Each operation of the file system changes just what it says. What is written through one name of a file is read through
every name of it, and through no other path; deleting one name leaves the others as they were; a new
file is empty and shares nothing with any other; changes of owner, permission and time change no contents; and a read gives the
bytes that are there.

Renames are C85.

Specification: `Effect`, on what is seen: `L p`, the type and contents found at path `p`, and `S p q`, that `p` and `q` name one file.
-/

namespace Verif.C86
open Verif.Filesys Classical

/-- What is found at each path. -/
abbrev Looks := Path → Option (FileType × Data)

/-- What each operation should do and answer. -/
def Effect (L : Looks) (S : Path → Path → Prop) (o : Op) (L' : Looks) (S' : Path → Path → Prop) : Prop :=
  match o with
  | .create p _ m => L p = none ∧ (∀ x, L' x = if x = p then some (m.ftype, []) else L x) ∧
      ∀ a b, S' a b ↔ (a = p ∧ b = p) ∨ (a ≠ p ∧ b ≠ p ∧ S a b)
  | .delete p _ => (L p).isSome ∧ (∀ x, L' x = if x = p then none else L x) ∧ ∀ a b, S' a b ↔ a ≠ p ∧ b ≠ p ∧ S a b
  | .link p q _ => L q = none ∧ (∀ x, L' x = if x = q then L p else L x) ∧ S' p q ∧
      ∀ a b, a ≠ q → b ≠ q → (S' a b ↔ S a b)
  | .write p off new _ => ∃ d d', L p = some (.file, d) ∧ off ≤ d.length ∧
      (∀ x, L' x = if S p x then some (.file, d') else L x) ∧ (∀ a b, S' a b ↔ S a b) ∧
      d'.length = max d.length (off + new.length) ∧
      ∀ i, d'[i]? = if off ≤ i ∧ i < off + new.length then new[i - off]? else d[i]?
  | .truncate p n _ => ∃ d d', L p = some (.file, d) ∧
      (∀ x, L' x = if S p x then some (.file, d') else L x) ∧ (∀ a b, S' a b ↔ S a b) ∧
      d'.length = n ∧ ∀ i, i < n → d'[i]? = some (d[i]?.getD 0)
  | .read p off n got => (∃ d, L p = some (.file, d) ∧ got.length = n ∧ ∀ i, i < n → got[i]? = d[off + i]?) ∧
      (∀ x, L' x = L x) ∧ ∀ a b, S' a b ↔ S a b
  | .getAttr p m => (∃ d, L p = some (m.ftype, d)) ∧ (∀ x, L' x = L x) ∧ ∀ a b, S' a b ↔ S a b
  | .readLink p l => (∃ d, L p = some (.symLink l, d)) ∧ (∀ x, L' x = L x) ∧ ∀ a b, S' a b ↔ S a b
  | .rename _ _ _ => True
  | .changeAttr .. | .updateTime .. | .readDir .. | .stutter => (∀ x, L' x = L x) ∧ ∀ a b, S' a b ↔ S a b

theorem look_of {s : State} {p : Path} {m : Meta} (hx : PathExists s p) (hm : s.metaMap (s.pathMap p) = some m) :
    look s p = some (m.ftype, s.dataMap (s.pathMap p)) := by
  simp [look, hx, hm]

theorem look_none {s : State} {p : Path} (h : s.pathMap p = .nonexistent) : look s p = none := by
  rw [look_eq, if_pos h]

theorem dataWrite_spec (d new : Data) (off : Nat) (h : off ≤ d.length) :
    (dataWrite d new off).length = max d.length (off + new.length) ∧
      ∀ i, (dataWrite d new off)[i]? = if off ≤ i ∧ i < off + new.length then new[i - off]? else d[i]? := by
  unfold dataWrite
  split
  · next hl =>
    refine ⟨by simp; omega, fun i => ?_⟩
    rw [List.getElem?_append, List.length_take, Nat.min_eq_left h]
    split
    · next h1 => rw [if_neg (by omega), List.getElem?_take, if_pos h1]
    · next h1 =>
      split
      · rfl
      · next h2 => rw [List.getElem?_eq_none (by omega), List.getElem?_eq_none (by omega)]
  · next hl =>
    refine ⟨by simp; omega, fun i => ?_⟩
    rw [List.append_assoc, List.getElem?_append, List.length_take, Nat.min_eq_left h]
    split
    · next h1 => rw [if_neg (by omega), List.getElem?_take, if_pos h1]
    · next h1 =>
      rw [List.getElem?_append]
      split
      · next h2 => rw [if_pos (by omega)]
      · next h2 =>
        rw [if_neg (by omega), List.getElem?_drop]
        congr 1; omega

theorem dataTruncate_spec (d : Data) (n : Nat) : (dataTruncate d n).length = n ∧
    ∀ i, i < n → (dataTruncate d n)[i]? = some (d[i]?.getD 0) := by
  unfold dataTruncate
  split
  · next h =>
    refine ⟨by simp; omega, fun i hi => ?_⟩
    rw [List.getElem?_take, if_pos hi, List.getElem?_eq_getElem (by omega)]; rfl
  · next h =>
    refine ⟨by simp; omega, fun i hi => ?_⟩
    rw [List.getElem?_append]
    split
    · next h1 => rw [List.getElem?_eq_getElem h1]; rfl
    · next h1 => rw [List.getElem?_eq_none (l := d) (by omega), List.getElem?_replicate, if_pos (by omega)]; rfl

/-- Each operation does what it should. -/
theorem effect {s s' : State} {o : Op} (h : machine.Reachable s) (hs : machine.Step s o s') :
    Effect (look s) (Same s) o (look s') (Same s') := by
  have hi := Inv.reachable h
  obtain ⟨hg, rfl⟩ := hs
  have hi' := hi.step hg
  cases o with
  | rename => trivial
  | stutter | readDir => exact ⟨fun _ => rfl, fun _ _ => Iff.rfl⟩
  | getAttr p m => exact ⟨⟨_, look_of hg.1 hg.2⟩, fun _ => rfl, fun _ _ => Iff.rfl⟩
  | readLink p l =>
    obtain ⟨hx, m, hm, hf⟩ := hg
    exact ⟨⟨_, by rw [look_of hx hm, hf]⟩, fun _ => rfl, fun _ _ => Iff.rfl⟩
  | read p off n got =>
    obtain ⟨hx, ⟨m, hm, hf⟩, hl, rfl⟩ := hg
    refine ⟨⟨_, by rw [look_of hx hm, hf], by simp; omega, fun i hn => ?_⟩, fun _ => rfl, fun _ _ => Iff.rfl⟩
    rw [List.getElem?_take, if_pos hn, List.getElem?_drop]
  | changeAttr p x y z w =>
    exact ⟨attr_look (o := .changeAttr p x y z w) rfl (ty_same (ty_map (s := s) _ fun _ => rfl)) rfl,
      fun _ _ => same_of hi hi' rfl⟩
  | updateTime p x y z =>
    exact ⟨attr_look (o := .updateTime p x y z) rfl (ty_same (ty_map (s := s) _ fun _ => rfl)) rfl,
      fun _ _ => same_of hi hi' rfl⟩
  | create p i m => exact ⟨look_none hg.1.2, create_look hg, create_same hi hg⟩
  | delete p t =>
    have hm := delete_moves hi hg
    refine ⟨look_some.mpr hg.2.1, fun x => ?_, fun a b => ?_⟩
    · rw [hm.look]; split <;> rfl
    · rw [hm.same]
      by_cases ha : a = p <;> by_cases hb : b = p <;> simp [ha, hb]
  | link p q t =>
    have hm := link_moves hi hg
    have hpq : p ≠ q := by
      rintro rfl; exact hg.1.1 hg.2.1.2
    refine ⟨look_none hg.2.1.2, fun x => ?_, ?_, fun a b ha hb => ?_⟩
    · rw [hm.look]; split <;> rfl
    · rw [hm.same]
      exact ⟨p, p, by simp [hpq], by simp, hg.1, hg.1, rfl⟩
    · rw [hm.same]; simp [ha, hb]
  | write p off new t =>
    obtain ⟨hx, ⟨m, hm, hf⟩, hl⟩ := hg
    obtain ⟨h1, h2⟩ := dataWrite_spec (s.dataMap (s.pathMap p)) new off hl
    exact ⟨_, dataWrite (s.dataMap (s.pathMap p)) new off, by rw [look_of hx hm, hf], hl,
      data_look (s' := next s (.write p off new t)) hi rfl (ty_same (ty_map (s := s) _ fun _ => rfl)) _ rfl hx
        (by simp [ty, hm, hf]), fun _ _ => same_of hi hi' rfl, h1, h2⟩
  | truncate p n t =>
    obtain ⟨hx, m, hm, hf⟩ := hg
    obtain ⟨h1, h2⟩ := dataTruncate_spec (s.dataMap (s.pathMap p)) n
    exact ⟨_, dataTruncate (s.dataMap (s.pathMap p)) n, by rw [look_of hx hm, hf],
      data_look (s' := next s (.truncate p n t)) hi rfl (ty_same (ty_map (s := s) _ fun _ => rfl)) _ rfl hx
        (by simp [ty, hm, hf]), fun _ _ => same_of hi hi' rfl, h1, h2⟩

/-- The calls can be made: wherever a file is found, a read of any part of it is allowed, and a write up to its end. -/
theorem allowed {s : State} {p : Path} {d : Data} (h : look s p = some (.file, d)) :
    (∀ off n, off + n ≤ d.length → Guard s (.read p off n ((d.drop off).take n))) ∧
    (∀ off new t, off ≤ d.length → Guard s (.write p off new t)) ∧ ∀ n t, Guard s (.truncate p n t) := by
  have hx := Demo.exists_of h
  obtain ⟨hm, rfl⟩ := Demo.type_of h
  exact ⟨fun off n hl => ⟨hx, hm, hl, rfl⟩, fun off new t hl => ⟨hx, hm, hl⟩, fun n t => ⟨hx, hm⟩⟩

/-- The case is met: "yo" written through the name `/g` is then read through the name `/a/f`. -/
theorem demo : machine.Reachable Demo.s4 ∧ machine.Step Demo.s4 (.write Demo.g 1 [121, 111] 9) (next Demo.s4 (.write Demo.g 1 [121, 111] 9)) ∧
    machine.Step (next Demo.s4 (.write Demo.g 1 [121, 111] 9)) (.read Demo.f 0 3 [104, 121, 111])
      (next Demo.s4 (.write Demo.g 1 [121, 111] 9)) := by
  have hgl : look Demo.s4 Demo.g = some (.file, [104, 105]) := by simp [Demo.look4]
  have hg : Guard Demo.s4 (.write Demo.g 1 [121, 111] 9) := (allowed hgl).2.1 1 _ 9 (by simp)
  refine ⟨Demo.reachable, ⟨hg, rfl⟩, ?_, rfl⟩
  obtain ⟨⟨m, hm, hf⟩, hd⟩ := Demo.type_of hgl
  have hs : Same Demo.s4 Demo.g Demo.f := ⟨Demo.same4.2.1, Demo.same4.1, Demo.same4.2.2.symm⟩
  have := data_look (s' := next Demo.s4 (.write Demo.g 1 [121, 111] 9)) Demo.inv4 rfl
    (ty_same (ty_map (s := Demo.s4) _ fun _ => rfl)) _ rfl hg.1 (by simp [ty, hm, hf]) Demo.f
  rw [if_pos hs, hd] at this
  have := (allowed this).1 0 3 (by simp [dataWrite])
  simpa [dataWrite] using this

end Verif.C86
