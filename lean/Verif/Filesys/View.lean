import Verif.Filesys.Proof

/-!
What a user sees of the file system: what is at a path, and which paths are names of one file. And how each
operation changes that.
-/

namespace Verif.Filesys
open Classical

/-- The type and the contents found at a path. -/
noncomputable def look (s : State) (p : Path) : Option (FileType × Data) :=
  if PathExists s p then (s.metaMap (s.pathMap p)).map fun m => (m.ftype, s.dataMap (s.pathMap p)) else none

/-- The paths are names of one file. -/
def Same (s : State) (p q : Path) : Prop := PathExists s p ∧ PathExists s q ∧ s.pathMap p = s.pathMap q

theorem look_eq (s : State) (p : Path) : look s p =
    if s.pathMap p = .nonexistent then none else (ty s (s.pathMap p)).map (·, s.dataMap (s.pathMap p)) := by
  simp only [look, PathExists, ty]
  by_cases h : s.pathMap p = .nonexistent
  · simp [h]
  · by_cases h' : s.metaMap (s.pathMap p) = none
    · simp [h, h']
    · simp [h, h', Function.comp_def]

theorem look_some {s : State} {p : Path} : (look s p).isSome ↔ PathExists s p := by
  simp only [look]
  by_cases h : PathExists s p
  · simp only [h, if_true]
    cases h' : s.metaMap (s.pathMap p) with
    | none => exact absurd h' h.2
    | some m => simp
  · simp [h]

theorem Inv.same_iff {s : State} (h : Inv s) {p q : Path} :
    Same s p q ↔ s.pathMap p ≠ .nonexistent ∧ s.pathMap p = s.pathMap q := by
  simp only [Same, h.exists_iff]
  constructor
  · rintro ⟨a, _, c⟩; exact ⟨a, c⟩
  · rintro ⟨a, c⟩; exact ⟨a, c ▸ a, c⟩

/-- `f` gives for each path after an operation the path that named the same thing before it. -/
structure Moves (s s' : State) (f : Path → Option Path) : Prop where
  look : ∀ x, look s' x = (f x).bind (look s)
  same : ∀ a b, Same s' a b ↔ ∃ a0 b0, f a = some a0 ∧ f b = some b0 ∧ Same s a0 b0

theorem Moves.of {s s' : State} {f : Path → Option Path} (h : Inv s) (h' : Inv s')
    (hp : ∀ x, s'.pathMap x = ((f x).map s.pathMap).getD .nonexistent)
    (ht : ∀ x, s'.pathMap x ≠ .nonexistent → ty s' (s'.pathMap x) = ty s (s'.pathMap x) ∧
      s'.dataMap (s'.pathMap x) = s.dataMap (s'.pathMap x)) : Moves s s' f := by
  constructor
  · intro x
    rw [look_eq]
    by_cases e : s'.pathMap x = .nonexistent
    · rw [if_pos e]
      rw [hp] at e
      cases hf : f x with
      | none => rfl
      | some y => simp only [hf, Option.map_some, Option.getD_some] at e; simp [look_eq, e]
    · rw [if_neg e]
      obtain ⟨h1, h2⟩ := ht x e
      rw [h1, h2]
      rw [hp] at e ⊢
      cases hf : f x with
      | none => simp [hf] at e
      | some y => simp only [hf, Option.map_some, Option.getD_some] at e ⊢; simp [look_eq, e]
  · intro a b
    rw [h'.same_iff, hp, hp]
    cases ha : f a <;> cases hb : f b
    · simp
    · simp
    · simp only [Option.map_some, Option.getD_some]
      constructor
      · rintro ⟨x, y⟩; exact absurd y x
      · rintro ⟨_, _, _, h, _⟩; cases h
    · simp only [Option.map_some, Option.getD_some, Option.some.injEq]
      rw [← h.same_iff]
      constructor
      · intro h; exact ⟨_, _, rfl, rfl, h⟩
      · rintro ⟨_, _, rfl, rfl, h⟩; exact h

/-- Where the names are after a rename. -/
noncomputable def renamed (src dst : Path) (x : Path) : Option Path :=
  if ∃ u, x = src ++ u then none else if ∃ u, x = dst ++ u then some (src ++ x.drop dst.length) else some x

theorem renamed_spec (s : State) (src dst x : Path) :
    pathMapRename s src dst x = ((renamed src dst x).map s.pathMap).getD .nonexistent := by
  simp only [pathMapRename, renamed, under_iff]
  split
  · rfl
  · split <;> rfl

/-- What is named after a rename keeps its type and contents. -/
theorem rename_keeps {s : State} {src dst q : Path} {t : Int}
    (hq : pathMapRename s src dst q ≠ .nonexistent) :
    ty (next s (.rename src dst t)) (pathMapRename s src dst q) = ty s (pathMapRename s src dst q) ∧
    (next s (.rename src dst t)).dataMap (pathMapRename s src dst q) = s.dataMap (pathMapRename s src dst q) := by
  have key : ¬ (pathMapRename s src dst q = s.pathMap dst ∧ NoAlias s dst) := by
    rintro ⟨e, hna⟩
    obtain ⟨h1, ⟨u, rfl, h2⟩ | ⟨h2, h3⟩⟩ := rename_cases hq
    · rw [h2] at e
      have := (hna _).mp e
      exact h1 ⟨u ++ u, by rw [← this]; simp⟩
    · rw [h3] at e
      exact h2 ⟨[], by simpa using (hna _).mp e⟩
  constructor
  · rcases ty_rename (s := s) (src := src) (dst := dst) (t := t) (pathMapRename s src dst q) with e | ⟨e, ha, _⟩
    · exact e
    · exact absurd ⟨e, ha.resolve_left hq⟩ key
  · show Function.update s.dataMap (s.pathMap dst) _ _ = _
    rw [Function.update_apply]
    split
    · next e =>
      have hna : ¬ NoAlias s dst := fun h => key ⟨e, h⟩
      rw [e] at hq
      simp [dataDelete, hq, hna, e]
    · rfl

theorem rename_moves {s : State} (h : Inv s) {src dst : Path} {t : Int} (hg : Guard s (.rename src dst t)) :
    Moves s (next s (.rename src dst t)) (renamed src dst) :=
  Moves.of h (h.step hg) (renamed_spec s src dst) fun _ hx => rename_keeps hx

theorem delete_moves {s : State} (h : Inv s) {p : Path} {t : Int} (hg : Guard s (.delete p t)) :
    Moves s (next s (.delete p t)) fun x => if x = p then none else some x := by
  refine Moves.of h (h.step hg) (fun x => ?_) fun x hx => ?_
  · show Function.update s.pathMap p .nonexistent x = _
    rw [Function.update_apply]
    split <;> simp
  · have hxp : x ≠ p := by
      rintro rfl
      exact hx (Function.update_self ..)
    have e : (next s (.delete p t)).pathMap x = s.pathMap x := Function.update_of_ne hxp ..
    rw [e, ty_delete h hg]
    by_cases hna : NoAlias s p
    · have hne : s.pathMap x ≠ s.pathMap p := fun k => hxp ((hna x).mp k)
      rw [if_pos hna, Function.update_of_ne hne]
      exact ⟨rfl, Function.update_of_ne hne ..⟩
    · rw [if_neg hna]
      refine ⟨rfl, ?_⟩
      show Function.update s.dataMap (s.pathMap p) _ _ = _
      rw [Function.update_apply]
      split
      · next k => simp [dataDelete, hg.2.1.1, hna, k]
      · rfl

theorem link_moves {s : State} (h : Inv s) {p q : Path} {t : Int} (hg : Guard s (.link p q t)) :
    Moves s (next s (.link p q t)) fun x => if x = q then some p else some x := by
  refine Moves.of h (h.step hg) (fun x => ?_) fun x hx => ⟨by rw [ty_link], rfl⟩
  show Function.update s.pathMap q _ x = _
  rw [Function.update_apply]
  split <;> simp

/-- Operations that leave names alone, and types. -/
theorem same_of {s s' : State} (h : Inv s) (h' : Inv s') (hp : s'.pathMap = s.pathMap) {a b : Path} :
    Same s' a b ↔ Same s a b := by
  rw [h.same_iff, h'.same_iff, hp]

theorem attr_look {s : State} {o : Op} (hp : (next s o).pathMap = s.pathMap) (ht : ty (next s o) = ty s)
    (hd : (next s o).dataMap = s.dataMap) (x : Path) : look (next s o) x = look s x := by
  rw [look_eq, look_eq, hp, ht, hd]

theorem data_look {s s' : State} (h : Inv s) {p : Path} (hp : s'.pathMap = s.pathMap) (ht : ty s' = ty s)
    (d : Data) (hd : s'.dataMap = Function.update s.dataMap (s.pathMap p) d) (hx : PathExists s p)
    (hf : ty s (s.pathMap p) = some .file) (x : Path) :
    look s' x = if Same s p x then some (.file, d) else look s x := by
  rw [look_eq, look_eq, hp, ht, hd]
  by_cases hs : Same s p x
  · rw [if_pos hs]
    obtain ⟨h1, h2⟩ := h.same_iff.mp hs
    rw [← h2, if_neg h1, Function.update_self, hf]
    rfl
  · rw [if_neg hs]
    have : s.pathMap x ≠ s.pathMap p := fun e => hs (h.same_iff.mpr ⟨hx.1, e.symm⟩)
    rw [Function.update_of_ne this]

theorem create_look {s : State} {p : Path} {i : ID} {m : Meta} (hg : Guard s (.create p i m)) (x : Path) :
    look (next s (.create p i m)) x = if x = p then some (m.ftype, []) else look s x := by
  obtain ⟨⟨_, hnew⟩, _, ⟨hin, hna⟩, _, hd⟩ := hg
  rw [look_eq, look_eq, ty_create ⟨⟨‹_›, hnew⟩, ‹_›, ⟨hin, hna⟩, ‹_›, hd⟩]
  show (if Function.update s.pathMap p i x = .nonexistent then none
    else Option.map _ (Function.update (ty s) i (some m.ftype) (Function.update s.pathMap p i x))) = _
  by_cases e : x = p
  · subst e
    rw [if_pos rfl, Function.update_self, if_neg hin, Function.update_self]
    show some (m.ftype, s.dataMap (Function.update s.pathMap x i x)) = _
    rw [Function.update_self, hd]
  · rw [if_neg e, Function.update_of_ne e]
    rw [Function.update_of_ne (hna x)]
    show (if _ then none else Option.map (fun y => (y, s.dataMap (Function.update s.pathMap p i x))) _) = _
    rw [Function.update_of_ne e]

theorem create_same {s : State} (h : Inv s) {p : Path} {i : ID} {m : Meta} (hg : Guard s (.create p i m)) (a b : Path) :
    Same (next s (.create p i m)) a b ↔ (a = p ∧ b = p) ∨ (a ≠ p ∧ b ≠ p ∧ Same s a b) := by
  rw [(h.step hg).same_iff, h.same_iff]
  obtain ⟨⟨_, hnew⟩, _, ⟨hin, hna⟩, _, hd⟩ := hg
  show (Function.update s.pathMap p i a ≠ _ ∧ Function.update s.pathMap p i a = Function.update s.pathMap p i b) ↔ _
  rw [Function.update_apply, Function.update_apply]
  by_cases ha : a = p <;> by_cases hb : b = p
  · simp [ha, hb, hin]
  · simp [ha, hb, (hna b).symm]
  · simp [ha, hb, hna a]
  · simp [ha, hb]

end Verif.Filesys
