import Verif.Filesys.Model

/-!
What holds in every state of the file system, and what each operation does to names, types and contents.
-/

namespace Verif.Filesys
open Classical

/-- `path` is `dir` or beneath it. -/
theorem under_iff {d q : Path} : (q = d ∨ BeneathDir d q) ↔ ∃ t, q = d ++ t := by
  constructor
  · rintro (rfl | ⟨hl, ht⟩)
    · exact ⟨[], by simp⟩
    · exact ⟨q.drop d.length, by have := (List.take_append_drop d.length q).symm; rwa [ht] at this⟩
  · rintro ⟨t, rfl⟩
    cases t with
    | nil => simp
    | cons a t => right; simp [BeneathDir]

theorem beneath_iff {d q : Path} : BeneathDir d q ↔ ∃ t, t ≠ [] ∧ q = d ++ t := by
  constructor
  · intro h
    obtain ⟨t, rfl⟩ := under_iff.mp (Or.inr h)
    refine ⟨t, ?_, rfl⟩
    rintro rfl
    simp [BeneathDir] at h
  · rintro ⟨t, ht, rfl⟩
    rcases under_iff.mpr ⟨t, rfl⟩ with h | h
    · simp at h; exact absurd h ht
    · exact h

/-- The type of a file. -/
def ty (s : State) (i : ID) : Option FileType := (s.metaMap i).map (·.ftype)

theorem isDir_iff {s : State} {p : Path} : IsDir s p ↔ ty s (s.pathMap p) = some .directory := by
  simp [IsDir, ty]

theorem ty_none {s : State} {i : ID} : ty s i = none ↔ s.metaMap i = none := by simp [ty]

/-- What the names and the types of files keep to. -/
structure Good (P : Path → ID) (T : ID → Option FileType) : Prop where
  non : T .nonexistent = none
  named : ∀ p, P p ≠ .nonexistent → T (P p) ≠ none
  dirs : ∀ p q, T (P p) = some .directory → P q = P p → q = p
  parent : ∀ p, P p ≠ .nonexistent → T (P (parentDir p)) = some .directory

/-- The invariant. -/
def Inv (s : State) : Prop := Good s.pathMap (ty s) ∧ s.dataMap .nonexistent = []

theorem Good.dir_ne {P T} (h : Good P T) {p : Path} (hd : T (P p) = some .directory) : P p ≠ .nonexistent := by
  intro e; rw [e, h.non] at hd; cases hd

theorem Inv.exists_iff {s : State} (h : Inv s) {p : Path} : PathExists s p ↔ s.pathMap p ≠ .nonexistent :=
  ⟨fun hp => hp.1, fun hp => ⟨hp, fun e => h.1.named p hp (ty_none.mpr e)⟩⟩

theorem dropLast_ne {α} {l : List α} (h : l ≠ []) : l.dropLast ≠ l := by
  intro e
  have := congrArg List.length e
  have := List.length_pos_iff.mpr h
  simp at *
  omega

theorem Good.parent_ne {P T} (h : Good P T) {p : Path} (hp : p ≠ []) (he : P p ≠ .nonexistent) :
    P (parentDir p) ≠ P p := fun e =>
  dropLast_ne hp (h.dirs _ _ (h.parent p he) e.symm).symm

theorem ty_updateParentTime (s : State) (i : ID) (t : Int) :
    (updateParentTime s i t).map (·.ftype) = ty s i := by
  simp only [updateParentTime, ty]; cases s.metaMap i <;> rfl

/-! ### Types after an operation -/

theorem ty_same {s : State} {i : ID} {x : Option Meta} {P D}
    (hx : x.map (·.ftype) = ty s i) :
    ty ⟨P, Function.update s.metaMap i x, D⟩ = ty s := by
  funext j
  simp only [ty, Function.update_apply]
  split
  · next h => subst h; exact hx
  · rfl

theorem ty_map {s : State} {i : ID} (f : Meta → Meta) (hf : ∀ m, (f m).ftype = m.ftype) :
    ((s.metaMap i).map f).map (·.ftype) = ty s i := by
  simp only [ty]; cases s.metaMap i <;> simp [hf]

theorem ty_create {s : State} {p : Path} {i : ID} {m : Meta} (hg : Guard s (.create p i m)) :
    ty (next s (.create p i m)) = Function.update (ty s) i (some m.ftype) := by
  funext j
  have hne : s.pathMap (parentDir p) ≠ i := hg.2.2.1.2 _
  simp only [ty, next, Function.update_apply]
  by_cases hj : j = s.pathMap (parentDir p)
  · subst hj
    simp only [if_true, if_neg hne]
    exact ty_updateParentTime ..
  · simp only [if_neg hj]
    split <;> rfl

theorem ty_link {s : State} {p q : Path} {t : Int} : ty (next s (.link p q t)) = ty s := by
  funext j
  simp only [ty, next, Function.update_apply]
  split
  · next h => subst h; exact ty_updateParentTime ..
  · split
    · next h => subst h; exact ty_map (s := s) _ fun _ => rfl
    · rfl

theorem ty_metaDelete (s : State) (p : Path) (t : Int) :
    (metaDelete s p t).map (·.ftype) = if s.pathMap p = .nonexistent ∨ NoAlias s p then none else ty s (s.pathMap p) := by
  simp only [metaDelete, ty]
  by_cases h1 : s.pathMap p = .nonexistent
  · simp [h1]
  · by_cases h2 : NoAlias s p
    · simp [h2]
    · cases h3 : s.metaMap (s.pathMap p) <;> simp [h1, h2, Meta.updateCTime]

theorem ty_delete {s : State} (hi : Inv s) {p : Path} {t : Int} (hg : Guard s (.delete p t)) :
    ty (next s (.delete p t)) = if NoAlias s p then Function.update (ty s) (s.pathMap p) none else ty s := by
  funext j
  have hne := hi.1.parent_ne hg.1 hg.2.1.1
  have hm := ty_metaDelete s p t
  have hx := hg.2.1.1
  simp only [hx, false_or] at hm
  simp only [ty, next, Function.update_apply]
  by_cases hj : j = s.pathMap (parentDir p)
  · subst hj
    simp only [if_true]
    rw [ty_updateParentTime]
    split
    · simp [hne]
    · rfl
  · simp only [if_neg hj]
    by_cases hk : j = s.pathMap p
    · subst hk
      simp only [if_true, hm]
      split <;> simp
    · simp only [if_neg hk]
      split <;> simp [hk, ty]

/-- A rename changes no type but that of the file it replaces. -/
theorem ty_rename {s : State} {src dst : Path} {t : Int} (j : ID) :
    ty (next s (.rename src dst t)) j = ty s j ∨
      (j = s.pathMap dst ∧ (j = .nonexistent ∨ NoAlias s dst) ∧ ty (next s (.rename src dst t)) j = none) := by
  simp only [ty, next, Function.update_apply]
  split
  · next h => subst h; exact .inl (ty_updateParentTime ..)
  · split
    · next h => subst h; exact .inl (ty_updateParentTime ..)
    · split
      · next h =>
        subst h
        have hm := ty_metaDelete s dst t
        split at hm
        · next h => exact .inr ⟨rfl, h, hm⟩
        · exact .inl hm
      · split
        · next h => subst h; exact .inl (ty_map (s := s) _ fun _ => rfl)
        · exact .inl rfl

theorem pathMapRename_src {s : State} {src dst : Path} (t : Path) : pathMapRename s src dst (src ++ t) = .nonexistent := by
  simp only [pathMapRename, under_iff]
  rw [if_pos ⟨t, rfl⟩]

theorem pathMapRename_dst {s : State} {src dst t : Path} (h : ¬ ∃ u, dst ++ t = src ++ u) :
    pathMapRename s src dst (dst ++ t) = s.pathMap (src ++ t) := by
  simp only [pathMapRename, under_iff, if_neg h]
  rw [if_pos ⟨t, rfl⟩]
  simp

theorem pathMapRename_else {s : State} {src dst q : Path} (h : ¬ ∃ u, q = src ++ u) (h' : ¬ ∃ u, q = dst ++ u) :
    pathMapRename s src dst q = s.pathMap q := by
  simp only [pathMapRename, under_iff, if_neg h, if_neg h']

/-- A name after a rename is the old name of what it names. -/
theorem rename_cases {s : State} {src dst q : Path} (h : pathMapRename s src dst q ≠ .nonexistent) :
    (¬ ∃ u, q = src ++ u) ∧
      ((∃ t, q = dst ++ t ∧ pathMapRename s src dst q = s.pathMap (src ++ t)) ∨
        ((¬ ∃ t, q = dst ++ t) ∧ pathMapRename s src dst q = s.pathMap q)) := by
  have h1 : ¬ ∃ u, q = src ++ u := by
    rintro ⟨u, rfl⟩; exact h (pathMapRename_src u)
  refine ⟨h1, ?_⟩
  by_cases h2 : ∃ t, q = dst ++ t
  · obtain ⟨t, rfl⟩ := h2
    exact .inl ⟨t, rfl, pathMapRename_dst h1⟩
  · exact .inr ⟨h2, pathMapRename_else h1 h2⟩

theorem under_dropLast {q d : Path} (h : ∃ u, q.dropLast = d ++ u) : ∃ u, q = d ++ u := by
  obtain ⟨u, hu⟩ := h
  rcases List.eq_nil_or_concat q with rfl | ⟨q', a, rfl⟩
  · exact ⟨u, by simpa using hu⟩
  · rw [List.concat_eq_append, List.dropLast_concat] at hu
    subst hu
    exact ⟨u ++ [a], by simp⟩

theorem Good.update_none {P T} (h : Good P T) {p : Path} (ht : ∀ q, P q = P p ↔ q = p)
    (he : ∀ q, P q ≠ .nonexistent → parentDir q ≠ p ∨ q = p) :
    Good (Function.update P p .nonexistent) (Function.update T (P p) none) := by
  refine ⟨?_, ?_, ?_, ?_⟩
  · rw [Function.update_apply]; split
    · rfl
    · exact h.non
  · intro q hq
    by_cases e : q = p
    · subst e; simp at hq
    · rw [Function.update_of_ne e] at hq ⊢
      rw [Function.update_of_ne (fun k => e ((ht q).mp k))]
      exact h.named q hq
  · intro q r hd hr
    by_cases e : q = p
    · subst e
      rw [Function.update_self, Function.update_apply] at hd
      split at hd
      · cases hd
      · rw [h.non] at hd; cases hd
    · rw [Function.update_of_ne e] at hd hr
      by_cases f : r = p
      · subst f
        rw [Function.update_self] at hr
        rw [← hr, Function.update_apply] at hd
        split at hd
        · cases hd
        · rw [h.non] at hd; cases hd
      · rw [Function.update_of_ne f] at hr
        rw [Function.update_of_ne (fun k => e ((ht q).mp k))] at hd
        exact h.dirs q r hd hr
  · intro q hq
    by_cases e : q = p
    · subst e; simp at hq
    · rw [Function.update_of_ne e] at hq
      have hk : parentDir q ≠ p := (he q hq).resolve_right e
      rw [Function.update_of_ne hk, Function.update_of_ne (fun k => hk ((ht _).mp k))]
      exact h.parent q hq

theorem Good.rename {s : State} (h : Inv s) {src dst : Path} {t : Int} (hg : Guard s (.rename src dst t)) :
    Good (pathMapRename s src dst) (ty (next s (.rename src dst t))) := by
  have hi := h.1
  have hnon : ty (next s (.rename src dst t)) .nonexistent = none := by
    rcases ty_rename (s := s) (src := src) (dst := dst) (t := t) .nonexistent with e | ⟨_, _, e⟩
    · rw [e, hi.non]
    · exact e
  have key : ∀ q, pathMapRename s src dst q ≠ .nonexistent →
      ty (next s (.rename src dst t)) (pathMapRename s src dst q) = ty s (pathMapRename s src dst q) := by
    intro q hq
    rcases ty_rename (s := s) (src := src) (dst := dst) (t := t) (pathMapRename s src dst q) with e | ⟨e, ha, _⟩
    · exact e
    · exfalso
      have hna : NoAlias s dst := ha.resolve_left hq
      clear ha
      obtain ⟨h1, ⟨u, rfl, h2⟩ | ⟨h2, h3⟩⟩ := rename_cases hq
      · rw [h2] at e
        have := (hna _).mp e
        exact h1 ⟨u ++ u, by rw [← this]; simp⟩
      · rw [h3] at e
        exact h2 ⟨[], by simpa using (hna _).mp e⟩
  refine ⟨hnon, ?_, ?_, ?_⟩
  · intro q hq
    rw [key q hq]
    obtain ⟨_, ⟨u, _, h2⟩ | ⟨_, h2⟩⟩ := rename_cases hq <;> rw [h2] at hq ⊢ <;> exact hi.named _ hq
  · intro p q hd he
    have hp : pathMapRename s src dst p ≠ .nonexistent := by
      intro e; rw [e, hnon] at hd; cases hd
    have hq : pathMapRename s src dst q ≠ .nonexistent := he ▸ hp
    rw [key p hp] at hd
    obtain ⟨p1, ⟨u, rfl, p2⟩ | ⟨p2, p3⟩⟩ := rename_cases hp <;> obtain ⟨q1, ⟨v, rfl, q2⟩ | ⟨q2, q3⟩⟩ := rename_cases hq
    · rw [p2] at hd he; rw [q2] at he
      have := hi.dirs _ _ hd he
      rw [List.append_cancel_left this]
    · rw [p2] at hd he; rw [q3] at he
      exact absurd ⟨u, hi.dirs _ _ hd he⟩ q1
    · rw [p3] at hd he; rw [q2] at he
      exact absurd ⟨v, (hi.dirs _ _ hd he).symm⟩ p1
    · rw [p3] at hd he; rw [q3] at he
      exact hi.dirs _ _ hd he
  · intro p hp
    suffices hs : ty s (pathMapRename s src dst (parentDir p)) = some .directory by
      rw [key _ (fun e => by rw [e, hi.non] at hs; cases hs)]; exact hs
    obtain ⟨p1, hc⟩ := rename_cases hp
    have np : ¬ ∃ u, parentDir p = src ++ u := fun h => p1 (under_dropLast h)
    rcases hc with ⟨u, rfl, p2⟩ | ⟨p2, p3⟩
    · rcases List.eq_nil_or_concat u with rfl | ⟨u', a, rfl⟩
      · have hne : dst ≠ [] := by
          rintro rfl
          have := hg.2.1
          rw [beneath_iff] at this
          apply p1
          by_cases e : src = []
          · exact ⟨[], by simp [e]⟩
          · exact absurd ⟨src, e, by simp⟩ this
        simp only [List.append_nil] at np p2 hp ⊢
        rw [pathMapRename_else np]
        · rcases hg.2.2.1 with hx | hx
          · exact hi.parent _ hx.1
          · exact isDir_iff.mp hx.1.2
        · rintro ⟨u, hu⟩
          have := congrArg List.length hu
          have := List.length_pos_iff.mpr hne
          simp [parentDir] at *
          omega
      · have e : parentDir (dst ++ u'.concat a) = dst ++ u' := by
          simp [parentDir, List.concat_eq_append, ← List.append_assoc]
        rw [e] at np ⊢
        rw [pathMapRename_dst np]
        have := hi.parent (src ++ u'.concat a) (p2 ▸ hp)
        have e : parentDir (src ++ u'.concat a) = src ++ u' := by
          simp [parentDir, List.concat_eq_append, ← List.append_assoc]
        rwa [e] at this
    · rw [pathMapRename_else np fun h => p2 (under_dropLast h)]
      exact hi.parent p (p3 ▸ hp)

/-- The invariant holds at the start. -/
theorem Inv.init : Inv init := by
  refine ⟨⟨?_, ?_, ?_, ?_⟩, rfl⟩
  · simp [ty, Filesys.init, rootID]
  · intro p hp
    simp only [Filesys.init] at hp ⊢
    split at hp
    · next h => simp [ty, h]
    · simp at hp
  · intro p q hd hq
    simp only [Filesys.init, ty] at hd hq
    by_cases hp : p = rootDir
    · by_cases h : q = rootDir
      · rw [h, hp]
      · simp [h, hp, rootID] at hq
    · simp [hp, rootID] at hd
  · intro p hp
    simp only [Filesys.init] at hp ⊢
    by_cases h : p = rootDir
    · subst h; simp [parentDir, rootDir, ty, initRootMeta]
    · simp [h] at hp

theorem Inv.step {s : State} (h : Inv s) {o : Op} (hg : Guard s o) : Inv (next s o) := by
  cases o with
  | getAttr | readLink | read | readDir | stutter => exact h
  | create p i m =>
    refine ⟨?_, h.2⟩
    rw [ty_create hg]
    obtain ⟨⟨⟨hpe, hpd⟩, hnew⟩, hvm, ⟨hin, hna⟩, hmi, hdi⟩ := hg
    have hpd := isDir_iff.mp hpd
    have hi := h.1
    have hpp : parentDir p ≠ p := fun e => by rw [e] at hpe; exact hpe.1 hnew
    show Good (Function.update s.pathMap p i) _
    refine ⟨?_, ?_, ?_, ?_⟩
    · rw [Function.update_of_ne hin.symm]; exact hi.non
    · intro q hq
      rw [Function.update_apply (ty s)]
      split
      · simp
      · by_cases e : q = p
        · subst e; simp at *
        · rw [Function.update_of_ne e] at hq ⊢; exact hi.named q hq
    · intro q r hd hr
      by_cases e : q = p
      · subst e
        rw [Function.update_self] at hr
        by_contra f
        rw [Function.update_of_ne f] at hr
        exact hna _ hr
      · rw [Function.update_of_ne e] at hd hr
        rw [Function.update_of_ne (hna q)] at hd
        by_cases f : r = p
        · subst f
          rw [Function.update_self] at hr
          exact absurd hr.symm (hna q)
        · rw [Function.update_of_ne f] at hr
          exact hi.dirs q r hd hr
    · intro q hq
      by_cases e : q = p
      · subst e
        rw [Function.update_of_ne hpp, Function.update_of_ne (hna _)]; exact hpd
      · rw [Function.update_of_ne e] at hq
        have hd := hi.parent q hq
        have f : parentDir q ≠ p := fun k => hi.dir_ne hd (k ▸ hnew)
        rw [Function.update_of_ne f, Function.update_of_ne (hna _)]; exact hd
  | delete p t =>
    have hi := h.1
    refine ⟨?_, ?_⟩
    · rw [ty_delete h hg]
      obtain ⟨hr, hex, hd⟩ := hg
      have hc : ∀ q, s.pathMap q ≠ .nonexistent → parentDir q ≠ p ∨ q = p := by
        intro q hq
        by_contra hcon
        simp only [not_or, not_not] at hcon
        have hdir := hi.parent q hq
        rw [hcon.1] at hdir
        have hb : BeneathDir p q := by
          have : q ≠ [] := by
            rintro rfl
            exact hcon.2 (by simpa [parentDir] using hcon.1)
          rw [beneath_iff]
          refine ⟨[q.getLast this], by simp, ?_⟩
          rw [← hcon.1]
          exact (List.dropLast_concat_getLast this).symm
        exact hq (hd (isDir_iff.mpr hdir) q hb)
      show Good (Function.update s.pathMap p .nonexistent) _
      split
      · next hna => exact hi.update_none hna hc
      · next hna =>
        have hnd : ¬ ty s (s.pathMap p) = some .directory := by
          intro k
          exact hna fun q => ⟨fun e => hi.dirs p q k e, fun e => by rw [e]⟩
        refine ⟨hi.non, ?_, ?_, ?_⟩
        · intro q hq
          by_cases e : q = p
          · subst e; simp at hq
          · rw [Function.update_of_ne e] at hq ⊢; exact hi.named q hq
        · clear hd hr
          intro q r hd hr
          by_cases e : q = p
          · subst e; rw [Function.update_self, hi.non] at hd; cases hd
          · rw [Function.update_of_ne e] at hd hr
            by_cases f : r = p
            · subst f
              rw [Function.update_self] at hr
              rw [← hr, hi.non] at hd; cases hd
            · rw [Function.update_of_ne f] at hr
              exact hi.dirs q r hd hr
        · intro q hq
          by_cases e : q = p
          · subst e; simp at hq
          · rw [Function.update_of_ne e] at hq
            rw [Function.update_of_ne ((hc q hq).resolve_right e)]
            exact hi.parent q hq
    · show Function.update s.dataMap (s.pathMap p) _ .nonexistent = []
      rw [Function.update_of_ne hg.2.1.1.symm]; exact h.2
  | rename src dst t =>
    refine ⟨Good.rename h hg, ?_⟩
    show Function.update s.dataMap (s.pathMap dst) _ .nonexistent = []
    rw [Function.update_apply]
    split
    · next e => simp [dataDelete, ← e]
    · exact h.2
  | link p q t =>
    refine ⟨?_, h.2⟩
    rw [ty_link]
    have hi := h.1
    obtain ⟨hex, ⟨⟨hpe, hpd⟩, hnew⟩, hnd⟩ := hg
    have hnd : ¬ ty s (s.pathMap p) = some .directory := fun k => hnd (isDir_iff.mpr k)
    have hqp : parentDir q ≠ q := fun e => by rw [e] at hpe; exact hpe.1 hnew
    show Good (Function.update s.pathMap q (s.pathMap p)) _
    refine ⟨hi.non, ?_, ?_, ?_⟩
    · intro r hr
      by_cases e : r = q
      · subst e; rw [Function.update_self]; exact hi.named p hex.1
      · rw [Function.update_of_ne e] at hr ⊢; exact hi.named r hr
    · intro a b hd hb
      by_cases e : a = q
      · subst e; rw [Function.update_self] at hd; exact absurd hd hnd
      · rw [Function.update_of_ne e] at hd hb
        by_cases f : b = q
        · subst f; rw [Function.update_self] at hb; rw [← hb] at hd; exact absurd hd hnd
        · rw [Function.update_of_ne f] at hb; exact hi.dirs a b hd hb
    · intro r hr
      by_cases e : r = q
      · subst e; rw [Function.update_of_ne hqp]; exact isDir_iff.mp hpd
      · rw [Function.update_of_ne e] at hr
        have hd := hi.parent r hr
        rw [Function.update_of_ne (fun k : parentDir r = q => hi.dir_ne hd (k ▸ hnew))]; exact hd
  | changeAttr p a b c d =>
    refine ⟨?_, h.2⟩
    rw [show ty (next s (.changeAttr p a b c d)) = ty s from ty_same (ty_map (s := s) _ fun _ => rfl)]
    exact h.1
  | updateTime p a b c =>
    refine ⟨?_, h.2⟩
    rw [show ty (next s (.updateTime p a b c)) = ty s from ty_same (ty_map (s := s) _ fun _ => rfl)]
    exact h.1
  | truncate p n t =>
    refine ⟨?_, ?_⟩
    · rw [show ty (next s (.truncate p n t)) = ty s from ty_same (ty_map (s := s) _ fun _ => rfl)]
      exact h.1
    · show Function.update s.dataMap (s.pathMap p) _ .nonexistent = []
      rw [Function.update_of_ne hg.1.1.symm]; exact h.2
  | write p n d t =>
    refine ⟨?_, ?_⟩
    · rw [show ty (next s (.write p n d t)) = ty s from ty_same (ty_map (s := s) _ fun _ => rfl)]
      exact h.1
    · show Function.update s.dataMap (s.pathMap p) _ .nonexistent = []
      rw [Function.update_of_ne hg.1.1.symm]; exact h.2

theorem Inv.reachable {s : State} (h : machine.Reachable s) : Inv s :=
  Machine.reachable_invariant (fun _ h => h ▸ Inv.init) (fun _ _ _ hi hs => hs.2 ▸ hi.step hs.1) h

end Verif.Filesys
