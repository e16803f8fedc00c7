import Verif.Filesys.View
import Mathlib.Data.List.Induction

/-!
Numbers of files that have no name: when they are free for a new file.
-/

namespace Verif.Filesys
open Classical

/-- A rename that moves a path neither to itself nor beneath itself; any other operation. -/
def Sane : Op → Prop
  | .rename src dst _ => ¬ (dst = src ∨ BeneathDir src dst)
  | _ => True

/-- Whatever is done, a number without name keeps what is stored for it, and gets no name but by `create`. -/
theorem unnamed_step {s : State} {o : Op} (hg : Guard s o) {i : ID} (hi : i ≠ .nonexistent) (hn : ∀ p, s.pathMap p ≠ i)
    (hc : ∀ p m, o ≠ .create p i m) :
    (∀ p, (next s o).pathMap p ≠ i) ∧ (next s o).metaMap i = s.metaMap i ∧ (next s o).dataMap i = s.dataMap i := by
  have hn' : ∀ p, i ≠ s.pathMap p := fun p e => hn p e.symm
  cases o with
  | getAttr | readLink | read | readDir | stutter => exact ⟨hn, rfl, rfl⟩
  | create p j m =>
    have hj : i ≠ j := fun e => hc p m (e ▸ rfl)
    refine ⟨fun q => ?_, ?_, rfl⟩
    · simp only [next, Function.update_apply]; split
      · exact hj.symm
      · exact hn q
    · simp only [next, Function.update_apply, if_neg (hn' _), if_neg hj]
  | delete p t =>
    refine ⟨fun q => ?_, ?_, ?_⟩
    · simp only [next, Function.update_apply]; split
      · exact hi.symm
      · exact hn q
    · simp only [next, Function.update_apply, if_neg (hn' _)]
    · simp only [next, Function.update_apply, if_neg (hn' _)]
  | rename p q t =>
    refine ⟨fun x => ?_, ?_, ?_⟩
    · simp only [next, pathMapRename]
      split
      · exact hi.symm
      · split <;> exact hn _
    · simp only [next, Function.update_apply, if_neg (hn' _)]
    · simp only [next, Function.update_apply, if_neg (hn' _)]
  | link p q t =>
    refine ⟨fun x => ?_, ?_, rfl⟩
    · simp only [next, Function.update_apply]; split <;> exact hn _
    · simp only [next, Function.update_apply, if_neg (hn' _)]
  | changeAttr | updateTime =>
    exact ⟨hn, by simp only [next, Function.update_apply, if_neg (hn' _)], rfl⟩
  | truncate | write =>
    exact ⟨hn, by simp only [next, Function.update_apply, if_neg (hn' _)],
      by simp only [next, Function.update_apply, if_neg (hn' _)]⟩

/-- All that is above something is a directory. -/
theorem Good.above {P T} (h : Good P T) {p : Path} : ∀ t : Path, t ≠ [] → P (p ++ t) ≠ .nonexistent →
    T (P p) = some .directory := by
  intro t
  induction t using List.reverseRecOn with
  | nil => intro h; exact absurd rfl h
  | append_singleton t a ih =>
    intro _ hp
    have hd := h.parent _ hp
    have e : parentDir (p ++ (t ++ [a])) = p ++ t := by simp [parentDir, ← List.append_assoc]
    rw [e] at hd
    cases t with
    | nil => simpa using hd
    | cons b t => exact ih (by simp) (h.dir_ne hd)

/-- Numbers without name have nothing stored. -/
def Freed (s : State) : Prop := ∀ i, i ≠ .nonexistent → (∀ p, s.pathMap p ≠ i) → s.metaMap i = none ∧ s.dataMap i = []

theorem Freed.init : Freed init := by
  intro i hi hn
  have : i ≠ rootID := fun e => hn rootDir (by simp [Filesys.init, e])
  exact ⟨by simp [Filesys.init, this], rfl⟩

theorem Freed.step {s : State} (h : Inv s) (hf : Freed s) {o : Op} (hg : Guard s o) (hs : Sane o) : Freed (next s o) := by
  intro i hi hn
  by_cases hu : ∀ p, s.pathMap p ≠ i
  · by_cases hc : ∃ p m, o = .create p i m
    · obtain ⟨p, m, rfl⟩ := hc
      exact absurd (Function.update_self ..) (hn p)
    · obtain ⟨_, h1, h2⟩ := unnamed_step hg hi hu fun p m e => hc ⟨p, m, e⟩
      rw [h1, h2]; exact hf i hi hu
  · simp only [not_forall, not_not] at hu
    obtain ⟨q, hq⟩ := hu
    cases o with
    | getAttr | readLink | read | readDir | stutter | changeAttr | updateTime | truncate | write => exact absurd hq (hn q)
    | create p j m =>
      by_cases e : q = p
      · subst e; exact absurd (hq.symm.trans hg.1.2) hi
      · exact absurd ((Function.update_of_ne e ..).trans hq) (hn q)
    | link p r t =>
      by_cases e : q = r
      · subst e; exact absurd (hq.symm.trans hg.2.1.2) hi
      · exact absurd ((Function.update_of_ne e ..).trans hq) (hn q)
    | delete p t =>
      have only : ∀ x, s.pathMap x = i → x = p := by
        intro x hx
        by_contra e
        exact hn x ((Function.update_of_ne e ..).trans hx)
      obtain rfl := only q hq
      subst hq
      have hna : NoAlias s q := fun x => ⟨only x, fun e => by rw [e]⟩
      constructor
      · rw [← ty_none, ty_delete h hg, if_pos hna, Function.update_self]
      · show Function.update s.dataMap (s.pathMap q) _ _ = _
        rw [Function.update_self]; simp [dataDelete, hna]
    | rename src dst t =>
      have hsane : ¬ ∃ u, dst = src ++ u := fun k => hs (under_iff.mpr k)
      have apart : ∀ u v, dst ++ u ≠ src ++ v := by
        intro u v e
        rcases List.append_eq_append_iff.mp e with ⟨w, h1, _⟩ | ⟨w, h1, _⟩
        · by_cases hw : w = []
          · exact hsane ⟨[], by simp [h1, hw]⟩
          · exact hg.2.1 (beneath_iff.mpr ⟨w, hw, h1⟩)
        · exact hsane ⟨w, h1⟩
      have only : ∀ x, s.pathMap x = i → x = dst := by
        intro x hx
        by_cases e1 : ∃ u, x = src ++ u
        · obtain ⟨u, rfl⟩ := e1
          exact absurd ((pathMapRename_dst (s := s) fun ⟨v, k⟩ => apart u v k).trans hx) (hn (dst ++ u))
        · by_cases e2 : ∃ u, x = dst ++ u
          · obtain ⟨u, rfl⟩ := e2
            by_cases hu : u = []
            · simp [hu]
            · exfalso
              have hd := h.1.above u hu (hx ▸ hi)
              have hdx := h.1.dir_ne hd
              exact hi (hx ▸ (hg.2.2.2 (h.exists_iff.mpr hdx)).2 (isDir_iff.mpr hd) _ (beneath_iff.mpr ⟨u, hu, rfl⟩))
          · exact absurd ((pathMapRename_else e1 e2).trans hx) (hn x)
      obtain rfl := only q hq
      subst hq
      have hna : NoAlias s q := fun x => ⟨only x, fun e => by rw [e]⟩
      have e1 : s.pathMap q ≠ s.pathMap (parentDir src) := by
        intro e
        have hp : parentDir src = q := only _ e.symm
        by_cases hsrc : src = []
        · subst hsrc; exact hsane ⟨q, rfl⟩
        · refine hg.2.1 (beneath_iff.mpr ⟨[src.getLast hsrc], by simp, ?_⟩)
          rw [← hp]; exact (List.dropLast_concat_getLast hsrc).symm
      have e2 : s.pathMap q ≠ s.pathMap (parentDir q) := by
        intro e
        have hp : parentDir q = q := only _ e.symm
        by_cases hq : q = []
        · subst hq
          by_cases hsrc : src = []
          · exact hsane ⟨[], by simp [hsrc]⟩
          · exact hg.2.1 (beneath_iff.mpr ⟨src, hsrc, rfl⟩)
        · exact dropLast_ne hq hp
      constructor
      · simp only [next, Function.update_apply, if_neg e1, if_neg e2, if_true]
        simp [metaDelete, hna]
      · show Function.update s.dataMap (s.pathMap q) _ _ = _
        rw [Function.update_self]; simp [dataDelete, hna]

theorem Freed.exec {s : State} {tr : List Op} (h : machine.Exec tr s) (hs : ∀ o ∈ tr, Sane o) : Freed s := by
  have : Inv s ∧ ((∀ o ∈ tr, Sane o) → Freed s) :=
    Machine.exec_invariant (M := machine) (I := fun tr s => Inv s ∧ ((∀ o ∈ tr, Sane o) → Freed s))
      (fun s (e : s = Filesys.init) => e ▸ ⟨Inv.init, fun _ => Freed.init⟩)
      (fun tr s o s' ⟨hi, hf⟩ (hst : Guard s o ∧ s' = next s o) => hst.2 ▸ ⟨hi.step hst.1, fun ha =>
        Freed.step hi (hf fun o h => ha o (by simp [h])) hst.1 (ha o (by simp))⟩) h
  exact this.2 hs

end Verif.Filesys
