import Verif.Journal.AllocationProof
/-
The journal writer fills units page by page and is never stuck while a unit has room. No code is
modelled here.
-/
namespace Verif.AllocJ
open Verif Linked

/-- Unit `au` is being filled: its reserved pages are those up to the newest record. -/
def Filling (g : Geometry) (root : Pointer) (au : Nat) (p : PageAlloc) : Prop :=
  ∃ t, root = some t ∧ t.au = au ∧ ∀ x : Address, x.wf g → x.au = au → (p.reserved x ↔ x.page ≤ t.page)

/-- Every unit of the allocator is unused, full, or the current one. -/
structure State.Pages (g : Geometry) (s : State) : Prop where
  units : ∀ au p, s.mini.allocs au = some p →
    allPagesFree p ∨ p.allAllocated g ∨ s.mini.curr = some au
  current : ∀ au p, s.mini.curr = some au → s.mini.allocs au = some p →
    Filling g s.j.tj.root au p ∧ ¬ p.allAllocated g

theorem pages_prune {g : Geometry} {s : State} (h : s.Pages g) {aus j ix first}
    (hr : ∀ au, s.mini.curr = some au → ¬ aus au → j.tj.root = s.j.tj.root) :
    State.Pages g { j := j, ix := ix, first := first, mini := s.mini.prune aus } := by
  constructor
  · intro au p hp
    obtain ⟨h1, h2⟩ := PMap.removeKeys_some.mp hp
    rcases h.units au p h2 with h3 | h3 | h3
    · exact .inl h3
    · exact .inr (.inl h3)
    · refine .inr (.inr ?_)
      show (s.mini.prune aus).curr = _
      simp only [MiniAlloc.prune]
      rw [if_neg ?_]
      · exact h3
      · rintro ⟨au', h4, h5⟩; rw [h3] at h4; cases h4; exact h1 h5
  · intro au p hc hp
    obtain ⟨h1, h2⟩ := prune_curr hc
    have := h.current au p h1 (PMap.removeKeys_some.mp hp).2
    rw [← hr au h1 h2] at this
    exact this

open Classical in
theorem pages_step {g : Geometry} {s s' : State} {l} (hi : s.Inv g) (h : s.Pages g)
    (hs : Next g s l s') : s'.Pages g := by
  cases hs with
  | readForRecovery hn => exact h
  | freezeForCommit => exact h
  | queryEndLsn hn => exact h
  | @put j' m hn => cases hn with | put h1 h2 h3 => exact ⟨h.units, h.current⟩
  | @discardOld l new f hcd hnf hv =>
    apply pages_prune h
    intro au hc hnd
    show new.root = _
    rw [hv.1.2.2.2.2]
    split
    · rename_i he
      exfalso
      obtain ⟨a, ha, hau⟩ := hi.follows au hc
      apply hnd
      obtain ⟨_, hlast, _⟩ := hi.shape.root_last ha
      refine ⟨⟨_, by rw [← hau]; exact hlast⟩, ?_⟩
      rintro ⟨k, hk⟩
      obtain ⟨hk1, hk2⟩ := Index.discardUpTo_some.mp hk
      have := (hi.shape.domain k).mp (by rw [hk2]; simp)
      omega
    · rfl
  | @marshal cut a hn h1 h2 =>
    obtain ⟨p, hp, haw, hpa, hpf⟩ := hn.1
    have hcur : ((s.mini.allocate g a).observe a).curr =
        if (p.reserve (fun x => x = a)).allAllocated g then none else some a.au := by
      show (s.mini.allocate g a).curr = _
      simp only [MiniAlloc.allocate, hp, Option.getD_some]
    have hall : ((p.reserve (fun x => x = a)).observe (fun x => x = a)).allAllocated g ↔
        (p.reserve (fun x => x = a)).allAllocated g := by
      constructor
      · intro hx x hw hxa
        rcases hx x hw hxa with h3 | h3 | h3
        · exact .inl h3
        · exact .inr h3
        · exact .inl (.inr h3)
      · intro hx x hw hxa
        rcases hx x hw hxa with h3 | h3
        · exact .inl h3
        · exact .inr (.inl h3)
    have hfill : ∀ x : Address, x.wf g → x.au = a.au → (p.reserved x ↔ x.page < a.page) := by
      intro x hxw hxa
      cases hc : s.mini.curr with
      | none =>
        obtain ⟨hf, h0⟩ := hn.2.1 hc
        rw [h0]
        exact ⟨fun hx => absurd hx ((hf p hp).2 x), fun hx => absurd hx (by omega)⟩
      | some au =>
        obtain ⟨t, ht, hta⟩ := hi.follows au hc
        have hat := hn.2.2 (by rw [hc]; simp) t ht
        have hau : au = a.au := by rw [hat, ← hta]; rfl
        subst hau
        obtain ⟨⟨t', ht', _, hfl⟩, _⟩ := h.current _ p hc hp
        rw [ht] at ht'; cases ht'
        rw [hfl x hxw hxa, hat]
        show _ ↔ x.page < t.page + 1
        omega
    constructor
    · intro au q hq
      simp only at hq ⊢
      rw [mini_take hp] at hq
      by_cases hxa : au = a.au
      · subst hxa
        rw [PMap.insert_same] at hq; cases hq
        by_cases hf : (p.reserve (fun x => x = a)).allAllocated g
        · exact .inr (.inl (hall.mpr hf))
        · exact .inr (.inr (by rw [hcur, if_neg hf]))
      · rw [PMap.insert_other _ _ hxa] at hq
        rcases h.units au q hq with h3 | h3 | h3
        · exact .inl h3
        · exact .inr (.inl h3)
        · obtain ⟨t, ht, hta⟩ := hi.follows au h3
          have hat := hn.2.2 (by rw [h3]; simp) t ht
          exact absurd (by rw [hat, ← hta]; rfl) hxa
    · intro au q hc hq
      simp only at hc hq ⊢
      rw [hcur] at hc
      split at hc
      · cases hc
      · rename_i hf
        cases hc
        rw [mini_take hp, PMap.insert_same] at hq; cases hq
        refine ⟨⟨a, rfl, rfl, ?_⟩, fun hc => hf (hall.mp hc)⟩
        intro x hxw hxa
        show p.reserved x ∨ x = a ↔ _
        rw [hfill x hxw hxa]
        constructor
        · rintro (h3 | rfl) <;> omega
        · intro h3
          by_cases h4 : x.page = a.page
          · right; ext
            · exact hxa
            · exact h4
          · left; omega
  | @fill allocs h1 h2 =>
    constructor
    · intro au p hp
      rcases addAus_some hp with h3 | ⟨_, _, rfl⟩
      · exact h.units au p h3
      · exact .inl ⟨fun _ hf => hf.elim, fun _ hf => hf.elim⟩
    · intro au p hc hp
      rcases addAus_some hp with h3 | ⟨h3, _, _⟩
      · exact h.current au p hc h3
      · exact absurd h3 (hi.mwf.2 au hc)
  | prune h1 => exact pages_prune h (fun _ _ _ => rfl)
  | noop => exact h

theorem pages_init {g : Geometry} {i : Image} {s} (h : Init g i s) : s.Pages g := by
  obtain ⟨_, _, _, _, hm⟩ := h
  constructor
  · intro au p hp; rw [hm] at hp; cases hp
  · intro au p hc; rw [hm] at hc; cases hc

theorem reachable_pages {g : Geometry} {i : Image} {s} (h : (machine g i).Reachable s) :
    s.Inv g ∧ s.Pages g :=
  Machine.reachable_invariant (M := machine g i) (I := fun s => s.Inv g ∧ s.Pages g)
    (fun _ h => ⟨init_inv h, pages_init h⟩)
    (fun _ _ _ h hs => ⟨step_inv h.1 hs, pages_step h.1 h.2 hs⟩) h

/-- While some unit has a free page, there is an address to write the next block at. -/
theorem next_addr_exists {g : Geometry} {s : State} (hi : s.Inv g) (h : s.Pages g) {au p}
    (hp : s.mini.allocs au = some p) (hf : ¬ p.allAllocated g) :
    ∃ a, TightNext g s.mini s.j.tj.root a := by
  have key : ∀ q : PageAlloc, ¬ q.allAllocated g → ∃ x : Address, x.wf g ∧ x.au = q.au ∧
      ¬ (q.reserved x ∨ q.observed x) := by
    intro q hq
    apply Classical.byContradiction
    intro hn
    apply hq
    intro x h1 h2
    apply Classical.byContradiction
    intro h3
    exact hn ⟨x, h1, h2, h3⟩
  cases hc : s.mini.curr with
  | none =>
    have hfree : allPagesFree p := by
      rcases h.units au p hp with h3 | h3 | h3
      · exact h3
      · exact absurd h3 hf
      · rw [hc] at h3; cases h3
    obtain ⟨x, hx, hxa, _⟩ := key p hf
    have hpa := (hi.mwf.1 au p hp).2
    refine ⟨⟨au, 0⟩, ⟨p, hp, ⟨?_, ?_⟩, hpa.symm, ?_⟩, fun _ => ⟨?_, rfl⟩, fun hn => absurd hc hn⟩
    · have := hx.1; rw [hxa, hpa] at this; exact this
    · have := hx.2
      show 0 < _
      omega
    · rintro (h3 | h3)
      · exact hfree.1 _ h3
      · exact hfree.2 _ h3
    · intro q hq
      have hq : s.mini.allocs au = some q := hq
      rw [hp] at hq; cases hq; exact hfree
  | some c =>
    obtain ⟨q, hq⟩ := (PMap.has_iff _ _).mp (hi.mwf.2 c hc)
    obtain ⟨⟨t, ht, hta, hfl⟩, hna⟩ := h.current c q hc hq
    obtain ⟨x, hx, hxa, hxf⟩ := key q hna
    have hqa := (hi.mwf.1 c q hq).2
    have hxp : ¬ x.page ≤ t.page := fun hle => hxf (.inl ((hfl x hx (by rw [hxa, hqa])).mpr hle))
    have hnw : t.next.wf g := by
      refine ⟨?_, ?_⟩
      · have := hx.1; rw [hxa, hqa, ← hta] at this; exact this
      · have := hx.2
        show t.page + 1 < _
        omega
    have hnr : ¬ q.reserved t.next := by
      intro h3
      have h4 := (hfl t.next hnw hta).mp h3
      have h4 : t.page + 1 ≤ t.page := h4
      omega
    refine ⟨t.next, ⟨q, ?_, hnw, ?_, ?_⟩, ?_, ?_⟩
    · rw [show t.next.au = c from hta]; exact hq
    · rw [hqa]; exact hta
    · rintro (h3 | h3)
      · exact hnr (hi.observed c q hq _ h3)
      · exact hnr h3
    · intro h3; rw [hc] at h3; cases h3
    · intro _ t' ht'; rw [ht] at ht'; cases ht'; rfl

end Verif.AllocJ
