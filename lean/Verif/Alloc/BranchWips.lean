import Verif.Alloc.AllocationBranchBetree
import Verif.Props.C44
/-
The branches under construction. Proofs only; no code is modelled here.
-/
namespace Verif.ABB
open Verif ABr

/-- Each has a history of its own and no two share a unit. -/
structure Wips (g : Geometry) (w : Prop) (bs : List AllocBranch) : Prop where
  hist : ∀ b ∈ bs, ∃ free tr, (ABr.machine g w free).Exec tr b
  apart : ∀ (i j : Nat) b c u, bs[i]? = some b → bs[j]? = some c → allAus b.mini u →
    allAus c.mini u → i = j

variable {g : Geometry} {w : Prop} {bs : List AllocBranch}

theorem wips_nil : Wips g w [] := ⟨(fun _ h => by cases h), fun i j b c u h => by simp at h⟩

theorem alloc_nil (u : Nat) : ¬ allocAus [] u := by rintro ⟨b, hb, _⟩; cases hb

theorem alloc_at {i : Nat} {b u} (hi : bs[i]? = some b) (hu : allAus b.mini u) : allocAus bs u :=
  ⟨b, List.mem_of_getElem? hi, hu⟩

theorem alloc_get {u : Nat} (h : allocAus bs u) : ∃ (i : Nat) (b : AllocBranch), bs[i]? = some b ∧ allAus b.mini u := by
  obtain ⟨b, hb, hu⟩ := h
  obtain ⟨i, hi⟩ := List.getElem?_of_mem hb
  exact ⟨i, b, hi, hu⟩

theorem new_aus (free : PSet Nat) (u : Nat) : allAus (AllocBranch.new free).mini u ↔ free u :=
  (built_new ⟨0, 0⟩ free).held u

theorem alloc_append (b : AllocBranch) (u : Nat) :
    allocAus (bs ++ [b]) u ↔ allocAus bs u ∨ allAus b.mini u := by
  unfold allocAus
  constructor
  · rintro ⟨c, hc, hu⟩
    rcases List.mem_append.mp hc with h | h
    · exact .inl ⟨c, h, hu⟩
    · rw [List.mem_singleton.mp h] at hu; exact .inr hu
  · rintro (⟨c, hc, hu⟩ | hu)
    · exact ⟨c, List.mem_append_left _ hc, hu⟩
    · exact ⟨b, List.mem_append_right _ (List.mem_singleton.mpr rfl), hu⟩

theorem Wips.append (h : Wips g w bs) {b : AllocBranch}
    (hb : ∃ free tr, (ABr.machine g w free).Exec tr b)
    (hf : ∀ u, allAus b.mini u → ¬ allocAus bs u) : Wips g w (bs ++ [b]) := by
  constructor
  · intro c hc
    rcases List.mem_append.mp hc with h1 | h1
    · exact h.hist c h1
    · rw [List.mem_singleton.mp h1]; exact hb
  · intro i j c d u hi hj hu hv
    have key : ∀ (i : Nat) c, (bs ++ [b])[i]? = some c → (bs[i]? = some c) ∨ (i = bs.length ∧ c = b) := by
      intro i c hi
      rw [List.getElem?_append] at hi
      split at hi
      · exact .inl hi
      · rename_i hlt
        rw [List.getElem?_singleton] at hi
        split at hi
        · cases hi; exact .inr ⟨by omega, rfl⟩
        · cases hi
    rcases key i c hi with h1 | ⟨h1, rfl⟩ <;> rcases key j d hj with h2 | ⟨h2, rfl⟩
    · exact h.apart i j c d u h1 h2 hu hv
    · exact absurd (alloc_at h1 hu) (hf u hv)
    · exact absurd (alloc_at h2 hv) (hf u hu)
    · rw [h1, h2]

theorem erase_get {α : Type} {l : List α} {i j : Nat} {x : α} (h : (l.eraseIdx i)[j]? = some x) :
    ∃ k, k ≠ i ∧ l[k]? = some x ∧ (k = if j < i then j else j + 1) := by
  rw [List.getElem?_eraseIdx] at h
  split at h
  · exact ⟨j, by omega, h, by rw [if_pos ‹_›]⟩
  · exact ⟨j + 1, by omega, h, by rw [if_neg ‹_›]⟩

theorem Wips.erase (h : Wips g w bs) (i : Nat) : Wips g w (bs.eraseIdx i) := by
  constructor
  · intro c hc; exact h.hist c (List.mem_of_mem_eraseIdx hc)
  · intro a b c d u ha hb hu hv
    obtain ⟨k, _, h1, h2⟩ := erase_get ha
    obtain ⟨l, _, h3, h4⟩ := erase_get hb
    have := h.apart k l c d u h1 h3 hu hv
    subst this
    rw [h2] at h4
    split at h4 <;> split at h4 <;> omega

theorem Wips.erase_aus (h : Wips g w bs) {i : Nat} {b} (hi : bs[i]? = some b) (u : Nat) :
    allocAus (bs.eraseIdx i) u ↔ allocAus bs u ∧ ¬ allAus b.mini u := by
  constructor
  · intro hu
    obtain ⟨j, c, hc, hcu⟩ := alloc_get hu
    obtain ⟨k, hk, h1, _⟩ := erase_get hc
    exact ⟨alloc_at h1 hcu, fun hb => hk (h.apart k i c b u h1 hi hcu hb)⟩
  · rintro ⟨hu, hn⟩
    obtain ⟨j, c, hc, hcu⟩ := alloc_get hu
    refine ⟨c, List.mem_eraseIdx_iff_getElem?.mpr ⟨j, ?_, hc⟩, hcu⟩
    rintro rfl
    rw [hi] at hc; cases hc
    exact hn hcu

theorem Wips.set_aus (h : Wips g w bs) {i : Nat} {b} (hi : bs[i]? = some b) (b' : AllocBranch) (u : Nat) :
    allocAus (bs.set i b') u ↔ (allocAus bs u ∧ ¬ allAus b.mini u) ∨ allAus b'.mini u := by
  have hlt : i < bs.length := (List.getElem?_eq_some_iff.mp hi).1
  constructor
  · intro hu
    obtain ⟨j, c, hc, hcu⟩ := alloc_get hu
    rw [List.getElem?_set] at hc
    by_cases hne : i = j
    · rw [if_pos hne, if_pos hlt] at hc; cases hc; exact .inr hcu
    · rw [if_neg hne] at hc
      exact .inl ⟨alloc_at hc hcu, fun hb => hne (h.apart i j b c u hi hc hb hcu)⟩
  · rintro (⟨hu, hn⟩ | hu)
    · obtain ⟨j, c, hc, hcu⟩ := alloc_get hu
      refine alloc_at (i := j) (b := c) ?_ hcu
      rw [List.getElem?_set, if_neg]
      · exact hc
      · rintro rfl
        rw [hi] at hc; cases hc
        exact hn hcu
    · refine alloc_at (i := i) (b := b') ?_ hu
      rw [List.getElem?_set, if_pos rfl, if_pos hlt]

theorem Wips.set (h : Wips g w bs) {i : Nat} {b b'} (hi : bs[i]? = some b)
    (hb : ∃ free tr, (ABr.machine g w free).Exec tr b')
    (hf : ∀ u, allAus b'.mini u → allAus b.mini u ∨ ¬ allocAus bs u) : Wips g w (bs.set i b') := by
  have hlt : i < bs.length := (List.getElem?_eq_some_iff.mp hi).1
  constructor
  · intro c hc
    rcases List.mem_or_eq_of_mem_set hc with h1 | h1
    · exact h.hist c h1
    · rw [h1]; exact hb
  · intro j k c d u hc hd hu hv
    have key : ∀ (j : Nat) c, (bs.set i b')[j]? = some c → (j ≠ i ∧ bs[j]? = some c) ∨ (j = i ∧ c = b') := by
      intro j c hj
      rw [List.getElem?_set] at hj
      by_cases e : i = j
      · rw [if_pos e, if_pos hlt] at hj; cases hj; exact .inr ⟨e.symm, rfl⟩
      · rw [if_neg e] at hj
        exact .inl ⟨fun h => e h.symm, hj⟩
    rcases key j c hc with ⟨h1, h2⟩ | ⟨h1, rfl⟩ <;> rcases key k d hd with ⟨h3, h4⟩ | ⟨h3, rfl⟩
    · exact h.apart j k c d u h2 h4 hu hv
    · rcases hf u hv with hx | hx
      · exact absurd (h.apart j i c b u h2 hi hu hx) h1
      · exact absurd (alloc_at h2 hu) hx
    · rcases hf u hu with hx | hx
      · exact absurd (h.apart k i d b u h4 hi hv hx) h3
      · exact absurd (alloc_at h4 hv) hx
    · rw [h1, h3]

/-- What an event does to the units of a branch. -/
theorem Wips.build (h : Wips g w bs) {i : Nat} {b b' e allocs deallocs} (hi : bs[i]? = some b)
    (hf : ∀ u, allocAus bs u → ¬ allocs u) (hb : BuildNext g b e allocs deallocs b') :
    Wips g w (bs.set i b') ∧
    (∀ u, allocAus (bs.set i b') u ↔ (allocAus bs u ∨ allocs u) ∧ ¬ deallocs u) ∧
    ∀ u, deallocs u → allAus b.mini u := by
  obtain ⟨free, tr, hx⟩ := h.hist b (List.mem_of_getElem? hi)
  have hy := hx.snoc (ABr.Next.build (w := w) hb)
  have h1 := (built hx).held
  have h2 := (built hy).held
  have hd : ∀ u, deallocs u → allAus b.mini u := fun u hu =>
    (h1 u).mpr ((C44.given_back_unused hx (.build hb)).1 u hu).1
  have hall : ∀ u, allAus b'.mini u ↔ (allAus b.mini u ∨ allocs u) ∧ ¬ deallocs u := by
    intro u
    have e1 := h1 u
    have e2 := h2 u
    rw [held_snoc] at e2
    unfold allAus
    rw [e2, e1]
    exact Iff.rfl
  have hset : Wips g w (bs.set i b') := h.set hi ⟨free, _, hy⟩ (fun u hu => by
    rcases ((hall u).mp hu).1 with h3 | h3
    · exact .inl h3
    · exact .inr fun h4 => hf u h4 h3)
  refine ⟨hset, fun u => ?_, hd⟩
  rw [h.set_aus hi, hall]
  constructor
  · rintro (⟨h3, h4⟩ | ⟨h3, h4⟩)
    · exact ⟨.inl h3, fun h5 => h4 (hd u h5)⟩
    · exact ⟨h3.imp (fun h5 => alloc_at hi h5) id, h4⟩
  · rintro ⟨h3, h4⟩
    by_cases hb : allAus b.mini u
    · exact .inr ⟨.inl hb, h4⟩
    · rcases h3 with h3 | h3
      · exact .inl ⟨h3, hb⟩
      · exact .inr ⟨.inr h3, h4⟩

theorem Wips.grow (h : Wips g w bs) (hw : w) {i : Nat} {b br a} (hi : bs[i]? = some b)
    (hc : b.CanGrow g br a) :
    Wips g w (bs.set i (b.grow g br a)) ∧
    ∀ u, allocAus (bs.set i (b.grow g br a)) u ↔ allocAus bs u := by
  obtain ⟨free, tr, hx⟩ := h.hist b (List.mem_of_getElem? hi)
  have hy := hx.snoc (ABr.Next.grow hw hc)
  have hall : ∀ u, allAus (b.grow g br a).mini u ↔ allAus b.mini u := by
    intro u
    have e2 := (built hy).held u
    rw [held_snoc] at e2
    exact e2.trans ((built hx).held u).symm
  refine ⟨h.set hi ⟨free, _, hy⟩ (fun u hu => .inl ((hall u).mp hu)), fun u => ?_⟩
  rw [h.set_aus hi, hall]
  by_cases hb : allAus b.mini u
  · simp [hb, alloc_at hi hb]
  · simp [hb]

/-- A finished branch. -/
theorem Wips.done (h : Wips g w bs) {i : Nat} {b br} (hi : bs[i]? = some b)
    (hs : b.isSealed = true) (hbr : b.branch = some br) :
    ValidSealedBranch br ∧ TightWithSummary br ∧ ∀ u, getSummary br u ↔ allAus b.mini u := by
  obtain ⟨free, tr, hx⟩ := h.hist b (List.mem_of_getElem? hi)
  exact ((C44.inv_always hx).2.2 br hbr).1 hs

end Verif.ABB
