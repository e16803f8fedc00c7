import Verif.Disk.Cache
/-
C28. In every reachable cache state two different slots never hold the same page, and the lookup
table maps an address to a slot exactly when that slot holds the address.

Specification: `Holds c sl a` says that slot `sl` is occupied by page `a`, whether it is
reserved, being loaded, or filled. The environment may answer disk requests with anything.
-/
namespace Verif.C28
open Verif.Cache

/-- slot `sl` is occupied by page `a` -/
def Holds (c : State) (sl : Slot) (a : Address) : Prop :=
  c.entries sl = some (.reserved a) ∨ c.entries sl = some (.loading a) ∨
    ∃ d, c.entries sl = some (.filled a d)

theorem holds_iff (c : State) (sl : Slot) (a : Address) :
    Holds c sl a ↔ ∃ e, c.entries sl = some e ∧ e.addr? = some a := by
  constructor
  · rintro (h | h | ⟨d, h⟩) <;> exact ⟨_, h, rfl⟩
  · rintro ⟨e, h, ha⟩
    cases e <;> cases ha
    · exact .inl h
    · exact .inr (.inl h)
    · exact .inr (.inr ⟨_, h⟩)

/-- The lookup table is exact. -/
theorem lookup_exact {c} (h : machine.Reachable c) (a : Address) (sl : Slot) :
    c.lookup a = some sl ↔ Holds c sl a := by
  rw [holds_iff]; exact (wf_reachable h).look a sl

/-- No page is in two slots. -/
theorem slots_unique {c} (h : machine.Reachable c) {a sl sl'} (h1 : Holds c sl a)
    (h2 : Holds c sl' a) : sl = sl' := by
  rw [← lookup_exact h] at h1 h2
  rw [h1] at h2; exact Option.some.inj h2

/-- No two pages in one slot. -/
theorem pages_unique {c : State} {a a' sl} (h1 : Holds c sl a) (h2 : Holds c sl a') : a = a' := by
  rw [holds_iff] at h1 h2
  obtain ⟨e, he, ha⟩ := h1
  obtain ⟨e', he', ha'⟩ := h2
  rw [he] at he'; cases he'; rw [ha] at ha'; exact Option.some.inj ha'

/-- The status table agrees with the slots: a status for every slot, and it says "not filled"
exactly for the slots without data. -/
theorem status_exact {c} (h : machine.Reachable c) (sl : Slot) :
    (c.status.Has sl ↔ c.entries.Has sl) ∧
      ∀ e, c.entries sl = some e → (c.status sl = some .notFilled ↔ ∀ a d, e ≠ .filled a d) := by
  refine ⟨not_congr ((wf_reachable h).dom sl), fun e he => ?_⟩
  rw [(wf_reachable h).stat sl e he]
  constructor
  · intro hn a d hc; exact hn ⟨a, d, hc⟩
  · rintro hn ⟨a, d, hc⟩; exact hn a d hc

/-! ### The invariant written in the source is not an invariant -/

open Classical in
/-- Cache_v.rs 321-329 `build_lookup_map`: the inverse of the table of *filled* slots -/
noncomputable def buildLookup (c : State) : PMap Address Slot :=
  PMap.invert (fun sl => match c.entries sl with
    | some (.filled a _) => some a
    | _ => none)

def pg : Address := ⟨1, 2⟩

/-- one page reserved in slot 0 of a two-slot cache -/
noncomputable def afterReserve : State := reserve (init 2) (PMap.empty.insert 0 pg)

theorem afterReserve_reachable : machine.Reachable afterReserve := by
  refine ⟨[.internal], init 2, ⟨2, rfl⟩, .single (Next.reserve _ ⟨?_, ?_, ?_⟩)⟩
  · intro j k v hj hk
    by_cases h1 : j = 0 <;> by_cases h2 : k = 0 <;> simp_all [PMap.insert]
  · intro sl a _ h; exact h rfl
  · intro sl h
    by_cases h1 : sl = 0
    · subst h1; rfl
    · exact absurd (PMap.insert_other _ _ h1) h

/-- After one `reserve` the clause `lookup_map == build_lookup_map()` of the source's invariant
(Cache_v.rs 306) is false: the page is in the lookup table but its slot is not filled. The
theorems above use the corrected clause. -/
theorem source_invariant_broken : ∃ c, machine.Reachable c ∧ c.lookup ≠ buildLookup c := by
  refine ⟨afterReserve, afterReserve_reachable, ?_⟩
  have h0 : Holds afterReserve 0 pg := by
    left
    simp [afterReserve, reserve, PMap.unionRight, PMap.mapVal]
  have hl := (lookup_exact afterReserve_reachable pg 0).mpr h0
  intro hc
  rw [hc] at hl
  have := PMap.invert_some hl
  have he : afterReserve.entries 0 = some (.reserved pg) := by
    simp [afterReserve, reserve, PMap.unionRight, PMap.mapVal]
  rw [he] at this; cases this

/-! ### A concrete state: page in the table, table exact -/

example : afterReserve.lookup pg = some 0 ∧ Holds afterReserve 0 pg := by
  have h0 : Holds afterReserve 0 pg := by
    left
    simp [afterReserve, reserve, PMap.unionRight, PMap.mapVal]
  exact ⟨(lookup_exact afterReserve_reachable pg 0).mpr h0, h0⟩

end Verif.C28
