import Verif.Kv.Bitmap
import Verif.Kv.BlockAlloc
import Mathlib.Tactic.Tauto

/-!
C72.  The block allocator of VeriBetrKV, coded as five bitmaps in words of 64 bits, is what it should be:
whatever is marked used, freed, copied and moved, no access is outside an array, and a block it gives
out is on the disk, and neither in the ephemeral table, nor in the frozen one, nor in the persistent
one, nor being written.  It is the least such block, and there is none only if the disk is full,
unless the table is frozen again before the frozen one is persistent.

Specification: `Ledger`, four sets of block numbers, and what each call does to them.
-/

namespace Verif.C72

/-- Which blocks are used, by whom. -/
structure Ledger where
  ephemeral : Nat → Prop
  frozen : Option (Nat → Prop)
  persistent : Nat → Prop
  writing : Nat → Prop

/-- The block is used by somebody. -/
def Ledger.Used (l : Ledger) (i : Nat) : Prop :=
  l.ephemeral i ∨ (∃ z, l.frozen = some z ∧ z i) ∨ l.persistent i ∨ l.writing i

/-- The calls. -/
inductive Call where
  | useEphemeral (i : Nat)
  | useFrozen (i : Nat)
  | startWrite (i : Nat)
  | endWrite (i : Nat)
  | freeEphemeral (i : Nat)
  | persist
  | freeze

/-- What the calls do. -/
def Ledger.after (l : Ledger) : Call → Ledger
  | .useEphemeral i => { l with ephemeral := fun x => l.ephemeral x ∨ x = i }
  | .useFrozen i => { l with frozen := l.frozen.map (fun z x => z x ∨ x = i) }
  | .startWrite i => { l with writing := fun x => l.writing x ∨ x = i }
  | .endWrite i => { l with writing := fun x => l.writing x ∧ x ≠ i }
  | .freeEphemeral i => { l with ephemeral := fun x => l.ephemeral x ∧ x ≠ i }
  | .persist => { l with frozen := none, persistent := l.frozen.getD l.persistent }
  | .freeze => { l with frozen := some l.ephemeral }

/-- When the calls are allowed: the block is on the disk, and there is a frozen table for the calls that
need one. -/
def Ledger.Allowed (n : Nat) (l : Ledger) : Call → Prop
  | .useEphemeral i => i < n
  | .useFrozen i => i < n ∧ l.frozen ≠ none
  | .startWrite i => i < n
  | .endWrite i => i < n
  | .freeEphemeral i => i < n
  | .persist => l.frozen ≠ none
  | .freeze => True

/-- All the calls are allowed. -/
def AllAllowed (n : Nat) : Ledger → List Call → Prop
  | _, [] => True
  | l, c :: cs => l.Allowed n c ∧ AllAllowed n (l.after c) cs

/-- The table is frozen only when no table is frozen. -/
def FreezeOnce : Ledger → List Call → Prop
  | _, [] => True
  | l, c :: cs => (c = .freeze → l.frozen = none) ∧ FreezeOnce (l.after c) cs

/-- At the start the tables on the disk and in memory are the same. -/
def start (p : Nat → Prop) : Ledger := ⟨p, none, p, fun _ => False⟩

/-- The code; `none` if an access is outside an array. -/
def call (a : Bits.BlockAllocator) : Call → Option Bits.BlockAllocator
  | .useEphemeral i => a.markUsedEphemeral i
  | .useFrozen i => a.markUsedFrozen i
  | .startWrite i => a.markUsedOutstanding i
  | .endWrite i => a.markFreeOutstanding i
  | .freeEphemeral i => a.markFreeEphemeral i
  | .persist => a.moveFrozenToPersistent
  | .freeze => a.copyEphemeralToFrozen

/-- The code run on calls. -/
def calls : Bits.BlockAllocator → List Call → Option Bits.BlockAllocator
  | a, [] => some a
  | a, c :: cs => match call a c with
    | none => none
    | some a' => calls a' cs

/-! ### Proof -/

open Bits (Rep)

/-- The bitmaps are the sets; the last one has at least the blocks in use. -/
structure Inv (n : Nat) (a : Bits.BlockAllocator) (l : Ledger) (F : Nat → Prop) : Prop where
  eph : Rep n l.ephemeral a.ephemeral
  frozen : (a.frozen = none ∧ l.frozen = none) ∨ ∃ b z, a.frozen = some b ∧ l.frozen = some z ∧ Rep n z b
  pers : Rep n l.persistent a.persistent
  out : Rep n l.writing a.outstanding
  full : Rep n F a.full
  cover : ∀ i, i < n → l.Used i → F i

theorem Inv.inFrozen {n a l F} (h : Inv n a l F) {i : Nat} (hi : i < n) :
    ∃ r, a.inFrozen i = some r ∧ (r = true ↔ ∃ z, l.frozen = some z ∧ z i) := by
  unfold Bits.BlockAllocator.inFrozen
  rcases h.frozen with ⟨h1, h2⟩ | ⟨b, z, h1, h2, h3⟩
  · rw [h1]
    exact ⟨false, rfl, by simp [h2]⟩
  · rw [h1]
    obtain ⟨r, g1, g2⟩ := h3.isSet hi
    refine ⟨r, g1, g2.trans ⟨fun g => ⟨z, h2, g⟩, ?_⟩⟩
    rintro ⟨z', g3, g4⟩
    rw [h2] at g3
    cases g3
    exact g4

/-- One call. The set of the last bitmap is exact after it if it was before, but for a second freezing. -/
theorem step {n a l F} (h : Inv n a l F) {c : Call} (hc : l.Allowed n c) :
    ∃ a' F', call a c = some a' ∧ Inv n a' (l.after c) F' ∧
      ((∀ i, i < n → (F i ↔ l.Used i)) → (c = .freeze → l.frozen = none) →
        ∀ i, i < n → (F' i ↔ (l.after c).Used i)) := by
  cases c with
  | useEphemeral i =>
    obtain ⟨e, h1, h2⟩ := h.eph.set hc
    obtain ⟨f, h3, h4⟩ := h.full.set hc
    refine ⟨{ a with ephemeral := e, full := f }, _, by simp [call, Bits.BlockAllocator.markUsedEphemeral, h1, h3],
      ⟨h2, h.frozen, h.pers, h.out, h4, fun x hx hu => ?_⟩, fun he _ x hx => ?_⟩
    · have := h.cover x hx
      simp only [Ledger.after, Ledger.Used] at hu this ⊢
      grind
    · have := he x hx
      simp only [Ledger.after, Ledger.Used] at this ⊢
      grind
  | useFrozen i =>
    rcases h.frozen with ⟨_, g⟩ | ⟨b, z, g1, g2, g3⟩
    · exact absurd g hc.2
    obtain ⟨e, h1, h2⟩ := g3.set hc.1
    obtain ⟨f, h3, h4⟩ := h.full.set hc.1
    refine ⟨{ a with frozen := some e, full := f }, _, by simp [call, Bits.BlockAllocator.markUsedFrozen, g1, h1, h3],
      ⟨h.eph, .inr ⟨e, _, rfl, by simp only [Ledger.after, g2]; rfl, h2⟩, h.pers, h.out, h4, fun x hx hu => ?_⟩,
      fun he _ x hx => ?_⟩
    · have := h.cover x hx
      simp only [Ledger.after, Ledger.Used, g2, Option.map_some, Option.some.injEq, exists_eq_left'] at hu this ⊢
      grind
    · have := he x hx
      simp only [Ledger.after, Ledger.Used, g2, Option.map_some, Option.some.injEq, exists_eq_left'] at this ⊢
      grind
  | startWrite i =>
    obtain ⟨e, h1, h2⟩ := h.out.set hc
    obtain ⟨f, h3, h4⟩ := h.full.set hc
    refine ⟨{ a with outstanding := e, full := f }, _, by simp [call, Bits.BlockAllocator.markUsedOutstanding, h1, h3],
      ⟨h.eph, h.frozen, h.pers, h2, h4, fun x hx hu => ?_⟩, fun he _ x hx => ?_⟩
    · have := h.cover x hx
      simp only [Ledger.after, Ledger.Used] at hu this ⊢
      grind
    · have := he x hx
      simp only [Ledger.after, Ledger.Used] at this ⊢
      grind
  | endWrite i =>
    obtain ⟨e, h1, h2⟩ := h.out.unset hc
    obtain ⟨f, h3, h4⟩ := h.full.unset hc
    obtain ⟨r0, k0, k0'⟩ := h.inFrozen hc
    obtain ⟨r1, k1, k1'⟩ := h.eph.isSet hc
    obtain ⟨r2, k2, k2'⟩ := h.pers.isSet hc
    have stay : r0 = true ∨ r1 = true ∨ r2 = true → call a (.endWrite i) = some { a with outstanding := e } →
        ∃ a' F', call a (.endWrite i) = some a' ∧ Inv n a' (l.after (.endWrite i)) F' ∧
      ((∀ i, i < n → (F i ↔ l.Used i)) → (Call.endWrite i = .freeze → l.frozen = none) →
        ∀ j, j < n → (F' j ↔ (l.after (.endWrite i)).Used j)) := by
      intro hr hcall
      refine ⟨_, F, hcall, ⟨h.eph, h.frozen, h.pers, h2, h.full, fun x hx hu => ?_⟩, fun he _ x hx => ?_⟩
      · have := h.cover x hx
        simp only [Ledger.after, Ledger.Used] at hu this ⊢
        grind
      · have := he x hx
        rw [k0', k1', k2'] at hr
        by_cases hxi : x = i
        · subst hxi
          simp only [Ledger.after, Ledger.Used] at this hr ⊢
          grind
        · simp only [Ledger.after, Ledger.Used] at this ⊢
          grind
    cases r0 with
    | true => exact stay (.inl rfl) (by simp [call, Bits.BlockAllocator.markFreeOutstanding, h1, k0])
    | false =>
      cases r1 with
      | true => exact stay (.inr (.inl rfl)) (by simp [call, Bits.BlockAllocator.markFreeOutstanding, h1, k0, k1])
      | false =>
        cases r2 with
        | true => exact stay (.inr (.inr rfl)) (by simp [call, Bits.BlockAllocator.markFreeOutstanding, h1, k0, k1, k2])
        | false =>
          simp only [Bool.false_eq_true, false_iff] at k0' k1' k2'
          refine ⟨{ a with outstanding := e, full := f }, _,
            by simp [call, Bits.BlockAllocator.markFreeOutstanding, h1, k0, k1, k2, h3],
            ⟨h.eph, h.frozen, h.pers, h2, h4, fun x hx hu => ?_⟩, fun he _ x hx => ?_⟩
          · have := h.cover x hx
            by_cases hxi : x = i
            · subst hxi
              simp only [Ledger.after, Ledger.Used] at hu
              grind
            · simp only [Ledger.after, Ledger.Used] at hu this ⊢
              grind
          · have := he x hx
            by_cases hxi : x = i
            · subst hxi
              simp only [Ledger.after, Ledger.Used]
              grind
            · simp only [Ledger.after, Ledger.Used] at this ⊢
              grind
  | freeEphemeral i =>
    obtain ⟨e, h1, h2⟩ := h.eph.unset hc
    obtain ⟨f, h3, h4⟩ := h.full.unset hc
    obtain ⟨r0, k0, k0'⟩ := h.inFrozen hc
    obtain ⟨r1, k1, k1'⟩ := h.out.isSet hc
    obtain ⟨r2, k2, k2'⟩ := h.pers.isSet hc
    have stay : r0 = true ∨ r1 = true ∨ r2 = true → call a (.freeEphemeral i) = some { a with ephemeral := e } →
        ∃ a' F', call a (.freeEphemeral i) = some a' ∧ Inv n a' (l.after (.freeEphemeral i)) F' ∧
      ((∀ i, i < n → (F i ↔ l.Used i)) → (Call.freeEphemeral i = .freeze → l.frozen = none) →
        ∀ j, j < n → (F' j ↔ (l.after (.freeEphemeral i)).Used j)) := by
      intro hr hcall
      refine ⟨_, F, hcall, ⟨h2, h.frozen, h.pers, h.out, h.full, fun x hx hu => ?_⟩, fun he _ x hx => ?_⟩
      · have := h.cover x hx
        simp only [Ledger.after, Ledger.Used] at hu this ⊢
        grind
      · have := he x hx
        rw [k0', k1', k2'] at hr
        by_cases hxi : x = i
        · subst hxi
          simp only [Ledger.after, Ledger.Used] at this hr ⊢
          grind
        · simp only [Ledger.after, Ledger.Used] at this ⊢
          grind
    cases r0 with
    | true => exact stay (.inl rfl) (by simp [call, Bits.BlockAllocator.markFreeEphemeral, h1, k0])
    | false =>
      cases r1 with
      | true => exact stay (.inr (.inl rfl)) (by simp [call, Bits.BlockAllocator.markFreeEphemeral, h1, k0, k1])
      | false =>
        cases r2 with
        | true => exact stay (.inr (.inr rfl)) (by simp [call, Bits.BlockAllocator.markFreeEphemeral, h1, k0, k1, k2])
        | false =>
          simp only [Bool.false_eq_true, false_iff] at k0' k1' k2'
          refine ⟨{ a with ephemeral := e, full := f }, _,
            by simp [call, Bits.BlockAllocator.markFreeEphemeral, h1, k0, k1, k2, h3],
            ⟨h2, h.frozen, h.pers, h.out, h4, fun x hx hu => ?_⟩, fun he _ x hx => ?_⟩
          · have := h.cover x hx
            by_cases hxi : x = i
            · subst hxi
              simp only [Ledger.after, Ledger.Used] at hu
              grind
            · simp only [Ledger.after, Ledger.Used] at hu this ⊢
              grind
          · have := he x hx
            by_cases hxi : x = i
            · subst hxi
              simp only [Ledger.after, Ledger.Used]
              grind
            · simp only [Ledger.after, Ledger.Used] at this ⊢
              grind
  | persist =>
    rcases h.frozen with ⟨_, g⟩ | ⟨b, z, g1, g2, g3⟩
    · exact absurd g hc
    obtain ⟨fo, h1, h2⟩ := g3.union h.out
    obtain ⟨fu, h3, h4⟩ := h.eph.union h2
    refine ⟨⟨a.ephemeral, none, b, a.outstanding, fu⟩, _, by simp [call, Bits.BlockAllocator.moveFrozenToPersistent, g1, h1, h3],
      ⟨h.eph, .inl ⟨rfl, rfl⟩, by simp only [Ledger.after, g2]; exact g3, h.out, h4, fun x hx hu => ?_⟩,
      fun he _ x hx => ?_⟩
    · simp only [Ledger.after, Ledger.Used, g2, Option.getD_some, reduceCtorEq, false_and, exists_false, false_or] at hu
      exact hu
    · simp only [Ledger.after, Ledger.Used, g2, Option.getD_some, reduceCtorEq, false_and, exists_false, false_or]
  | freeze =>
    refine ⟨_, F, rfl, ⟨h.eph, .inr ⟨_, _, rfl, rfl, h.eph⟩, h.pers, h.out, h.full, fun x hx hu => ?_⟩,
      fun he hf x hx => ?_⟩
    · have := h.cover x hx
      simp only [Ledger.after, Ledger.Used, Option.some.injEq, exists_eq_left'] at hu this ⊢
      grind
    · have := he x hx
      simp only [Ledger.after, Ledger.Used, hf rfl, Option.some.injEq, exists_eq_left', reduceCtorEq, false_and,
        exists_false, false_or] at this ⊢
      grind

theorem steps {n : Nat} : ∀ (cs : List Call) {a l F}, Inv n a l F → AllAllowed n l cs →
    ∃ a' F', calls a cs = some a' ∧ Inv n a' (cs.foldl Ledger.after l) F' ∧
      ((∀ i, i < n → (F i ↔ l.Used i)) → FreezeOnce l cs →
        ∀ i, i < n → (F' i ↔ (cs.foldl Ledger.after l).Used i))
  | [], a, l, F, h, _ => ⟨a, F, rfl, h, fun he _ => he⟩
  | c :: cs, a, l, F, h, hl => by
    obtain ⟨a1, F1, h1, h2, h3⟩ := step h hl.1
    obtain ⟨a2, F2, g1, g2, g3⟩ := steps cs h2 hl.2
    exact ⟨a2, F2, by simp only [calls, h1, g1], g2, fun he hf => g3 (h3 he hf.1) hf.2⟩

theorem begin_ {n : Nat} (hn : n % 64 = 0) {p : Nat → Prop} {bm : Bits.Bitmap} (h : Rep n p bm) :
    Inv n (.new n bm) (start p) p ∧ ∀ i, i < n → (p i ↔ (start p).Used i) := by
  refine ⟨⟨h, .inl ⟨rfl, rfl⟩, h, Rep.new hn, h, fun i _ hu => ?_⟩, fun i _ => ?_⟩
  · simp only [start, Ledger.Used, reduceCtorEq, false_and, exists_false, false_or, or_false] at hu
    tauto
  · simp only [start, Ledger.Used, reduceCtorEq, false_and, exists_false, false_or, or_false]
    tauto

/-! ### The property -/

/-- The bitmap of a set: built by setting one number after the other in a new one. -/
def build (n : Nat) : List Nat → Option Bits.Bitmap
  | [] => some (Bits.Bitmap.new n)
  | i :: is => match build n is with
    | none => none
    | some b => b.set i

theorem build_rep {n : Nat} (hn : n % 64 = 0) : ∀ (is : List Nat), (∀ i ∈ is, i < n) →
    ∃ b, build n is = some b ∧ Rep n (· ∈ is) b
  | [], _ => ⟨_, rfl, (Rep.new hn).congr (fun _ _ => by simp)⟩
  | i :: is, h => by
    obtain ⟨b, h1, h2⟩ := build_rep hn is (fun j hj => h j (List.mem_cons_of_mem _ hj))
    obtain ⟨b', h3, h4⟩ := h2.set (h i (List.mem_cons_self ..))
    exact ⟨b', by simp only [build, h1, h3], h4.congr (fun _ _ => by rw [List.mem_cons]; exact or_comm)⟩

/-- **A bitmap is a set of numbers**, and the search gives the least number that is not in it. -/
theorem is_a_set {n : Nat} (hn : n % 64 = 0) (is : List Nat) (his : ∀ i ∈ is, i < n) :
    ∃ b, build n is = some b ∧ (∀ i, i < n → b.isSet i = some (decide (i ∈ is))) ∧
      ∀ c, b.alloc = some c ↔ c < n ∧ c ∉ is ∧ ∀ j, j < c → j ∈ is := by
  obtain ⟨b, h1, h2⟩ := build_rep hn is his
  refine ⟨b, h1, fun i hi => ?_, fun c => h2.alloc c⟩
  obtain ⟨r, g1, g2⟩ := h2.isSet hi
  rw [g1]
  cases r with
  | true => rw [decide_eq_true (g2.1 rfl)]
  | false => rw [decide_eq_false (fun hc => nomatch g2.2 hc)]

/-- **No block in use is given out**: after any calls, on a disk of any size, with any table to start
from, the code has made no access outside its arrays, and the block it gives out is on the disk and
used by nobody. -/
theorem never_in_use {n : Nat} (hn : n % 64 = 0) (is : List Nat) (his : ∀ i ∈ is, i < n) (cs : List Call)
    (hcs : AllAllowed n (start (· ∈ is)) cs) :
    ∃ b a, build n is = some b ∧ calls (.new n b) cs = some a ∧
      ∀ c, a.alloc = some c → c < n ∧ ¬ (cs.foldl Ledger.after (start (· ∈ is))).Used c := by
  obtain ⟨b, h1, h2⟩ := build_rep hn is his
  obtain ⟨a, F, h3, h4, -⟩ := steps cs (begin_ hn h2).1 hcs
  refine ⟨b, a, h1, h3, fun c hc => ?_⟩
  obtain ⟨g1, g2, -⟩ := (h4.full.alloc c).1 hc
  exact ⟨g1, fun hu => g2 (h4.cover c g1 hu)⟩

/-- **The least free block is given out**, and none only if all are in use. -/
theorem least_free {n : Nat} (hn : n % 64 = 0) (is : List Nat) (his : ∀ i ∈ is, i < n) (cs : List Call)
    (hcs : AllAllowed n (start (· ∈ is)) cs) (hf : FreezeOnce (start (· ∈ is)) cs) :
    ∃ b a, build n is = some b ∧ calls (.new n b) cs = some a ∧
      ∀ c, a.alloc = some c ↔ c < n ∧ ¬ (cs.foldl Ledger.after (start (· ∈ is))).Used c ∧
        ∀ j, j < c → (cs.foldl Ledger.after (start (· ∈ is))).Used j := by
  obtain ⟨b, h1, h2⟩ := build_rep hn is his
  obtain ⟨h5, h6⟩ := begin_ hn h2
  obtain ⟨a, F, h3, h4, h7⟩ := steps cs h5 hcs
  refine ⟨b, a, h1, h3, fun c => ?_⟩
  exact (h4.full.congr (h7 h6 hf)).alloc c

/-- With a free block on the disk, one is given out. -/
theorem no_leak {n : Nat} (hn : n % 64 = 0) (is : List Nat) (his : ∀ i ∈ is, i < n) (cs : List Call)
    (hcs : AllAllowed n (start (· ∈ is)) cs) (hf : FreezeOnce (start (· ∈ is)) cs) (i : Nat) (hi : i < n)
    (hfree : ¬ (cs.foldl Ledger.after (start (· ∈ is))).Used i) :
    ∃ b a c, build n is = some b ∧ calls (.new n b) cs = some a ∧ a.alloc = some c ∧ c ≤ i := by
  obtain ⟨b, a, h1, h2, h3⟩ := least_free hn is his cs hcs hf
  have : ∃ c, c ≤ i ∧ ¬ (cs.foldl Ledger.after (start (· ∈ is))).Used c ∧
      ∀ j, j < c → (cs.foldl Ledger.after (start (· ∈ is))).Used j := by
    clear h3
    induction i using Nat.strongRecOn with
    | _ i ih =>
      by_cases hall : ∀ j, j < i → (cs.foldl Ledger.after (start (· ∈ is))).Used j
      · exact ⟨i, Nat.le_refl _, hfree, hall⟩
      · simp only [not_forall] at hall
        obtain ⟨j, hj, hu⟩ := hall
        obtain ⟨c, g1, g2⟩ := ih j hj (by omega) hu
        exact ⟨c, by omega, g2⟩
  obtain ⟨c, g1, g2, g3⟩ := this
  exact ⟨b, a, c, h1, h2, (h3 c).2 ⟨by omega, g2, g3⟩, g1⟩

/-! ### The allocator of the block side is this one -/

/-- The calls, on the allocator of the model of the block side (C61-C69), whose bitmaps are functions. -/
def modelCall (m : Kv.BlockImpl.Alloc) : Call → Kv.BlockImpl.Alloc
  | .useEphemeral i => m.useEph i
  | .useFrozen i => m.useFrozen i
  | .startWrite i => m.useOutstanding i
  | .endWrite i => m.freeOutstanding i
  | .freeEphemeral i => m.freeEph i
  | .persist => m.moveFrozen
  | .freeze => m.copyEph

/-- The bits of the words are those of the function, on the disk. -/
def Agree (f : Kv.IndTable.Bitmap) (b : Bits.Bitmap) : Prop := ∀ i, i < Kv.IndTable.numBlocks → b.isSet i = some (f i)

/-- The five bitmaps agree, and have a bit for each block. -/
structure Same (m : Kv.BlockImpl.Alloc) (a : Bits.BlockAllocator) : Prop where
  eph : Agree m.eph a.ephemeral ∧ 64 * a.ephemeral.length = Kv.IndTable.numBlocks
  frozen : (m.frozen = none ∧ a.frozen = none) ∨
    ∃ f b, m.frozen = some f ∧ a.frozen = some b ∧ Agree f b ∧ 64 * b.length = Kv.IndTable.numBlocks
  pers : Agree m.persistent a.persistent ∧ 64 * a.persistent.length = Kv.IndTable.numBlocks
  out : Agree m.outstanding a.outstanding ∧ 64 * a.outstanding.length = Kv.IndTable.numBlocks
  full : Agree m.full a.full ∧ 64 * a.full.length = Kv.IndTable.numBlocks

theorem agree_iff {f : Kv.IndTable.Bitmap} {b : Bits.Bitmap} :
    (Agree f b ∧ 64 * b.length = Kv.IndTable.numBlocks) ↔ Rep Kv.IndTable.numBlocks (fun i => f i = true) b := by
  constructor
  · rintro ⟨h1, h2⟩
    refine ⟨h2, fun c hc => ?_⟩
    have := h1 c hc
    unfold Bits.Bitmap.isSet at this
    cases hg : b[c / 64]? with
    | none => rw [hg] at this; cases this
    | some w =>
      rw [hg] at this
      simp only [Option.some.injEq] at this
      exact ⟨w, rfl, by rw [this]⟩
  · rintro h
    refine ⟨fun i hi => ?_, h.len⟩
    obtain ⟨r, h1, h2⟩ := h.isSet hi
    rw [h1]
    exact congrArg some (Bool.eq_iff_iff.2 h2)

/-- Whether the model allows the call. -/
def ModelAllowed (m : Kv.BlockImpl.Alloc) : Call → Prop
  | .useEphemeral i => i < Kv.IndTable.numBlocks
  | .useFrozen i => i < Kv.IndTable.numBlocks ∧ m.frozen ≠ none
  | .startWrite i => i < Kv.IndTable.numBlocks
  | .endWrite i => i < Kv.IndTable.numBlocks
  | .freeEphemeral i => i < Kv.IndTable.numBlocks
  | .persist => m.frozen ≠ none
  | .freeze => True

theorem rep_set {n : Nat} {f : Kv.IndTable.Bitmap} {b : Bits.Bitmap} (h : Rep n (fun i => f i = true) b) {i : Nat} (hi : i < n) :
    ∃ b', b.set i = some b' ∧ Rep n (fun x => f.set i x = true) b' := by
  obtain ⟨b', h1, h2⟩ := h.set hi
  refine ⟨b', h1, h2.congr (fun x _ => ?_)⟩
  unfold Kv.IndTable.Bitmap.set
  by_cases hx : x = i <;> simp [hx]

theorem rep_unset {n : Nat} {f : Kv.IndTable.Bitmap} {b : Bits.Bitmap} (h : Rep n (fun i => f i = true) b) {i : Nat} (hi : i < n) :
    ∃ b', b.unset i = some b' ∧ Rep n (fun x => f.unset i x = true) b' := by
  obtain ⟨b', h1, h2⟩ := h.unset hi
  refine ⟨b', h1, h2.congr (fun x _ => ?_)⟩
  unfold Kv.IndTable.Bitmap.unset
  by_cases hx : x = i <;> simp [hx]

theorem bitAlloc_before {b : Kv.IndTable.Bitmap} : ∀ {n i j : Nat}, Kv.BlockImpl.bitAlloc b i n = some j →
    ∀ k, i ≤ k → k < j → b k = true
  | 0, _, _, h => nomatch h
  | n + 1, i, j, h => fun k h1 h2 => by
    unfold Kv.BlockImpl.bitAlloc at h
    split at h
    · cases h; omega
    · rename_i hb
      by_cases hk : k = i
      · subst hk; simpa using hb
      · exact bitAlloc_before h k (by omega) h2

/-- **The allocator of words does what the allocator of the model does**: each call, and the search. -/
theorem implements {m : Kv.BlockImpl.Alloc} {a : Bits.BlockAllocator} (h : Same m a) :
    a.alloc = m.find ∧ ∀ c, ModelAllowed m c → ∃ a', call a c = some a' ∧ Same (modelCall m c) a' := by
  obtain ⟨he, hz, hp, ho, hf⟩ := h
  rw [agree_iff] at he hp ho hf
  have hz' : (m.frozen = none ∧ a.frozen = none) ∨ ∃ f b, m.frozen = some f ∧ a.frozen = some b ∧
      Rep Kv.IndTable.numBlocks (fun i => f i = true) b := by
    rcases hz with h | ⟨f, b, h1, h2, h3⟩
    · exact .inl h
    · exact .inr ⟨f, b, h1, h2, agree_iff.1 h3⟩
  refine ⟨?_, fun c hc => ?_⟩
  · cases hm : m.find with
    | none =>
      cases ha : a.alloc with
      | none => rfl
      | some c =>
        obtain ⟨h1, h2, -⟩ := (hf.alloc c).1 ha
        exact absurd (Kv.BlockImpl.bitAlloc_none hm c (by omega) (by omega)) h2
    | some c =>
      obtain ⟨h1, h2, h3⟩ := Kv.BlockImpl.bitAlloc_some hm
      exact (hf.alloc c).2 ⟨by omega, by rw [h1]; exact Bool.false_ne_true,
        fun j hj => bitAlloc_before hm j (by omega) hj⟩
  · have frz : ∀ i, i < Kv.IndTable.numBlocks → a.inFrozen i = some (m.inFrozen i) := by
      intro i hi
      unfold Bits.BlockAllocator.inFrozen Kv.BlockImpl.Alloc.inFrozen
      rcases hz with ⟨h1, h2⟩ | ⟨f, b, h1, h2, h3⟩
      · rw [h1, h2]
      · rw [h1, h2]; exact h3.1 i hi
    have bits : ∀ {f : Kv.IndTable.Bitmap} {b : Bits.Bitmap}, Rep Kv.IndTable.numBlocks (fun i => f i = true) b → ∀ i,
        i < Kv.IndTable.numBlocks → b.isSet i = some (f i) := fun h => (agree_iff.2 h).1
    cases c with
    | useEphemeral i =>
      obtain ⟨e, h1, h2⟩ := rep_set he hc
      obtain ⟨f, h3, h4⟩ := rep_set hf hc
      exact ⟨{ a with ephemeral := e, full := f }, by simp [call, Bits.BlockAllocator.markUsedEphemeral, h1, h3],
        ⟨agree_iff.2 h2, hz, agree_iff.2 hp, agree_iff.2 ho, agree_iff.2 h4⟩⟩
    | useFrozen i =>
      rcases hz' with ⟨g, _⟩ | ⟨z, b, g2, g1, g3⟩
      · exact absurd g hc.2
      obtain ⟨e, h1, h2⟩ := rep_set g3 hc.1
      obtain ⟨f, h3, h4⟩ := rep_set hf hc.1
      exact ⟨{ a with frozen := some e, full := f }, by simp [call, Bits.BlockAllocator.markUsedFrozen, g1, h1, h3],
        ⟨agree_iff.2 he, .inr ⟨_, e, by simp only [modelCall, Kv.BlockImpl.Alloc.useFrozen, g2]; rfl, rfl, agree_iff.2 h2⟩,
          agree_iff.2 hp, agree_iff.2 ho, agree_iff.2 h4⟩⟩
    | startWrite i =>
      obtain ⟨e, h1, h2⟩ := rep_set ho hc
      obtain ⟨f, h3, h4⟩ := rep_set hf hc
      exact ⟨{ a with outstanding := e, full := f }, by simp [call, Bits.BlockAllocator.markUsedOutstanding, h1, h3],
        ⟨agree_iff.2 he, hz, agree_iff.2 hp, agree_iff.2 h2, agree_iff.2 h4⟩⟩
    | endWrite i =>
      obtain ⟨e, h1, h2⟩ := rep_unset ho hc
      obtain ⟨f, h3, h4⟩ := rep_unset hf hc
      refine ⟨{ a with outstanding := e, full := if m.inFrozen i || m.eph i || m.persistent i then a.full else f }, ?_,
        ⟨agree_iff.2 he, hz, agree_iff.2 hp, agree_iff.2 h2, ?_⟩⟩
      · cases h5 : m.inFrozen i <;> cases h6 : m.eph i <;> cases h7 : m.persistent i <;>
          simp [call, Bits.BlockAllocator.markFreeOutstanding, h1, h3, frz i hc, bits he i hc, bits hp i hc, h5, h6, h7]
      · simp only [modelCall, Kv.BlockImpl.Alloc.freeOutstanding]
        split
        · exact agree_iff.2 hf
        · exact agree_iff.2 h4
    | freeEphemeral i =>
      obtain ⟨e, h1, h2⟩ := rep_unset he hc
      obtain ⟨f, h3, h4⟩ := rep_unset hf hc
      refine ⟨{ a with ephemeral := e, full := if m.inFrozen i || m.persistent i || m.outstanding i then a.full else f }, ?_,
        ⟨agree_iff.2 h2, hz, agree_iff.2 hp, agree_iff.2 ho, ?_⟩⟩
      · cases h5 : m.inFrozen i <;> cases h6 : m.outstanding i <;> cases h7 : m.persistent i <;>
          simp [call, Bits.BlockAllocator.markFreeEphemeral, h1, h3, frz i hc, bits ho i hc, bits hp i hc, h5, h6, h7]
      · simp only [modelCall, Kv.BlockImpl.Alloc.freeEph]
        split
        · exact agree_iff.2 hf
        · exact agree_iff.2 h4
    | persist =>
      rcases hz' with ⟨g, _⟩ | ⟨z, b, g2, g1, g3⟩
      · exact absurd g hc
      obtain ⟨fo, h1, h2⟩ := g3.union ho
      obtain ⟨fu, h3, h4⟩ := he.union h2
      refine ⟨⟨a.ephemeral, none, b, a.outstanding, fu⟩, by simp [call, Bits.BlockAllocator.moveFrozenToPersistent, g1, h1, h3], ?_⟩
      simp only [modelCall, Kv.BlockImpl.Alloc.moveFrozen, g2]
      refine ⟨agree_iff.2 he, .inl ⟨rfl, rfl⟩, agree_iff.2 g3, agree_iff.2 ho, agree_iff.2 (h4.congr (fun x _ => ?_))⟩
      simp only [Bool.or_eq_true, or_assoc]
    | freeze =>
      exact ⟨_, rfl, ⟨agree_iff.2 he, .inr ⟨_, _, rfl, rfl, agree_iff.2 he⟩, agree_iff.2 hp, agree_iff.2 ho, agree_iff.2 hf⟩⟩

/-- At the start, if the bitmap of words agrees with the one of the model, so do the allocators. -/
theorem implements_init {f : Kv.IndTable.Bitmap} {b : Bits.Bitmap} (h : Agree f b)
    (hl : 64 * b.length = Kv.IndTable.numBlocks) : Same (.init f) (.new Kv.IndTable.numBlocks b) := by
  refine ⟨⟨h, hl⟩, .inl ⟨rfl, rfl⟩, ⟨h, hl⟩, agree_iff.2 ?_, ⟨h, hl⟩⟩
  exact (Rep.new (by decide)).congr (fun i _ => by simp [Kv.BlockImpl.Alloc.init])

/-! ### An example -/

/-- A disk of 128 blocks with blocks 0 to 63 and 65 in use. -/
def inUse : List Nat := 65 :: List.range 64

/-- A write of block 64; the node that was at block 65 is moved there; the table is frozen and made
persistent; block 3 is freed. -/
def someCalls : List Call :=
  [.startWrite 64, .useEphemeral 64, .freeEphemeral 65, .endWrite 64, .freeze, .persist, .freeEphemeral 3]

/-- The calls are allowed and freeze once; block 65 is free in the end, block 3 is not. -/
theorem demo : AllAllowed 128 (start (· ∈ inUse)) someCalls ∧ FreezeOnce (start (· ∈ inUse)) someCalls ∧
    (∀ i ∈ inUse, i < 128) ∧
    ((build 128 inUse).bind (fun b => b.alloc)) = some 64 ∧
    ((build 128 inUse).bind (fun b => (calls (.new 128 b) (someCalls.take 3)).bind (·.alloc))) = some 66 ∧
    ((build 128 inUse).bind (fun b => (calls (.new 128 b) someCalls).bind (·.alloc))) = some 65 := by
  refine ⟨?_, ?_, by decide, by decide +kernel, by decide +kernel, by decide +kernel⟩
  · simp [AllAllowed, someCalls, Ledger.Allowed, Ledger.after, start]
  · simp [FreezeOnce, someCalls, Ledger.after, start]

/-- The hypothesis of `least_free` is needed: if the table is frozen twice, a block that nobody uses is
not given out until the table is persistent. -/
theorem demo_twice : ∃ cs, AllAllowed 64 (start (· ∈ List.range 63)) cs ∧
    ¬ (cs.foldl Ledger.after (start (· ∈ List.range 63))).Used 63 ∧
    ((build 64 (List.range 63)).bind (fun b => (calls (.new 64 b) cs).bind (·.alloc))) = none ∧
    ((build 64 (List.range 63)).bind (fun b => (calls (.new 64 b) (cs ++ [.persist])).bind (·.alloc))) = some 63 := by
  refine ⟨[.useEphemeral 63, .freeze, .freeEphemeral 63, .freeze], ?_, ?_, by decide +kernel, by decide +kernel⟩
  · simp [AllAllowed, Ledger.Allowed, Ledger.after, start]
  · simp [Ledger.Used, Ledger.after, start]

/-- The bitmap with no block agrees with the model's, so that the hypotheses of `implements_init` are met. -/
theorem demo_init : Agree (fun _ => false) (Bits.Bitmap.new Kv.IndTable.numBlocks) ∧
    64 * (Bits.Bitmap.new Kv.IndTable.numBlocks).length = Kv.IndTable.numBlocks :=
  agree_iff.2 ((Rep.new (by decide)).congr (fun _ _ => by simp))

end Verif.C72
