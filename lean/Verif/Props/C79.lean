import Verif.Refcounter.Model

/-!
C79.  The reference counter of concurrency/refcounter lets a value be read only while it is there, and written only by
one who is alone. Who holds a value, as owner or as reader, holds one that was given and not got back. The owner of a
value that was given once is the only one who holds it: there is no reader and no other owner. And a value can always
be got back: once all its readers give up their hold, it can be owned again, and got back.

When equal values are given twice, an owner of one and a reader of the other may be there at once (`twice`), and a
reader may give up its hold at the wrong counter, which then falls below zero (`below_zero`); the theorems above on
being held are true then too.

Specification: `out` counts, on the list of values given and got back.
-/

set_option linter.unusedSectionVars false

namespace Verif.C79
open Verif.Refcounter
variable {V : Type} [DecidableEq V]

/-- How many more times `v` was given than got back. -/
def out (v : V) : List (Label V) → Int
  | [] => 0
  | .give w :: ls => out v ls + if w = v then 1 else 0
  | .back w :: ls => out v ls - if w = v then 1 else 0
  | .tau :: ls => out v ls

/-- Who stands for the value: an owner or a counter. -/
def holds (v : V) : R V → Int
  | .exc w => if w = v then 1 else 0
  | .counter w _ => if w = v then 1 else 0
  | .const _ => 0

/-- The count of a counter, less one for each reader. -/
def excess (v : V) : R V → Int
  | .exc _ => 0
  | .counter w n => if w = v then n else 0
  | .const w => if w = v then -1 else 0

/-- `Inv`, Refcounter.i.dfy:59-73 -/
structure Inv (o : V → Int) (s : State V) : Prop where
  saved : ∀ v, (s.saved.count v : Int) = o v
  held : ∀ v, (s.m.map (holds v)).sum = o v
  counted : ∀ v, (s.m.map (excess v)).sum = 0

theorem transform_holds {a b : Multiset (R V)} (h : Transform a b) (v : V) :
    (a.map (holds v)).sum = (b.map (holds v)).sum ∧ (a.map (excess v)).sum = (b.map (excess v)).sum := by
  cases h <;> simp [holds, excess] <;> split <;> omega

theorem out_append (v : V) (a b : List (Label V)) : out v (a ++ b) = out v a + out v b := by
  induction a with
  | nil => simp [out]
  | cons l a ih => cases l <;> simp [out, ih] <;> omega

theorem Inv.step {ls : List (Label V)} {s s' : State V} {l : Label V} (h : Inv (fun v => out v ls) s) (hs : Step s l s') :
    Inv (fun v => out v (ls ++ [l])) s' := by
  cases hs with
  | give m saved w =>
    refine ⟨fun v => ?_, fun v => ?_, fun v => ?_⟩
    · have := h.saved v
      simp only [out_append, out, Multiset.count_add, Multiset.count_singleton] at this ⊢
      by_cases e : w = v
      · subst e; simp; omega
      · simp [e, Ne.symm e]; omega
    · have := h.held v; simp [out_append, out, holds] at this ⊢; omega
    · have := h.counted v; simp [excess] at this ⊢; omega
  | back m saved w =>
    refine ⟨fun v => ?_, fun v => ?_, fun v => ?_⟩
    · have := h.saved v
      simp only [out_append, out, Multiset.count_add, Multiset.count_singleton] at this ⊢
      by_cases e : w = v
      · subst e; simp at this ⊢; omega
      · simp [e, Ne.symm e] at this ⊢; omega
    · have := h.held v; simp [out_append, out, holds] at this ⊢; omega
    · have := h.counted v; simp [excess] at this ⊢; omega
  | internal c saved ht =>
    refine ⟨fun v => ?_, fun v => ?_, fun v => ?_⟩
    · have := h.saved v; simp [out_append, out] at this ⊢; omega
    · have := h.held v; have := (transform_holds ht v).1; simp [out_append, out] at *; omega
    · have := h.counted v; have := (transform_holds ht v).2; simp at *; omega

theorem inv_run {s0 s : State V} {ls : List (Label V)} (h0 : s0 = ⟨0, 0⟩) (h : (machine V).Run s0 ls s) :
    Inv (fun v => out v ls) s := by
  have gen : ∀ {pre ls : List (Label V)} {s1 s2 : State V}, (machine V).Run s1 ls s2 →
      Inv (fun v => out v pre) s1 → Inv (fun v => out v (pre ++ ls)) s2 := by
    intro pre ls s1 s2 hr hi
    induction hr generalizing pre with
    | nil => simpa using hi
    | cons hs _ ih => have := ih (hi.step hs); simpa using this
  have := gen (pre := []) h (by subst h0; exact ⟨by simp [out], by simp [out], by simp⟩)
  simpa using this

theorem holds_nonneg (v : V) (m : Multiset (R V)) : 0 ≤ (m.map (holds v)).sum := by
  induction m using Multiset.induction with
  | empty => simp
  | cons r m ih => simp only [Multiset.map_cons, Multiset.sum_cons]; cases r <;> simp only [holds] <;> (try split) <;> omega

/-- Where no one stands for a value no count is kept of it. -/
theorem excess_of_no_holder (v : V) (m : Multiset (R V)) (h : (m.map (holds v)).sum = 0) :
    (m.map (excess v)).sum = -(m.count (.const v) : Int) := by
  induction m using Multiset.induction with
  | empty => simp
  | cons r m ih =>
    have := holds_nonneg v m
    simp only [Multiset.map_cons, Multiset.sum_cons] at h ⊢
    cases r with
    | exc w =>
      by_cases e : w = v <;> simp [holds, excess, e] at h ⊢
      · omega
      · exact ih h
    | counter w n =>
      by_cases e : w = v <;> simp [holds, excess, e] at h ⊢
      · omega
      · exact ih h
    | const w =>
      by_cases e : w = v
      · subst e; simp [holds, excess] at h ⊢; rw [ih h]
      · simp [holds, excess, e, Ne.symm e] at h ⊢; exact ih h

theorem holds_mem {v : V} {m : Multiset (R V)} {r : R V} (hr : r ∈ m) : holds v r ≤ (m.map (holds v)).sum := by
  obtain ⟨m, rfl⟩ := Multiset.exists_cons_of_mem hr
  have := holds_nonneg v m
  simp; omega

/-- What is held, by an owner or a reader, was given and not got back. -/
theorem held_is_there {s0 s : State V} {ls : List (Label V)} (h0 : s0 = ⟨0, 0⟩) (h : (machine V).Run s0 ls s) {v : V}
    (hv : .exc v ∈ s.m ∨ .const v ∈ s.m) : v ∈ s.saved ∧ 0 < out v ls := by
  have hi := inv_run h0 h
  have hpos : 0 < out v ls := by
    have hh := hi.held v
    rcases hv with hv | hv
    · have := holds_mem (v := v) hv
      simp only [holds] at this; simp at this; omega
    · have := holds_nonneg v s.m
      by_cases e : (s.m.map (holds v)).sum = 0
      · have h1 := excess_of_no_holder v s.m e
        have h2 := hi.counted v
        have h3 := Multiset.count_pos.2 hv
        omega
      · omega
  refine ⟨?_, hpos⟩
  have := hi.saved v
  exact Multiset.count_pos.1 (by omega)

/-- The values saved are those given and not got back. -/
theorem saved_is_out {s0 s : State V} {ls : List (Label V)} (h0 : s0 = ⟨0, 0⟩) (h : (machine V).Run s0 ls s) (v : V) :
    (s.saved.count v : Int) = out v ls := (inv_run h0 h).saved v

/-- The owner of a value that is out once is alone. -/
theorem owner_is_alone {s0 s : State V} {ls : List (Label V)} (h0 : s0 = ⟨0, 0⟩) (h : (machine V).Run s0 ls s) {v : V}
    (ho : out v ls = 1) (hv : .exc v ∈ s.m) : .const v ∉ s.m ∧ s.m.count (.exc v) = 1 := by
  have hi := inv_run h0 h
  have hh := hi.held v
  have hc := hi.counted v
  obtain ⟨m, hm⟩ := Multiset.exists_cons_of_mem hv
  rw [hm] at hh hc ⊢
  simp [holds, excess, ho] at hh hc
  have h1 := excess_of_no_holder v m hh
  have h2 : m.count (.const v) = 0 := by omega
  have h3 : m.count (.exc v) = 0 := by
    rw [Multiset.count_eq_zero]
    intro hm
    have := holds_mem (v := v) hm
    simp [holds] at this; omega
  constructor
  · intro hm'
    simp at hm'
    have := Multiset.count_pos.2 hm'
    omega
  · simp [h3]

/-- The counter of a value that is out once has the number of its readers. -/
theorem counter_exact {s0 s : State V} {ls : List (Label V)} (h0 : s0 = ⟨0, 0⟩) (h : (machine V).Run s0 ls s) {v : V} {n : Int}
    (ho : out v ls = 1) (hv : .counter v n ∈ s.m) : n = s.m.count (.const v) ∧ .exc v ∉ s.m := by
  have hi := inv_run h0 h
  have hh := hi.held v
  have hc := hi.counted v
  obtain ⟨m, hm⟩ := Multiset.exists_cons_of_mem hv
  rw [hm] at hh hc ⊢
  simp [holds, excess, ho] at hh hc
  have h1 := excess_of_no_holder v m hh
  refine ⟨by simp; omega, ?_⟩
  intro hm'
  simp at hm'
  have := holds_mem (v := v) hm'
  simp [holds] at this; omega

/-- A sum above zero has an owner or a counter. -/
theorem exists_holder {v : V} {m : Multiset (R V)} (h : 0 < (m.map (holds v)).sum) : .exc v ∈ m ∨ ∃ n, .counter v n ∈ m := by
  induction m using Multiset.induction with
  | empty => simp at h
  | cons r m ih =>
    by_cases e : 0 < (m.map (holds v)).sum
    · rcases ih e with h | ⟨n, h⟩
      · exact .inl (Multiset.mem_cons_of_mem h)
      · exact .inr ⟨n, Multiset.mem_cons_of_mem h⟩
    · simp only [Multiset.map_cons, Multiset.sum_cons] at h
      cases r with
      | exc w =>
        by_cases ew : w = v
        · subst ew; exact .inl (Multiset.mem_cons_self _ _)
        · simp [holds, ew] at h; omega
      | counter w n =>
        by_cases ew : w = v
        · subst ew; exact .inr ⟨n, Multiset.mem_cons_self _ _⟩
        · simp [holds, ew] at h; omega
      | const w => simp [holds] at h; omega

/-- A counter with its readers becomes an owner. -/
theorem drain (v : V) (k : Nat) (c : Multiset (R V)) (saved : Multiset V) :
    (machine V).Run ⟨.counter v k ::ₘ (Multiset.replicate k (.const v) + c), saved⟩ (List.replicate (k + 1) .tau)
      ⟨.exc v ::ₘ c, saved⟩ := by
  induction k with
  | zero =>
    have := Step.internal c saved (Transform.toExc v)
    simp only [Multiset.singleton_add] at this
    exact .cons (by simpa [machine] using this) (.nil _)
  | succ k ih =>
    have := Step.internal (Multiset.replicate k (.const v) + c) saved (Transform.fromConst v ((k + 1 : Nat) : Int))
    refine .cons (s' := ⟨.counter v k ::ₘ (Multiset.replicate k (.const v) + c), saved⟩) ?_ ih
    have e1 : (({.counter v ((k + 1 : Nat) : Int), .const v} : Multiset (R V)) + (Multiset.replicate k (.const v) + c)) =
        .counter v ((k + 1 : Nat) : Int) ::ₘ (Multiset.replicate (k + 1) (.const v) + c) := by
      simp [Multiset.replicate_succ]
    have e2 : (({.counter v (((k + 1 : Nat) : Int) - 1)} : Multiset (R V)) + (Multiset.replicate k (.const v) + c)) =
        .counter v k ::ₘ (Multiset.replicate k (.const v) + c) := by
      have : (((k + 1 : Nat) : Int) - 1) = (k : Int) := by omega
      rw [this]; simp
    rw [e1, e2] at this
    exact this

/-- A value that is out once can be got back: its readers give up their holds, nobody else does anything, and it is
got back. -/
theorem can_be_got_back {s0 s : State V} {ls : List (Label V)} (h0 : s0 = ⟨0, 0⟩) (h : (machine V).Run s0 ls s) {v : V}
    (ho : out v ls = 1) : ∃ k s', (machine V).Run s (List.replicate k .tau ++ [.back v]) s' ∧
      ∀ r, (∀ n, r ≠ .counter v n) → r ≠ .exc v → r ≠ .const v → s'.m.count r = s.m.count r := by
  have hi := inv_run h0 h
  have hs : v ∈ s.saved := by
    have := hi.saved v
    exact Multiset.count_pos.1 (by omega)
  obtain ⟨m, saved⟩ := s
  simp only at hs
  obtain ⟨sv, rfl⟩ := Multiset.exists_cons_of_mem hs
  have last : ∀ c : Multiset (R V), Step ⟨.exc v ::ₘ c, v ::ₘ sv⟩ (.back v) ⟨c, sv⟩ := by
    intro c
    have := Step.back c sv v
    rw [add_comm, add_comm sv] at this
    simpa using this
  have hh := hi.held v
  rcases exists_holder (v := v) (by rw [hh]; omega) with he | ⟨n, hc⟩
  · obtain ⟨c, rfl⟩ := Multiset.exists_cons_of_mem he
    exact ⟨0, ⟨c, sv⟩, .cons (last c) (.nil _), fun r h1 h2 h3 => by simp [Multiset.count_cons_of_ne h2]⟩
  · have hn := (counter_exact h0 h ho hc).1
    simp only at hn
    obtain ⟨c, rfl⟩ := Multiset.exists_cons_of_mem hc
    simp at hn
    obtain ⟨c', hc'⟩ := Multiset.le_iff_exists_add.1 (Multiset.le_count_iff_replicate_le.1 (Nat.le_refl (c.count (R.const v))))
    rw [hn]
    refine ⟨c.count (.const v) + 1, ⟨c', sv⟩, ?_, fun r h1 h2 h3 => ?_⟩
    · refine Machine.Run.append ?_ (.cons (last c') (.nil _))
      have := drain v (c.count (.const v)) c' (v ::ₘ sv)
      rw [← hc'] at this
      exact this
    · simp only
      rw [Multiset.count_cons_of_ne (h1 _)]
      conv_rhs => rw [hc']
      rw [Multiset.count_add, Multiset.count_replicate, if_neg (Ne.symm h3)]; omega

/-! ### Runs -/

theorem give_of {s s' : State V} (v : V) (h : s'.m = s.m + {.exc v} ∧ s'.saved = s.saved + {v}) : (machine V).Step s (.give v) s' := by
  obtain ⟨m, sv⟩ := s; obtain ⟨m', sv'⟩ := s'
  obtain ⟨h1, h2⟩ := h
  simp only at h1 h2; subst h1 h2; exact .give _ _ _

theorem internal_of {s s' : State V} {a b : Multiset (R V)} (c : Multiset (R V)) (ht : Transform a b)
    (h : s.m = a + c ∧ s'.m = b + c ∧ s'.saved = s.saved) : (machine V).Step s .tau s' := by
  obtain ⟨m, sv⟩ := s; obtain ⟨m', sv'⟩ := s'
  obtain ⟨h1, h2, h3⟩ := h
  simp only at h1 h2 h3; subst h1 h2 h3; exact .internal _ _ ht

/-- A value is given, and read by two. -/
theorem demo : ∃ s, (machine Nat).Run ⟨0, 0⟩ [.give 7, .tau, .tau, .tau] s ∧ out 7 [.give 7, .tau, .tau, .tau] = 1 ∧
    s.m = {.counter 7 2, .const 7, .const 7} ∧ s.saved = {7} := by
  refine ⟨⟨{.counter 7 2, .const 7, .const 7}, {7}⟩, ?_, by decide, rfl, rfl⟩
  exact .cons (s' := ⟨{.exc 7}, {7}⟩) (give_of 7 (by decide)) <|
    .cons (s' := ⟨{.counter 7 0}, {7}⟩) (internal_of 0 (.fromExc 7) (by decide)) <|
    .cons (s' := ⟨{.counter 7 1, .const 7}, {7}⟩) (internal_of 0 (.toConst 7 0) (by decide)) <|
    .cons (internal_of {.const 7} (.toConst 7 1) (by decide)) (.nil _)

/-- Two equal values: an owner of one and a reader of the other … -/
theorem twice : ∃ s ls, (machine Nat).Run ⟨0, 0⟩ ls s ∧ out 7 ls = 2 ∧ .exc 7 ∈ s.m ∧ .const 7 ∈ s.m := by
  refine ⟨⟨{.counter 7 1, .const 7, .exc 7}, {7, 7}⟩, [.give 7, .give 7, .tau, .tau], ?_, by decide, by simp, by simp⟩
  exact .cons (s' := ⟨{.exc 7}, {7}⟩) (give_of 7 (by decide)) <|
    .cons (s' := ⟨{.exc 7, .exc 7}, {7, 7}⟩) (give_of 7 (by decide)) <|
    .cons (s' := ⟨{.counter 7 0, .exc 7}, {7, 7}⟩) (internal_of {.exc 7} (.fromExc 7) (by decide)) <|
    .cons (internal_of {.exc 7} (.toConst 7 0) (by decide)) (.nil _)

/-- … and a counter below zero. -/
theorem below_zero : ∃ s ls, (machine Nat).Run ⟨0, 0⟩ ls s ∧ .counter 7 (-1) ∈ s.m := by
  refine ⟨⟨{.counter 7 (-1), .counter 7 1}, {7, 7}⟩, [.give 7, .give 7, .tau, .tau, .tau, .tau], ?_, by simp⟩
  exact .cons (s' := ⟨{.exc 7}, {7}⟩) (give_of 7 (by decide)) <|
    .cons (s' := ⟨{.exc 7, .exc 7}, {7, 7}⟩) (give_of 7 (by decide)) <|
    .cons (s' := ⟨{.counter 7 0, .exc 7}, {7, 7}⟩) (internal_of {.exc 7} (.fromExc 7) (by decide)) <|
    .cons (s' := ⟨{.counter 7 1, .const 7, .exc 7}, {7, 7}⟩) (internal_of {.exc 7} (.toConst 7 0) (by decide)) <|
    .cons (s' := ⟨{.counter 7 1, .const 7, .counter 7 0}, {7, 7}⟩) (internal_of {.counter 7 1, .const 7} (.fromExc 7) (by decide)) <|
    .cons (internal_of {.counter 7 1} (.fromConst 7 0) (by decide)) (.nil _)

end Verif.C79
