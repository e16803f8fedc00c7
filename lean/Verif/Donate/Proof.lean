import Verif.Donate.Model
/-
Calls walk along the array one behind the other. The calls under way, the first to enter first, when run one after
the other from where they are, end as all calls do that entered, when run one after the other.
-/
namespace Verif.Donate

/-- The first index from `lo` on with number `v`. -/
def scan (len : Nat) (n : Nat → Nat) (lo v : Nat) : Option Nat :=
  (List.range' lo (len - lo)).find? fun i => n i == v

/-- What a call that is at `lo` does to the numbers when it runs to its end. -/
def after (len : Nat) (n : Nat → Nat) (lo v : Nat) : Nat → Nat :=
  match scan len n lo v with
  | some i => Function.update n i (n i + 1)
  | none => n

/-- A call under way: it holds mutexes `lo` to `hi`. -/
structure Op where
  t : Tid
  k : Nat
  v : Nat
  lo : Nat
  hi : Nat

/-- Run from `n`, the calls give the answers `R` and leave `m`. -/
def Pipe (len : Nat) (R : Nat → Option (Option Nat)) : (Nat → Nat) → List Op → (Nat → Nat) → Prop
  | n, [], m => n = m
  | n, op :: Q, m => R op.k = some (scan len n op.lo op.v) ∧ Pipe len R (after len n op.lo op.v) Q m

variable {len : Nat} {R : Nat → Option (Option Nat)}

theorem scan_ge {n : Nat → Nat} {lo v i : Nat} (h : scan len n lo v = some i) : lo ≤ i ∧ i < len ∧ n i = v := by
  have h1 := List.mem_of_find?_eq_some h
  have h2 := List.find?_some h
  simp only [List.mem_range'_1] at h1
  exact ⟨h1.1, by omega, by simpa using h2⟩

theorem scan_update {n : Nat → Nat} {lo v i x : Nat} (h : i < lo) :
    scan len (Function.update n i x) lo v = scan len n lo v := by
  unfold scan
  have : ∀ l : List Nat, (∀ j ∈ l, i < j) →
      (l.find? fun j => Function.update n i x j == v) = l.find? fun j => n j == v := by
    intro l hl
    induction l with
    | nil => rfl
    | cons j l ih =>
      have := hl j List.mem_cons_self
      simp only [List.find?_cons, Function.update_of_ne (show j ≠ i by omega)]
      rw [ih fun j hj => hl j (List.mem_cons_of_mem _ hj)]
  refine this _ fun j hj => ?_
  simp only [List.mem_range'_1] at hj
  omega

theorem scan_here {n : Nat → Nat} {lo v : Nat} (hl : lo < len) (h : n lo = v) : scan len n lo v = some lo := by
  obtain ⟨m, hm⟩ : ∃ m, len - lo = m + 1 := ⟨len - lo - 1, by omega⟩
  simp [scan, hm, List.range'_succ, h]

theorem scan_next {n : Nat → Nat} {lo v : Nat} (hl : lo < len) (h : n lo ≠ v) : scan len n lo v = scan len n (lo + 1) v := by
  obtain ⟨m, hm⟩ : ∃ m, len - lo = m + 1 := ⟨len - lo - 1, by omega⟩
  have h2 : len - (lo + 1) = m := by omega
  simp [scan, hm, h2, List.range'_succ, h]

theorem scan_end {n : Nat → Nat} {lo v : Nat} (hl : len ≤ lo) : scan len n lo v = none := by
  have h2 : len - lo = 0 := by omega
  simp [scan, h2]

theorem after_low {n : Nat → Nat} {lo v i : Nat} (h : i < lo) : after len n lo v i = n i := by
  unfold after
  cases hj : scan len n lo v with
  | some j =>
    have := (scan_ge hj).1
    exact Function.update_of_ne (by omega) _ _
  | none => rfl

theorem after_update {n : Nat → Nat} {lo v i x : Nat} (h : i < lo) :
    after len (Function.update n i x) lo v = Function.update (after len n lo v) i x := by
  unfold after
  rw [scan_update h]
  split
  · rename_i j hj
    have := (scan_ge hj).1
    rw [Function.update_of_ne (by omega), Function.update_comm (by omega)]
  · rfl

theorem Pipe.append {n m : Nat → Nat} {A B : List Op} :
    Pipe len R n (A ++ B) m ↔ ∃ n', Pipe len R n A n' ∧ Pipe len R n' B m := by
  induction A generalizing n with
  | nil => simp [Pipe]
  | cons op A ih => simp [Pipe, ih, and_assoc]

theorem Pipe.low {n m : Nat → Nat} {A : List Op} {i : Nat} (h : Pipe len R n A m) (hA : ∀ op ∈ A, i < op.lo) :
    m i = n i := by
  induction A generalizing n with
  | nil => cases h; rfl
  | cons op A ih =>
    rw [ih h.2 fun o ho => hA o (List.mem_cons_of_mem _ ho), after_low (hA op List.mem_cons_self)]

theorem Pipe.update {n m : Nat → Nat} {A : List Op} {i x : Nat} (h : Pipe len R n A m) (hA : ∀ op ∈ A, i < op.lo) :
    Pipe len R (Function.update n i x) A (Function.update m i x) := by
  induction A generalizing n with
  | nil => cases h; rfl
  | cons op A ih =>
    have hl := hA op List.mem_cons_self
    refine ⟨?_, ?_⟩
    · rw [scan_update hl]; exact h.1
    · rw [after_update hl]; exact ih h.2 fun o ho => hA o (List.mem_cons_of_mem _ ho)

theorem Pipe.mono {R' : Nat → Option (Option Nat)} {n m : Nat → Nat} {A : List Op} (h : Pipe len R n A m)
    (hR : ∀ k r, R k = some r → R' k = some r) : Pipe len R' n A m := by
  induction A generalizing n with
  | nil => exact h
  | cons op A ih => exact ⟨hR _ _ h.1, ih h.2⟩

/-- What a thread is in the line of calls. -/
def Is (s : State) (op : Op) : Prop :=
  (s.pc op.t = .hold op.k op.v op.lo (s.num op.lo) ∧ op.hi = op.lo) ∨
  (s.pc op.t = .both op.k op.v op.lo (s.num op.lo) (s.num (op.lo + 1)) ∧ op.hi = op.lo + 1 ∧ s.num op.lo ≠ op.v)

/-- `R` are the answers of the calls that entered and `m` the numbers that they leave, run one after the other. -/
structure Inv (len : Nat) (R : Nat → Option (Option Nat)) (m : Nat → Nat) (s : State) (Q : List Op) : Prop where
  order : Q.Pairwise fun a b => b.hi < a.lo
  ops : ∀ op ∈ Q, Is s op ∧ op.hi < len
  hold : ∀ t k v i x, s.pc t = .hold k v i x → ∃ op ∈ Q, op.t = t
  both : ∀ t k v i x y, s.pc t = .both k v i x y → ∃ op ∈ Q, op.t = t
  locked : ∀ i, s.locked i = true ↔ ∃ op ∈ Q, op.lo ≤ i ∧ i ≤ op.hi
  pipe : Pipe len R s.num Q m
  done : ∀ t k r, s.pc t = .done k r → R k = some r

theorem Is.le {s : State} {op : Op} (h : Is s op) : op.lo ≤ op.hi := by
  rcases h with h | h
  · omega
  · omega

namespace Inv
variable {m : Nat → Nat} {s : State} {Q : List Op}

/-- The call of a thread under way, the calls before and behind it. -/
theorem split (h : Inv len R m s Q) {op : Op} (ho : op ∈ Q) : ∃ A B, Q = A ++ op :: B ∧
    (∀ o ∈ A, op.hi < o.lo ∧ o.t ≠ op.t) ∧ (∀ o ∈ B, o.hi < op.lo ∧ o.t ≠ op.t) := by
  obtain ⟨A, B, rfl⟩ := List.append_of_mem ho
  have hp := h.order
  rw [List.pairwise_append, List.pairwise_cons] at hp
  have hne : ∀ o ∈ A ++ op :: B, o.lo ≠ op.lo → o.t ≠ op.t := by
    intro o hm hlo e
    have h1 := (h.ops o hm).1
    have h2 := (h.ops op (by simp)).1
    unfold Is at h1 h2
    rw [e] at h1
    rcases h1 with ⟨a, -⟩ | ⟨a, -⟩ <;> rcases h2 with ⟨b, -⟩ | ⟨b, -⟩ <;> rw [a] at b <;> injection b <;> contradiction
  refine ⟨A, B, rfl, fun o hm => ?_, fun o hm => ?_⟩
  · have h1 := hp.2.2 o hm op (by simp)
    have := (h.ops op (by simp)).1.le
    exact ⟨h1, hne o (by simp [hm]) (by omega)⟩
  · have h1 := hp.2.1.1 o hm
    have := (h.ops o (by simp [hm])).1.le
    exact ⟨h1, hne o (by simp [hm]) (by omega)⟩

theorem op_hold (h : Inv len R m s Q) {t k v i x : Nat} (hp : s.pc t = .hold k v i x) :
    x = s.num i ∧ i < len ∧ (⟨t, k, v, i, i⟩ : Op) ∈ Q := by
  obtain ⟨⟨t', k', v', lo, hi⟩, ho, rfl⟩ := h.hold t k v i x hp
  obtain ⟨h1, h2⟩ := h.ops _ ho
  rcases h1 with ⟨a, b⟩ | ⟨a, -⟩
  · simp only at a b h2
    rw [hp] at a; cases a; subst b
    exact ⟨rfl, h2, ho⟩
  · simp only at a; rw [hp] at a; cases a

theorem op_both (h : Inv len R m s Q) {t k v i x y : Nat} (hp : s.pc t = .both k v i x y) :
    x = s.num i ∧ y = s.num (i + 1) ∧ i + 1 < len ∧ s.num i ≠ v ∧ (⟨t, k, v, i, i + 1⟩ : Op) ∈ Q := by
  obtain ⟨⟨t', k', v', lo, hi⟩, ho, rfl⟩ := h.both t k v i x y hp
  obtain ⟨h1, h2⟩ := h.ops _ ho
  rcases h1 with ⟨a, -⟩ | ⟨a, b, c⟩
  · simp only at a; rw [hp] at a; cases a
  · simp only at a b h2 c
    rw [hp] at a; cases a; subst b
    exact ⟨rfl, rfl, h2, c, ho⟩

/-- A call that is not in the line changes only its place in the code. -/
theorem out (h : Inv len R m s Q) {t : Tid} {p : Pc} (h1 : ∀ k v i x, s.pc t ≠ .hold k v i x)
    (h2 : ∀ k v i x y, s.pc t ≠ .both k v i x y) (p1 : ∀ k v i x, p ≠ .hold k v i x)
    (p2 : ∀ k v i x y, p ≠ .both k v i x y) (p3 : ∀ k r, p = .done k r → R k = some r) : Inv len R m (s.go t p) Q := by
  have key : ∀ op ∈ Q, op.t ≠ t := by
    rintro op ho rfl
    rcases (h.ops op ho).1 with ⟨a, -⟩ | ⟨a, -⟩
    · exact h1 _ _ _ _ a
    · exact h2 _ _ _ _ _ a
  refine ⟨h.order, fun op ho => ⟨?_, (h.ops op ho).2⟩, ?_, ?_, h.locked, h.pipe, ?_⟩
  · have := (h.ops op ho).1
    unfold Is at this ⊢
    simpa [State.go, Function.update_of_ne (key op ho)] using this
  · intro t' k v i x hp
    by_cases e : t' = t
    · subst e; simp [State.go] at hp; exact absurd hp (p1 _ _ _ _)
    · simp [State.go, Function.update_of_ne e] at hp; exact h.hold _ _ _ _ _ hp
  · intro t' k v i x y hp
    by_cases e : t' = t
    · subst e; simp [State.go] at hp; exact absurd hp (p2 _ _ _ _ _)
    · simp [State.go, Function.update_of_ne e] at hp; exact h.both _ _ _ _ _ _ hp
  · intro t' k r hp
    by_cases e : t' = t
    · subst e; simp [State.go] at hp; exact p3 _ _ hp
    · simp [State.go, Function.update_of_ne e] at hp; exact h.done _ _ _ hp

/-- A call enters. -/
theorem enter (h : Inv len R m s Q) (hl : 0 < len) {t : Tid} {v : Nat} (hp : s.pc t = .ready v)
    (hf : s.locked 0 = false) {R' : Nat → Option (Option Nat)} (hR : ∀ k r, R k = some r → R' k = some r)
    (hr : R' s.entered = some (scan len m 0 v)) :
    Inv len R' (after len m 0 v) { (s.lock 0).go t (.hold s.entered v 0 (s.num 0)) with entered := s.entered + 1 }
      (Q ++ [⟨t, s.entered, v, 0, 0⟩]) := by
  have key : ∀ op ∈ Q, op.t ≠ t := by
    rintro op ho rfl
    rcases (h.ops op ho).1 with ⟨a, -⟩ | ⟨a, -⟩ <;> rw [hp] at a <;> cases a
  have hlo : ∀ op ∈ Q, 0 < op.lo := by
    intro op ho
    by_contra hc
    have : s.locked 0 = true := (h.locked 0).2 ⟨op, ho, by omega, by omega⟩
    rw [hf] at this; cases this
  refine ⟨?_, ?_, ?_, ?_, ?_, ?_, ?_⟩
  · rw [List.pairwise_append]
    refine ⟨h.order, by simp, ?_⟩
    intro a ha b hb
    simp only [List.mem_singleton] at hb
    subst hb; exact hlo a ha
  · intro op ho
    simp only [List.mem_append, List.mem_singleton] at ho
    rcases ho with ho | rfl
    · refine ⟨?_, (h.ops op ho).2⟩
      have := (h.ops op ho).1
      unfold Is at this ⊢
      simpa [State.go, State.lock, Function.update_of_ne (key op ho)] using this
    · exact ⟨.inl ⟨by simp [State.go, State.lock], rfl⟩, hl⟩
  · intro t' k v' i x hp'
    by_cases e : t' = t
    · subst e; exact ⟨_, List.mem_append_right _ List.mem_cons_self, rfl⟩
    · simp [State.go, State.lock, Function.update_of_ne e] at hp'
      obtain ⟨op, ho, e⟩ := h.hold _ _ _ _ _ hp'
      exact ⟨op, by simp [ho], e⟩
  · intro t' k v' i x y hp'
    by_cases e : t' = t
    · subst e; exact ⟨_, List.mem_append_right _ List.mem_cons_self, rfl⟩
    · simp [State.go, State.lock, Function.update_of_ne e] at hp'
      obtain ⟨op, ho, e⟩ := h.both _ _ _ _ _ _ hp'
      exact ⟨op, by simp [ho], e⟩
  · intro i
    simp only [State.go, State.lock, List.mem_append, List.mem_singleton]
    by_cases e : i = 0
    · subst e
      simp only [Function.update_self, true_iff]
      exact ⟨_, .inr rfl, by simp, by simp⟩
    · rw [Function.update_of_ne e, h.locked i]
      constructor
      · rintro ⟨op, ho, a, b⟩; exact ⟨op, .inl ho, a, b⟩
      · rintro ⟨op, ho | rfl, a, b⟩
        · exact ⟨op, ho, a, b⟩
        · simp only at b; omega
  · refine Pipe.append.2 ⟨m, h.pipe.mono hR, hr, rfl⟩
  · intro t' k r hp'
    by_cases e : t' = t
    · subst e; simp [State.go, State.lock] at hp'
    · simp [State.go, State.lock, Function.update_of_ne e] at hp'
      exact hR _ _ (h.done _ _ _ hp')

/-- A call under way makes a step: its place in the line becomes `op'`, with `p` where it is in the code; what it
holds is `l'` and the number at `lo` becomes `x`. -/
theorem move (h : Inv len R m s Q) {A B : List Op} {op op' : Op} (hQ : Q = A ++ op :: B)
    (hA : ∀ o ∈ A, op'.hi < o.lo ∧ op.lo < o.lo ∧ o.t ≠ op.t) (hB : ∀ o ∈ B, o.hi < op.lo ∧ o.t ≠ op.t)
    (ht : op'.t = op.t) (hlo : op.lo ≤ op'.lo) (hhi : op'.hi < len) {p : Pc} {l' : Nat → Bool} {s' : State}
    (hs : s' = { s with locked := l', pc := Function.update s.pc op.t p })
    (his : Is s' op') (hl : ∀ i, l' i = true ↔ (s.locked i = true ∧ ¬ (op.lo ≤ i ∧ i ≤ op.hi)) ∨ (op'.lo ≤ i ∧ i ≤ op'.hi))
    (hsep : ∀ o ∈ A ++ B, ∀ i, op.lo ≤ i → i ≤ op.hi → ¬ (o.lo ≤ i ∧ i ≤ o.hi))
    (hpipe : ∀ n', Pipe len R s.num A n' → Pipe len R n' (op :: B) m → Pipe len R n' (op' :: B) m)
    (hd : ∀ k r, p ≠ .done k r) :
    Inv len R m s' (A ++ op' :: B) := by
  subst hs
  subst hQ
  have hp := h.order
  rw [List.pairwise_append, List.pairwise_cons] at hp
  refine ⟨?_, ?_, ?_, ?_, ?_, ?_, ?_⟩
  · rw [List.pairwise_append, List.pairwise_cons]
    refine ⟨hp.1, ⟨fun o ho => ?_, hp.2.1.2⟩, ?_⟩
    · have := (hB o ho).1; omega
    · intro a ha b hb
      rcases List.mem_cons.1 hb with rfl | hb
      · exact (hA a ha).1
      · exact hp.2.2 a ha b (List.mem_cons_of_mem _ hb)
  · intro o ho
    by_cases e : o = op'
    · subst e; exact ⟨his, hhi⟩
    · have hm : o ∈ A ++ B := by
        simp only [List.mem_append, List.mem_cons] at ho ⊢
        grind
      have hne : o.t ≠ op.t := by
        rcases List.mem_append.1 hm with hm | hm
        · exact (hA o hm).2.2
        · exact (hB o hm).2
      obtain ⟨h1, h2⟩ := h.ops o (by simp only [List.mem_append, List.mem_cons] at hm ⊢; grind)
      refine ⟨?_, h2⟩
      unfold Is at h1 ⊢
      simpa [Function.update_of_ne hne] using h1
  · intro t' k v' i x hp'
    by_cases e : t' = op.t
    · subst e; exact ⟨op', by simp, ht⟩
    · simp [Function.update_of_ne e] at hp'
      obtain ⟨o, ho, rfl⟩ := h.hold _ _ _ _ _ hp'
      have : o ≠ op := by rintro rfl; exact e rfl
      exact ⟨o, by simp only [List.mem_append, List.mem_cons] at ho ⊢; grind, rfl⟩
  · intro t' k v' i x y hp'
    by_cases e : t' = op.t
    · subst e; exact ⟨op', by simp, ht⟩
    · simp [Function.update_of_ne e] at hp'
      obtain ⟨o, ho, rfl⟩ := h.both _ _ _ _ _ _ hp'
      have : o ≠ op := by rintro rfl; exact e rfl
      exact ⟨o, by simp only [List.mem_append, List.mem_cons] at ho ⊢; grind, rfl⟩
  · intro i
    rw [show ({ s with locked := l', pc := Function.update s.pc op.t p } : State).locked i = l' i from rfl, hl, h.locked]
    constructor
    · rintro (⟨⟨o, ho, a⟩, b⟩ | a)
      · refine ⟨o, ?_, a⟩
        have : o ≠ op := by rintro rfl; exact b a
        simp only [List.mem_append, List.mem_cons] at ho ⊢; grind
      · exact ⟨op', by simp, a⟩
    · rintro ⟨o, ho, a⟩
      by_cases e : o = op'
      · subst e; exact .inr a
      · have hm : o ∈ A ++ B := by
          simp only [List.mem_append, List.mem_cons] at ho ⊢
          grind
        refine .inl ⟨⟨o, by simp only [List.mem_append, List.mem_cons] at hm ⊢; grind, a⟩, fun hb => hsep o hm i hb.1 hb.2 a⟩
  · obtain ⟨n', h1, h2⟩ := Pipe.append.1 h.pipe
    exact Pipe.append.2 ⟨n', h1, hpipe n' h1 h2⟩
  · intro t' k r hp'
    by_cases e : t' = op.t
    · subst e; simp at hp'; exact absurd hp' (hd _ _)
    · simp [Function.update_of_ne e] at hp'; exact h.done _ _ _ hp'

/-- A call under way ends, with answer `r`. -/
theorem leave (h : Inv len R m s Q) {A B : List Op} {op : Op} (hQ : Q = A ++ op :: B) (hlh : op.lo = op.hi)
    (hA : ∀ o ∈ A, op.hi < o.lo ∧ o.t ≠ op.t) (hB : ∀ o ∈ B, o.hi < op.lo ∧ o.t ≠ op.t) {x : Nat} {r : Option Nat}
    (hx : ∀ n', n' op.lo = s.num op.lo → scan len n' op.lo op.v = r ∧ after len n' op.lo op.v = Function.update n' op.lo x) :
    Inv len R m ((s.unlock op.lo x).go op.t (.done op.k r)) (A ++ B) := by
  subst hQ
  have hp := h.order
  rw [List.pairwise_append, List.pairwise_cons] at hp
  obtain ⟨n', h1, h2, h3⟩ := Pipe.append.1 h.pipe
  have hn := h1.low fun o ho => show op.lo < o.lo by have := (hA o ho).1; omega
  obtain ⟨e1, e2⟩ := hx n' hn
  have hop : ∀ o ∈ A ++ B, o ∈ A ++ op :: B := by
    intro o ho; simp only [List.mem_append, List.mem_cons] at ho ⊢; grind
  have hsep : ∀ o ∈ A ++ B, (o.hi < op.lo ∨ op.lo < o.lo) ∧ o.t ≠ op.t := by
    intro o ho
    rcases List.mem_append.1 ho with ho | ho
    · exact ⟨.inr (by have := (hA o ho).1; omega), (hA o ho).2⟩
    · exact ⟨.inl (hB o ho).1, (hB o ho).2⟩
  refine ⟨?_, ?_, ?_, ?_, ?_, ?_, ?_⟩
  · rw [List.pairwise_append]
    exact ⟨hp.1, hp.2.1.2, fun a ha b hb => hp.2.2 a ha b (List.mem_cons_of_mem _ hb)⟩
  · intro o ho
    obtain ⟨h4, h5⟩ := h.ops o (hop o ho)
    obtain ⟨h6, h7⟩ := hsep o ho
    refine ⟨?_, h5⟩
    have hle := h4.le
    unfold Is at h4 ⊢
    simp only [State.go, State.unlock, Function.update_of_ne h7]
    rw [Function.update_of_ne (by omega)]
    rcases h4 with ⟨a, b⟩ | ⟨a, b, c⟩
    · exact .inl ⟨a, b⟩
    · rw [Function.update_of_ne (by omega)]
      exact .inr ⟨a, b, c⟩
  · intro t' k v' i x hp'
    by_cases e : t' = op.t
    · subst e; simp [State.go] at hp'
    · simp [State.go, State.unlock, Function.update_of_ne e] at hp'
      obtain ⟨o, ho, rfl⟩ := h.hold _ _ _ _ _ hp'
      have : o ≠ op := by rintro rfl; exact e rfl
      exact ⟨o, by simp only [List.mem_append, List.mem_cons] at ho ⊢; grind, rfl⟩
  · intro t' k v' i x y hp'
    by_cases e : t' = op.t
    · subst e; simp [State.go] at hp'
    · simp [State.go, State.unlock, Function.update_of_ne e] at hp'
      obtain ⟨o, ho, rfl⟩ := h.both _ _ _ _ _ _ hp'
      have : o ≠ op := by rintro rfl; exact e rfl
      exact ⟨o, by simp only [List.mem_append, List.mem_cons] at ho ⊢; grind, rfl⟩
  · intro i
    by_cases e : i = op.lo
    · subst e
      simp only [State.go, State.unlock, Function.update_self, Bool.false_eq_true, false_iff]
      rintro ⟨o, ho, a⟩
      have := (hsep o ho).1; omega
    · simp only [State.go, State.unlock, Function.update_of_ne e, h.locked]
      constructor
      · rintro ⟨o, ho, a⟩
        have : o ≠ op := by rintro rfl; omega
        exact ⟨o, by simp only [List.mem_append, List.mem_cons] at ho ⊢; grind, a⟩
      · rintro ⟨o, ho, a⟩; exact ⟨o, hop o ho, a⟩
  · refine Pipe.append.2 ⟨Function.update n' op.lo x, ?_, ?_⟩
    · exact h1.update fun o ho => by have := (hA o ho).1; omega
    · rw [← e2]; exact h3
  · intro t' k r' hp'
    by_cases e : t' = op.t
    · subst e; simp [State.go] at hp'
      obtain ⟨rfl, rfl⟩ := hp'
      rw [h2, e1]
    · simp [State.go, State.unlock, Function.update_of_ne e] at hp'; exact h.done _ _ _ hp'

theorem init {s : State} (h : Init s) (R) : Inv len R s.num s [] := by
  refine ⟨.nil, fun _ h => (nomatch h), ?_, ?_, ?_, rfl, ?_⟩
  · intro t k v i x hp; rw [h.pc] at hp; cases hp
  · intro t k v i x y hp; rw [h.pc] at hp; cases hp
  · intro i; rw [h.locked]; simp
  · intro t k r hp; rw [h.pc] at hp; cases hp

/-- Steps other than entering change nothing for the calls as run one after the other. -/
theorem step (h : Inv len R m s Q) {l : Label} {s' : State} (hs : Step len s l s') (hl : ∀ t k v, l ≠ .enter t k v) :
    ∃ Q', Inv len R m s' Q' := by
  cases hs with
  | call t v hp =>
    exact ⟨Q, h.out (by simp [hp]) (by simp [hp]) (by simp) (by simp) (by simp)⟩
  | enter => exact absurd rfl (hl _ _ _)
  | ret hp =>
    exact ⟨Q, h.out (by simp [hp]) (by simp [hp]) (by simp) (by simp) (by simp)⟩
  | @next t k v i x hp hi hx hf =>
    obtain ⟨rfl, hil, ho⟩ := h.op_hold hp
    obtain ⟨A, B, hQ, hA, hB⟩ := h.split ho
    have hA' : ∀ o ∈ A, i + 1 < o.lo := by
      intro o hm
      have h1 := (hA o hm).1
      by_contra hc
      have : s.locked (i + 1) = true := (h.locked _).2 ⟨o, by simp [hQ, hm], by simp only at h1; omega, by
        have := (h.ops o (by simp [hQ, hm])).1.le; simp only at h1; omega⟩
      rw [hf] at this; cases this
    refine ⟨_, h.move (op' := ⟨t, k, v, i, i + 1⟩) (p := .both k v i (s.num i) (s.num (i + 1)))
      (l' := Function.update s.locked (i + 1) true) hQ
      (fun o hm => ⟨hA' o hm, (hA o hm).1, (hA o hm).2⟩) hB rfl (Nat.le_refl _) (by simp only; omega) rfl ?_ ?_ ?_ ?_ (by simp)⟩
    · exact .inr ⟨by simp [State.go, State.lock], rfl, hx⟩
    · intro j
      have hlk : ∀ j, j = i → s.locked j = true := by
        rintro j rfl; exact (h.locked _).2 ⟨_, ho, by simp, by simp⟩
      by_cases e : j = i + 1
      · subst e; simp
      · rw [Function.update_of_ne e]
        simp only
        constructor
        · intro hj
          by_cases e2 : j = i
          · right; omega
          · left; exact ⟨hj, by omega⟩
        · rintro (a | a)
          · exact a.1
          · exact hlk j (by omega)
    · intro o hm j h1 h2 h3
      simp only at h1 h2
      rcases List.mem_append.1 hm with hm | hm
      · have := (hA o hm).1; simp only at this; omega
      · have := (hB o hm).1; simp only at this; omega
    · intro n' _ h2; exact h2
  | @release t k v i x y hp =>
    obtain ⟨rfl, rfl, hil, hne, ho⟩ := h.op_both hp
    obtain ⟨A, B, hQ, hA, hB⟩ := h.split ho
    refine ⟨_, h.move (op' := ⟨t, k, v, i + 1, i + 1⟩) (p := .hold k v (i + 1) (s.num (i + 1)))
      (l' := Function.update s.locked i false) hQ
      (fun o hm => ⟨(hA o hm).1, by have := (hA o hm).1; simp only at this ⊢; omega, (hA o hm).2⟩) hB rfl
      (Nat.le_succ _) hil ?_ ?_ ?_ ?_ ?_ (by simp)⟩
    · simp [State.go, State.unlock]
    · exact .inl ⟨by simp [State.go, State.unlock], rfl⟩
    · intro j
      have hlk : ∀ j, j = i + 1 → s.locked j = true := by
        rintro j rfl; exact (h.locked _).2 ⟨_, ho, by simp, by simp⟩
      by_cases e : j = i
      · subst e; simp
      · rw [Function.update_of_ne e]
        simp only
        constructor
        · intro hj
          by_cases e2 : j = i + 1
          · right; omega
          · left; exact ⟨hj, by omega⟩
        · rintro (a | a)
          · exact a.1
          · exact hlk j (by omega)
    · intro o hm j h1 h2 h3
      simp only at h1 h2
      rcases List.mem_append.1 hm with hm | hm
      · have := (hA o hm).1; simp only at this; omega
      · have := (hB o hm).1; simp only at this; omega
    · intro n' h1 h2
      have hn := h1.low (i := i) fun o hm => by have := (hA o hm).1; simp only at this; omega
      have e : scan len n' i v = scan len n' (i + 1) v := scan_next (by omega) (by rw [hn]; exact hne)
      obtain ⟨a, b⟩ := h2
      simp only at a b
      refine ⟨by simp only; rw [← e]; exact a, ?_⟩
      unfold after at b ⊢
      simp only
      rw [← e]; exact b
  | @finish t k v i x hp hx =>
    obtain ⟨rfl, hil, ho⟩ := h.op_hold hp
    obtain ⟨A, B, hQ, hA, hB⟩ := h.split ho
    refine ⟨_, h.leave (op := ⟨t, k, v, i, i⟩) hQ rfl hA hB fun n' hn => ?_⟩
    simp only at hn ⊢
    have := scan_here hil (hn.trans hx)
    refine ⟨this, ?_⟩
    unfold after; rw [this]; simp only; rw [hn]
  | @fail t k v i x hp hi hx =>
    obtain ⟨rfl, hil, ho⟩ := h.op_hold hp
    obtain ⟨A, B, hQ, hA, hB⟩ := h.split ho
    refine ⟨_, h.leave (op := ⟨t, k, v, i, i⟩) hQ rfl hA hB fun n' hn => ?_⟩
    simp only at hn ⊢
    have : scan len n' i v = none := by
      rw [scan_next hil (by rw [hn]; exact hx), scan_end (by omega)]
    refine ⟨this, ?_⟩
    unfold after; rw [this]; simp only; rw [← hn, Function.update_eq_self]

end Inv
end Verif.Donate
