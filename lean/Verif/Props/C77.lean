import Verif.Donate.Proof

/-!
C77.  The array with one lock per entry of concurrency/seq-hoh acts as if its calls were made one at a time.
`donate(v)` adds one to the first number that equals `v` and answers where. However many threads call it at
once, and however their acquires and releases interleave, the answers and the numbers are those of the same
calls made one after the other, in the order in which they get the first lock; each gets it between its call and
its answer. A call is never stuck: as long as one is under way some thread can go on, and every step brings a call
nearer to its end.

Specification: `answer`, `donated`, `answers` and `left`, on a plain function as array.
-/

namespace Verif.C77
open Verif.Donate

/-- `donate(v)` alone: where the first `v` is … -/
def answer (len : Nat) (a : Nat → Nat) (v : Nat) : Option Nat := (List.range len).find? fun i => a i == v
/-- … and what becomes of the array. -/
def donated (len : Nat) (a : Nat → Nat) (v : Nat) : Nat → Nat :=
  fun i => if answer len a v = some i then a i + 1 else a i

/-- The answers of calls made one after the other … -/
def answers (len : Nat) : (Nat → Nat) → List Nat → List (Option Nat)
  | _, [] => []
  | a, v :: vs => answer len a v :: answers len (donated len a v) vs
/-- … and the array they leave. -/
def left (len : Nat) : (Nat → Nat) → List Nat → Nat → Nat
  | a, [] => a
  | a, v :: vs => left len (donated len a v) vs

/-- The arguments of the calls that have had the first lock, in that order. -/
def entered : List Label → List Nat
  | [] => []
  | .enter _ _ v :: ls => v :: entered ls
  | _ :: ls => entered ls

/-- A label is of thread `t`. -/
def ofThread (t : Tid) : Label → Bool
  | .tau => false
  | .call t' _ => t' == t
  | .enter t' _ _ => t' == t
  | .ret t' _ _ => t' == t

variable {len : Nat}

theorem entered_append (a b : List Label) : entered (a ++ b) = entered a ++ entered b := by
  induction a with
  | nil => rfl
  | cons l a ih => cases l <;> simp [entered, ih]

theorem answers_append (a : Nat → Nat) (vs ws : List Nat) :
    answers len a (vs ++ ws) = answers len a vs ++ answers len (left len a vs) ws := by
  induction vs generalizing a with
  | nil => rfl
  | cons v vs ih => simp [answers, left, ih]

theorem left_append (a : Nat → Nat) (vs ws : List Nat) : left len a (vs ++ ws) = left len (left len a vs) ws := by
  induction vs generalizing a with
  | nil => rfl
  | cons v vs ih => simp [left, ih]

theorem answers_length (a : Nat → Nat) (vs : List Nat) : (answers len a vs).length = vs.length := by
  induction vs generalizing a with
  | nil => rfl
  | cons v vs ih => simp [answers, ih]

theorem scan_zero (a : Nat → Nat) (v : Nat) : scan len a 0 v = answer len a v := by
  simp [scan, answer, List.range_eq_range']

theorem after_zero (a : Nat → Nat) (v : Nat) : after len a 0 v = donated len a v := by
  funext i
  unfold after donated
  rw [scan_zero]
  cases h : answer len a v with
  | none => simp
  | some j =>
    by_cases e : i = j
    · subst e; simp
    · simp [Function.update_of_ne e, Ne.symm e]

/-- The invariant along a run. -/
theorem inv_run (hl : 0 < len) {s0 s : State} {ls : List Label} (h0 : Init s0) (h : (machine len).Run s0 ls s) :
    s.entered = (entered ls).length ∧
    ∃ Q, Inv len (fun k => (answers len s0.num (entered ls))[k]?) (left len s0.num (entered ls)) s Q := by
  have gen : ∀ {s1 s2 : State} {ls : List Label} {vs : List Nat} {Q : List Op}, (machine len).Run s1 ls s2 →
      s1.entered = vs.length → Inv len (fun k => (answers len s0.num vs)[k]?) (left len s0.num vs) s1 Q →
      s2.entered = (vs ++ entered ls).length ∧
      ∃ Q, Inv len (fun k => (answers len s0.num (vs ++ entered ls))[k]?) (left len s0.num (vs ++ entered ls)) s2 Q := by
    intro s1 s2 ls vs Q hr hn hi
    induction hr generalizing vs Q with
    | nil => exact ⟨by simpa [entered] using hn, Q, by simpa [entered] using hi⟩
    | @cons s1 l s1' ls s2 hs _ ih =>
      by_cases he : ∃ t k v, l = .enter t k v
      · obtain ⟨t, k, v, rfl⟩ := he
        cases hs with
        | enter hp hf =>
          have hi' := hi.enter hl hp hf (R' := fun k => (answers len s0.num (vs ++ [v]))[k]?)
            (by
              intro k r hk
              rw [answers_append]
              rw [List.getElem?_append_left]
              · exact hk
              · exact (List.getElem?_eq_some_iff.1 hk).1)
            (by
              rw [answers_append, hn, List.getElem?_append_right (by rw [answers_length]; exact Nat.le_refl _), answers_length]
              simp [answers, scan_zero])
          have h3 := ih (vs := vs ++ [v]) (by simp [hn]) (by
            rw [left_append]; simp only [left]; rw [← after_zero]; exact hi')
          simpa [entered] using h3
      · have hne : ∀ t k v, l ≠ .enter t k v := fun t k v e => he ⟨t, k, v, e⟩
        have e : entered (l :: ls) = entered ls := by
          cases l <;> first | rfl | exact absurd rfl (hne _ _ _)
        obtain ⟨Q', hi'⟩ := hi.step hs hne
        rw [e]
        refine ih ?_ hi'
        rw [← hn]
        cases hs <;> first | rfl | exact absurd rfl (hne _ _ _)
  have := gen (vs := []) h h0.entered (Inv.init h0 _)
  simpa using this

/-- Every answer is that of the calls made one after the other. -/
theorem answers_as_in_turn (hl : 0 < len) {s0 s : State} {before rest : List Label} {t : Tid} {k : Nat} {r : Option Nat}
    (h0 : Init s0) (h : (machine len).Run s0 (before ++ .ret t k r :: rest) s) :
    (answers len s0.num (entered before))[k]? = some r := by
  obtain ⟨m, h1, h2⟩ := Machine.Run.split before h
  obtain ⟨-, Q, hi⟩ := inv_run hl h0 h1
  cases h2 with
  | cons hs _ =>
    cases hs with
    | ret hp => exact hi.done _ _ _ hp

/-- When no call is under way in the array, it is what the calls leave, made one after the other. -/
theorem array_as_in_turn (hl : 0 < len) {s0 s : State} {ls : List Label} (h0 : Init s0) (h : (machine len).Run s0 ls s)
    (hq : ∀ i, s.locked i = false) : s.num = left len s0.num (entered ls) := by
  obtain ⟨-, Q, hi⟩ := inv_run hl h0 h
  cases Q with
  | nil => exact hi.pipe
  | cons op Q =>
    have h1 := (hi.ops op List.mem_cons_self).1.le
    have := (hi.locked op.lo).2 ⟨op, List.mem_cons_self, Nat.le_refl _, h1⟩
    rw [hq] at this; cases this

/-- What a thread has done last. -/
def Told (ls : List Label) (t : Tid) : Pc → Prop
  | .idle => True
  | .ready v => ∃ a b, ls = a ++ .call t v :: b ∧ ∀ l ∈ b, ofThread t l = false
  | .hold k v _ _ | .both k v _ _ _ => ∃ a b c, ls = a ++ .call t v :: b ++ .enter t k v :: c ∧
      (entered (a ++ b)).length = k ∧ (∀ l ∈ b, ofThread t l = false) ∧ ∀ l ∈ c, ofThread t l = false
  | .done k _ => ∃ v a b c, ls = a ++ .call t v :: b ++ .enter t k v :: c ∧
      (entered (a ++ b)).length = k ∧ (∀ l ∈ b, ofThread t l = false) ∧ ∀ l ∈ c, ofThread t l = false

theorem Told.snoc {ls : List Label} {t : Tid} {p : Pc} (h : Told ls t p) {l : Label} (hl : ofThread t l = false) :
    Told (ls ++ [l]) t p := by
  cases p with
  | idle => trivial
  | ready v =>
    obtain ⟨a, b, e, h1⟩ := h
    exact ⟨a, b ++ [l], by simp [e], by simpa [or_imp, forall_and, hl] using h1⟩
  | hold k v i x =>
    obtain ⟨a, b, c, e, h1, h2, h3⟩ := h
    exact ⟨a, b, c ++ [l], by simp [e], h1, h2, by simpa [or_imp, forall_and, hl] using h3⟩
  | both k v i x y =>
    obtain ⟨a, b, c, e, h1, h2, h3⟩ := h
    exact ⟨a, b, c ++ [l], by simp [e], h1, h2, by simpa [or_imp, forall_and, hl] using h3⟩
  | done k r =>
    obtain ⟨v, a, b, c, e, h1, h2, h3⟩ := h
    exact ⟨v, a, b, c ++ [l], by simp [e], h1, h2, by simpa [or_imp, forall_and, hl] using h3⟩

theorem told_run (hl : 0 < len) {s0 s : State} {ls : List Label} (h0 : Init s0) (h : (machine len).Run s0 ls s) (t : Tid) :
    Told ls t (s.pc t) := by
  have gen : ∀ {pre ls : List Label} {s1 s2 : State}, (machine len).Run s0 pre s1 → (machine len).Run s1 ls s2 →
      Told pre t (s1.pc t) → Told (pre ++ ls) t (s2.pc t) := by
    intro pre ls s1 s2 hp hr ht
    induction hr generalizing pre with
    | nil => simpa using ht
    | @cons s1 l s1' ls s2 hs _ ih =>
      have hn := (inv_run hl h0 hp).1
      have key : Told (pre ++ [l]) t (s1'.pc t) := by
        have other : ∀ {u : State} {t' : Tid} {p : Pc}, u.pc = s1.pc → t ≠ t' → ofThread t l = false →
            Told (pre ++ [l]) t ((u.go t' p).pc t) := by
          intro u t' p hu e hf
          simp only [State.go, Function.update_of_ne e, hu]
          exact ht.snoc hf
        cases hs with
        | call t' v hp =>
          by_cases e : t = t'
          · subst e; simp only [State.go, Function.update_self]; exact ⟨pre, [], by simp, by simp⟩
          · exact other rfl e (by simp [ofThread, Ne.symm e])
        | @enter t' v hp hf =>
          by_cases e : t = t'
          · subst e
            rw [hp] at ht
            obtain ⟨a, b, rfl, hb⟩ := ht
            simp only [State.go, Function.update_self]
            refine ⟨a, b, [], by simp, ?_, hb, by simp⟩
            rw [hn]; simp [entered_append, entered]
          · exact other (u := s1.lock 0) rfl e (by simp [ofThread, Ne.symm e])
        | @next t' k v i x hp =>
          by_cases e : t = t'
          · subst e; rw [hp] at ht
            have := ht.snoc (l := .tau) rfl
            simp only [State.go, Function.update_self]; exact this
          · exact other (u := s1.lock _) rfl e rfl
        | @release t' k v i x y hp =>
          by_cases e : t = t'
          · subst e; rw [hp] at ht
            have := ht.snoc (l := .tau) rfl
            simp only [State.go, Function.update_self]; exact this
          · exact other (u := s1.unlock _ _) rfl e rfl
        | @finish t' k v i x hp =>
          by_cases e : t = t'
          · subst e; rw [hp] at ht
            have := ht.snoc (l := .tau) rfl
            simp only [State.go, Function.update_self]; exact ⟨v, this⟩
          · exact other (u := s1.unlock _ _) rfl e rfl
        | @fail t' k v i x hp =>
          by_cases e : t = t'
          · subst e; rw [hp] at ht
            have := ht.snoc (l := .tau) rfl
            simp only [State.go, Function.update_self]; exact ⟨v, this⟩
          · exact other (u := s1.unlock _ _) rfl e rfl
        | @ret t' k r hp =>
          by_cases e : t = t'
          · subst e; simp only [State.go, Function.update_self]; trivial
          · exact other rfl e (by simp [ofThread, Ne.symm e])
      have := ih (pre := pre ++ [l]) (hp.snoc hs) key
      simpa using this
  have := gen (pre := []) (.nil _) h (by rw [h0.pc]; trivial)
  simpa using this

/-- The call that is answered as the `k`-th got the first lock as the `k`-th, between call and answer. -/
theorem in_between (hl : 0 < len) {s0 s : State} {before rest : List Label} {t : Tid} {k : Nat} {r : Option Nat}
    (h0 : Init s0) (h : (machine len).Run s0 (before ++ .ret t k r :: rest) s) :
    ∃ v a b c, before = a ++ .call t v :: b ++ .enter t k v :: c ∧ (entered (a ++ b)).length = k ∧
      (∀ l ∈ b, ofThread t l = false) ∧ ∀ l ∈ c, ofThread t l = false := by
  obtain ⟨m, h1, h2⟩ := Machine.Run.split before h
  have := told_run hl h0 h1 t
  cases h2 with
  | cons hs _ =>
    cases hs with
    | ret hp => rw [hp] at this; exact this

/-- As long as a call is under way, some thread can go on. -/
theorem never_stuck (hl : 0 < len) {s0 s : State} {ls : List Label} (h0 : Init s0) (h : (machine len).Run s0 ls s)
    {t : Tid} (ht : s.pc t ≠ .idle) : ∃ l s', Step len s l s' ∧ ∀ t v, l ≠ .call t v := by
  obtain ⟨-, Q, hi⟩ := inv_run hl h0 h
  cases Q with
  | nil =>
    have hf : ∀ i, s.locked i = false := by
      intro i
      cases e : s.locked i with
      | false => rfl
      | true => obtain ⟨_, h, -⟩ := (hi.locked i).1 e; cases h
    cases hp : s.pc t with
    | idle => exact absurd hp ht
    | ready v => exact ⟨_, _, .enter hp (hf 0), by simp⟩
    | hold k v i x => obtain ⟨_, h, -⟩ := hi.hold _ _ _ _ _ hp; cases h
    | both k v i x y => obtain ⟨_, h, -⟩ := hi.both _ _ _ _ _ _ hp; cases h
    | done k r => exact ⟨_, _, .ret hp, by simp⟩
  | cons op Q =>
    obtain ⟨h1, h2⟩ := hi.ops op List.mem_cons_self
    rcases h1 with ⟨a, b⟩ | ⟨a, -⟩
    · by_cases e : s.num op.lo = op.v
      · exact ⟨_, _, .finish a e, by simp⟩
      · by_cases e2 : op.lo < len - 1
        · refine ⟨_, _, .next a e2 e ?_, by simp⟩
          cases e3 : s.locked (op.lo + 1) with
          | false => rfl
          | true =>
            obtain ⟨o, ho, h3, h4⟩ := (hi.locked _).1 e3
            have hord := (List.pairwise_cons.1 hi.order).1
            rcases List.mem_cons.1 ho with rfl | ho
            · omega
            · have := hord o ho; omega
        · exact ⟨_, _, .fail a e2 e, by simp⟩
    · exact ⟨_, _, .release a, by simp⟩

/-- How many steps a call may still make. -/
def toGo (len : Nat) : Pc → Nat
  | .idle => 0
  | .ready _ => 2 * len + 3
  | .hold _ _ i _ => 2 * (len - i) + 2
  | .both _ _ i _ _ => 2 * (len - i) + 1
  | .done _ _ => 1

/-- Every step of a call brings it nearer to its end: it makes at most `2 * len + 3`. -/
theorem nearer (hl : 0 < len) {s0 s s' : State} {ls : List Label} {l : Label} (h0 : Init s0)
    (h : (machine len).Run s0 ls s) (hs : Step len s l s') {t : Tid} (ht : s.pc t ≠ .idle) :
    s'.pc t = s.pc t ∨ toGo len (s'.pc t) < toGo len (s.pc t) := by
  obtain ⟨-, Q, hi⟩ := inv_run hl h0 h
  have go : ∀ {u : State} {t' : Tid} {p : Pc}, u.pc = s.pc → toGo len p < toGo len (s.pc t') →
      (u.go t' p).pc t = s.pc t ∨ toGo len ((u.go t' p).pc t) < toGo len (s.pc t) := by
    intro u t' p hu hlt
    by_cases e : t = t'
    · subst e; right; simpa [State.go] using hlt
    · left; simp [State.go, Function.update_of_ne e, hu]
  cases hs with
  | call t' v hp =>
    by_cases e : t = t'
    · subst e; exact absurd hp ht
    · left; simp [State.go, Function.update_of_ne e]
  | enter hp => exact go (u := s.lock 0) rfl (by rw [hp]; simp [toGo])
  | next hp => exact go (u := s.lock _) rfl (by rw [hp]; simp [toGo])
  | release hp =>
    refine go (u := s.unlock _ _) rfl ?_
    have := (hi.op_both hp).2.2.1
    rw [hp]; simp only [toGo]; omega
  | finish hp => exact go (u := s.unlock _ _) rfl (by rw [hp]; simp [toGo])
  | fail hp => exact go (u := s.unlock _ _) rfl (by rw [hp]; simp [toGo])
  | ret hp => exact go rfl (by rw [hp]; simp [toGo])

/-! ### Two calls, one behind the other -/

/-- The array 0, 1, 2, … -/
def start : State where
  num := fun i => i
  locked := fun _ => false
  entered := 0
  pc := fun _ => .idle

theorem start_init : Init start := ⟨fun _ => rfl, rfl, fun _ => rfl⟩

/-- Thread 0 asks for 1 and gets to the second entry; thread 1 asks for 2 and is right behind it. It finds a 2 where
thread 0 has made one of the 1, and is the first to answer. -/
theorem demo : ∃ s, (machine 20).Run start
    [.call 0 1, .call 1 2, .enter 0 0 1, .tau, .tau, .enter 1 1 2, .tau, .tau, .tau, .tau, .ret 1 1 (some 1), .ret 0 0 (some 1)] s ∧
    (∀ i, s.locked i = false) ∧ s.num 1 = 3 ∧ s.num 2 = 2 := by
  refine ⟨_, .cons (.call 0 1 rfl) <| .cons (.call 1 2 rfl) <| .cons (.enter (t := 0) (v := 1) rfl rfl) <|
    .cons (.next (t := 0) (k := 0) (v := 1) (i := 0) (x := 0) rfl (by decide) (by decide) rfl) <|
    .cons (.release (t := 0) (k := 0) (v := 1) (i := 0) (x := 0) (y := 1) rfl) <|
    .cons (.enter (t := 1) (v := 2) rfl rfl) <|
    .cons (.finish (t := 0) (k := 0) (v := 1) (i := 1) (x := 1) rfl rfl) <|
    .cons (.next (t := 1) (k := 1) (v := 2) (i := 0) (x := 0) rfl (by decide) (by decide) rfl) <|
    .cons (.release (t := 1) (k := 1) (v := 2) (i := 0) (x := 0) (y := 2) rfl) <|
    .cons (.finish (t := 1) (k := 1) (v := 2) (i := 1) (x := 2) rfl rfl) <|
    .cons (.ret (t := 1) (k := 1) (r := some 1) rfl) <| .cons (.ret (t := 0) (k := 0) (r := some 1) rfl) <| .nil _, ?_, rfl, rfl⟩
  intro i
  match i with
  | 0 => rfl
  | 1 => rfl
  | n + 2 => rfl

end Verif.C77
