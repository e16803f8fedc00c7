import Verif.HashMap.Model

/-!
C78.  The concurrent hash table of concurrency/ConcurrentMap is a map: a query that answers gives the value that
was last inserted under its key when it answers, whatever threads do in whatever interleaving; a key is in one
slot only; and a query that comes to an empty slot could say that nothing was inserted under its key.

Missing, and false of the source: that each call answers. A query for a key that is absent never answers
(`absent_never_answers`, `empty_no_step`); an insertion that comes to the end of the table never ends, however empty
the table is (`end_for_ever`, `demo_end`). What is proved instead is that these are the only ways to be stuck
(`goes_on_partial`).

Specification: `lastInsert` on the list of calls and ends of calls.
-/

set_option linter.unusedSectionVars false

namespace Verif.C78
open Verif.HashMap
variable {Key Val : Type} [DecidableEq Key] {n : Nat} {hash : Key → Nat}

/-- The value of the last insertion under `k` that has ended. -/
def lastInsert (k : Key) : List (Label Key Val) → Option Val
  | [] => none
  | .inserted _ k' v :: ls => (lastInsert k ls).or (if k' = k then some v else none)
  | _ :: ls => lastInsert k ls

/-- Slots from the hash of `k` up to `i` have other keys. -/
def Passed (hash : Key → Nat) (table : Nat → Item Key Val) (k : Key) (i : Nat) : Prop :=
  hash k ≤ i ∧ ∀ j, hash k ≤ j → j < i → ∃ k', (table j).key? = some k' ∧ k' ≠ k

/-- `Inv`, ConcurrentLinearHashTable.i.dfy:188-229, and that the table holds `m`. -/
structure Inv (n : Nat) (hash : Key → Nat) (m : Key → Option Val) (s : State Key Val) : Prop where
  reach : ∀ i k, (s.table i).key? = some k → i < n ∧ Passed hash s.table k i
  query : ∀ t k i, s.threads t = .query k i → i < n ∧ Passed hash s.table k i
  insert : ∀ t k v i, s.threads t = .insert k v i → i < n ∧ Passed hash s.table k i
  live : ∀ i k, s.table i ≠ .tombstone k
  sound : ∀ i k v, s.table i = .entry k v → m k = some v
  complete : ∀ k v, m k = some v → ∃ i, s.table i = .entry k v

theorem Inv.init {s : State Key Val} (h : Init s) : Inv n hash (fun _ => none) s :=
  ⟨fun i k e => (by rw [h.table] at e; cases e), fun t k i e => (by rw [h.threads] at e; cases e),
    fun t k v i e => (by rw [h.threads] at e; cases e), fun i k e => (by rw [h.table] at e; cases e),
    fun i k v e => (by rw [h.table] at e; cases e), fun k v e => (by cases e)⟩

/-- A thread goes to a slot it may be at. -/
theorem Inv.go {m : Key → Option Val} {s : State Key Val} (h : Inv n hash m s) {t : Nat} {p : Thread Key Val}
    (hq : ∀ k i, p = .query k i → i < n ∧ Passed hash s.table k i)
    (hi : ∀ k v i, p = .insert k v i → i < n ∧ Passed hash s.table k i) : Inv n hash m (s.go t p) := by
  refine ⟨h.reach, ?_, ?_, h.live, h.sound, h.complete⟩
  · intro t' k i e
    by_cases et : t' = t
    · subst et; simp [State.go] at e; exact hq _ _ e
    · simp [State.go, Function.update_of_ne et] at e; exact h.query _ _ _ e
  · intro t' k v i e
    by_cases et : t' = t
    · subst et; simp [State.go] at e; exact hi _ _ _ e
    · simp [State.go, Function.update_of_ne et] at e; exact h.insert _ _ _ _ e

theorem Passed.here (table : Nat → Item Key Val) (k : Key) : Passed hash table k (hash k) :=
  ⟨Nat.le_refl _, fun j h1 h2 => absurd h2 (by omega)⟩

theorem Passed.next {table : Nat → Item Key Val} {k k' : Key} {i : Nat} (h : Passed hash table k i)
    (hk : (table i).key? = some k') (hne : k' ≠ k) : Passed hash table k (i + 1) := by
  refine ⟨by have := h.1; omega, fun j h1 h2 => ?_⟩
  by_cases e : j = i
  · subst e; exact ⟨k', hk, hne⟩
  · exact h.2 j h1 (by omega)

/-- Slots that were empty, or had the key they get, keep all paths. -/
theorem Passed.set {table : Nat → Item Key Val} {k k' : Key} {v : Val} {i j : Nat} (h : Passed hash table k' j)
    (hi : (table i).key? = none ∨ (table i).key? = some k) : Passed hash (Function.update table i (.entry k v)) k' j := by
  refine ⟨h.1, fun l h1 h2 => ?_⟩
  obtain ⟨k'', e, hne⟩ := h.2 l h1 h2
  by_cases el : l = i
  · subst el
    rcases hi with hi | hi <;> rw [hi] at e <;> cases e
    exact ⟨k, by simp [Item.key?], hne⟩
  · exact ⟨k'', by rw [Function.update_of_ne el]; exact e, hne⟩

/-- A key is in one slot only. -/
theorem Inv.unique {m : Key → Option Val} {s : State Key Val} (h : Inv n hash m s) {i j : Nat} {k : Key}
    (hi : (s.table i).key? = some k) (hj : (s.table j).key? = some k) : i = j := by
  have key : ∀ a b, (s.table a).key? = some k → (s.table b).key? = some k → ¬ a < b := by
    intro a b ha hb hlt
    obtain ⟨k', e, hne⟩ := (h.reach b k hb).2.2 a (h.reach a k ha).2.1 hlt
    rw [ha] at e; cases e; exact hne rfl
  have := key i j hi hj
  have := key j i hj hi
  omega

/-- Who has come to a slot with its key, or to an empty one, knows all of the map under its key. -/
theorem Inv.at_slot {m : Key → Option Val} {s : State Key Val} (h : Inv n hash m s) {i j : Nat} {k : Key}
    (hp : Passed hash s.table k i) (hi : (s.table i).key? = none ∨ (s.table i).key? = some k)
    (hj : (s.table j).key? = some k) : j = i := by
  rcases hi with hi | hi
  · have hr := (h.reach j k hj).2
    by_cases e : j = i
    · exact e
    · by_cases hlt : j < i
      · obtain ⟨k', e, hne⟩ := hp.2 j hr.1 hlt
        rw [hj] at e; cases e; exact absurd rfl hne
      · obtain ⟨k', e, -⟩ := hr.2 i hp.1 (by omega)
        rw [hi] at e; cases e
  · exact h.unique hj hi

theorem Inv.insertComplete {m : Key → Option Val} {s : State Key Val} (h : Inv n hash m s) {t i : Nat} {k : Key} {v : Val}
    (hp : s.threads t = .insert k v i) (hi : (s.table i).key? = none ∨ (s.table i).key? = some k) :
    Inv n hash (Function.update m k (some v)) { s.go t .idle with table := Function.update s.table i (.entry k v) } := by
  obtain ⟨hin, hpass⟩ := h.insert _ _ _ _ hp
  refine ⟨?_, ?_, ?_, ?_, ?_, ?_⟩
  · intro j k' e
    simp only at e ⊢
    by_cases ej : j = i
    · subst ej; simp [Item.key?] at e; subst e; exact ⟨hin, hpass.set hi⟩
    · rw [Function.update_of_ne ej] at e
      obtain ⟨a, b⟩ := h.reach j k' e
      exact ⟨a, b.set hi⟩
  · intro t' k' j e
    by_cases et : t' = t
    · subst et; simp [State.go] at e
    · simp [State.go, Function.update_of_ne et] at e
      obtain ⟨a, b⟩ := h.query _ _ _ e
      exact ⟨a, b.set hi⟩
  · intro t' k' v' j e
    by_cases et : t' = t
    · subst et; simp [State.go] at e
    · simp [State.go, Function.update_of_ne et] at e
      obtain ⟨a, b⟩ := h.insert _ _ _ _ e
      exact ⟨a, b.set hi⟩
  · intro j k' e
    simp only at e
    by_cases ej : j = i
    · subst ej; simp at e
    · rw [Function.update_of_ne ej] at e; exact h.live _ _ e
  · intro j k' v' e
    simp only at e
    by_cases ej : j = i
    · subst ej; simp at e; obtain ⟨rfl, rfl⟩ := e; simp
    · rw [Function.update_of_ne ej] at e
      have : k' ≠ k := by
        rintro rfl
        exact ej (h.at_slot hpass hi (by rw [e]; rfl))
      rw [Function.update_of_ne this]; exact h.sound _ _ _ e
  · intro k' v' e
    simp only
    by_cases ek : k' = k
    · subst ek; simp at e; subst e; exact ⟨i, by simp⟩
    · rw [Function.update_of_ne ek] at e
      obtain ⟨j, hj⟩ := h.complete _ _ e
      have : j ≠ i := by
        rintro rfl
        rcases hi with hi | hi <;> rw [hj] at hi <;> simp [Item.key?] at hi
        exact ek hi
      exact ⟨j, by rw [Function.update_of_ne this]; exact hj⟩

theorem lastInsert_append (k : Key) (a b : List (Label Key Val)) :
    lastInsert k (a ++ b) = (lastInsert k b).or (lastInsert k a) := by
  induction a with
  | nil => cases h : lastInsert k b <;> simp [lastInsert, h]
  | cons l a ih =>
    cases l <;> simp [lastInsert, ih]
    cases h : lastInsert k b <;> simp

theorem Inv.step (hh : ∀ k, hash k < n) {ls : List (Label Key Val)} {s s' : State Key Val} {l : Label Key Val}
    (h : Inv n hash (fun k => lastInsert k ls) s) (hs : Step n hash s l s') :
    Inv n hash (fun k => lastInsert k (ls ++ [l])) s' := by
  cases hs with
  | insertInit t k v hp =>
    simp only [lastInsert_append, lastInsert, Option.none_or]
    exact h.go (by simp) (by rintro k' v' i e; cases e; exact ⟨hh _, .here _ _⟩)
  | insertAdvance hp hk hne hi =>
    simp only [lastInsert_append, lastInsert, Option.none_or]
    exact h.go (by simp) (by rintro k' v' i e; cases e; exact ⟨by omega, (h.insert _ _ _ _ hp).2.next hk hne⟩)
  | @insertComplete t k v i hp hi =>
    have := h.insertComplete hp hi
    have e : (fun k' => lastInsert k' (ls ++ [.inserted t k v])) = Function.update (fun k => lastInsert k ls) k (some v) := by
      funext k'
      simp only [lastInsert_append, lastInsert, Option.none_or]
      by_cases ek : k = k'
      · subst ek; simp
      · simp [ek, Function.update_of_ne (Ne.symm ek)]
    rw [e]; exact this
  | queryInit t k hp =>
    simp only [lastInsert_append, lastInsert, Option.none_or]
    exact h.go (by rintro k' i e; cases e; exact ⟨hh _, .here _ _⟩) (by simp)
  | queryAdvance hp hk hne hi =>
    simp only [lastInsert_append, lastInsert, Option.none_or]
    exact h.go (by rintro k' i e; cases e; exact ⟨by omega, (h.query _ _ _ hp).2.next hk hne⟩) (by simp)
  | queryComplete hp hv =>
    simp only [lastInsert_append, lastInsert, Option.none_or]
    exact h.go (by simp) (by simp)

theorem inv_run (hh : ∀ k, hash k < n) {s0 s : State Key Val} {ls : List (Label Key Val)} (h0 : Init s0)
    (h : (machine Key Val n hash).Run s0 ls s) : Inv n hash (fun k => lastInsert k ls) s := by
  have gen : ∀ {pre ls : List (Label Key Val)} {s1 s2 : State Key Val}, (machine Key Val n hash).Run s1 ls s2 →
      Inv n hash (fun k => lastInsert k pre) s1 → Inv n hash (fun k => lastInsert k (pre ++ ls)) s2 := by
    intro pre ls s1 s2 hr hi
    induction hr generalizing pre with
    | nil => simpa using hi
    | cons hs _ ih =>
      have := ih (hi.step hh hs)
      simpa using this
  have := gen (pre := []) h (Inv.init h0)
  simpa using this

/-- A query that answers gives what was last inserted under its key, when it answers. -/
theorem finds_last_insert (hh : ∀ k, hash k < n) {s0 s : State Key Val} {before rest : List (Label Key Val)} {t : Nat}
    {k : Key} {v : Val} (h0 : Init s0) (h : (machine Key Val n hash).Run s0 (before ++ .found t k v :: rest) s) :
    lastInsert k before = some v := by
  obtain ⟨m, h1, h2⟩ := Machine.Run.split before h
  have hi := inv_run hh h0 h1
  cases h2 with
  | cons hs _ =>
    cases hs with
    | queryComplete hp hv => exact hi.sound _ _ _ hv

/-- An insertion and a query answer the call that the thread made last. -/
theorem answers_own_call {s0 s : State Key Val} {before rest : List (Label Key Val)} {t : Nat} {k : Key} {v : Val}
    (h0 : Init s0) :
    ((machine Key Val n hash).Run s0 (before ++ .found t k v :: rest) s → ∃ a b, before = a ++ .startQuery t k :: b ∧
      ∀ k' v', .found t k' v' ∉ b ∧ .inserted t k' v' ∉ b ∧ .startQuery t k' ∉ b ∧ .startInsert t k' v' ∉ b) ∧
    ((machine Key Val n hash).Run s0 (before ++ .inserted t k v :: rest) s → ∃ a b, before = a ++ .startInsert t k v :: b ∧
      ∀ k' v', .found t k' v' ∉ b ∧ .inserted t k' v' ∉ b ∧ .startQuery t k' ∉ b ∧ .startInsert t k' v' ∉ b) := by
  let Own : Label Key Val → Prop := fun l => ∃ k v, l = .found t k v ∨ l = .inserted t k v ∨ l = .startQuery t k ∨ l = .startInsert t k v
  let Told : List (Label Key Val) → Thread Key Val → Prop := fun ls p =>
    (∀ k i, p = .query k i → ∃ a b, ls = a ++ .startQuery t k :: b ∧ ∀ l ∈ b, ¬ Own l) ∧
    (∀ k v i, p = .insert k v i → ∃ a b, ls = a ++ .startInsert t k v :: b ∧ ∀ l ∈ b, ¬ Own l)
  have snoc : ∀ {ls l p}, Told ls p → ¬ Own l → Told (ls ++ [l]) p := by
    intro ls l p h hl
    refine ⟨fun k i e => ?_, fun k v i e => ?_⟩
    · obtain ⟨a, b, e, hb⟩ := h.1 k i e
      exact ⟨a, b ++ [l], by simp [e], fun l' hl' => by
        rcases List.mem_append.1 hl' with h | h
        · exact hb _ h
        · simp only [List.mem_singleton] at h; subst h; exact hl⟩
    · obtain ⟨a, b, e, hb⟩ := h.2 k v i e
      exact ⟨a, b ++ [l], by simp [e], fun l' hl' => by
        rcases List.mem_append.1 hl' with h | h
        · exact hb _ h
        · simp only [List.mem_singleton] at h; subst h; exact hl⟩
  have step : ∀ {ls l} {s s' : State Key Val}, Told ls (s.threads t) → Step n hash s l s' → Told (ls ++ [l]) (s'.threads t) := by
    intro ls l s s' ht hs
    have other : ∀ t' p, t ≠ t' → ¬ Own l → Told (ls ++ [l]) ((s.go t' p).threads t) := by
      intro t' p e hl
      simp only [State.go, Function.update_of_ne e]; exact snoc ht hl
    cases hs with
    | insertInit t' k v hp =>
      by_cases e : t = t'
      · subst e; simp only [State.go, Function.update_self]
        exact ⟨by simp, fun k' v' i e => by cases e; exact ⟨ls, [], by simp, by simp⟩⟩
      · refine other _ _ e ?_
        rintro ⟨k, v, h | h | h | h⟩ <;> cases h; exact e rfl
    | @insertAdvance t' k v i k' hp hk hne hi =>
      have hl : ¬ Own .tau := by rintro ⟨k, v, h | h | h | h⟩ <;> cases h
      by_cases e : t = t'
      · subst e
        have := snoc ht hl
        rw [hp] at this
        simp only [State.go, Function.update_self]
        exact ⟨by simp, fun k' v' i e => by cases e; exact this.2 _ _ _ rfl⟩
      · exact other _ _ e hl
    | @insertComplete t' k v i hp hi =>
      by_cases e : t = t'
      · subst e; simp only [State.go, Function.update_self]; exact ⟨by simp, by simp⟩
      · refine other t' .idle e ?_
        rintro ⟨k, v, h | h | h | h⟩ <;> cases h; exact e rfl
    | queryInit t' k hp =>
      by_cases e : t = t'
      · subst e; simp only [State.go, Function.update_self]
        exact ⟨fun k' i e => by cases e; exact ⟨ls, [], by simp, by simp⟩, by simp⟩
      · refine other _ _ e ?_
        rintro ⟨k, v, h | h | h | h⟩ <;> cases h; exact e rfl
    | @queryAdvance t' k i k' hp hk hne hi =>
      have hl : ¬ Own .tau := by rintro ⟨k, v, h | h | h | h⟩ <;> cases h
      by_cases e : t = t'
      · subst e
        have := snoc ht hl
        rw [hp] at this
        simp only [State.go, Function.update_self]
        exact ⟨fun k' i e => by cases e; exact this.1 _ _ rfl, by simp⟩
      · exact other _ _ e hl
    | @queryComplete t' k i v hp hv =>
      by_cases e : t = t'
      · subst e; simp only [State.go, Function.update_self]; exact ⟨by simp, by simp⟩
      · refine other _ _ e ?_
        rintro ⟨k, v, h | h | h | h⟩ <;> cases h; exact e rfl
  have run : ∀ {pre ls : List (Label Key Val)} {s1 s2 : State Key Val}, (machine Key Val n hash).Run s1 ls s2 →
      Told pre (s1.threads t) → Told (pre ++ ls) (s2.threads t) := by
    intro pre ls s1 s2 hr hi
    induction hr generalizing pre with
    | nil => simpa using hi
    | cons hs _ ih => have := ih (step hi hs); simpa using this
  have start : Told [] (s0.threads t) := by rw [h0.threads]; exact ⟨by simp, by simp⟩
  have fin : ∀ {b : List (Label Key Val)}, (∀ l ∈ b, ¬ Own l) →
      ∀ k' v', .found t k' v' ∉ b ∧ .inserted t k' v' ∉ b ∧ .startQuery t k' ∉ b ∧ .startInsert t k' v' ∉ b := by
    intro b hb k' v'
    exact ⟨fun h => hb _ h ⟨k', v', .inl rfl⟩, fun h => hb _ h ⟨k', v', .inr (.inl rfl)⟩,
      fun h => hb _ h ⟨k', v', .inr (.inr (.inl rfl))⟩, fun h => hb _ h ⟨k', v', .inr (.inr (.inr rfl))⟩⟩
  refine ⟨fun h => ?_, fun h => ?_⟩
  · obtain ⟨m, h1, h2⟩ := Machine.Run.split before h
    have ht := run h1 start
    rw [List.nil_append] at ht
    cases h2 with
    | cons hs _ =>
      cases hs with
      | queryComplete hp hv =>
        rw [hp] at ht
        obtain ⟨a, b, e, hb⟩ := ht.1 _ _ rfl
        exact ⟨a, b, e, fin hb⟩
  · obtain ⟨m, h1, h2⟩ := Machine.Run.split before h
    have ht := run h1 start
    rw [List.nil_append] at ht
    cases h2 with
    | cons hs _ =>
      cases hs with
      | insertComplete hp hv =>
        rw [hp] at ht
        obtain ⟨a, b, e, hb⟩ := ht.2 _ _ _ rfl
        exact ⟨a, b, e, fin hb⟩

/-- A key is in one slot only, with what was last inserted under it. -/
theorem one_slot (hh : ∀ k, hash k < n) {s0 s : State Key Val} {ls : List (Label Key Val)} (h0 : Init s0)
    (h : (machine Key Val n hash).Run s0 ls s) (k : Key) (v : Val) :
    lastInsert k ls = some v ↔ ∃ i, i < n ∧ s.table i = .entry k v ∧ ∀ j, (s.table j).key? = some k → j = i := by
  have hi := inv_run hh h0 h
  constructor
  · intro e
    obtain ⟨i, he⟩ := hi.complete _ _ e
    have hk : (s.table i).key? = some k := by rw [he]; rfl
    exact ⟨i, (hi.reach i k hk).1, he, fun j hj => hi.unique hj hk⟩
  · rintro ⟨i, -, he, -⟩; exact hi.sound _ _ _ he

/-- A query that has come to an empty slot: nothing was inserted under its key. -/
theorem empty_is_absent (hh : ∀ k, hash k < n) {s0 s : State Key Val} {ls : List (Label Key Val)} (h0 : Init s0)
    (h : (machine Key Val n hash).Run s0 ls s) {t i : Nat} {k : Key} (ht : s.threads t = .query k i)
    (he : s.table i = .empty) : lastInsert k ls = none := by
  have hi := inv_run hh h0 h
  cases hl : lastInsert k ls with
  | none => rfl
  | some v =>
    obtain ⟨j, hj⟩ := hi.complete _ _ hl
    have hjk : (s.table j).key? = some k := by rw [hj]; rfl
    have := hi.at_slot (hi.query _ _ _ ht).2 (.inl (by rw [he]; rfl)) hjk
    subst this
    rw [he] at hj; cases hj

/-- A thread with a call under way can go on, unless it is a query at an empty slot or a call at the last slot, which
has another key. -/
theorem goes_on_partial (hh : ∀ k, hash k < n) {s0 s : State Key Val} {ls : List (Label Key Val)} (h0 : Init s0)
    (h : (machine Key Val n hash).Run s0 ls s) {t : Nat} (ht : s.threads t ≠ .idle) :
    (∃ l s', Step n hash s l s' ∧ s'.threads t ≠ s.threads t) ∨
    (∃ k i, s.threads t = .query k i ∧ s.table i = .empty) ∨
    ∃ k k', ((∃ v, s.threads t = .insert k v (n - 1)) ∨ s.threads t = .query k (n - 1)) ∧
      (s.table (n - 1)).key? = some k' ∧ k' ≠ k := by
  have hi := inv_run hh h0 h
  cases hp : s.threads t with
  | idle => exact absurd hp ht
  | query k i =>
    have hin := (hi.query _ _ _ hp).1
    cases hk : s.table i with
    | empty => exact .inr (.inl ⟨k, i, rfl, hk⟩)
    | tombstone k' => exact absurd hk (hi.live _ _)
    | entry k' v =>
      by_cases e : k' = k
      · subst e; exact .inl ⟨_, _, .queryComplete hp hk, by simp [State.go]⟩
      · by_cases el : i < n - 1
        · exact .inl ⟨_, _, .queryAdvance hp (by rw [hk]; rfl) e el, by simp [State.go]⟩
        · have : i = n - 1 := by omega
          subst this
          exact .inr (.inr ⟨k, k', .inr rfl, by rw [hk]; rfl, e⟩)
  | insert k v i =>
    have hin := (hi.insert _ _ _ _ hp).1
    cases hk : (s.table i).key? with
    | none => exact .inl ⟨_, _, .insertComplete hp (.inl hk), by simp [State.go]⟩
    | some k' =>
      by_cases e : k' = k
      · subst e; exact .inl ⟨_, _, .insertComplete hp (.inr hk), by simp [State.go]⟩
      · by_cases el : i < n - 1
        · exact .inl ⟨_, _, .insertAdvance hp hk e el, by simp [State.go]⟩
        · have : i = n - 1 := by omega
          subst this
          exact .inr (.inr ⟨k, k', .inl ⟨v, rfl⟩, hk, e⟩)

/-! ### Calls that never answer -/

/-- A query for a key that was not inserted does not answer. -/
theorem absent_never_answers (hh : ∀ k, hash k < n) {s0 s : State Key Val} {ls : List (Label Key Val)} (h0 : Init s0)
    (h : (machine Key Val n hash).Run s0 ls s) {k : Key} (hk : ∀ t v, .inserted t k v ∉ ls) (t : Nat) (v : Val) :
    .found t k v ∉ ls := by
  intro hm
  obtain ⟨a, b, rfl⟩ := List.append_of_mem hm
  have := finds_last_insert hh h0 h
  have none : ∀ l : List (Label Key Val), (∀ t v, .inserted t k v ∉ l) → lastInsert k l = none := by
    intro l hl
    induction l with
    | nil => rfl
    | cons x l ih =>
      have h1 := ih fun t v hm => hl t v (List.mem_cons_of_mem _ hm)
      cases x with
      | inserted t' k' v' =>
        have : k' ≠ k := by rintro rfl; exact hl t' v' List.mem_cons_self
        simp [lastInsert, h1, this]
      | _ => exact h1
  rw [none a fun t v hm => hk t v (by simp [hm])] at this
  cases this

/-- At an empty slot a query cannot make a step. -/
theorem empty_no_step {s s' : State Key Val} {l : Label Key Val} {t i : Nat} {k : Key} (ht : s.threads t = .query k i)
    (he : s.table i = .empty) (hs : Step n hash s l s') : s'.threads t = .query k i := by
  have key : ∀ t' p, (t' = t → False) → (s.go t' p).threads t = .query k i := by
    intro t' p h
    simp [State.go, Function.update_of_ne (fun e => h e.symm), ht]
  cases hs with
  | insertInit t' k v hp => exact key _ _ fun e => by subst e; rw [ht] at hp; cases hp
  | insertAdvance hp => exact key _ _ fun e => by subst e; rw [ht] at hp; cases hp
  | insertComplete hp => exact key _ _ fun e => by subst e; rw [ht] at hp; cases hp
  | queryInit t' k hp => exact key _ _ fun e => by subst e; rw [ht] at hp; cases hp
  | queryAdvance hp hk =>
    exact key _ _ fun e => by subst e; rw [ht] at hp; cases hp; rw [he] at hk; cases hk
  | queryComplete hp hv =>
    exact key _ _ fun e => by subst e; rw [ht] at hp; cases hp; rw [he] at hv; cases hv

/-- An insertion at the last slot, which has another key, never ends. -/
theorem end_for_ever {s s' : State Key Val} {ls : List (Label Key Val)} {t : Nat} {k k' : Key} {v : Val}
    (ht : s.threads t = .insert k v (n - 1)) (hk : (s.table (n - 1)).key? = some k') (hne : k' ≠ k)
    (h : (machine Key Val n hash).Run s ls s') : s'.threads t = .insert k v (n - 1) := by
  induction h with
  | nil => exact ht
  | @cons s l s1 ls s2 hs _ ih =>
    have key : ∀ t' p, (t' = t → False) → (s.go t' p).threads t = .insert k v (n - 1) := by
      intro t' p h
      simp [State.go, Function.update_of_ne (fun e => h e.symm), ht]
    refine ih ?_ ?_
    · cases hs with
      | insertInit t' k v hp => exact key _ _ fun e => by subst e; rw [ht] at hp; cases hp
      | insertAdvance hp _ _ hi => exact key _ _ fun e => by subst e; rw [ht] at hp; cases hp; omega
      | insertComplete hp hi =>
        refine key _ .idle fun e => ?_
        subst e; rw [ht] at hp; cases hp
        rcases hi with hi | hi <;> rw [hk] at hi <;> cases hi
        exact hne rfl
      | queryInit t' k hp => exact key _ _ fun e => by subst e; rw [ht] at hp; cases hp
      | queryAdvance hp => exact key _ _ fun e => by subst e; rw [ht] at hp; cases hp
      | queryComplete hp => exact key _ _ fun e => by subst e; rw [ht] at hp; cases hp
    · cases hs with
      | @insertComplete t' k'' v' i hp hi =>
        simp only
        by_cases e : n - 1 = i
        · subst e
          rcases hi with hi | hi <;> rw [hk] at hi <;> cases hi
          simp [Item.key?]
        · rw [Function.update_of_ne e]; exact hk
      | _ => exact hk

/-! ### Runs -/

/-- An empty table. -/
def start : State Nat Nat := ⟨fun _ => .empty, fun _ => .idle⟩

theorem start_init : Init start := ⟨fun _ => rfl, fun _ => rfl⟩

/-- Four slots, the hash of a key is its remainder: keys 1 and 5 meet. While thread 1 looks for key 5, thread 0 inserts
1 and then 5; thread 1 finds it; then 5 is inserted again, and thread 1 finds the new value. -/
theorem demo : ∃ s, (machine Nat Nat 4 (· % 4)).Run start
    [.startInsert 0 1 10, .inserted 0 1 10, .startQuery 1 5, .tau, .startInsert 0 5 50, .tau, .inserted 0 5 50, .found 1 5 50,
      .startQuery 1 5, .startInsert 2 5 51, .tau, .tau, .inserted 2 5 51, .found 1 5 51] s := by
  refine ⟨_, .cons (.insertInit 0 1 10 rfl) <| .cons (.insertComplete (t := 0) (k := 1) (v := 10) (i := 1) rfl (.inl rfl)) <|
    .cons (.queryInit 1 5 rfl) <| .cons (.queryAdvance (t := 1) (k := 5) (i := 1) (k' := 1) rfl rfl (by decide) (by decide)) <|
    .cons (.insertInit 0 5 50 rfl) <| .cons (.insertAdvance (t := 0) (k := 5) (v := 50) (i := 1) (k' := 1) rfl rfl (by decide) (by decide)) <|
    .cons (.insertComplete (t := 0) (k := 5) (v := 50) (i := 2) rfl (.inl rfl)) <|
    .cons (.queryComplete (t := 1) (k := 5) (i := 2) (v := 50) rfl rfl) <| .cons (.queryInit 1 5 rfl) <|
    .cons (.insertInit 2 5 51 rfl) <|
    .cons (.queryAdvance (t := 1) (k := 5) (i := 1) (k' := 1) rfl rfl (by decide) (by decide)) <|
    .cons (.insertAdvance (t := 2) (k := 5) (v := 51) (i := 1) (k' := 1) rfl rfl (by decide) (by decide)) <|
    .cons (.insertComplete (t := 2) (k := 5) (v := 51) (i := 2) rfl (.inr rfl)) <|
    .cons (.queryComplete (t := 1) (k := 5) (i := 2) (v := 51) rfl rfl) <| .nil _⟩

/-- In a table of four slots, three of them empty, the second insertion is stuck for ever, and so is a query. -/
theorem demo_end : ∃ s, (machine Nat Nat 4 (· % 4)).Run start
    [.startInsert 0 3 30, .inserted 0 3 30, .startInsert 0 7 70, .startQuery 1 2] s ∧
    s.threads 0 = .insert 7 70 (4 - 1) ∧ (s.table (4 - 1)).key? = some 3 ∧ s.threads 1 = .query 2 2 ∧ s.table 2 = .empty := by
  exact ⟨_, .cons (.insertInit 0 3 30 rfl) <| .cons (.insertComplete (t := 0) (k := 3) (v := 30) (i := 3) rfl (.inl rfl)) <|
    .cons (.insertInit 0 7 70 rfl) <| .cons (.queryInit 1 2 rfl) <| .nil _, rfl, rfl, rfl, rfl⟩

end Verif.C78
