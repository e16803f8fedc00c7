import Verif.Kv.JournalDisk
/-
Facts about the ring of journal blocks.
-/
namespace Verif.Kv

theorem posAdd_zero {a : Nat} (h : a < numJournalBlocks) : posAdd a 0 = a := by
  unfold posAdd; split <;> omega

theorem posAdd_lt {a k : Nat} (h : a < numJournalBlocks) (hk : k ≤ numJournalBlocks) :
    posAdd a k < numJournalBlocks := by unfold posAdd; split <;> omega

theorem posAdd_add {a i k : Nat} (h : a < numJournalBlocks) (hk : i + k ≤ numJournalBlocks) :
    posAdd (posAdd a i) k = posAdd a (i + k) := by
  unfold posAdd; split <;> split <;> split <;> omega

theorem posAdd_inj {a i k : Nat} (h : a < numJournalBlocks) (hi : i < numJournalBlocks)
    (hk : k < numJournalBlocks) (e : posAdd a i = posAdd a k) : i = k := by
  unfold posAdd at e; split at e <;> split at e <;> omega

theorem blocksAt_congr {j j' : Nat → Option Block} {a n : Nat} (ha : a < numJournalBlocks)
    (hn : n ≤ numJournalBlocks) (h : ∀ k, k < n → j (posAdd a k) = j' (posAdd a k)) :
    blocksAt j a n = blocksAt j' a n := by
  induction n generalizing a with
  | zero => rfl
  | succ n ih =>
    have h0 := h 0 (by omega)
    rw [posAdd_zero ha] at h0
    have := ih (a := posAdd a 1) (posAdd_lt ha (by omega)) (by omega) (fun k hk => by
      rw [posAdd_add ha (by omega)]; exact h (1 + k) (by omega))
    simp only [blocksAt, h0, this]

theorem blocksAt_append {j : Nat → Option Block} {a m n : Nat} {x y : List Block}
    (ha : a < numJournalBlocks) (hn : m + n ≤ numJournalBlocks) (hx : blocksAt j a m = some x)
    (hy : blocksAt j (posAdd a m) n = some y) : blocksAt j a (m + n) = some (x ++ y) := by
  induction m generalizing a x with
  | zero => cases hx; rw [posAdd_zero ha] at hy; simpa using hy
  | succ m ih =>
    simp only [blocksAt] at hx
    cases hj : j a with
    | none => simp [hj] at hx
    | some b =>
      cases hb : blocksAt j (posAdd a 1) m with
      | none => simp [hj, hb] at hx
      | some bs =>
        simp only [hj, hb] at hx
        cases hx
        have := ih (a := posAdd a 1) (posAdd_lt ha (by omega)) (by omega) hb
          (by rw [posAdd_add ha (by omega), Nat.add_comm 1 m]; exact hy)
        rw [Nat.add_right_comm m 1 n]
        simp only [blocksAt, hj, this, List.cons_append]

theorem blocksAt_length {j : Nat → Option Block} {a n : Nat} {x : List Block}
    (h : blocksAt j a n = some x) : x.length = n := by
  induction n generalizing a x with
  | zero => cases h; rfl
  | succ n ih =>
    simp only [blocksAt] at h
    cases hj : j a with
    | none => simp [hj] at h
    | some b =>
      cases hb : blocksAt j (posAdd a 1) n with
      | none => simp [hj, hb] at h
      | some bs => simp only [hj, hb] at h; cases h; simp [ih hb]

theorem blocksAt_of_get {j : Nat → Option Block} {a : Nat} {bs : List Block}
    (ha : a < numJournalBlocks) (hn : bs.length ≤ numJournalBlocks)
    (h : ∀ k, k < bs.length → j (posAdd a k) = bs[k]?) : blocksAt j a bs.length = some bs := by
  induction bs generalizing a with
  | nil => rfl
  | cons b bs ih =>
    simp only [List.length_cons] at hn h ⊢
    have h0 := h 0 (by omega)
    rw [posAdd_zero ha] at h0
    have := ih (a := posAdd a 1) (posAdd_lt ha (by omega)) (by omega) (fun k hk => by
      rw [posAdd_add ha (by omega), Nat.add_comm 1 k]; simpa using h (k + 1) (by omega))
    simp only [blocksAt, h0, this]
    simp

/-- What is written is there. -/
theorem blocksAt_splice {j : Nat → Option Block} {a : Nat} {bs : List Block}
    (ha : a < numJournalBlocks) (hn : bs.length ≤ numJournalBlocks) :
    blocksAt (splice j a bs) a bs.length = some bs := by
  refine blocksAt_of_get ha hn fun k hk => ?_
  unfold splice posAdd
  split
  · rw [if_neg (by omega), if_pos (by omega)]
    congr 1; omega
  · rw [if_pos (by omega)]
    congr 1; omega

/-- Elsewhere nothing changes. -/
theorem splice_other {j : Nat → Option Block} {a i : Nat} {bs : List Block}
    (h : ¬ InCyclic i ⟨a, bs.length⟩) : splice j a bs i = j i := by
  unfold InCyclic at h
  unfold splice
  rw [if_neg (fun hc => h (.inl hc)), if_neg (fun hc => h (.inr hc))]

/-- The positions of an interval. -/
theorem inCyclic_pos {i a n : Nat} (ha : a < numJournalBlocks) (hn : n ≤ numJournalBlocks)
    (hi : i < numJournalBlocks) : InCyclic i ⟨a, n⟩ ↔ ∃ k, k < n ∧ i = posAdd a k := by
  unfold InCyclic posAdd
  constructor
  · rintro (⟨h1, h2⟩ | ⟨h1, h2⟩)
    · exact ⟨i - a, by simp at *; omega, by simp at *; split <;> omega⟩
    · exact ⟨i + numJournalBlocks - a, by simp at *; omega, by simp at *; split <;> omega⟩
  · rintro ⟨k, h1, h2⟩
    simp only
    split at h2 <;> omega

theorem journalAt_zero (j : Nat → Option Block) (a : Nat) : journalAt j a 0 = some [] := by
  simp [journalAt, blocksAt, parse_nil]

theorem journalAt_append {j : Nat → Option Block} {a m n : Nat} {x y : List Entry}
    (ha : a < numJournalBlocks) (hn : m + n ≤ numJournalBlocks) (hx : journalAt j a m = some x)
    (hy : journalAt j (posAdd a m) n = some y) : journalAt j a (m + n) = some (x ++ y) := by
  unfold journalAt at *
  obtain ⟨bx, h1, h2⟩ := Option.bind_eq_some_iff.mp hx
  obtain ⟨bz, h3, h4⟩ := Option.bind_eq_some_iff.mp hy
  rw [blocksAt_append ha hn h1 h3]
  exact parse_append h2 h4

theorem journalAt_congr {j j' : Nat → Option Block} {a n : Nat} (ha : a < numJournalBlocks)
    (hn : n ≤ numJournalBlocks) (h : ∀ k, k < n → j (posAdd a k) = j' (posAdd a k)) :
    journalAt j a n = journalAt j' a n := by
  unfold journalAt; rw [blocksAt_congr ha hn h]

/-- Writing after `m` blocks keeps the first `m`. -/
theorem journalAt_splice_before {j : Nat → Option Block} {a m p n : Nat} {bs : List Block}
    (ha : a < numJournalBlocks) (hm : m + bs.length ≤ numJournalBlocks) (hp : p + n ≤ m) :
    journalAt (splice j (posAdd a m) bs) (posAdd a p) n = journalAt j (posAdd a p) n := by
  refine journalAt_congr (posAdd_lt ha (by omega)) (by omega) fun k hk => splice_other ?_
  rw [posAdd_add ha (by omega)]
  rw [inCyclic_pos (posAdd_lt ha (by omega)) (by omega) (posAdd_lt ha (by omega))]
  rintro ⟨l, hl, e⟩
  rw [posAdd_add ha (by omega)] at e
  have := posAdd_inj ha (by omega) (by omega) e
  omega

/-- Writing after `m` blocks appends. -/
theorem journalAt_splice {j : Nat → Option Block} {a m p : Nat} {bs : List Block} {x y : List Entry}
    (ha : a < numJournalBlocks) (hm : m + bs.length ≤ numJournalBlocks) (hp : p ≤ m)
    (hx : journalAt j (posAdd a p) (m - p) = some x) (hy : parseRange bs = some y) :
    journalAt (splice j (posAdd a m) bs) (posAdd a p) (m + bs.length - p) = some (x ++ y) := by
  have h1 : m + bs.length - p = (m - p) + bs.length := by omega
  rw [h1]
  refine journalAt_append (posAdd_lt ha (by omega)) (by omega) ?_ ?_
  · rw [journalAt_splice_before ha hm (by omega), hx]
  · rw [posAdd_add ha (by omega), show p + (m - p) = m by omega]
    unfold journalAt
    rw [blocksAt_splice (posAdd_lt ha (by omega)) (by omega)]
    exact hy

end Verif.Kv
