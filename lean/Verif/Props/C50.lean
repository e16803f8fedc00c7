import Verif.Props.C48
/-
C50. What a balance query of the concurrent bank reports. Specification: `ledger` at a position of the
event sequence, `total` of the accounts (Bank/Ledger.lean). `total_torn` shows that the total is not
that of any one moment when transfers run meanwhile (the code says "not thread safe").
-/
namespace Verif.C50
open Verif Bank Simple

variable {n : Nat} {amount : UInt32} {threads : Nat} {tr : List Event} {s : State}

/-- `check_value` reports the balance of the moment it reports. -/
theorem check_exact (h : (machine n amount threads).Exec tr s) {j t i : Nat} {v : UInt64}
    (hj : tr[j]? = some (.checked t i v)) : v.toNat = ledger amount (tr.take j) i := by
  obtain ⟨s1, s2, h1, hs⟩ := h.at_index hj
  cases hs with
  | @checked _ _ v k hpc hc =>
    rw [UInt32.toNat_toUInt64]; exact (inv_exec h1).cell _ _ _ hc

/-- `get_total`, returning at `j`, was called at some `j0` and read the accounts in order at moments
`m 0 ≤ m 1 ≤ …` in between; the result is the sum of what it read. (Over 2^32 accounts the sum may not
fit the result.) -/
theorem total_of_moments (h : (machine n amount threads).Exec tr s) (hn : n ≤ 2 ^ 32) {j t : Nat} {v : UInt64}
    (hj : tr[j]? = some (.totalled t v)) :
    ∃ (j0 : Nat) (m : Nat → Nat), j0 < j ∧ tr[j0]? = some (.startTotal t) ∧
      (∀ k, j0 < k → k < j → tr[k]? ≠ some (.startTotal t)) ∧
      (∀ a, a < n → j0 < m a ∧ m a ≤ j) ∧ (∀ a a', a ≤ a' → a' < n → m a ≤ m a') ∧
      v.toNat = total (fun a => ledger amount (tr.take (m a)) a) n := by
  obtain ⟨s1, s2, h1, hs⟩ := h.at_index hj
  have hjl := lt_of_get hj
  have hlen : (tr.take j).length = j := by simp; omega
  have hI := inv_exec h1
  have done : ∀ {p : PC} {i : Nat}, s1.pcs[t]? = some p → p.summed = some (i, v) → i = n →
      ∃ (j0 : Nat) (m : Nat → Nat), j0 < j ∧ tr[j0]? = some (.startTotal t) ∧
        (∀ k, j0 < k → k < j → tr[k]? ≠ some (.startTotal t)) ∧
        (∀ a, a < n → j0 < m a ∧ m a ≤ j) ∧ (∀ a a', a ≤ a' → a' < n → m a ≤ m a') ∧
        v.toNat = total (fun a => ledger amount (tr.take (m a)) a) n := by
    intro p i hpc hp hi
    subst hi
    obtain ⟨j0, m, g1, g2, g3, g4, g5, _⟩ := sums h1 hpc _ _ hp
    have hj0 := lt_of_get g1
    rw [hlen] at hj0
    rw [List.getElem?_take, if_pos hj0] at g1
    rw [hlen] at g3
    refine ⟨j0, m, hj0, g1, ?_, g3, g4, ?_⟩
    · intro k hk hkj
      have := g2 k hk
      rwa [List.getElem?_take, if_pos hkj] at this
    · rw [g5]; refine total_congr ?_
      intro a ha
      rw [List.take_take, Nat.min_eq_left (g3 a ha).2]
  cases hs with
  | totalled hpc hi =>
    refine done hpc rfl ?_
    have := hI.ok _ _ hpc
    simp only [PC.Ok] at this
    rw [hI.len] at hi; omega
  | @overflow _ i _ x k hpc hc hle =>
    exfalso
    obtain ⟨_, _, _, _, _, _, _, hb⟩ := sums h1 hpc i v rfl
    have hi : i < n := hI.ok _ _ hpc
    apply hle
    have hx := x.toNat_lt
    have hv := v.toNat_lt
    rw [UInt64.le_iff_toNat_le, UInt64.toNat_sub_of_le]
    · rw [UInt32.toNat_toUInt64]
      have : i * (2 ^ 32 - 1) ≤ (2 ^ 32 - 1) * (2 ^ 32 - 1) := Nat.mul_le_mul_right _ (by omega)
      simp; omega
    · rw [UInt64.le_iff_toNat_le]; simp; omega

/-- The event changes no balance. -/
def Quiet : Event → Prop
  | .execute _ _ p => p.succeeded = false
  | _ => True

theorem ledger_quiet {j0 j : Nat} (hq : ∀ k e, j0 < k → k < j → tr[k]? = some e → Quiet e)
    {m : Nat} (hm : j0 < m) (d : Nat) (hd : m + d ≤ j) :
    ledger amount (tr.take (m + d)) = ledger amount (tr.take m) := by
  induction d with
  | zero => rfl
  | succ d ih =>
    rw [← ih (by omega), ← Nat.add_assoc]
    cases he : tr[m + d]? with
    | none =>
      have : tr.length ≤ m + d := by simpa using he
      rw [List.take_of_length_le (by omega), List.take_of_length_le this]
    | some e =>
      rw [List.take_add_one, he]
      simp only [Option.toList]
      rw [ledger_snoc]
      have := hq (m + d) e (by omega) (by omega) he
      cases e <;> simp only [Quiet] at this <;> simp [effect, this]

/-- If no transfer took effect since the call, `get_total` reports the true total, all there is. -/
theorem total_quiet (h : (machine n amount threads).Exec tr s) (hn : n ≤ 2 ^ 32) {j0 j t : Nat} {v : UInt64}
    (hj : tr[j]? = some (.totalled t v)) (h0 : tr[j0]? = some (.startTotal t)) (hlt : j0 < j)
    (hq : ∀ k e, j0 < k → k < j → tr[k]? = some e → Quiet e ∧ e ≠ .startTotal t) :
    v.toNat = total (ledger amount (tr.take j)) n ∧ v.toNat = n * amount.toNat := by
  obtain ⟨i, m, hij, hi, hlast, hm, _, hv⟩ := total_of_moments h hn hj
  have : i = j0 := by
    rcases Nat.lt_trichotomy i j0 with hlt' | e | hgt
    · exact absurd h0 (hlast j0 hlt' hlt)
    · exact e
    · exact absurd rfl (hq i _ hgt hij hi).2
  subst this
  obtain ⟨s1, _, h1, _⟩ := h.at_index hj
  have e : v.toNat = total (ledger amount (tr.take j)) n := by
    rw [hv]; refine total_congr ?_
    intro a ha
    have := ledger_quiet (amount := amount) (fun k e h1 h2 h3 => (hq k e h1 h2 h3).1) (hm a ha).1 (j - m a)
      (by have := (hm a ha).2; omega)
    rw [← this]; congr 3; have := (hm a ha).2; omega
  exact ⟨e, by rw [e]; exact C48.ledger_total h1⟩

/-- With a transfer running meanwhile the reported total can be wrong at every moment: 15 for 20. -/
theorem total_torn :
    ∃ (tr : List Event) (s : State), (machine 2 10 2).Exec tr s ∧ Event.totalled 1 15 ∈ tr ∧
      ∀ k, total (ledger 10 (tr.take k)) 2 = 20 := by
  refine ⟨Demo.torn, _, Demo.torn_exec, by simp [Demo.torn], ?_⟩
  intro k
  obtain ⟨s0, h0, hr⟩ := Demo.torn_exec
  rw [← List.take_append_drop k Demo.torn] at hr
  obtain ⟨s1, h1, _⟩ := hr.split
  exact C48.ledger_total ⟨s0, h0, h1⟩

/-- Balances looked up while another thread adds up, after two transfers: 14 in account 1, 30 in all. -/
theorem demo :
    (machine 3 10 2).Exec (Demo.half ++ Demo.rest ++ Demo.looked) Demo.endState ∧
    (Demo.half ++ Demo.rest ++ Demo.looked)[21]? = some (.checked 0 1 14) ∧
    (Demo.half ++ Demo.rest ++ Demo.looked)[16]? = some (.startTotal 1) ∧
    (Demo.half ++ Demo.rest ++ Demo.looked)[25]? = some (.totalled 1 30) ∧
    (∀ k e, 16 < k → k < 25 → (Demo.half ++ Demo.rest ++ Demo.looked)[k]? = some e →
      Quiet e ∧ e ≠ .startTotal 1) := by
  refine ⟨Demo.looked_exec, rfl, rfl, rfl, ?_⟩
  intro k e h1 h2 he
  have : k = 17 ∨ k = 18 ∨ k = 19 ∨ k = 20 ∨ k = 21 ∨ k = 22 ∨ k = 23 ∨ k = 24 := by omega
  rcases this with rfl | rfl | rfl | rfl | rfl | rfl | rfl | rfl <;> cases he <;> exact ⟨trivial, nofun⟩

end Verif.C50
