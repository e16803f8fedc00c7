import Verif.Bank.Refine
import Verif.Bank.Live
/-
What the past events say about a thread of the bank program.
-/
namespace Verif.Bank
open Verif Simple

/-- The client events of thread `t`. -/
def mine (t : Nat) : Event → Option Label
  | .accept t' r => if t' = t then some (.accept r) else none
  | .execute t' r p => if t' = t then some (.execute r p) else none
  | .deliver t' p => if t' = t then some (.deliver p) else none
  | _ => none

/-- Client events that come in turns: a request accepted, then executed once with a reply that carries
its number, then that reply delivered. The second argument says what is still open. -/
inductive Turns : List Label → Option (Request × Option Reply) → Prop
  | nil : Turns [] none
  | accept {l r} : Turns l none → Turns (l ++ [.accept r]) (some (r, none))
  | execute {l r p} : Turns l (some (r, none)) → p.id = r.id → Turns (l ++ [.execute r p]) (some (r, some p))
  | deliver {l r p} : Turns l (some (r, some p)) → Turns (l ++ [.deliver p]) none

namespace Simple

/-- The thread that moves. -/
def Event.thread : Event → Nat
  | .accept t _ | .execute t _ _ | .deliver t _ | .startCheck t _ | .checked t _ _ | .startTotal t
  | .totalled t _ | .tau t => t

/-- A step changes the place of one thread only. -/
theorem pcs_step {s e s'} (hs : Next s e s') :
    ∃ p, s'.pcs = s.pcs.set e.thread p := by
  cases hs <;> exact ⟨_, rfl⟩

/-- Threads come in turns. -/
def TurnInv (tr : List Event) (t : Nat) (p : PC) : Prop :=
  ∃ ph, Turns (tr.filterMap (mine t)) ph ∧
    p.pending = (match ph with
      | some (r, none) => some r
      | _ => none) ∧
    p.answer = (match ph with
      | some (_, some q) => some q
      | _ => none)

theorem turn_quiet {tr t p e p'} (h : TurnInv tr t p) (he : mine t e = none) (h1 : p'.pending = p.pending)
    (h2 : p'.answer = p.answer) : TurnInv (tr ++ [e]) t p' := by
  obtain ⟨ph, ht, a, b⟩ := h
  exact ⟨ph, by simpa [List.filterMap_append, he] using ht, h1.trans a, h2.trans b⟩

theorem turn_other {tr t p e} (h : TurnInv tr t p) (he : e.thread ≠ t) : TurnInv (tr ++ [e]) t p :=
  turn_quiet h (by cases e <;> simp_all [mine, Event.thread]) rfl rfl

theorem turn_execute {tr t p r q p'} (h : TurnInv tr t p) (h1 : p.pending = some r) (hq : q.id = r.id)
    (h2 : p'.pending = none) (h3 : p'.answer = some q) : TurnInv (tr ++ [.execute t r q]) t p' := by
  obtain ⟨ph, ht, a, b⟩ := h
  have : ph = some (r, none) := by
    rw [h1] at a
    split at a
    · cases a; rfl
    · cases a
  subst this
  exact ⟨some (r, some q), by simpa [List.filterMap_append, mine] using Turns.execute ht hq, h2, h3⟩

theorem turns {n amount threads tr s} (h : (machine n amount threads).Exec tr s) {t : Nat} {p : PC}
    (hp : s.pcs[t]? = some p) : TurnInv tr t p := by
  have main := Machine.exec_invariant (M := machine n amount threads)
    (I := fun tr s => ∀ (t : Nat) (p : PC), s.pcs[t]? = some p → TurnInv tr t p) ?_ ?_ h
  · exact main t p hp
  · rintro s rfl t p hp
    have hp := List.mem_of_getElem? hp
    simp only [start, List.mem_replicate] at hp
    rw [hp.2]; exact ⟨none, .nil, rfl, rfl⟩
  · intro tr s e s' hI hs t p hp
    by_cases het : e.thread = t
    · have key : ∀ {p0 p1 : PC}, s.pcs[t]? = some p0 → s'.pcs = s.pcs.set t p1 → p = p1 := by
        intro p0 p1 h0 h1
        rw [h1, List.getElem?_set_self (lt_of_get h0)] at hp
        exact (Option.some.inj hp).symm
      cases hs with
      | accept hpc =>
        cases het; cases key hpc rfl
        obtain ⟨ph, ht, a, b⟩ := hI _ _ hpc
        have : ph = none := by
          match ph, a, b with
          | none, _, _ => rfl
          | some (_, none), a, _ => cases a
          | some (_, some _), _, b => cases b
        subst this
        exact ⟨some (_, none), by simpa [List.filterMap_append, mine, Event.thread] using Turns.accept ht, rfl, rfl⟩
      | invalid hpc hv => cases het; cases key hpc rfl; exact turn_execute (hI _ _ hpc) rfl rfl rfl rfl
      | pay hpc hv => cases het; cases key hpc rfl; exact turn_execute (hI _ _ hpc) rfl rfl rfl rfl
      | fail hpc => cases het; cases key hpc rfl; exact turn_execute (hI _ _ hpc) rfl rfl rfl rfl
      | @deliver t q hpc =>
        cases het; cases key hpc rfl
        obtain ⟨ph, ht, a, b⟩ := hI _ _ hpc
        match ph, ht, b with
        | some (r, some q'), ht, b =>
          cases b
          exact ⟨none, by simpa [List.filterMap_append, mine, Event.thread] using Turns.deliver ht, rfl, rfl⟩
      | lockSecond hpc hc =>
        cases het; cases key hpc rfl
        refine turn_quiet (hI _ _ hpc) rfl ?_ ?_ <;> split <;> rfl
      | lockFirst hpc _ _ => cases het; cases key hpc rfl; exact turn_quiet (hI _ _ hpc) rfl rfl rfl
      | storeSrc hpc => cases het; cases key hpc rfl; exact turn_quiet (hI _ _ hpc) rfl rfl rfl
      | storeDst hpc => cases het; cases key hpc rfl; exact turn_quiet (hI _ _ hpc) rfl rfl rfl
      | refuse hpc _ => cases het; cases key hpc rfl; exact turn_quiet (hI _ _ hpc) rfl rfl rfl
      | backSrc hpc => cases het; cases key hpc rfl; exact turn_quiet (hI _ _ hpc) rfl rfl rfl
      | backDst hpc => cases het; cases key hpc rfl; exact turn_quiet (hI _ _ hpc) rfl rfl rfl
      | startCheck hpc _ => cases het; cases key hpc rfl; exact turn_quiet (hI _ _ hpc) rfl rfl rfl
      | lockCheck hpc _ => cases het; cases key hpc rfl; exact turn_quiet (hI _ _ hpc) rfl rfl rfl
      | checked hpc _ => cases het; cases key hpc rfl; exact turn_quiet (hI _ _ hpc) rfl rfl rfl
      | startTotal hpc => cases het; cases key hpc rfl; exact turn_quiet (hI _ _ hpc) rfl rfl rfl
      | lockTotal hpc _ _ => cases het; cases key hpc rfl; exact turn_quiet (hI _ _ hpc) rfl rfl rfl
      | add hpc _ _ => cases het; cases key hpc rfl; exact turn_quiet (hI _ _ hpc) rfl rfl rfl
      | overflow hpc _ _ => cases het; cases key hpc rfl; exact turn_quiet (hI _ _ hpc) rfl rfl rfl
      | totalled hpc _ => cases het; cases key hpc rfl; exact turn_quiet (hI _ _ hpc) rfl rfl rfl
    · obtain ⟨q, hq⟩ := pcs_step hs
      rw [hq, List.getElem?_set_ne het] at hp
      exact turn_other (hI t p hp) het

/-- A refusal has been decided. -/
def PC.refusing : PC → Bool
  | .refused _ _ _ | .refusedDst _ _ | .failing _ => true
  | _ => false

/-- Thread `t` accepted `r` at position `i`, its last acceptance. -/
def LastAccept (tr : List Event) (t i : Nat) (r : Request) : Prop :=
  tr[i]? = some (.accept t r) ∧ ∀ j r', i < j → tr[j]? ≠ some (.accept t r')

theorem get_append {α : Type} {l : List α} {x : α} {i : Nat} {a : α} (h : l[i]? = some a) :
    (l ++ [x])[i]? = some a := by
  rw [List.getElem?_append_left (lt_of_get h)]; exact h

theorem get_snoc {α : Type} {l : List α} {x : α} {i : Nat} {a : α} (h : (l ++ [x])[i]? = some a) :
    l[i]? = some a ∨ (i = l.length ∧ x = a) := by
  rw [List.getElem?_append] at h
  split at h
  · exact .inl h
  · rename_i hi
    right
    have : i - l.length = 0 := by
      have := lt_of_get h; simp at this; omega
    rw [this] at h; simp at h
    exact ⟨by omega, h⟩

theorem LastAccept.snoc {tr t i r} (h : LastAccept tr t i r) {e : Event} (he : ∀ r', e ≠ .accept t r') :
    LastAccept (tr ++ [e]) t i r := by
  refine ⟨get_append h.1, ?_⟩
  intro j r' hij hj
  rcases get_snoc hj with hj | ⟨_, hj⟩
  · exact h.2 _ _ hij hj
  · exact he _ hj

theorem take_append {tr : List Event} {e : Event} {m : Nat} (h : m ≤ tr.length) :
    (tr ++ [e]).take m = tr.take m := by
  rw [List.take_append_of_le_length h]

/-- The past of a thread with a request in hand. -/
def PastInv (n : Nat) (amount : UInt32) (tr : List Event) (t : Nat) (p : PC) : Prop :=
  ∀ r, p.pending = some r → ∃ i, LastAccept tr t i r ∧
    (p.refusing = true → ∃ m, i < m ∧ m ≤ tr.length ∧ ¬ Payable n (ledger amount (tr.take m)) r)

theorem past_quiet {n amount tr t p e p'} (h : PastInv n amount tr t p) (he : ∀ r', e ≠ .accept t r')
    (h1 : p'.pending = p.pending) (h2 : p'.refusing = true → p.refusing = true) :
    PastInv n amount (tr ++ [e]) t p' := by
  intro r hr
  obtain ⟨i, hi, hm⟩ := h r (h1.symm.trans hr)
  refine ⟨i, hi.snoc he, fun hp => ?_⟩
  obtain ⟨m, a, b, c⟩ := hm (h2 hp)
  exact ⟨m, a, by simp; omega, by rwa [take_append b]⟩

theorem past_none {n amount tr t p} (h : p.pending = none) : PastInv n amount tr t p := by
  intro r hr; rw [h] at hr; cases hr

theorem past {n amount threads tr s} (h : (machine n amount threads).Exec tr s) {t : Nat} {p : PC}
    (hp : s.pcs[t]? = some p) : PastInv n amount tr t p := by
  have main := Machine.exec_invariant (M := machine n amount threads)
    (I := fun tr s => Inv n (ledger amount tr) s ∧
      ∀ (t : Nat) (p : PC), s.pcs[t]? = some p → PastInv n amount tr t p) ?_ ?_ h
  · exact main.2 t p hp
  · rintro s rfl
    refine ⟨inv_start n amount threads, ?_⟩
    intro t p hp
    have hp := List.mem_of_getElem? hp
    simp only [start, List.mem_replicate] at hp
    rw [hp.2]; exact past_none rfl
  · intro tr s e s' ⟨hinv, hI⟩ hs
    refine ⟨by rw [ledger_snoc]; exact hinv.step hs, ?_⟩
    intro t p hp
    by_cases het : e.thread = t
    · have key : ∀ {p0 p1 : PC}, s.pcs[t]? = some p0 → s'.pcs = s.pcs.set t p1 → p = p1 := by
        intro p0 p1 h0 h1
        rw [h1, List.getElem?_set_self (lt_of_get h0)] at hp
        exact (Option.some.inj hp).symm
      cases hs with
      | accept hpc =>
        cases het; cases key hpc rfl
        intro r hr
        cases hr
        refine ⟨tr.length, ⟨by simp [Event.thread], ?_⟩, nofun⟩
        intro j r' hj hj'
        have := lt_of_get hj'
        simp at this; omega
      | @refuse t r vs vd hpc hcan =>
        cases het; cases key hpc rfl
        intro r' hr
        cases hr
        obtain ⟨i, hi, _⟩ := hI _ _ hpc r rfl
        refine ⟨i, hi.snoc (fun _ => nofun), fun _ => ⟨tr.length, lt_of_get hi.1, by simp, ?_⟩⟩
        rw [take_append (Nat.le_refl _), List.take_length]
        have hv : Valid n r := hinv.ok _ _ hpc
        have hne := src_ne_dst hv
        have hs1 : vs.toNat = ledger amount tr r.src := hinv.hand _ _ _ _ hpc (by simp [PC.val])
        have hd1 : vd.toNat = ledger amount tr r.dst := hinv.hand _ _ _ _ hpc (by simp [PC.val, Ne.symm hne])
        exact fun hp => hcan ((canPay_iff hv hs1 hd1).mpr hp)
      | lockSecond hpc hc =>
        cases het; cases key hpc rfl
        refine past_quiet (hI _ _ hpc) (fun _ => nofun) ?_ ?_
        · split <;> rfl
        · split <;> exact fun h => h
      | lockFirst hpc _ _ =>
        cases het; cases key hpc rfl; exact past_quiet (hI _ _ hpc) (fun _ => nofun) rfl (fun h => h)
      | backSrc hpc =>
        cases het; cases key hpc rfl; exact past_quiet (hI _ _ hpc) (fun _ => nofun) rfl (fun h => h)
      | backDst hpc =>
        cases het; cases key hpc rfl; exact past_quiet (hI _ _ hpc) (fun _ => nofun) rfl (fun h => h)
      | invalid hpc hv => cases het; cases key hpc rfl; exact past_none rfl
      | pay hpc hv => cases het; cases key hpc rfl; exact past_none rfl
      | fail hpc => cases het; cases key hpc rfl; exact past_none rfl
      | deliver hpc => cases het; cases key hpc rfl; exact past_none rfl
      | storeSrc hpc => cases het; cases key hpc rfl; exact past_none rfl
      | storeDst hpc => cases het; cases key hpc rfl; exact past_none rfl
      | startCheck hpc _ => cases het; cases key hpc rfl; exact past_none rfl
      | lockCheck hpc _ => cases het; cases key hpc rfl; exact past_none rfl
      | checked hpc _ => cases het; cases key hpc rfl; exact past_none rfl
      | startTotal hpc => cases het; cases key hpc rfl; exact past_none rfl
      | lockTotal hpc _ _ => cases het; cases key hpc rfl; exact past_none rfl
      | add hpc _ _ => cases het; cases key hpc rfl; exact past_none rfl
      | overflow hpc _ _ => cases het; cases key hpc rfl; exact past_none rfl
      | totalled hpc _ => cases het; cases key hpc rfl; exact past_none rfl
    · obtain ⟨q, hq⟩ := pcs_step hs
      rw [hq, List.getElem?_set_ne het] at hp
      refine past_quiet (hI t p hp) ?_ rfl (fun h => h)
      rintro r' rfl; exact het rfl

/-- How far a call of `get_total` has got. -/
def PC.summed : PC → Option (Nat × UInt64)
  | .total i sum | .totalling i sum => some (i, sum)
  | _ => none

/-- Thread `t` called `get_total` at position `j`, its last call; the first `i` accounts were read in
order, account `a` at moment `m a`, and `sum` adds up what was read. -/
def Pieces (amount : UInt32) (tr : List Event) (t j : Nat) (m : Nat → Nat) (i : Nat) (sum : UInt64) : Prop :=
  tr[j]? = some (.startTotal t) ∧ (∀ k, j < k → tr[k]? ≠ some (.startTotal t)) ∧
  (∀ a, a < i → j < m a ∧ m a ≤ tr.length) ∧ (∀ a a', a ≤ a' → a' < i → m a ≤ m a') ∧
  sum.toNat = total (fun a => ledger amount (tr.take (m a)) a) i ∧ sum.toNat ≤ i * (2 ^ 32 - 1)

theorem total_congr {f g : Nat → Nat} {i : Nat} (h : ∀ a, a < i → f a = g a) : total f i = total g i := by
  induction i with
  | zero => rfl
  | succ i ih => simp only [total]; rw [ih (fun a ha => h a (by omega)), h i (by omega)]

theorem Pieces.snoc {amount tr t j m i sum e} (h : Pieces amount tr t j m i sum) (he : e ≠ .startTotal t) :
    Pieces amount (tr ++ [e]) t j m i sum := by
  obtain ⟨h1, h2, h3, h4, h5, h6⟩ := h
  refine ⟨get_append h1, ?_, ?_, h4, ?_, h6⟩
  · intro k hk hk'
    rcases get_snoc hk' with hk' | ⟨_, hk'⟩
    · exact h2 k hk hk'
    · exact he hk'
  · intro a ha; have := h3 a ha; simp; omega
  · rw [h5]; refine total_congr ?_
    intro a ha
    rw [take_append (h3 a ha).2]

def SumInv (amount : UInt32) (tr : List Event) (t : Nat) (p : PC) : Prop :=
  ∀ i sum, p.summed = some (i, sum) → ∃ j m, Pieces amount tr t j m i sum

theorem sum_quiet {amount tr t p e p'} (h : SumInv amount tr t p) (he : e ≠ .startTotal t)
    (h1 : p'.summed = p.summed) : SumInv amount (tr ++ [e]) t p' := by
  intro i sum hi
  obtain ⟨j, m, hm⟩ := h i sum (h1.symm.trans hi)
  exact ⟨j, m, hm.snoc he⟩

theorem sum_none {amount tr t p} (h : p.summed = none) : SumInv amount tr t p := by
  intro i sum hi; rw [h] at hi; cases hi

theorem sums {n amount threads tr s} (h : (machine n amount threads).Exec tr s) {t : Nat} {p : PC}
    (hp : s.pcs[t]? = some p) : SumInv amount tr t p := by
  have main := Machine.exec_invariant (M := machine n amount threads)
    (I := fun tr s => Inv n (ledger amount tr) s ∧
      ∀ (t : Nat) (p : PC), s.pcs[t]? = some p → SumInv amount tr t p) ?_ ?_ h
  · exact main.2 t p hp
  · rintro s rfl
    refine ⟨inv_start n amount threads, ?_⟩
    intro t p hp
    have hp := List.mem_of_getElem? hp
    simp only [start, List.mem_replicate] at hp
    rw [hp.2]; exact sum_none rfl
  · intro tr s e s' ⟨hinv, hI⟩ hs
    refine ⟨by rw [ledger_snoc]; exact hinv.step hs, ?_⟩
    intro t p hp
    by_cases het : e.thread = t
    · have key : ∀ {p0 p1 : PC}, s.pcs[t]? = some p0 → s'.pcs = s.pcs.set t p1 → p = p1 := by
        intro p0 p1 h0 h1
        rw [h1, List.getElem?_set_self (lt_of_get h0)] at hp
        exact (Option.some.inj hp).symm
      cases hs with
      | startTotal hpc =>
        cases het; cases key hpc rfl
        intro i sum hi
        cases hi
        refine ⟨tr.length, fun _ => 0, by simp [Event.thread], ?_, ?_, ?_, rfl, by simp⟩
        · intro k hk hk'
          have := lt_of_get hk'
          simp at this; omega
        · intro a ha; omega
        · intro a a' _ ha; omega
      | @add t i sum v k hpc hc hle =>
        cases het; cases key hpc rfl
        intro i' sum' hi
        cases hi
        obtain ⟨j, m, h1, h2, h3, h4, h5, h6⟩ := hI _ _ hpc i sum rfl
        have hv := hinv.cell _ _ _ hc
        have hle : v.toNat ≤ 0xFFFFFFFFFFFFFFFF - sum.toNat := by
          rw [UInt64.le_iff_toNat_le, UInt64.toNat_sub_of_le] at hle
          · simpa using hle
          · rw [UInt64.le_iff_toNat_le]; have := sum.toNat_lt; simp; omega
        have hsum : (sum + v.toUInt64).toNat = sum.toNat + v.toNat := by
          rw [UInt64.toNat_add, UInt32.toNat_toUInt64, Nat.mod_eq_of_lt]
          have := sum.toNat_lt; omega
        refine ⟨j, fun a => if a = i then tr.length else m a, get_append h1, ?_, ?_, ?_, ?_, ?_⟩
        · intro k hk hk'
          rcases get_snoc hk' with hk' | ⟨_, hk'⟩
          · exact h2 k hk hk'
          · cases hk'
        · intro a ha
          by_cases e : a = i
          · have := lt_of_get h1; simp [e]; omega
          · have := h3 a (by omega); simp [e]; omega
        · intro a a' haa ha'
          by_cases e : a = i
          · have : a' = i := by omega
            simp [e, this]
          · by_cases e' : a' = i
            · have := h3 a (by omega); simp [e, e']; omega
            · simp [e, e']; exact h4 a a' haa (by omega)
        · rw [hsum, h5]
          simp only [total]
          congr 1
          · refine total_congr ?_
            intro a ha
            have e : a ≠ i := by omega
            simp only [e, if_false]
            rw [take_append (h3 a ha).2]
          · simp [hv]
        · rw [hsum, Nat.succ_mul]
          have := v.toNat_lt; omega
      | @lockTotal t i sum v k hpc _ _ =>
        cases het; cases key hpc rfl; exact sum_quiet (hI _ _ hpc) nofun rfl
      | lockSecond hpc hc =>
        cases het; cases key hpc rfl
        refine sum_quiet (hI _ _ hpc) nofun ?_; split <;> rfl
      | accept hpc => cases het; cases key hpc rfl; exact sum_none rfl
      | refuse hpc _ => cases het; cases key hpc rfl; exact sum_none rfl
      | lockFirst hpc _ _ => cases het; cases key hpc rfl; exact sum_none rfl
      | backSrc hpc => cases het; cases key hpc rfl; exact sum_none rfl
      | backDst hpc => cases het; cases key hpc rfl; exact sum_none rfl
      | invalid hpc hv => cases het; cases key hpc rfl; exact sum_none rfl
      | pay hpc hv => cases het; cases key hpc rfl; exact sum_none rfl
      | fail hpc => cases het; cases key hpc rfl; exact sum_none rfl
      | deliver hpc => cases het; cases key hpc rfl; exact sum_none rfl
      | storeSrc hpc => cases het; cases key hpc rfl; exact sum_none rfl
      | storeDst hpc => cases het; cases key hpc rfl; exact sum_none rfl
      | startCheck hpc _ => cases het; cases key hpc rfl; exact sum_none rfl
      | lockCheck hpc _ => cases het; cases key hpc rfl; exact sum_none rfl
      | checked hpc _ => cases het; cases key hpc rfl; exact sum_none rfl
      | overflow hpc _ _ => cases het; cases key hpc rfl; exact sum_none rfl
      | totalled hpc _ => cases het; cases key hpc rfl; exact sum_none rfl
    · obtain ⟨q, hq⟩ := pcs_step hs
      rw [hq, List.getElem?_set_ne het] at hp
      exact sum_quiet (hI t p hp) (by rintro rfl; exact het rfl) rfl

end Simple
end Verif.Bank
