import Verif.Bank.Proof
/-
Money in the program's memory, and progress of its threads.
-/
namespace Verif.Bank.Simple
open Verif Bank

/-- Money lying in an account. -/
def Cell.money : Cell → Nat
  | .free v _ => v.toNat
  | .taken => 0

/-- Money a thread has in hand. -/
def PC.money : PC → Nat
  | .one _ v => v.toNat
  | .both _ vs vd | .paid _ vs vd | .refused _ vs vd => vs.toNat + vd.toNat
  | .paidDst _ vd | .refusedDst _ vd => vd.toNat
  | _ => 0

/-- All money: in the accounts and in the threads' hands. -/
def State.money (s : State) : Nat := (s.accts.map Cell.money).sum + (s.pcs.map PC.money).sum

theorem sum_set {α : Type} {l : List α} {t : Nat} {p : α} (h : l[t]? = some p) (p' : α) (f : α → Nat) :
    ((l.set t p').map f).sum + f p = (l.map f).sum + f p' := by
  induction l generalizing t with
  | nil => simp at h
  | cons x l ih =>
    cases t with
    | zero => simp at h; subst h; simp; omega
    | succ t => simp at h; have := ih h; simp only [List.set_cons_succ, List.map_cons, List.sum_cons]; omega

theorem money_pc {s : State} {t : Nat} {p p' : PC} (h : s.pcs[t]? = some p) (e : p'.money = p.money) :
    (s.setPc t p').money = s.money := by
  have := sum_set h p' PC.money
  simp only [State.money, State.setPc]; omega

theorem money_both {s : State} {t i : Nat} {p p' : PC} {c c' : Cell} (h : s.pcs[t]? = some p)
    (hc : s.accts[i]? = some c) (e : c'.money + p'.money = c.money + p.money) :
    ((s.setCell i c').setPc t p').money = s.money := by
  have h1 := sum_set h p' PC.money
  have h2 := sum_set hc c' Cell.money
  simp only [State.money, State.setPc, State.setCell]; omega

theorem money_step {n b s e s'} (hI : Inv n b s) (hs : Next s e s') : s'.money = s.money := by
  cases hs with
  | @accept t inp hpc => exact money_pc (s := { s with nextId := s.nextId + 1 }) hpc rfl
  | invalid hpc hv => exact money_pc hpc rfl
  | lockFirst hpc hv hc => exact money_both hpc hc (by simp [Cell.money, PC.money])
  | lockSecond hpc hc =>
    refine money_both hpc hc ?_
    split <;> simp [Cell.money, PC.money] <;> omega
  | @pay t r vs vd hpc hcan =>
    have hv : Valid n r := hI.ok _ _ hpc
    have hne := src_ne_dst hv
    have hs1 : vs.toNat = b r.src := hI.hand _ _ _ _ hpc (by simp [PC.val])
    have hd1 : vd.toNat = b r.dst := hI.hand _ _ _ _ hpc (by simp [PC.val, Ne.symm hne])
    have hp := (canPay_iff hv hs1 hd1).mp hcan
    refine money_pc hpc ?_
    have hlt : vd.toNat + r.input.amt.toNat < 2 ^ 32 := by
      have := hp.2.2.2.2; rw [← hd1] at this; exact this
    have hle := UInt32.le_iff_toNat_le.mp hcan.1
    simp only [PC.money]
    rw [UInt32.toNat_sub_of_le _ _ hcan.1, UInt32.toNat_add, Nat.mod_eq_of_lt hlt]
    omega
  | @storeSrc t r vs vd hpc =>
    have hv : Valid n r := hI.ok _ _ hpc
    exact money_both hpc (hI.taken hpc (i := r.src) (by simp [PC.holds, PC.val]) hv.2.1)
      (by simp [Cell.money, PC.money])
  | @storeDst t r vd hpc =>
    have hv : Valid n r := hI.ok _ _ hpc
    exact money_both hpc (hI.taken hpc (i := r.dst) (by simp [PC.holds, PC.val]) hv.2.2)
      (by simp [Cell.money, PC.money])
  | refuse hpc _ => exact money_pc hpc rfl
  | @backSrc t r vs vd hpc =>
    have hv : Valid n r := hI.ok _ _ hpc
    exact money_both hpc (hI.taken hpc (i := r.src) (by simp [PC.holds, PC.val]) hv.2.1)
      (by simp [Cell.money, PC.money])
  | @backDst t r vd hpc =>
    have hv : Valid n r := hI.ok _ _ hpc
    exact money_both hpc (hI.taken hpc (i := r.dst) (by simp [PC.holds, PC.val]) hv.2.2)
      (by simp [Cell.money, PC.money])
  | fail hpc => exact money_pc hpc rfl
  | deliver hpc => exact money_pc hpc rfl
  | startCheck hpc hi => exact money_pc hpc rfl
  | lockCheck hpc hc => exact money_both hpc hc rfl
  | checked hpc hc => exact money_both hpc hc rfl
  | startTotal hpc => exact money_pc hpc rfl
  | lockTotal hpc hi hc => exact money_both hpc hc rfl
  | add hpc hc _ => exact money_both hpc hc rfl
  | overflow hpc hc _ => exact money_both hpc hc rfl
  | totalled hpc hi => exact money_pc hpc rfl

/-- The event that begins an operation. -/
def Event.Begins : Event → Prop
  | .accept _ _ | .startCheck _ _ | .startTotal _ => True
  | _ => False

/-- Steps a thread still takes at most. -/
def PC.left (n : Nat) : PC → Nat
  | .idle => 0
  | .got _ => 7
  | .one _ _ => 6
  | .both _ _ _ => 5
  | .refused _ _ _ => 4
  | .paid _ _ _ | .refusedDst _ _ => 3
  | .paidDst _ _ | .failing _ => 2
  | .answered _ => 1
  | .check _ => 2
  | .checking _ => 1
  | .total i _ => 2 * (n - i) + 1
  | .totalling i _ => 2 * (n - i)

def State.left (n : Nat) (s : State) : Nat := (s.pcs.map (PC.left n)).sum

theorem left_step {n b s e s'} (hI : Inv n b s) (hs : Next s e s') (he : ¬ e.Begins) :
    s'.left n < s.left n := by
  have go : ∀ {t : Nat} {p p' : PC}, s.pcs[t]? = some p → p'.left n < p.left n →
      ((s.pcs.set t p').map (PC.left n)).sum < s.left n := by
    intro t p p' hp hlt
    have := sum_set hp p' (PC.left n)
    simp only [State.left]; omega
  cases hs with
  | accept hpc => exact absurd trivial he
  | invalid hpc hv => exact go hpc (by simp [PC.left])
  | lockFirst hpc hv hc => exact go hpc (by simp [PC.left])
  | lockSecond hpc hc => refine go hpc ?_; split <;> simp [PC.left]
  | pay hpc hcan => exact go hpc (by simp [PC.left])
  | storeSrc hpc => exact go hpc (by simp [PC.left])
  | storeDst hpc => exact go hpc (by simp [PC.left])
  | refuse hpc _ => exact go hpc (by simp [PC.left])
  | backSrc hpc => exact go hpc (by simp [PC.left])
  | backDst hpc => exact go hpc (by simp [PC.left])
  | fail hpc => exact go hpc (by simp [PC.left])
  | deliver hpc => exact go hpc (by simp [PC.left])
  | startCheck hpc hi => exact absurd trivial he
  | lockCheck hpc hc => exact go hpc (by simp [PC.left])
  | checked hpc hc => exact go hpc (by simp [PC.left])
  | startTotal hpc => exact absurd trivial he
  | lockTotal hpc hi hc => exact go hpc (by simp [PC.left])
  | @add t i sum v k hpc hc _ =>
    have hi : i < n := hI.ok _ _ hpc
    exact go hpc (by simp [PC.left]; omega)
  | @overflow t i sum v k hpc hc _ =>
    have hi : i < n := hI.ok _ _ hpc
    exact go hpc (by simp [PC.left]; omega)
  | totalled hpc hi => exact go hpc (by simp [PC.left])

theorem left_le {n : Nat} (s : State) : s.left n ≤ s.pcs.length * (2 * n + 7) := by
  unfold State.left
  induction s.pcs with
  | nil => simp
  | cons p l ih =>
    have : p.left n ≤ 2 * n + 7 := by cases p <;> simp [PC.left] <;> omega
    rw [List.map_cons, List.sum_cons, List.length_cons, Nat.add_mul, Nat.one_mul]; omega

/-- The account a thread is waiting for. -/
def PC.waits : PC → Option Nat
  | .got r => some (lo r)
  | .one r _ => some (hi r)
  | .check i => some i
  | .total i _ => some i
  | _ => none

/-- Some operation can take its next step. -/
def CanGo (s : State) : Prop := ∃ e s', Next s e s' ∧ ¬ e.Begins

/-- A thread that is not waiting for a lock can go on. -/
theorem go_of_not_waiting {n b s} (hI : Inv n b s) {t : Nat} {p : PC} (hp : s.pcs[t]? = some p)
    (hne : p ≠ .idle) (hw : p.waits = none) : CanGo s := by
  have cell : ∀ i, i < n → p.reads i = true → ∃ v k, s.accts[i]? = some (.free v k) := by
    intro i hi hr
    obtain ⟨c, hc⟩ := get_of_lt (l := s.accts) (i := i) (by rw [hI.len]; exact hi)
    cases c with
    | free v k => exact ⟨v, k, hc⟩
    | taken =>
      have := (hI.lock _ _ hc).2
      simp only [Cell.r] at this
      have h0 : 0 < s.pcs.countP (PC.reads i) := List.countP_pos_iff.mpr ⟨p, List.mem_of_getElem? hp, hr⟩
      omega
  cases p with
  | idle => exact absurd rfl hne
  | got r => cases hw
  | one r v => cases hw
  | both r vs vd =>
    by_cases hcan : CanPay r vs vd
    · exact ⟨_, _, .pay hp hcan, id⟩
    · exact ⟨_, _, .refuse hp hcan, id⟩
  | paid r vs vd => exact ⟨_, _, .storeSrc hp, id⟩
  | paidDst r vd => exact ⟨_, _, .storeDst hp, id⟩
  | refused r vs vd => exact ⟨_, _, .backSrc hp, id⟩
  | refusedDst r vd => exact ⟨_, _, .backDst hp, id⟩
  | failing r => exact ⟨_, _, .fail hp, id⟩
  | answered q => exact ⟨_, _, .deliver hp, id⟩
  | check i => cases hw
  | checking i =>
    obtain ⟨v, k, hc⟩ := cell i (hI.ok _ _ hp) (by simp [PC.reads])
    exact ⟨_, _, .checked hp hc, id⟩
  | total i sum => cases hw
  | totalling i sum =>
    obtain ⟨v, k, hc⟩ := cell i (hI.ok _ _ hp) (by simp [PC.reads])
    by_cases h : v.toUInt64 ≤ 0xFFFFFFFFFFFFFFFF - sum
    · exact ⟨_, _, .add hp hc h, id⟩
    · exact ⟨_, _, .overflow hp hc h, id⟩

/-- A thread waiting for an account that nobody has can go on. -/
theorem go_of_free {n b s} (hI : Inv n b s) {t : Nat} {p : PC} (hp : s.pcs[t]? = some p) {i : Nat}
    (hw : p.waits = some i)
    (hfree : ∀ (t' : Nat) (q : PC), s.pcs[t']? = some q → q.holds i = false ∧ q.reads i = false) :
    CanGo s := by
  have cell : i < n → ∃ v, s.accts[i]? = some (.free v 0) := by
    intro hi
    obtain ⟨c, hc⟩ := get_of_lt (l := s.accts) (i := i) (by rw [hI.len]; exact hi)
    have hl := hI.lock _ _ hc
    have h1 : s.pcs.countP (PC.holds i) = 0 := by
      rw [List.countP_eq_zero]; intro q hq
      obtain ⟨t', ht'⟩ := List.getElem?_of_mem hq
      simp [(hfree t' q ht').1]
    have h2 : s.pcs.countP (PC.reads i) = 0 := by
      rw [List.countP_eq_zero]; intro q hq
      obtain ⟨t', ht'⟩ := List.getElem?_of_mem hq
      simp [(hfree t' q ht').2]
    cases c with
    | free v k =>
      have : k = 0 := by have := hl.2; rw [h2] at this; exact this.symm
      subst this; exact ⟨v, hc⟩
    | taken => have := hl.1; rw [h1] at this; cases this
  cases p with
  | got r =>
    cases hw
    by_cases hv : Valid s.accts.length r
    · obtain ⟨v, hc⟩ := cell (by rw [hI.len] at hv; exact lo_lt hv)
      exact ⟨_, _, .lockFirst hp hv hc, id⟩
    · exact ⟨_, _, .invalid hp hv, id⟩
  | one r v =>
    cases hw
    obtain ⟨w, hc⟩ := cell (hi_lt (hI.ok _ _ hp))
    exact ⟨_, _, .lockSecond hp hc, id⟩
  | check i =>
    cases hw
    obtain ⟨v, hc⟩ := cell (hI.ok _ _ hp)
    exact ⟨_, _, .lockCheck hp hc, id⟩
  | total i sum =>
    cases hw
    by_cases hi : i < s.accts.length
    · obtain ⟨v, hc⟩ := cell (by rw [hI.len] at hi; exact hi)
      exact ⟨_, _, .lockTotal hp hi hc, id⟩
    · exact ⟨_, _, .totalled hp hi, id⟩
  | _ => cases hw

/-- What a waiting thread holds lies below what it waits for. -/
theorem below {n b s} (hI : Inv n b s) {t : Nat} {p : PC} (hp : s.pcs[t]? = some p) {i j : Nat}
    (hw : p.waits = some i) (hh : p.holds j = true ∨ p.reads j = true) :
    j < i ∧ ∃ r v, p = .one r v := by
  cases p with
  | one r v =>
    cases hw
    have hv : Valid n r := hI.ok _ _ hp
    refine ⟨?_, r, v, rfl⟩
    have : j = lo r := by
      rcases hh with hh | hh
      · by_cases e : j = lo r
        · exact e
        · simp [PC.holds, PC.val, e] at hh
      · simp [PC.reads] at hh
    rw [this]; exact lo_lt_hi hv
  | _ => simp [PC.waits, PC.holds, PC.val, PC.reads] at hw hh

theorem holds_lt {n i : Nat} {q : PC} (hok : q.Ok n) (h : q.holds i = true) : i < n := by
  have two : ∀ {r : Request} {vs vd : UInt32}, Valid n r →
      (if i = r.src then some vs else if i = r.dst then some vd else none).isSome = true → i < n := by
    intro r vs vd hv h
    split at h
    · rename_i e; rw [e]; exact hv.2.1
    · split at h
      · rename_i e; rw [e]; exact hv.2.2
      · cases h
  cases q with
  | one r v =>
    by_cases e : i = lo r
    · rw [e]; exact lo_lt hok
    · simp [PC.holds, PC.val, e] at h
  | both r vs vd => exact two hok h
  | paid r vs vd => exact two hok h
  | refused r vs vd => exact two hok h
  | paidDst r vd =>
    by_cases e : i = r.dst
    · rw [e]; exact hok.2.2
    · simp [PC.holds, PC.val, e] at h
  | refusedDst r vd =>
    by_cases e : i = r.dst
    · rw [e]; exact hok.2.2
    · simp [PC.holds, PC.val, e] at h
  | _ => cases h

/-- Some thread in an operation can go on. Induction from the highest account down: a thread waiting
for an account someone has is behind a thread waiting for a higher one. -/
theorem go_of_busy {n b s} (hI : Inv n b s) {t : Nat} {p : PC} (hp : s.pcs[t]? = some p)
    (hne : p ≠ .idle) : CanGo s := by
  have main : ∀ (d : Nat) {t : Nat} {p : PC} {i : Nat}, s.pcs[t]? = some p → p.waits = some i →
      n ≤ i + d → CanGo s := by
    intro d
    induction d with
    | zero =>
      intro t p i hp hw hd
      refine go_of_free hI hp hw ?_
      intro t' q hq
      have noh : ∀ f : PC → Bool, (f q = true → i < n) → f q = false := by
        intro f hf
        cases h : f q with
        | false => rfl
        | true => have := hf h; omega
      constructor
      · refine noh (PC.holds i) ?_
        intro h
        exact holds_lt (hI.ok _ _ hq) h
      · refine noh (PC.reads i) ?_
        intro h
        have hok := hI.ok _ _ hq
        cases q <;> simp [PC.reads] at h <;> (subst h; exact hok)
    | succ d ih =>
      intro t p i hp hw hd
      by_cases hfree : ∀ (t' : Nat) (q : PC), s.pcs[t']? = some q → q.holds i = false ∧ q.reads i = false
      · exact go_of_free hI hp hw hfree
      · obtain ⟨t', hfree⟩ := Classical.not_forall.mp hfree
        obtain ⟨q, hfree⟩ := Classical.not_forall.mp hfree
        obtain ⟨hq, hfree⟩ := Classical.not_imp.mp hfree
        have hh : q.holds i = true ∨ q.reads i = true := by
          cases h1 : q.holds i
          · cases h2 : q.reads i
            · exact absurd ⟨h1, h2⟩ hfree
            · exact .inr rfl
          · exact .inl rfl
        cases hwq : q.waits with
        | none =>
          refine go_of_not_waiting hI hq ?_ hwq
          rintro rfl
          simp [PC.holds, PC.val, PC.reads] at hh
        | some i' =>
          obtain ⟨hlt, _⟩ := below hI hq hwq hh
          exact ih hq hwq (by omega)
  cases hw : p.waits with
  | none => exact go_of_not_waiting hI hp hne hw
  | some i => exact main n hp hw (by omega)

end Verif.Bank.Simple
