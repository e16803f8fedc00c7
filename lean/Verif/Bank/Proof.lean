import Verif.Bank.Ledger
/-
Invariants of the concurrent bank program.
-/
namespace Verif.Bank.Simple
open Verif Bank

/-- The balance of account `i` a thread has in hand. -/
def PC.val : PC → Nat → Option UInt32
  | .one r v, i => if i = lo r then some v else none
  | .both r vs vd, i => if i = r.src then some vs else if i = r.dst then some vd else none
  | .paid r vs vd, i => if i = r.src then some vs else if i = r.dst then some vd else none
  | .refused r vs vd, i => if i = r.src then some vs else if i = r.dst then some vd else none
  | .paidDst r vd, i => if i = r.dst then some vd else none
  | .refusedDst r vd, i => if i = r.dst then some vd else none
  | _, _ => none

def PC.holds (i : Nat) (p : PC) : Bool := (p.val i).isSome

def PC.reads (i : Nat) : PC → Bool
  | .checking j => i = j
  | .totalling j _ => i = j
  | _ => false

def Cell.w : Cell → Nat
  | .free _ _ => 0
  | .taken => 1

def Cell.r : Cell → Nat
  | .free _ k => k
  | .taken => 0

/-- What is known of a thread from where it is. -/
def PC.Ok (n : Nat) : PC → Prop
  | .one r _ | .both r _ _ | .paid r _ _ | .refused r _ _ | .paidDst r _ | .refusedDst r _ => Valid n r
  | .check i | .checking i | .totalling i _ => i < n
  | .total i _ => i ≤ n
  | _ => True

/-- Each lock's writer bit and reader count are the number of threads with it; balances in the
accounts and in hand are `b`. -/
structure Inv (n : Nat) (b : Nat → Nat) (s : State) : Prop where
  len : s.accts.length = n
  lock : ∀ (i : Nat) (c : Cell), s.accts[i]? = some c →
    s.pcs.countP (PC.holds i) = c.w ∧ s.pcs.countP (PC.reads i) = c.r
  ok : ∀ (t : Nat) (p : PC), s.pcs[t]? = some p → p.Ok n
  cell : ∀ (i : Nat) (v : UInt32) (k : Nat), s.accts[i]? = some (.free v k) → v.toNat = b i
  hand : ∀ (t : Nat) (p : PC) (i : Nat) (v : UInt32), s.pcs[t]? = some p → p.val i = some v → v.toNat = b i

theorem count_set {α : Type} {l : List α} {t : Nat} {p : α} (h : l[t]? = some p) (p' : α) (f : α → Bool) :
    (l.set t p').countP f + (f p).toNat = l.countP f + (f p').toNat := by
  induction l generalizing t with
  | nil => simp at h
  | cons x l ih =>
    cases t with
    | zero => simp at h; subst h; simp [List.countP_cons]; cases f p' <;> cases f x <;> simp
    | succ t => simp at h; have := ih h; simp [List.countP_cons]; omega

theorem lt_of_get {α : Type} {l : List α} {i : Nat} {a : α} (h : l[i]? = some a) : i < l.length := by
  rw [List.getElem?_eq_some_iff] at h; exact h.1

theorem get_of_lt {α : Type} {l : List α} {i : Nat} (h : i < l.length) : ∃ a, l[i]? = some a :=
  ⟨_, List.getElem?_eq_getElem h⟩

theorem get_set {α : Type} {l : List α} {i j : Nat} {a x : α} (h : (l.set i a)[j]? = some x) :
    (j = i ∧ x = a) ∨ (j ≠ i ∧ l[j]? = some x) := by
  rw [List.getElem?_set] at h
  split at h
  · split at h
    · left; simp_all
    · cases h
  · right; exact ⟨fun e => by simp_all, h⟩

theorem src_ne_dst {n : Nat} {r : Request} (h : Valid n r) : r.src ≠ r.dst := fun e => h.1 (UInt64.toNat_inj.mp e)

theorem lo_hi (r : Request) : (lo r = r.src ∧ hi r = r.dst) ∨ (lo r = r.dst ∧ hi r = r.src) := by
  unfold lo hi; split
  · left; exact ⟨rfl, rfl⟩
  · right; exact ⟨rfl, rfl⟩

theorem lo_lt_hi {n r} (h : Valid n r) : lo r < hi r := by
  have := src_ne_dst h
  unfold lo hi; split
  · rename_i h; exact h
  · rename_i h
    have h : ¬ r.src < r.dst := h
    omega

theorem lo_lt {n r} (h : Valid n r) : lo r < n := by
  rcases lo_hi r with ⟨e, _⟩ | ⟨e, _⟩ <;> rw [e] <;> first | exact h.2.1 | exact h.2.2

theorem hi_lt {n r} (h : Valid n r) : hi r < n := by
  rcases lo_hi r with ⟨_, e⟩ | ⟨_, e⟩ <;> rw [e] <;> first | exact h.2.1 | exact h.2.2

namespace Inv
variable {n : Nat} {b : Nat → Nat} {s : State}

/-- A lock held by a thread is taken. -/
theorem taken (h : Inv n b s) {t : Nat} {p : PC} {i : Nat} (hp : s.pcs[t]? = some p) (hh : p.holds i = true) (hi : i < n) :
    s.accts[i]? = some .taken := by
  obtain ⟨c, hc⟩ := get_of_lt (l := s.accts) (i := i) (by rw [h.len]; exact hi)
  have h1 := (h.lock i c hc).1
  have : 0 < s.pcs.countP (PC.holds i) :=
    List.countP_pos_iff.mpr ⟨p, List.mem_of_getElem? hp, hh⟩
  cases c with
  | free => simp [Cell.w] at h1; exact absurd (List.mem_of_getElem? hp) (fun hm => by simp_all)
  | taken => exact hc

/-- No other thread holds what a thread holds. -/
theorem alone (h : Inv n b s) {t : Nat} {p : PC} {i : Nat} (hp : s.pcs[t]? = some p) (hh : p.holds i = true) (hi : i < n)
    {t' : Nat} {p' : PC} (hp' : s.pcs[t']? = some p') (hne : t' ≠ t) : p'.val i = none := by
  have h1 := (h.lock i _ (h.taken hp hh hi)).1
  have h2 := count_set hp .idle (PC.holds i)
  simp only [Cell.w] at h1
  have h3 : PC.holds i .idle = false := rfl
  simp [hh, h3, h1] at h2
  have : p' ∈ s.pcs.set t .idle := by
    apply List.mem_of_getElem? (i := t')
    rw [List.getElem?_set_ne (Ne.symm hne)]; exact hp'
  have := h2 p' this
  cases hv : p'.val i with
  | none => rfl
  | some v => simp [PC.holds, hv] at this

/-- A step that only moves the thread along. -/
theorem move (h : Inv n b s) {t : Nat} {p p' : PC} (hp : s.pcs[t]? = some p)
    (hv : ∀ i, p'.val i = p.val i) (hr : ∀ i, p'.reads i = p.reads i) (hok : p'.Ok n) :
    Inv n b (s.setPc t p') where
  len := h.len
  lock := by
    intro i c hc
    have h1 := count_set hp p' (PC.holds i)
    have h2 := count_set hp p' (PC.reads i)
    have h3 := h.lock i c hc
    have h4 : p'.holds i = p.holds i := by simp [PC.holds, hv]
    rw [h4] at h1; rw [hr i] at h2
    simp only [State.setPc]
    omega
  ok := by
    intro t' q hq
    rcases get_set hq with ⟨_, rfl⟩ | ⟨_, hq⟩
    · exact hok
    · exact h.ok _ _ hq
  cell := h.cell
  hand := by
    intro t' q i v hq hv'
    rcases get_set hq with ⟨_, rfl⟩ | ⟨_, hq⟩
    · rw [hv] at hv'; exact h.hand _ _ _ _ hp hv'
    · exact h.hand _ _ _ _ hq hv'

/-- A step on one lock. -/
theorem lockStep (h : Inv n b s) {t : Nat} {p p' : PC} {i : Nat} {c c' : Cell} (hp : s.pcs[t]? = some p) (hc : s.accts[i]? = some c)
    (hv : ∀ j, j ≠ i → p'.val j = p.val j) (hr : ∀ j, j ≠ i → p'.reads j = p.reads j) (hok : p'.Ok n)
    (hw : c'.w + (p.holds i).toNat = c.w + (p'.holds i).toNat)
    (hrd : c'.r + (p.reads i).toNat = c.r + (p'.reads i).toNat)
    (hcell : ∀ v k, c' = .free v k → v.toNat = b i)
    (hhand : ∀ v, p'.val i = some v → v.toNat = b i) :
    Inv n b ((s.setCell i c').setPc t p') where
  len := by simp [State.setPc, State.setCell, h.len]
  lock := by
    intro j cj hj
    have h1 := count_set hp p' (PC.holds j)
    have h2 := count_set hp p' (PC.reads j)
    simp only [State.setPc, State.setCell] at hj ⊢
    rcases get_set hj with ⟨rfl, rfl⟩ | ⟨hne, hj⟩
    · have h3 := h.lock j c hc
      omega
    · have h3 := h.lock j cj hj
      have h4 : p'.holds j = p.holds j := by simp [PC.holds, hv j hne]
      rw [h4] at h1; rw [hr j hne] at h2
      omega
  ok := by
    intro t' q hq
    rcases get_set hq with ⟨_, rfl⟩ | ⟨_, hq⟩
    · exact hok
    · exact h.ok _ _ hq
  cell := by
    intro j v k hj
    rcases get_set hj with ⟨rfl, e⟩ | ⟨_, hj⟩
    · exact hcell v k e.symm
    · exact h.cell _ _ _ hj
  hand := by
    intro t' q j v hq hv'
    rcases get_set hq with ⟨_, rfl⟩ | ⟨_, hq⟩
    · by_cases hji : j = i
      · subst hji; exact hhand v hv'
      · rw [hv j hji] at hv'; exact h.hand _ _ _ _ hp hv'
    · exact h.hand _ _ _ _ hq hv'

end Inv

/-- `CanPay` on machine words is `Payable` on the balances. -/
theorem canPay_iff {n : Nat} {b : Nat → Nat} {r : Request} {vs vd : UInt32} (hval : Valid n r) (hs : vs.toNat = b r.src) (hd : vd.toNat = b r.dst) :
    CanPay r vs vd ↔ Payable n b r := by
  have hne := src_ne_dst hval
  have h1 : r.input.amt ≤ vs ↔ r.amt ≤ b r.src := by rw [← hs]; exact UInt32.le_iff_toNat_le
  have h2 : vd ≤ 0xFFFFFFFF - r.input.amt ↔ b r.dst + r.amt < 2 ^ 32 := by
    have e : r.amt = r.input.amt.toNat := rfl
    have hlt := r.input.amt.toNat_lt
    rw [UInt32.le_iff_toNat_le, UInt32.toNat_sub_of_le, hd, e]
    · simp; omega
    · rw [UInt32.le_iff_toNat_le]; simp; omega
  unfold CanPay Payable
  rw [h1, h2]
  exact ⟨fun h => ⟨hne, hval.2.1, hval.2.2, h⟩, fun h => h.2.2.2⟩

theorem pay_src {n b r} (h : Payable n b r) : pay b r r.src = b r.src - r.amt := by
  simp [pay, h.1]

theorem pay_dst (b r) : pay b r r.dst = b r.dst + r.amt := by simp [pay]

theorem pay_other {b r i} (h1 : i ≠ r.src) (h2 : i ≠ r.dst) : pay b r i = b i := by simp [pay, h1, h2]

theorem Inv.step {n b s e s'} (h : Inv n b s) (hs : Next s e s') : Inv n (effect b e) s' := by
  cases hs with
  | accept hpc =>
    have : Inv n b { s with nextId := s.nextId + 1 } := ⟨h.len, h.lock, h.ok, h.cell, h.hand⟩
    exact this.move hpc (fun _ => rfl) (fun _ => rfl) trivial
  | invalid hpc hv => exact h.move hpc (fun _ => rfl) (fun _ => rfl) trivial
  | @lockFirst t r v hpc hv hc =>
    rw [h.len] at hv
    refine h.lockStep hpc hc ?_ (fun _ _ => rfl) hv ?_ rfl (fun _ _ => nofun) ?_
    · intro j hj; simp [PC.val, hj]
    · simp [Cell.w, PC.holds, PC.val]
    · intro w hw; simp [PC.val] at hw; subst hw; exact h.cell _ _ _ hc
  | @lockSecond t r v w hpc hc =>
    have hv : Valid n r := h.ok _ _ hpc
    have hv1 : v.toNat = b (lo r) := h.hand _ _ _ _ hpc (by simp [PC.val])
    have hw1 : w.toNat = b (hi r) := h.cell _ _ _ hc
    have hne := src_ne_dst hv
    have hlh := lo_lt_hi hv
    rcases Decidable.em (r.input.src < r.input.dst) with hlt | hlt
    · have e1 : lo r = r.src := by simp [lo, hlt]
      have e2 : hi r = r.dst := by simp [hi, hlt]
      simp only [hlt, if_true]
      rw [e1] at hv1; rw [e2] at hw1 hc ⊢
      refine h.lockStep hpc hc ?_ (fun _ _ => rfl) hv ?_ rfl (fun _ _ => nofun) ?_
      · intro j hj; simp [PC.val, hj, e1]
      · simp [Cell.w, PC.holds, PC.val, e1, Ne.symm hne]
      · intro x hx; simp [PC.val, Ne.symm hne] at hx; subst hx; exact hw1
    · have e1 : lo r = r.dst := by simp [lo, hlt]
      have e2 : hi r = r.src := by simp [hi, hlt]
      simp only [hlt, if_false]
      rw [e1] at hv1; rw [e2] at hw1 hc ⊢
      refine h.lockStep hpc hc ?_ (fun _ _ => rfl) hv ?_ rfl (fun _ _ => nofun) ?_
      · intro j hj; simp [PC.val, hj, e1]
      · simp [Cell.w, PC.holds, PC.val, e1, hne]
      · intro x hx; simp [PC.val] at hx; subst hx; exact hw1
  | @pay t r vs vd hpc hcan =>
    have hv : Valid n r := h.ok _ _ hpc
    have hne := src_ne_dst hv
    have hs1 : vs.toNat = b r.src := h.hand _ _ _ _ hpc (by simp [PC.val])
    have hd1 : vd.toNat = b r.dst := h.hand _ _ _ _ hpc (by simp [PC.val, Ne.symm hne])
    have hp := (canPay_iff hv hs1 hd1).mp hcan
    have ts := h.taken hpc (i := r.src) (by simp [PC.holds, PC.val]) hv.2.1
    have td := h.taken hpc (i := r.dst) (by simp [PC.holds, PC.val, Ne.symm hne]) hv.2.2
    have hlock : ∀ i, PC.holds i (.paid r (vs - r.input.amt) (vd + r.input.amt)) = PC.holds i (.both r vs vd) := by
      intro i; simp only [PC.holds, PC.val]; split
      · rfl
      · split <;> rfl
    refine ⟨h.len, ?_, ?_, ?_, ?_⟩
    · intro i c hc
      have h1 := count_set hpc (.paid r (vs - r.input.amt) (vd + r.input.amt)) (PC.holds i)
      have h2 := count_set hpc (.paid r (vs - r.input.amt) (vd + r.input.amt)) (PC.reads i)
      have h3 := h.lock i c hc
      rw [hlock] at h1
      have h5 : PC.reads i (.paid r (vs - r.input.amt) (vd + r.input.amt)) = PC.reads i (.both r vs vd) := rfl
      rw [h5] at h2
      simp only [State.setPc]; omega
    · intro t' q hq
      rcases get_set hq with ⟨_, rfl⟩ | ⟨_, hq⟩
      · exact hv
      · exact h.ok _ _ hq
    · intro i v k hi
      have hi : s.accts[i]? = some (.free v k) := hi
      have n1 : i ≠ r.src := fun e => by subst e; rw [ts] at hi; cases hi
      have n2 : i ≠ r.dst := fun e => by subst e; rw [td] at hi; cases hi
      simp only [effect, if_true]
      rw [pay_other n1 n2]; exact h.cell _ _ _ hi
    · intro t' q i v hq hqv
      simp only [effect, if_true]
      rcases get_set hq with ⟨_, rfl⟩ | ⟨hne', hq⟩
      · simp only [PC.val] at hqv
        split at hqv
        · subst_vars; cases hqv
          rw [pay_src hp, UInt32.toNat_sub_of_le _ _ hcan.1, hs1]; rfl
        · split at hqv
          · subst_vars; cases hqv
            have hlt : vd.toNat + r.input.amt.toNat < 2 ^ 32 := by
              have := hp.2.2.2.2; rw [← hd1] at this; exact this
            rw [pay_dst, UInt32.toNat_add, Nat.mod_eq_of_lt hlt, hd1]; rfl
          · cases hqv
      · have n1 : i ≠ r.src := fun e => by
          subst e
          rw [h.alone hpc (i := r.src) (by simp [PC.holds, PC.val]) hv.2.1 hq hne'] at hqv; cases hqv
        have n2 : i ≠ r.dst := fun e => by
          subst e
          rw [h.alone hpc (i := r.dst) (by simp [PC.holds, PC.val, Ne.symm hne]) hv.2.2 hq hne'] at hqv
          cases hqv
        rw [pay_other n1 n2]; exact h.hand _ _ _ _ hq hqv
  | @storeSrc t r vs vd hpc =>
    have hv : Valid n r := h.ok _ _ hpc
    have hne := src_ne_dst hv
    have ts := h.taken hpc (i := r.src) (by simp [PC.holds, PC.val]) hv.2.1
    refine h.lockStep hpc ts ?_ (fun _ _ => rfl) hv ?_ rfl ?_ ?_
    · intro j hj; simp [PC.val, hj]
    · simp [Cell.w, PC.holds, PC.val, hne]
    · intro x k hx; cases hx; exact h.hand _ _ _ _ hpc (by simp [PC.val])
    · intro x hx; simp [PC.val, hne] at hx
  | @storeDst t r vd hpc =>
    have hv : Valid n r := h.ok _ _ hpc
    have td := h.taken hpc (i := r.dst) (by simp [PC.holds, PC.val]) hv.2.2
    refine h.lockStep hpc td ?_ (fun _ _ => rfl) trivial ?_ rfl ?_ ?_
    · intro j hj; simp [PC.val, hj]
    · simp [Cell.w, PC.holds, PC.val]
    · intro x k hx; cases hx; exact h.hand _ _ _ _ hpc (by simp [PC.val])
    · intro x hx; simp [PC.val] at hx
  | @refuse t r vs vd hpc hcan =>
    have hv : Valid n r := h.ok _ _ hpc
    exact h.move hpc (fun _ => rfl) (fun _ => rfl) hv
  | @backSrc t r vs vd hpc =>
    have hv : Valid n r := h.ok _ _ hpc
    have hne := src_ne_dst hv
    have ts := h.taken hpc (i := r.src) (by simp [PC.holds, PC.val]) hv.2.1
    refine h.lockStep hpc ts ?_ (fun _ _ => rfl) hv ?_ rfl ?_ ?_
    · intro j hj; simp [PC.val, hj]
    · simp [Cell.w, PC.holds, PC.val, hne]
    · intro x k hx; cases hx; exact h.hand _ _ _ _ hpc (by simp [PC.val])
    · intro x hx; simp [PC.val, hne] at hx
  | @backDst t r vd hpc =>
    have hv : Valid n r := h.ok _ _ hpc
    have td := h.taken hpc (i := r.dst) (by simp [PC.holds, PC.val]) hv.2.2
    refine h.lockStep hpc td ?_ (fun _ _ => rfl) trivial ?_ rfl ?_ ?_
    · intro j hj; simp [PC.val, hj]
    · simp [Cell.w, PC.holds, PC.val]
    · intro x k hx; cases hx; exact h.hand _ _ _ _ hpc (by simp [PC.val])
    · intro x hx; simp [PC.val] at hx
  | fail hpc => exact h.move hpc (fun _ => rfl) (fun _ => rfl) trivial
  | deliver hpc => exact h.move hpc (fun _ => rfl) (fun _ => rfl) trivial
  | startCheck hpc hi => exact h.move hpc (fun _ => rfl) (fun _ => rfl) (by rw [h.len] at hi; exact hi)
  | @lockCheck t i v k hpc hc =>
    have hi : i < n := h.ok _ _ hpc
    refine h.lockStep hpc hc (fun _ _ => rfl) ?_ hi rfl ?_ ?_ ?_
    · intro j hj; simp [PC.reads, hj]
    · simp [Cell.r, PC.reads]
    · intro x k hx; cases hx; exact h.cell _ _ _ hc
    · intro x hx; cases hx
  | @checked t i v k hpc hc =>
    have hk : 0 < k := by
      have := (h.lock _ _ hc).2
      simp only [Cell.r] at this; rw [← this]
      exact List.countP_pos_iff.mpr ⟨_, List.mem_of_getElem? hpc, by simp [PC.reads]⟩
    refine h.lockStep hpc hc (fun _ _ => rfl) ?_ trivial rfl ?_ ?_ ?_
    · intro j hj; simp [PC.reads, hj]
    · simp [Cell.r, PC.reads]; omega
    · intro x k hx; cases hx; exact h.cell _ _ _ hc
    · intro x hx; cases hx
  | startTotal hpc => exact h.move hpc (fun _ => rfl) (fun _ => rfl) (Nat.zero_le _)
  | @lockTotal t i sum v k hpc hi hc =>
    refine h.lockStep hpc hc (fun _ _ => rfl) ?_ (by rw [h.len] at hi; exact hi) rfl ?_ ?_ ?_
    · intro j hj; simp [PC.reads, hj]
    · simp [Cell.r, PC.reads]
    · intro x k hx; cases hx; exact h.cell _ _ _ hc
    · intro x hx; cases hx
  | @add t i sum v k hpc hc _ =>
    have hk : 0 < k := by
      have := (h.lock _ _ hc).2
      simp only [Cell.r] at this; rw [← this]
      exact List.countP_pos_iff.mpr ⟨_, List.mem_of_getElem? hpc, by simp [PC.reads]⟩
    have hi : i < n := h.ok _ _ hpc
    refine h.lockStep hpc hc (fun _ _ => rfl) ?_ hi rfl ?_ ?_ ?_
    · intro j hj; simp [PC.reads, hj]
    · simp [Cell.r, PC.reads]; omega
    · intro x k hx; cases hx; exact h.cell _ _ _ hc
    · intro x hx; cases hx
  | @overflow t i sum v k hpc hc _ =>
    have hk : 0 < k := by
      have := (h.lock _ _ hc).2
      simp only [Cell.r] at this; rw [← this]
      exact List.countP_pos_iff.mpr ⟨_, List.mem_of_getElem? hpc, by simp [PC.reads]⟩
    refine h.lockStep hpc hc (fun _ _ => rfl) ?_ trivial rfl ?_ ?_ ?_
    · intro j hj; simp [PC.reads, hj]
    · simp [Cell.r, PC.reads]; omega
    · intro x k hx; cases hx; exact h.cell _ _ _ hc
    · intro x hx; cases hx
  | totalled hpc hi => exact h.move hpc (fun _ => rfl) (fun _ => rfl) trivial

theorem inv_start (n amount threads) : Inv n (fun _ => amount.toNat) (start n amount threads) where
  len := by simp [start]
  lock := by
    intro i c hc
    have hc := List.mem_of_getElem? hc
    simp only [start, List.mem_replicate] at hc
    obtain ⟨_, rfl⟩ := hc
    simp [start, Cell.w, Cell.r, PC.holds, PC.val, PC.reads]
  ok := by
    intro t p hp
    have hp := List.mem_of_getElem? hp
    simp only [start, List.mem_replicate] at hp
    rw [hp.2]; trivial
  cell := by
    intro i v k hc
    have hc := List.mem_of_getElem? hc
    simp only [start, List.mem_replicate] at hc
    cases hc.2; rfl
  hand := by
    intro t p i v hp hv
    have hp := List.mem_of_getElem? hp
    simp only [start, List.mem_replicate] at hp
    rw [hp.2] at hv; cases hv

theorem inv_exec {n amount threads tr s} (h : (machine n amount threads).Exec tr s) :
    Inv n (ledger amount tr) s := by
  refine Machine.exec_invariant (M := machine n amount threads)
    (I := fun tr s => Inv n (ledger amount tr) s) ?_ ?_ h
  · rintro s rfl; exact inv_start n amount threads
  · intro tr s e s' hI hs
    rw [ledger_snoc]; exact hI.step hs

end Verif.Bank.Simple
