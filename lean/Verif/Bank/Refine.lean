import Verif.Bank.Proof
/-
The threads refine the token machine within the auditor's system (`Simple` to `Sys`), and that refines
the specification (`Sys` to `Spec`, as in example/BankObligations_v.rs).
-/
namespace Verif.Bank
open Verif

namespace Sys

/-- BankObligations_v.rs 48-60 `inv` -/
structure Inv (s : State) : Prop where
  single : s.bank.requests.Single
  unique : ∀ r q, s.bank.requests.Has r → s.bank.requests.Has q → r.id = q.id → r = q
  rsingle : s.bank.replies.Single
  runique : ∀ r q, s.bank.replies.Has r → s.bank.replies.Has q → r.id = q.id → r = q
  apart : ∀ r q, s.bank.requests.Has r → s.bank.replies.Has q → r.id ≠ q.id
  reqOld : ∀ r, s.bank.requests.Has r → s.history r.id
  repOld : ∀ r, s.bank.replies.Has r → s.history r.id

/-- BankObligations_v.rs 131-138 `_i` -/
def interp (s : State) : Spec.State :=
  { accounts := s.bank.accounts, requests := s.bank.requests.Has, replies := s.bank.replies.Has }

theorem inv_init (n amount : Nat) :
    Inv { bank := Tok.init n amount, history := fun _ => False } := by
  constructor <;> simp [Tok.init, MSet.single_empty]

theorem Inv.execute {s : State} (h : Inv s) {req : Request} {reply : Reply} {acc : PMap Nat Nat}
    (hreq : s.bank.requests.Has req) (hid : req.id = reply.id) :
    Inv { s with bank := { s.bank with accounts := acc, requests := s.bank.requests.remove req
                                       replies := s.bank.replies.insert reply } } := by
  have hnew : ¬ s.bank.replies.Has reply := fun hr => h.apart _ _ hreq hr hid
  refine ⟨MSet.single_remove h.single, ?_, MSet.single_insert h.rsingle hnew, ?_, ?_, ?_, ?_⟩
  · intro r q hr hq; exact h.unique r q (MSet.has_of_remove hr) (MSet.has_of_remove hq)
  · intro r q hr hq e
    rw [MSet.has_insert] at hr hq
    rcases hr with rfl | hr <;> rcases hq with rfl | hq
    · rfl
    · exact absurd (hid.trans e) (h.apart _ _ hreq hq)
    · exact absurd (hid.trans e.symm) (h.apart _ _ hreq hr)
    · exact h.runique _ _ hr hq e
  · intro r q hr hq e
    rw [MSet.has_insert] at hq
    rcases hq with rfl | hq
    · have := (MSet.has_remove h.single).mp hr
      exact this.1 (h.unique _ _ this.2 hreq (e.trans hid.symm))
    · exact h.apart _ _ (MSet.has_of_remove hr) hq e
  · intro r hr; exact h.reqOld _ (MSet.has_of_remove hr)
  · intro r hr
    rw [MSet.has_insert] at hr
    rcases hr with rfl | hr
    · show s.history r.id; rw [← hid]; exact h.reqOld _ hreq
    · exact h.repOld _ hr

theorem step {s l s'} (h : Inv s) (hs : Next s l s') : Inv s' ∧ Spec.Next (interp s) l (interp s') := by
  cases hs with
  | @accept req b fresh hb =>
    cases hb
    have hnew : ¬ s.bank.requests.Has req := fun hr => fresh (h.reqOld _ hr)
    constructor
    · refine ⟨MSet.single_insert h.single hnew, ?_, h.rsingle, h.runique, ?_, ?_, ?_⟩
      · intro r q hr hq e
        rw [MSet.has_insert] at hr hq
        rcases hr with rfl | hr <;> rcases hq with rfl | hq
        · rfl
        · exact absurd (by rw [e]; exact h.reqOld _ hq) fresh
        · exact absurd (by rw [← e]; exact h.reqOld _ hr) fresh
        · exact h.unique _ _ hr hq e
      · intro r q hr hq e
        rw [MSet.has_insert] at hr
        rcases hr with rfl | hr
        · exact absurd (by rw [e]; exact h.repOld _ hq) fresh
        · exact h.apart _ _ hr hq e
      · intro r hr
        rw [MSet.has_insert] at hr
        rcases hr with rfl | hr
        · exact .inl rfl
        · exact .inr (h.reqOld _ hr)
      · intro r hr; exact .inr (h.repOld _ hr)
    · have e : interp { bank := { s.bank with requests := s.bank.requests.insert req }
                        history := fun x => x = req.id ∨ s.history x } =
          { interp s with requests := fun r => r = req ∨ s.bank.requests.Has r } := by
        simp only [interp, Spec.State.mk.injEq, true_and, and_true]
        funext r; exact propext MSet.has_insert
      rw [e]
      exact .request (fun r hr e => fresh (by rw [← e]; exact h.reqOld _ hr))
  | @internal l b hl hb =>
    cases hb with
    | @request req => exact absurd rfl (hl req)
    | @transfer req reply f t hreq hid hok hsrc hdst hamt =>
      refine ⟨h.execute hreq hid, ?_⟩
      have hne : req.dst ≠ req.src := fun e => by rw [e] at hdst; simp at hdst
      rw [PMap.remove_other _ hne] at hdst
      have e : interp { s with bank := { s.bank with
          accounts := (((s.bank.accounts.remove req.src).remove req.dst).insert req.src
            (f - req.amt)).insert req.dst (t + req.amt)
          requests := s.bank.requests.remove req, replies := s.bank.replies.insert reply } } =
          { accounts := (s.bank.accounts.insert req.src (f - req.amt)).insert req.dst (t + req.amt)
            requests := fun r => s.bank.requests.Has r ∧ r ≠ req
            replies := fun r => r = reply ∨ s.bank.replies.Has r } := by
        simp only [interp, Spec.State.mk.injEq]
        refine ⟨?_, ?_, ?_⟩
        · funext a; simp only [PMap.insert, PMap.remove]; split
          · rfl
          · split <;> simp_all
        · funext r; exact propext ((MSet.has_remove h.single).trans And.comm)
        · funext r; exact propext MSet.has_insert
      rw [e]
      exact .transfer (s := interp s) hid hok hreq
        (fun r hr e => h.apart _ _ hreq hr (hid.trans e.symm)) hsrc hdst hamt
    | @failed req reply hreq hid hok =>
      refine ⟨h.execute hreq hid, ?_⟩
      have e : interp { s with bank := { s.bank with
          requests := s.bank.requests.remove req, replies := s.bank.replies.insert reply } } =
          { interp s with requests := fun r => s.bank.requests.Has r ∧ r ≠ req
                          replies := fun r => r = reply ∨ s.bank.replies.Has r } := by
        simp only [interp, Spec.State.mk.injEq, true_and]
        refine ⟨?_, ?_⟩
        · funext r; exact propext ((MSet.has_remove h.single).trans And.comm)
        · funext r; exact propext MSet.has_insert
      rw [e]
      exact .failed (s := interp s) hid hok hreq
        (fun r hr e => h.apart _ _ hreq hr (hid.trans e.symm))
    | @reply reply hrep =>
      constructor
      · refine ⟨h.single, h.unique, MSet.single_remove h.rsingle, ?_, ?_, h.reqOld, ?_⟩
        · intro r q hr hq; exact h.runique r q (MSet.has_of_remove hr) (MSet.has_of_remove hq)
        · intro r q hr hq; exact h.apart r q hr (MSet.has_of_remove hq)
        · intro r hr; exact h.repOld _ (MSet.has_of_remove hr)
      · have e : interp { s with bank := { s.bank with replies := s.bank.replies.remove reply } } =
            { interp s with replies := fun r => s.bank.replies.Has r ∧ r ≠ reply } := by
          simp only [interp, Spec.State.mk.injEq, true_and]
          funext r; exact propext ((MSet.has_remove h.rsingle).trans And.comm)
        rw [e]
        exact .reply hrep

/-- BankObligations_v.rs 75-108 `init_refines`, `next_refines`, over whole executions -/
theorem refines {n amount tr s} (h : (machine n amount).Exec tr s) :
    Inv s ∧ (Spec.machine n amount).Exec tr (interp s) := by
  refine Machine.exec_invariant (M := machine n amount)
    (I := fun tr s => Inv s ∧ (Spec.machine n amount).Exec tr (interp s)) ?_ ?_ h
  · rintro s rfl
    refine ⟨inv_init n amount, _, ?_, .nil _⟩
    simp only [Spec.machine, interp, Tok.init, Spec.State.mk.injEq, true_and]
    constructor <;> (funext r; simp)
  · intro tr s l s' ⟨hI, hE⟩ hs
    obtain ⟨h1, h2⟩ := step hI hs
    exact ⟨h1, hE.snoc h2⟩

end Sys

namespace Simple

/-- The request a thread has not executed yet. -/
def PC.pending : PC → Option Request
  | .got r | .one r _ | .both r _ _ | .refused r _ _ | .refusedDst r _ | .failing r => some r
  | _ => none

/-- The reply a thread has not delivered yet. -/
def PC.answer : PC → Option Reply
  | .paid r _ _ | .paidDst r _ => some ⟨true, r.id⟩
  | .answered p => some p
  | _ => none

def asks (r : Request) (p : PC) : Bool := decide (p.pending = some r)
def gives (q : Reply) (p : PC) : Bool := decide (p.answer = some q)

theorem asks_eq {r : Request} {p : PC} {o} (h : p.pending = o) : asks r p = decide (o = some r) := by
  simp [asks, h]

theorem gives_eq {q : Reply} {p : PC} {o} (h : p.answer = o) : gives q p = decide (o = some q) := by
  simp [gives, h]

/-- 1 for the acceptance of a request, else 0. -/
def Event.accepts : Event → Nat
  | .accept _ _ => 1
  | _ => 0

/-- Number of requests accepted. -/
def accepts (tr : List Event) : Nat := (tr.map Event.accepts).sum

theorem accepts_snoc (tr e) : accepts (tr ++ [e]) = accepts tr + e.accepts := by
  simp [accepts]

structure Sim (n : Nat) (b : Nat → Nat) (k : Nat) (s : State) (y : Sys.State) : Prop where
  acc : y.bank.accounts = fun a => if a < n then some (b a) else none
  req : ∀ r, y.bank.requests r = s.pcs.countP (asks r)
  rep : ∀ r, y.bank.replies r = s.pcs.countP (gives r)
  hist : ∀ x, y.history x ↔ ∃ i, i < k ∧ x = UInt64.ofNat i
  next : s.nextId = UInt64.ofNat k

theorem Sim.quiet {n b k s y} (h : Sim n b k s y) {t : Nat} {p p' : PC} {accts : List Cell}
    (hp : s.pcs[t]? = some p) (hq : p'.pending = p.pending) (ha : p'.answer = p.answer) :
    Sim n b k { s with accts := accts, pcs := s.pcs.set t p' } y where
  acc := h.acc
  req := by
    intro r
    have := count_set hp p' (asks r)
    rw [asks_eq hq, asks_eq rfl] at this
    rw [h.req]; simp only; omega
  rep := by
    intro r
    have := count_set hp p' (gives r)
    rw [gives_eq ha, gives_eq rfl] at this
    rw [h.rep]; simp only; omega
  hist := h.hist
  next := h.next

/-- Executing a request: one token taken, one given. -/
theorem Sim.execute {n b b' k s y} (h : Sim n b k s y) {t : Nat} {p p' : PC} {r : Request} {q : Reply}
    (hp : s.pcs[t]? = some p) (h1 : p.pending = some r) (h2 : p.answer = none)
    (h3 : p'.pending = none) (h4 : p'.answer = some q) {acc : PMap Nat Nat}
    (hacc : acc = fun a => if a < n then some (b' a) else none) :
    Sim n b' k { s with pcs := s.pcs.set t p' }
      { y with bank := { y.bank with accounts := acc, requests := y.bank.requests.remove r
                                     replies := y.bank.replies.insert q } } where
  acc := hacc
  req := by
    intro x
    have := count_set hp p' (asks x)
    have h5 := h.req x
    rw [asks_eq h1, asks_eq h3] at this
    simp only [MSet.remove]
    split
    · subst_vars; simp at this; omega
    · have : r ≠ x := fun e => by simp_all
      simp_all
  rep := by
    intro x
    have := count_set hp p' (gives x)
    have h5 := h.rep x
    rw [gives_eq h2, gives_eq h4] at this
    simp only [MSet.insert]
    split
    · subst_vars; simp at this; omega
    · have : q ≠ x := fun e => by simp_all
      simp_all
  hist := h.hist
  next := h.next

theorem Sim.has {n b k s y} (h : Sim n b k s y) {t : Nat} {p : PC} {r : Request}
    (hp : s.pcs[t]? = some p) (h1 : p.pending = some r) : y.bank.requests.Has r := by
  unfold MSet.Has; rw [h.req]
  exact List.countP_pos_iff.mpr ⟨p, List.mem_of_getElem? hp, by simp [asks, h1]⟩

theorem ofNat_inj {i k : Nat} (hi : i < 2 ^ 64) (hk : k < 2 ^ 64) (h : UInt64.ofNat i = UInt64.ofNat k) :
    i = k := by
  have := congrArg UInt64.toNat h
  simp only [UInt64.toNat_ofNat'] at this
  rwa [Nat.mod_eq_of_lt hi, Nat.mod_eq_of_lt hk] at this

/-- One step of the threads is one step of the auditor's system, or none. -/
theorem Sim.step {n b k s y e s'} (hI : Inv n b s) (h : Sim n b k s y) (hs : Next s e s')
    (hk : k + e.accepts ≤ 2 ^ 64) :
    ∃ y', Sim n (effect b e) (k + e.accepts) s' y' ∧
      (match e.label with
        | some l => Sys.Next y l y'
        | none => y' = y) := by
  cases hs with
  | @accept t inp hpc =>
    refine ⟨_, ?_, .accept (req := ⟨inp, s.nextId⟩) ?_ .request⟩
    · constructor
      · exact h.acc
      · intro r
        have := count_set hpc (.got ⟨inp, s.nextId⟩) (asks r)
        have h5 := h.req r
        rw [asks_eq rfl, asks_eq rfl] at this
        simp only [PC.pending] at this
        simp only [MSet.insert, State.setPc]
        split
        · subst_vars; simp at this; omega
        · have : (⟨inp, s.nextId⟩ : Request) ≠ r := fun e => by simp_all
          simp_all
      · intro r
        have := count_set hpc (.got ⟨inp, s.nextId⟩) (gives r)
        have h5 := h.rep r
        rw [gives_eq rfl, gives_eq rfl] at this
        simp only [PC.answer] at this
        simp only [State.setPc]; simp at this; omega
      · intro x
        constructor
        · rintro (rfl | hx)
          · exact ⟨k, Nat.lt_succ_self k, h.next⟩
          · obtain ⟨i, hi, e⟩ := (h.hist x).mp hx
            exact ⟨i, Nat.lt_succ_of_lt hi, e⟩
        · rintro ⟨i, hi, e⟩
          by_cases hik : i = k
          · left; subst hik; rw [e]; exact h.next.symm
          · right; exact (h.hist x).mpr ⟨i, by have hi : i < k + 1 := hi
                                               omega, e⟩
      · show s.nextId + 1 = UInt64.ofNat (k + 1)
        rw [h.next, UInt64.ofNat_add]; rfl
    · intro hx
      obtain ⟨i, hi, e⟩ := (h.hist _).mp hx
      have e : s.nextId = UInt64.ofNat i := e
      rw [h.next] at e
      have hk : k + 1 ≤ 2 ^ 64 := hk
      have := ofNat_inj (by omega) (by omega) e
      omega
  | @invalid t r hpc hv =>
    exact ⟨_, h.execute hpc rfl rfl rfl rfl h.acc,
      .internal (fun _ => nofun) (.failed (h.has hpc rfl) rfl rfl)⟩
  | lockFirst hpc hv hc => exact ⟨y, h.quiet hpc rfl rfl, rfl⟩
  | @lockSecond t r v w hpc hc =>
    refine ⟨y, h.quiet hpc ?_ ?_, rfl⟩ <;> split <;> rfl
  | @pay t r vs vd hpc hcan =>
    have hv : Valid n r := hI.ok _ _ hpc
    have hne := src_ne_dst hv
    have hs1 : vs.toNat = b r.src := hI.hand _ _ _ _ hpc (by simp [PC.val])
    have hd1 : vd.toNat = b r.dst := hI.hand _ _ _ _ hpc (by simp [PC.val, Ne.symm hne])
    have hp := (canPay_iff hv hs1 hd1).mp hcan
    refine ⟨_, h.execute (q := ⟨true, r.id⟩) hpc rfl rfl rfl rfl ?_,
      .internal (fun _ => nofun) (.transfer (f := b r.src) (t := b r.dst) (h.has hpc rfl) rfl rfl ?_ ?_ ?_)⟩
    · funext a
      simp only [effect, if_true, PMap.insert, PMap.remove, h.acc, Bank.pay]
      by_cases e1 : a = r.dst
      · simp [e1, hp.2.2.1]
      · by_cases e2 : a = r.src
        · subst e2; simp [e1, hp.2.1]
        · simp [e1, e2]
    · simp [h.acc, hp.2.1]
    · rw [PMap.remove_other _ (Ne.symm hne)]; simp [h.acc, hp.2.2.1]
    · exact hp.2.2.2.1
  | storeSrc hpc => exact ⟨y, h.quiet hpc rfl rfl, rfl⟩
  | storeDst hpc => exact ⟨y, h.quiet hpc rfl rfl, rfl⟩
  | refuse hpc hcan => exact ⟨y, h.quiet hpc rfl rfl, rfl⟩
  | backSrc hpc => exact ⟨y, h.quiet hpc rfl rfl, rfl⟩
  | backDst hpc => exact ⟨y, h.quiet hpc rfl rfl, rfl⟩
  | fail hpc =>
    exact ⟨_, h.execute hpc rfl rfl rfl rfl h.acc,
      .internal (fun _ => nofun) (.failed (h.has hpc rfl) rfl rfl)⟩
  | @deliver t p hpc =>
    refine ⟨_, ?_, .internal (fun _ => nofun) (.reply (reply := p) ?_)⟩
    · constructor
      · exact h.acc
      · intro x
        have := count_set hpc .idle (asks x)
        have h5 := h.req x
        rw [asks_eq rfl, asks_eq rfl] at this
        simp only [PC.pending] at this
        simp only [State.setPc]; simp at this; omega
      · intro x
        have := count_set hpc .idle (gives x)
        have h5 := h.rep x
        rw [gives_eq rfl, gives_eq rfl] at this
        simp only [PC.answer] at this
        simp only [State.setPc, MSet.remove]
        split
        · subst_vars; simp at this; omega
        · have : p ≠ x := fun e => by simp_all
          simp_all
      · exact h.hist
      · exact h.next
    · unfold MSet.Has; rw [h.rep]
      exact List.countP_pos_iff.mpr ⟨_, List.mem_of_getElem? hpc, by simp [gives, PC.answer]⟩
  | startCheck hpc hi => exact ⟨y, h.quiet hpc rfl rfl, rfl⟩
  | lockCheck hpc hc => exact ⟨y, h.quiet hpc rfl rfl, rfl⟩
  | checked hpc hc => exact ⟨y, h.quiet hpc rfl rfl, rfl⟩
  | startTotal hpc => exact ⟨y, h.quiet hpc rfl rfl, rfl⟩
  | lockTotal hpc hi hc => exact ⟨y, h.quiet hpc rfl rfl, rfl⟩
  | add hpc hc _ => exact ⟨y, h.quiet hpc rfl rfl, rfl⟩
  | overflow hpc hc _ => exact ⟨y, h.quiet hpc rfl rfl, rfl⟩
  | totalled hpc hi => exact ⟨y, h.quiet hpc rfl rfl, rfl⟩

theorem sim_exec {n amount threads tr s} (h : (machine n amount threads).Exec tr s)
    (hk : accepts tr ≤ 2 ^ 64) :
    ∃ y, (Sys.machine n amount.toNat).Exec (tr.filterMap Event.label) y ∧
      Sim n (ledger amount tr) (accepts tr) s y := by
  have := Machine.exec_invariant (M := machine n amount threads)
    (I := fun tr s => Inv n (ledger amount tr) s ∧ (accepts tr ≤ 2 ^ 64 →
      ∃ y, (Sys.machine n amount.toNat).Exec (tr.filterMap Event.label) y ∧
        Sim n (ledger amount tr) (accepts tr) s y)) ?_ ?_ h
  · exact this.2 hk
  · rintro s rfl
    refine ⟨inv_start n amount threads, fun _ => ⟨_, ⟨_, rfl, .nil _⟩, ?_⟩⟩
    constructor
    · rfl
    · intro r
      have : List.countP (asks r) (List.replicate threads PC.idle) = 0 := by
        rw [List.countP_eq_zero]; intro p hp
        rw [List.mem_replicate] at hp; rw [hp.2]; simp [asks, PC.pending]
      exact this.symm
    · intro r
      have : List.countP (gives r) (List.replicate threads PC.idle) = 0 := by
        rw [List.countP_eq_zero]; intro p hp
        rw [List.mem_replicate] at hp; rw [hp.2]; simp [gives, PC.answer]
      exact this.symm
    · intro x; simp [accepts]
    · rfl
  · intro tr s e s' ⟨hI, hE⟩ hs
    refine ⟨by rw [ledger_snoc]; exact hI.step hs, fun hk => ?_⟩
    rw [accepts_snoc] at hk
    obtain ⟨y, hy, hsim⟩ := hE (by omega)
    obtain ⟨y', hsim', hl⟩ := hsim.step hI hs hk
    refine ⟨y', ?_, by rw [accepts_snoc, ledger_snoc]; exact hsim'⟩
    rw [List.filterMap_append]
    cases hlab : e.label with
    | none => rw [hlab] at hl; subst hl; simpa [hlab] using hy
    | some l => rw [hlab] at hl; simpa [hlab] using hy.snoc hl

end Simple
end Verif.Bank
