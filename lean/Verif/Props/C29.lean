import Verif.Alloc.MiniAllocator
/-
C29. Starting from a fresh allocation unit, the addresses returned by successive reservations are
pairwise different, lie inside that unit, are refused exactly when the unit is full, and the
bookkeeping (reserved and observed pages) equals the set of pages handed out.

Specification: `ledger` (in Alloc/MiniAllocator.lean) writes down by hand, from the sequence of
calls and results alone, the unit in use, the addresses handed out from it, and those observed. For
the set-based allocator, `Since P Q t` says that `P` occurred in `t` and no `Q` after it.
-/
namespace Verif.C29
open Verif.ExecAlloc
open AsyncDisk (Since)

variable {g : IGeometry}

theorem agree_some {tr m l} (h : (machine g).Exec tr m) (hl : ledger tr = some l) :
    ∃ p, m.allocs = some p ∧ Agree g p l := by
  have := agree h
  rw [hl] at this
  cases hm : m.allocs with
  | none => rw [hm] at this; exact this.elim
  | some p => rw [hm] at this; exact ⟨p, rfl, this⟩

/-! ### The executable allocator -/

/-- The addresses handed out from a unit are pairwise different. -/
theorem handed_distinct {tr m l} (h : (machine g).Exec tr m) (hl : ledger tr = some l) :
    l.out.Nodup := by
  obtain ⟨p, _, ha⟩ := agree_some h hl
  rw [ha.out]; exact nodup_firstPages _ _

/-- They lie inside the unit, which lies on the disk. -/
theorem handed_inside {tr m l} (h : (machine g).Exec tr m) (hl : ledger tr = some l) {a}
    (ha : a ∈ l.out) : a.au = l.au.toNat ∧ a.wf g.view := by
  obtain ⟨p, _, hp⟩ := agree_some h hl
  rw [hp.out, mem_firstPages] at ha
  have hb := hp.bound
  refine ⟨by rw [ha.1, hp.au], by rw [ha.1]; exact hp.auLt, ?_⟩
  show a.page < g.pages.toNat
  omega

/-- A reservation is refused exactly when all pages of the unit were handed out. -/
theorem refused_iff_full {tr m l} (h : (machine g).Exec tr m) (hl : ledger tr = some l) :
    (¬ ∃ a m', Next g m (.reserved a) m') ↔ l.out.length = g.pages.toNat := by
  obtain ⟨p, hm, hp⟩ := agree_some h hl
  have hlen : l.out.length = p.reserved.toNat := by rw [hp.out]; simp [firstPages]
  rw [hlen]
  constructor
  · intro hn
    apply Classical.byContradiction
    intro hne
    exact hn ⟨_, _, .reserve hm (fun hc => hne (by rw [hc]))⟩
  · rintro heq ⟨a, m', hs⟩
    cases hs with
    | reserve hp' hf =>
      rw [hm] at hp'; cases hp'
      exact hf (UInt32.toNat_inj.mp heq)

/-- The same for allocate-and-observe, which is only called when every page handed out has been
observed. -/
theorem allocate_refused_iff_full {tr m l} (h : (machine g).Exec tr m) (hl : ledger tr = some l)
    (hs : l.seen = l.out) :
    (¬ ∃ a m', Next g m (.allocated a) m') ↔ l.out.length = g.pages.toNat := by
  obtain ⟨p, hm, hp⟩ := agree_some h hl
  have hlen : l.out.length = p.reserved.toNat := by rw [hp.out]; simp [firstPages]
  have hlen' : l.seen.length = p.observed.toNat := by rw [hp.seen]; simp [firstPages]
  rw [hlen]
  constructor
  · intro hn
    apply Classical.byContradiction
    intro hne
    have hal : m.allocateAndObserve = some (p.reserve.1, ⟨some p.reserve.2.observeAll⟩) := by
      simp only [MA.allocateAndObserve, hm]
    refine hn ⟨_, _, .allocate hm (fun hc => hne (by rw [hc])) ?_ hal⟩
    apply UInt32.toNat_inj.mp
    rw [← hlen, ← hlen', hs]
  · rintro heq ⟨a, m', hst⟩
    cases hst with
    | allocate hp' hf =>
      rw [hm] at hp'; cases hp'
      exact hf (UInt32.toNat_inj.mp heq)

/-- The bookkeeping is the ledger: reserved pages are those handed out, observed pages those
observed. -/
theorem bookkeeping_exact {tr m l p} (h : (machine g).Exec tr m) (hl : ledger tr = some l)
    (hm : m.allocs = some p) (a : Address) :
    (p.view.reserved a ↔ a ∈ l.out) ∧ (p.view.observed a ↔ a ∈ l.seen) := by
  obtain ⟨q, hq, hp⟩ := agree_some h hl
  rw [hm] at hq; cases hq
  rw [hp.out, hp.seen, mem_firstPages, mem_firstPages]
  simp [PA.view, addrRange]

/-- The allocator has a unit exactly when the ledger has one. -/
theorem unit_exact {tr m} (h : (machine g).Exec tr m) :
    m.allocs.map (·.au) = (ledger tr).map (·.au) := by
  have := agree h
  cases hm : m.allocs <;> cases hl : ledger tr <;> rw [hm, hl] at this
  · rfl
  · exact this.elim
  · exact this.elim
  · simp [Agree.au this]

/-- the event hands out `a` -/
def Hands (a : Address) (e : Ev) : Prop :=
  ∃ i : IAddress, i.view = a ∧ (e = .allocated i ∨ e = .reserved i)

/-- An address is handed out a second time only after the unit was given back. -/
theorem repeat_needs_prune {t e u e' v m a}
    (h : (machine g).Exec (t ++ e :: u ++ e' :: v) m) (h1 : Hands a e) (h2 : Hands a e') :
    .prune ∈ u := by
  obtain ⟨m0, h0, hr⟩ := h
  have hr : (machine g).Run m0 ((t ++ [e]) ++ (u ++ ([e'] ++ v))) m := by simpa using hr
  obtain ⟨m1, r1, hr⟩ := hr.split
  obtain ⟨m2, r2, hr⟩ := hr.split
  obtain ⟨m3, r3, _⟩ := hr.split
  have e1 : (machine g).Exec (t ++ [e]) m1 := ⟨m0, h0, r1⟩
  have e3 : (machine g).Exec (t ++ [e] ++ u ++ [e']) m3 :=
    ⟨m0, h0, (r1.append r2).append r3⟩
  -- after e the address is in the ledger
  have hin : ∃ l, ledger (t ++ [e]) = some l ∧ a ∈ l.out := by
    have hag := agree e1
    obtain ⟨i, rfl, rfl | rfl⟩ := h1 <;> simp only [ledger, List.foldl_append] at hag ⊢ <;>
      cases hl : List.foldl Ledger.step none t
    · rw [hl] at hag
      obtain ⟨mm, _, hlast⟩ := r1.split
      cases hlast with
      | cons hs hn => cases hn; cases hs with
        | allocate hp hf hu hc =>
          simp only [MA.allocateAndObserve, hp, Option.some.injEq, Prod.mk.injEq] at hc
          obtain ⟨_, rfl⟩ := hc; exact hag.elim
    · exact ⟨_, rfl, by simp⟩
    · rw [hl] at hag
      obtain ⟨mm, _, hlast⟩ := r1.split
      cases hlast with
      | cons hs hn => cases hn; cases hs with
        | reserve hp hf => exact hag.elim
    · exact ⟨_, rfl, by simp⟩
  apply Classical.byContradiction
  intro hnp
  -- it stays there
  have hkeep : ∀ (w : List Ev) (x y : MA) (l : Ledger), (machine g).Run x w y →
      AgreeOpt g x.allocs (some l) → a ∈ l.out → .prune ∉ w →
      ∃ l', List.foldl Ledger.step (some l) w = some l' ∧ a ∈ l'.out := by
    intro w x y l hrun
    induction hrun generalizing l with
    | nil => intro _ ha _; exact ⟨l, rfl, ha⟩
    | @cons x c x' cs _ hs _ ih =>
      intro hag ha hnp
      have hag' := agree_step hag hs
      have hnp' : Ev.prune ∉ cs := fun hc => hnp (List.mem_cons_of_mem _ hc)
      simp only [List.foldl_cons]
      cases hs with
      | add hn hau => rw [hn] at hag; exact hag.elim
      | allocate => exact ih _ hag' (by simp [ha]) hnp'
      | reserve => exact ih _ hag' (by simp [ha]) hnp'
      | observeAll => exact ih _ hag' ha hnp'
      | prune => exact absurd (by simp) hnp
  obtain ⟨l, hl, ha⟩ := hin
  obtain ⟨l', hl', ha'⟩ := hkeep u m1 m2 l r2 (hl ▸ agree e1) ha hnp
  have hfin : ledger (t ++ [e] ++ u) = some l' := by
    unfold ledger at hl ⊢; rw [List.foldl_append, hl, hl']
  obtain ⟨l3, hl3, hmem⟩ : ∃ l3, ledger (t ++ [e] ++ u ++ [e']) = some l3 ∧
      l3.out = l'.out ++ [a] := by
    unfold ledger at hfin ⊢
    rw [List.foldl_append, hfin]
    obtain ⟨i, rfl, rfl | rfl⟩ := h2 <;> exact ⟨_, rfl, rfl⟩
  have := handed_distinct e3 hl3
  rw [hmem, List.nodup_append] at this
  exact this.2.2 a ha' a (by simp) rfl

/-! ### The executable allocator implements the set-based one -/

open Classical in
/-- A successful allocation is an allocation of a free page in the set-based allocator followed by
its observation. -/
theorem allocate_refines {tr m a m'} (h : (machine g).Exec tr m) (hs : Next g m (.allocated a) m') :
    (m.view g).canAllocate g.view a.view ∧
      m'.view g = ((m.view g).allocate g.view a.view).observe a.view := by
  cases hs with
  | @allocate p _ _ hp hf hu hc =>
    simp only [MA.allocateAndObserve, hp, Option.some.injEq, Prod.mk.injEq] at hc
    obtain ⟨rfl, rfl⟩ := hc
    have hag := agree h
    rw [hp] at hag
    cases hl : ledger tr with
    | none => rw [hl] at hag; exact hag.elim
    | some l =>
    rw [hl] at hag
    have hag : Agree g p l := hag
    obtain ⟨hsucc, hlt⟩ := reserve_succ hag.bound hf
    have hu : p.reserved = p.observed := hu
    refine ⟨⟨p.view, ?_, ?_⟩, ?_⟩
    · simp [MA.view, hp, PA.reserve, IAddress.view]
    · refine ⟨⟨hag.auLt, hlt⟩, rfl, ?_⟩
      rintro (hc | hc)
      · have := hc.2.2; rw [← hu] at this; exact Nat.lt_irrefl _ this
      · exact Nat.lt_irrefl _ hc.2.2
    · have hau : (PA.reserve p).1.view.au = p.au.toNat := rfl
      -- the page allocator after the step
      have hres : ∀ x : Address, (addrRange p.au 0 (p.reserved + 1)) x ↔
          addrRange p.au 0 p.reserved x ∨ x = (PA.reserve p).1.view := by
        intro x
        simp only [addrRange, hsucc, PA.reserve, IAddress.view]
        constructor
        · rintro ⟨h1, h2, h3⟩
          by_cases hx : x.page < p.reserved.toNat
          · exact .inl ⟨h1, h2, hx⟩
          · right; ext
            · exact h1
            · show x.page = p.reserved.toNat; omega
        · rintro (⟨h1, h2, h3⟩ | rfl)
          · exact ⟨h1, h2, by omega⟩
          · exact ⟨rfl, by simp, by simp⟩
      have hobs : addrRange p.au 0 p.observed = addrRange p.au 0 p.reserved := by rw [hu]
      have hview : (PA.observeAll (PA.reserve p).2).view =
          ((p.view.reserve (fun x => x = (PA.reserve p).1.view)).observe
            (fun x => x = (PA.reserve p).1.view)) := by
        simp only [PA.view, PA.observeAll, PageAlloc.observe, PageAlloc.reserve, hobs]
        congr 1 <;> (funext x; exact propext (hres x))
      have hfree : (PA.hasFree g (PA.observeAll (PA.reserve p).2)) ↔
          ¬ (p.view.reserve (fun x => x = (PA.reserve p).1.view)).allAllocated g.view := by
        constructor
        · intro hf' hall
          have hf' : p.reserved + 1 ≠ g.pages := hf'
          have hne : (p.reserved + 1).toNat ≠ g.pages.toNat :=
            fun hc => hf' (UInt32.toNat_inj.mp hc)
          have := hall ⟨p.au.toNat, p.reserved.toNat + 1⟩
            ⟨hag.auLt, by show _ < g.pages.toNat; simp only; omega⟩ rfl
          rcases this with (hc | hc) | hc
          · have := hc.2.2; simp only at this; omega
          · have := congrArg Address.page hc
            simp only [PA.reserve, IAddress.view] at this; omega
          · have := hc.2.2; rw [← hu] at this; simp only at this; omega
        · intro hn hc
          apply hn
          intro x hx hxa
          left
          have hc : p.reserved + 1 = g.pages := hc
          refine (hres x).mp ⟨hxa, by simp, ?_⟩
          rw [hc]; exact hx.2
      simp only [MA.view, hp, MiniAlloc.allocate, MiniAlloc.observe, hau, PMap.insert_same,
        Option.getD_some]
      congr 1
      · funext k
        simp only [PMap.insert]
        by_cases hk : k = p.au.toNat
        · have hk' : k = ((PA.reserve p).2.observeAll).au.toNat := hk
          rw [if_pos hk', if_pos hk, hview]
        · have hk' : ¬ k = ((PA.reserve p).2.observeAll).au.toNat := hk
          rw [if_neg hk', if_neg hk, if_neg hk, if_neg hk]
      · by_cases hff : (PA.hasFree g (PA.observeAll (PA.reserve p).2))
        · rw [if_pos hff, if_neg (hfree.mp hff)]; rfl
        · rw [if_neg hff, if_pos (Classical.not_not.mp (fun hc => hff (hfree.mpr hc)))]

/-- Giving the unit back is pruning it in the set-based allocator. -/
theorem prune_refines {m : MA} {p m'} (hp : m.allocs = some p) (hs : Next g m .prune m') :
    m'.view g = (m.view g).prune (fun au => au = p.au.toNat) := by
  cases hs with
  | prune _ =>
    simp only [MA.view, MA.prune, hp, MiniAlloc.prune, MiniAlloc.empty]
    congr 1
    · funext k
      by_cases hk : k = p.au.toNat
      · simp [PMap.removeKeys, hk]
      · simp [PMap.removeKeys, hk, PMap.insert]
    · by_cases hf : p.hasFree g
      · simp [hf]
      · simp [hf]

/-! ### The set-based allocator -/

open MiniAlloc (Call)

/-- pages are reserved exactly when allocated and not pruned since -/
def PrunesAu (au : Nat) (c : Call) : Prop := ∃ s : PSet Nat, c = .prune s ∧ s au
def AddsAu (au : Nat) (c : Call) : Prop := ∃ s : PSet Nat, c = .add s ∧ s au

theorem since_snoc_of {α : Type} {P Q : α → Prop} {tr e} (h : Since P Q (tr ++ [e])) :
    P e ∨ (Since P Q tr ∧ ¬ Q e) := by
  obtain ⟨t1, x, t2, heq, hp, hq⟩ := h
  rcases List.eq_nil_or_concat t2 with rfl | ⟨t2', y, rfl⟩
  · have := List.append_inj' heq rfl
    simp at this; exact .inl (this.2 ▸ hp)
  · have heq' : tr ++ [e] = (t1 ++ x :: t2') ++ [y] := by simpa using heq
    obtain ⟨h1, h2⟩ := List.append_inj' heq' rfl
    simp at h2; subst h2
    exact .inr ⟨⟨t1, x, t2', h1, hp, fun z hz => hq z (by simp [hz])⟩, hq e (by simp)⟩

theorem since_snoc_iff {α : Type} {P Q : α → Prop} {tr e} :
    Since P Q (tr ++ [e]) ↔ P e ∨ (Since P Q tr ∧ ¬ Q e) := by
  refine ⟨since_snoc_of, ?_⟩
  rintro (h | ⟨h1, h2⟩)
  · exact .new h
  · exact h1.keep h2

/-- What the set-based allocator remembers about the past. -/
structure Remembers (g : Geometry) (tr : List Call) (m : MiniAlloc) : Prop where
  dom : ∀ au, m.allocs.Has au ↔ Since (AddsAu au) (PrunesAu au) tr
  res : ∀ au p, m.allocs au = some p →
    ∀ a, p.reserved a ↔ a.au = au ∧ Since (fun c => c = .allocate a) (PrunesAu au) tr
  obs : ∀ au p, m.allocs au = some p →
    ∀ a, p.observed a ↔ a.au = au ∧ Since (fun c => c = .observe a) (PrunesAu au) tr
  au : ∀ au p, m.allocs au = some p → p.au = au
  sub : ∀ au p a, m.allocs au = some p → p.observed a → p.reserved a
  wfp : ∀ au p a, m.allocs au = some p → p.reserved a → a.wf g
  curr : ∀ au, m.curr = some au → ∃ p, m.allocs au = some p ∧ ¬ p.allAllocated g
  gone : ∀ a c, (c = Call.allocate a ∨ c = Call.observe a) →
    Since (fun x => x = c) (PrunesAu a.au) tr → m.allocs.Has a.au

theorem remembers_step {g : Geometry} {tr m c m'} (h : Remembers g tr m)
    (hs : MiniAlloc.Next g m c m') : Remembers g (tr ++ [c]) m' := by
  have noPrune : ∀ au c, (∀ s, c ≠ Call.prune s) → ¬ PrunesAu au c := by
    rintro au c hc ⟨s, rfl, _⟩; exact hc s rfl
  cases hs with
  | @add aus =>
    have hnp : ∀ au, ¬ PrunesAu au (Call.add aus) := fun au => noPrune au _ (by simp)
    have hfresh : ∀ au, m.allocs au = none → ∀ (a : Address) c, a.au = au →
        (c = Call.allocate a ∨ c = Call.observe a) →
        ¬ Since (fun x => x = c) (PrunesAu au) tr := by
      rintro au hn a c rfl hc hsn; exact h.gone a c hc hsn hn
    have hcase : ∀ au p, (m.addAus aus).allocs au = some p →
        m.allocs au = some p ∨ (m.allocs au = none ∧ p = PageAlloc.new au) := by
      intro au p hp
      simp only [MiniAlloc.addAus] at hp
      cases hq : m.allocs au with
      | some q => rw [hq] at hp; exact .inl hp
      | none =>
        rw [hq] at hp; simp only at hp
        split at hp
        · cases hp; exact .inr ⟨rfl, rfl⟩
        · cases hp
    refine ⟨?_, ?_, ?_, ?_, ?_, ?_, ?_, ?_⟩
    · intro au
      rw [since_snoc_iff]
      simp only [MiniAlloc.addAus, PMap.Has]
      cases hq : m.allocs au with
      | some q =>
        simp only [ne_eq, reduceCtorEq, not_false_eq_true, true_iff]
        exact .inr ⟨(h.dom au).mp (by simp [PMap.Has, hq]), hnp au⟩
      | none =>
        have hno : ¬ Since (AddsAu au) (PrunesAu au) tr := fun hc => (h.dom au).mpr hc hq
        by_cases ha : aus au
        · simp only [ha, if_true]
          simp only [ne_eq, reduceCtorEq, not_false_eq_true, true_iff]
          exact .inl ⟨aus, rfl, ha⟩
        · simp only [ha, if_false]
          constructor
          · intro hc; exact absurd rfl hc
          · rintro (⟨s, hs, hsa⟩ | ⟨hc, _⟩)
            · cases hs; exact absurd hsa ha
            · exact absurd hc hno
    · intro au p hp a
      rw [since_snoc_iff]
      simp only [reduceCtorEq, false_or, hnp, not_false_eq_true, and_true]
      rcases hcase au p hp with hp | ⟨hn, rfl⟩
      · exact h.res au p hp a
      · simp only [PageAlloc.new, false_iff]
        rintro ⟨h1, h2⟩; exact hfresh au hn a _ h1 (.inl rfl) h2
    · intro au p hp a
      rw [since_snoc_iff]
      simp only [reduceCtorEq, false_or, hnp, not_false_eq_true, and_true]
      rcases hcase au p hp with hp | ⟨hn, rfl⟩
      · exact h.obs au p hp a
      · simp only [PageAlloc.new, false_iff]
        rintro ⟨h1, h2⟩; exact hfresh au hn a _ h1 (.inr rfl) h2
    · intro au p hp
      rcases hcase au p hp with hp | ⟨_, rfl⟩
      · exact h.au au p hp
      · rfl
    · intro au p a hp ho
      rcases hcase au p hp with hp | ⟨_, rfl⟩
      · exact h.sub au p a hp ho
      · exact ho
    · intro au p a hp ho
      rcases hcase au p hp with hp | ⟨_, rfl⟩
      · exact h.wfp au p a hp ho
      · exact ho.elim
    · intro au hc
      obtain ⟨p, hp, hn⟩ := h.curr au hc
      exact ⟨p, by simp [MiniAlloc.addAus, hp], hn⟩
    · intro a c hc hsn
      rw [since_snoc_iff] at hsn
      rcases hsn with hsn | ⟨hsn, _⟩
      · subst hsn; rcases hc with hc | hc <;> cases hc
      · have := h.gone a c hc hsn
        obtain ⟨p, hp⟩ := (PMap.has_iff _ _).mp this
        simp [PMap.Has, MiniAlloc.addAus, hp]
  | @allocate a ha =>
    obtain ⟨p, hp, hfree⟩ := ha
    have hnp : ∀ au, ¬ PrunesAu au (Call.allocate a) := fun au => noPrune au _ (by simp)
    have hcase : ∀ au q, (m.allocate g a).allocs au = some q →
        (au = a.au ∧ q = p.reserve (fun x => x = a)) ∨ (au ≠ a.au ∧ m.allocs au = some q) := by
      intro au q hq
      simp only [MiniAlloc.allocate, hp, Option.getD_some, PMap.insert] at hq
      split at hq
      next he => cases hq; exact .inl ⟨he, rfl⟩
      next he => exact .inr ⟨he, hq⟩
    have hat : (m.allocate g a).allocs a.au = some (p.reserve (fun x => x = a)) := by
      simp [MiniAlloc.allocate, hp]
    refine ⟨?_, ?_, ?_, ?_, ?_, ?_, ?_, ?_⟩
    · intro au
      rw [since_snoc_iff]
      have : ¬ AddsAu au (Call.allocate a) := by rintro ⟨s, hs, _⟩; cases hs
      simp only [this, false_or, hnp, not_false_eq_true, and_true]
      rw [← h.dom au]
      by_cases he : au = a.au
      · subst he; simp [PMap.Has, hat, hp]
      · simp [PMap.Has, MiniAlloc.allocate, PMap.insert, he]
    · intro au q hq b
      rw [since_snoc_iff]
      simp only [hnp, not_false_eq_true, and_true]
      rcases hcase au q hq with ⟨rfl, rfl⟩ | ⟨hne, hq⟩
      · simp only [PageAlloc.reserve]
        rw [h.res a.au p hp b]
        constructor
        · rintro (⟨h1, h2⟩ | rfl)
          · exact ⟨h1, .inr h2⟩
          · exact ⟨rfl, .inl rfl⟩
        · rintro ⟨h1, h2 | h2⟩
          · cases h2; exact .inr rfl
          · exact .inl ⟨h1, h2⟩
      · rw [h.res au q hq b]
        constructor
        · rintro ⟨h1, h2⟩; exact ⟨h1, .inr h2⟩
        · rintro ⟨h1, h2 | h2⟩
          · cases h2; exact absurd h1.symm hne
          · exact ⟨h1, h2⟩
    · intro au q hq b
      rw [since_snoc_iff]
      simp only [reduceCtorEq, false_or, hnp, not_false_eq_true, and_true]
      rcases hcase au q hq with ⟨rfl, rfl⟩ | ⟨hne, hq⟩
      · exact h.obs a.au p hp b
      · exact h.obs au q hq b
    · intro au q hq
      rcases hcase au q hq with ⟨rfl, rfl⟩ | ⟨hne, hq⟩
      · exact h.au a.au p hp
      · exact h.au au q hq
    · intro au q b hq ho
      rcases hcase au q hq with ⟨rfl, rfl⟩ | ⟨hne, hq⟩
      · exact .inl (h.sub a.au p b hp ho)
      · exact h.sub au q b hq ho
    · intro au q b hq ho
      rcases hcase au q hq with ⟨rfl, rfl⟩ | ⟨hne, hq⟩
      · rcases ho with ho | rfl
        · exact h.wfp a.au p b hp ho
        · exact hfree.1
      · exact h.wfp au q b hq ho
    · intro au hc
      simp only [MiniAlloc.allocate, hp, Option.getD_some] at hc
      split at hc
      · cases hc
      next hn => cases hc; rw [hp] at hn; exact ⟨_, hat, hn⟩
    · intro b c hc hsn
      rw [since_snoc_iff] at hsn
      rcases hsn with hsn | ⟨hsn, _⟩
      · subst hsn
        rcases hc with hc | hc <;> cases hc
        simp [PMap.Has, hat]
      · have := h.gone b c hc hsn
        by_cases he : b.au = a.au
        · rw [he]; simp [PMap.Has, hat]
        · simpa [PMap.Has, MiniAlloc.allocate, PMap.insert, he] using this
  | @observe a ha =>
    obtain ⟨p, hp, hres⟩ := ha
    have hnp : ∀ au, ¬ PrunesAu au (Call.observe a) := fun au => noPrune au _ (by simp)
    have hcase : ∀ au q, (m.observe a).allocs au = some q →
        (au = a.au ∧ q = p.observe (fun x => x = a)) ∨ (au ≠ a.au ∧ m.allocs au = some q) := by
      intro au q hq
      simp only [MiniAlloc.observe, hp, Option.getD_some, PMap.insert] at hq
      split at hq
      next he => cases hq; exact .inl ⟨he, rfl⟩
      next he => exact .inr ⟨he, hq⟩
    have hat : (m.observe a).allocs a.au = some (p.observe (fun x => x = a)) := by
      simp [MiniAlloc.observe, hp]
    refine ⟨?_, ?_, ?_, ?_, ?_, ?_, ?_, ?_⟩
    · intro au
      rw [since_snoc_iff]
      have : ¬ AddsAu au (Call.observe a) := by rintro ⟨s, hs, _⟩; cases hs
      simp only [this, false_or, hnp, not_false_eq_true, and_true]
      rw [← h.dom au]
      by_cases he : au = a.au
      · subst he; simp [PMap.Has, hat, hp]
      · simp [PMap.Has, MiniAlloc.observe, PMap.insert, he]
    · intro au q hq b
      rw [since_snoc_iff]
      simp only [reduceCtorEq, false_or, hnp, not_false_eq_true, and_true]
      rcases hcase au q hq with ⟨rfl, rfl⟩ | ⟨hne, hq⟩
      · exact h.res a.au p hp b
      · exact h.res au q hq b
    · intro au q hq b
      rw [since_snoc_iff]
      simp only [hnp, not_false_eq_true, and_true]
      rcases hcase au q hq with ⟨rfl, rfl⟩ | ⟨hne, hq⟩
      · simp only [PageAlloc.observe]
        rw [h.obs a.au p hp b]
        constructor
        · rintro (⟨h1, h2⟩ | rfl)
          · exact ⟨h1, .inr h2⟩
          · exact ⟨rfl, .inl rfl⟩
        · rintro ⟨h1, h2 | h2⟩
          · cases h2; exact .inr rfl
          · exact .inl ⟨h1, h2⟩
      · rw [h.obs au q hq b]
        constructor
        · rintro ⟨h1, h2⟩; exact ⟨h1, .inr h2⟩
        · rintro ⟨h1, h2 | h2⟩
          · cases h2; exact absurd h1.symm hne
          · exact ⟨h1, h2⟩
    · intro au q hq
      rcases hcase au q hq with ⟨rfl, rfl⟩ | ⟨hne, hq⟩
      · exact h.au a.au p hp
      · exact h.au au q hq
    · intro au q b hq ho
      rcases hcase au q hq with ⟨rfl, rfl⟩ | ⟨hne, hq⟩
      · rcases ho with ho | rfl
        · exact h.sub a.au p b hp ho
        · exact hres
      · exact h.sub au q b hq ho
    · intro au q b hq ho
      rcases hcase au q hq with ⟨rfl, rfl⟩ | ⟨hne, hq⟩
      · exact h.wfp a.au p b hp ho
      · exact h.wfp au q b hq ho
    · intro au hc
      obtain ⟨q, hq, hn⟩ := h.curr au hc
      by_cases he : au = a.au
      · subst he
        rw [hp] at hq; cases hq
        refine ⟨_, hat, fun hall => hn ?_⟩
        intro x hx hxa
        rcases hall x hx hxa with h1 | h1 | h1
        · exact .inl h1
        · exact .inr h1
        · subst h1; exact .inl hres
      · exact ⟨q, by simp [MiniAlloc.observe, PMap.insert, he, hq], hn⟩
    · intro b c hc hsn
      rw [since_snoc_iff] at hsn
      rcases hsn with hsn | ⟨hsn, _⟩
      · subst hsn
        rcases hc with hc | hc <;> cases hc
        simp [PMap.Has, hat]
      · have := h.gone b c hc hsn
        by_cases he : b.au = a.au
        · rw [he]; simp [PMap.Has, hat]
        · simpa [PMap.Has, MiniAlloc.observe, PMap.insert, he] using this
  | @prune aus =>
    have hpr : ∀ au, PrunesAu au (Call.prune aus) ↔ aus au := by
      intro au
      constructor
      · rintro ⟨s, hs, h⟩; cases hs; exact h
      · intro h; exact ⟨aus, rfl, h⟩
    have hcase : ∀ au q, (m.prune aus).allocs au = some q → ¬ aus au ∧ m.allocs au = some q := by
      intro au q hq; exact PMap.removeKeys_some.mp hq
    refine ⟨?_, ?_, ?_, ?_, ?_, ?_, ?_, ?_⟩
    · intro au
      rw [since_snoc_iff, hpr]
      have : ¬ AddsAu au (Call.prune aus) := by rintro ⟨s, hs, _⟩; cases hs
      simp only [this, false_or]
      rw [← h.dom au]
      by_cases he : aus au
      · simp [PMap.Has, MiniAlloc.prune, PMap.removeKeys, he]
      · simp [PMap.Has, MiniAlloc.prune, PMap.removeKeys, he]
    · intro au q hq b
      rw [since_snoc_iff, hpr]
      obtain ⟨hn, hq⟩ := hcase au q hq
      simp only [reduceCtorEq, false_or, hn, not_false_eq_true, and_true]
      exact h.res au q hq b
    · intro au q hq b
      rw [since_snoc_iff, hpr]
      obtain ⟨hn, hq⟩ := hcase au q hq
      simp only [reduceCtorEq, false_or, hn, not_false_eq_true, and_true]
      exact h.obs au q hq b
    · intro au q hq; exact h.au au q (hcase au q hq).2
    · intro au q b hq; exact h.sub au q b (hcase au q hq).2
    · intro au q b hq; exact h.wfp au q b (hcase au q hq).2
    · intro au hc
      simp only [MiniAlloc.prune] at hc
      split at hc
      · cases hc
      next hn =>
        obtain ⟨p, hp, hnall⟩ := h.curr au hc
        refine ⟨p, PMap.removeKeys_some.mpr ⟨fun ha => hn ⟨au, hc, ha⟩, hp⟩, hnall⟩
    · intro b c hc hsn
      rw [since_snoc_iff, hpr] at hsn
      rcases hsn with hsn | ⟨hsn, hn⟩
      · subst hsn; rcases hc with hc | hc <;> cases hc
      · have := h.gone b c hc hsn
        simpa [PMap.Has, MiniAlloc.prune, PMap.removeKeys, hn] using this

theorem remembers {g : Geometry} {tr m} (h : (MiniAlloc.machine g).Exec tr m) :
    Remembers g tr m := by
  apply Machine.exec_invariant (I := Remembers g) _ _ h
  · intro m hm
    cases hm
    have hno : ∀ {P Q : Call → Prop}, ¬ Since P Q [] := by
      rintro P Q ⟨t1, e, t2, heq, _⟩; simp at heq
    refine ⟨?_, ?_, ?_, ?_, ?_, ?_, ?_, ?_⟩
    · intro au; exact ⟨fun hc => absurd rfl hc, fun hc => absurd hc hno⟩
    · intro _ _ hp; cases hp
    · intro _ _ hp; cases hp
    · intro _ _ hp; cases hp
    · intro _ _ _ hp; cases hp
    · intro _ _ _ hp; cases hp
    · intro _ hp; cases hp
    · intro _ _ _ hc; exact absurd hc hno
  · intro _ _ _ _ ih hs; exact remembers_step ih hs

/-- A page may be allocated exactly when it is a page of the disk, its unit was added and not
pruned since, and it was not itself allocated since its unit was last pruned. -/
theorem can_allocate_iff {g : Geometry} {tr m} (h : (MiniAlloc.machine g).Exec tr m) (a : Address) :
    m.canAllocate g a ↔ a.wf g ∧ Since (AddsAu a.au) (PrunesAu a.au) tr ∧
      ¬ Since (fun c => c = .allocate a) (PrunesAu a.au) tr := by
  have hr := remembers h
  constructor
  · rintro ⟨p, hp, hw, hau, hn⟩
    refine ⟨hw, (hr.dom _).mp (by simp [PMap.Has, hp]), fun hc => hn (.inr ?_)⟩
    exact (hr.res _ p hp a).mpr ⟨rfl, hc⟩
  · rintro ⟨hw, hadd, hn⟩
    obtain ⟨p, hp⟩ := (PMap.has_iff _ _).mp ((hr.dom _).mpr hadd)
    refine ⟨p, hp, hw, (hr.au _ p hp).symm, ?_⟩
    rintro (hc | hc)
    · exact hn ((hr.res _ p hp a).mp (hr.sub _ p a hp hc)).2
    · exact hn ((hr.res _ p hp a).mp hc).2

/-- The bookkeeping of the set-based allocator: a page is reserved (observed) exactly when it was
allocated (observed) since its unit was last pruned. -/
theorem set_bookkeeping_exact {g : Geometry} {tr m} (h : (MiniAlloc.machine g).Exec tr m) {au p}
    (hp : m.allocs au = some p) (a : Address) :
    (p.reserved a ↔ a.au = au ∧ Since (fun c => c = .allocate a) (PrunesAu au) tr) ∧
    (p.observed a ↔ a.au = au ∧ Since (fun c => c = .observe a) (PrunesAu au) tr) :=
  ⟨(remembers h).res au p hp a, (remembers h).obs au p hp a⟩

/-- The same page is allocated twice only if its unit was pruned in between. -/
theorem set_repeat_needs_prune {g : Geometry} {t u v m a}
    (h : (MiniAlloc.machine g).Exec (t ++ .allocate a :: u ++ .allocate a :: v) m) :
    ∃ c ∈ u, PrunesAu a.au c := by
  obtain ⟨s1, s2, h1, hs⟩ := h.at_index (i := (t ++ Call.allocate a :: u).length)
    (l := .allocate a) (by simp)
  rw [show (t ++ Call.allocate a :: u ++ Call.allocate a :: v).take
    (t ++ Call.allocate a :: u).length = t ++ Call.allocate a :: u from List.take_left] at h1
  cases hs with
  | allocate hc =>
    have := ((can_allocate_iff h1 a).mp hc).2.2
    apply Classical.byContradiction
    intro hn
    exact this ⟨t, _, u, rfl, rfl, fun x hx hpx => hn ⟨x, hx, hpx⟩⟩

/-- The unit marked as current always has a free page. -/
theorem current_has_free {g : Geometry} {tr m} (h : (MiniAlloc.machine g).Exec tr m) {au}
    (hc : m.curr = some au) : ∃ a : Address, a.au = au ∧ m.canAllocate g a := by
  obtain ⟨p, hp, hn⟩ := (remembers h).curr au hc
  have hau := (remembers h).au au p hp
  obtain ⟨a, ha⟩ := Classical.not_forall.mp hn
  obtain ⟨h1, ha⟩ := Classical.not_imp.mp ha
  obtain ⟨h2, h3⟩ := Classical.not_imp.mp ha
  refine ⟨a, by rw [h2, hau], p, by rw [h2, hau]; exact hp, h1, h2, ?_⟩
  rintro (hc | hc)
  · exact h3 (.inr hc)
  · exact h3 (.inl hc)

/-! ### Concrete runs -/

def demoG : IGeometry := ⟨3, 2⟩

/-- unit 1 used up, given back, and used again -/
def demoTrace : List Ev :=
  [.add 1, .allocated ⟨1, 0⟩, .allocated ⟨1, 1⟩, .reserved ⟨1, 2⟩, .prune, .add 1, .allocated ⟨1, 0⟩]

theorem demo_exec : ∃ m, (machine demoG).Exec demoTrace m := by
  suffices h : ∃ m, (machine demoG).Run MA.empty demoTrace m by
    obtain ⟨m, h⟩ := h; exact ⟨m, _, rfl, h⟩
  refine Machine.Run.econs (Next.add rfl (by decide)) <|
    Machine.Run.econs (Next.allocate rfl (by unfold PA.hasFree; decide) rfl rfl) <|
    Machine.Run.econs (Next.allocate rfl (by unfold PA.hasFree; decide) rfl rfl) <|
    Machine.Run.econs (Next.reserve rfl (by unfold PA.hasFree; decide)) <|
    Machine.Run.econs (Next.prune rfl) <|
    Machine.Run.econs (Next.add rfl (by decide)) <|
    Machine.Run.econs (Next.allocate rfl (by unfold PA.hasFree; decide) rfl rfl) <| Machine.Run.enil

/-- when the unit is full: all three pages in the ledger, the last one not observed -/
example : ledger (demoTrace.take 4) =
    some ⟨1, [⟨1, 0⟩, ⟨1, 1⟩, ⟨1, 2⟩], [⟨1, 0⟩, ⟨1, 1⟩]⟩ := by rfl

/-- The set-based allocator on a disk with two units of two pages: both pages of unit 1 are
allocated, the unit is pruned, added, and its first page allocated again. -/
def setDemo : List Call :=
  [.add (fun x => x = 1), .allocate ⟨1, 0⟩, .observe ⟨1, 0⟩, .allocate ⟨1, 1⟩,
   .prune (fun x => x = 1), .add (fun x => x < 2), .allocate ⟨1, 0⟩]

theorem set_demo_exec : ∃ m, (MiniAlloc.machine ⟨2, 2⟩).Exec setDemo m := by
  have h0 : (MiniAlloc.machine ⟨2, 2⟩).Exec [] MiniAlloc.empty := ⟨_, rfl, .nil _⟩
  have h1 := h0.snoc (MiniAlloc.Next.add (aus := fun x => x = 1))
  have s1 : Since (AddsAu 1) (PrunesAu 1) ([] ++ [Call.add (fun x => x = 1)]) :=
    since_snoc_iff.mpr (.inl ⟨_, rfl, rfl⟩)
  have no : ∀ (c : Call) (t : List Call), c ∉ t → ¬ Since (fun x => x = c) (PrunesAu 1) t := by
    rintro c t hn ⟨t1, e, t2, rfl, rfl, _⟩; exact hn (by simp)
  have h2 := h1.snoc (MiniAlloc.Next.allocate (a := ⟨1, 0⟩) ((can_allocate_iff h1 _).mpr
    ⟨⟨by decide, by decide⟩, s1, no _ _ (by simp)⟩))
  have r2 := (set_bookkeeping_exact h2 (au := 1) (p := (PageAlloc.new 1).reserve (fun x => x = ⟨1, 0⟩))
    (by simp [MiniAlloc.allocate, MiniAlloc.addAus, MiniAlloc.empty, PMap.insert]) ⟨1, 0⟩).1.mpr
    ⟨rfl, since_snoc_iff.mpr (.inl rfl)⟩
  have h3 := h2.snoc (MiniAlloc.Next.observe (a := ⟨1, 0⟩) ⟨_,
    by simp [MiniAlloc.allocate, MiniAlloc.addAus, MiniAlloc.empty, PMap.insert], r2⟩)
  have np : ∀ c, (∀ s, c ≠ Call.prune s) → ¬ PrunesAu 1 c := by
    rintro c hc ⟨s, rfl, _⟩; exact hc s rfl
  have s3 := (s1.keep (np (.allocate ⟨1, 0⟩) (by simp))).keep (np (.observe ⟨1, 0⟩) (by simp))
  have h4 := h3.snoc (MiniAlloc.Next.allocate (a := ⟨1, 1⟩) ((can_allocate_iff h3 _).mpr
    ⟨⟨by decide, by decide⟩, s3, no _ _ (by simp)⟩))
  have h5 := h4.snoc (MiniAlloc.Next.prune (aus := fun x => x = 1))
  have h6 := h5.snoc (MiniAlloc.Next.add (aus := fun x => x < 2))
  have h7 := h6.snoc (MiniAlloc.Next.allocate (a := ⟨1, 0⟩) ((can_allocate_iff h6 _).mpr
    ⟨⟨by decide, by decide⟩, since_snoc_iff.mpr (.inl ⟨_, rfl, by decide⟩), by
      rw [since_snoc_iff, since_snoc_iff]
      rintro (hc | ⟨hc | ⟨_, hc⟩, _⟩)
      · cases hc
      · cases hc
      · exact hc ⟨_, rfl, rfl⟩⟩))
  exact ⟨_, h7⟩

end Verif.C29
