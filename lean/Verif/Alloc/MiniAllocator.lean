import Verif.Disk.AsyncDisk
/-
The page allocators: the set-based one (Splinter/src/allocation_layer/MiniAllocator_v.rs) and the
executable one (Splinter/src/exec/MiniAllocator_v.rs).
-/
namespace Verif

/-- allocation_layer/MiniAllocator_v.rs 12-16 `PageAllocator` -/
structure PageAlloc where
  observed : PSet Address
  reserved : PSet Address
  au : Nat

namespace PageAlloc

/-- allocation_layer/MiniAllocator_v.rs 21-23 -/
def new (au : Nat) : PageAlloc := ⟨fun _ => False, fun _ => False, au⟩

/-- allocation_layer/MiniAllocator_v.rs 25-36 -/
def wf (g : Geometry) (p : PageAlloc) : Prop :=
  (∀ a, p.observed a → a.wf g ∧ a.au = p.au) ∧ (∀ a, p.reserved a → a.wf g ∧ a.au = p.au)

/-- allocation_layer/MiniAllocator_v.rs 38-42 -/
def isFree (g : Geometry) (p : PageAlloc) (a : Address) : Prop :=
  a.wf g ∧ a.au = p.au ∧ ¬ (p.observed a ∨ p.reserved a)

/-- allocation_layer/MiniAllocator_v.rs 45-52 -/
def reserve (p : PageAlloc) (s : PSet Address) : PageAlloc :=
  { p with reserved := fun a => p.reserved a ∨ s a }

/-- allocation_layer/MiniAllocator_v.rs 55-62 -/
def unreserve (p : PageAlloc) (s : PSet Address) : PageAlloc :=
  { p with reserved := fun a => p.reserved a ∧ ¬ s a }

/-- allocation_layer/MiniAllocator_v.rs 64-71 -/
def observe (p : PageAlloc) (s : PSet Address) : PageAlloc :=
  { p with observed := fun a => p.observed a ∨ s a }

/-- allocation_layer/MiniAllocator_v.rs 93-100 -/
def unobserve (p : PageAlloc) (s : PSet Address) : PageAlloc :=
  { p with observed := fun a => p.observed a ∧ ¬ s a }

/-- allocation_layer/MiniAllocator_v.rs 110-116 -/
def free (p : PageAlloc) (s : PSet Address) : PageAlloc :=
  { p with observed := fun a => p.observed a ∧ ¬ s a, reserved := fun a => p.reserved a ∧ ¬ s a }

/-- allocation_layer/MiniAllocator_v.rs 122-124 -/
def noRefs (p : PageAlloc) : Prop := ∀ a, ¬ p.reserved a

/-- allocation_layer/MiniAllocator_v.rs 126-130 -/
def allAllocated (g : Geometry) (p : PageAlloc) : Prop :=
  ∀ a : Address, a.wf g → a.au = p.au → p.reserved a ∨ p.observed a

end PageAlloc

/-- allocation_layer/MiniAllocator_v.rs 138-141 `MiniAllocator` -/
structure MiniAlloc where
  allocs : PMap Nat PageAlloc
  curr : Option Nat

namespace MiniAlloc

/-- allocation_layer/MiniAllocator_v.rs 144-146 -/
def empty : MiniAlloc := ⟨PMap.empty, none⟩

/-- allocation_layer/MiniAllocator_v.rs 148-151 -/
def wf (g : Geometry) (m : MiniAlloc) : Prop :=
  (∀ au p, m.allocs au = some p → p.wf g ∧ p.au = au) ∧
    ∀ au, m.curr = some au → m.allocs.Has au

open Classical in
/-- allocation_layer/MiniAllocator_v.rs 153-162 -/
noncomputable def addAus (m : MiniAlloc) (aus : PSet Nat) : MiniAlloc :=
  { m with allocs := fun au => match m.allocs au with
      | some p => some p
      | none => if aus au then some (PageAlloc.new au) else none }

/-- allocation_layer/MiniAllocator_v.rs 166-169 -/
def canRemove (m : MiniAlloc) (au : Nat) : Prop := ∃ p, m.allocs au = some p ∧ p.noRefs

/-- allocation_layer/MiniAllocator_v.rs 177-181 -/
def canAllocate (g : Geometry) (m : MiniAlloc) (a : Address) : Prop :=
  ∃ p, m.allocs a.au = some p ∧ p.isFree g a

open Classical in
/-- allocation_layer/MiniAllocator_v.rs 183-191. Outside `can_allocate` (a `recommends`) the
source reserves in an unspecified allocator; here a new one. -/
noncomputable def allocate (g : Geometry) (m : MiniAlloc) (a : Address) : MiniAlloc :=
  let r := ((m.allocs a.au).getD (PageAlloc.new a.au)).reserve (fun x => x = a)
  { allocs := m.allocs.insert a.au r
    curr := if r.allAllocated g then none else some a.au }

/-- allocation_layer/MiniAllocator_v.rs 193-201 -/
def observe (m : MiniAlloc) (a : Address) : MiniAlloc :=
  let r := ((m.allocs a.au).getD (PageAlloc.new a.au)).observe (fun x => x = a)
  { m with allocs := m.allocs.insert a.au r }

open Classical in
/-- allocation_layer/MiniAllocator_v.rs 203-217 -/
noncomputable def prune (m : MiniAlloc) (aus : PSet Nat) : MiniAlloc :=
  { allocs := m.allocs.removeKeys aus
    curr := if ∃ au, m.curr = some au ∧ aus au then none else m.curr }

/-- allocation_layer/MiniAllocator_v.rs 219-223 -/
def pageIsReserved (m : MiniAlloc) (a : Address) : Prop :=
  ∃ p, m.allocs a.au = some p ∧ p.reserved a

/-- The calls the layers above make, with the `recommends` of each function as its guard and the
address handed out as the label. -/
inductive Call
  | add (aus : PSet Nat)
  | allocate (a : Address)
  | observe (a : Address)
  | prune (aus : PSet Nat)

inductive Next (g : Geometry) : MiniAlloc → Call → MiniAlloc → Prop
  | add {m aus} : Next g m (.add aus) (m.addAus aus)
  | allocate {m a} (h : m.canAllocate g a) : Next g m (.allocate a) (m.allocate g a)
  | observe {m a} (h : m.pageIsReserved a) : Next g m (.observe a) (m.observe a)
  | prune {m aus} : Next g m (.prune aus) (m.prune aus)

noncomputable def machine (g : Geometry) : Machine MiniAlloc Call := ⟨fun m => m = empty, Next g⟩

end MiniAlloc

/-! ### The executable allocator -/

namespace ExecAlloc

/-- spec/ImplDisk_t.rs 21-24 `IAddress` (`IAU = IPage = u32`, 17-19) -/
structure IAddress where
  au : UInt32
  page : UInt32

/-- spec/ImplDisk_t.rs 33-35 -/
def IAddress.view (a : IAddress) : Address := ⟨a.au.toNat, a.page.toNat⟩

/-- spec/ImplDisk_t.rs 26-30: the number of pages per unit and of units, as `u32` -/
structure IGeometry where
  pages : UInt32
  aus : UInt32

/-- spec/ImplDisk_t.rs 43-52: the two axioms relating the geometries -/
def IGeometry.view (g : IGeometry) : Geometry := ⟨g.pages.toNat, g.aus.toNat⟩

/-- exec/MiniAllocator_v.rs 16-20 `PageAllocator` -/
structure PA where
  observed : UInt32
  reserved : UInt32
  au : UInt32

/-- disk/GenericDisk_v.rs 216-222 `addr_range` -/
def addrRange (au s e : UInt32) : PSet Address :=
  fun a => a.au = au.toNat ∧ s.toNat ≤ a.page ∧ a.page < e.toNat

namespace PA

/-- exec/MiniAllocator_v.rs 22-33 -/
def view (p : PA) : PageAlloc :=
  ⟨addrRange p.au 0 p.observed, addrRange p.au 0 p.reserved, p.au.toNat⟩

/-- exec/MiniAllocator_v.rs 36-41 -/
def new (au : UInt32) : PA := ⟨0, 0, au⟩

/-- exec/MiniAllocator_v.rs 49-51 -/
def hasFree (g : IGeometry) (p : PA) : Prop := p.reserved ≠ g.pages

/-- exec/MiniAllocator_v.rs 53-55 -/
def noUnobserved (p : PA) : Prop := p.reserved = p.observed

/-- exec/MiniAllocator_v.rs 58-73; `+` is the machine addition, which wraps (the source adds
under a proof that it does not) -/
def reserve (p : PA) : IAddress × PA :=
  (⟨p.au, p.reserved⟩, { p with reserved := p.reserved + 1 })

/-- exec/MiniAllocator_v.rs 75-85 -/
def observeAll (p : PA) : PA := { p with observed := p.reserved }

end PA

/-- exec/MiniAllocator_v.rs 99-101 `MiniAllocator` -/
structure MA where
  allocs : Option PA

namespace MA

open Classical in
/-- exec/MiniAllocator_v.rs 103-117 -/
noncomputable def view (g : IGeometry) (m : MA) : MiniAlloc :=
  match m.allocs with
  | some p =>
    { allocs := PMap.empty.insert p.au.toNat p.view
      curr := if p.hasFree g then some p.au.toNat else none }
  | none => MiniAlloc.empty

/-- exec/MiniAllocator_v.rs 120-122 -/
def empty : MA := ⟨none⟩

/-- exec/MiniAllocator_v.rs 128-137 -/
def addAus (_ : MA) (au : UInt32) : MA := ⟨some (PA.new au)⟩

/-- exec/MiniAllocator_v.rs 140-183: reserve the next page and mark everything observed. `none`
when there is no allocator (the source unwraps). -/
def allocateAndObserve (m : MA) : Option (IAddress × MA) :=
  match m.allocs with
  | none => none
  | some p => some ((p.reserve).1, ⟨some (p.reserve).2.observeAll⟩)

/-- exec/MiniAllocator_v.rs 185-195 -/
def prune (_ : MA) : MA := ⟨none⟩

end MA

/-- What a client sees: the calls, with the address handed out. -/
inductive Ev
  | add (au : UInt32)
  | allocated (a : IAddress)
  | reserved (a : IAddress)
  | observeAll
  | prune

/-- Calls of the executable allocator, guarded by their `requires` clauses. `reserved` and
`observeAll` are the calls on the inner `PageAllocator`. -/
inductive Next (g : IGeometry) : MA → Ev → MA → Prop
  /-- exec/MiniAllocator_v.rs 128-133 -/
  | add {m : MA} {au} (hn : m.allocs = none) (hau : au < g.aus) : Next g m (.add au) (m.addAus au)
  /-- exec/MiniAllocator_v.rs 140-146 -/
  | allocate {m : MA} {p a m'} (hp : m.allocs = some p) (hf : p.hasFree g) (hu : p.noUnobserved)
      (h : m.allocateAndObserve = some (a, m')) : Next g m (.allocated a) m'
  /-- exec/MiniAllocator_v.rs 58-61 -/
  | reserve {m : MA} {p} (hp : m.allocs = some p) (hf : p.hasFree g) :
      Next g m (.reserved p.reserve.1) ⟨some p.reserve.2⟩
  /-- exec/MiniAllocator_v.rs 75-76 -/
  | observeAll {m : MA} {p} (hp : m.allocs = some p) :
      Next g m .observeAll ⟨some p.observeAll⟩
  /-- exec/MiniAllocator_v.rs 185-188 -/
  | prune {m : MA} {p} (hp : m.allocs = some p) : Next g m .prune m.prune

/-- All call sequences from the empty allocator. -/
def machine (g : IGeometry) : Machine MA Ev := ⟨fun m => m = MA.empty, Next g⟩

/-! ### The ledger: what was handed out (no code is modelled here) -/

/-- the unit in use, the addresses handed out from it in order, and those marked observed -/
structure Ledger where
  au : UInt32
  out : List Address
  seen : List Address

/-- bookkeeping by hand of one event -/
def Ledger.step : Option Ledger → Ev → Option Ledger
  | _, .add au => some ⟨au, [], []⟩
  | some l, .allocated a => some ⟨l.au, l.out ++ [a.view], l.out ++ [a.view]⟩
  | some l, .reserved a => some ⟨l.au, l.out ++ [a.view], l.seen⟩
  | some l, .observeAll => some ⟨l.au, l.out, l.out⟩
  | _, .prune => none
  | none, _ => none

/-- the ledger after a sequence of events -/
def ledger (tr : List Ev) : Option Ledger := tr.foldl Ledger.step none

/-- the first `n` pages of a unit -/
def firstPages (au : UInt32) (n : Nat) : List Address := (List.range n).map (fun i => ⟨au.toNat, i⟩)

theorem mem_firstPages {au n a} : a ∈ firstPages au n ↔ a.au = au.toNat ∧ a.page < n := by
  simp only [firstPages, List.mem_map, List.mem_range]
  constructor
  · rintro ⟨i, hi, rfl⟩; exact ⟨rfl, hi⟩
  · rintro ⟨h1, h2⟩; exact ⟨a.page, h2, by cases a; simp_all⟩

theorem nodup_firstPages (au : UInt32) (n : Nat) : (firstPages au n).Nodup := by
  unfold firstPages
  rw [List.nodup_iff_pairwise_ne, List.pairwise_map]
  exact (List.nodup_iff_pairwise_ne.mp List.nodup_range).imp (fun h hc => h (by simpa using hc))

theorem firstPages_succ (au : UInt32) (n : Nat) :
    firstPages au (n + 1) = firstPages au n ++ [⟨au.toNat, n⟩] := by
  simp [firstPages, List.range_succ]

/-- Allocator and ledger agree. -/
structure Agree (g : IGeometry) (p : PA) (l : Ledger) : Prop where
  au : l.au = p.au
  auLt : p.au < g.aus
  le : p.observed.toNat ≤ p.reserved.toNat
  bound : p.reserved.toNat ≤ g.pages.toNat
  out : l.out = firstPages p.au p.reserved.toNat
  seen : l.seen = firstPages p.au p.observed.toNat

def AgreeOpt (g : IGeometry) : Option PA → Option Ledger → Prop
  | none, none => True
  | some p, some l => Agree g p l
  | _, _ => False

theorem reserve_succ {g : IGeometry} {p : PA} (hb : p.reserved.toNat ≤ g.pages.toNat)
    (hf : p.hasFree g) : (p.reserved + 1).toNat = p.reserved.toNat + 1 ∧
      p.reserved.toNat < g.pages.toNat := by
  have hne : p.reserved.toNat ≠ g.pages.toNat := fun hc => hf (UInt32.toNat_inj.mp hc)
  have hlt := g.pages.toNat_lt
  have : p.reserved.toNat < g.pages.toNat := by omega
  refine ⟨?_, this⟩
  rw [UInt32.toNat_add]
  simp
  omega

theorem agree_step {g : IGeometry} {m e m' l} (h : AgreeOpt g m.allocs l) (hs : Next g m e m') :
    AgreeOpt g m'.allocs (Ledger.step l e) := by
  cases hs with
  | @add au hn hau =>
    show Agree g (PA.new au) ⟨au, [], []⟩
    exact ⟨rfl, hau, Nat.le_refl _, Nat.zero_le _, rfl, rfl⟩
  | @allocate p a _ hp hf hu hc =>
    simp only [MA.allocateAndObserve, hp, Option.some.injEq, Prod.mk.injEq] at hc
    obtain ⟨rfl, rfl⟩ := hc
    rw [hp] at h
    cases l with
    | none => exact h.elim
    | some l =>
      have h : Agree g p l := h
      obtain ⟨h1, h2⟩ := reserve_succ h.bound hf
      have ho : l.out ++ [(PA.reserve p).1.view] = firstPages p.au (p.reserved + 1).toNat := by
        rw [h1, firstPages_succ, h.out]; rfl
      exact ⟨h.au, h.auLt, Nat.le_refl _, by show (p.reserved + 1).toNat ≤ _; omega, ho, ho⟩
  | @reserve p hp hf =>
    rw [hp] at h
    cases l with
    | none => exact h.elim
    | some l =>
      have h : Agree g p l := h
      obtain ⟨h1, h2⟩ := reserve_succ h.bound hf
      have hle := h.le
      have ho : l.out ++ [(PA.reserve p).1.view] = firstPages p.au (p.reserved + 1).toNat := by
        rw [h1, firstPages_succ, h.out]; rfl
      exact ⟨h.au, h.auLt, by show p.observed.toNat ≤ (p.reserved + 1).toNat; omega,
        by show (p.reserved + 1).toNat ≤ _; omega, ho, h.seen⟩
  | @observeAll p hp =>
    rw [hp] at h
    cases l with
    | none => exact h.elim
    | some l =>
      have h : Agree g p l := h
      exact ⟨h.au, h.auLt, Nat.le_refl _, h.bound, h.out, h.out⟩
  | @prune p hp =>
    show AgreeOpt g none _
    cases l <;> trivial

theorem agree {g : IGeometry} {tr m} (h : (machine g).Exec tr m) :
    AgreeOpt g m.allocs (ledger tr) := by
  apply Machine.exec_invariant (I := fun tr m => AgreeOpt g m.allocs (ledger tr)) _ _ h
  · intro m hm; cases hm; trivial
  · intro tr m e m' ih hs
    have := agree_step ih hs
    simpa [ledger] using this

end ExecAlloc
end Verif
