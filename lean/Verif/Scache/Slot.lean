import Verif.Scache.Model
import Mathlib.Data.Fintype.Card
import Mathlib.Data.Fintype.Prod
/-
What one slot sees of the clients: each has a role. The invariant of one slot and that it is kept by every
change of status byte, counts and roles that the code makes.
-/
namespace Verif.Scache

/-! ### Bits of the status byte -/

/-- bit `k` of a byte -/
def bit (s : UInt8) (k : Nat) : Bool := s.toBitVec.getLsbD k

@[simp] theorem bit_and (a b : UInt8) (k : Nat) : bit (a &&& b) k = (bit a k && bit b k) := by simp [bit]
@[simp] theorem bit_or (a b : UInt8) (k : Nat) : bit (a ||| b) k = (bit a k || bit b k) := by simp [bit]
@[simp] theorem bit_xor (a b : UInt8) (k : Nat) : bit (a ^^^ b) k = (bit a k ^^ bit b k) := by simp [bit]

theorem eq_of_bit {a b : UInt8} (h : ∀ k, k < 8 → bit a k = bit b k) : a = b := by
  apply UInt8.toBitVec_inj.1
  apply BitVec.eq_of_getLsbD_eq
  intro k hk
  exact h k hk

theorem bit_of_and_ne {a b : UInt8} (h : a &&& b ≠ 0) : ∃ k, k < 8 ∧ bit a k = true ∧ bit b k = true := by
  by_cases g : ∃ k, k < 8 ∧ bit a k = true ∧ bit b k = true
  · exact g
  · refine absurd (eq_of_bit fun k hk => ?_) h
    have : bit 0 k = false := by simp [bit]
    rw [this, bit_and]
    cases ha : bit a k <;> cases hb : bit b k <;> first | rfl | exact absurd ⟨k, hk, ha, hb⟩ g

theorem bit_of_and_eq {a b : UInt8} (h : a &&& b = 0) (k : Nat) (hb : bit b k = true) : bit a k = false := by
  have := bit_and a b k
  rw [h, hb] at this
  have h0 : bit 0 k = false := by simp [bit]
  rw [h0] at this; simpa using this.symm

/-- What is known about a byte: whether a write back is on … -/
abbrev wb (s : UInt8) := bit s 0
/-- … whether some client has or wants it alone … -/
abbrev exc (s : UInt8) := bit s 1
/-- … whether no page is in the slot … -/
abbrev unm (s : UInt8) := bit s 3
/-- … whether a page is being read into it … -/
abbrev rdg (s : UInt8) := bit s 4
/-- … whether it is as on the disk. -/
abbrev cln (s : UInt8) := bit s 5

/-! ### Roles -/

/-- What a client is to one slot. -/
inductive Role
  | out | pend | wait | shared
  | evict (n : Nat) | evictStop | evicted
  | fresh | freshCounted | loading
  | await | visit (n : Nat) | write
  | issue
deriving DecidableEq

/-- It has the bit `exc` or `reading`. -/
def Role.owns : Role → Bool
  | evict _ | evictStop | evicted | fresh | freshCounted | loading | await | visit _ | write => true
  | _ => false
/-- It has the bit `exc`. -/
def Role.hasExc : Role → Bool
  | evict _ | evictStop | evicted | fresh | freshCounted | await | visit _ | write => true
  | _ => false
/-- It has the bit `reading`. -/
def Role.hasReading : Role → Bool
  | fresh | freshCounted | loading => true
  | _ => false
/-- It has passed the check of `is_exc_locked_or_free`. -/
def Role.uses : Role → Bool
  | wait | shared => true
  | _ => false
/-- It is counted in the count of its thread. -/
def Role.counted : Role → Bool
  | pend | wait | shared | freshCounted | loading | await | visit _ | write => true
  | _ => false
/-- It is evicting the page. -/
def Role.evicts : Role → Bool
  | evict _ | evictStop | evicted => true
  | _ => false

/-- A user `u` of thread `t` may be there beside an owner with role `o`. -/
def Beside (o u : Role) (t : Nat) : Prop :=
  match o with
  | .evict n | .visit n => n ≤ t
  | .evicted | .fresh | .freshCounted | .write => False
  | .loading => u = .wait
  | _ => True

/-- The number of clients of thread `t` that are counted. -/
def cnt (f : Client → Bool) (t : Fin numThreads) : Nat := (Finset.univ.filter fun k => f (t, k)).card

theorem cnt_le (f : Client → Bool) (t : Fin numThreads) : cnt f t ≤ 255 := by
  have := Finset.card_le_univ (Finset.univ.filter fun k : Fin numClients => f (t, k))
  simpa [cnt] using this

theorem cnt_congr {f g : Client → Bool} (t : Fin numThreads) (h : ∀ k, f (t, k) = g (t, k)) : cnt f t = cnt g t := by
  simp [cnt, h]

theorem cnt_update_ne (f : Client → Bool) (i : Client) (b : Bool) {t : Fin numThreads} (h : t ≠ i.1) :
    cnt (Function.update f i b) t = cnt f t := by
  refine cnt_congr t fun k => Function.update_of_ne ?_ _ _
  rintro rfl; exact h rfl

theorem cnt_update_true (f : Client → Bool) (i : Client) (h : f i = false) :
    cnt (Function.update f i true) i.1 = cnt f i.1 + 1 := by
  unfold cnt
  rw [← Finset.card_insert_of_notMem (a := i.2) (s := Finset.univ.filter fun k => f (i.1, k)) (by simp [h])]
  congr 1
  ext k
  by_cases hk : k = i.2
  · subst hk; simp
  · have : (i.1, k) ≠ i := fun e => hk (by rw [← e])
    simp [Function.update_of_ne this, hk]

theorem cnt_update_false (f : Client → Bool) (i : Client) (h : f i = true) :
    cnt (Function.update f i false) i.1 + 1 = cnt f i.1 := by
  have := cnt_update_true (Function.update f i false) i (by simp)
  rw [Function.update_idem, ← h, Function.update_eq_self] at this
  exact this.symm

theorem cnt_pos {f : Client → Bool} {i : Client} (h : f i = true) : 0 < cnt f i.1 :=
  Finset.card_pos.2 ⟨i.2, by simp [h]⟩

theorem cnt_one {f : Client → Bool} {i j : Client} (h : f i = true) (hj : f j = true) (e : i.1 = j.1)
    (h1 : cnt f i.1 = 1) : i = j := by
  obtain ⟨k, hk⟩ := Finset.card_eq_one.1 h1
  have a : i.2 ∈ Finset.univ.filter fun k => f (i.1, k) := by simp [h]
  have b : j.2 ∈ Finset.univ.filter fun k => f (i.1, k) := by rw [e]; simp [hj]
  rw [hk] at a b
  exact Prod.ext e ((Finset.mem_singleton.1 a).trans (Finset.mem_singleton.1 b).symm)

/-- The counts of the threads are exact. -/
def CountOk (rc : Fin numThreads → UInt8) (r : Client → Role) : Prop :=
  ∀ t, rc t = UInt8.ofNat (cnt (fun j => (r j).counted) t)

theorem counted_update (r : Client → Role) (i : Client) (r' : Role) :
    (fun j => (Function.update r i r' j).counted) = Function.update (fun j => (r j).counted) i r'.counted := by
  funext j
  by_cases h : j = i
  · subst h; simp
  · simp [Function.update_of_ne h]

theorem CountOk.same {rc : Fin numThreads → UInt8} {r : Client → Role} (h : CountOk rc r) {i : Client} {r' : Role}
    (e : r'.counted = (r i).counted) : CountOk rc (Function.update r i r') := by
  intro t
  rw [counted_update, e, Function.update_eq_self]; exact h t

theorem CountOk.inc {rc : Fin numThreads → UInt8} {r : Client → Role} (h : CountOk rc r) {i : Client} {r' : Role}
    (h0 : (r i).counted = false) (e : r'.counted = true) :
    CountOk (Function.update rc i.1 (rc i.1 + 1)) (Function.update r i r') := by
  intro t
  rw [counted_update, e]
  by_cases ht : t = i.1
  · subst ht
    rw [cnt_update_true _ _ h0, Function.update_self, h i.1]; simp
  · rw [cnt_update_ne _ _ _ ht, Function.update_of_ne ht]; exact h t

theorem CountOk.dec {rc : Fin numThreads → UInt8} {r : Client → Role} (h : CountOk rc r) {i : Client} {r' : Role}
    (h0 : (r i).counted = true) (e : r'.counted = false) :
    CountOk (Function.update rc i.1 (rc i.1 - 1)) (Function.update r i r') := by
  intro t
  rw [counted_update, e]
  by_cases ht : t = i.1
  · subst ht
    rw [Function.update_self, h i.1, ← cnt_update_false _ _ h0]; simp
  · rw [cnt_update_ne _ _ _ ht, Function.update_of_ne ht]; exact h t

theorem CountOk.nat {rc : Fin numThreads → UInt8} {r : Client → Role} (h : CountOk rc r) (t) :
    (rc t).toNat = cnt (fun j => (r j).counted) t := by
  rw [h t]; simp [UInt8.toNat_ofNat']; have := cnt_le (fun j => (r j).counted) t; omega

/-- The invariant of one slot, of which the status has the bits `w`(riteback), `e`(xc), `u`(nmapped),
`g` (reading) and `c`(lean), and a write back is on at the disk if `fl`; `r` are the roles of the clients, `o` is
the client that owns it and `q` the one that starts a write back. -/
structure SlotInv {K : Type} (thr : K → Nat) (w e u g c fl : Bool) (r : K → Role) (o q : Option K) : Prop where
  own : ∀ i, (r i).owns = true ↔ o = some i
  exc : ∀ i, o = some i → e = (r i).hasExc
  reading : ∀ i, o = some i → g = (r i).hasReading
  idle : o = none → e = false ∧ g = false
  unmO : u = true → o = none
  unmU : u = true → ∀ i, (r i).uses = false
  unmW : u = true → w = false
  iss : ∀ i, r i = .issue ↔ q = some i
  wb : ∀ i, q = some i → fl = false ∧ w = true
  wbF : q = none → w = fl
  wbC : w = true → c = false
  wbO : w = true → ∀ i, o = some i → r i = .await
  clean : ∀ i, (r i).evicts = true → c = true
  beside : ∀ i j, o = some i → (r j).uses = true → Beside (r i) (r j) (thr j)

namespace SlotInv
variable {K : Type} [DecidableEq K] {thr : K → Nat} {w e u g c fl : Bool} {r : K → Role} {o q : Option K} {i : K}

macro "slot_grind" : tactic =>
  `(tactic| grind (splits := 20) [Function.update, Role.owns, Role.hasExc, Role.hasReading, Role.uses,
      Role.evicts, Beside])

omit [DecidableEq K] in
theorem no_owner (h : SlotInv thr w e u g c fl r o q) (he : e = false) (hg : g = false) : o = none := by
  cases ho : o with
  | none => rfl
  | some j =>
    have h1 := h.own j
    have h2 := h.exc j ho
    have h3 := h.reading j ho
    cases hj : r j <;> grind [Role.owns, Role.hasExc, Role.hasReading]

omit [DecidableEq K] in
theorem no_issue (h : SlotInv thr w e u g c fl r o q) (hw : w = false) : q = none ∧ fl = false := by
  cases hq : q with
  | none => have := h.wbF hq; grind
  | some j => have := h.wb j hq; grind

macro "slot_tac" : tactic =>
  `(tactic| (constructor <;> first
      | slot_grind
      | (intro j; cases hj : r j <;> slot_grind)
      | (intro a' j; cases hj : r j <;> slot_grind)
      | (intro j k; cases hj : r j <;> cases hk : r k <;> slot_grind)))

theorem inc (h : SlotInv thr w e u g c fl r o q) (a : r i = .out) :
    SlotInv thr w e u g c fl (Function.update r i .pend) o q := by
  obtain ⟨h1, h2, h3, h4, h5, h6, h7, h8, h9, h10, h11, h12, h13, h14⟩ := h
  slot_tac

theorem check (h : SlotInv thr w e u g c fl r o q) (a : r i = .pend) (he : e = false) (hu : u = false) :
    SlotInv thr w e u g c fl (Function.update r i .wait) o q := by
  obtain ⟨h1, h2, h3, h4, h5, h6, h7, h8, h9, h10, h11, h12, h13, h14⟩ := h
  slot_tac

theorem waited (h : SlotInv thr w e u g c fl r o q) (a : r i = .wait) (hg : g = false) :
    SlotInv thr w e u g c fl (Function.update r i .shared) o q := by
  obtain ⟨h1, h2, h3, h4, h5, h6, h7, h8, h9, h10, h11, h12, h13, h14⟩ := h
  slot_tac

theorem leave (h : SlotInv thr w e u g c fl r o q) (a : r i = .pend ∨ r i = .shared) :
    SlotInv thr w e u g c fl (Function.update r i .out) o q := by
  obtain ⟨h1, h2, h3, h4, h5, h6, h7, h8, h9, h10, h11, h12, h13, h14⟩ := h
  slot_tac

theorem alloc (h : SlotInv thr w e u g c fl r o q) (a : r i = .out) (hu : u = true)  :
    SlotInv thr false true false true false fl (Function.update r i .fresh) (some i) q := by
  obtain ⟨h1, h2, h3, h4, h5, h6, h7, h8, h9, h10, h11, h12, h13, h14⟩ := h
  slot_tac

theorem unalloc (h : SlotInv thr w e u g c fl r o q) (a : r i = .fresh) :
    SlotInv thr false false true false false fl (Function.update r i .out) none q := by
  obtain ⟨h1, h2, h3, h4, h5, h6, h7, h8, h9, h10, h11, h12, h13, h14⟩ := h
  slot_tac

theorem incReading (h : SlotInv thr w e u g c fl r o q) (a : r i = .fresh) :
    SlotInv thr w e u g c fl (Function.update r i .freshCounted) o q := by
  obtain ⟨h1, h2, h3, h4, h5, h6, h7, h8, h9, h10, h11, h12, h13, h14⟩ := h
  slot_tac

theorem clearExc (h : SlotInv thr w e u g c fl r o q) (a : r i = .freshCounted) :
    SlotInv thr false false false true true fl (Function.update r i .loading) o q := by
  obtain ⟨h1, h2, h3, h4, h5, h6, h7, h8, h9, h10, h11, h12, h13, h14⟩ := h
  slot_tac

theorem fin (h : SlotInv thr w e u g c fl r o q) (a : r i = .loading) :
    SlotInv thr w e u false c fl (Function.update r i .shared) none q := by
  obtain ⟨h1, h2, h3, h4, h5, h6, h7, h8, h9, h10, h11, h12, h13, h14⟩ := h
  slot_tac

theorem evTake (h : SlotInv thr w e u g c fl r o q) (a : r i = .out) (hw : w = false) (he : e = false) (hg : g = false) (hc : c = true) :
    SlotInv thr false true false false true fl (Function.update r i (.evict 0)) (some i) q := by
  obtain ⟨h1, h2, h3, h4, h5, h6, h7, h8, h9, h10, h11, h12, h13, h14⟩ := h
  slot_tac

theorem visitStep (h : SlotInv thr w e u g c fl r o q) (n : Nat) (a : r i = .evict n) (hn : ∀ j, (r j).uses = true → thr j ≠ n) :
    SlotInv thr w e u g c fl (Function.update r i (.evict (n + 1))) o q := by
  obtain ⟨h1, h2, h3, h4, h5, h6, h7, h8, h9, h10, h11, h12, h13, h14⟩ := h
  slot_tac

theorem visitFail (h : SlotInv thr w e u g c fl r o q) (n : Nat) (a : r i = .evict n) :
    SlotInv thr w e u g c fl (Function.update r i .evictStop) o q := by
  obtain ⟨h1, h2, h3, h4, h5, h6, h7, h8, h9, h10, h11, h12, h13, h14⟩ := h
  slot_tac

theorem abandon (h : SlotInv thr w e u g c fl r o q) (a : r i = .evictStop) :
    SlotInv thr w false u g c fl (Function.update r i .out) none q := by
  obtain ⟨h1, h2, h3, h4, h5, h6, h7, h8, h9, h10, h11, h12, h13, h14⟩ := h
  slot_tac

theorem visited (h : SlotInv thr w e u g c fl r o q) (n : Nat) (a : r i = .evict n) (hn : ∀ j, thr j < n) :
    SlotInv thr w e u g c fl (Function.update r i .evicted) o q := by
  obtain ⟨h1, h2, h3, h4, h5, h6, h7, h8, h9, h10, h11, h12, h13, h14⟩ := h
  slot_tac

theorem free (h : SlotInv thr w e u g c fl r o q) (a : r i = .evicted) :
    SlotInv thr false false true false false fl (Function.update r i .out) none q := by
  obtain ⟨h1, h2, h3, h4, h5, h6, h7, h8, h9, h10, h11, h12, h13, h14⟩ := h
  slot_tac

theorem writeback (h : SlotInv thr w e u g c fl r o q) (hw : w = false) (he : e = false) (hg : g = false) (hc : c = false) :
    SlotInv thr true false false false false fl (Function.update r i .issue) o (some i) := by
  have ho := h.no_owner he hg
  have hq := h.no_issue hw
  obtain ⟨h1, h2, h3, h4, h5, h6, h7, h8, h9, h10, h11, h12, h13, h14⟩ := h
  slot_tac

theorem issued (h : SlotInv thr w e u g c fl r o q) (a : r i = .issue) :
    SlotInv thr w e u g c true (Function.update r i .out) o none := by
  obtain ⟨h1, h2, h3, h4, h5, h6, h7, h8, h9, h10, h11, h12, h13, h14⟩ := h
  slot_tac

omit [DecidableEq K] in
theorem released (h : SlotInv thr w e u g c fl r o q) (a : fl = true) :
    SlotInv thr false e u g true false r o q := by
  obtain ⟨h1, h2, h3, h4, h5, h6, h7, h8, h9, h10, h11, h12, h13, h14⟩ := h
  slot_tac

theorem upgrade (h : SlotInv thr w e u g c fl r o q) (a : r i = .shared) (he : e = false) :
    SlotInv thr w true u g c fl (Function.update r i .await) (some i) q := by
  have hg : g = false := by
    cases hg : g with
    | false => rfl
    | true =>
      cases ho : o with
      | none => have := h.idle ho; grind
      | some j =>
        have h1 := h.own j
        have h2 := h.exc j ho
        have h4 := h.beside j i ho
        cases hj : r j <;> grind [Role.owns, Role.hasExc, Role.uses, Beside]
  have ho := h.no_owner he hg
  obtain ⟨h1, h2, h3, h4, h5, h6, h7, h8, h9, h10, h11, h12, h13, h14⟩ := h
  slot_tac

theorem awaited (h : SlotInv thr w e u g c fl r o q) (a : r i = .await) (hw : w = false) :
    SlotInv thr w e u g c fl (Function.update r i (.visit 0)) o q := by
  obtain ⟨h1, h2, h3, h4, h5, h6, h7, h8, h9, h10, h11, h12, h13, h14⟩ := h
  slot_tac

theorem visitExc (h : SlotInv thr w e u g c fl r o q) (n : Nat) (a : r i = .visit n) (hn : ∀ j, (r j).uses = true → thr j ≠ n) :
    SlotInv thr w e u g c fl (Function.update r i (.visit (n + 1))) o q := by
  obtain ⟨h1, h2, h3, h4, h5, h6, h7, h8, h9, h10, h11, h12, h13, h14⟩ := h
  slot_tac

theorem visitedExc (h : SlotInv thr w e u g c fl r o q) (n : Nat) (a : r i = .visit n) (hn : ∀ j, thr j < n) :
    SlotInv thr w e u g c fl (Function.update r i .write) o q := by
  obtain ⟨h1, h2, h3, h4, h5, h6, h7, h8, h9, h10, h11, h12, h13, h14⟩ := h
  slot_tac

theorem downgrade (h : SlotInv thr w e u g c fl r o q) (a : r i = .write) :
    SlotInv thr w false u g false fl (Function.update r i .shared) none q := by
  obtain ⟨h1, h2, h3, h4, h5, h6, h7, h8, h9, h10, h11, h12, h13, h14⟩ := h
  slot_tac

end SlotInv
end Verif.Scache
