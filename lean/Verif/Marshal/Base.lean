import Verif.Base.Trace
/-
Bytes, slices, machine arithmetic and the `Marshal` trait
(Splinter/src/marshalling/{Slice_v,Marshalling_v,UniformSized_v}.rs).

`Vec<u8>` is a list of bytes, `usize` is a natural number with checked 64-bit arithmetic
(`usize64_workaround`, IntegerMarshalling_v.rs 327-331). Executable functions run in `Exec`: a
failed bounds check, overflow, division by zero, `unwrap` of `None` or refused allocation panics.
A function that mutates a vector returns the new vector.
-/
namespace Verif.Marshal

abbrev Bytes := List UInt8

/-- The outcome of executable code. -/
inductive Exec (α : Type) where
  | ok (a : α)
  | panic
deriving DecidableEq

namespace Exec
def bind {α β : Type} : Exec α → (α → Exec β) → Exec β
  | ok a, f => f a
  | panic, _ => panic
instance : Monad Exec where
  pure := ok
  bind := bind
@[simp] theorem ok_bind {α β : Type} (a : α) (f : α → Exec β) : (Exec.ok a >>= f) = f a := rfl
@[simp] theorem panic_bind {α β : Type} (f : α → Exec β) : ((Exec.panic : Exec α) >>= f) = panic :=
  rfl
@[simp] theorem pure_eq {α : Type} (a : α) : (pure a : Exec α) = ok a := rfl
end Exec

/-! ### usize arithmetic and vector access (Rust semantics) -/

/-- `usize::MAX` -/
def usizeMax : Nat := 2 ^ 64 - 1
/-- `a + b` -/
def uadd (a b : Nat) : Exec Nat := if a + b ≤ usizeMax then .ok (a + b) else .panic
/-- `a - b` -/
def usub (a b : Nat) : Exec Nat := if b ≤ a then .ok (a - b) else .panic
/-- `a * b` -/
def umul (a b : Nat) : Exec Nat := if a * b ≤ usizeMax then .ok (a * b) else .panic
/-- `a / b` -/
def udiv (a b : Nat) : Exec Nat := if 0 < b then .ok (a / b) else .panic
/-- `v.set(i, x)` -/
def vset (d : Bytes) (i : Nat) (x : UInt8) : Exec Bytes :=
  if i < d.length then .ok (d.set i x) else .panic
/-- `v[i]` -/
def vget {α : Type} (l : List α) (i : Nat) : Exec α :=
  match l[i]? with
  | some a => .ok a
  | none => .panic
/-- `o.unwrap()` -/
def unwrap {α : Type} : Option α → Exec α
  | some a => .ok a
  | none => .panic
/-- `Vec::with_capacity(n)`, refused when the allocator cannot provide `mem` elements. -/
def withCapacity (mem n : Nat) : Exec Unit := if n ≤ mem then .ok () else .panic

theorem uadd_ok {a b : Nat} (h : a + b ≤ usizeMax) : uadd a b = .ok (a + b) := if_pos h
theorem usub_ok {a b : Nat} (h : b ≤ a) : usub a b = .ok (a - b) := if_pos h
theorem umul_ok {a b : Nat} (h : a * b ≤ usizeMax) : umul a b = .ok (a * b) := if_pos h
theorem udiv_ok {a b : Nat} (h : 0 < b) : udiv a b = .ok (a / b) := if_pos h
theorem vset_ok {d : Bytes} {i : Nat} {x} (h : i < d.length) : vset d i x = .ok (d.set i x) :=
  if_pos h
theorem vget_ok {α : Type} {l : List α} {i : Nat} {a} (h : l[i]? = some a) : vget l i = .ok a := by
  unfold vget; rw [h]
theorem withCapacity_ok {mem n : Nat} (h : n ≤ mem) : withCapacity mem n = .ok () := if_pos h

/-- `d.subrange(a, b)`; out of range the Rust term is unspecified, here it is what there is. -/
def sub (d : Bytes) (a b : Nat) : Bytes := (d.take b).drop a

theorem length_sub (d : Bytes) (a b : Nat) : (sub d a b).length = min b d.length - a := by
  simp [sub]

theorem length_sub' {d : Bytes} {a b : Nat} (h : b ≤ d.length) : (sub d a b).length = b - a := by
  rw [length_sub]; omega

theorem getElem?_sub (d : Bytes) (a b i : Nat) :
    (sub d a b)[i]? = if a + i < b then d[a + i]? else none := by
  unfold sub
  rw [List.getElem?_drop, List.getElem?_take]

theorem sub_ext {d d' : Bytes} {a b : Nat} (h : ∀ i, a ≤ i → i < b → d[i]? = d'[i]?) :
    sub d a b = sub d' a b := by
  apply List.ext_getElem?
  intro i
  rw [getElem?_sub, getElem?_sub]
  split
  · exact h _ (by omega) (by assumption)
  · rfl

theorem sub_sub {d : Bytes} {a b x y : Nat} (h : a + y ≤ b) :
    sub (sub d a b) x y = sub d (a + x) (a + y) := by
  apply List.ext_getElem?
  intro i
  rw [getElem?_sub, getElem?_sub, getElem?_sub]
  by_cases h1 : x + i < y
  · rw [if_pos h1, if_pos (by omega), if_pos (by omega), Nat.add_assoc]
  · rw [if_neg h1, if_neg (by omega)]

theorem sub_all (d : Bytes) : sub d 0 d.length = d := by simp [sub]

theorem sub_all' {d : Bytes} {n : Nat} (h : d.length ≤ n) : sub d 0 n = d := by
  unfold sub; rw [List.take_of_length_le h]; rfl

/-- `vstd::slice::slice_subrange` -/
def sliceSubrange (d : Bytes) (i j : Nat) : Exec Bytes :=
  if i ≤ j ∧ j ≤ d.length then .ok (sub d i j) else .panic

/-- Slice_v.rs 79-82 and SpecSlice 11-14 -/
structure Slice where
  start : Nat
  end_ : Nat
deriving DecidableEq

namespace Slice
/-- Slice_v.rs 23-26 -/
def Valid (s : Slice) (d : Bytes) : Prop := s.start ≤ s.end_ ∧ s.end_ ≤ d.length
instance (s : Slice) (d : Bytes) : Decidable (s.Valid d) := inferInstanceAs (Decidable (_ ∧ _))
/-- Slice_v.rs 28-33 -/
def i (s : Slice) (d : Bytes) : Bytes := sub d s.start s.end_
/-- Slice_v.rs 85-90 -/
def len (s : Slice) : Exec Nat := usub s.end_ s.start
/-- Slice_v.rs 40-43 -/
def all (d : Bytes) : Slice := ⟨0, d.length⟩
/-- Slice_v.rs 63-66, in specifications -/
def subslice (s : Slice) (a b : Nat) : Slice := ⟨s.start + a, s.start + b⟩
/-- Slice_v.rs 100-105 -/
def execSubslice (s : Slice) (a b : Nat) : Exec Slice := do
  let x ← uadd s.start a
  let y ← uadd s.start b
  pure ⟨x, y⟩
/-- Slice_v.rs 107-113 -/
def execXslice (s o : Slice) : Exec Slice := s.execSubslice o.start o.end_
/-- Slice_v.rs 50-55 -/
def AgreeBeyond (s : Slice) (d d' : Bytes) : Prop :=
  d'.length = d.length ∧ (∀ j, j < s.start → d'[j]? = d[j]?) ∧ ∀ j, s.end_ ≤ j → d'[j]? = d[j]?

theorem Valid.len_i {s : Slice} {d : Bytes} (h : s.Valid d) :
    (s.i d).length = s.end_ - s.start := by
  unfold i; exact length_sub' h.2

theorem Valid.len_ok {s : Slice} {d : Bytes} (h : s.Valid d) :
    s.len = .ok (s.i d).length := by
  rw [h.len_i]; exact usub_ok h.1

theorem subslice_i {s : Slice} {d : Bytes} {a b : Nat} (h : s.start + b ≤ s.end_) :
    (s.subslice a b).i d = sub (s.i d) a b := (sub_sub h).symm

theorem execSubslice_ok {s : Slice} {d : Bytes} {a b : Nat} (h : s.start + b ≤ d.length)
    (ha : a ≤ b) (hd : d.length ≤ usizeMax) : s.execSubslice a b = .ok (s.subslice a b) := by
  unfold execSubslice
  rw [uadd_ok (by omega), uadd_ok (by omega)]
  rfl

/-- Everything about taking a sub-slice of a valid slice. -/
theorem Valid.cut {s : Slice} {d : Bytes} {a b : Nat} (hv : s.Valid d) (hd : d.length ≤ usizeMax)
    (ha : a ≤ b) (hb : b ≤ (s.i d).length) :
    s.execSubslice a b = .ok (s.subslice a b) ∧ (s.subslice a b).Valid d ∧
      (s.subslice a b).i d = sub (s.i d) a b := by
  have hl := hv.len_i
  obtain ⟨h1, h2⟩ := hv
  refine ⟨execSubslice_ok (by omega) ha hd, ⟨?_, ?_⟩, subslice_i (by omega)⟩ <;>
    simp only [subslice] <;> omega

end Slice

/-- Only bytes `a..b` were written. -/
structure Wrote (d d' : Bytes) (a b : Nat) : Prop where
  len : d'.length = d.length
  out : ∀ i, i < a ∨ b ≤ i → d'[i]? = d[i]?

namespace Wrote
theorem refl (d : Bytes) (a b : Nat) : Wrote d d a b := ⟨rfl, fun _ _ => rfl⟩
theorem mono {d d' : Bytes} {a b a' b' : Nat} (h : Wrote d d' a b) (h1 : a' ≤ a) (h2 : b ≤ b') :
    Wrote d d' a' b' := ⟨h.len, fun i hi => h.out i (by omega)⟩
theorem trans {d d' d'' : Bytes} {a b : Nat} (h : Wrote d d' a b) (h' : Wrote d' d'' a b) :
    Wrote d d'' a b := ⟨h'.len.trans h.len, fun i hi => (h'.out i hi).trans (h.out i hi)⟩
theorem sub_out {d d' : Bytes} {a b x y : Nat} (h : Wrote d d' a b) (h1 : y ≤ a ∨ b ≤ x) :
    sub d' x y = sub d x y := sub_ext fun i _ _ => h.out i (by omega)
theorem agree {d d' : Bytes} {a b : Nat} {s : Slice} (h : Wrote d d' a b) (h1 : s.start ≤ a)
    (h2 : b ≤ s.end_) : s.AgreeBeyond d d' :=
  ⟨h.len, fun j hj => h.out j (by omega), fun j hj => h.out j (by omega)⟩
theorem valid {d d' : Bytes} {a b : Nat} {s : Slice} (h : Wrote d d' a b) (hs : s.Valid d) :
    s.Valid d' := ⟨hs.1, by rw [h.len]; exact hs.2⟩
end Wrote

/-- Marshalling_v.rs 42-127: the functions of the trait. The runtime type and its view are one type
here. `Suffices` is not in the code: `Suffices mem data` says that the parser never asks the
allocator for more than `mem` elements on `data`. Parsers take `mem`. `valid` (line 46) becomes a
hypothesis of the theorem that a construction is lawful. -/
structure Fmt (V : Type) where
  Parsable : Bytes → Prop
  parse : Bytes → V
  Suffices : Nat → Bytes → Prop
  tryParse : Nat → Slice → Bytes → Exec (Option V)
  execParsable : Nat → Slice → Bytes → Exec Bool
  execParse : Nat → Slice → Bytes → Exec V
  Marshallable : V → Prop
  size : V → Nat
  execSize : V → Exec Nat
  marshall : V → Bytes → Nat → Exec (Bytes × Nat)

/-- Marshalling_v.rs 71-79, the default `exec_parsable` -/
def defaultParsable {V : Type} (tryParse : Nat → Slice → Bytes → Exec (Option V))
    (mem : Nat) (s : Slice) (d : Bytes) : Exec Bool := do
  let ov ← tryParse mem s d
  pure ov.isSome

/-- Marshalling_v.rs 81-91, the default `exec_parse` -/
def defaultParse {V : Type} (tryParse : Nat → Slice → Bytes → Exec (Option V))
    (mem : Nat) (s : Slice) (d : Bytes) : Exec V := do
  let ov ← tryParse mem s d
  unwrap ov

/-- Specification: the contract of a format, Marshalling_v.rs 60-126 (the `ensures` clauses), with
absence of panics made explicit. Parsers depend on the bytes of their slice only. -/
structure Fmt.Lawful {V : Type} (f : Fmt V) : Prop where
  parses : ∀ {mem s d}, s.Valid d → d.length ≤ usizeMax → f.Parsable (s.i d) →
    f.Suffices mem (s.i d) → f.tryParse mem s d = .ok (some (f.parse (s.i d)))
  refuses : ∀ {mem s d}, s.Valid d → d.length ≤ usizeMax → ¬ f.Parsable (s.i d) →
    f.Suffices mem (s.i d) → f.tryParse mem s d = .ok none
  parsable_yes : ∀ {mem s d}, s.Valid d → d.length ≤ usizeMax → f.Suffices mem (s.i d) →
    f.Parsable (s.i d) → f.execParsable mem s d = .ok true
  parsable_no : ∀ {mem s d}, s.Valid d → d.length ≤ usizeMax → f.Suffices mem (s.i d) →
    ¬ f.Parsable (s.i d) → f.execParsable mem s d = .ok false
  parse_ok : ∀ {mem s d}, s.Valid d → d.length ≤ usizeMax → f.Parsable (s.i d) →
    f.Suffices mem (s.i d) → f.execParse mem s d = .ok (f.parse (s.i d))
  size_ok : ∀ {v}, f.Marshallable v → f.execSize v = .ok (f.size v)
  marshalls : ∀ {v d start}, f.Marshallable v → start + f.size v ≤ d.length →
    d.length ≤ usizeMax → ∃ d', f.marshall v d start = .ok (d', start + f.size v) ∧
      Wrote d d' start (start + f.size v) ∧ f.Parsable (sub d' start (start + f.size v)) ∧
      f.parse (sub d' start (start + f.size v)) = v

theorem default_laws {V : Type} {f : Fmt V} {mem s d}
    (h1 : f.Parsable (s.i d) → f.tryParse mem s d = .ok (some (f.parse (s.i d))))
    (h2 : ¬ f.Parsable (s.i d) → f.tryParse mem s d = .ok none) :
    (f.Parsable (s.i d) → defaultParsable f.tryParse mem s d = .ok true) ∧
    (¬ f.Parsable (s.i d) → defaultParsable f.tryParse mem s d = .ok false) ∧
    (f.Parsable (s.i d) → defaultParse f.tryParse mem s d = .ok (f.parse (s.i d))) := by
  refine ⟨fun h => ?_, fun h => ?_, fun h => ?_⟩
  · unfold defaultParsable; rw [h1 h]; rfl
  · unfold defaultParsable; rw [h2 h]; rfl
  · unfold defaultParse; rw [h1 h]; rfl

/-- A parser that never asks for more memory than the bytes it was given. -/
def Fmt.Modest {V : Type} (f : Fmt V) : Prop :=
  ∀ mem data, data.length ≤ mem → f.Suffices mem data

end Verif.Marshal
