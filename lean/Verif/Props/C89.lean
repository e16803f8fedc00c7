import Verif.Kv.DynProof

/-!
C89.  A packed array of strings is a list of strings.  Whatever is appended to it, one string or many at a
time, and however often it is shortened in between, as long as it never holds 2³² strings or bytes: no call
reaches outside an array, no offset of 32 bits overflows, moving to larger arrays loses nothing, and the
packed form has exactly the strings, in order, and its weight is theirs.  A part cut out of an array has
exactly the strings of that part; the searches in a sorted array find where a key belongs, and in any array
they end within it; and two arrays of the same strings are the same bytes.

Specification: `Op`, `after`: what calls mean on a list; `Fits`, the limits; `Sorted`, an array in order.
-/

namespace Verif.C89
open Kv Kv.SectorBytes

/-- A call on an array that grows. -/
inductive Op where
  | append (s : List UInt8)
  | appendSeq (ss : List (List UInt8))
  | shorten (n : Nat)

/-- What a call means. -/
def Op.on (ss : List (List UInt8)) : Op → List (List UInt8)
  | .append s => ss ++ [s]
  | .appendSeq ts => ss ++ ts
  | .shorten n => ss.take n

/-- What calls mean, one after the other. -/
def after (ss : List (List UInt8)) : List Op → List (List UInt8)
  | [] => ss
  | o :: os => after (o.on ss) os

/-- No call shortens the array to more than it has, and after each there are fewer than 2³² strings and bytes. -/
def Fits (ss : List (List UInt8)) : List Op → Prop
  | [] => True
  | o :: os => (∀ n, o = .shorten n → n ≤ ss.length) ∧ (o.on ss).length < 2 ^ 32 ∧
      (o.on ss).flatten.length < 2 ^ 32 ∧ Fits (o.on ss) os

/-- The calls of the code. -/
def call (d : Dyn) : Op → Option Dyn
  | .append s => d.append s
  | .appendSeq ss => d.appendSeq ss
  | .shorten n => d.shorten n

/-- The calls one after the other. -/
def calls (d : Dyn) : List Op → Option Dyn
  | [] => some d
  | o :: os => (call d o).bind (fun d => calls d os)

theorem calls_spec : ∀ (os : List Op) {d : Dyn} {ss : List (List UInt8)}, Holds d ss → Fits ss os →
    ∃ d', calls d os = some d' ∧ Holds d' (after ss os)
  | [], d, ss, h, _ => ⟨d, rfl, h⟩
  | o :: os, d, ss, h, ⟨f1, f2, f3, f4⟩ => by
    have : ∃ d1, call d o = some d1 ∧ Holds d1 (o.on ss) := by
      cases o with
      | append s =>
        refine h.append ?_ ?_
        · simpa [Op.on] using f2
        · simpa [Op.on] using f3
      | appendSeq ts =>
        refine h.appendSeq ?_ ?_
        · simpa [Op.on] using f2
        · simpa [Op.on] using f3
      | shorten n => exact h.shorten (f1 n rfl)
    obtain ⟨d1, e1, g1⟩ := this
    obtain ⟨d2, e2, g2⟩ := calls_spec os g1 f4
    exact ⟨d2, by simp [calls, e1, e2], g2⟩

/-- From arrays of any initial size, every history of calls within the limits ends, and the packed form has
the strings of the list and their weight. -/
theorem grows (strings : Nat) {bytes : Nat} (hb : bytes < 2 ^ 32) (os : List Op) (hf : Fits [] os) :
    ∃ d p, calls (Dyn.preSized strings bytes) os = some d ∧ d.toPsa = some p ∧ p.WF ∧
      (∀ i, p.element i = (after [] os)[i]?) ∧ p.offsets.length = (after [] os).length ∧
      d.weight = some (4 * (after [] os).length + (after [] os).flatten.length) := by
  obtain ⟨d, e, h⟩ := calls_spec os (holds_preSized strings hb) hf
  refine ⟨d, _, e, h.toPsa, psa_wf h.count (Nat.lt_of_le_of_lt h.space h.small), element_psaOf _, offsets_length _ _, ?_⟩
  simp [Dyn.weight, h.total, h.n]

/-- An array made at once of strings has these strings. -/
theorem made (ss : List (List UInt8)) (h1 : ss.length < 2 ^ 32) (h2 : ss.flatten.length < 2 ^ 32) :
    ∃ p, fromStrings ss = some p ∧ p.WF ∧ p.offsets.length = ss.length ∧ ∀ i, p.element i = ss[i]? := by
  have h := holds_preSized ss.length (b := totalFrom 0 ss) (by rw [totalFrom_eq]; omega)
  obtain ⟨d, e, g⟩ := Holds.append1s ss h (by simp [Dyn.preSized])
    (by simp [Dyn.preSized, totalFrom_eq]) (by simpa using h1)
  exact ⟨_, by simp [fromStrings, e]; exact g.toPsa, psa_wf h1 h2, offsets_length _ _, element_psaOf _⟩

/-- A part of an array is an array of the strings of that part. -/
theorem cuts {p : Psa} (h : p.WF) {a b : Nat} (h1 : a ≤ b) (h2 : b ≤ p.offsets.length) :
    ∃ q, p.subSeq a b = some q ∧ q.WF ∧ q.offsets.length = b - a ∧
      ∀ i, q.element i = if a + i < b then p.element (a + i) else none := by
  obtain ⟨f1, f2⟩ := WF.fits h
  rw [← strings_length] at h2
  have e := subSeq_psaOf f2 h1 h2
  rw [psaOf_strings h] at e
  have hl : ((p.strings.take b).drop a).length = b - a := by
    rw [List.length_drop, List.length_take]; omega
  refine ⟨_, e, psa_wf (by omega) ?_, ?_, fun i => ?_⟩
  · have := flat_drop (p.strings.take b) a
    rw [← this, List.length_drop]
    have := flat_le p.strings b
    omega
  · rw [show (psaOf ((p.strings.take b).drop a)).offsets = offsetsFrom 0 ((p.strings.take b).drop a) from rfl,
      offsets_length, hl]
  · rw [element_psaOf, element_eq h, List.getElem?_drop, List.getElem?_take]

/-- The strings are in order. -/
def Sorted (p : Psa) : Prop :=
  ∀ i j x y, i < j → p.element i = some x → p.element j = some y → Elem.key x ≤ .key y

theorem count_takeWhile {α : Type} {q : α → Bool} {l : List α}
    (hm : ∀ (i j : Nat) x y, i < j → l[i]? = some x → l[j]? = some y → q y = true → q x = true) {i : Nat} {x : α}
    (hx : l[i]? = some x) : q x = true ↔ i < (l.takeWhile q).length := by
  constructor
  · intro hq
    by_contra hi
    have hne : l.dropWhile q ≠ [] := fun e => by
      have := congrArg List.length (List.takeWhile_append_dropWhile (p := q) (l := l))
      rw [e, List.append_nil] at this
      have := (List.getElem?_eq_some_iff.1 hx).1
      omega
    have hh := List.head_dropWhile_not q hne
    have e : l[(l.takeWhile q).length]? = some ((l.dropWhile q).head hne) := by
      conv => lhs; rw [← List.takeWhile_append_dropWhile (p := q) (l := l)]
      rw [List.getElem?_append_right (by simp)]
      simp [List.head?_eq_some_head hne, ← List.head?_eq_getElem?]
    by_cases hi' : (l.takeWhile q).length = i
    · rw [hi', hx] at e
      cases e
      simp [hq] at hh
    · have := hm _ _ _ _ (by omega) e hx hq
      simp [this] at hh
  · intro hi
    have : l[i]? = (l.takeWhile q)[i]? := by
      conv => lhs; rw [← List.takeWhile_append_dropWhile (p := q) (l := l)]
      rw [List.getElem?_append_left hi]
    rw [this] at hx
    exact List.all_eq_true.1 List.all_takeWhile x (List.mem_of_getElem? hx)

/-- In a sorted array the searches give the number of strings below the key, and of strings not above it. -/
theorem searches {p : Psa} (h : p.WF) (hs : Sorted p) (key : List UInt8) {l : Nat} (hl : l ≤ p.offsets.length)
    (hlow : ∀ x, 0 < l → p.element (l - 1) = some x → Elem.key x < .key key) :
    (∃ r, p.firstGteFrom key l = some r ∧ p.firstGte key = some r ∧ r ≤ p.offsets.length ∧
      ∀ i x, p.element i = some x → (Elem.key x < .key key ↔ i < r)) ∧
    ∃ r, p.firstGt key = some r ∧ r ≤ p.offsets.length ∧
      ∀ i x, p.element i = some x → (Elem.key x ≤ .key key ↔ i < r) := by
  have hn := strings_length p
  have hs' : ∀ (i j : Nat) x y, i < j → p.strings[i]? = some x → p.strings[j]? = some y → Elem.key x ≤ .key y := by
    intro i j x y hij hx hy
    exact hs i j x y hij (by rw [element_eq h]; exact hx) (by rw [element_eq h]; exact hy)
  have m1 : ∀ (i j : Nat) x y, i < j → p.strings[i]? = some x → p.strings[j]? = some y →
      decide (Elem.key y < .key key) = true → decide (Elem.key x < .key key) = true := by
    intro i j x y hij hx hy hq
    simp only [decide_eq_true_eq] at hq ⊢
    exact lt_of_le_of_lt (hs' i j x y hij hx hy) hq
  have m2 : ∀ (i j : Nat) x y, i < j → p.strings[i]? = some x → p.strings[j]? = some y →
      decide (Elem.key y ≤ .key key) = true → decide (Elem.key x ≤ .key key) = true := by
    intro i j x y hij hx hy hq
    simp only [decide_eq_true_eq] at hq ⊢
    exact le_trans (hs' i j x y hij hx hy) hq
  have low1 : ∀ x, 0 < l → p.strings[l - 1]? = some x → decide (Elem.key x < .key key) = true := by
    intro x h0 hx
    simp only [decide_eq_true_eq]
    exact hlow x h0 (by rw [element_eq h]; exact hx)
  have s1 := seek_whole (l := l) (by omega) m1 low1
  have s2 := seek_whole (l := 0) (Nat.zero_le _) m1 (fun _ h => by omega)
  have s3 := seek_whole (l := 0) (Nat.zero_le _) m2 (fun _ h => by omega)
  rw [psaOf_strings h, hn] at s1 s2 s3
  refine ⟨⟨_, s1, s2, ?_, fun i x hx => ?_⟩, _, s3, ?_, fun i x hx => ?_⟩
  · rw [← hn]; exact (List.takeWhile_prefix _).length_le
  · rw [element_eq h] at hx
    rw [← count_takeWhile m1 hx]; simp
  · rw [← hn]; exact (List.takeWhile_prefix _).length_le
  · rw [element_eq h] at hx
    rw [← count_takeWhile m2 hx]; simp

/-- In any array, sorted or not, the searches end, having read nothing outside it, and what they give is a
place between a string below the key and one that is not. -/
theorem searches_end {p : Psa} (h : p.WF) (key : List UInt8) {l : Nat} (hl : l ≤ p.offsets.length) :
    ∃ r, p.firstGteFrom key l = some r ∧ l ≤ r ∧ r ≤ p.offsets.length ∧
      (∀ x, l < r → p.element (r - 1) = some x → Elem.key x < .key key) ∧
      (∀ x, p.element r = some x → ¬ Elem.key x < .key key) := by
  have hn := strings_length p
  obtain ⟨r, e, g1, g2, g3, g4⟩ := seek_spec (ss := p.strings) (fun x => decide (Elem.key x < .key key))
    (p.strings.length + 1) l (p.strings.length + 1) (by omega) (Nat.le_refl _) (by omega)
  rw [psaOf_strings h, hn] at e
  refine ⟨r, e, g1, by omega, fun x hr hx => ?_, fun x hx => ?_⟩
  · rw [element_eq h] at hx
    simpa using g3 x hr hx
  · rw [element_eq h] at hx
    have := (List.getElem?_eq_some_iff.1 hx).1
    simpa using g4 x (by omega) hx

/-- Two arrays of the same strings are the same. -/
theorem unique {p q : Psa} (hp : p.WF) (hq : q.WF) (h : ∀ i, p.element i = q.element i) : p = q := by
  have : p.strings = q.strings := List.ext_getElem? (fun i => by rw [← element_eq hp, ← element_eq hq, h])
  rw [← psaOf_strings hp, ← psaOf_strings hq, this]

/-! ### A case -/

/-- Three strings, two cut off, three more. -/
def history : List Op :=
  [.append [5], .appendSeq [[7, 1], [9]], .shorten 1, .append [], .appendSeq [[6, 6], [8]]]

theorem fits_history : Fits [] history := by
  simp [history, Fits, Op.on]

def result : Psa := ⟨[1, 1, 3, 4], [5, 6, 6, 8]⟩

/-- From arrays without room the history gives `[5], [], [6, 6], [8]`, though not in order; and a part of it is. -/
theorem demo : (calls (Dyn.preSized 0 0) history).bind (·.toPsa) = some result ∧
    after [] history = [[5], [], [6, 6], [8]] ∧ (calls (Dyn.preSized 0 0) history).bind (·.weight) = some 20 ∧
    result.subSeq 1 4 = some ⟨[0, 2, 3], [6, 6, 8]⟩ ∧ result.element 2 = some [6, 6] := by
  refine ⟨by rfl, by decide +kernel, by rfl, by rfl, by rfl⟩

/-- The part from the second string on is sorted and well-formed, and the searches find their places in it. -/
theorem demo_sorted : Psa.WF ⟨[0, 2, 3], [6, 6, 8]⟩ ∧ Sorted ⟨[0, 2, 3], [6, 6, 8]⟩ ∧
    Psa.firstGte ⟨[0, 2, 3], [6, 6, 8]⟩ [7] = some 2 ∧ Psa.firstGt ⟨[0, 2, 3], [6, 6, 8]⟩ [6, 6] = some 2 ∧
    Psa.firstGte ⟨[0, 2, 3], [6, 6, 8]⟩ [6, 6] = some 1 := by
  have hw : Psa.WF ⟨[0, 2, 3], [6, 6, 8]⟩ := psa_wf (ss := [[], [6, 6], [8]]) (by decide) (by decide)
  have e : ∀ i, Psa.element ⟨[0, 2, 3], [6, 6, 8]⟩ i = ([[], [6, 6], [8]] : List (List UInt8))[i]? :=
    element_psaOf [[], [6, 6], [8]]
  refine ⟨hw, ?_, by decide +kernel, by decide +kernel, by decide +kernel⟩
  intro i j x y hij hx hy
  rw [e] at hx hy
  have hp : ([[], [6, 6], [8]] : List (List UInt8)).Pairwise (fun a b => Elem.key a ≤ .key b) := by decide +kernel
  obtain ⟨h1, rfl⟩ := List.getElem?_eq_some_iff.1 hx
  obtain ⟨h2, rfl⟩ := List.getElem?_eq_some_iff.1 hy
  exact List.pairwise_iff_getElem.1 hp i j h1 h2 hij

end Verif.C89
