import Verif.Kv.Psa
import Verif.Kv.SectorProof
/-
Packed arrays of strings: what is read, searched for and cut out, and how the array grows. No code is
modelled here.
-/
namespace Verif.Kv.SectorBytes
open Pivot (Bucket)
open Betree (Message)

/-! ### Offsets -/

theorem offsets_get : ∀ (ss : List (List UInt8)) (st i : Nat), i < ss.length →
    (offsetsFrom st ss)[i]? = some (st + (ss.take (i + 1)).flatten.length)
  | [], _, _, h => by cases h
  | s :: ss, st, 0, _ => by simp [offsetsFrom]
  | s :: ss, st, i + 1, h => by
    rw [offsetsFrom, List.getElem?_cons_succ, offsets_get ss _ i (by simpa using h)]
    simp only [List.take_succ_cons, List.flatten_cons, List.length_append]
    rw [Nat.add_assoc]

theorem offsets_take : ∀ (ss : List (List UInt8)) (st n : Nat), (offsetsFrom st ss).take n = offsetsFrom st (ss.take n)
  | [], _, _ => by simp [offsetsFrom]
  | s :: ss, st, 0 => by simp [offsetsFrom]
  | s :: ss, st, n + 1 => by
    simp only [offsetsFrom, List.take_succ_cons, offsets_take ss _ n]

theorem offsets_drop : ∀ (ss : List (List UInt8)) (st n : Nat),
    (offsetsFrom st ss).drop n = offsetsFrom (st + (ss.take n).flatten.length) (ss.drop n)
  | [], _, _ => by simp [offsetsFrom]
  | s :: ss, st, 0 => by simp
  | s :: ss, st, n + 1 => by
    simp only [offsetsFrom, List.drop_succ_cons, offsets_drop ss _ n, List.take_succ_cons, List.flatten_cons,
      List.length_append, Nat.add_assoc]

theorem offsets_snoc : ∀ (ss : List (List UInt8)) (st : Nat) (s : List UInt8),
    offsetsFrom st (ss ++ [s]) = offsetsFrom st ss ++ [st + ss.flatten.length + s.length]
  | [], st, s => by simp [offsetsFrom]
  | a :: ss, st, s => by
    simp only [List.cons_append, offsetsFrom, offsets_snoc ss, List.flatten_cons, List.length_append, Nat.add_assoc]

theorem offsets_shift : ∀ (ss : List (List UInt8)) (c st : Nat), c + st + ss.flatten.length < 2 ^ 32 →
    (offsetsFrom (c + st) ss).map (fun x => sub32 x c) = offsetsFrom st ss
  | [], _, _, _ => rfl
  | s :: ss, c, st, h => by
    rw [List.flatten_cons, List.length_append] at h
    simp only [offsetsFrom, List.map_cons]
    rw [Nat.add_assoc c st, offsets_shift ss c (st + s.length) (by omega)]
    congr 1
    unfold sub32
    omega

/-! ### Strings -/

theorem flat_take (ss : List (List UInt8)) (n : Nat) : ss.flatten.take (ss.take n).flatten.length = (ss.take n).flatten := by
  conv => lhs; arg 2; rw [← List.take_append_drop n ss, List.flatten_append]
  rw [List.take_left' rfl]

theorem flat_drop (ss : List (List UInt8)) (n : Nat) : ss.flatten.drop (ss.take n).flatten.length = (ss.drop n).flatten := by
  conv => lhs; arg 2; rw [← List.take_append_drop n ss, List.flatten_append]
  rw [List.drop_left' rfl]

theorem flat_le (ss : List (List UInt8)) (n : Nat) : (ss.take n).flatten.length ≤ ss.flatten.length := by
  have := congrArg List.length (congrArg List.flatten (List.take_append_drop n ss))
  rw [List.flatten_append, List.length_append] at this
  omega

theorem flat_mono (ss : List (List UInt8)) {a b : Nat} (h : a ≤ b) :
    (ss.take a).flatten.length ≤ (ss.take b).flatten.length := by
  have := flat_le (ss.take b) a
  rwa [List.take_take, Nat.min_eq_left h] at this

/-- A well-formed array is the packed form of its strings, and of no others. -/
theorem strings_unique {data : List UInt8} : ∀ {os : List Nat} {st : Nat}, os.Pairwise (· ≤ ·) →
    (∀ o ∈ os, st ≤ o) → (∀ o, os.getLast? = some o → data.length = o) →
    offsetsFrom st (stringsFrom data st os) = os ∧ (os ≠ [] → (stringsFrom data st os).flatten = data.drop st)
  | [], _, _, _, _ => ⟨rfl, fun h => absurd rfl h⟩
  | [o], st, _, h1, h2 => by
    have e := h2 o rfl
    have := h1 o List.mem_cons_self
    refine ⟨?_, fun _ => ?_⟩
    · simp only [stringsFrom, offsetsFrom, List.length_take, List.length_drop]
      rw [show st + min (o - st) (data.length - st) = o by omega]
    · simp only [stringsFrom, List.flatten_cons, List.flatten_nil, List.append_nil]
      rw [List.take_of_length_le (by rw [List.length_drop]; omega)]
  | o :: o' :: os, st, hs, h1, h2 => by
    obtain ⟨p1, p2⟩ := List.pairwise_cons.1 hs
    obtain ⟨i1, i2⟩ := strings_unique (data := data) (os := o' :: os) (st := o) p2 p1
      (fun x hx => h2 x (by rw [List.getLast?_cons_cons]; exact hx))
    have i2 := i2 (by simp)
    have h0 := h1 o List.mem_cons_self
    have hl : o ≤ data.length := by
      have hne : o' :: os ≠ [] := by simp
      have e := h2 _ (by rw [List.getLast?_cons_cons]; exact List.getLast?_eq_some_getLast hne)
      have := le_last hs (x := (o' :: os).getLast hne)
        (by rw [List.getLast?_cons_cons]; exact List.getLast?_eq_some_getLast hne) o List.mem_cons_self
      omega
    have hlen : ((data.drop st).take (o - st)).length = o - st := by
      rw [List.length_take, List.length_drop]; omega
    constructor
    · rw [stringsFrom, offsetsFrom, hlen, show st + (o - st) = o by omega, i1]
    · intro _
      rw [stringsFrom, List.flatten_cons, i2]
      have : data.drop o = (data.drop st).drop (o - st) := by
        rw [List.drop_drop]; congr 1; omega
      rw [this, List.take_append_drop]

theorem psaOf_strings {p : Psa} (h : p.WF) : psaOf p.strings = p := by
  obtain ⟨h1, h2⟩ := strings_unique (data := p.data) (st := 0) h.sorted (fun _ _ => Nat.zero_le _) h.last
  cases p with
  | mk os d =>
    have h1 : offsetsFrom 0 (stringsFrom d 0 os) = os := h1
    show Psa.mk _ _ = _
    simp only [Psa.strings]
    rw [h1]
    congr 1
    by_cases he : os = []
    · have : d = [] := h.none he
      subst he this; rfl
    · have h2 := h2 he
      simpa using h2

theorem strings_length (p : Psa) : p.strings.length = p.offsets.length := by
  have : ∀ (os : List Nat) (st : Nat), (stringsFrom p.data st os).length = os.length := by
    intro os
    induction os with
    | nil => intro st; rfl
    | cons o os ih => intro st; rw [stringsFrom, List.length_cons, ih, List.length_cons]
  exact this _ _

theorem WF.fits {p : Psa} (h : p.WF) : p.strings.length < 2 ^ 32 ∧ p.strings.flatten.length < 2 ^ 32 := by
  refine ⟨by rw [strings_length]; exact h.offsets, ?_⟩
  have e := congrArg Psa.data (psaOf_strings h)
  have e : p.strings.flatten = p.data := e
  rw [e]; exact h.data

theorem start_of {ss : List (List UInt8)} {i : Nat} (h : i ≤ ss.length) :
    (psaOf ss).start i = some (ss.take i).flatten.length := by
  unfold Psa.start
  split
  · rename_i h; subst h; rfl
  · show (offsetsFrom 0 ss)[i - 1]? = _
    rw [offsets_get ss 0 (i - 1) (by omega), Nat.sub_add_cancel (by omega), Nat.zero_add]

theorem offset_of {ss : List (List UInt8)} {i : Nat} (h : i < ss.length) :
    (psaOf ss).offsets[i]? = some (ss.take (i + 1)).flatten.length := by
  have := offsets_get ss 0 i h
  rwa [Nat.zero_add] at this

theorem cut_eq {α : Type} {s : List α} {a b : Nat} (h1 : a ≤ b) (h2 : b ≤ s.length) :
    cut s a b = some ((s.take b).drop a) := by
  rw [cut, if_pos ⟨h1, h2⟩, List.drop_take]

theorem element_psaOf (ss : List (List UInt8)) (i : Nat) : (psaOf ss).element i = ss[i]? := by
  unfold Psa.element
  by_cases h : i < ss.length
  · rw [offset_of h]
    simp only [Option.bind_eq_bind, Option.bind_some, start_of (Nat.le_of_lt h)]
    show cut ss.flatten _ _ = _
    rw [cut_eq (flat_mono ss (Nat.le_succ i)) (flat_le ss _), flat_take]
    have e : ss.take (i + 1) = ss.take i ++ [ss[i]] := by rw [List.take_append_getElem]
    rw [e, List.flatten_append, List.drop_left' rfl, List.getElem?_eq_getElem h]
    simp
  · have : (psaOf ss).offsets[i]? = none := by
      rw [List.getElem?_eq_none_iff]
      show (offsetsFrom 0 ss).length ≤ i
      rw [offsets_length]; omega
    rw [this]
    simp [List.getElem?_eq_none (show ss.length ≤ i by omega)]

theorem element_eq {p : Psa} (h : p.WF) (i : Nat) : p.element i = p.strings[i]? := by
  conv => lhs; rw [← psaOf_strings h]
  exact element_psaOf _ _

theorem subSeq_psaOf {ss : List (List UInt8)} (hs : ss.flatten.length < 2 ^ 32) {a b : Nat} (h1 : a ≤ b)
    (h2 : b ≤ ss.length) : (psaOf ss).subSeq a b = some (psaOf ((ss.take b).drop a)) := by
  unfold Psa.subSeq
  split
  · rename_i h
    subst h
    rw [show (ss.take a).drop a = [] by simp]
    rfl
  · rename_i h
    have hb : b - 1 < ss.length := by omega
    rw [start_of (by omega), offset_of hb]
    simp only [Option.bind_eq_bind, Option.bind_some, Nat.sub_add_cancel (show 1 ≤ b by omega)]
    have e1 : subOffsets (psaOf ss).offsets a b = some (offsetsFrom 0 ((ss.take b).drop a)) := by
      unfold subOffsets
      have ho : (psaOf ss).offsets = offsetsFrom 0 ss := rfl
      rw [ho, cut_eq h1 (by rw [offsets_length]; exact h2), offsets_take, offsets_drop]
      simp only [Option.bind_eq_bind, Option.bind_some]
      split
      · rename_i h0; subst h0; simp [pure]
      · rw [offsets_get ss 0 (a - 1) (by omega), Nat.sub_add_cancel (by omega)]
        simp only [Option.bind_some, pure, Option.some.injEq, Nat.zero_add]
        rw [List.take_take, Nat.min_eq_left h1]
        have := offsets_shift ((ss.take b).drop a) (ss.take a).flatten.length 0 (by
          have h3 := flat_le ss b
          have h4 : (ss.take b).flatten.length = (ss.take a).flatten.length + ((ss.take b).drop a).flatten.length := by
            have := congrArg List.length (congrArg List.flatten (List.take_append_drop a (ss.take b)))
            rw [List.flatten_append, List.length_append, List.take_take, Nat.min_eq_left h1] at this
            omega
          omega)
        rw [Nat.add_zero] at this
        exact this
    have e2 : cut (psaOf ss).data (ss.take a).flatten.length (ss.take b).flatten.length =
        some ((ss.take b).drop a).flatten := by
      show cut ss.flatten _ _ = _
      rw [cut_eq (flat_mono ss h1) (flat_le ss _), flat_take]
      have := flat_drop (ss.take b) a
      rw [List.take_take, Nat.min_eq_left h1] at this
      rw [this]
    rw [e1, e2]
    rfl

/-! ### Searches -/

theorem seek_spec {ss : List (List UInt8)} (below : List UInt8 → Bool) : ∀ (fuel lo hi : Nat), lo < hi →
    hi ≤ ss.length + 1 → hi - lo ≤ fuel + 1 → ∃ r, (psaOf ss).seek below fuel lo hi = some r ∧ lo ≤ r ∧ r < hi ∧
      (∀ x, lo < r → ss[r - 1]? = some x → below x = true) ∧ (∀ x, r + 1 < hi → ss[r]? = some x → below x = false)
  | 0, lo, hi, h1, _, h3 => by
    refine ⟨lo, by rw [Psa.seek, if_neg (by omega)], Nat.le_refl _, h1, fun _ h => by omega, fun _ h => by omega⟩
  | fuel + 1, lo, hi, h1, h2, h3 => by
    unfold Psa.seek
    split
    · have hm : (lo + hi) / 2 - 1 < ss.length := by omega
      rw [element_psaOf, List.getElem?_eq_getElem hm]
      dsimp only
      split
      · rename_i hb
        obtain ⟨r, e, g1, g2, g3, g4⟩ := seek_spec (ss := ss) below fuel ((lo + hi) / 2) hi (by omega) h2 (by omega)
        refine ⟨r, e, by omega, g2, fun x hx he => ?_, g4⟩
        by_cases hr : (lo + hi) / 2 < r
        · exact g3 x hr he
        · have : r = (lo + hi) / 2 := by omega
          subst this
          rw [List.getElem?_eq_getElem hm] at he
          cases he
          exact hb
      · rename_i hb
        obtain ⟨r, e, g1, g2, g3, g4⟩ := seek_spec (ss := ss) below fuel lo ((lo + hi) / 2) (by omega) (by omega) (by omega)
        refine ⟨r, e, g1, by omega, g3, fun x hx he => ?_⟩
        by_cases hr : r + 1 < (lo + hi) / 2
        · exact g4 x hr he
        · have : r = (lo + hi) / 2 - 1 := by omega
          subst this
          rw [List.getElem?_eq_getElem hm] at he
          cases he
          simpa using hb
    · exact ⟨lo, rfl, Nat.le_refl _, h1, fun _ h => by omega, fun _ h => by omega⟩

/-- If the test holds of a first part and of no more, the search finds where it ends. -/
theorem seek_whole {ss : List (List UInt8)} {below : List UInt8 → Bool} {l : Nat} (hl : l ≤ ss.length)
    (hmono : ∀ (i j : Nat) x y, i < j → ss[i]? = some x → ss[j]? = some y → below y = true → below x = true)
    (hlow : ∀ x, 0 < l → ss[l - 1]? = some x → below x = true) :
    (psaOf ss).seek below (ss.length + 1) l (ss.length + 1) = some (ss.takeWhile below).length := by
  obtain ⟨r, e, g1, g2, g3, g4⟩ := seek_spec (ss := ss) below (ss.length + 1) l (ss.length + 1) (by omega) (Nat.le_refl _) (by omega)
  rw [e]
  congr 1
  have hlast : ∀ x, 0 < r → ss[r - 1]? = some x → below x = true := by
    intro x h0 he
    by_cases hr : l < r
    · exact g3 x hr he
    · have : r = l := by omega
      subst this
      exact hlow x h0 he
  have hbefore : ∀ x ∈ ss.take r, below x = true := by
    intro x hx
    obtain ⟨i, hi, rfl⟩ := List.mem_iff_getElem.1 hx
    rw [List.length_take] at hi
    rw [List.getElem_take]
    by_cases hir : i = r - 1
    · subst hir
      exact hlast _ (by omega) (List.getElem?_eq_getElem (by omega))
    · exact hmono i (r - 1) _ _ (by omega) (List.getElem?_eq_getElem (by omega)) (List.getElem?_eq_getElem (by omega))
        (hlast _ (by omega) (List.getElem?_eq_getElem (by omega)))
  have : ss.takeWhile below = ss.take r := by
    conv => lhs; rw [← List.take_append_drop r ss]
    rw [List.takeWhile_append_of_pos hbefore]
    have : (ss.drop r).takeWhile below = [] := by
      by_cases hr : r < ss.length
      · rw [List.drop_eq_getElem_cons hr, List.takeWhile_cons_of_neg]
        have := g4 _ (by omega) (List.getElem?_eq_getElem hr)
        simp [this]
      · rw [List.drop_of_length_le (by omega)]; rfl
    rw [this, List.append_nil]
  rw [this, List.length_take]
  omega

end Verif.Kv.SectorBytes
