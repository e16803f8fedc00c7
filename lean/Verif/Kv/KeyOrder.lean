import Verif.Kv.MapSpec
import Mathlib.Order.Defs.LinearOrder
import Mathlib.Tactic.Order
/-
Keys with an upper bound (`Upperbounded_Lexicographic_Byte_Order`, lib/Base/total_order.i.dfy), the
longest prefix common to a range of keys, and the least key above all keys with a prefix
(lib/Buckets/TranslationLib.i.dfy).
-/
namespace Verif.Kv

/-- `Element`, lib/Base/total_order.i.dfy:957 (`Upperbounded_Total_Order`): a key, or the maximum. -/
inductive Elem
  | key (k : Key)
  | top
deriving DecidableEq

/-- `lte` of `Upperbounded_Total_Order`, lib/Base/total_order.i.dfy:966-969 -/
def Elem.lte : Elem → Elem → Bool
  | _, .top => true
  | .top, .key _ => false
  | .key a, .key b => MapSpec.lte a b

namespace MapSpec

theorem lte_refl : ∀ a, lte a a = true
  | [] => rfl
  | a :: as => by simp [lte, lte_refl as]

theorem lte_cons (a b : UInt8) (as bs : List UInt8) :
    lte (a :: as) (b :: bs) = true ↔ a < b ∨ (a = b ∧ lte as bs = true) := by
  simp only [lte]
  rcases Nat.lt_trichotomy a.toNat b.toNat with h | h | h
  · have h' : a < b := h
    simp [h']
  · have h' : a = b := UInt8.toNat_inj.mp h
    subst h'
    have : ¬ a < a := UInt8.lt_irrefl a
    simp [this]
  · have h1 : ¬ a < b := fun x => Nat.lt_asymm h x
    have h2 : b < a := h
    have h3 : a ≠ b := fun e => by subst e; exact Nat.lt_irrefl _ h
    simp [h1, h2, h3]

theorem lte_antisymm : ∀ {a b}, lte a b = true → lte b a = true → a = b
  | [], [], _, _ => rfl
  | [], _ :: _, _, h => by cases h
  | _ :: _, [], h, _ => by cases h
  | a :: as, b :: bs, h, h' => by
    rw [lte_cons] at h h'
    rcases h with h | ⟨rfl, h⟩
    · rcases h' with h' | ⟨rfl, _⟩
      · exact absurd h (UInt8.lt_asymm h')
      · exact absurd h (UInt8.lt_irrefl _)
    · rcases h' with h' | ⟨_, h'⟩
      · exact absurd h' (UInt8.lt_irrefl _)
      · rw [lte_antisymm h h']

theorem lte_total : ∀ a b, lte a b = true ∨ lte b a = true
  | [], _ => .inl (by simp [lte])
  | _ :: _, [] => .inr rfl
  | a :: as, b :: bs => by
    rw [lte_cons, lte_cons]
    rcases Nat.lt_trichotomy a.toNat b.toNat with h | h | h
    · exact .inl (.inl h)
    · have h' : a = b := UInt8.toNat_inj.mp h
      subst h'
      rcases lte_total as bs with h | h
      · exact .inl (.inr ⟨rfl, h⟩)
      · exact .inr (.inr ⟨rfl, h⟩)
    · exact .inr (.inl h)

theorem lte_trans : ∀ {a b c}, lte a b = true → lte b c = true → lte a c = true
  | [], _, _, _, _ => by simp [lte]
  | _ :: _, [], _, h, _ => by cases h
  | _ :: _, _ :: _, [], _, h => by cases h
  | a :: as, b :: bs, c :: cs, h, h' => by
    rw [lte_cons] at h h' ⊢
    rcases h with h | ⟨rfl, h⟩
    · rcases h' with h' | ⟨rfl, _⟩
      · exact .inl (UInt8.lt_trans h h')
      · exact .inl h
    · rcases h' with h' | ⟨rfl, h'⟩
      · exact .inl h'
      · exact .inr ⟨rfl, lte_trans h h'⟩

end MapSpec

namespace Elem

instance : LE Elem := ⟨fun a b => a.lte b = true⟩
instance : LT Elem := ⟨fun a b => a.lte b = true ∧ ¬ b.lte a = true⟩
instance : DecidableLE Elem := fun a b => inferInstanceAs (Decidable (a.lte b = true))
instance : DecidableLT Elem := fun a b =>
  inferInstanceAs (Decidable (a.lte b = true ∧ ¬ b.lte a = true))

/-- The elements are linearly ordered. -/
instance : LinearOrder Elem where
  le_refl a := by cases a <;> first | rfl | exact MapSpec.lte_refl _
  le_trans a b c h h' := by
    cases a <;> cases b <;> cases c <;>
      first | rfl | exact MapSpec.lte_trans h h' | exact absurd h Bool.false_ne_true |
        exact absurd h' Bool.false_ne_true
  le_antisymm a b h h' := by
    cases a <;> cases b <;>
      first | rfl | exact congrArg _ (MapSpec.lte_antisymm h h') | exact absurd h Bool.false_ne_true |
        exact absurd h' Bool.false_ne_true
  le_total a b := by
    cases a <;> cases b <;> first | exact .inl rfl | exact .inr rfl | exact MapSpec.lte_total _ _
  lt_iff_le_not_ge _ _ := Iff.rfl
  toDecidableLE := inferInstance
  toDecidableEq := inferInstance
  toDecidableLT := inferInstance

theorem le_iff {a b : Key} : key a ≤ key b ↔ MapSpec.lte a b = true := Iff.rfl
theorem lt_iff {a b : Key} : key a < key b ↔ MapSpec.lt a b := by
  constructor
  · intro h; exact ⟨h.1, fun e => h.2 (by rw [e]; exact MapSpec.lte_refl _)⟩
  · intro h; exact ⟨h.1, fun h' => h.2 (MapSpec.lte_antisymm h.1 h')⟩
theorem le_top (a : Elem) : a ≤ top := by cases a <;> rfl
theorem key_lt_top (k : Key) : key k < top := ⟨rfl, fun h => by cases h⟩
theorem not_top_lt (a : Elem) : ¬ top < a := not_lt.mpr (le_top a)
theorem nil_le (k : Key) : key [] ≤ key k := by show MapSpec.lte [] k = true; simp [MapSpec.lte]
theorem not_lt_nil (k : Key) : ¬ key k < key [] := not_lt.mpr (nil_le k)
theorem nil_le' (e : Elem) : key [] ≤ e := by
  cases e
  · exact nil_le _
  · exact le_top _
theorem key_of_lt {a b : Elem} (h : a < b) : ∃ k, a = key k := by
  cases a with
  | key k => exact ⟨k, rfl⟩
  | top => exact absurd h (not_top_lt b)

theorem cons_le {a b : UInt8} {as bs : Key} :
    key (a :: as) ≤ key (b :: bs) ↔ a < b ∨ (a = b ∧ key as ≤ key bs) := MapSpec.lte_cons a b as bs
theorem not_cons_le_nil {a : UInt8} {as : Key} : ¬ key (a :: as) ≤ key [] := fun h => by cases h
theorem cons_lt {a b : UInt8} {as bs : Key} :
    key (a :: as) < key (b :: bs) ↔ a < b ∨ (a = b ∧ key as < key bs) := by
  rw [← not_le, cons_le, ← not_le]
  rcases Nat.lt_trichotomy a.toNat b.toNat with h | h | h
  · have h1 : a < b := h
    have h2 : ¬ b < a := UInt8.lt_asymm h1
    have h3 : b ≠ a := fun e => by subst e; exact UInt8.lt_irrefl _ h1
    simp [h1, h2, h3]
  · have h' : a = b := UInt8.toNat_inj.mp h
    subst h'
    simp [UInt8.lt_irrefl]
  · have h1 : b < a := h
    have h2 : ¬ a < b := UInt8.lt_asymm h1
    have h3 : a ≠ b := fun e => by subst e; exact UInt8.lt_irrefl _ h1
    simp [h1, h2, h3]

theorem append_le (p : Key) {a b : Key} : key (p ++ a) ≤ key (p ++ b) ↔ key a ≤ key b := by
  induction p with
  | nil => rfl
  | cons x p ih => simp [cons_le, ih, UInt8.lt_irrefl]
theorem append_lt (p : Key) {a b : Key} : key (p ++ a) < key (p ++ b) ↔ key a < key b := by
  rw [← not_le, append_le, not_le]
theorem prefix_le {p k : Key} (h : p <+: k) : key p ≤ key k := by
  obtain ⟨s, rfl⟩ := h
  have := (append_le p (a := []) (b := s)).mpr (nil_le s)
  simpa using this

end Elem

/-- `ShortestUncommonPrefix`, lib/Buckets/TranslationLib.i.dfy:477-509: the least element above every key with the prefix. -/
def shortestUncommon (p : Key) : Nat → Elem
  | 0 => match p[0]? with
    | some a => if a < 255 then .key [a + 1] else .top
    | none => .top
  | i + 1 => match p[i + 1]? with
    | some a => if a < 255 then .key (p.take (i + 1) ++ [a + 1]) else shortestUncommon p i
    | none => shortestUncommon p i

/-- The end of the keys with a prefix. -/
def prefixEnd (p : Key) : Elem := shortestUncommon p p.length

theorem shortestUncommon_cons (a : UInt8) (as : Key) (i : Nat) :
    shortestUncommon (a :: as) (i + 1) = match shortestUncommon as i with
      | .key s => .key (a :: s)
      | .top => if a < 255 then .key [a + 1] else .top := by
  induction i with
  | zero =>
    simp only [shortestUncommon, List.getElem?_cons_succ, List.getElem?_cons_zero]
    cases as[0]? with
    | none => simp
    | some b => by_cases h : b < 255 <;> simp [h]
  | succ i ih =>
    have e1 : shortestUncommon (a :: as) (i + 1 + 1) = match as[i + 1]? with
      | some b => if b < 255 then .key ((a :: as).take (i + 1 + 1) ++ [b + 1])
        else shortestUncommon (a :: as) (i + 1)
      | none => shortestUncommon (a :: as) (i + 1) := rfl
    have e2 : shortestUncommon as (i + 1) = match as[i + 1]? with
      | some b => if b < 255 then .key (as.take (i + 1) ++ [b + 1]) else shortestUncommon as i
      | none => shortestUncommon as i := rfl
    rw [e1, e2]
    cases as[i + 1]? with
    | none => exact ih
    | some b =>
      by_cases h : b < 255
      · simp [h]
      · simp only [h, if_false]; exact ih

theorem byte_succ {a : UInt8} (h : a < 255) : (a + 1).toNat = a.toNat + 1 := by
  have h' : a.toNat < 255 := h
  rw [UInt8.toNat_add]
  have : (1 : UInt8).toNat = 1 := rfl
  omega

/-- The keys from a prefix up to its end are those with the prefix. -/
theorem prefixEnd_iff : ∀ (p k : Key), (Elem.key p ≤ .key k ∧ .key k < prefixEnd p) ↔ p <+: k
  | [], k => by
    have : prefixEnd [] = .top := rfl
    simp [this, Elem.nil_le, Elem.key_lt_top]
  | a :: as, [] => by simp [Elem.not_cons_le_nil]
  | a :: as, b :: bs => by
    have ih := prefixEnd_iff as bs
    have e : prefixEnd (a :: as) = match prefixEnd as with
      | .key s => .key (a :: s)
      | .top => if a < 255 then .key [a + 1] else .top := shortestUncommon_cons a as as.length
    rw [List.cons_prefix_cons, ← ih, e, Elem.cons_le]
    cases prefixEnd as with
    | key s =>
      simp only [Elem.cons_lt]
      constructor
      · rintro ⟨h | ⟨rfl, h⟩, h' | ⟨h1, h'⟩⟩
        · exact absurd h (UInt8.lt_asymm h')
        · subst h1; exact absurd h (UInt8.lt_irrefl _)
        · exact absurd h' (UInt8.lt_irrefl _)
        · exact ⟨rfl, h, h'⟩
      · rintro ⟨rfl, h, h'⟩
        exact ⟨.inr ⟨rfl, h⟩, .inr ⟨rfl, h'⟩⟩
    | top =>
      have ht : Elem.key bs < Elem.top := Elem.key_lt_top _
      by_cases h255 : a < 255
      · simp only [h255, if_true, Elem.cons_lt, Elem.not_lt_nil, and_false, or_false]
        have hs := byte_succ h255
        constructor
        · rintro ⟨h | ⟨rfl, h⟩, h'⟩
          · have h1 : a.toNat < b.toNat := h
            have h2 : b.toNat < (a + 1).toNat := h'
            omega
          · exact ⟨rfl, h, ht⟩
        · rintro ⟨rfl, h, _⟩
          refine ⟨.inr ⟨rfl, h⟩, ?_⟩
          show a.toNat < (a + 1).toNat
          omega
      · simp only [h255, if_false]
        constructor
        · rintro ⟨h | ⟨rfl, h⟩, _⟩
          · have h1 : a.toNat < b.toNat := h
            have h2 : ¬ a.toNat < 255 := h255
            have := b.toNat_lt
            omega
          · exact ⟨rfl, h, ht⟩
        · rintro ⟨rfl, h, _⟩
          exact ⟨.inr ⟨rfl, h⟩, Elem.key_lt_top _⟩

/-- `lcpright`, lib/Buckets/TranslationLib.i.dfy:173-184: the prefix common to all keys from `left` on. -/
def lcpright : Key → Key
  | [] => []
  | a :: as => if a = 255 then a :: lcpright as else []

/-- `lcp`, lib/Buckets/TranslationLib.i.dfy:186-200: the prefix common to all keys from `left` up to `right`. -/
def lcp : Key → Key → Key
  | a :: as, b :: bs =>
    if a = b then a :: lcp as bs
    else if bs = [] ∧ a.toNat + 1 = b.toNat then a :: lcpright as
    else []
  | _, _ => []

/-- `PivotLcp`, lib/Buckets/TranslationLib.i.dfy:202-210 -/
def pivotLcp : Elem → Elem → Key
  | .key a, .top => lcpright a
  | .key a, .key b => lcp a b
  | .top, _ => []

theorem lcpright_iff : ∀ (l p : Key), p <+: lcpright l ↔ ∀ k, Elem.key l ≤ .key k → p <+: k
  | l, [] => by simp
  | [], a :: p => by
    simp only [lcpright, List.prefix_nil, reduceCtorEq, false_iff]
    intro h
    have := h [] (Elem.nil_le _)
    simp at this
  | x :: l, a :: p => by
    simp only [lcpright]
    by_cases hx : x = 255
    · subst hx
      simp only [if_true, List.cons_prefix_cons, lcpright_iff l p]
      constructor
      · rintro ⟨rfl, h⟩ k hk
        cases k with
        | nil => exact absurd hk Elem.not_cons_le_nil
        | cons b k =>
          rcases Elem.cons_le.mp hk with h' | ⟨rfl, h'⟩
          · have h1 : (255 : UInt8).toNat < b.toNat := h'
            have h2 : (255 : UInt8).toNat = 255 := rfl
            have := b.toNat_lt
            omega
          · exact List.cons_prefix_cons.mpr ⟨rfl, h k h'⟩
      · intro h
        have e : a = 255 := (List.cons_prefix_cons.mp (h (255 :: l) (le_refl _))).1
        refine ⟨e, fun k hk => ?_⟩
        exact (List.cons_prefix_cons.mp (h (255 :: k) (Elem.cons_le.mpr (.inr ⟨rfl, hk⟩)))).2
    · simp only [hx, if_false, List.prefix_nil, reduceCtorEq, false_iff]
      intro h
      have h1 := (List.cons_prefix_cons.mp (h (x :: l) (le_refl _))).1
      have hlt : x < 255 := by
        show x.toNat < (255 : UInt8).toNat
        have h2 : (255 : UInt8).toNat = 255 := rfl
        have := x.toNat_lt
        have : x.toNat ≠ 255 := fun e => hx (UInt8.toNat_inj.mp e)
        omega
      have h2 := (List.cons_prefix_cons.mp (h [255] (Elem.cons_le.mpr (.inl hlt)))).1
      exact hx (h1.symm.trans h2)

theorem lcp_iff : ∀ (l r p : Key), Elem.key l < .key r →
    (p <+: lcp l r ↔ ∀ k, Elem.key l ≤ .key k → Elem.key k < .key r → p <+: k)
  | l, r, [], _ => by simp
  | [], r, a :: p, hlr => by
    have : lcp [] r = [] := by cases r <;> rfl
    simp only [this, List.prefix_nil, reduceCtorEq, false_iff]
    intro h
    have := h [] (le_refl _) hlr
    simp at this
  | x :: l, [], a :: p, h => absurd h (Elem.not_lt_nil _)
  | x :: l, y :: r, a :: p, hlr => by
    simp only [lcp]
    by_cases hxy : x = y
    · subst hxy
      have hlr' : Elem.key l < .key r := by
        rcases Elem.cons_lt.mp hlr with h | ⟨_, h⟩
        · exact absurd h (UInt8.lt_irrefl _)
        · exact h
      simp only [if_true, List.cons_prefix_cons, lcp_iff l r p hlr']
      constructor
      · rintro ⟨rfl, h⟩ k hk hk'
        cases k with
        | nil => exact absurd hk Elem.not_cons_le_nil
        | cons b k =>
          rcases Elem.cons_le.mp hk with h1 | ⟨rfl, h1⟩
          · rcases Elem.cons_lt.mp hk' with h2 | ⟨rfl, _⟩
            · exact absurd h1 (UInt8.lt_asymm h2)
            · exact absurd h1 (UInt8.lt_irrefl _)
          · rcases Elem.cons_lt.mp hk' with h2 | ⟨_, h2⟩
            · exact absurd h2 (UInt8.lt_irrefl _)
            · exact List.cons_prefix_cons.mpr ⟨rfl, h k h1 h2⟩
      · intro h
        have e : a = x := (List.cons_prefix_cons.mp (h (x :: l) (le_refl _) hlr)).1
        refine ⟨e, fun k hk hk' => ?_⟩
        exact (List.cons_prefix_cons.mp (h (x :: k) (Elem.cons_le.mpr (.inr ⟨rfl, hk⟩))
          (Elem.cons_lt.mpr (.inr ⟨rfl, hk'⟩)))).2
    · have hlt : x < y := by
        rcases Elem.cons_lt.mp hlr with h | ⟨h, _⟩
        · exact h
        · exact absurd h hxy
      have hlt' : x.toNat < y.toNat := hlt
      simp only [hxy, if_false]
      by_cases hc : r = [] ∧ x.toNat + 1 = y.toNat
      · obtain ⟨rfl, hc⟩ := hc
        simp only [hc, and_self, if_true, List.cons_prefix_cons, lcpright_iff l p]
        constructor
        · rintro ⟨rfl, h⟩ k hk hk'
          cases k with
          | nil => exact absurd hk Elem.not_cons_le_nil
          | cons b k =>
            rcases Elem.cons_lt.mp hk' with h2 | ⟨_, h2⟩
            · rcases Elem.cons_le.mp hk with h1 | ⟨rfl, h1⟩
              · have h1' : a.toNat < b.toNat := h1
                have h2' : b.toNat < y.toNat := h2
                omega
              · exact List.cons_prefix_cons.mpr ⟨rfl, h k h1⟩
            · exact absurd h2 (Elem.not_lt_nil _)
        · intro h
          have e : a = x := (List.cons_prefix_cons.mp (h (x :: l) (le_refl _) hlr)).1
          refine ⟨e, fun k hk => ?_⟩
          exact (List.cons_prefix_cons.mp (h (x :: k) (Elem.cons_le.mpr (.inr ⟨rfl, hk⟩))
            (Elem.cons_lt.mpr (.inl hlt)))).2
      · simp only [hc, if_false, List.prefix_nil, reduceCtorEq, false_iff]
        intro h
        have h1 := (List.cons_prefix_cons.mp (h (x :: l) (le_refl _) hlr)).1
        have hlt255 : x < 255 := by
          show x.toNat < (255 : UInt8).toNat
          have h2 : (255 : UInt8).toNat = 255 := rfl
          have := y.toNat_lt
          omega
        have hs := byte_succ hlt255
        have h2 := (List.cons_prefix_cons.mp (h [x + 1] (Elem.cons_le.mpr (.inl (by
          show x.toNat < (x + 1).toNat; omega))) ?_)).1
        · have h3 : x.toNat = (x + 1).toNat := congrArg _ (h1.symm.trans h2)
          omega
        · by_cases he : x.toNat + 1 = y.toNat
          · refine Elem.cons_lt.mpr (.inr ⟨UInt8.toNat_inj.mp (by omega), ?_⟩)
            cases r with
            | nil => exact absurd ⟨rfl, he⟩ hc
            | cons b r => exact not_le.mp Elem.not_cons_le_nil
          · refine Elem.cons_lt.mpr (.inl ?_)
            show (x + 1).toNat < y.toNat
            omega

/-- `PivotLcp` is the longest prefix that all keys of the range have. -/
theorem pivotLcp_iff {l r : Elem} (h : l < r) (p : Key) :
    p <+: pivotLcp l r ↔ ∀ k, l ≤ .key k → .key k < r → p <+: k := by
  obtain ⟨a, rfl⟩ := Elem.key_of_lt h
  cases r with
  | top =>
    rw [pivotLcp, lcpright_iff]
    exact ⟨fun h k hk _ => h k hk, fun h k hk => h k hk (Elem.key_lt_top k)⟩
  | key b => exact lcp_iff a b p h

/-- Every key of the range has it. -/
theorem pivotLcp_prefix {l r : Elem} {k : Key} (h : l ≤ .key k) (h' : .key k < r) :
    pivotLcp l r <+: k :=
  (pivotLcp_iff (lt_of_le_of_lt h h') _).mp (List.prefix_refl _) k h h'

/-- It grows as the range shrinks. -/
theorem pivotLcp_mono {l r l' r' : Elem} (hl : l ≤ l') (hr : r' ≤ r) (h : l' < r') :
    pivotLcp l r <+: pivotLcp l' r' := by
  rw [pivotLcp_iff h]
  intro k h1 h2
  exact pivotLcp_prefix (le_trans hl h1) (lt_of_lt_of_le h2 hr)

/-- Ranges of keys that correspond under a change of prefix have corresponding common prefixes. -/
theorem pivotLcp_corr {l r l' r' : Elem} {p q : Key} (h : l < r) (h' : l' < r')
    (hp : ∀ k, l ≤ .key k → .key k < r → p <+: k) (hq : ∀ k, l' ≤ .key k → .key k < r' → q <+: k)
    (hc : ∀ s, (l ≤ .key (p ++ s) ∧ .key (p ++ s) < r) ↔ (l' ≤ .key (q ++ s) ∧ .key (q ++ s) < r')) :
    ∃ u, pivotLcp l r = p ++ u ∧ pivotLcp l' r' = q ++ u := by
  have half : ∀ {l r l' r' : Elem} {p q : Key}, l < r → l' < r' →
      (∀ k, l' ≤ .key k → .key k < r' → q <+: k) →
      (∀ s, (l ≤ .key (p ++ s) ∧ .key (p ++ s) < r) ↔ (l' ≤ .key (q ++ s) ∧ .key (q ++ s) < r')) →
      ∀ u, p ++ u <+: pivotLcp l r → q ++ u <+: pivotLcp l' r' := by
    intro l r l' r' p q h h' hq hc u hu
    rw [pivotLcp_iff h'] at *
    intro k h1 h2
    obtain ⟨s, rfl⟩ := hq k h1 h2
    obtain ⟨h3, h4⟩ := (hc s).mpr ⟨h1, h2⟩
    have := (pivotLcp_iff h _).mp hu _ h3 h4
    exact (List.prefix_append_right_inj q).mpr ((List.prefix_append_right_inj p).mp this)
  obtain ⟨u, hu⟩ := (pivotLcp_iff h p).mpr hp
  obtain ⟨v, hv⟩ := (pivotLcp_iff h' q).mpr hq
  have h1 := half h h' hq hc u (hu ▸ List.prefix_refl _)
  have h2 := half h' h hp (fun s => (hc s).symm) v (hv ▸ List.prefix_refl _)
  rw [← hv] at h1
  rw [← hu] at h2
  have h1' := (List.prefix_append_right_inj q).mp h1
  have h2' := (List.prefix_append_right_inj p).mp h2
  have : u = v := h1'.eq_of_length_le h2'.length_le
  exact ⟨u, hu.symm, by rw [← hv, this]⟩

/-- Above a key with a prefix there are only keys with the prefix up to the first key without it. -/
theorem below_of_prefix {p k : Key} {r : Elem} (h : Elem.key p < r) (hn : ∀ x, r = .key x → ¬ p <+: x)
    (hk : p <+: k) : Elem.key k < r := by
  cases r with
  | top => exact Elem.key_lt_top k
  | key x =>
    by_contra hc
    have hc := not_lt.mp hc
    refine hn x rfl ((prefixEnd_iff p x).mp ⟨le_of_lt h, lt_of_le_of_lt hc ?_⟩)
    exact ((prefixEnd_iff p k).mpr hk).2

end Verif.Kv
