import Verif.Kv.PackedFlushProof
import Verif.Props.C66
import Verif.Props.C90

/-!
C91.  A flush of one bucket in memory into the buckets of a child, each in whichever form it is, moves whole
entries from the low end: up to some key everything leaves the upper bucket and is found in the child's
bucket whose range it is in, over what that held for the key; everything else stays as it is in every
bucket.  The flush never reaches outside an array, the buckets it makes are buckets as before (C90 holds of
them), together they weigh no more than a node may, and the flush stops only at an entry that does not fit.

Specification: `Map` and `Reach` of C90, what buckets stand for; `Between`, the ranges; `Ready`, what a flush is
given.
-/

namespace Verif.C91
open Kv Kv.SectorBytes Kv.MutBucket
open Betree (Message)
open C90 (Map Reach)

/-- The key is in the range of bucket `i`. -/
def Between (pt : List Elem) (i : Nat) (k : Key) : Prop :=
  ∃ lo hi, pt[i]? = some lo ∧ pt[i + 1]? = some hi ∧ lo ≤ .key k ∧ Elem.key k < hi

/-- All that the buckets weigh. -/
def total (bots : List MB) : Nat := (bots.map (·.weight)).sum

/-- What a flush is given: a bucket, and buckets between pivots into which its keys go. -/
structure Ready (top : MB) (M : Map) (pt : List Elem) (bots : List MB) (Ms : List Map) : Prop where
  upper : Reach top M
  lower : List.Forall₂ Reach bots Ms
  pivots : pt.Pairwise (· < ·)
  length : pt.length = bots.length + 1
  inside : ∀ k, M k ≠ none → ∃ i, i < bots.length ∧ Between pt i k
  weight : total bots ≤ maxWeight

/-! ### Proofs -/

theorem reach_of {b : Entries} (h1 : Ordered b) (h2 : Defs b) (h3 : bucketWeight b < 2 ^ 32) (s : Bool) :
    Reach (allocPkv (pkvOf b) s) (Btree.look b) := by
  have hw := pkv_weight (b := b) h2
  have hp : C90.Packed (pkvOf b) := ⟨psa_wf (by rw [List.length_map]; omega) (by omega),
    psa_wf (by rw [List.length_map]; omega) (by omega), by
      show (offsetsFrom 0 _).length = (offsetsFrom 0 _).length
      rw [offsets_length, offsets_length, List.length_map, List.length_map]⟩
  have hb : (pkvOf b).bucket = b := pkvOf_bucket h2
  have := Reach.packed s hp (by rw [pkvOf_weight h2]; exact h3) (by rw [hb]; exact h1)
  rw [hb, C90.latest_eq, look_mapOf h1] at this
  exact this

theorem entries {bots : List MB} {Ms : List Map} (h : List.Forall₂ Reach bots Ms) :
    ∃ bs : List Entries, List.Forall₂ Inv bots bs ∧ List.Forall₂ C90.Is Ms bs := by
  induction h with
  | nil => exact ⟨[], .nil, .nil⟩
  | cons h _ ih =>
    obtain ⟨bs, h1, h2⟩ := ih
    obtain ⟨b, g1, g2⟩ := C90.invariant h
    exact ⟨b :: bs, .cons g1 h1, .cons g2 h2⟩

theorem total_eq {bots : List MB} {bs : List Entries} (h : List.Forall₂ Inv bots bs) : total bots = weight bs := by
  induction h with
  | nil => rfl
  | cons h _ ih =>
    rw [weight_list_cons, ← ih, ← h.weight]
    rfl

theorem all_inv {bots : List MB} {bs : List Entries} (h : List.Forall₂ Inv bots bs) :
    ∀ b ∈ bs, Ordered b ∧ Defs b := by
  induction h with
  | nil => intro b hb; cases hb
  | cons h _ ih =>
    intro b hb
    rcases List.mem_cons.1 hb with rfl | hb
    · exact ⟨h.ordered, h.defs⟩
    · exact ih b hb

theorem between_head : ∀ {pt : List Elem} {i : Nat} {k : Key}, pt.Pairwise (· < ·) → Between pt i k →
    ∃ a b, pt.head? = some a ∧ pt.getLast? = some b ∧ a ≤ .key k ∧ Elem.key k < b := by
  intro pt i k hp ⟨lo, hi, h1, h2, h3, h4⟩
  obtain ⟨l1, rfl⟩ := List.getElem?_eq_some_iff.1 h1
  obtain ⟨l2, rfl⟩ := List.getElem?_eq_some_iff.1 h2
  have hmono : ∀ (i j : Nat) (hi : i < pt.length) (hj : j < pt.length), i ≤ j → pt[i] ≤ pt[j] := by
    intro i j hi hj hij
    rcases Nat.eq_or_lt_of_le hij with rfl | hij
    · exact le_refl _
    · exact le_of_lt (List.pairwise_iff_getElem.1 hp i j hi hj hij)
  refine ⟨pt[0], pt[pt.length - 1], ?_, ?_, le_trans (hmono 0 i (by omega) l1 (by omega)) h3,
    lt_of_lt_of_le h4 (hmono (i + 1) _ l2 (by omega) (by omega))⟩
  · rw [List.head?_eq_getElem?, List.getElem?_eq_getElem]
  · rw [List.getLast?_eq_getElem?, List.getElem?_eq_getElem]

theorem weight_mem {bs : List Entries} {b : Entries} (h : b ∈ bs) : bucketWeight b ≤ weight bs := by
  induction bs with
  | nil => cases h
  | cons c bs ih =>
    rw [weight_list_cons]
    rcases List.mem_cons.1 h with rfl | h
    · omega
    · have := ih h; omega

theorem total_alloc {bs : List Entries} (s : Bool) (h : ∀ b ∈ bs, Defs b) :
    total (bs.map (fun b => allocPkv (pkvOf b) s)) = weight bs := by
  induction bs with
  | nil => rfl
  | cons b bs ih =>
    rw [weight_list_cons, ← ih (fun b hb => h b (List.mem_cons_of_mem _ hb)),
      ← pkvOf_weight (h b List.mem_cons_self)]
    rfl

theorem reach_all {bs : List Entries} (s : Bool) (h : ∀ b ∈ bs, Ordered b ∧ Defs b ∧ bucketWeight b < 2 ^ 32) :
    List.Forall₂ Reach (bs.map (fun b => allocPkv (pkvOf b) s)) (bs.map Btree.look) := by
  induction bs with
  | nil => exact .nil
  | cons b bs ih =>
    obtain ⟨h1, h2, h3⟩ := h b List.mem_cons_self
    exact .cons (reach_of h1 h2 h3 s) (ih (fun b hb => h b (List.mem_cons_of_mem _ hb)))

theorem is_get {Ms : List Map} {bs : List Entries} (h : List.Forall₂ C90.Is Ms bs) {i : Nat} {Mi : Map}
    (hi : Ms[i]? = some Mi) : ∃ b, bs[i]? = some b ∧ Btree.look b = Mi := by
  induction h generalizing i with
  | nil => cases hi
  | cons h _ ih =>
    cases i with
    | zero => cases hi; exact ⟨_, rfl, h⟩
    | succ i => exact ih hi

/-- **What a flush does.** -/
theorem flushes {top : MB} {M : Map} {pt : List Elem} {bots : List MB} {Ms : List Map} (h : Ready top M pt bots Ms) :
    ∃ (bots' : List MB) (top' : MB) (M' : Map) (Ms' : List Map) (moved : Key → Prop), flush top pt bots = some (bots', top') ∧
      Reach top' M' ∧ List.Forall₂ Reach bots' Ms' ∧ Ms'.length = Ms.length ∧ total bots' ≤ maxWeight ∧
      -- from the low end
      (∀ k k', Elem.key k ≤ .key k' → moved k' → moved k) ∧
      -- what has moved is gone from the upper bucket, the rest is as it was
      (∀ k, (moved k → M' k = none) ∧ (¬ moved k → M' k = M k)) ∧
      -- and is in the bucket it belongs to, where the rest is as it was
      (∀ i Mi Mi', Ms[i]? = some Mi → Ms'[i]? = some Mi' → ∀ k,
        (moved k ∧ Between pt i k ∧ M k ≠ none → Mi' k = M k) ∧
        (¬ (moved k ∧ Between pt i k ∧ M k ≠ none) → Mi' k = Mi k)) ∧
      -- it stops at nothing, or at the least entry left, which does not fit
      ((∀ k, M' k = none) ∨ ∃ k m, M' k = some m ∧ (∀ k', M' k' ≠ none → Elem.key k ≤ .key k') ∧
        maxWeight < total bots' + (4 + k.length + messageWeight m)) := by
  obtain ⟨tb, h1, h2⟩ := C90.invariant h.upper
  obtain ⟨bs, h3, h4⟩ := entries h.lower
  have hbl : bots.length = bs.length := h3.length_eq
  have hall := all_inv h3
  have hwb : weight bs ≤ maxWeight := by rw [← total_eq h3]; exact h.weight
  have hmw : maxWeight = 2031616 := rfl
  have hlist := C90.listing h1.ordered h2
  have hok : C66.Ok tb pt bs :=
    { pivots := h.pivots
      length := by rw [← hbl]; exact h.length
      sorted := h1.ordered
      sets := h1.defs
      inside := by
        intro x hx
        obtain ⟨i, -, hb⟩ := h.inside x.1 (by rw [(hlist.2 x.1 x.2).1 hx]; simp)
        exact between_head h.pivots hb
      child := fun b hb => (hall b hb).1 }
  have hf := flush_spec h1 h3 (fun b hb => (hall b hb).2) h.pivots hok.length hwb
  obtain ⟨n, m1, m2, m3⟩ := C66.moves hok
  have hfit := C66.fits tb pt hwb
  have hfull := fun k m rest => C66.stops_when_full (k := k) (m := m) (rest := rest) tb pt hwb
  revert hf m1 m2 m3 hfit hfull
  generalize TreeImpl.partialFlush tb pt bs = r
  obtain ⟨new, rest⟩ := r
  intro hf m1 m2 m3 hfit hfull
  dsimp only at hf m1 m2 m3 hfit hfull
  subst m1
  have hslot : ∀ i, i < bs.length → ∃ lo hi, pt[i]? = some lo ∧ pt[i + 1]? = some hi := fun i hi =>
    have hl := hok.length
    ⟨_, _, List.getElem?_eq_getElem (by omega), List.getElem?_eq_getElem (by omega)⟩
  have hnew : ∀ b' ∈ new, Ordered b' ∧ Defs b' ∧ bucketWeight b' < 2 ^ 32 := by
    intro b' hb'
    have hw := weight_mem hb'
    obtain ⟨i, hi, e⟩ := List.mem_iff_getElem.1 hb'
    obtain ⟨lo, hi', e1, e2⟩ := hslot i (by omega)
    obtain ⟨g1, g2⟩ := m3 i lo hi' _ b' e1 e2 (List.getElem?_eq_getElem (by omega)) (by rw [List.getElem?_eq_getElem hi, e])
    refine ⟨g1, fun x hx => ?_, by omega⟩
    rcases (g2 x.1 x.2).1 hx with ⟨g, -⟩ | ⟨g, -⟩
    · exact h1.defs _ (List.mem_of_mem_take g)
    · exact (hall _ (List.getElem_mem (by omega))).2 _ g
  have hdn : Ordered (tb.drop n) := ordered_drop h1.ordered n
  have hcross : ∀ x ∈ tb.take n, ∀ y ∈ tb.drop n, Elem.key x.1 < .key y.1 := by
    have := h1.ordered
    unfold Ordered at this
    rw [← List.take_append_drop n tb, List.pairwise_append] at this
    exact this.2.2
  have hwr := weight_split tb n
  have hsm := h1.small
  have htot := total_alloc (bs := new) (bots.all (·.sorted) && top.sorted) (fun b hb => (hnew b hb).2.1)
  refine ⟨_, _, Btree.look (tb.drop n), new.map Btree.look, fun k => ∃ x ∈ tb.take n, Elem.key k ≤ .key x.1, hf,
    reach_of hdn (fun x hx => h1.defs x (List.mem_of_mem_drop hx)) (by omega) _, reach_all _ hnew, ?_, ?_, ?_, ?_, ?_, ?_⟩
  · rw [List.length_map, m2, h4.length_eq]
  · rw [htot]; exact hfit
  · rintro k k' hk ⟨x, hx, hle⟩
    exact ⟨x, hx, le_trans hk hle⟩
  · intro k
    constructor
    · rintro ⟨x, hx, hle⟩
      exact Btree.look_none (fun y hy e => absurd (hcross x hx y hy) (by rw [e]; exact not_lt.2 hle))
    · intro hn
      have e : Btree.look (tb.take n) k = none := Btree.look_none (fun y hy e => hn ⟨y, hy, by rw [e]⟩)
      rw [← h2]
      conv => rhs; rw [← List.take_append_drop n tb]
      unfold Btree.look at e ⊢
      rw [List.find?_append]
      rw [Option.map_eq_none_iff] at e
      rw [e]
      rfl
  · intro i Mi Mi' e1 e2 k
    obtain ⟨b, eb, rfl⟩ := is_get h4 e1
    rw [List.getElem?_map] at e2
    obtain ⟨b', eb', rfl⟩ := Option.map_eq_some_iff.1 e2
    have hi : i < bs.length := (List.getElem?_eq_some_iff.1 eb).1
    obtain ⟨lo, hi', p1, p2⟩ := hslot i hi
    obtain ⟨g1, g2⟩ := m3 i lo hi' b b' p1 p2 eb eb'
    have hob := (hall b (List.mem_of_getElem? eb)).1
    have hbet : Between pt i k ↔ C66.Between lo hi' k := by
      constructor
      · rintro ⟨a, c, q1, q2, q3⟩
        rw [p1] at q1; rw [p2] at q2
        cases q1; cases q2
        exact q3
      · exact fun q => ⟨lo, hi', p1, p2, q⟩
    constructor
    · rintro ⟨⟨x, hx, hle⟩, hb, hm⟩
      obtain ⟨m, hm⟩ := Option.ne_none_iff_exists'.1 hm
      have hin := (hlist.2 k m).2 hm
      rw [← List.take_append_drop n tb] at hin
      rcases List.mem_append.1 hin with hin | hin
      · rw [hm]
        exact (C73.mem_look g1 k m).1 ((g2 k m).2 (.inl ⟨hin, hbet.1 hb⟩))
      · exact absurd (hcross x hx _ hin) (not_lt.2 hle)
    · intro hn
      have hno : ∀ m', ¬ ((k, m') ∈ tb.take n ∧ C66.Between lo hi' k) := by
        rintro m' ⟨q1, q2⟩
        exact hn ⟨⟨_, q1, le_refl _⟩, hbet.2 q2, by
          rw [(hlist.2 k m').1 (List.mem_of_mem_take q1)]; simp⟩
      apply Option.ext
      intro m
      rw [← C73.mem_look g1 k m, ← C73.mem_look hob k m, g2 k m]
      constructor
      · rintro (q | ⟨q, -⟩)
        · exact absurd q (hno m)
        · exact q
      · exact fun q => .inr ⟨q, fun ⟨m', q'⟩ => hno m' q'⟩
  · rw [htot]
    cases hr : tb.drop n with
    | nil => exact .inl (fun _ => rfl)
    | cons x rest =>
      obtain ⟨k, m⟩ := x
      rw [hr] at hdn
      refine .inr ⟨k, m, ?_, ?_, hfull k m rest hr⟩
      · exact (C73.mem_look hdn k m).1 List.mem_cons_self
      · intro k' hk'
        obtain ⟨m', hm'⟩ := Option.ne_none_iff_exists'.1 hk'
        rcases List.mem_cons.1 ((C73.mem_look hdn k' m').2 hm') with e | e
        · cases e; exact le_refl _
        · exact le_of_lt ((List.pairwise_cons.1 hdn).1 _ e)

/-! ### A case -/

/-- An upper bucket that is a tree, and two lower ones, the first a tree and the second packed and empty. -/
theorem demo : ∃ top low M Ml, Ready top M [.key [], .key [4], .top] [low, allocPkv (pkvOf []) false] [Ml, Btree.look []] ∧
    M [2] = some (.define [7]) ∧ M [5] = some (.define []) ∧ Ml [2] = some (.define [9, 9]) ∧
    Ml [3] = some (.define [1]) := by
  obtain ⟨t1, e1, r1⟩ := (C90.goes_on .alloc).1 [5] (.define []) (by unfold C90.Room; decide)
  have q1 : t1 = ⟨.tree (.leaf [[5]] [.define []]), 9, true⟩ := Option.some.inj (e1.symm.trans rfl)
  obtain ⟨t2, e2, r2⟩ := (C90.goes_on r1).1 [2] (.define [7]) (by rw [q1]; unfold C90.Room; decide)
  obtain ⟨l1, e3, r3⟩ := (C90.goes_on .alloc).1 [2] (.define [9, 9]) (by unfold C90.Room; decide)
  have q3 : l1 = ⟨.tree (.leaf [[2]] [.define [9, 9]]), 11, true⟩ := Option.some.inj (e3.symm.trans rfl)
  obtain ⟨l2, e4, r4⟩ := (C90.goes_on r3).1 [3] (.define [1]) (by rw [q3]; unfold C90.Room; decide)
  have q4 : l2 = ⟨.tree (.leaf [[2], [3]] [.define [9, 9], .define [1]]), 21, true⟩ := by
    rw [q3] at e4
    exact Option.some.inj (e4.symm.trans rfl)
  refine ⟨t2, l2, _, _, ⟨r2, .cons r4 (.cons (reach_of .nil (fun _ h => nomatch h) (by decide) _) .nil), by decide, rfl, ?_, ?_⟩,
    rfl, rfl, rfl, rfl⟩
  · intro k hk
    by_cases h : k = [2]
    · subst h
      exact ⟨0, Nat.zero_lt_two, _, _, rfl, rfl, by decide, by decide⟩
    · by_cases h' : k = [5]
      · subst h'
        exact ⟨1, Nat.one_lt_two, _, _, rfl, rfl, by decide, by decide⟩
      · exact absurd (by simp [C90.put, h, h']) hk
  · rw [q4]
    decide

end Verif.C91
