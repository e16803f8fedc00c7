import Verif.Kv.PackedTranslate
import Verif.Props.C89
import Verif.Props.C91

/-!
C92.  A bucket in memory translated from one prefix to another, as when a clone of a range of keys is followed
down the tree, is the map that answers for a key with the new prefix what the bucket answers for the same key
with the old one, and has no other keys.  The translation never reaches outside an array once the check before
it has said that the result fits, whatever form the bucket is in; the check always answers, and never turns
down a bucket of a node.

Specification: `Map` and `Reach` of C90, what buckets stand for; `renamed`.
-/

namespace Verif.C92
open Kv Kv.SectorBytes Kv.MutBucket
open Betree (Message)
open C90 (Map Reach)

/-- The map under the new prefix. -/
def renamed (M : Map) (pre new : Key) : Map :=
  fun k => if new <+: k then M (pre ++ k.drop new.length) else none

/-- The longest key, `KeyType.MaxLen`. -/
def maxKey : Nat := 1024

/-! ### Proofs -/

/-- The translated entries. -/
def tr (pre new : Key) (b : Entries) : Entries :=
  b.filterMap (fun x => if pre.isPrefixOf x.1 then some (Pivot.changePrefix pre new x.1, x.2) else none)

theorem mem_tr {pre new : Key} {b : Entries} {k : Key} {m : Message} :
    (k, m) ∈ tr pre new b ↔ ∃ s, k = new ++ s ∧ (pre ++ s, m) ∈ b := by
  unfold tr
  rw [List.mem_filterMap]
  constructor
  · rintro ⟨⟨k', m'⟩, hx, e⟩
    split at e
    · rename_i hp
      obtain ⟨s, rfl⟩ := List.isPrefixOf_iff_prefix.1 hp
      cases e
      exact ⟨s, by simp [Pivot.changePrefix], hx⟩
    · cases e
  · rintro ⟨s, rfl, hx⟩
    refine ⟨_, hx, ?_⟩
    rw [if_pos (List.isPrefixOf_iff_prefix.2 (List.prefix_append _ _))]
    simp [Pivot.changePrefix]

theorem tr_ordered {pre new : Key} {b : Entries} (h : Ordered b) : Ordered (tr pre new b) := by
  refine List.Pairwise.filterMap _ ?_ h
  rintro ⟨k, m⟩ ⟨k', m'⟩ hlt x hx y hy
  split at hx
  · rename_i h1
    split at hy
    · rename_i h2
      cases hx; cases hy
      obtain ⟨s, rfl⟩ := List.isPrefixOf_iff_prefix.1 h1
      obtain ⟨s', rfl⟩ := List.isPrefixOf_iff_prefix.1 h2
      show Elem.key (Pivot.changePrefix pre new (pre ++ s)) < .key (Pivot.changePrefix pre new (pre ++ s'))
      simp only [Pivot.changePrefix, List.drop_left]
      exact (Elem.append_lt new).2 ((Elem.append_lt pre).1 hlt)
    · cases hy
  · cases hx

theorem tr_defs {pre new : Key} {b : Entries} (h : Defs b) : Defs (tr pre new b) := by
  rintro ⟨k, m⟩ hx
  obtain ⟨s, -, hx⟩ := mem_tr.1 hx
  exact h (pre ++ s, m) hx

theorem tr_weight (pre new : Key) (b : Entries) :
    bucketWeight (tr pre new b) ≤ bucketWeight b + b.length * (new.length - pre.length) := by
  induction b with
  | nil => exact Nat.zero_le _
  | cons x b ih =>
    have hl : (x :: b).length * (new.length - pre.length) = b.length * (new.length - pre.length) + (new.length - pre.length) := by
      rw [List.length_cons, Nat.succ_mul]
    rw [hl, weight_cons]
    unfold tr at ih ⊢
    rw [List.filterMap_cons]
    split
    · omega
    · rename_i y hy
      split at hy
      · rename_i hp
        obtain ⟨s, hs⟩ := List.isPrefixOf_iff_prefix.1 hp
        cases hy
        rw [weight_cons]
        have h1 : x.1.length = pre.length + s.length := by rw [← hs, List.length_append]
        have h2 : (Pivot.changePrefix pre new x.1).length = new.length + (x.1.length - pre.length) := by
          simp [Pivot.changePrefix]
        dsimp only
        rw [h2]
        omega
      · cases hy

theorem changeFrom_spec (pre new : Key) (b : Entries) : ∀ (left i : Nat), i + left = b.length →
    changeFrom (pkvOf b) pre new i left = some ((tr pre new (b.drop i)).map (fun x => (x.1, messageBytes x.2)))
  | 0, i, h => by
    rw [List.drop_of_length_le (by omega)]
    rfl
  | left + 1, i, h => by
    have hi : i < b.length := by omega
    rw [changeFrom, keyElement, messageElement, List.getElem?_eq_getElem hi, changeFrom_spec pre new b left (i + 1) (by omega),
      List.drop_eq_getElem_cons hi]
    simp only [Option.map_some, Option.bind_eq_bind, Option.bind_some, tr, List.filterMap_cons]
    split <;> rfl

theorem made_psa (ss : List (List UInt8)) (h1 : ss.length < 2 ^ 32) (h2 : ss.flatten.length < 2 ^ 32) :
    fromStrings ss = some (psaOf ss) := by
  obtain ⟨p, e, hp, -, hel⟩ := C89.made ss h1 h2
  rw [e, C89.unique hp (psa_wf h1 h2) (fun i => by rw [hel, element_psaOf])]

theorem length_weight {b : Entries} (h : Defs b) : 8 * b.length ≤ bucketWeight b := by
  have := pkv_weight (b := b) h
  omega

theorem look_tr {pre new : Key} {b : Entries} {M : Map} (h : Ordered b) (hm : C90.Is M b) :
    Btree.look (tr pre new b) = renamed M pre new := by
  have hl := C90.listing h hm
  funext k
  apply Option.ext
  intro m
  rw [← C73.mem_look (tr_ordered h) k m, mem_tr]
  unfold renamed
  constructor
  · rintro ⟨s, rfl, hx⟩
    rw [if_pos (List.prefix_append _ _), List.drop_left]
    exact (hl.2 _ _).1 hx
  · intro e
    split at e
    · rename_i hp
      obtain ⟨s, rfl⟩ := hp
      rw [List.drop_left] at e
      exact ⟨s, rfl, (hl.2 _ _).2 e⟩
    · cases e

theorem fits_inv {mb : MB} {b : Entries} (h : Inv mb b) (pre new : Key) : mb.translateFits pre new =
    some (decide (new.length ≤ pre.length) || decide (b.length * 1024 < 2 ^ 32 ∧ bucketWeight b + b.length * 1024 < 2 ^ 32)) := by
  unfold MB.translateFits
  split
  · rename_i hn
    simp [hn]
  · rename_i hn
    rw [h.getPkvSorted, Option.bind_eq_bind, Option.bind_some, pkvOf_length, h.weight]
    simp [hn]

/-! ### The claims -/

/-- **The translation.** -/
theorem translates {mb : MB} {M : Map} (h : Reach mb M) {pre new : Key} (hn : new.length ≤ maxKey)
    (hf : mb.translateFits pre new = some true) :
    ∃ mb', mb.translate pre new = some mb' ∧ Reach mb' (renamed M pre new) := by
  obtain ⟨b, h1, h2⟩ := C90.invariant h
  have hw : bucketWeight (tr pre new b) < 2 ^ 32 := by
    have hle := tr_weight pre new b
    have hs := h1.small
    rw [fits_inv h1] at hf
    rcases Bool.or_eq_true_iff.1 (Option.some.inj hf) with hf | hf
    · have hz : new.length - pre.length = 0 := Nat.sub_eq_zero_of_le (of_decide_eq_true hf)
      rw [hz] at hle
      omega
    · have hf := (of_decide_eq_true hf).2
      have : b.length * (new.length - pre.length) ≤ b.length * 1024 := Nat.mul_le_mul_left _ (by unfold maxKey at hn; omega)
      omega
  have hd : Defs (tr pre new b) := tr_defs h1.defs
  have hp := pkv_weight (b := tr pre new b) hd
  refine ⟨allocPkv (pkvOf (tr pre new b)) mb.sorted, ?_, ?_⟩
  · unfold MB.translate
    rw [h1.getPkvSorted, Option.bind_eq_bind, Option.bind_some, pkvOf_length, changeFrom_spec pre new b _ 0 (by omega)]
    rw [List.drop_zero, Option.bind_eq_bind, Option.bind_some, List.map_map, List.map_map]
    rw [made_psa _ (by rw [List.length_map]; omega) (by
      have : (List.map ((fun x : Key × List UInt8 => x.1) ∘ fun x : Key × Message => (x.1, messageBytes x.2)) (tr pre new b)) =
        (tr pre new b).map (fun x : Key × Message => x.1) := rfl
      rw [this]; omega), made_psa _ (by rw [List.length_map]; omega) (by
      have : (List.map ((fun x : Key × List UInt8 => x.2) ∘ fun x : Key × Message => (x.1, messageBytes x.2)) (tr pre new b)) =
        (tr pre new b).map (fun x : Key × Message => messageBytes x.2) := rfl
      rw [this]; omega)]
    rfl
  · rw [← look_tr h1.ordered h2]
    exact C91.reach_of (tr_ordered h1.ordered) hd hw _

/-- **The check always answers**, and turns down no bucket that a node may hold, nor one whose keys do not grow. -/
theorem checks {mb : MB} {M : Map} (h : Reach mb M) (pre new : Key) :
    ∃ r, mb.translateFits pre new = some r ∧ (mb.weight ≤ maxWeight ∨ new.length ≤ pre.length → r = true) := by
  obtain ⟨b, h1, -⟩ := C90.invariant h
  refine ⟨_, fits_inv h1 pre new, ?_⟩
  rintro (hw | hw)
  · rw [h1.weight] at hw
    have := length_weight h1.defs
    have hm : maxWeight = 2031616 := rfl
    rw [decide_eq_true (p := _ ∧ _) ⟨by omega, by omega⟩, Bool.or_true]
  · rw [decide_eq_true hw, Bool.true_or]

/-- The check of all the buckets of a node says yes, and each of them can then be translated. -/
theorem checks_all {bots : List MB} {Ms : List Map} (h : List.Forall₂ Reach bots Ms) (pre new : Key) :
    ∃ r, allFit pre new bots = some r ∧ (C91.total bots ≤ maxWeight → r = true) ∧
      (r = true → ∀ mb ∈ bots, mb.translateFits pre new = some true) := by
  induction h with
  | nil => exact ⟨true, rfl, fun _ => rfl, fun _ _ hm => by cases hm⟩
  | @cons mb M bots Ms h _ ih =>
    obtain ⟨r, e, h1, h2⟩ := ih
    obtain ⟨r', e', h3⟩ := checks h pre new
    have ht : C91.total (mb :: bots) = mb.weight + C91.total bots := by simp [C91.total]
    cases r' with
    | false =>
      refine ⟨false, by simp [allFit, e'], fun hw => ?_, fun hr => by cases hr⟩
      exact absurd (h3 (.inl (by omega))) (by decide)
    | true =>
      refine ⟨r, by simp [allFit, e', e], fun hw => h1 (by omega), fun hr x hx => ?_⟩
      rcases List.mem_cons.1 hx with rfl | hx
      · exact e'
      · exact h2 hr x hx

/-! ### A case -/

/-- Of two keys one has the prefix, and is found under a longer one. -/
theorem demo : ∃ mb M mb' M', Reach mb M ∧ M [1, 5] = some (.define [7]) ∧ M [2] = some (.define []) ∧
    mb.translate [1] [9, 9] = some mb' ∧ Reach mb' M' ∧ M' [9, 9, 5] = some (.define [7]) ∧ M' [1, 5] = none ∧ M' [2] = none := by
  obtain ⟨t1, e1, r1⟩ := (C90.goes_on .alloc).1 [2] (.define []) (by unfold C90.Room; decide)
  have q1 : t1 = ⟨.tree (.leaf [[2]] [.define []]), 9, true⟩ := Option.some.inj (e1.symm.trans rfl)
  obtain ⟨t2, e2, r2⟩ := (C90.goes_on r1).1 [1, 5] (.define [7]) (by rw [q1]; unfold C90.Room; decide)
  have q2 : t2 = ⟨.tree (.leaf [[1, 5], [2]] [.define [7], .define []]), 20, true⟩ := by
    rw [q1] at e2
    exact Option.some.inj (e2.symm.trans rfl)
  obtain ⟨r, e3, h3⟩ := checks r2 [1] [9, 9]
  have h3 := h3 (.inl (by rw [q2]; decide))
  subst h3
  obtain ⟨mb', e4, r4⟩ := translates r2 (by decide) e3
  exact ⟨t2, _, mb', _, r2, rfl, rfl, e4, r4, rfl, rfl, rfl⟩

end Verif.C92
