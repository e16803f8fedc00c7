import Verif.Kv.PackedIter
import Verif.Props.C92

/-!
C93.  An iterator over a bucket in memory, from its beginning, from a key on or from above a key, and over all
entries or over those with a prefix, gives exactly the entries it should, each once, in the order of their
keys, and then says that it is at the end; those with a prefix come under the other prefix.  No step reaches
outside an array, whatever form the bucket is in.

Specification: `Map` and `Reach` of C90, what buckets stand for; `Gives`, stepping an iterator to its end;
`Shown` and `Lists`, what should come.
-/

namespace Verif.C93
open Kv Kv.SectorBytes Kv.MutBucket
open Betree (Message)
open C90 (Map Reach)
open Pivot (PrefixSet)

/-- What an iterator gives when it is stepped to its end. -/
inductive Gives : Iter → List (Key × Message) → Prop where
  | done {it} : it.next = some none → Gives it []
  | step {it x it' l} : it.next = some (some x) → it.inc = some it' → Gives it' l → Gives it (x :: l)

/-- The key `k'` of the bucket comes as `k`. -/
def Shown (pset : Option PrefixSet) (k' k : Key) : Prop :=
  match pset with
  | none => k = k'
  | some s => ∃ t, k' = s.pre ++ t ∧ k = s.new ++ t

/-- In order, exactly the entries of the map whose keys come and are among those asked for. -/
def Lists (M : Map) (pset : Option PrefixSet) (asked : Key → Prop) (l : List (Key × Message)) : Prop :=
  C90.InOrder l ∧ ∀ k m, (k, m) ∈ l ↔ ∃ k', Shown pset k' k ∧ asked k' ∧ M k' = some m

/-! ### Proofs -/

/-- The entries as they come. -/
def shown (pset : Option PrefixSet) (b : Entries) : Entries :=
  match pset with
  | none => b
  | some s => C92.tr s.pre s.new b

theorem shown_mem {pset : Option PrefixSet} {b : Entries} {k : Key} {m : Message} :
    (k, m) ∈ shown pset b ↔ ∃ k', Shown pset k' k ∧ (k', m) ∈ b := by
  cases pset with
  | none =>
    constructor
    · exact fun h => ⟨k, rfl, h⟩
    · rintro ⟨k', e, h⟩
      cases e
      exact h
  | some s =>
    refine C92.mem_tr.trans ⟨?_, ?_⟩
    · rintro ⟨t, e, h⟩
      exact ⟨_, ⟨t, rfl, e⟩, h⟩
    · rintro ⟨k', ⟨t, rfl, e⟩, h⟩
      exact ⟨t, e, h⟩

theorem shown_ordered {pset : Option PrefixSet} {b : Entries} (h : Ordered b) : Ordered (shown pset b) := by
  cases pset with
  | none => exact h
  | some s => exact C92.tr_ordered h

theorem tr_nil {pre new : Key} {l : Entries} (h : ∀ x ∈ l, ¬ pre <+: x.1) : C92.tr pre new l = [] := by
  unfold C92.tr
  rw [List.filterMap_eq_nil_iff]
  intro x hx
  rw [if_neg (fun hp => h x hx (List.isPrefixOf_iff_prefix.1 hp))]

theorem tr_skip {pre new : Key} {b : Entries} {i j : Nat} (hij : i ≤ j) (h : ∀ x ∈ b.take j, ¬ pre <+: x.1) :
    C92.tr pre new (b.drop i) = C92.tr pre new (b.drop j) := by
  have e : b.drop i = (b.take j).drop i ++ b.drop j := by
    conv => lhs; rw [← List.take_append_drop j b]
    by_cases hj : j ≤ b.length
    · rw [List.drop_append_of_le_length (by rw [List.length_take]; omega)]
    · rw [List.drop_of_length_le (i := j) (by omega), List.append_nil, List.append_nil]
  have e' : C92.tr pre new ((b.take j).drop i ++ b.drop j) =
      C92.tr pre new ((b.take j).drop i) ++ C92.tr pre new (b.drop j) := List.filterMap_append
  rw [e, e', tr_nil (fun x hx => h x (List.mem_of_mem_drop hx)), List.nil_append]

theorem seek_at {b : Entries} (hs : Ordered b) {below : List UInt8 → Bool} {l : Nat} (hl : l ≤ b.length)
    (hmono : ∀ x y, Elem.key x < .key y → below y = true → below x = true)
    (hlow : ∀ x, 0 < l → b[l - 1]? = some x → below x.1 = true) :
    (pkvOf b).keys.seek below ((pkvOf b).keys.offsets.length + 1) l ((pkvOf b).keys.offsets.length + 1) =
      some (b.takeWhile (fun x => below x.1)).length := by
  have hlen : (List.map (fun x : Key × Message => x.1) b).length = b.length := List.length_map _
  have := seek_whole (ss := List.map (fun x : Key × Message => x.1) b) (below := below) (l := l) (by omega) (by
      intro i j x y hij hx hy hq
      rw [List.getElem?_map] at hx hy
      obtain ⟨x', hx', rfl⟩ := Option.map_eq_some_iff.1 hx
      obtain ⟨y', hy', rfl⟩ := Option.map_eq_some_iff.1 hy
      obtain ⟨a1, rfl⟩ := List.getElem?_eq_some_iff.1 hx'
      obtain ⟨a2, rfl⟩ := List.getElem?_eq_some_iff.1 hy'
      exact hmono _ _ (List.pairwise_iff_getElem.1 hs _ _ a1 a2 hij) hq)
    (by
      intro x h0 hx
      rw [List.getElem?_map] at hx
      obtain ⟨x', hx', rfl⟩ := Option.map_eq_some_iff.1 hx
      exact hlow x' h0 hx')
  rw [pkvOf_length, ← hlen]
  refine Eq.trans this ?_
  rw [List.takeWhile_map, List.length_map]
  rfl

theorem take_len (p : Key × Message → Bool) (b : Entries) : b.take (b.takeWhile p).length = b.takeWhile p := by
  conv => lhs; arg 2; rw [← List.takeWhile_append_dropWhile (p := p) (l := b)]
  exact List.take_left' rfl

theorem drop_len (p : Key × Message → Bool) (b : Entries) : b.drop (b.takeWhile p).length = b.dropWhile p := by
  conv => lhs; arg 2; rw [← List.takeWhile_append_dropWhile (p := p) (l := b)]
  exact List.drop_left' rfl

theorem mem_dropWhile {below : Key → Bool} (hmono : ∀ x y, Elem.key x < .key y → below y = true → below x = true) :
    ∀ {b : Entries}, Ordered b → ∀ x, x ∈ b.dropWhile (fun x => below x.1) ↔ x ∈ b ∧ below x.1 = false
  | [], _, x => by simp
  | y :: b, h, x => by
    have h' := List.pairwise_cons.1 h
    rw [List.dropWhile_cons]
    split
    · rename_i hy
      rw [mem_dropWhile hmono h'.2, List.mem_cons]
      constructor
      · exact fun ⟨a, c⟩ => ⟨.inr a, c⟩
      · rintro ⟨rfl | a, c⟩
        · rw [hy] at c; cases c
        · exact ⟨a, c⟩
    · rename_i hy
      refine ⟨fun hx => ⟨hx, ?_⟩, fun hx => hx.1⟩
      rcases List.mem_cons.1 hx with rfl | hx
      · exact Bool.not_eq_true _ ▸ hy
      · rw [← Bool.not_eq_true]
        exact fun hb => hy (hmono _ _ (h'.1 x hx) hb)

theorem none_after {b : Entries} (hs : Ordered b) {pre : Key} {i : Nat} (hi : i < b.length)
    (hge : Elem.key pre ≤ .key b[i].1) (hn : ¬ pre <+: b[i].1) : ∀ x ∈ b.drop i, ¬ pre <+: x.1 := by
  intro x hx ⟨s, e⟩
  have hle : Elem.key b[i].1 ≤ .key x.1 := by
    have ho := ordered_drop hs i
    rw [List.drop_eq_getElem_cons hi] at hx ho
    rcases List.mem_cons.1 hx with rfl | hx
    · exact le_refl _
    · exact le_of_lt ((List.pairwise_cons.1 ho).1 x hx)
  rw [← e] at hle
  exact hn (prefix_between (key_le.1 hge) (key_le.1 hle))

theorem next_spec {b : Entries} (hs : Ordered b) (pre : Key) {i : Nat} (hi : i ≤ b.length) :
    ∃ j, nextWithPrefix (pkvOf b) pre i = some j ∧ i ≤ j ∧ j ≤ b.length ∧
      (∀ new, C92.tr pre new (b.drop i) = C92.tr pre new (b.drop j)) ∧ (∀ h : j < b.length, pre <+: b[j].1) := by
  have hend : (∀ x ∈ b.drop i, ¬ pre <+: x.1) →
      i ≤ b.length ∧ b.length ≤ b.length ∧ (∀ new, C92.tr pre new (b.drop i) = C92.tr pre new (b.drop b.length)) ∧
        (∀ h : b.length < b.length, pre <+: b[b.length].1) := fun hn =>
    ⟨hi, le_refl _, fun new => by rw [tr_nil hn, List.drop_length]; rfl, fun h => absurd h (lt_irrefl _)⟩
  unfold nextWithPrefix
  rw [pkvOf_length]
  split
  · rename_i hlt
    rw [keyElement, List.getElem?_eq_getElem hlt, Option.map_some, Option.bind_eq_bind, Option.bind_some]
    split
    · rename_i hp
      exact ⟨i, rfl, le_refl _, hi, fun _ => rfl, fun _ => List.isPrefixOf_iff_prefix.1 hp⟩
    · rename_i hp
      have hp : ¬ pre <+: b[i].1 := fun h => hp (List.isPrefixOf_iff_prefix.2 h)
      split
      · rename_i hk
        have hmono : ∀ x y : Key, Elem.key x < .key y → decide (Elem.key y < .key pre) = true →
            decide (Elem.key x < .key pre) = true := fun x y h1 h2 => decide_eq_true (lt_trans h1 (of_decide_eq_true h2))
        have hseek := seek_at hs (below := fun x => decide (Elem.key x < .key pre)) (l := i + 1) (by omega) hmono (by
          intro x _ hx
          rw [Nat.add_sub_cancel, List.getElem?_eq_getElem hlt] at hx
          cases hx
          exact decide_eq_true hk)
        have hlow := take_len (fun x => decide (Elem.key x.1 < .key pre)) b
        have hhigh := drop_len (fun x => decide (Elem.key x.1 < .key pre)) b
        have hle : (b.takeWhile (fun x => decide (Elem.key x.1 < .key pre))).length ≤ b.length :=
          (List.takeWhile_sublist _).length_le
        have hmem := fun x => mem_dropWhile (below := fun x => decide (Elem.key x < .key pre)) hmono hs x
        unfold Psa.firstGteFrom
        rw [hseek]
        show ∃ j, (if _ < b.length then _ else _) = some j ∧ _
        revert hlow hhigh hle
        generalize (b.takeWhile (fun x => decide (Elem.key x.1 < .key pre))).length = c
        intro hlow hhigh hle
        have hlo : ∀ x ∈ b.take c, ¬ pre <+: x.1 := by
          intro x hx hp
          rw [hlow] at hx
          have h1 := List.all_takeWhile (p := fun x : Key × Message => decide (Elem.key x.1 < .key pre)) (l := b)
          rw [List.all_eq_true] at h1
          exact absurd (of_decide_eq_true (h1 x hx)) (not_lt.2 (Elem.prefix_le hp))
        have hhi : ∀ x ∈ b.drop c, Elem.key pre ≤ .key x.1 := by
          intro x hx
          rw [hhigh] at hx
          exact not_lt.1 (of_decide_eq_false ((hmem x).1 hx).2)
        have hic : i < c := by
          by_contra hc
          have : b[i] ∈ b.drop c := List.mem_drop_iff_getElem.2 ⟨i - c, by omega, by congr 1; omega⟩
          exact absurd hk (not_lt.2 (hhi _ this))
        have hrest : (∀ x ∈ b.drop c, ¬ pre <+: x.1) → ∀ x ∈ b.drop i, ¬ pre <+: x.1 := by
          intro hn x hx
          have hx := List.mem_of_mem_drop hx
          rw [← List.take_append_drop c b] at hx
          rcases List.mem_append.1 hx with hx | hx
          · exact hlo x hx
          · exact hn x hx
        split
        · rename_i hcl
          rw [keyElement, List.getElem?_eq_getElem hcl, Option.map_some, Option.bind_some]
          split
          · rename_i hq
            exact ⟨c, rfl, by omega, hle, fun new => tr_skip (by omega) hlo, fun _ => List.isPrefixOf_iff_prefix.1 hq⟩
          · rename_i hq
            refine ⟨_, rfl, hend (hrest (none_after hs hcl (hhi _ ?_) (fun h => hq (List.isPrefixOf_iff_prefix.2 h))))⟩
            rw [List.drop_eq_getElem_cons hcl]
            exact List.mem_cons_self
        · rename_i hcl
          refine ⟨_, rfl, hend (hrest ?_)⟩
          rw [List.drop_of_length_le (by omega)]
          intro x hx
          cases hx
      · rename_i hk
        exact ⟨_, rfl, hend (none_after hs hlt (not_lt.1 hk) hp)⟩
  · refine ⟨_, rfl, hend ?_⟩
    rw [List.drop_of_length_le (by omega)]
    intro x hx
    cases hx

theorem next_at {b : Entries} (hd : Defs b) (pset : Option PrefixSet) {j : Nat} (hj : j < b.length) :
    (⟨pset, j, pkvOf b⟩ : Iter).next = some (some (Pivot.applyPrefix pset b[j].1, b[j].2)) := by
  unfold Iter.next
  dsimp only
  rw [pkvOf_length, if_neg (by omega), keyElement, messageElement, List.getElem?_eq_getElem hj]
  have hn := hd _ (List.getElem_mem hj)
  revert hn
  generalize b[j] = x
  obtain ⟨k, m⟩ := x
  intro hn
  cases m with
  | define v => rfl
  | update => exact absurd rfl hn

theorem next_end (b : Entries) (pset : Option PrefixSet) : (⟨pset, b.length, pkvOf b⟩ : Iter).next = some none := by
  unfold Iter.next
  rw [if_pos (pkvOf_length b).symm]

theorem settle_gives {b : Entries} (hs : Ordered b) (hd : Defs b) (pset : Option PrefixSet) (i : Nat) (hi : i ≤ b.length) :
    ∃ it, settle (pkvOf b) pset i = some it ∧ Gives it (shown pset (b.drop i)) := by
  cases pset with
  | none =>
    refine ⟨_, rfl, ?_⟩
    rcases Nat.eq_or_lt_of_le hi with rfl | hlt
    · rw [List.drop_length]
      exact .done (next_end b none)
    · obtain ⟨it, e, g⟩ := settle_gives hs hd none (i + 1) hlt
      rw [List.drop_eq_getElem_cons hlt]
      exact .step (next_at hd none hlt) e g
  | some s =>
    obtain ⟨j, e1, e2, e3, e4, e5⟩ := next_spec hs s.pre hi
    refine ⟨⟨some s, j, pkvOf b⟩, by simp [settle, e1], ?_⟩
    show Gives _ (C92.tr s.pre s.new (b.drop i))
    rw [e4]
    rcases Nat.eq_or_lt_of_le e3 with rfl | hlt
    · rw [List.drop_length]
      exact .done (next_end b (some s))
    · obtain ⟨it, e, g⟩ := settle_gives hs hd (some s) (j + 1) hlt
      rw [List.drop_eq_getElem_cons hlt]
      have : C92.tr s.pre s.new (b[j] :: b.drop (j + 1)) =
          (Pivot.applyPrefix (some s) b[j].1, b[j].2) :: C92.tr s.pre s.new (b.drop (j + 1)) := by
        unfold C92.tr
        rw [List.filterMap_cons, if_pos (List.isPrefixOf_iff_prefix.2 (e5 hlt))]
        rfl
      rw [this]
      exact .step (next_at hd (some s) hlt) e g
  termination_by b.length - i

theorem lists_of {M : Map} {b l : Entries} (h : Ordered b) (hm : C90.Is M b) (pset : Option PrefixSet) {asked : Key → Prop}
    (hl : Ordered l) (hx : ∀ k m, (k, m) ∈ l ↔ (k, m) ∈ b ∧ asked k) : Lists M pset asked (shown pset l) := by
  refine ⟨shown_ordered hl, fun k m => shown_mem.trans ?_⟩
  have := C90.listing h hm
  constructor
  · rintro ⟨k', h1, h2⟩
    obtain ⟨h2, h3⟩ := (hx k' m).1 h2
    exact ⟨k', h1, h3, (this.2 k' m).1 h2⟩
  · rintro ⟨k', h1, h2, h3⟩
    exact ⟨k', h1, (hx k' m).2 ⟨(this.2 k' m).2 h3, h2⟩⟩

/-! ### The claims -/

/-- **From the beginning.** -/
theorem from_start {mb : MB} {M : Map} (h : Reach mb M) (pset : Option PrefixSet) :
    ∃ it l, mb.iterStart pset = some it ∧ Gives it l ∧ Lists M pset (fun _ => True) l := by
  obtain ⟨b, h1, h2⟩ := C90.invariant h
  obtain ⟨it, e, g⟩ := settle_gives h1.ordered h1.defs pset 0 (Nat.zero_le _)
  refine ⟨it, _, ?_, g, lists_of h1.ordered h2 pset h1.ordered (fun k m => by simp)⟩
  unfold MB.iterStart
  rw [h1.getPkvSorted, Option.bind_eq_bind, Option.bind_some, e]

theorem sought {b : Entries} (h : Ordered b) (hd : Defs b) (pset : Option PrefixSet) {below : Key → Bool}
    (hmono : ∀ x y, Elem.key x < .key y → below y = true → below x = true) :
    ∃ i it, (pkvOf b).keys.seek below ((pkvOf b).keys.offsets.length + 1) 0 ((pkvOf b).keys.offsets.length + 1) = some i ∧
      settle (pkvOf b) pset i = some it ∧ ∃ l, Gives it (shown pset l) ∧ Ordered l ∧
        ∀ k m, (k, m) ∈ l ↔ (k, m) ∈ b ∧ below k = false := by
  obtain ⟨it, e, g⟩ := settle_gives h hd pset (b.takeWhile (fun x => below x.1)).length (List.takeWhile_sublist _).length_le
  refine ⟨_, it, seek_at h (Nat.zero_le _) hmono (fun _ h => absurd h (lt_irrefl _)), e, _, g, ordered_drop h _, fun k m => ?_⟩
  rw [drop_len]
  exact mem_dropWhile hmono h (k, m)

/-- **From a key on.** -/
theorem from_key {mb : MB} {M : Map} (h : Reach mb M) (pset : Option PrefixSet) (key : Key) :
    ∃ it l, mb.iterGte pset key = some it ∧ Gives it l ∧ Lists M pset (fun k => Elem.key key ≤ .key k) l := by
  obtain ⟨b, h1, h2⟩ := C90.invariant h
  obtain ⟨i, it, e1, e2, l, g, ho, hm⟩ := sought h1.ordered h1.defs pset (below := fun x => decide (Elem.key x < .key key))
    (fun x y hl hb => decide_eq_true (lt_trans hl (of_decide_eq_true hb)))
  refine ⟨it, _, ?_, g, lists_of h1.ordered h2 pset ho (fun k m => by rw [hm]; simp)⟩
  unfold MB.iterGte Psa.firstGte Psa.firstGteFrom
  rw [h1.getPkvSorted, Option.bind_eq_bind, Option.bind_some, e1, Option.bind_eq_bind, Option.bind_some, e2]

/-- **From above a key.** -/
theorem above_key {mb : MB} {M : Map} (h : Reach mb M) (pset : Option PrefixSet) (key : Key) :
    ∃ it l, mb.iterGt pset key = some it ∧ Gives it l ∧ Lists M pset (fun k => Elem.key key < .key k) l := by
  obtain ⟨b, h1, h2⟩ := C90.invariant h
  obtain ⟨i, it, e1, e2, l, g, ho, hm⟩ := sought h1.ordered h1.defs pset (below := fun x => decide (Elem.key x ≤ .key key))
    (fun x y hl hb => decide_eq_true (le_trans (le_of_lt hl) (of_decide_eq_true hb)))
  refine ⟨it, _, ?_, g, lists_of h1.ordered h2 pset ho (fun k m => by rw [hm]; simp)⟩
  unfold MB.iterGt Psa.firstGt
  rw [h1.getPkvSorted, Option.bind_eq_bind, Option.bind_some, e1, Option.bind_eq_bind, Option.bind_some, e2]

/-- An iterator gives one list. -/
theorem one_list {it : Iter} {l l' : List (Key × Message)} (h : Gives it l) (h' : Gives it l') : l = l' := by
  induction h generalizing l' with
  | done e =>
    cases h' with
    | done => rfl
    | step e' => rw [e] at e'; cases e'
  | step e1 e2 _ ih =>
    cases h' with
    | done e' => rw [e1] at e'; cases e'
    | step e1' e2' g =>
      rw [e1] at e1'; rw [e2] at e2'
      cases e1'; cases e2'
      rw [ih g]

/-! ### A case -/

/-- Of three keys two have the prefix, one of them is above the key asked for. -/
theorem demo : ∃ mb M, Reach mb M ∧ M [1, 5] = some (.define [7]) ∧ M [1, 6] = some (.define [8]) ∧ M [2] = some (.define []) ∧
    ∃ it l, mb.iterGt (some ⟨[1], [9, 9]⟩) [1, 5] = some it ∧ Gives it l ∧ ([9, 9, 6], Message.define [8]) ∈ l ∧
      (∀ m, ([9, 9, 5], m) ∉ l) ∧ ∀ m, ([2], m) ∉ l := by
  let b : Entries := [([1, 5], .define [7]), ([1, 6], .define [8]), ([2], .define [])]
  have hb : Defs b := by
    intro x hx
    simp only [b, List.mem_cons, List.not_mem_nil, or_false] at hx
    rcases hx with rfl | rfl | rfl <;> exact fun e => by cases e
  have r := C91.reach_of (b := b) (by unfold Ordered; decide) hb (by decide) true
  obtain ⟨it, l, e, g, hl⟩ := above_key r (some ⟨[1], [9, 9]⟩) [1, 5]
  refine ⟨_, _, r, rfl, rfl, rfl, it, l, e, g, (hl.2 _ _).2 ⟨[1, 6], ⟨[6], rfl, rfl⟩, by decide, rfl⟩, ?_, ?_⟩
  · intro m hm
    obtain ⟨k', ⟨t, rfl, et⟩, hlt, -⟩ := (hl.2 _ _).1 hm
    have : t = [5] := by simpa using et.symm
    subst this
    exact lt_irrefl _ hlt
  · intro m hm
    obtain ⟨k', ⟨t, rfl, et⟩, -⟩ := (hl.2 _ _).1 hm
    simp at et

end Verif.C93
