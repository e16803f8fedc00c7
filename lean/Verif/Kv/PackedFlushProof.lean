import Verif.Kv.PackedFlush
import Verif.Kv.MutBucketProof
import Verif.Kv.TreeFlush
/-
The flush of packed buckets is the flush of the lists of their entries. No code is modelled here.
-/
namespace Verif.Kv.MutBucket
open SectorBytes
open Betree (Message)
open TreeImpl (mergeOne mergeIter partialFlush mergeOne_weight)

/-- The growing arrays hold these entries. -/
def DHolds (d : DPkv) (b : Entries) : Prop := Holds d.1 (b.map (·.1)) ∧ Holds d.2 (b.map (fun x => messageBytes x.2))

theorem DHolds.pkv {d : DPkv} {b : Entries} (h : DHolds d b) : dynPkv d = some (pkvOf b) := by
  unfold dynPkv
  rw [h.1.toPsa, h.2.toPsa]
  rfl

theorem weight_cons (x : Key × Message) (l : Entries) :
    bucketWeight (x :: l) = 4 + x.1.length + messageWeight x.2 + bucketWeight l := by
  simp [bucketWeight]

theorem weight_append (a b : Entries) : bucketWeight (a ++ b) = bucketWeight a + bucketWeight b := by
  unfold bucketWeight
  rw [List.map_append, List.sum_append]

theorem weight_snoc (b : Entries) (k : Key) (m : Message) :
    bucketWeight (b ++ [(k, m)]) = bucketWeight b + (4 + k.length + messageWeight m) := by
  rw [weight_append, weight_cons]
  rfl

theorem defs_append {a b : Entries} (ha : Defs a) (hb : Defs b) : Defs (a ++ b) := by
  intro x hx
  rcases List.mem_append.1 hx with hx | hx
  · exact ha x hx
  · exact hb x hx

theorem DHolds.append {d : DPkv} {b : Entries} (h : DHolds d b) (hd : Defs b) {k : Key} {m : Message}
    (hm : m ≠ .update) (hw : bucketWeight b + (4 + k.length + messageWeight m) < 2 ^ 32) :
    ∃ d', dynAppend d k m = some d' ∧ DHolds d' (b ++ [(k, m)]) ∧ Defs (b ++ [(k, m)]) := by
  have hb := pkv_weight (b := b) hd
  have hmw : messageWeight m = 4 + (messageBytes m).length := by
    cases m with
    | define v => rfl
    | update => exact absurd rfl hm
  have hk1 : (List.map (fun x : OKey × Message => x.1) b).flatten.length + k.length < 2 ^ 32 := by
    have : (List.map (fun x : OKey × Message => x.1) b).flatten.length =
      (List.map (fun x : Key × Message => x.1) b).flatten.length := rfl
    have h2 : (List.map (fun x : Key × Message => x.1) b).flatten.length ≤ bucketWeight b := by rw [← hb]; omega
    rw [this]
    omega
  have hk2 : (List.map (fun x : OKey × Message => messageBytes x.2) b).flatten.length + (messageBytes m).length < 2 ^ 32 := by
    have : (List.map (fun x : OKey × Message => messageBytes x.2) b).flatten.length =
      (List.map (fun x : Key × Message => messageBytes x.2) b).flatten.length := rfl
    have h2 : (List.map (fun x : Key × Message => messageBytes x.2) b).flatten.length ≤ bucketWeight b := by rw [← hb]; omega
    rw [this]
    omega
  obtain ⟨a, e1, g1⟩ := h.1.append (s := k) (by rw [List.length_map]; omega) hk1
  obtain ⟨c, e2, g2⟩ := h.2.append (s := messageBytes m) (by rw [List.length_map]; omega) hk2
  refine ⟨(a, c), ?_, ⟨?_, ?_⟩, defs_append hd ?_⟩
  · unfold dynAppend
    rw [e1, e2]
    rfl
  · rw [List.map_append]; exact g1
  · rw [List.map_append]; exact g2
  · intro x hx
    rw [List.mem_singleton] at hx
    rw [hx]
    exact hm

theorem appendPkv_spec {b : Entries} (hb : Defs b) : ∀ (left i : Nat) {d : DPkv} {acc : Entries}, i + left = b.length →
    DHolds d acc → Defs acc → bucketWeight acc + bucketWeight (b.drop i) < 2 ^ 32 →
    ∃ d', appendPkv (pkvOf b) d i left = some d' ∧ DHolds d' (acc ++ b.drop i)
  | 0, i, d, acc, h, h1, h2, hw => by
    refine ⟨d, rfl, ?_⟩
    rw [List.drop_of_length_le (by omega), List.append_nil]
    exact h1
  | left + 1, i, d, acc, h, h1, h2, hw => by
    have hi : i < b.length := by omega
    rw [List.drop_eq_getElem_cons hi] at hw ⊢
    rw [weight_cons] at hw
    have hm := hb _ (List.getElem_mem hi)
    obtain ⟨d1, e1, g1, g2⟩ := h1.append h2 (k := b[i].1) (m := b[i].2) hm (by omega)
    obtain ⟨d2, e2, g3⟩ := appendPkv_spec hb left (i + 1) (by omega) g1 g2 (by rw [weight_snoc]; omega)
    refine ⟨d2, ?_, ?_⟩
    · unfold appendPkv
      rw [keyElement, messageElement, List.getElem?_eq_getElem hi]
      simp only [Option.map_some, Option.bind_eq_bind, Option.bind_some]
      rw [define_bytes hm, e1]
      exact e2
    · rw [List.append_assoc] at g3
      exact g3

theorem finish_spec {b : Entries} (hb : Defs b) {i : Nat} (hi : i ≤ b.length) {d : DPkv} {acc : Entries}
    (h1 : DHolds d acc) (h2 : Defs acc) (hw : bucketWeight acc + bucketWeight (b.drop i) < 2 ^ 32) (stop : Option Nat)
    (slack : Nat) : finish (pkvOf b) d i stop slack = some (pkvOf (acc ++ b.drop i), stop, slack) := by
  obtain ⟨d', e, g⟩ := appendPkv_spec hb (b.length - i) i (by omega) h1 h2 hw
  unfold finish
  rw [pkvOf_length, e]
  simp only [Option.bind_eq_bind, Option.bind_some]
  rw [g.pkv]
  rfl

/-- Where the loop stopped, against what is left of the list. -/
def Stop (tb : Entries) (start upto : Nat) (rest : Entries) : Option Nat → Prop
  | none => rest = []
  | some j => start ≤ j ∧ j < upto ∧ rest = (tb.take upto).drop j

theorem Stop.mono {tb : Entries} {start upto : Nat} {rest : Entries} {e : Option Nat} (h : Stop tb (start + 1) upto rest e) :
    Stop tb start upto rest e := by
  cases e with
  | none => exact h
  | some j => exact ⟨Nat.le_of_succ_le h.1, h.2⟩

theorem mergeLoop_spec {tb bb : Entries} (ht : Defs tb) (hb : Defs bb) {upto : Nat} (hto : upto ≤ tb.length) :
    ∀ (fuel start bf slack : Nat) {d : DPkv} {acc : Entries}, start ≤ upto → bf ≤ bb.length →
    (upto - start) + (bb.length - bf) < fuel → DHolds d acc → Defs acc →
    bucketWeight acc + bucketWeight (bb.drop bf) + slack < 2 ^ 32 →
    ∃ e, mergeLoop (pkvOf tb) (pkvOf bb) upto fuel start bf slack d =
        some (pkvOf (acc ++ (mergeOne ((tb.take upto).drop start) (bb.drop bf) slack).1), e,
          (mergeOne ((tb.take upto).drop start) (bb.drop bf) slack).2.2) ∧
      Stop tb start upto (mergeOne ((tb.take upto).drop start) (bb.drop bf) slack).2.1 e := by
  intro fuel
  induction fuel with
  | zero => intro start bf slack d acc _ _ h; omega
  | succ fuel ih =>
    intro start bf slack d acc hs hbf hf h1 h2 hw
    unfold mergeLoop
    split
    · rename_i h0
      subst h0
      rw [List.drop_of_length_le (l := tb.take start) (by rw [List.length_take]; omega), mergeOne]
      exact ⟨none, finish_spec hb hbf h1 h2 (by omega) _ _, rfl⟩
    · rename_i h0
      have hst : start < tb.length := by omega
      have hst' : start < (tb.take upto).length := by rw [List.length_take]; omega
      have hT : (tb.take upto).drop start = tb[start] :: (tb.take upto).drop (start + 1) := by
        rw [List.drop_eq_getElem_cons hst', List.getElem_take]
      have hm := ht _ (List.getElem_mem hst)
      have hself : Stop tb start upto (tb[start] :: (tb.take upto).drop (start + 1)) (some start) :=
        ⟨Nat.le_refl _, by omega, hT.symm⟩
      rw [keyElement, messageElement, List.getElem?_eq_getElem hst]
      simp only [Option.map_some, Option.bind_eq_bind, Option.bind_some, pkvOf_length]
      rw [define_bytes hm]
      by_cases hlt : bf < bb.length
      · rw [if_pos hlt, keyElement, messageElement, List.getElem?_eq_getElem hlt]
        simp only [Option.map_some, Option.bind_some]
        have hm' := hb _ (List.getElem_mem hlt)
        rw [define_bytes hm']
        have hB : bb.drop bf = bb[bf] :: bb.drop (bf + 1) := List.drop_eq_getElem_cons hlt
        have hwB : bucketWeight (bb.drop bf) = 4 + bb[bf].1.length + messageWeight bb[bf].2 + bucketWeight (bb.drop (bf + 1)) := by
          rw [hB, weight_cons]
        have hmm : tb[start].2.merge bb[bf].2 ≠ .update := by
          cases h : tb[start].2 with
          | define v => simp [Message.merge]
          | update => exact absurd h hm
        generalize hx : tb[start] = x at *
        generalize hy : bb[bf] = y at *
        obtain ⟨k, m⟩ := x
        obtain ⟨k', m'⟩ := y
        rw [hT, hB]
        unfold mergeOne
        dsimp only at hwB hmm hm hm' ⊢
        split
        · rename_i hk
          subst hk
          split
          · refine ⟨some start, ?_, hself⟩
            rw [← hB]
            exact finish_spec hb hbf h1 h2 (by omega) _ _
          · rename_i hsl
            obtain ⟨d1, e1, g1, g2⟩ := h1.append h2 (k := k) (m := m.merge m') hmm (by omega)
            obtain ⟨e, e2, g3⟩ := ih (start + 1) (bf + 1) (slack + messageWeight m' - messageWeight (m.merge m')) (by omega)
              (by omega) (by omega) g1 g2 (by rw [weight_snoc]; omega)
            refine ⟨e, ?_, g3.mono⟩
            rw [e1]
            simp only [Option.bind_some]
            rw [e2, List.append_assoc]
            rfl
        · split
          · split
            · refine ⟨some start, ?_, hself⟩
              rw [← hB]
              exact finish_spec hb hbf h1 h2 (by omega) _ _
            · rename_i hsl
              obtain ⟨d1, e1, g1, g2⟩ := h1.append h2 (k := k) (m := m) hm (by omega)
              obtain ⟨e, e2, g3⟩ := ih (start + 1) bf (slack - (4 + k.length + messageWeight m)) (by omega)
                (by omega) (by omega) g1 g2 (by rw [weight_snoc]; omega)
              rw [hB] at e2 g3
              refine ⟨e, ?_, g3.mono⟩
              rw [e1]
              simp only [Option.bind_some]
              rw [e2, List.append_assoc]
              rfl
          · obtain ⟨d1, e1, g1, g2⟩ := h1.append h2 (k := k') (m := m') hm' (by omega)
            obtain ⟨e, e2, g3⟩ := ih start (bf + 1) slack (by omega)
              (by omega) (by omega) g1 g2 (by rw [weight_snoc]; omega)
            rw [hT] at e2 g3
            refine ⟨e, ?_, g3⟩
            rw [e1]
            simp only [Option.bind_some]
            rw [e2, List.append_assoc]
            rfl
      · rw [if_neg hlt]
        have hB : bb.drop bf = [] := List.drop_of_length_le (by omega)
        generalize hx : tb[start] = x at *
        obtain ⟨k, m⟩ := x
        rw [hT, hB]
        unfold mergeOne
        dsimp only at hm ⊢
        split
        · refine ⟨some start, ?_, hself⟩
          rw [← hB]
          exact finish_spec hb hbf h1 h2 (by omega) _ _
        · rename_i hsl
          obtain ⟨d1, e1, g1, g2⟩ := h1.append h2 (k := k) (m := m) hm (by omega)
          obtain ⟨e, e2, g3⟩ := ih (start + 1) bf (slack - (4 + k.length + messageWeight m)) (by omega)
            (by omega) (by omega) g1 g2 (by rw [weight_snoc]; omega)
          rw [hB] at e2 g3
          refine ⟨e, ?_, g3.mono⟩
          rw [e1]
          simp only [Option.bind_some]
          rw [e2, List.append_assoc]
          rfl

theorem mergePkv_spec {tb bb : Entries} (ht : Defs tb) (hb : Defs bb) {start upto slack : Nat} (hto : upto ≤ tb.length)
    (hs : start ≤ upto) (hw : bucketWeight bb + slack < 2 ^ 32) :
    ∃ e, mergePkv (pkvOf tb) start upto (pkvOf bb) slack =
        some (pkvOf (mergeOne ((tb.take upto).drop start) bb slack).1, e, (mergeOne ((tb.take upto).drop start) bb slack).2.2) ∧
      Stop tb start upto (mergeOne ((tb.take upto).drop start) bb slack).2.1 e := by
  have := mergeLoop_spec ht hb hto (upto - start + (pkvOf bb).keys.offsets.length + 1) start 0 slack
    (d := (Dyn.preSized ((upto - start + (pkvOf bb).keys.offsets.length) % 2 ^ 32) (((pkvOf bb).keys.data.length + slack) % 2 ^ 32),
      Dyn.preSized ((upto - start + (pkvOf bb).keys.offsets.length) % 2 ^ 32) (((pkvOf bb).messages.data.length + slack) % 2 ^ 32)))
    (acc := []) hs (Nat.zero_le _) (by rw [pkvOf_length]; omega)
    ⟨holds_preSized _ (Nat.mod_lt _ (by decide)), holds_preSized _ (Nat.mod_lt _ (by decide))⟩
    (fun _ h => nomatch h) (by rw [List.drop_zero]; simpa [bucketWeight] using hw)
  rw [List.drop_zero, List.nil_append] at this
  exact this

/-! ### All children -/

/-- How many keys are below. -/
def below (b : Entries) (p : Elem) : Nat := (b.takeWhile (fun x => decide (Elem.key x.1 < p))).length

theorem below_le (b : Entries) (p : Elem) : below b p ≤ b.length := (List.takeWhile_prefix _).length_le

theorem take_below (b : Entries) (p : Elem) : b.take (below b p) = b.takeWhile (fun x => decide (Elem.key x.1 < p)) := by
  conv => lhs; arg 2; rw [← List.takeWhile_append_dropWhile (p := fun x : OKey × Message => decide (Elem.key x.1 < p)) (l := b)]
  exact List.take_left' rfl

theorem drop_below (b : Entries) (p : Elem) : b.drop (below b p) = b.dropWhile (fun x => decide (Elem.key x.1 < p)) := by
  conv => lhs; arg 2; rw [← List.takeWhile_append_dropWhile (p := fun x : OKey × Message => decide (Elem.key x.1 < p)) (l := b)]
  exact List.drop_left' rfl

theorem pivotIndex_spec {b : Entries} (hs : Ordered b) (p : Elem) : pivotIndex (pkvOf b).keys p = some (below b p) := by
  have hl : (List.map (fun x : Key × Message => x.1) b).length = b.length := List.length_map _
  have := seek_whole (ss := List.map (fun x : Key × Message => x.1) b)
    (below := fun x => decide (Elem.key x < p)) (l := 0) (Nat.zero_le _) (by
      intro i j x y hij hx hy hq
      simp only [decide_eq_true_eq] at hq ⊢
      rw [List.getElem?_map] at hx hy
      obtain ⟨x', hx', rfl⟩ := Option.map_eq_some_iff.1 hx
      obtain ⟨y', hy', rfl⟩ := Option.map_eq_some_iff.1 hy
      obtain ⟨a1, rfl⟩ := List.getElem?_eq_some_iff.1 hx'
      obtain ⟨a2, rfl⟩ := List.getElem?_eq_some_iff.1 hy'
      exact lt_trans (List.pairwise_iff_getElem.1 hs _ _ a1 a2 hij) hq)
    (fun _ h => by omega)
  unfold pivotIndex
  rw [pkvOf_length, ← hl]
  refine Eq.trans this ?_
  rw [List.takeWhile_map, List.length_map]
  rfl

theorem pivotIndexes_spec {b : Entries} (hs : Ordered b) : ∀ (pt : List Elem),
    pivotIndexes (pkvOf b).keys pt = some (pt.map (below b))
  | [] => rfl
  | e :: es => by
    unfold pivotIndexes
    rw [pivotIndex_spec hs, pivotIndexes_spec hs es]
    rfl

theorem takeWhile_split {b : Entries} {lo hi : Elem} (h : lo < hi) :
    (b.dropWhile (fun x => decide (Elem.key x.1 < lo))).takeWhile (fun x => decide (Elem.key x.1 < hi)) =
      (b.takeWhile (fun x => decide (Elem.key x.1 < hi))).dropWhile (fun x => decide (Elem.key x.1 < lo)) ∧
    (b.dropWhile (fun x => decide (Elem.key x.1 < lo))).dropWhile (fun x => decide (Elem.key x.1 < hi)) =
      b.dropWhile (fun x => decide (Elem.key x.1 < hi)) ∧
    below (b.takeWhile (fun x => decide (Elem.key x.1 < hi))) lo = below b lo := by
  unfold below
  induction b with
  | nil => exact ⟨rfl, rfl, rfl⟩
  | cons x b ih =>
    by_cases h1 : Elem.key x.1 < lo
    · have h2 := lt_trans h1 h
      simp only [List.dropWhile_cons, List.takeWhile_cons, h1, h2, decide_true, if_true, List.length_cons]
      exact ⟨ih.1, ih.2.1, by rw [ih.2.2]⟩
    · by_cases h2 : Elem.key x.1 < hi
      · simp [List.dropWhile_cons, List.takeWhile_cons, h1, h2]
      · simp [List.dropWhile_cons, List.takeWhile_cons, h1, h2]

theorem below_mono {b : Entries} {lo hi : Elem} (h : lo < hi) : below b lo ≤ below b hi := by
  rw [← (takeWhile_split (b := b) h).2.2]
  exact below_le _ _

/-- What the list leaves over after the keys below `lo`, cut at `hi`. -/
theorem part_eq {b : Entries} {lo hi : Elem} (h : lo < hi) :
    (b.drop (below b lo)).takeWhile (fun x => decide (Elem.key x.1 < hi)) = (b.take (below b hi)).drop (below b lo) ∧
    (b.drop (below b lo)).dropWhile (fun x => decide (Elem.key x.1 < hi)) = b.drop (below b hi) := by
  obtain ⟨h1, h2, h3⟩ := takeWhile_split (b := b) h
  constructor
  · rw [drop_below, h1, take_below, ← h3, drop_below]
  · rw [drop_below, h2, drop_below]

theorem stopped_spec {tb : Entries} (ht : Defs tb) (hw : bucketWeight tb < 2 ^ 32) {j : Nat} (hj : j ≤ tb.length) :
    ∀ (idxs : List Nat) (bs : List Pkv) (slack : Nat), bs.length ≤ idxs.length →
    mergePkvs (pkvOf tb) idxs bs (some j) slack = some (bs, pkvOf (tb.drop j))
  | idxs, [], slack, _ => by
    unfold mergePkvs
    rw [pkvOf_length, sub_spec ht hw hj (Nat.le_refl _), List.take_length]
    rfl
  | [], b :: bs, slack, h => by simp at h
  | i :: idxs, b :: bs, slack, h => by
    have := stopped_spec ht hw hj idxs bs slack (by simpa using h)
    cases idxs <;> (unfold mergePkvs; rw [this]; rfl)

theorem weight_list_cons (b : Entries) (bs : List Entries) : weight (b :: bs) = bucketWeight b + weight bs := by
  simp [weight]

theorem mergePkvs_spec {tb : Entries} (ht : Defs tb) (hw : bucketWeight tb < 2 ^ 32) :
    ∀ (bots : List Entries) (lo : Elem) (pt : List Elem) (slack : Nat), (lo :: pt).Pairwise (· < ·) →
    pt.length = bots.length → (∀ b ∈ bots, Defs b) → weight bots + slack < 2 ^ 32 →
    mergePkvs (pkvOf tb) ((lo :: pt).map (below tb)) (bots.map pkvOf) none slack =
      some ((mergeIter (tb.drop (below tb lo)) (lo :: pt) bots slack).1.map pkvOf,
        pkvOf (mergeIter (tb.drop (below tb lo)) (lo :: pt) bots slack).2)
  | [], lo, [], slack, _, _, _, _ => by
    unfold mergePkvs mergeIter
    rfl
  | b :: bots, lo, hi :: pt, slack, hp, hl, hd, hwt => by
    have hlt : lo < hi := (List.pairwise_cons.1 hp).1 hi List.mem_cons_self
    rw [weight_list_cons] at hwt
    obtain ⟨q1, q2⟩ := part_eq (b := tb) hlt
    obtain ⟨e, e1, g1⟩ := mergePkv_spec (start := below tb lo) (upto := below tb hi) (slack := slack) ht (hd b List.mem_cons_self)
      (below_le _ _) (below_mono hlt) (by omega)
    have hwo := mergeOne_weight ((tb.take (below tb hi)).drop (below tb lo)) b slack
    simp only [List.map_cons]
    unfold mergePkvs
    rw [if_neg (Nat.not_lt.2 (below_mono hlt)), e1]
    simp only [Option.bind_eq_bind, Option.bind_some]
    unfold mergeIter
    rw [q1, q2]
    cases e with
    | none =>
      have g1 : _ = [] := g1
      have := mergePkvs_spec ht hw bots hi pt (mergeOne ((tb.take (below tb hi)).drop (below tb lo)) b slack).2.2
        (List.pairwise_cons.1 hp).2 (by simpa using hl) (fun b hb => hd b (List.mem_cons_of_mem _ hb)) (by omega)
      rw [List.map_cons] at this
      rw [this]
      dsimp only
      rw [if_pos g1]
      rfl
    | some j =>
      obtain ⟨g1, g2, g3⟩ := g1
      have hj : j < tb.length := Nat.lt_of_lt_of_le g2 (below_le _ _)
      have hne : (mergeOne ((tb.take (below tb hi)).drop (below tb lo)) b slack).2.1 ≠ [] := by
        rw [g3]
        intro h
        have := congrArg List.length h
        rw [List.length_drop, List.length_take, List.length_nil] at this
        have := below_le tb hi
        omega
      rw [stopped_spec ht hw (Nat.le_of_lt hj) _ _ _ (by simp at hl ⊢; omega)]
      dsimp only
      rw [if_neg hne, g3]
      have : (tb.take (below tb hi)).drop j ++ tb.drop (below tb hi) = tb.drop j := by
        conv => rhs; rw [← List.take_append_drop (below tb hi) tb]
        rw [List.drop_append_of_le_length (by rw [List.length_take]; have := below_le tb hi; omega)]
      rw [this]
      rfl

theorem slackOf_spec : ∀ (bots : List Entries) (slack : Nat), (∀ b ∈ bots, Defs b) → weight bots ≤ slack →
    slackOf slack (bots.map pkvOf) = some (slack - weight bots)
  | [], slack, _, _ => by simp [slackOf, weight]
  | b :: bots, slack, hd, hw => by
    rw [weight_list_cons] at hw ⊢
    simp only [List.map_cons]
    unfold slackOf
    rw [pkvOf_weight (hd b List.mem_cons_self), if_pos (by omega),
      slackOf_spec bots _ (fun b hb => hd b (List.mem_cons_of_mem _ hb)) (by omega)]
    congr 1
    omega

theorem flushPkvs_spec {tb : Entries} (hs : Ordered tb) (ht : Defs tb) (hw : bucketWeight tb < 2 ^ 32) {bots : List Entries}
    {pt : List Elem} (hp : pt.Pairwise (· < ·)) (hl : pt.length = bots.length + 1) (hd : ∀ b ∈ bots, Defs b)
    (hwb : weight bots ≤ maxWeight) :
    flushPkvs (pkvOf tb) pt (bots.map pkvOf) = some ((partialFlush tb pt bots).1.map pkvOf, pkvOf (partialFlush tb pt bots).2) := by
  have hmw : maxWeight = 2031616 := rfl
  unfold flushPkvs
  rw [slackOf_spec bots _ hd hwb, pivotIndexes_spec hs]
  simp only [Option.bind_eq_bind, Option.bind_some]
  cases pt with
  | nil => simp at hl
  | cons lo pt =>
    rw [mergePkvs_spec ht hw bots lo pt _ hp (by simpa using hl) hd (by omega)]
    unfold partialFlush
    rw [List.headD_cons, ← drop_below]

theorem pkvsOf_spec {bots : List MB} {bs : List Entries} (h : List.Forall₂ Inv bots bs) : pkvsOf bots = some (bs.map pkvOf) := by
  induction h with
  | nil => rfl
  | cons h _ ih =>
    unfold pkvsOf
    rw [h.getPkvSorted, ih]
    rfl

theorem flush_spec {top : MB} {tb : Entries} {bots : List MB} {bs : List Entries} {pt : List Elem} (h : Inv top tb)
    (hb : List.Forall₂ Inv bots bs) (hd : ∀ b ∈ bs, Defs b) (hp : pt.Pairwise (· < ·)) (hl : pt.length = bs.length + 1)
    (hw : weight bs ≤ maxWeight) :
    flush top pt bots = some ((partialFlush tb pt bs).1.map (fun b => allocPkv (pkvOf b) (bots.all (·.sorted) && top.sorted)),
      allocPkv (pkvOf (partialFlush tb pt bs).2) (bots.all (·.sorted) && top.sorted)) := by
  unfold flush
  rw [pkvsOf_spec hb, h.getPkvSorted]
  simp only [Option.bind_eq_bind, Option.bind_some]
  rw [flushPkvs_spec h.ordered h.defs h.small hp hl hd hw]
  simp only [Option.bind_some, List.map_map]
  rfl

end Verif.Kv.MutBucket
