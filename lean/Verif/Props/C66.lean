import Verif.Kv.TreeFlush
/-
C66. A flush moves the messages with the lowest keys of a buffer into the child's buffers, each on top of
what the child has for its key, changes and loses nothing, never makes the child too heavy, and stops only
when the next message does not fit.

Specification: lists of pairs of a key and a message, with membership; a child's buffers are those between
consecutive pivots. Only the order of keys and the weight of a message (4 bytes and the key, 4 bytes and the
value) are taken from the model.
-/
namespace Verif.C66
open Verif.Kv Verif.Kv.Pivot Verif.Kv.TreeImpl
open Betree (Message)
open SectorBytes (weight messageWeight maxWeight)

/-- What a flush is given: a buffer sorted by key with messages that each set a value, within the child's
range, and the child with one sorted buffer between each two pivots. -/
structure Ok (top : Bucket) (pt : List Elem) (bots : List Bucket) : Prop where
  pivots : pt.Pairwise (· < ·)
  length : pt.length = bots.length + 1
  sorted : top.Pairwise (fun x y => Elem.key x.1 < .key y.1)
  sets : ∀ x ∈ top, x.2 ≠ .update
  inside : ∀ x ∈ top, ∃ a b, pt.head? = some a ∧ pt.getLast? = some b ∧ a ≤ .key x.1 ∧ Elem.key x.1 < b
  child : ∀ b ∈ bots, b.Pairwise (fun x y => Elem.key x.1 < .key y.1)

/-- Whether a key belongs between two pivots. -/
def Between (lo hi : Elem) (k : Key) : Prop := lo ≤ .key k ∧ Elem.key k < hi

theorem route_between {pt : List Elem} (hp : pt.Pairwise (· < ·)) {k : Key} (hb : Bounded pt k) {i : Nat}
    {lo hi : Elem} (h1 : pt[i]? = some lo) (h2 : pt[i + 1]? = some hi) :
    route pt k = i ↔ Between lo hi k := by
  constructor
  · intro e
    obtain ⟨j, a, b, k1, k2, k3, k4⟩ := hb.slot
    have := route_eq hp k1 k2 k3 k4
    rw [e] at this
    subst this
    rw [h1] at k1; rw [h2] at k2
    cases k1; cases k2
    exact ⟨k3, k4⟩
  · exact fun h => route_eq hp h1 h2 h.1 h.2

/-- **What a flush moves.** Some number of messages with the lowest keys leave the upper buffer. After that
each buffer of the child holds those of them that belong to it, and whatever it held before for other keys. -/
theorem moves {top : Bucket} {pt : List Elem} {bots : List Bucket} (h : Ok top pt bots) :
    ∃ n, (partialFlush top pt bots).2 = top.drop n ∧
      (partialFlush top pt bots).1.length = bots.length ∧
      ∀ (i : Nat) lo hi b b', pt[i]? = some lo → pt[i + 1]? = some hi → bots[i]? = some b →
        (partialFlush top pt bots).1[i]? = some b' →
        b'.Pairwise (fun x y => Elem.key x.1 < .key y.1) ∧
        ∀ k m, (k, m) ∈ b' ↔ ((k, m) ∈ top.take n ∧ Between lo hi k) ∨
          ((k, m) ∈ b ∧ ¬ ∃ m', (k, m') ∈ top.take n ∧ Between lo hi k) := by
  obtain ⟨n, h1, h2⟩ := partialFlush_spec h.pivots h.length h.sorted h.inside
  refine ⟨n, h1, by rw [h2, List.length_mapIdx], fun i lo hi b b' e1 e2 e3 e4 => ?_⟩
  rw [h2, List.getElem?_mapIdx, e3] at e4
  cases e4
  have hs : Bucket.Sorted ((top.take n).filter (fun x => route pt x.1 == i)) :=
    (List.Pairwise.sublist (List.take_sublist n top) h.sorted).sublist List.filter_sublist
  have hd : Bucket.Defs ((top.take n).filter (fun x => route pt x.1 == i)) := fun x hx =>
    h.sets x (List.mem_of_mem_take (List.mem_filter.mp hx).1)
  have hb := h.child b (List.mem_of_getElem? e3)
  have hm : ∀ k m, (k, m) ∈ (top.take n).filter (fun x => route pt x.1 == i) ↔
      (k, m) ∈ top.take n ∧ Between lo hi k := fun k m => by
    rw [List.mem_filter]
    constructor
    · rintro ⟨k1, k2⟩
      exact ⟨k1, (route_between h.pivots (h.inside _ (List.mem_of_mem_take k1)) e1 e2).mp (by simpa using k2)⟩
    · rintro ⟨k1, k2⟩
      exact ⟨k1, by
        simpa using (route_between h.pivots (h.inside _ (List.mem_of_mem_take k1)) e1 e2).mpr k2⟩
  refine ⟨Bucket.Sorted.merge _ _ hs hb hd, fun k m => ?_⟩
  rw [Bucket.mem_merge _ _ hs hb hd, hm]
  constructor
  · rintro (k1 | ⟨k1, k2⟩)
    · exact .inl k1
    · exact .inr ⟨k1, fun ⟨m', k3⟩ => k2 m' ((hm k m').mpr k3)⟩
  · rintro (k1 | ⟨k1, k2⟩)
    · exact .inl k1
    · exact .inr ⟨k1, fun m' k3 => k2 ⟨m', (hm k m').mp k3⟩⟩

/-- **No message is lost.** Every message of the upper buffer is still there, or is now in the child's buffer
it belongs to. -/
theorem nothing_lost {top : Bucket} {pt : List Elem} {bots : List Bucket} (h : Ok top pt bots) {k : Key}
    {m : Message} (hm : (k, m) ∈ top) :
    (k, m) ∈ (partialFlush top pt bots).2 ∨
    ∃ i lo hi b', pt[i]? = some lo ∧ pt[i + 1]? = some hi ∧ Between lo hi k ∧
      (partialFlush top pt bots).1[i]? = some b' ∧ (k, m) ∈ b' := by
  obtain ⟨n, h1, h2, h3⟩ := moves h
  rw [← List.take_append_drop n top] at hm
  rcases List.mem_append.mp hm with hm | hm
  · obtain ⟨i, lo, hi, e1, e2, e3, e4⟩ := Bounded.slot (h.inside _ (List.mem_of_mem_take hm))
    have hi' : i < bots.length := by
      have := (List.getElem?_eq_some_iff.mp e2).1
      rw [h.length] at this; omega
    refine .inr ⟨i, lo, hi, _, e1, e2, ⟨e3, e4⟩, List.getElem?_eq_getElem (by omega), ?_⟩
    exact ((h3 i lo hi _ _ e1 e2 (List.getElem?_eq_getElem hi') (List.getElem?_eq_getElem (by omega))).2 k m).mpr
      (.inl ⟨hm, e3, e4⟩)
  · exact .inl (by rw [h1]; exact hm)

/-- **The child never gets too heavy.** -/
theorem fits (top : Bucket) (pt : List Elem) {bots : List Bucket} (h : weight bots ≤ maxWeight) :
    weight (partialFlush top pt bots).1 ≤ maxWeight := partialFlush_weight top pt h

/-- **It stops only at a message that does not fit.** -/
theorem stops_when_full (top : Bucket) (pt : List Elem) {bots : List Bucket} (h : weight bots ≤ maxWeight)
    {k : Key} {m : Message} {rest : Bucket} (hr : (partialFlush top pt bots).2 = (k, m) :: rest) :
    maxWeight < weight (partialFlush top pt bots).1 + (4 + k.length + messageWeight m) := by
  have := mergeIter_full bots _ pt _ hr
  unfold partialFlush
  omega

/-- **A flush gets somewhere.** When the policy of the code calls for it, with an eighth of the child free,
at least one message moves, as long as keys are of at most 1024 bytes and values of at most 65535. -/
theorem makes_progress {top : Bucket} {pt : List Elem} {bots : List Bucket} (h : Ok top pt bots)
    (hw : weight bots + flushTrigger ≤ maxWeight) (hne : top ≠ [])
    (hlim : ∀ k v, (k, .define v) ∈ top → k.length ≤ 1024 ∧ v.length ≤ 65535) :
    (partialFlush top pt bots).2.length < top.length := by
  obtain ⟨n, h1, h2⟩ := partialFlush_spec h.pivots h.length h.sorted h.inside
  cases n with
  | succ n =>
    rw [h1, List.length_drop]
    cases top with
    | nil => exact absurd rfl hne
    | cons x t => simp only [List.length_cons]; omega
  | zero =>
    exfalso
    cases top with
    | nil => exact hne rfl
    | cons x t =>
      obtain ⟨k, m⟩ := x
      have e : (partialFlush ((k, m) :: t) pt bots).1 = bots := by
        rw [h2]
        have : (fun (i : Nat) (b : Bucket) => Bucket.merge ((((k, m) :: t).take 0).filter
            (fun x => route pt x.1 == i)) b) = fun _ b => b := by
          funext i b
          rw [List.take_zero, List.filter_nil, merge_nil_left]
        rw [this]
        apply List.ext_getElem? 
        intro i
        rw [List.getElem?_mapIdx]
        cases bots[i]? <;> rfl
      have := stops_when_full _ pt (by omega) h1
      rw [e] at this
      have hf : flushTrigger = 253952 := rfl
      cases m with
      | update => exact h.sets _ (.head _) rfl
      | define v =>
        obtain ⟨l1, l2⟩ := hlim k v (.head _)
        simp only [messageWeight] at this
        omega

/-! ### Concrete cases -/

/-- Three messages for a child with two buffers. -/
theorem demo_ok : Ok [([1], .define [5]), ([2], .define []), ([7], .define [6])]
    [.key [], .key [4], .top] [[([2], .define [9])], [([8], .define [9])]] :=
  { pivots := by decide
    length := rfl
    sorted := by decide
    sets := by decide
    inside := by
      intro x hx
      refine ⟨.key [], .top, rfl, rfl, ?_⟩
      revert x
      decide
    child := by decide }

/-- All of them move; the deletion of key 2 replaces what the child had for it. -/
theorem demo : partialFlush [([1], .define [5]), ([2], .define []), ([7], .define [6])]
    [.key [], .key [4], .top] [[([2], .define [9])], [([8], .define [9])]] =
    ([[([1], .define [5]), ([2], .define [])], [([7], .define [6]), ([8], .define [9])]], []) := by
  have a1 : ¬ (Elem.key [1] < Elem.key []) := by decide
  have a2 : Elem.key [1] < Elem.key [4] := by decide
  have a3 : Elem.key [2] < Elem.key [4] := by decide
  have a4 : ¬ (Elem.key [7] < Elem.key [4]) := by decide
  have a5 : Elem.key [7] < Elem.top := by decide
  have a6 : Elem.key [1] < Elem.key [2] := by decide
  have a7 : Elem.key [7] < Elem.key [8] := by decide
  simp [partialFlush, mergeIter, mergeOne, maxWeight, weight, SectorBytes.bucketWeight, messageWeight,
    Message.merge, List.takeWhile, List.dropWhile, a1, a2, a3, a4, a5, a6, a7]

/-- A child with room for 9 bytes more: the first message would take 10 and stays, and with it all after it. -/
theorem demo_full : mergeIter [([1], .define [5]), ([7], .define [6])] [.key [], .key [4], .top]
    [[], [([7], .define [9])]] 9 = ([[], [([7], .define [9])]], [([1], .define [5]), ([7], .define [6])]) := by
  have a2 : Elem.key [1] < Elem.key [4] := by decide
  have a4 : ¬ (Elem.key [7] < Elem.key [4]) := by decide
  simp [mergeIter, mergeOne, messageWeight, List.takeWhile, List.dropWhile, a2, a4]

end Verif.C66
