import Verif.Kv.MutBucketProof

/-!
C90.  A bucket in memory is one map whichever of its two forms it is in.  It may start empty or as packed bytes
read from the disk, turn into a B-tree when something is inserted, and back into packed bytes when it is
split, copied or written out; after any such history no call reaches outside an array, a query answers as the
map does, the first and the last key are the least and the greatest, the listing has exactly the entries in
order, its recorded weight is exactly theirs, the two halves of a split are the map below and from the pivot,
and it tells truthfully whether some key starts with given bytes.  Packed bytes that are not in order are
recognised, and putting them in order keeps, for each key, the last entry.

Specification: `Map`, `Listing`, `put`, `latest`, `Packed`, and `Reach`, the histories.
-/

namespace Verif.C90
open Kv Kv.SectorBytes Kv.MutBucket
open Betree (Message)

/-- What a bucket stands for. -/
abbrev Map := Key → Option Message

/-- In the order of keys, each once. -/
def InOrder (l : List (Key × Message)) : Prop := l.Pairwise (fun x y => Elem.key x.1 < .key y.1)

/-- The entries of a map in order. -/
def Listing (M : Map) (l : List (Key × Message)) : Prop := InOrder l ∧ ∀ k m, (k, m) ∈ l ↔ M k = some m

/-- What inserting a message means: an update, which here is the identity, changes nothing. -/
def put (M : Map) (k : Key) : Message → Map
  | .update => M
  | .define v => fun k' => if k' = k then some (.define v) else M k'

/-- The last entry of each key. -/
def latest (l : List (Key × Message)) : Map := fun k => (l.reverse.find? (fun x => x.1 = k)).map (·.2)

/-- Two packed arrays of as many strings each, which is all that is asked of packed bytes. -/
structure Packed (p : Pkv) : Prop where
  keys : p.keys.WF
  messages : p.messages.WF
  count : p.keys.offsets.length = p.messages.offsets.length

/-- There is room for one more entry, which `Insert` asks for. -/
def Room (mb : MB) (k : Key) (m : Message) : Prop := mb.weight + (4 + k.length) + messageWeight m < 2 ^ 32

/-- The histories of a bucket, and the map it should stand for. -/
inductive Reach : MB → Map → Prop where
  | alloc : Reach alloc (fun _ => none)
  | packed {p : Pkv} (s : Bool) : Packed p → p.weight < 2 ^ 32 → InOrder p.bucket → Reach (allocPkv p s) (latest p.bucket)
  | unsorted {p : Pkv} {k m mb} : Packed p → p.weight < 2 ^ 32 → Room (allocPkv p false) k m →
      (allocPkv p false).insert k m = some mb → Reach mb (put (latest p.bucket) k m)
  | insert {mb M k m mb'} : Reach mb M → Room mb k m → mb.insert k m = some mb' → Reach mb' (put M k m)
  | left {mb M pivot mb'} : Reach mb M → mb.splitLeft pivot = some mb' →
      Reach mb' (fun k => if Elem.key k < .key pivot then M k else none)
  | right {mb M pivot mb'} : Reach mb M → mb.splitRight pivot = some mb' →
      Reach mb' (fun k => if Elem.key k < .key pivot then none else M k)
  | clone {mb M mb'} : Reach mb M → mb.clone = some mb' → Reach mb' M

/-! ### Proofs -/

theorem mapOf_latest : ∀ (l : Entries) (M : Map) (k : Key), C73.mapOf M l k = (latest l k).or (M k)
  | [], M, k => rfl
  | (k', v) :: l, M, k => by
    rw [C73.mapOf, mapOf_latest l]
    unfold latest
    rw [List.reverse_cons, List.find?_append]
    cases h : l.reverse.find? (fun x => decide (x.1 = k)) with
    | some y => simp
    | none =>
      by_cases hk : k = k'
      · subst hk
        simp
      · have hk' : ¬ k' = k := fun e => hk e.symm
        simp [hk, hk']

theorem latest_eq (l : Entries) : latest l = C73.mapOf C73.nothing l := by
  funext k
  rw [mapOf_latest]
  cases latest l k <;> rfl

/-- The entries are those of the map. -/
def Is (M : Map) (b : Entries) : Prop := Btree.look b = M

theorem listing {M : Map} {b : Entries} (h : Ordered b) (hm : Is M b) : Listing M b :=
  ⟨h, fun k m => by rw [← hm]; exact C73.mem_look h k m⟩

theorem is_put {M : Map} {b : Entries} (hm : Is M b) (k : Key) (m : Message) : Is (put M k m) (MutBucket.put b k m) := by
  cases m with
  | update => exact hm
  | define v =>
    funext k'
    show Btree.look (Btree.ins k (Message.define v) b) k' = if k' = k then _ else M k'
    rw [Btree.look_ins, ← hm]

theorem look_split {b : Entries} (h : Ordered b) (p k : Key) :
    Btree.look (b.take (cutAt b p)) k = (if Elem.key k < .key p then Btree.look b k else none) ∧
    Btree.look (b.drop (cutAt b p)) k = (if Elem.key k < .key p then none else Btree.look b k) := by
  have hlow : ∀ x ∈ b.take (cutAt b p), x.1 < (p : OKey) := by
    intro x hx
    rw [take_cutAt] at hx
    have h1 := List.all_takeWhile (p := fun x : OKey × Message => decide (x.1 < (p : OKey))) (l := b)
    rw [List.all_eq_true] at h1
    exact of_decide_eq_true (h1 x hx)
  have hhigh : ∀ x ∈ b.drop (cutAt b p), ¬ x.1 < (p : OKey) := by
    intro x hx
    have ho := ordered_drop h (cutAt b p)
    have hd := drop_cutAt b p
    rw [hd] at hx ho
    have hne : b.dropWhile (fun x => decide (x.1 < (p : OKey))) ≠ [] := List.ne_nil_of_mem hx
    have hh := List.head_dropWhile_not (fun x : OKey × Message => decide (x.1 < (p : OKey))) hne
    have hh : ¬ _ < (p : OKey) := of_decide_eq_false hh
    rw [← List.cons_head_tail hne] at hx ho
    rcases List.mem_cons.1 hx with rfl | hx
    · exact hh
    · exact fun hlt => hh (lt_trans ((List.pairwise_cons.1 ho).1 x hx) hlt)
  have happ : Btree.look b k = (Btree.look (b.take (cutAt b p)) k).or (Btree.look (b.drop (cutAt b p)) k) := by
    conv => lhs; rw [← List.take_append_drop (cutAt b p) b]
    unfold Btree.look
    rw [List.find?_append]
    cases List.find? (fun x => decide (x.1 = k)) (b.take (cutAt b p)) <;> rfl
  split
  · rename_i hk
    have : Btree.look (b.drop (cutAt b p)) k = none := Btree.look_none (fun x hx e => hhigh x hx (by rw [e]; exact hk))
    rw [happ, this]
    exact ⟨by simp, rfl⟩
  · rename_i hk
    have : Btree.look (b.take (cutAt b p)) k = none := Btree.look_none (fun x hx e => hk (by
      have := hlow x hx
      rw [e] at this
      exact this))
    rw [happ, this]
    exact ⟨rfl, by simp⟩

theorem invariant {mb : MB} {M : Map} (h : Reach mb M) : ∃ b, Inv mb b ∧ Is M b := by
  induction h with
  | alloc => exact ⟨[], inv_alloc, rfl⟩
  | @packed p s h1 h2 h3 =>
    have e := pkvOf_of_wf h1.keys h1.messages h1.count
    have hw : bucketWeight p.bucket < 2 ^ 32 := by
      rw [← pkvOf_weight (bucket_defs p), e]; exact h2
    have := Inv.pkv h3 (bucket_defs p) hw s
    rw [e] at this
    exact ⟨p.bucket, this, by unfold Is; rw [latest_eq, look_mapOf h3]⟩
  | @unsorted p k m mb h1 h2 h3 h4 =>
    have e := pkvOf_of_wf h1.keys h1.messages h1.count
    obtain ⟨t, e1, e2, e3⟩ := pkvToTree_spec (bucket_defs p)
    rw [e] at e1
    have hw := weight_tree e2 e3
    rw [← pkvOf_weight (bucket_defs p), e] at hw
    unfold Room at h3
    have hp : (allocPkv p false).weight = p.weight := rfl
    obtain ⟨mb', g1, g2⟩ := insert_tree (mb := allocPkv p false) e1 e2 (pkvToTree_defs (bucket_defs p) e2 e3) k m
      (by unfold keyWeight; omega)
    rw [g1] at h4
    cases h4
    exact ⟨_, g2, is_put (by unfold Is; rw [e3, latest_eq]) k m⟩
  | @insert mb M k m mb' _ hr he ih =>
    obtain ⟨b, h1, h2⟩ := ih
    obtain ⟨mb'', g1, g2⟩ := h1.insert k m hr
    rw [g1] at he
    cases he
    exact ⟨_, g2, is_put h2 k m⟩
  | @left mb M pivot mb' _ he ih =>
    obtain ⟨b, h1, h2⟩ := ih
    obtain ⟨mb'', g1, g2⟩ := h1.splitLeft pivot
    rw [g1] at he
    cases he
    exact ⟨_, g2, by funext k; rw [(look_split h1.ordered pivot k).1, h2]⟩
  | @right mb M pivot mb' _ he ih =>
    obtain ⟨b, h1, h2⟩ := ih
    obtain ⟨mb'', g1, g2⟩ := h1.splitRight pivot
    rw [g1] at he
    cases he
    exact ⟨_, g2, by funext k; rw [(look_split h1.ordered pivot k).2, h2]⟩
  | clone _ he ih =>
    obtain ⟨b, h1, h2⟩ := ih
    obtain ⟨mb'', g1, g2⟩ := h1.clone
    rw [g1] at he
    cases he
    exact ⟨b, g2, h2⟩

/-! ### The claims -/

/-- A query answers as the map does. -/
theorem query_answers {mb : MB} {M : Map} (h : Reach mb M) (k : Key) : mb.query k = some (M k) := by
  obtain ⟨b, h1, h2⟩ := invariant h
  rw [h1.query, h2]

/-- The bucket lists its map: what it is written out as, its weight, its ends and its middle. -/
theorem stands_for {mb : MB} {M : Map} (h : Reach mb M) : ∃ l, Listing M l ∧
    mb.weight = bucketWeight l ∧ mb.weight < 2 ^ 32 ∧
    (∀ must, ∃ p, mb.getPkvSorted must = some p ∧ p.bucket = l) ∧ mb.wellMarshalled = some true ∧
    (mb.isEmpty = true ↔ ∀ k, M k = none) ∧
    mb.firstKey = l.head?.map (·.1) ∧ mb.lastKey = l.getLast?.map (·.1) ∧
    mb.middleKey = some (match l[l.length / 2]? with | none => [0] | some x => if x.1 = [] then [0] else x.1) := by
  obtain ⟨b, h1, h2⟩ := invariant h
  have hl := listing h1.ordered h2
  refine ⟨b, hl, h1.weight, by rw [h1.weight]; exact h1.small,
    fun must => ⟨_, h1.getPkvSorted must, pkvOf_bucket h1.defs⟩, h1.wellMarshalled, ?_, h1.firstKey, h1.lastKey,
    h1.middleKey⟩
  rw [h1.isEmpty]
  constructor
  · rintro rfl k
    rw [← h2]
    rfl
  · intro hn
    cases b with
    | nil => rfl
    | cons x b =>
      have := (hl.2 x.1 x.2).1 List.mem_cons_self
      rw [hn] at this
      cases this

/-- Every call returns, as long as there is room. -/
theorem goes_on {mb : MB} {M : Map} (h : Reach mb M) :
    (∀ k m, Room mb k m → ∃ mb', mb.insert k m = some mb' ∧ Reach mb' (put M k m)) ∧
    (∀ pivot, ∃ l r, mb.splitLeft pivot = some l ∧ mb.splitRight pivot = some r ∧ l.weight + r.weight = mb.weight) ∧
    (∃ mb', mb.clone = some mb' ∧ Reach mb' M) := by
  obtain ⟨b, h1, -⟩ := invariant h
  refine ⟨fun k m hr => ?_, fun pivot => ?_, ?_⟩
  · obtain ⟨mb', g, -⟩ := h1.insert k m hr
    exact ⟨mb', g, .insert h hr g⟩
  · obtain ⟨l, g1, g2⟩ := h1.splitLeft pivot
    obtain ⟨r, g3, g4⟩ := h1.splitRight pivot
    refine ⟨l, r, g1, g3, ?_⟩
    rw [g2.weight, g4.weight, h1.weight, weight_split]
  · obtain ⟨mb', g, -⟩ := h1.clone
    exact ⟨mb', g, .clone h g⟩

/-- Whether no key starts with these bytes. -/
theorem prefix_answers {mb : MB} {M : Map} (h : Reach mb M) (pre : Key) :
    ∃ r, mb.noKeyWithPrefix pre = some r ∧ (r = true ↔ ∀ k, pre <+: k → M k = none) := by
  obtain ⟨b, h1, h2⟩ := invariant h
  have hl := listing h1.ordered h2
  obtain ⟨r, e, hr⟩ := h1.noKeyWithPrefix pre
  refine ⟨r, e, hr.trans ⟨fun h k hk => ?_, fun h x hx hp => ?_⟩⟩
  · cases hm : M k with
    | none => rfl
    | some m => exact absurd hk (h _ ((hl.2 k m).2 hm))
  · have := (hl.2 x.1 x.2).1 hx
    rw [h _ hp] at this
    cases this

/-- Packed bytes in any order: the order is told truly, the prefixes are found, and what is written out has
the last entry of each key, in order, and weighs no more. -/
theorem unsorted_answers {p : Pkv} (hp : Packed p) (hw : p.weight < 2 ^ 32) :
    (∃ r, (allocPkv p false).wellMarshalled = some r ∧ (r = true ↔ InOrder p.bucket)) ∧
    (∀ pre, ∃ r, (allocPkv p false).noKeyWithPrefix pre = some r ∧ (r = true ↔ ∀ x ∈ p.bucket, ¬ pre <+: x.1)) ∧
    (∃ q, (allocPkv p false).getPkvSorted true = some q ∧ Listing (latest p.bucket) q.bucket ∧ q.weight ≤ p.weight) ∧
    (∀ k m, Room (allocPkv p false) k m →
      ∃ mb, (allocPkv p false).insert k m = some mb ∧ Reach mb (put (latest p.bucket) k m)) := by
  have e := pkvOf_of_wf hp.keys hp.messages hp.count
  obtain ⟨t, e1, e2, e3⟩ := pkvToTree_spec (bucket_defs p)
  have hd := pkvToTree_defs (bucket_defs p) e2 e3
  have hwt := weight_tree e2 e3
  rw [← pkvOf_weight (bucket_defs p)] at hwt
  rw [e] at e1 hwt
  refine ⟨?_, fun pre => ?_, ?_, fun k m hr => ?_⟩
  · obtain ⟨r, g1, g2⟩ := isSorted_spec p.bucket
    rw [e] at g1
    exact ⟨r, g1, g2⟩
  · have hl := pkvOf_length p.bucket
    obtain ⟨r, g1, g2⟩ := noPrefixFrom_spec (b := p.bucket) pre p.bucket.length 0 (Nat.zero_add _)
    rw [e] at g1 hl
    rw [← hl] at g1
    exact ⟨r, g1, g2⟩
  · refine ⟨pkvOf t.toList, ?_, ?_, ?_⟩
    · show (do let (t, _) ← pkvToTree p; treeToPkv t) = _
      rw [e1]
      exact treeToPkv_spec e2 hd (by omega)
    · rw [pkvOf_bucket hd]
      exact listing (root_ordered e2) (by unfold Is; rw [e3, latest_eq])
    · rw [pkvOf_weight hd]
      exact hwt
  · have hp' : (allocPkv p false).weight = p.weight := rfl
    have hr' := hr
    unfold Room at hr'
    obtain ⟨mb', g1, -⟩ := insert_tree (mb := allocPkv p false) e1 e2 hd k m (by unfold keyWeight; omega)
    exact ⟨mb', g1, .unsorted hp hw hr g1⟩

/-! ### A case -/

/-- Three keys out of order, one of them twice. -/
def messy : Pkv := pkvOf [([5], .define [1]), ([2, 7], .define [9, 9]), ([5], .define [3])]

theorem messy_wf : Packed messy := by
  suffices h : messy.WF from ⟨h.keys, h.messages, h.count⟩
  refine pkvOf_wf ⟨?_, ?_, by decide⟩
  · intro x hx; simp at hx; rcases hx with rfl | rfl | rfl <;> decide
  · intro x hx; simp at hx; rcases hx with rfl | rfl | rfl <;> exact ⟨_, rfl, by decide⟩

set_option maxRecDepth 100000 in
/-- The bytes out of order are inserted into, the bucket is split and inserted into again. -/
theorem demo : ∃ mb mb' mb'', (allocPkv messy false).insert [4] (.define [8]) = some mb ∧
    mb.splitRight [3] = some mb' ∧ mb'.insert [6] (.define []) = some mb'' ∧ (∃ M, Reach mb'' M) ∧
    (allocPkv messy false).wellMarshalled = some false ∧
    mb''.query [5] = some (some (.define [3])) ∧ mb''.query [2, 7] = some none ∧ mb''.weight = 29 ∧
    mb''.noKeyWithPrefix [2] = some true := by
  obtain ⟨mb, h1, r1⟩ := (unsorted_answers messy_wf (by decide)).2.2.2 [4] (.define [8]) (by unfold Room; decide)
  have e1 : mb = ⟨.tree (.leaf [[2, 7], [4], [5]] [.define [9, 9], .define [8], .define [3]]), 32, false⟩ :=
    Option.some.inj (h1.symm.trans rfl)
  obtain ⟨-, mb', -, h2, -⟩ := (goes_on r1).2.1 [3]
  have r2 := Reach.right r1 h2
  have e2 : mb' = allocPkv (pkvOf [([4], .define [8]), ([5], .define [3])]) false := by
    rw [e1] at h2
    exact Option.some.inj (h2.symm.trans rfl)
  obtain ⟨mb'', h3, r3⟩ := (goes_on r2).1 [6] (.define []) (by rw [e2]; unfold Room; decide)
  have e3 : mb'' = ⟨.tree (.leaf [[4], [5], [6]] [.define [8], .define [3], .define []]), 29, false⟩ := by
    rw [e2] at h3
    exact Option.some.inj (h3.symm.trans rfl)
  refine ⟨mb, mb', mb'', h1, h2, h3, ⟨_, r3⟩, by decide, ?_, ?_, ?_, ?_⟩ <;> rw [e3] <;> rfl

end Verif.C90
