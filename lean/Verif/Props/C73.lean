import Verif.Kv.BtreeProof
import Mathlib.Order.Nat

/-!
C73.  The B-tree in which VeriBetrKV keeps the buckets it changes is a sorted map: after any sequence
of insertions into the empty tree no access has been outside an array and every call has ended; every
insertion gave the value it replaced; a query gives the value last inserted; the tree read in order is
strictly sorted and is exactly the map, and the smallest key, the largest key, the number of keys and
the test for emptiness agree with it.  And it is a balanced tree: all leaves are at one depth, no node
has more than its maximum or (but for the root) less than half of it, so that the depth is logarithmic
in the number of keys.  Building a tree from a sequence gives the map of the sequence, later values
winning, and exactly its weight.

Specification: `mapOf`, what the insertions say of every key; `Lists`, a sorted list of a map's
bindings; `Below`, the nodes of a tree with their depths.
-/

namespace Verif.C73
open Btree

variable {K V : Type} [LinearOrder K]

/-- What a map holds after the insertions. -/
def mapOf (M : K → Option V) : List (K × V) → K → Option V
  | [] => M
  | (k, v) :: l => mapOf (fun k' => if k' = k then some v else M k') l

/-- The values that the insertions replace. -/
def olds (M : K → Option V) : List (K × V) → List (Option V)
  | [] => []
  | (k, v) :: l => M k :: olds (fun k' => if k' = k then some v else M k') l

/-- The map without keys. -/
def nothing : K → Option V := fun _ => none

/-- The list holds the bindings of the map and no others, strictly sorted. -/
def Lists (M : K → Option V) (l : List (K × V)) : Prop :=
  l.Pairwise (fun a b => a.1 < b.1) ∧ ∀ k v, (k, v) ∈ l ↔ M k = some v

/-- `Below d t n`: `n` is a node of `t`, `d` steps below the root. -/
inductive Below : Nat → Node K V → Node K V → Prop
  | root (t) : Below 0 t t
  | child {d ps cs c n} : c ∈ cs → Below d c n → Below (d + 1) (.index ps cs) n

/-- The insertions one after the other; the tree and the answers. -/
def inserts (L : Limits) : List (K × V) → Node K V → Option (Node K V × List (Option V))
  | [], t => some (t, [])
  | (k, v) :: l, t =>
    match insert L t k v with
    | none => none
    | some (t, old) => (inserts L l t).map (fun r => (r.1, old :: r.2))

variable {L : Limits}

theorem mem_look {l : List (K × V)} (hl : l.Pairwise (fun a b => a.1 < b.1)) (k : K) (v : V) :
    (k, v) ∈ l ↔ look l k = some v := by
  induction l with
  | nil => simp [look]
  | cons x l ih =>
    obtain ⟨h1, h2⟩ := List.pairwise_cons.1 hl
    rw [look_cons, List.mem_cons, ih h2]
    split
    · rename_i hx
      constructor
      · rintro (rfl | h)
        · rfl
        · have := h1 _ ((ih h2).2 h)
          rw [hx] at this
          exact absurd this (lt_irrefl _)
      · intro h
        injection h with h
        subst hx h
        exact .inl rfl
    · rename_i hx
      constructor
      · rintro (rfl | h)
        · exact absurd rfl hx
        · exact h
      · exact .inr

theorem lists_look {t : Node K V} (ht : Root L t) : Lists (look t.toList) t.toList := by
  obtain ⟨h, ht⟩ := ht
  exact ⟨ht.facts.2, mem_look ht.facts.2⟩

theorem inserts_spec : ∀ (l : List (K × V)) {t : Node K V}, Root L t →
    ∃ t', inserts L l t = some (t', olds (look t.toList) l) ∧ Root L t' ∧ look t'.toList = mapOf (look t.toList) l
  | [], t, ht => ⟨t, rfl, ht, rfl⟩
  | (k, v) :: l, t, ht => by
    obtain ⟨t1, h1, h2, h3⟩ := insert_spec ht k v
    obtain ⟨t2, g1, g2, g3⟩ := inserts_spec l h2
    have e : look t1.toList = fun k' => if k' = k then some v else look t.toList k' := by
      funext k'; rw [h3, look_ins]
    rw [e] at g1 g3
    exact ⟨t2, by simp [inserts, h1, g1, olds], g2, g3⟩

theorem reached {l : List (K × V)} {t : Node K V} {os} (h : inserts L l emptyTree = some (t, os)) :
    Root L t ∧ os = olds nothing l ∧ look t.toList = mapOf nothing l := by
  obtain ⟨t', h1, h2, h3⟩ := inserts_spec (L := L) l root_empty
  rw [h1] at h
  injection h with h
  injection h with e1 e2
  subst e1
  exact ⟨h2, e2.symm, h3⟩

/-- Whatever is inserted, every insertion ends, without an access outside an array, and gives the value it
replaced. -/
theorem never_stuck (L : Limits) (l : List (K × V)) :
    ∃ t, inserts L l emptyTree = some (t, olds nothing l) := by
  obtain ⟨t', h1, -⟩ := inserts_spec (L := L) l (root_empty (K := K) (V := V))
  exact ⟨t', h1⟩

/-- A query ends and gives the value last inserted under the key, or nothing. -/
theorem is_a_map {l : List (K × V)} {t : Node K V} {os} (h : inserts L l emptyTree = some (t, os)) (k : K) :
    query t k = some (mapOf nothing l k) := by
  obtain ⟨⟨h0, hr⟩, -, hl⟩ := reached h
  rw [query, queryNode_spec (by rw [hr.height]; omega) hr, hl]

/-- The tree read in order is strictly sorted and holds exactly the map; the other questions agree with it. -/
theorem in_order {l : List (K × V)} {t : Node K V} {os} (h : inserts L l emptyTree = some (t, os)) :
    ∃ s, Lists (mapOf nothing l) s ∧ toSeq t = (s.map (·.1), s.map (·.2)) ∧ count t = s.length ∧
      (isEmpty t = true ↔ s = []) ∧ minKey t = s.head?.map (·.1) ∧ maxKey t = s.getLast?.map (·.1) := by
  obtain ⟨hr, -, hl⟩ := reached h
  have hs := lists_look hr
  rw [hl] at hs
  obtain ⟨h0, hr⟩ := hr
  refine ⟨t.toList, hs, ?_, count_spec hr, ?_, minKeyNode_spec (by rw [hr.height]; omega) hr,
    maxKeyNode_spec (by rw [hr.height]; omega) hr⟩
  · rw [toSeq, fill_spec hr]; simp
  · cases h0 with
    | zero =>
      obtain ⟨l', rfl, -⟩ := hr.leaf
      simp [isEmpty, Node.toList]
    | succ h0 =>
      obtain ⟨ps, cs, rfl, hk, h2, -⟩ := hr.index
      simp only [isEmpty, Node.toList]
      constructor
      · intro h; cases h
      · intro h
        cases cs with
        | nil => simp at h2
        | cons c cs =>
          obtain ⟨a, b, hc⟩ := hk.each c (List.mem_cons_self ..)
          exact absurd (List.append_eq_nil_iff.1 (by simpa only [toLists] using h)).1 (Inner.pos hc)

/-- What the two kinds of nodes are like, `d` steps below the root of a tree of depth `h`. -/
def Shape (L : Limits) (h d : Nat) : Node K V → Prop
  | .leaf ks vs => d = h ∧ ks.length = vs.length ∧ ks.length ≤ L.keys ∧ (0 < d → L.keys / 2 ≤ ks.length)
  | .index ps cs => d < h ∧ cs.length = ps.length + 1 ∧ 2 ≤ cs.length ∧ cs.length ≤ L.children ∧
      (0 < d → L.children / 2 ≤ cs.length)

theorem below_inner {d : Nat} {t n : Node K V} (hb : Below d t n) : ∀ {h lo hi}, Inner L h lo hi t →
    ∃ h' lo' hi', h' + d = h ∧ Inner L h' lo' hi' n := by
  induction hb with
  | root t => exact fun {h lo hi} ht => ⟨h, lo, hi, rfl, ht⟩
  | child hc _ ih =>
    intro h lo hi ht
    cases h with
    | zero => exact ht.elim
    | succ h =>
      obtain ⟨a, b, hw⟩ := Kids.each ht.1 _ hc
      obtain ⟨h', lo', hi', e, hw'⟩ := ih hw
      exact ⟨h', lo', hi', by omega, hw'⟩

theorem wf_shape {h m lo hi d H} {n : Node K V} (hn : WF L h m lo hi n) (h2 : 2 ≤ m.2) (hd : h + d = H)
    (hk : 0 < d → m = (L.keys / 2, L.children / 2)) : Shape L H d n := by
  cases h with
  | zero =>
    cases n with
    | index => exact hn.elim
    | leaf ks vs =>
      exact ⟨by omega, hn.1, hn.2.2.2.2, fun h0 => by have := hn.2.2.2.1; rw [hk h0] at this; exact this⟩
  | succ h =>
    cases n with
    | leaf => exact hn.elim
    | index ps cs =>
      exact ⟨by omega, Kids.length hn.1, by have := hn.2.1; omega, hn.2.2,
        fun h0 => by have := hn.2.1; rw [hk h0] at this; exact this⟩

/-- The tree is balanced, and its depth at most logarithmic in the number of keys. -/
theorem balanced {l : List (K × V)} {t : Node K V} {os} (hl : inserts L l emptyTree = some (t, os)) :
    ∃ h, (∀ d n, Below d t n → Shape L h d n) ∧
      (0 < h → 2 * ((L.children / 2) ^ (h - 1) * (L.keys / 2)) ≤ count t) := by
  obtain ⟨⟨h, hr⟩, -⟩ := reached hl
  have hC := L.hchildren
  refine ⟨h, fun d n hb => ?_, fun h0 => ?_⟩
  · cases hb with
    | root => exact wf_shape hr (Nat.le_refl 2) rfl (fun h0 => absurd h0 (Nat.lt_irrefl _))
    | child hc hb =>
      cases h with
      | zero => exact hr.elim
      | succ h =>
        obtain ⟨a, b, hw⟩ := Kids.each hr.1 _ hc
        obtain ⟨h', lo', hi', e, hw'⟩ := below_inner hb hw
        exact wf_shape hw' (by dsimp only; omega) (by omega) (fun _ => rfl)
  · cases h with
    | zero => omega
    | succ h =>
      obtain ⟨ps, cs, rfl, hk, h2, -⟩ := hr.index
      rw [count_spec hr, Node.toList]
      have := toLists_length (cs := cs) (fun c hc => by
        obtain ⟨a, b, hw⟩ := hk.each c hc
        exact Inner.size hw)
      exact Nat.le_trans (Nat.mul_le_mul_right _ h2) this

/-- The limits of the code. -/
def limits64 : Limits := ⟨64, 64, by decide, by decide⟩

/-- With the limits of the code, a tree of fewer than 2³¹ keys has at most six levels. -/
theorem shallow {l : List (K × V)} {t : Node K V} {os} (hl : inserts limits64 l emptyTree = some (t, os))
    (hn : count t < 2 ^ 31) {d : Nat} {n : Node K V} (hb : Below d t n) : d ≤ 5 := by
  obtain ⟨h, hs, hc⟩ := balanced hl
  have h1 : d ≤ h := by
    have := hs d n hb
    cases n with
    | leaf => exact Nat.le_of_eq this.1
    | index => exact Nat.le_of_lt this.1
  by_contra hd
  have hc := hc (by omega)
  have h5 : 32 ^ 5 ≤ 32 ^ (h - 1) := Nat.pow_le_pow_right (by omega) (by omega)
  have e : (limits64.children / 2) ^ (h - 1) * (limits64.keys / 2) = 32 ^ (h - 1) * 32 := rfl
  rw [e] at hc
  omega

/-- The weight of a list of bindings. -/
def weight (wk : K → Nat) (wm : V → Nat) (l : List (K × V)) : Nat := (l.map (fun x => wk x.1 + wm x.2)).sum

theorem weight_ins (wk : K → Nat) (wm : V → Nat) (k : K) (v : V) {l : List (K × V)}
    (hl : l.Pairwise (fun a b => a.1 < b.1)) :
    weight wk wm (ins k v l) + (match look l k with | none => 0 | some old => wk k + wm old) =
      weight wk wm l + (wk k + wm v) := by
  induction l with
  | nil => simp [ins, look, weight]
  | cons x l ih =>
    obtain ⟨h1, h2⟩ := List.pairwise_cons.1 hl
    unfold ins
    split
    · rename_i hk
      have : look (x :: l) k = none := look_none (fun y hy e => by
        rcases List.mem_cons.1 hy with rfl | hy
        · rw [e] at hk; exact lt_irrefl _ hk
        · have := lt_trans hk (h1 y hy); rw [e] at this; exact lt_irrefl _ this)
      rw [this]
      simp only [weight, List.map_cons, List.sum_cons]
      omega
    · split
      · rename_i hk
        rw [look_cons, if_pos hk.symm]
        simp only [weight, List.map_cons, List.sum_cons, hk]
        omega
      · rename_i hk
        rw [look_cons, if_neg (fun e => hk e.symm)]
        have := ih h2
        simp only [weight, List.map_cons, List.sum_cons] at this ⊢
        omega

theorem weight_old (wk : K → Nat) (wm : V → Nat) {l : List (K × V)} {k : K} {old : V} (h : look l k = some old) :
    wk k + wm old ≤ weight wk wm l := by
  induction l with
  | nil => simp [look] at h
  | cons x l ih =>
    rw [look_cons] at h
    simp only [weight, List.map_cons, List.sum_cons] at ih ⊢
    split at h
    · rename_i hx
      injection h with h
      subst hx h
      omega
    · have := ih h
      omega

theorem fromSeqLoop_spec (wk : K → Nat) (wm : V → Nat) : ∀ (l : List (K × V)) {t : Node K V}, Root L t →
    ∃ t', fromSeqLoop L wk wm l t (weight wk wm t.toList) = some (t', weight wk wm t'.toList) ∧
      inserts L l t = some (t', olds (look t.toList) l)
  | [], t, ht => ⟨t, rfl, rfl⟩
  | (k, v) :: l, t, ht => by
    obtain ⟨t1, h1, h2, h3⟩ := insert_spec ht k v
    obtain ⟨t2, g1, g2⟩ := fromSeqLoop_spec wk wm l h2
    have e : look t1.toList = fun k' => if k' = k then some v else look t.toList k' := by
      funext k'; rw [h3, look_ins]
    rw [e] at g2
    refine ⟨t2, ?_, by simp [inserts, h1, g2, olds]⟩
    have hw := weight_ins wk wm k v (lists_look ht).1
    rw [← h3] at hw
    cases ho : look t.toList k with
    | none =>
      rw [ho] at h1 hw
      have : weight wk wm t1.toList = weight wk wm t.toList + wm v + wk k := by dsimp only at hw; omega
      simp only [fromSeqLoop, h1]
      rw [← this, g1]
    | some old =>
      rw [ho] at h1 hw
      have hw' : weight wk wm t1.toList + (wk k + wm old) = weight wk wm t.toList + (wk k + wm v) := hw
      have : weight wk wm t1.toList = weight wk wm t.toList + wm v - wm old := by omega
      simp only [fromSeqLoop, h1]
      rw [← this, g1]

/-- Building a tree from a sequence ends, and gives the tree of the insertions and the weight of its map. -/
theorem from_seq (L : Limits) (wk : K → Nat) (wm : V → Nat) (l : List (K × V)) :
    ∃ t w os s, fromSeq L wk wm l = some (t, w) ∧ inserts L l emptyTree = some (t, os) ∧
      Lists (mapOf nothing l) s ∧ w = weight wk wm s := by
  obtain ⟨t, h1, h2⟩ := fromSeqLoop_spec (L := L) wk wm l (root_empty (K := K) (V := V))
  obtain ⟨hr, -, hl⟩ := reached h2
  have hs := lists_look hr
  rw [hl] at hs
  exact ⟨t, _, _, t.toList, h1, h2, hs, rfl⟩

/-- A tree read in order and built again is a tree with the same map. -/
theorem round_trip {l : List (K × V)} {t : Node K V} {os} (h : inserts L l emptyTree = some (t, os)) (wk : K → Nat)
    (wm : V → Nat) (s : List (K × V)) (hs : toSeq t = (s.map (·.1), s.map (·.2))) :
    ∃ t' w, fromSeq L wk wm s = some (t', w) ∧ w = weight wk wm s ∧ ∀ k, query t' k = query t k := by
  obtain ⟨s', h1, h2, -⟩ := in_order h
  have : s' = s := by
    rw [h2] at hs
    injection hs with e1 e2
    rw [← zip_unzip s', e1, e2, zip_unzip]
  subst this
  obtain ⟨t', w, os', s2, g1, g2, g3, g4⟩ := from_seq L wk wm s'
  -- inserting a sorted list gives its own map
  have key : ∀ (a : List (K × V)), a.Pairwise (fun x y => x.1 < y.1) → ∀ (M : K → Option V) k,
      mapOf M a k = (look a k).or (M k) := by
    intro a
    induction a with
    | nil => intro _ M k; rfl
    | cons x a ih =>
      intro hp M k
      obtain ⟨p1, p2⟩ := List.pairwise_cons.1 hp
      rw [mapOf, ih p2, look_cons]
      by_cases hx : x.1 = k
      · have : look a k = none := look_none (fun y hy e => by
          have := p1 y hy; rw [hx, e] at this; exact lt_irrefl _ this)
        simp [hx, this]
      · have hx' : ¬ k = x.1 := fun e => hx e.symm
        simp [hx, hx']
  have hmap : mapOf nothing s' = mapOf nothing l := by
    funext k
    rw [key s' h1.1]
    cases hm : mapOf nothing l k with
    | none =>
      rw [look_none (fun x hx e => by
        have := (h1.2 x.1 x.2).1 hx
        rw [e, hm] at this
        cases this)]
      rfl
    | some v => rw [(mem_look h1.1 k v).1 ((h1.2 k v).2 hm)]; rfl
  have hss : s2 = s' := by
    rw [hmap] at g3
    have hnd : ∀ {a : List (K × V)}, a.Pairwise (fun x y => x.1 < y.1) → a.Nodup := fun hp =>
      hp.imp (fun hlt e => by rw [e] at hlt; exact lt_irrefl _ hlt)
    have hperm : s2.Perm s' := (List.perm_ext_iff_of_nodup (hnd g3.1) (hnd h1.1)).2
      (fun x => ((g3.2 x.1 x.2).trans (h1.2 x.1 x.2).symm))
    exact hperm.eq_of_pairwise (fun a b _ _ h1 h2 => absurd (lt_trans h1 h2) (lt_irrefl _)) g3.1 h1.1
  exact ⟨t', w, g1, by rw [g4, hss], fun k => by rw [is_a_map g2, is_a_map h, hmap]⟩

/-! ### A case -/

/-- Small limits, so that a small tree has several levels. -/
def small : Limits := ⟨3, 4, by decide, by decide⟩

/-- Twelve insertions, two of them of the same key. -/
def ins12 : List (Nat × String) :=
  [(5, "a"), (3, "b"), (9, "c"), (1, "d"), (7, "e"), (5, "f"), (8, "g"), (2, "h"), (4, "i"), (6, "j"), (11, "k"), (10, "l")]

/-- The tree of the insertions has three levels, the sixth insertion gave the old value, and the queries
and the order are as claimed. -/
theorem demo : ∃ t os, inserts small ins12 emptyTree = some (t, os) ∧ t.height = 2 ∧ os[5]? = some (some "a") ∧
    query t 5 = some (some "f") ∧ query t 12 = some none ∧ (toSeq t).1 = [1, 2, 3, 4, 5, 6, 7, 8, 9, 10, 11] ∧
    minKey t = some 1 ∧ maxKey t = some 11 ∧ count t = 11 ∧ isEmpty t = false ∧ mapOf nothing ins12 5 = some "f" := by
  obtain ⟨t, h⟩ := never_stuck small ins12
  refine ⟨_, _, h, ?_⟩
  have e : (inserts small ins12 emptyTree).map (fun r => (r.1.height, r.2[5]?, query r.1 5, query r.1 12)) =
      some (2, some (some "a"), some (some "f"), some none) := by
    decide +kernel
  have e' : (inserts small ins12 emptyTree).map (fun r => ((toSeq r.1).1, minKey r.1, maxKey r.1, count r.1, isEmpty r.1)) =
      some ([1, 2, 3, 4, 5, 6, 7, 8, 9, 10, 11], some 1, some 11, 11, false) := by
    decide +kernel
  rw [h] at e e'
  simp only [Option.map_some, Option.some.injEq, Prod.mk.injEq] at e e'
  obtain ⟨e1, e2, e3, e4⟩ := e
  obtain ⟨e5, e6, e7, e8, e9⟩ := e'
  exact ⟨e1, e2, e3, e4, e5, e6, e7, e8, e9, by decide +kernel⟩

/-- The weight of the twelve insertions, each key of weight two and each value of weight one, is that of
eleven bindings. -/
theorem demo_weight : (fromSeq small (fun _ => 2) (fun _ => 1) ins12).map (·.2) = some 33 := by decide +kernel

end Verif.C73
