import Mathlib.Algebra.BigOperators.Group.List.Lemmas
import Verif.Alloc.LikesProof
import Verif.Alloc.LikesSpec
/-
In a linked betree no node page is shared: each reached page has one way from the root, since the
key ranges of the children of a node are disjoint and not empty. So counting ways is counting
references. Proofs for C38 and C42.
-/
namespace Verif

namespace CountIs
variable {α : Type} {P Q : α → Prop} {k k' : Nat}

theorem unique (h : CountIs P k) (h' : CountIs P k') : k = k' := by
  obtain ⟨L, h1, h2, rfl⟩ := h
  obtain ⟨M, g1, g2, rfl⟩ := h'
  have : L.Perm M := (List.perm_ext_iff_of_nodup h1 g1).mpr fun x => by rw [h2, g2]
  exact this.length_eq

theorem congr (h : CountIs P k) (hpq : ∀ x, P x ↔ Q x) : CountIs Q k := by
  obtain ⟨L, h1, h2, h3⟩ := h
  exact ⟨L, h1, fun x => (h2 x).trans (hpq x), h3⟩

theorem zero (h : ∀ x, ¬ P x) : CountIs P 0 := ⟨[], .nil, fun x => by simp [h x], rfl⟩

theorem pos (h : CountIs P k) : 0 < k ↔ ∃ x, P x := by
  obtain ⟨L, _, h2, rfl⟩ := h
  rw [List.length_pos_iff_exists_mem]
  simp only [h2]

end CountIs

namespace LikesBetree
open LinkedBetree CountRefs

theorem follow_nil {d : Disk} {p : Pointer} {a : Address} :
    follow d p [] = some a ↔ p = some a ∧ d.Has a := by
  cases p with
  | none => simp [follow]
  | some b =>
    rw [PMap.has_iff]
    cases hn : d b with
    | none =>
      simp only [follow, hn, Option.map_none, Option.some.injEq]
      constructor
      · intro h; cases h
      · rintro ⟨rfl, n, h⟩; rw [hn] at h; cases h
    | some n =>
      simp only [follow, hn, Option.map_some, Option.some.injEq]
      constructor
      · rintro rfl; exact ⟨rfl, n, hn⟩
      · exact fun h => h.1

theorem follow_cons {d : Disk} {p : Pointer} {i : Nat} {w : List Nat} {a : Address} :
    follow d p (i :: w) = some a ↔
    ∃ b n, p = some b ∧ d b = some n ∧ i < n.children.length ∧ follow d (n.childAt i) w = some a := by
  cases p with
  | none => simp [follow]
  | some b =>
    cases hn : d b with
    | none =>
      simp only [follow, hn, Option.bind_none]
      constructor
      · intro h; cases h
      · rintro ⟨c, n, e, h, _⟩; cases e; rw [hn] at h; cases h
    | some n =>
      simp only [follow, hn, Option.bind_some]
      constructor
      · intro h
        split at h
        · rename_i hi
          exact ⟨b, n, rfl, hn, hi, h⟩
        · cases h
      · rintro ⟨c, m, h1, h2, h3, h4⟩
        cases h1
        rw [hn] at h2
        cases h2
        rw [if_pos h3, h4]

/-- Extending a way by one slot. -/
theorem follow_snoc {d : Disk} {w : List Nat} {i : Nat} : ∀ {p : Pointer} {a : Address},
    follow d p (w ++ [i]) = some a ↔
    ∃ b n, follow d p w = some b ∧ d b = some n ∧ i < n.children.length ∧ n.childAt i = some a ∧
      d.Has a := by
  induction w with
  | nil =>
    intro p a
    rw [List.nil_append, follow_cons]
    simp only [follow_nil]
    constructor
    · rintro ⟨b, n, h1, h2, h3, h4, h5⟩
      exact ⟨b, n, ⟨h1, (PMap.has_iff _ _).mpr ⟨n, h2⟩⟩, h2, h3, h4, h5⟩
    · rintro ⟨b, n, ⟨h1, _⟩, h2, h3, h4, h5⟩
      exact ⟨b, n, h1, h2, h3, h4, h5⟩
  | cons j w ih =>
    intro p a
    rw [List.cons_append, follow_cons]
    constructor
    · rintro ⟨b, n, h1, h2, h3, h4⟩
      obtain ⟨c, m, g1, g2⟩ := ih.mp h4
      exact ⟨c, m, follow_cons.mpr ⟨b, n, h1, h2, h3, g1⟩, g2⟩
    · rintro ⟨c, m, g1, g2⟩
      obtain ⟨b, n, h1, h2, h3, h4⟩ := follow_cons.mp g1
      exact ⟨b, n, h1, h2, h3, ih.mpr ⟨c, m, h4, g2⟩⟩

/-! ### One way to each page -/

/-- A child range lies inside the node's range. -/
theorem childDomain_le {n : LNode} (hw : n.WF) {i : Nat} (hi : i < n.children.length) {k : Key}
    (hk : (n.childDomain i).Contains k) : n.myDomain.Contains k := by
  obtain ⟨h1, h2, _⟩ := hw
  have hl := h1.len
  have : n.pivots.numRanges = n.pivots.pivots.length - 1 := rfl
  simp only [LNode.childDomain, LNode.myDomain, Domain.Contains, Element.lte_iff, Element.lt_iff] at *
  have a1 := h1.le (i := 0) (j := i) (by omega) (by omega)
  have a2 := h1.le (i := i + 1) (j := n.pivots.pivots.length - 1) (by omega) (by omega)
  omega

/-- Child ranges are disjoint. -/
theorem childDomain_disj {n : LNode} (hw : n.WF) {i j : Nat} (hi : i < n.children.length)
    (hj : j < n.children.length) {k : Key} (hki : (n.childDomain i).Contains k)
    (hkj : (n.childDomain j).Contains k) : i = j := by
  obtain ⟨h1, h2, _⟩ := hw
  have hl := h1.len
  have : n.pivots.numRanges = n.pivots.pivots.length - 1 := rfl
  simp only [LNode.childDomain, Domain.Contains, Element.lte_iff, Element.lt_iff] at hki hkj
  rcases Nat.lt_trichotomy i j with h | h | h
  · have := h1.le (i := i + 1) (j := j) (by omega) (by omega)
    omega
  · exact h
  · have := h1.le (i := j + 1) (j := i) (by omega) (by omega)
    omega

/-- The range of a node is not empty. -/
theorem domain_inhabited {n : LNode} (hw : n.WF) : ∃ k, n.myDomain.Contains k := by
  obtain ⟨h1, _⟩ := hw
  have hl := h1.len
  have hne := ((PivotTable.wf_iff _).mp h1).2.2 0 (by omega)
  have hlt := h1.lt (i := 0) (j := n.pivots.pivots.length - 1) (by omega) (by omega)
  cases h0 : n.pivots.get 0 with
  | max => exact absurd h0 hne
  | elem k =>
    refine ⟨k, ?_⟩
    rw [h0] at hlt
    simp only [LNode.myDomain, Domain.Contains, Element.lte_iff, Element.lt_iff, h0]
    exact ⟨Nat.le_refl _, hlt⟩

/-- Keys of a page lie in the range of every page on the way to it. -/
theorem follow_domain {d : Disk} (hw : d.WF) {w : List Nat} : ∀ {b a : Address} {n m : LNode} {k},
    follow d (some b) w = some a → d b = some n → d a = some m → m.myDomain.Contains k →
    n.myDomain.Contains k := by
  induction w with
  | nil =>
    intro b a n m k h hn hm hk
    obtain ⟨h, _⟩ := follow_nil.mp h
    cases h
    rw [hn] at hm; cases hm
    exact hk
  | cons i w ih =>
    intro b a n m k h hn hm hk
    obtain ⟨b', n', h1, h2, h3, h4⟩ := follow_cons.mp h
    cases h1
    rw [hn] at h2; cases h2
    cases hc : n.childAt i with
    | none => rw [hc] at h4; cases w <;> simp [follow] at h4
    | some c =>
      rw [hc] at h4
      obtain ⟨cn, hcn⟩ := (PMap.has_iff _ _).mp ((hw.2.1 b n hn).1 i h3 c hc)
      have := ih h4 hcn hm hk
      rw [(hw.2.1 b n hn).2 i h3 c cn hc hcn] at this
      exact childDomain_le (hw.1 b n hn) h3 this

theorem follow_child_domain {d : Disk} (hw : d.WF) {b a : Address} {n m : LNode} {i w k}
    (hn : d b = some n) (hi : i < n.children.length) (h : follow d (n.childAt i) w = some a)
    (hm : d a = some m) (hk : m.myDomain.Contains k) : (n.childDomain i).Contains k := by
  cases hc : n.childAt i with
  | none => rw [hc] at h; cases w <;> simp [follow] at h
  | some c =>
    rw [hc] at h
    obtain ⟨cn, hcn⟩ := (PMap.has_iff _ _).mp ((hw.2.1 b n hn).1 i hi c hc)
    have := follow_domain hw h hcn hm hk
    rwa [(hw.2.1 b n hn).2 i hi c cn hc hcn] at this

theorem follow_sees {d : Disk} {bd} {w : List Nat} : ∀ {p : Pointer} {t} {a : Address},
    Sees d bd p t → follow d p w = some a → ∃ u, Sees d bd (some a) u ∧ sizeOf u ≤ sizeOf t ∧
      (w ≠ [] → sizeOf u < sizeOf t) := by
  induction w with
  | nil =>
    intro p t a hs h
    obtain ⟨rfl, _⟩ := follow_nil.mp h
    exact ⟨t, hs, Nat.le_refl _, fun h => absurd rfl h⟩
  | cons i w ih =>
    intro p t a hs h
    obtain ⟨b, n, rfl, h2, h3, h4⟩ := follow_cons.mp h
    obtain ⟨m, bs, ts, rfl, hm, _, hl, hk⟩ := hs.some_inv
    rw [h2] at hm; cases hm
    obtain ⟨u, hu, hle, _⟩ := ih (hk i h3) h4
    have hlt := Nat.lt_of_le_of_lt hle (k := sizeOf ts) (by
      have : ts.getD i .nil ∈ ts := by
        have hi' : i < ts.length := by omega
        simp only [List.getD, List.getElem?_eq_getElem hi', Option.getD_some]
        exact List.getElem_mem hi'
      exact List.sizeOf_lt_of_mem this)
    rw [Tree.node.sizeOf_spec]
    exact ⟨u, hu, by omega, fun _ => by omega⟩

/-- One way to each page. -/
theorem follow_unique {d : Disk} {bd} (hw : d.WF) {w : List Nat} : ∀ {p : Pointer} {t} {v : List Nat}
    {a : Address}, Sees d bd p t → follow d p w = some a → follow d p v = some a → w = v := by
  induction w with
  | nil =>
    intro p t v a hs h h'
    cases v with
    | nil => rfl
    | cons j v =>
      obtain ⟨rfl, _⟩ := follow_nil.mp h
      obtain ⟨u, hu, _, hlt⟩ := follow_sees hs h'
      have := hlt (by simp)
      rw [hs.functional hu] at this
      omega
  | cons i w ih =>
    intro p t v a hs h h'
    cases v with
    | nil =>
      obtain ⟨rfl, _⟩ := follow_nil.mp h'
      obtain ⟨u, hu, _, hlt⟩ := follow_sees hs h
      have := hlt (by simp)
      rw [hs.functional hu] at this
      omega
    | cons j v =>
      obtain ⟨b, n, rfl, h2, h3, h4⟩ := follow_cons.mp h
      obtain ⟨b', n', e, g2, g3, g4⟩ := follow_cons.mp h'
      cases e
      rw [h2] at g2; cases g2
      obtain ⟨u, hu, _⟩ := follow_sees hs h
      obtain ⟨m, _, _, _, hm, _⟩ := hu.some_inv
      obtain ⟨k, hk⟩ := domain_inhabited (hw.1 a m hm)
      have e := childDomain_disj (hw.1 b n h2) h3 g3
        (follow_child_domain hw h2 h3 h4 hm hk) (follow_child_domain hw h2 g3 g4 hm hk)
      subst e
      obtain ⟨_, _, ts, rfl, hm', _, hl, hkid⟩ := hs.some_inv
      rw [h2] at hm'; cases hm'
      rw [ih (hkid i h3) h4 g4]

/-! ### Counting references -/

/-- The reached pages, each once. -/
theorem pages_exist {l : Linked} {t} (hw : l.dv.WF) (hs : Sees l.dv l.bdv l.root t) :
    ∃ A : List Address, A.Nodup ∧ (∀ a, a ∈ A ↔ Reach l.dv l.root a) ∧
      likesAt l.dv l.root = (A : Likes) := by
  obtain ⟨W, h1, h2, h3⟩ := ways_exist hs
  refine ⟨W.map Prod.snd, ?_, fun a => ?_, h3⟩
  · refine List.Nodup.map_on ?_ (List.Nodup.of_map _ h1)
    rintro ⟨w, a⟩ hx ⟨v, b⟩ hy hab
    dsimp only at hab
    subst hab
    rw [follow_unique hw hs ((h2 _ _).mp hx) ((h2 _ _).mp hy)]
  · rw [← mem_likesAt hs, h3, Multiset.mem_coe]

/-- The only reference to a reached page. -/
theorem nodeRef_unique {l : Linked} {t} (hw : l.dv.WF) (hs : Sees l.dv l.bdv l.root t) {b : Address}
    (hb : Reach l.dv l.root b) : ∃ x, ∀ y, NodeRef l b y ↔ y = x := by
  obtain ⟨w, hwy⟩ := reach_follow hb
  have slot : ∀ {n : LNode} {i : Nat}, n.children[i]? = some (some b) ↔
      i < n.children.length ∧ n.childAt i = some b := by
    intro n i
    unfold LNode.childAt
    rw [List.getD]
    cases h : n.children[i]? with
    | none =>
      rw [List.getElem?_eq_none_iff] at h
      simp only [Option.getD_none, reduceCtorEq, and_false]
    | some q =>
      have : i < n.children.length := by
        rcases Nat.lt_or_ge i n.children.length with h' | h'
        · exact h'
        · rw [List.getElem?_eq_none h'] at h; cases h
      simp [this]
  have way : ∀ y, NodeRef l b y → (y = none ∧ w = []) ∨
      ∃ a i v, y = some (a, i) ∧ w = v ++ [i] ∧ follow l.dv l.root v = some a := by
    intro y hy
    match y with
    | none =>
      exact .inl ⟨rfl, (follow_unique hw hs (follow_nil.mpr ⟨hy, reach_has hb⟩) hwy).symm⟩
    | some (a, i) =>
      obtain ⟨hr, n, hn, hc⟩ := hy
      obtain ⟨v, hv⟩ := reach_follow hr
      obtain ⟨c1, c2⟩ := slot.mp hc
      have := follow_snoc.mpr ⟨a, n, hv, hn, c1, c2, reach_has hb⟩
      exact .inr ⟨a, i, v, rfl, follow_unique hw hs hwy this, hv⟩
  rcases List.eq_nil_or_concat w with rfl | ⟨v, i, rfl⟩
  · refine ⟨none, fun y => ⟨fun hy => ?_, ?_⟩⟩
    · rcases way y hy with ⟨h, _⟩ | ⟨a, i, v, _, h, _⟩
      · exact h
      · simp at h
    · rintro rfl
      exact (follow_nil.mp hwy).1
  · rw [List.concat_eq_append] at hwy way
    obtain ⟨a, n, h1, h2, h3, h4, _⟩ := follow_snoc.mp hwy
    refine ⟨some (a, i), fun y => ⟨fun hy => ?_, ?_⟩⟩
    · rcases way y hy with ⟨_, h⟩ | ⟨a', i', v', rfl, h, h'⟩
      · simp at h
      · obtain ⟨e1, e2⟩ := List.append_inj' h rfl
        cases e2
        subst e1
        rw [h1] at h'
        cases h'
        rfl
    · rintro rfl
      exact ⟨follow_reach h1, n, h2, slot.mpr ⟨h3, h4⟩⟩

theorem nodeRef_reach {l : Linked} {t} (hw : l.dv.WF) (hs : Sees l.dv l.bdv l.root t) {b : Address} {x}
    (h : NodeRef l b x) : Reach l.dv l.root b := by
  match x with
  | none =>
    have h : l.root = some b := h
    obtain ⟨n, hn⟩ := (PMap.has_iff _ _).mp (nondangling_of hs b h)
    rw [h]
    exact .here hn
  | some (a, i) =>
    obtain ⟨hr, n, hn, hc⟩ := h
    have hi : i < n.children.length := by
      rcases Nat.lt_or_ge i n.children.length with h' | h'
      · exact h'
      · rw [List.getElem?_eq_none h'] at hc; cases hc
    have hc' : n.childAt i = some b := by simp [LNode.childAt, List.getD, hc]
    obtain ⟨m, hm⟩ := (PMap.has_iff _ _).mp ((hw.2.1 a n hn).1 i hi b hc')
    exact reach_trans hr (.down hn hi (by rw [hc']; exact .here hm))

theorem count_node {l : Linked} {t} (hw : l.dv.WF) (hs : Sees l.dv l.bdv l.root t) (b : Address) :
    CountIs (NodeRef l b) ((likesAt l.dv l.root).count b) := by
  obtain ⟨A, h1, h2, h3⟩ := pages_exist hw hs
  rw [h3, Multiset.coe_count]
  by_cases hb : Reach l.dv l.root b
  · rw [List.count_eq_one_of_mem h1 ((h2 b).mpr hb)]
    obtain ⟨x, hx⟩ := nodeRef_unique hw hs hb
    exact ⟨[x], by simp, fun y => by rw [hx, List.mem_singleton], rfl⟩
  · rw [List.count_eq_zero_of_not_mem (fun h => hb ((h2 b).mp h))]
    exact .zero fun x hx => hb (nodeRef_reach hw hs hx)

/-- Positions of a value in a list. -/
theorem positions (L : List Address) (b : Address) :
    ∃ J : List Nat, J.Nodup ∧ (∀ j, j ∈ J ↔ L[j]? = some b) ∧ J.length = L.count b := by
  induction L with
  | nil => exact ⟨[], .nil, by simp, rfl⟩
  | cons x L ih =>
    obtain ⟨J, h1, h2, h3⟩ := ih
    have hn : (J.map Nat.succ).Nodup := List.Nodup.map (fun _ _ h => Nat.succ.inj h) h1
    by_cases hx : x = b
    · refine ⟨0 :: J.map Nat.succ, ?_, fun j => ?_, ?_⟩
      · rw [List.nodup_cons]; exact ⟨by simp, hn⟩
      · cases j with
        | zero => simp [hx]
        | succ j => simp [h2]
      · simp [h3, hx]
    · refine ⟨J.map Nat.succ, hn, fun j => ?_, ?_⟩
      · cases j with
        | zero => simp [hx]
        | succ j => simp [h2]
      · simp [h3, hx]

theorem count_buf {l : Linked} {t} (hw : l.dv.WF) (hs : Sees l.dv l.bdv l.root t) (b : Address) :
    CountIs (BufRef l b) ((bufferLikes l.dv (likesAt l.dv l.root)).count b) := by
  obtain ⟨A, h1, h2, h3⟩ := pages_exist hw hs
  rw [h3]
  have key : ∀ A : List Address, A.Nodup → (∀ a ∈ A, l.dv.Has a) →
      CountIs (fun x : Address × Nat => x.1 ∈ A ∧ ∃ n, l.dv x.1 = some n ∧ n.buffers[x.2]? = some b)
        ((bufferLikes l.dv (A : Likes)).count b) := by
    intro A
    induction A with
    | nil => intro _ _; exact .zero fun x hx => by simp at hx
    | cons a A ih =>
      intro hn hh
      rw [List.nodup_cons] at hn
      obtain ⟨L, g1, g2, g3⟩ := ih hn.2 fun a h => hh a (List.mem_cons_of_mem _ h)
      obtain ⟨n, hn'⟩ := (PMap.has_iff _ _).mp (hh a (List.mem_cons_self ..))
      obtain ⟨J, j1, j2, j3⟩ := positions n.buffers b
      refine ⟨J.map (fun j => (a, j)) ++ L, ?_, ?_, ?_⟩
      · rw [List.nodup_append]
        refine ⟨List.Nodup.map (fun _ _ h => (Prod.mk.inj h).2) j1, g1, ?_⟩
        rintro x hx y hy rfl
        obtain ⟨j, _, rfl⟩ := List.mem_map.mp hx
        exact hn.1 ((g2 _).mp hy).1
      · rintro ⟨c, j⟩
        rw [List.mem_append, g2, List.mem_map]
        dsimp only
        rw [List.mem_cons]
        constructor
        · rintro (⟨i, hi, e⟩ | ⟨h, h'⟩)
          · cases e
            exact ⟨.inl rfl, n, hn', (j2 _).mp hi⟩
          · exact ⟨.inr h, h'⟩
        · rintro ⟨rfl | h, m, hm, h'⟩
          · rw [hn'] at hm; cases hm
            exact .inl ⟨j, (j2 _).mpr h', rfl⟩
          · exact .inr ⟨h, m, hm, h'⟩
      · rw [List.length_append, List.length_map, g3, j3]
        rw [show ((a :: A : List Address) : Likes) = {a} + (A : Likes) from rfl]
        unfold bufferLikes
        rw [Multiset.add_bind, Multiset.count_add, Multiset.singleton_bind, bufs_of hn',
          Multiset.coe_count]
  refine (key A h1 fun a ha => reach_has ((h2 a).mp ha)).congr fun x => ?_
  rw [h2]
  rfl

/-! ### Counts per unit -/

/-- Counts of the references to each page, summed over the pages of a unit. -/
theorem count_unit {α : Type} {R : Address → α → Prop} (hf : ∀ {b b' x}, R b x → R b' x → b = b')
    {m : Likes} (hc : ∀ b, CountIs (R b) (m.count b)) (u : Nat) :
    CountIs (fun x => ∃ b, b.au = u ∧ R b x) ((toAuLikes m).count u) := by
  induction m using Quotient.inductionOn with
  | h L =>
    have e : (toAuLikes (L : Likes)).count u = (L.filter (fun b => b.au = u)).length := by
      unfold toAuLikes
      rw [Multiset.map_coe, Multiset.coe_count, List.count, List.countP_map,
        List.countP_eq_length_filter]
      congr 2
    have key : ∀ D : List Address, D.Nodup →
        CountIs (fun x => ∃ b ∈ D, R b x) (D.map fun b => (L : Likes).count b).sum := by
      intro D
      induction D with
      | nil => intro _; exact .zero fun x hx => by simp at hx
      | cons b D ih =>
        intro hn
        rw [List.nodup_cons] at hn
        obtain ⟨M, g1, g2, g3⟩ := ih hn.2
        obtain ⟨N, j1, j2, j3⟩ := hc b
        refine ⟨N ++ M, ?_, fun x => ?_, ?_⟩
        · rw [List.nodup_append]
          refine ⟨j1, g1, ?_⟩
          rintro x hx y hy rfl
          obtain ⟨b', hb', hr⟩ := (g2 x).mp hy
          rw [hf ((j2 x).mp hx) hr] at hn
          exact hn.1 hb'
        · rw [List.mem_append, j2, g2]
          simp
        · rw [List.length_append, List.map_cons, List.sum_cons, g3, j3]
          rfl
    have hp : ∀ b, 0 < (L : Likes).count b ↔ ∃ x, R b x := fun b => (hc b).pos
    have e2 := List.sum_map_count_dedup_eq_length (L.filter (fun b => b.au = u))
    have := key (L.filter (fun b => b.au = u)).dedup (List.nodup_dedup _)
    show CountIs _ ((toAuLikes (L : Likes)).count u)
    rw [e, ← e2]
    have e3 : ((L.filter (fun b => b.au = u)).dedup.map fun x =>
        (L.filter (fun b => b.au = u)).count x) =
        ((L.filter (fun b => b.au = u)).dedup.map fun b => (L : Likes).count b) := by
      apply List.map_congr_left
      intro b hb
      have hb := (List.mem_filter.mp (List.mem_dedup.mp hb)).2
      rw [Multiset.coe_count]
      exact List.count_filter hb
    rw [e3]
    refine this.congr fun x => ?_
    constructor
    · rintro ⟨b, hb, hr⟩
      exact ⟨b, by simpa using (List.mem_filter.mp (List.mem_dedup.mp hb)).2, hr⟩
    · rintro ⟨b, hb, hr⟩
      have := (hp b).mpr ⟨x, hr⟩
      rw [Multiset.count_pos, Multiset.mem_coe] at this
      exact ⟨b, List.mem_dedup.mpr (List.mem_filter.mpr ⟨this, by simpa using hb⟩), hr⟩

theorem nodeRef_target {l : Linked} {b b' : Address} {x} (h : NodeRef l b x) (h' : NodeRef l b' x) :
    b = b' := by
  match x with
  | none =>
    have h : l.root = some b := h
    have h' : l.root = some b' := h'
    rw [h] at h'
    cases h'; rfl
  | some (a, i) =>
    obtain ⟨_, n, hn, hc⟩ := h
    obtain ⟨_, n', hn', hc'⟩ := h'
    rw [hn] at hn'; cases hn'
    rw [hc] at hc'; cases hc'
    rfl

theorem bufRef_target {l : Linked} {b b' : Address} {x} (h : BufRef l b x) (h' : BufRef l b' x) :
    b = b' := by
  obtain ⟨_, n, hn, hc⟩ := h
  obtain ⟨_, n', hn', hc'⟩ := h'
  rw [hn] at hn'; cases hn'
  rw [hc] at hc'; cases hc'
  rfl

end LikesBetree
end Verif
