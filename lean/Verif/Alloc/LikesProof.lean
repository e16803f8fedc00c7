import Mathlib.Data.List.Nodup
import Verif.Alloc.LikesBetree
import Verif.Betree.LinkedPossible
/-
Reference counts of the linked betree: proofs for C38.
-/
namespace Verif.LikesBetree
open Verif LinkedBetree

/-! ### The counts below a pointer, without a ranking -/

theorem treeLikesN_none (d : Disk) (f : Nat) : treeLikesN d f none = 0 := by
  cases f <;> rfl

theorem mem_child {n : LNode} {q : Pointer} (h : q ∈ n.children) :
    ∃ i, i < n.children.length ∧ n.children.getD i none = q := by
  obtain ⟨i, hi, rfl⟩ := List.mem_iff_getElem.mp h
  exact ⟨i, hi, by simp [List.getD, List.getElem?_eq_getElem hi]⟩

theorem treeLikesN_sub {d d' : Disk} {bd p t} (hs : Sees d bd p t) (hsub : PMap.Sub d d') (f : Nat) :
    treeLikesN d' f p = treeLikesN d f p := by
  induction hs generalizing f with
  | nil => rw [treeLikesN_none, treeLikesN_none]
  | @node a n bs ts h1 h2 h3 h4 ih =>
    cases f with
    | zero => rfl
    | succ f =>
      simp only [treeLikesN, h1, hsub _ _ h1]
      congr 2
      apply List.map_congr_left
      intro q hq
      obtain ⟨i, hi, rfl⟩ := mem_child hq
      exact ih i hi f

theorem treeLikesN_stable {d : Disk} {bd p t} (hs : Sees d bd p t) {f g : Nat} (hf : sizeOf t ≤ f)
    (hg : sizeOf t ≤ g) : treeLikesN d f p = treeLikesN d g p := by
  induction hs generalizing f g with
  | nil => rw [treeLikesN_none, treeLikesN_none]
  | @node a n bs ts h1 h2 h3 h4 ih =>
    rw [Tree.node.sizeOf_spec] at hf hg
    obtain ⟨f, rfl⟩ : ∃ f', f = f' + 1 := ⟨f - 1, by omega⟩
    obtain ⟨g, rfl⟩ : ∃ g', g = g' + 1 := ⟨g - 1, by omega⟩
    simp only [treeLikesN, h1]
    congr 2
    apply List.map_congr_left
    intro q hq
    obtain ⟨i, hi, rfl⟩ := mem_child hq
    have : ts.getD i .nil ∈ ts := by
      have hi' : i < ts.length := by omega
      simp only [List.getD, List.getElem?_eq_getElem hi', Option.getD_some]
      exact List.getElem_mem hi'
    have := List.sizeOf_lt_of_mem this
    exact ih i hi (by omega) (by omega)

open Classical in
/-- The pages met when unfolding the tree below a pointer, with multiplicity. -/
noncomputable def likesAt (d : Disk) (p : Pointer) : Likes :=
  if h : ∃ m N, ∀ f, N ≤ f → treeLikesN d f p = m then choose h else 0

theorem likesAt_eq {d : Disk} {p m} (N : Nat) (h : ∀ f, N ≤ f → treeLikesN d f p = m) :
    likesAt d p = m := by
  have hex : ∃ m N, ∀ f, N ≤ f → treeLikesN d f p = m := ⟨m, N, h⟩
  unfold likesAt
  rw [dif_pos hex]
  obtain ⟨N', h'⟩ := Classical.choose_spec hex
  rw [← h' (max N N') (by omega), h (max N N') (by omega)]

theorem likesAt_none (d : Disk) : likesAt d none = 0 := likesAt_eq 0 fun f _ => treeLikesN_none d f

theorem likesAt_at {d : Disk} {bd p t} (hs : Sees d bd p t) {f : Nat} (hf : sizeOf t ≤ f) :
    treeLikesN d f p = likesAt d p :=
  (likesAt_eq (sizeOf t) fun _ hg => treeLikesN_stable hs hg hf).symm

theorem likesAt_sub {d d' : Disk} {bd p t} (hs : Sees d bd p t) (hsub : PMap.Sub d d') :
    likesAt d' p = likesAt d p := by
  apply likesAt_eq (sizeOf t)
  intro f hf
  rw [treeLikesN_sub hs hsub, likesAt_at hs hf]

theorem likesAt_node {d : Disk} {bd a t n} (hs : Sees d bd (some a) t) (hn : d a = some n) :
    likesAt d (some a) = {a} + (n.children.map (likesAt d)).sum := by
  rw [← likesAt_at hs (f := sizeOf t + 1) (by omega)]
  obtain ⟨m, bs, ts, rfl, hm, _, hl, hk⟩ := hs.some_inv
  rw [hn] at hm
  cases hm
  simp only [treeLikesN, hn]
  congr 2
  apply List.map_congr_left
  intro q hq
  obtain ⟨i, hi, rfl⟩ := mem_child hq
  have : ts.getD i .nil ∈ ts := by
    have hi' : i < ts.length := by omega
    simp only [List.getD, List.getElem?_eq_getElem hi', Option.getD_some]
    exact List.getElem_mem hi'
  have := List.sizeOf_lt_of_mem this
  refine likesAt_at (hk i hi) ?_
  rw [Tree.node.sizeOf_spec]
  omega

/-- With a ranking, the rank of a page is enough. -/
theorem treeLikesN_rank {d : Disk} {r : PMap Address Nat} (hr : d.ValidRanking r) (ra : Nat) :
    ∀ (a : Address) (f g : Nat), r a = some ra → ra + 1 ≤ f → ra + 1 ≤ g →
      treeLikesN d f (some a) = treeLikesN d g (some a) := by
  induction ra using Nat.strongRecOn with
  | _ ra ih =>
    intro a f g hra hf hg
    obtain ⟨f, rfl⟩ : ∃ f', f = f' + 1 := ⟨f - 1, by omega⟩
    obtain ⟨g, rfl⟩ : ∃ g', g = g' + 1 := ⟨g - 1, by omega⟩
    simp only [treeLikesN]
    cases hn : d a with
    | none => rfl
    | some n =>
      dsimp only
      congr 2
      apply List.map_congr_left
      intro q hq
      obtain ⟨i, hi, hq⟩ := mem_child hq
      cases q with
      | none => rw [treeLikesN_none, treeLikesN_none]
      | some c =>
        obtain ⟨rc, h1, h2⟩ := hr.2 a n ra hn hra i c hi hq
        exact ih rc h2 c f g h1 (by omega) (by omega)

theorem treeLikes_eq {l : Linked} {r : PMap Address Nat} (hr : l.ValidRanking r) :
    treeLikes l r = likesAt l.dv l.root := by
  obtain ⟨hw, hd, hroot⟩ := hr
  unfold treeLikes
  symm
  cases hp : l.root with
  | none => rw [treeLikesN_none, likesAt_none]
  | some a =>
    have hr : l.HasRoot := ⟨a, hp, hw.2 a hp⟩
    obtain ⟨ra, hra⟩ := (PMap.has_iff _ _).mp (hroot hr a hp)
    have : getRank l r = ra + 1 := by simp [getRank, hr, hp, hra]
    rw [this]
    exact likesAt_eq (ra + 1) fun f hf => treeLikesN_rank hd ra a _ _ hra hf (Nat.le_refl _)

theorem transitive_eq {l : Linked} (h : l.Acyclic) :
    transitiveLikes l = (likesAt l.dv l.root, bufferLikes l.dv (likesAt l.dv l.root)) := by
  unfold transitiveLikes
  rw [dif_pos h.2, treeLikes_eq (Classical.choose_spec h.2)]

/-! ### The counts and the ways to a page -/

/-- Follow child slots from a pointer. -/
def follow (d : Disk) : Pointer → List Nat → Option Address
  | none, _ => none
  | some a, [] => (d a).map fun _ => a
  | some a, i :: w => (d a).bind fun n => if i < n.children.length then follow d (n.childAt i) w else none

theorem follow_reach {d : Disk} {w : List Nat} : ∀ {p : Pointer} {a : Address},
    follow d p w = some a → Reach d p a := by
  induction w with
  | nil =>
    intro p a h
    cases p with
    | none => simp [follow] at h
    | some b =>
      cases hn : d b with
      | none => simp [follow, hn] at h
      | some n =>
        simp only [follow, hn, Option.map_some, Option.some.injEq] at h
        subst h
        exact .here hn
  | cons i w ih =>
    intro p a h
    cases p with
    | none => simp [follow] at h
    | some b =>
      cases hn : d b with
      | none => simp [follow, hn] at h
      | some n =>
        simp only [follow, hn, Option.bind_some] at h
        split at h
        · rename_i hi
          exact .down hn hi (ih h)
        · cases h

theorem reach_follow {d : Disk} {p : Pointer} {a : Address} (h : Reach d p a) :
    ∃ w, follow d p w = some a := by
  induction h with
  | here hn => exact ⟨[], by simp [follow, hn]⟩
  | @down a n i b hn hi _ ih =>
    obtain ⟨w, hw⟩ := ih
    have hi : i < n.children.length := hi
    exact ⟨i :: w, by simp [follow, hn, hi, hw]⟩

theorem sum_coe_flatMap {α β : Type} (L : List α) (g : α → List β) :
    (L.map fun i => (g i : Multiset β)).sum = (L.flatMap g : List β) := by
  induction L with
  | nil => rfl
  | cons x L ih => simp [List.flatMap_cons, ih, ← Multiset.coe_add]

/-- All ways below a pointer, each with the page it leads to. -/
theorem ways_exist {d : Disk} {bd p t} (hs : Sees d bd p t) :
    ∃ W : List (List Nat × Address), (W.map Prod.fst).Nodup ∧
      (∀ w a, (w, a) ∈ W ↔ follow d p w = some a) ∧ likesAt d p = (W.map Prod.snd : List Address) := by
  induction hs with
  | nil => exact ⟨[], by simp, by intro w a; cases w <;> simp [follow], likesAt_none d⟩
  | @node a n bs ts h1 h2 h3 h4 ih =>
    have hs : Sees d bd (some a) (.node ⟨bs, n.flushed⟩ n.pivots ts) := .node h1 h2 h3 h4
    have hc : ∀ i, ∃ W : List (List Nat × Address), i < n.children.length →
        (W.map Prod.fst).Nodup ∧ (∀ w a, (w, a) ∈ W ↔ follow d (n.childAt i) w = some a) ∧
        likesAt d (n.childAt i) = (W.map Prod.snd : List Address) := by
      intro i
      by_cases hi : i < n.children.length
      · obtain ⟨W, hW⟩ := ih i hi
        exact ⟨W, fun _ => hW⟩
      · exact ⟨[], fun h => absurd h hi⟩
    let W := fun i => Classical.choose (hc i)
    have hW : ∀ i, i < n.children.length → ((W i).map Prod.fst).Nodup ∧
        (∀ w a, (w, a) ∈ W i ↔ follow d (n.childAt i) w = some a) ∧
        likesAt d (n.childAt i) = ((W i).map Prod.snd : List Address) :=
      fun i => Classical.choose_spec (hc i)
    generalize W = W at hW
    refine ⟨([], a) :: (List.range n.children.length).flatMap
      (fun i => (W i).map fun x => (i :: x.1, x.2)), ?_, ?_, ?_⟩
    · rw [List.map_cons, List.nodup_cons, List.map_flatMap]
      refine ⟨?_, List.nodup_flatMap.mpr ⟨?_, ?_⟩⟩
      · simp
      · intro i hi
        rw [List.mem_range] at hi
        rw [List.map_map]
        have := (hW i hi).1
        rw [show (Prod.fst ∘ fun x : List Nat × Address => (i :: x.1, x.2)) =
          (fun w => i :: w) ∘ Prod.fst from rfl, ← List.map_map]
        exact List.Nodup.map (fun x y h => by simpa using h) this
      · refine List.Pairwise.imp ?_ (List.nodup_range)
        intro i j hij x hx hy
        simp only [List.map_map, List.mem_map, Function.comp] at hx hy
        obtain ⟨y, _, rfl⟩ := hx
        obtain ⟨z, _, hz⟩ := hy
        simp only [List.cons.injEq] at hz
        exact hij hz.1.symm
    · intro w b
      rw [List.mem_cons, List.mem_flatMap]
      cases w with
      | nil =>
        simp only [follow, h1, Option.map_some]
        constructor
        · rintro (h | ⟨i, _, h⟩)
          · simp only [Prod.mk.injEq, true_and] at h; rw [h]
          · simp at h
        · intro h
          simp only [Option.some.injEq] at h
          exact .inl (by rw [h])
      | cons i w =>
        simp only [follow, h1, Option.bind_some]
        constructor
        · rintro (h | ⟨j, hj, h⟩)
          · simp at h
          · simp only [List.mem_map, Prod.mk.injEq, List.cons.injEq] at h
            obtain ⟨x, hx, ⟨rfl, rfl⟩, rfl⟩ := h
            rw [List.mem_range] at hj
            rw [if_pos hj]
            exact ((hW _ hj).2.1 _ _).mp hx
        · intro h
          split at h
          · rename_i hi
            exact .inr ⟨i, List.mem_range.mpr hi, List.mem_map.mpr
              ⟨(w, b), ((hW i hi).2.1 w b).mpr h, rfl⟩⟩
          · cases h
    · rw [likesAt_node hs h1, List.map_cons, ← Multiset.cons_coe, ← Multiset.singleton_add,
        List.map_flatMap]
      congr 1
      simp only [List.map_map]
      rw [← sum_coe_flatMap]
      have : n.children = (List.range n.children.length).map n.childAt := by
        apply List.ext_getElem
        · simp
        · intro i hi _
          simp [LNode.childAt, List.getD, List.getElem?_eq_getElem hi]
      rw [show n.children.map (likesAt d) =
        ((List.range n.children.length).map n.childAt).map (likesAt d) by rw [← this], List.map_map]
      congr 1
      apply List.map_congr_left
      intro i hi
      rw [List.mem_range] at hi
      exact (hW i hi).2.2

theorem mem_likesAt {d : Disk} {bd p t} (hs : Sees d bd p t) {a : Address} :
    a ∈ likesAt d p ↔ Reach d p a := by
  obtain ⟨W, _, h2, h3⟩ := ways_exist hs
  rw [h3, Multiset.mem_coe, List.mem_map]
  constructor
  · rintro ⟨⟨w, b⟩, h, rfl⟩
    exact follow_reach ((h2 w b).mp h)
  · intro h
    obtain ⟨w, hw⟩ := reach_follow h
    exact ⟨(w, a), (h2 w a).mpr hw, rfl⟩

theorem reach_has {d : Disk} {p : Pointer} {a : Address} (h : Reach d p a) : d.Has a := by
  induction h with
  | here hn => exact (PMap.has_iff _ _).mpr ⟨_, hn⟩
  | down _ _ _ ih => exact ih

theorem likesAt_has {d : Disk} {bd p t} (hs : Sees d bd p t) {a : Address} (h : a ∈ likesAt d p) :
    d.Has a := reach_has ((mem_likesAt hs).mp h)

/-! ### Buffers -/

theorem bufs_of {d : Disk} {a n} (h : d a = some n) : bufs d a = (n.buffers : Likes) := by
  simp [bufs, h]

theorem bufferLikes_add (d : Disk) (m m' : Likes) :
    bufferLikes d (m + m') = bufferLikes d m + bufferLikes d m' := Multiset.add_bind _ _ _

theorem bufferLikes_single (d : Disk) (a : Address) : bufferLikes d {a} = bufs d a :=
  Multiset.singleton_bind _ _

theorem bufferLikes_zero (d : Disk) : bufferLikes d 0 = 0 := Multiset.zero_bind _

theorem bufferLikes_sub {d d' : Disk} {m : Likes} (hm : ∀ a ∈ m, d.Has a) (hsub : PMap.Sub d d') :
    bufferLikes d' m = bufferLikes d m := by
  apply Multiset.bind_congr
  intro a ha
  obtain ⟨n, hn⟩ := (PMap.has_iff _ _).mp (hm a ha)
  rw [bufs_of hn, bufs_of (hsub _ _ hn)]

theorem mem_bufferLikes {l : Linked} {t} (hs : Sees l.dv l.bdv l.root t) {b : Address} :
    b ∈ bufferLikes l.dv (likesAt l.dv l.root) ↔ l.ReachableBuffer b := by
  unfold bufferLikes
  rw [Multiset.mem_bind]
  constructor
  · rintro ⟨a, ha, hb⟩
    have hr := (mem_likesAt hs).mp ha
    obtain ⟨n, hn⟩ := (PMap.has_iff _ _).mp (reach_has hr)
    rw [bufs_of hn] at hb
    exact ⟨a, n, hr, hn, hb⟩
  · rintro ⟨a, n, hr, hn, hb⟩
    exact ⟨a, (mem_likesAt hs).mpr hr, by rw [bufs_of hn]; exact hb⟩

/-! ### Sums over children -/

theorem sum_at {α : Type} (f : α → Likes) : ∀ (cs : List α) (i : Nat) (q : α), cs[i]? = some q →
    (cs.map f).sum = f q + ((cs.eraseIdx i).map f).sum
  | [], i, q, h => by simp at h
  | c :: cs, 0, q, h => by simp at h; subst h; simp
  | c :: cs, i + 1, q, h => by
    simp only [List.getElem?_cons_succ] at h
    simp only [List.map_cons, List.sum_cons, List.eraseIdx_cons_succ, sum_at f cs i q h]
    rw [add_left_comm]

theorem sum_set {α : Type} (f : α → Likes) : ∀ (cs : List α) (i : Nat) (q : α), i < cs.length →
    ((cs.set i q).map f).sum = f q + ((cs.eraseIdx i).map f).sum
  | [], i, q, h => by simp at h
  | c :: cs, 0, q, h => by simp
  | c :: cs, i + 1, q, h => by
    simp only [List.length_cons] at h
    simp only [List.set_cons_succ, List.map_cons, List.sum_cons, List.eraseIdx_cons_succ,
      sum_set f cs i q (by omega)]
    rw [add_left_comm]

theorem sum_insertIdx {α : Type} (f : α → Likes) : ∀ (cs : List α) (i : Nat) (q : α),
    i ≤ cs.length → ((cs.insertIdx i q).map f).sum = f q + (cs.map f).sum
  | cs, 0, q, _ => by simp
  | [], i + 1, q, h => by simp at h
  | c :: cs, i + 1, q, h => by
    simp only [List.length_cons] at h
    simp only [List.insertIdx_succ_cons, List.map_cons, List.sum_cons,
      sum_insertIdx f cs i q (by omega)]
    rw [add_left_comm]

theorem kids_mem {d : Disk} {bd ps ts} (h : Kids d bd ps ts) {q : Pointer} (hq : q ∈ ps) :
    ∃ t, Sees d bd q t := by
  obtain ⟨i, hi, rfl⟩ := List.mem_iff_getElem.mp hq
  have := h.2 i hi
  rw [show ps.getD i none = ps[i] by simp [List.getD, List.getElem?_eq_getElem hi]] at this
  exact ⟨_, this⟩

/-- Counts of children do not change when pages are added. -/
theorem kids_sum {d d' : Disk} {bd ps ts} (h : Kids d bd ps ts) (hsub : PMap.Sub d d')
    {qs : List Pointer} (hq : ∀ q ∈ qs, q ∈ ps) :
    (qs.map (likesAt d')).sum = (qs.map (likesAt d)).sum := by
  congr 1
  apply List.map_congr_left
  intro q h1
  obtain ⟨t, ht⟩ := kids_mem h (hq q h1)
  exact likesAt_sub ht hsub

theorem root_node {l : Linked} {t} (hs : Sees l.dv l.bdv l.root t) (hr : l.HasRoot) :
    ∃ a ts, l.root = some a ∧ l.dv a = some l.node ∧ Kids l.dv l.bdv l.node.children ts ∧
      rootLikes l = {a} ∧
      likesAt l.dv l.root = {a} + (l.node.children.map (likesAt l.dv)).sum := by
  obtain ⟨a, bs, ts, ha, hn, rfl, _, hk⟩ := sees_root hs hr
  refine ⟨a, ts, ha, hn, hk, ?_, ?_⟩
  · unfold rootLikes
    rw [if_pos hr, ha]
    rfl
  · rw [ha] at hs ⊢
    exact likesAt_node hs hn

/-! ### Trades: what an operation takes out and puts in -/

/-- `new` is `old` with `out` taken out and `inn` put in. -/
def Trade {α : Type} (old new out inn : Multiset α) : Prop := ∃ rest, old = out + rest ∧ new = inn + rest

theorem Trade.eq {α : Type} [DecidableEq α] {old new out inn : Multiset α} (h : Trade old new out inn) :
    new = old - out + inn := by
  obtain ⟨r, rfl, rfl⟩ := h
  rw [add_comm out r, Multiset.add_sub_cancel_right, add_comm]

theorem Trade.le {α : Type} {old new out inn : Multiset α} (h : Trade old new out inn) : out ≤ old := by
  obtain ⟨r, rfl, rfl⟩ := h
  exact Multiset.le_add_right _ _

theorem Trade.map {α β : Type} (f : α → β) {old new out inn : Multiset α} (h : Trade old new out inn) :
    Trade (old.map f) (new.map f) (out.map f) (inn.map f) := by
  obtain ⟨r, rfl, rfl⟩ := h
  exact ⟨r.map f, Multiset.map_add _ _ _, Multiset.map_add _ _ _⟩

/-- Counts below the root and their buffers, before and after. -/
structure Change (l l' : Linked) (out inn outB innB : Likes) : Prop where
  tree : Trade (likesAt l.dv l.root) (likesAt l'.dv l'.root) out inn
  buf : Trade (bufferLikes l.dv (likesAt l.dv l.root)) (bufferLikes l'.dv (likesAt l'.dv l'.root))
    outB innB

/-! ### Operations at a node -/

theorem push_change {l : Linked} {t} {x : TwoAddrs} {m : Memtable} (hs : Sees l.dv l.bdv l.root t)
    (hf : l.IsFresh x.repr) :
    Change l (l.pushMemtable m.buffer x) (rootLikes l) {x.addr1} 0 {x.addr2} := by
  have hp := push_spec (m := m) hs hf
  have hroot : (l.pushMemtable m.buffer x).root = some x.addr1 := rfl
  by_cases hr : l.HasRoot
  · obtain ⟨a, ts, ha, hn, hk, h1, h2⟩ := root_node hs hr
    have hn' : (l.pushMemtable m.buffer x).dv x.addr1 = some (l.node.extendBufferSeq [x.addr2]) := by
      unfold Linked.pushMemtable
      simp only [if_pos hr]
      exact PMap.insert_same _ _ _
    have h3 := likesAt_node (by rw [← hroot]; exact hp.sees) hn'
    have hC := kids_sum hk hp.dv (qs := l.node.children) (fun _ h => h)
    have h3 : likesAt (l.pushMemtable m.buffer x).dv (l.pushMemtable m.buffer x).root =
        {x.addr1} + (l.node.children.map (likesAt l.dv)).sum := by
      rw [← hC]; exact h3
    refine ⟨⟨_, by rw [h1]; exact h2, h3⟩, ?_⟩
    have hb : bufferLikes (l.pushMemtable m.buffer x).dv
        (l.node.children.map (likesAt l.dv)).sum =
        bufferLikes l.dv (l.node.children.map (likesAt l.dv)).sum :=
      bufferLikes_sub (fun b hb => likesAt_has hs (by rw [h2]; exact Multiset.mem_add.mpr (.inr hb)))
        hp.dv
    rw [h3, h2, bufferLikes_add, bufferLikes_add, hb, bufferLikes_single, bufferLikes_single,
      bufs_of hn, bufs_of hn']
    refine ⟨_, (zero_add _).symm, ?_⟩
    simp only [LNode.extendBufferSeq, ← Multiset.coe_add]
    rw [← Multiset.coe_singleton]
    ac_rfl
  · have hn' : (l.pushMemtable m.buffer x).dv x.addr1 =
        some ((LNode.emptyRoot .total).extendBufferSeq [x.addr2]) := by
      unfold Linked.pushMemtable
      simp only [if_neg hr]
      exact PMap.insert_same _ _ _
    have h3 := likesAt_node (by rw [← hroot]; exact hp.sees) hn'
    have hl : likesAt l.dv l.root = 0 := by
      cases hp : l.root with
      | none => exact likesAt_none _
      | some a => exact absurd ⟨a, hp, nondangling_of hs a hp⟩ hr
    have h0 : rootLikes l = 0 := by unfold rootLikes; rw [if_neg hr]
    have h3 : likesAt (l.pushMemtable m.buffer x).dv (l.pushMemtable m.buffer x).root = {x.addr1} := by
      rw [hroot, h3]
      simp [LNode.extendBufferSeq, LNode.emptyRoot, likesAt_none]
    rw [h0]
    refine ⟨⟨0, by rw [hl]; rfl, by rw [h3]; rfl⟩, ⟨0, by rw [hl]; rfl, ?_⟩⟩
    rw [h3, bufferLikes_single, bufs_of hn']
    rfl

theorem grow_change {l : Linked} {t} {a : Address} (hs : Sees l.dv l.bdv l.root t)
    (hf : l.IsFresh (fun b => b = a)) : Change l (l.grow a) 0 {a} 0 0 := by
  have hg := grow_spec hs hf
  have hn : (l.grow a).dv a = some ⟨[], .ofDomain .total, [l.root], [0]⟩ := PMap.insert_same _ _ _
  have hroot : (l.grow a).root = some a := rfl
  have h3 := likesAt_node (by rw [← hroot]; exact hg.sees) hn
  have h3 : likesAt (l.grow a).dv (l.grow a).root = {a} + likesAt l.dv l.root := by
    rw [hroot, h3]
    simp [likesAt_sub hs hg.dv]
  refine ⟨⟨_, (zero_add _).symm, h3⟩, ⟨_, (zero_add _).symm, ?_⟩⟩
  rw [h3, bufferLikes_add, bufferLikes_single, bufs_of hn,
    bufferLikes_sub (fun b hb => likesAt_has hs hb) hg.dv]
  rfl

theorem compact_change {l : Linked} {t} {x : TwoAddrs} {a b : Nat} {c : Buffer}
    (hs : Sees l.dv l.bdv l.root t) (hf : l.IsFresh x.repr) (h : l.CanCompact a b c) :
    Change l (l.compact a b c x) (rootLikes l) {x.addr1}
      ((l.node.buffers.take b).drop a : List Address) {x.addr2} := by
  have hp := (compact_spec hs hf h).2
  obtain ⟨hw, hr, hab, hb, _⟩ := h
  obtain ⟨ra, ts, ha, hn, hk, h1, h2⟩ := root_node hs hr
  have hn' : (l.compact a b c x).dv x.addr1 = some { l.node with
        buffers := l.node.buffers.take a ++ [x.addr2] ++ l.node.buffers.drop b
        flushed := BufferOffsets.adjustCompact l.node.flushed a b } := PMap.insert_same _ _ _
  have hroot : (l.compact a b c x).root = some x.addr1 := rfl
  have h3 := likesAt_node (by rw [← hroot]; exact hp.sees) hn'
  have hC := kids_sum hk hp.dv (qs := l.node.children) (fun _ h => h)
  have h3 : likesAt (l.compact a b c x).dv (l.compact a b c x).root =
      {x.addr1} + (l.node.children.map (likesAt l.dv)).sum := by
    rw [← hC]; exact h3
  refine ⟨⟨_, by rw [h1]; exact h2, h3⟩, ?_⟩
  have hbs : bufferLikes (l.compact a b c x).dv (l.node.children.map (likesAt l.dv)).sum =
      bufferLikes l.dv (l.node.children.map (likesAt l.dv)).sum :=
    bufferLikes_sub (fun b hb => likesAt_has hs (by rw [h2]; exact Multiset.mem_add.mpr (.inr hb)))
      hp.dv
  rw [h3, h2, bufferLikes_add, bufferLikes_add, hbs, bufferLikes_single, bufferLikes_single,
    bufs_of hn, bufs_of hn']
  have hsplit : l.node.buffers = l.node.buffers.take a ++ ((l.node.buffers.take b).drop a ++
      l.node.buffers.drop b) := by
    conv => lhs; rw [← List.take_append_drop b l.node.buffers,
      ← List.take_append_drop a (l.node.buffers.take b), List.take_take, Nat.min_eq_left (by omega)]
    rw [List.append_assoc]
  refine ⟨(l.node.buffers.take a : List Address) + ((l.node.buffers.drop b : List Address) +
    bufferLikes l.dv (l.node.children.map (likesAt l.dv)).sum), ?_, ?_⟩
  · conv => lhs; rw [hsplit]
    simp only [← Multiset.coe_add]
    ac_rfl
  · simp only [← Multiset.coe_add, Multiset.coe_singleton]
    ac_rfl

/-- The counts of a node with one child set apart. -/
theorem child_apart {l : Linked} {ts} (hk : Kids l.dv l.bdv l.node.children ts) {i : Nat}
    (hi : l.node.ValidChildIndex i) (hcr : (l.childAtIdx i).HasRoot) :
    ∃ c cts, l.node.childAt i = some c ∧ l.dv c = some (l.childAtIdx i).node ∧
      Kids l.dv l.bdv (l.childAtIdx i).node.children cts ∧
      rootLikes (l.childAtIdx i) = {c} ∧
      (l.node.children.map (likesAt l.dv)).sum =
        ({c} + ((l.childAtIdx i).node.children.map (likesAt l.dv)).sum) +
        ((l.node.children.eraseIdx i).map (likesAt l.dv)).sum := by
  have hc := sees_child hk hi
  obtain ⟨c, cts, hc1, hc2, hc3, hc4, hc5⟩ := root_node hc hcr
  refine ⟨c, cts, hc1, hc2, hc3, hc4, ?_⟩
  have hi' : i < l.node.children.length := hi
  have hat : l.node.children[i]? = some (l.node.childAt i) := by
    simp [LNode.childAt, List.getD, List.getElem?_eq_getElem hi']
  rw [sum_at (likesAt l.dv) _ i _ hat]
  congr 1

theorem mem_eraseIdx {α : Type} {l : List α} {i : Nat} {a : α} (h : a ∈ l.eraseIdx i) : a ∈ l :=
  List.mem_of_mem_eraseIdx h

theorem flush_change {l : Linked} {t} {x : TwoAddrs} {i gc : Nat} (hs : Sees l.dv l.bdv l.root t)
    (hf : l.IsFresh x.repr) (hx : x.NoDup) (h : l.CanFlush i gc) :
    Change l (l.flush i gc x) (rootLikes l + rootLikes (l.childAtIdx i)) x.likes
      (l.node.buffers.take gc : List Address) (l.flushBuffers i : List Address) := by
  have hp := (flush_spec hs hf hx h).2
  obtain ⟨hw, hr, ho, hg⟩ := h
  obtain ⟨ra, ts, ha, hn, hk, h1, h2⟩ := root_node hs hr
  have hcs := sees_child hk ho.1
  have hcr : (l.childAtIdx i).HasRoot := by
    cases hp : l.node.childAt i with
    | none => exact absurd hp ho.2
    | some a => exact ⟨a, hp, nondangling_of hcs a hp⟩
  obtain ⟨c, cts, c1, c2, c3, c4, c5⟩ := child_apart hk ho.1 hcr
  have hroot : (l.flush i gc x).root = some x.addr1 := rfl
  have hn2 : (l.flush i gc x).dv x.addr2 =
      some ((l.childAtIdx i).node.extendBufferSeq (l.flushBuffers i)) := PMap.insert_same _ _ _
  have hn1 : (l.flush i gc x).dv x.addr1 =
      some ⟨(l.node.buffers.take l.node.buffers.length).drop gc, l.node.pivots,
        l.node.children.set i (some x.addr2), BufferOffsets.shiftLeft
        (BufferOffsets.update l.node.flushed i l.node.buffers.length) gc⟩ := by
    refine (PMap.insert_other _ _ ?_).trans (PMap.insert_same _ _ _)
    exact hx
  have hsees := hp.sees
  rw [hroot] at hsees
  have h3 := likesAt_node hsees hn1
  have hi' : i < l.node.children.length := ho.1
  rw [sum_set _ _ _ _ hi'] at h3
  have hs2 : ∃ t, Sees (l.flush i gc x).dv (l.flush i gc x).bdv (some x.addr2) t := by
    obtain ⟨n, _, ts, _, h4, _, _, h5⟩ := hsees.some_inv
    rw [hn1] at h4
    cases h4
    have := h5 i (by show i < (l.node.children.set i _).length; rw [List.length_set]; exact hi')
    rw [show (LNode.childAt ⟨(l.node.buffers.take l.node.buffers.length).drop gc, l.node.pivots,
        l.node.children.set i (some x.addr2), BufferOffsets.shiftLeft
        (BufferOffsets.update l.node.flushed i l.node.buffers.length) gc⟩ i) = some x.addr2 by
      simp [LNode.childAt, List.getD, hi']] at this
    exact ⟨_, this⟩
  obtain ⟨t2, hs2⟩ := hs2
  have h4 := likesAt_node hs2 hn2
  have e1 := kids_sum c3 hp.dv (qs := (l.childAtIdx i).node.children) (fun _ h => h)
  have e2 := kids_sum hk hp.dv (qs := l.node.children.eraseIdx i) (fun _ h => mem_eraseIdx h)
  have h4 : likesAt (l.flush i gc x).dv (some x.addr2) = {x.addr2} +
      ((l.childAtIdx i).node.children.map (likesAt l.dv)).sum := by rw [← e1]; exact h4
  rw [h4, e2, ← hroot] at h3
  rw [c5] at h2
  generalize hC : ((l.childAtIdx i).node.children.map (likesAt l.dv)).sum = C at *
  generalize hE : ((l.node.children.eraseIdx i).map (likesAt l.dv)).sum = E at *
  have hhas : ∀ b ∈ C + E, l.dv.Has b := by
    intro b hb
    apply likesAt_has hs
    rw [h2]
    simp only [Multiset.mem_add] at hb ⊢
    rcases hb with hb | hb
    · exact .inr (.inl (.inr hb))
    · exact .inr (.inr hb)
  refine ⟨⟨C + E, ?_, ?_⟩, ?_⟩
  · rw [h2, h1, c4]; ac_rfl
  · rw [h3, TwoAddrs.likes]; ac_rfl
  · have hb := bufferLikes_sub hhas hp.dv
    have g2 : bufferLikes l.dv (likesAt l.dv l.root) = (l.node.buffers : Likes) +
        ((l.childAtIdx i).node.buffers + bufferLikes l.dv (C + E)) := by
      rw [h2, show ({ra} + ({c} + C + E) : Likes) = {ra} + ({c} + (C + E)) by ac_rfl]
      rw [bufferLikes_add, bufferLikes_single, bufferLikes_add, bufferLikes_single, bufs_of hn,
        bufs_of c2]
    have g3 : bufferLikes (l.flush i gc x).dv (likesAt (l.flush i gc x).dv (l.flush i gc x).root) =
        (l.node.buffers.drop gc : List Address) + (((l.childAtIdx i).node.buffers : Likes) +
          (l.flushBuffers i : List Address) + bufferLikes l.dv (C + E)) := by
      rw [h3, show ({x.addr1} + ({x.addr2} + C + E) : Likes) = {x.addr1} + ({x.addr2} + (C + E)) by
        ac_rfl]
      rw [bufferLikes_add, bufferLikes_single, bufferLikes_add, bufferLikes_single, bufs_of hn1,
        bufs_of hn2, hb, List.take_length]
      rfl
    refine ⟨(l.node.buffers.drop gc : List Address) + (((l.childAtIdx i).node.buffers : Likes) +
      bufferLikes l.dv (C + E)), ?_, ?_⟩
    · have : (l.node.buffers : Likes) =
          (l.node.buffers.take gc : List Address) + (l.node.buffers.drop gc : List Address) := by
        rw [Multiset.coe_add, List.take_append_drop]
      rw [g2, this]
      ac_rfl
    · rw [g3]; ac_rfl

/-- The three pages written by a split: the halves have the children of the old child between them
and its buffers each. -/
theorem splitWrite_change {l : Linked} {t} {x : SplitAddrs} {i : Nat} {e : Element}
    {lr : LNode × LNode} {as : PSet Address} {t'} (hs : Sees l.dv l.bdv l.root t) (hr : l.HasRoot)
    (hi : l.node.ValidChildIndex i) (hcr : (l.childAtIdx i).HasRoot) (hx : x.NoDup)
    (hp : Writes l (l.splitWrite i e lr x) as t')
    (hlr : (lr.1.children.map (likesAt l.dv)).sum + (lr.2.children.map (likesAt l.dv)).sum =
      ((l.childAtIdx i).node.children.map (likesAt l.dv)).sum)
    (hl : ∀ q ∈ lr.1.children, q ∈ (l.childAtIdx i).node.children)
    (hr' : ∀ q ∈ lr.2.children, q ∈ (l.childAtIdx i).node.children)
    (hlb : lr.1.buffers = (l.childAtIdx i).node.buffers)
    (hrb : lr.2.buffers = (l.childAtIdx i).node.buffers) :
    Change l (l.splitWrite i e lr x) (rootLikes l + rootLikes (l.childAtIdx i)) x.likes
      0 (bufferLikes l.dv (rootLikes (l.childAtIdx i))) := by
  obtain ⟨ra, ts, ha, hn, hk, h1, h2⟩ := root_node hs hr
  obtain ⟨c, cts, c1, c2, c3, c4, c5⟩ := child_apart hk hi hcr
  obtain ⟨x1, x2, x3⟩ := hx
  have hroot : (l.splitWrite i e lr x).root = some x.parent := rfl
  have hi' : i < l.node.children.length := hi
  generalize hpn : (⟨l.node.buffers, l.node.pivots.insert (i + 1) e,
    (l.node.children.set i (some x.left)).insertIdx (i + 1) (some x.right),
    BufferOffsets.dup l.node.flushed i⟩ : LNode) = p
  have hdv : (l.splitWrite i e lr x).dv =
      ((l.dv.insert x.left lr.1).insert x.right lr.2).insert x.parent p := by subst hpn; rfl
  have np : (l.splitWrite i e lr x).dv x.parent = some p := by rw [hdv]; exact PMap.insert_same _ _ _
  have nr : (l.splitWrite i e lr x).dv x.right = some lr.2 := by
    rw [hdv, PMap.insert_other _ _ x2]; exact PMap.insert_same _ _ _
  have nl : (l.splitWrite i e lr x).dv x.left = some lr.1 := by
    rw [hdv, PMap.insert_other _ _ (Ne.symm x3), PMap.insert_other _ _ x1]; exact PMap.insert_same _ _ _
  have hpc : p.children = (l.node.children.set i (some x.left)).insertIdx (i + 1) (some x.right) := by
    subst hpn; rfl
  have hplen : p.children.length = l.node.children.length + 1 := by
    rw [hpc, List.length_insertIdx_of_le_length (by rw [List.length_set]; omega), List.length_set]
  have hsees := hp.sees
  rw [hroot] at hsees
  have h3 := likesAt_node hsees np
  rw [hpc, sum_insertIdx _ _ _ _ (by rw [List.length_set]; omega), sum_set _ _ _ _ hi'] at h3
  obtain ⟨n, _, ts', _, h4, _, _, h5⟩ := hsees.some_inv
  rw [np] at h4
  cases h4
  have sl := h5 i (by omega)
  have sr := h5 (i + 1) (by omega)
  rw [show p.childAt i = some x.left by
    simp [LNode.childAt, hpc, List.getD, List.getElem?_insertIdx, hi']] at sl
  rw [show p.childAt (i + 1) = some x.right by
    rw [LNode.childAt, hpc, List.getD, List.getElem?_insertIdx, if_neg (Nat.lt_irrefl _), if_pos rfl,
      if_pos (by rw [List.length_set]; exact hi')]; rfl] at sr
  have ll := likesAt_node sl nl
  have lrr := likesAt_node sr nr
  rw [kids_sum c3 hp.dv hl] at ll
  rw [kids_sum c3 hp.dv hr'] at lrr
  rw [ll, lrr, kids_sum hk hp.dv (qs := l.node.children.eraseIdx i) (fun _ h => mem_eraseIdx h),
    ← hroot] at h3
  rw [c5, ← hlr] at h2
  generalize (lr.1.children.map (likesAt l.dv)).sum = C1 at *
  generalize (lr.2.children.map (likesAt l.dv)).sum = C2 at *
  generalize hE : ((l.node.children.eraseIdx i).map (likesAt l.dv)).sum = E at *
  have hhas : ∀ b ∈ C1 + C2 + E, l.dv.Has b := by
    intro b hb
    apply likesAt_has hs
    rw [h2]
    simp only [Multiset.mem_add] at hb ⊢
    rcases hb with hb | hb
    · exact .inr (.inl (.inr hb))
    · exact .inr (.inr hb)
  refine ⟨⟨C1 + C2 + E, ?_, ?_⟩, ?_⟩
  · rw [h2, h1, c4]; ac_rfl
  · rw [h3, SplitAddrs.likes]; ac_rfl
  · have hb := bufferLikes_sub hhas hp.dv
    refine ⟨_, (zero_add _).symm, ?_⟩
    rw [h3, h2, c4, show ({x.parent} + ({x.right} + C2 + ({x.left} + C1 + E)) : Likes) =
        {x.parent} + ({x.right} + ({x.left} + (C1 + C2 + E))) by ac_rfl,
      show ({ra} + ({c} + (C1 + C2) + E) : Likes) = {ra} + ({c} + (C1 + C2 + E)) by ac_rfl]
    simp only [bufferLikes_add _ _ (_ + _), bufferLikes_single]
    rw [hb, bufs_of np, bufs_of nl, bufs_of nr, bufs_of hn, bufs_of c2, hlb, hrb]
    rw [show p.buffers = l.node.buffers by subst hpn; rfl]
    ac_rfl

theorem split_change {l : Linked} {t} {x : SplitAddrs} {r : SplitRequest}
    (hs : Sees l.dv l.bdv l.root t) (hf : l.IsFresh x.repr) (hx : x.NoDup)
    (h : l.CanSplitParent r) :
    Change l (l.splitParent r x) (rootLikes l + rootLikes (l.childAtIdx (requestIdx r))) x.likes
      0 (bufferLikes l.dv (rootLikes (l.childAtIdx (requestIdx r)))) := by
  have hp := (split_spec hs hf hx h).2
  obtain ⟨hw, hr, hi, hcr, h⟩ := h
  cases r with
  | leaf i k =>
    obtain ⟨_, ⟨hleaf, _⟩, _⟩ := h
    refine splitWrite_change hs hr hi hcr hx hp ?_ (fun _ h => h) (fun _ h => h) rfl rfl
    show ((l.childAtIdx i).node.children.map _).sum + ((l.childAtIdx i).node.children.map _).sum
      = ((l.childAtIdx i).node.children.map _).sum
    rw [hleaf]
    simp [likesAt_none]
  | index i j =>
    refine splitWrite_change hs hr hi hcr hx hp ?_ (fun _ h => List.mem_of_mem_take h)
      (fun _ h => List.mem_of_mem_drop h) rfl rfl
    show (((l.childAtIdx i).node.children.take j).map _).sum +
      (((l.childAtIdx i).node.children.drop j).map _).sum = ((l.childAtIdx i).node.children.map _).sum
    rw [← List.sum_append, ← List.map_append, List.take_append_drop]

/-! ### Along a path -/

theorem substitute_likes {key : Key} {r : Linked} {t'} :
    ∀ (depth : Nat) {l : Linked} {t} {as : List Address}, Sees l.dv l.bdv l.root t →
    Path.ValidFrom l key depth → PMap.Sub l.dv r.dv → PMap.Sub l.bdv r.bdv →
    Sees r.dv r.bdv r.root t' → as.Nodup → depth = as.length → (∀ a ∈ as, ¬ r.dv.Has a) →
    let s := Path.substituteFrom l key r depth as
    ∃ S, likesAt l.dv l.root = (addrsFrom l key depth : Likes) +
        (likesAt l.dv (Path.targetFrom l key depth).root + S) ∧
      likesAt s.dv s.root = (as : Likes) + (likesAt r.dv r.root + S) ∧
      bufferLikes s.dv (as : Likes) = bufferLikes l.dv (addrsFrom l key depth : Likes)
  | 0, l, t, as, _, _, _, _, _, _, hl, _ => by
    have : as = [] := List.length_eq_zero_iff.mp hl.symm
    subst this
    refine ⟨0, ?_, ?_, rfl⟩
    · show _ = 0 + _
      rw [zero_add, add_zero]; rfl
    · show _ = 0 + _
      rw [zero_add, add_zero]; rfl
  | depth + 1, l, t, [], _, _, _, _, _, _, hl, _ => by simp at hl
  | depth + 1, l, t, a :: as, hs, hv, hd, hb, hr, hn, hl, hf => by
    have hspec := substitute_spec (depth + 1) (as := a :: as) hs hv hd hb hr hn hl hf
    obtain ⟨hroot, ha, hk, hx, hv⟩ := hv
    obtain ⟨ra, ts, hra, hnode, hkids, _, hlikes⟩ := root_node hs hroot
    have hc := sees_childForKey (bs := []) hkids hk
    obtain ⟨hna, hnd⟩ := List.nodup_cons.mp hn
    have hspec' := substitute_spec depth (l := l.childForKey key) (as := as) hc hv
      hd hb hr hnd (by simpa using hl) (fun x hx => hf x (by simp [hx]))
    obtain ⟨S, i1, i2, i3⟩ := substitute_likes depth (l := l.childForKey key) (as := as) hc hv
      hd hb hr hnd (by simpa using hl) (fun x hx => hf x (by simp [hx]))
    have hfresh : ¬ (Path.substituteFrom (l.childForKey key) key r depth as).dv.Has a := by
      intro h
      rcases hspec'.2.2.1 a h with h | h
      · exact hf a (by simp) h
      · exact hna h.1
    have hasas : ∀ b ∈ as, (Path.substituteFrom (l.childForKey key) key r depth as).dv.Has b := by
      intro b hb
      apply likesAt_has hspec'.2.2.2.1
      rw [i2]
      exact Multiset.mem_add.mpr (.inl hb)
    simp only [Path.substituteFrom, List.drop_succ_cons, List.drop_zero, List.getD_cons_zero,
      Disk.modify] at hspec ⊢
    generalize Path.substituteFrom (l.childForKey key) key r depth as = s at *
    have hsub := sub_insert (v := { l.node with
      children := l.node.children.set (l.node.pivots.route key).toNat s.root }) hfresh
    obtain ⟨i, hi, hvi⟩ := route_child hk
    have hi' : (l.node.pivots.route key).toNat = i := by rw [hi]; rfl
    have hvi : i < l.node.children.length := hvi
    have hn' : (s.dv.insert a { l.node with
        children := l.node.children.set (l.node.pivots.route key).toNat s.root }) a =
        some { l.node with children := l.node.children.set (l.node.pivots.route key).toNat s.root } :=
      PMap.insert_same _ _ _
    have h3 := likesAt_node hspec.2.2.2.1 hn'
    simp only [hi'] at h3 hn' hsub ⊢
    rw [sum_set _ _ _ _ hvi, likesAt_sub hspec'.2.2.2.1 hsub,
      kids_sum hkids (sub_trans (sub_trans hd hspec'.2.1) hsub) (qs := l.node.children.eraseIdx i)
        (fun _ h => mem_eraseIdx h)] at h3
    have hat : l.node.children[i]? = some (l.childForKey key).root := by
      show _ = some (l.node.childPtr key)
      rw [LNode.childPtr, hi']
      simp [LNode.childAt, List.getD, List.getElem?_eq_getElem hvi]
    rw [sum_at _ _ _ _ hat, show likesAt l.dv (l.childForKey key).root =
      likesAt (l.childForKey key).dv (l.childForKey key).root from rfl, i1] at hlikes
    have haddr : (addrsFrom l key (depth + 1) : Likes) =
        {ra} + (addrsFrom (l.childForKey key) key depth : Likes) := by
      show ((l.root.getD ⟨0, 0⟩ :: addrsFrom (l.childForKey key) key depth : List Address) : Likes) = _
      rw [hra, ← Multiset.cons_coe, Multiset.singleton_add]; rfl
    have has : ((a :: as : List Address) : Likes) = {a} + (as : Likes) := by
      rw [← Multiset.cons_coe, Multiset.singleton_add]
    refine ⟨S + ((l.node.children.eraseIdx i).map (likesAt l.dv)).sum, ?_, ?_, ?_⟩
    · rw [hlikes, haddr]
      show _ = _ + (likesAt l.dv (Path.targetFrom (l.childForKey key) key depth).root + _)
      rw [show (l.childForKey key).dv = l.dv from rfl]
      ac_rfl
    · rw [has]
      refine h3.trans ?_
      rw [i2]
      ac_rfl
    · rw [has, haddr, bufferLikes_add, bufferLikes_add, bufferLikes_single, bufferLikes_single,
        bufs_of hnode]
      have := bufferLikes_sub (m := (as : Likes)) (fun b hb => hasas b hb) hsub
      rw [show (l.childForKey key).dv = l.dv from rfl] at i3
      have hB := bufs_of hn'
      exact congrArg₂ (· + ·) hB (this.trans i3)

theorem path_change {l : Linked} {t} {p : Path} {nodup : Prop} {repr : PSet Address}
    {pa : List Address} {r : Linked} {t'} {out inn outB innB : Likes}
    (hs : Sees l.dv l.bdv l.root t)
    (hv : ValidPathReplacement l p nodup repr pa) (hf : l.IsFresh (fun a => a ∈ pa))
    (hr : Writes p.target r repr t') (hc : Change p.target r out inn outB innB) :
    Change l (p.substitute r pa) ((addrsOnPath p : Likes) + out) (inn + (pa : Likes)) outB innB := by
  have hpw := path_writes hs hv hf hr
  obtain ⟨hp, hnd, hlen, _, hdis, rfl⟩ := hv
  obtain ⟨_, h2, h3, h4⟩ := path_spec p.depth hs hp
  have hd := hr.dv
  have hb := hr.bdv
  have ho := hr.only
  rw [show p.target.dv = p.linked.dv from h2] at hd ho
  rw [show p.target.bdv = p.linked.bdv from h3] at hb
  have hfr : ∀ a ∈ pa, ¬ r.dv.Has a := by
    intro a ha h
    rcases ho a h with h | h
    · exact hf.1 a ha h
    · exact hdis a h.1 ha
  obtain ⟨S, s1, s2, s3⟩ := substitute_likes p.depth hs hp hd hb hr.sees hnd hlen hfr
  obtain ⟨_, q2, _⟩ := substitute_spec p.depth hs hp hd hb hr.sees hnd hlen hfr
  obtain ⟨⟨R, r1, r2⟩, ⟨RB, b1, b2⟩⟩ := hc
  rw [show p.target.dv = p.linked.dv from h2] at r1 b1
  have r1' : likesAt p.linked.dv (Path.targetFrom p.linked p.key p.depth).root = out + R := r1
  have b1' : bufferLikes p.linked.dv
    (likesAt p.linked.dv (Path.targetFrom p.linked p.key p.depth).root) = outB + RB := b1
  have hS : ∀ b ∈ S, p.linked.dv.Has b := by
    intro b hb
    apply likesAt_has hs
    rw [s1]
    simp only [Multiset.mem_add]
    exact .inr (.inr hb)
  refine ⟨⟨R + S, ?_, ?_⟩, ⟨bufferLikes p.linked.dv (addrsOnPath p : Likes) +
    (RB + bufferLikes p.linked.dv S), ?_, ?_⟩⟩
  · rw [s1, r1']
    show (addrsOnPath p : Likes) + _ = _
    ac_rfl
  · refine s2.trans ?_
    rw [r2]
    ac_rfl
  · rw [s1, bufferLikes_add, bufferLikes_add, b1']
    show bufferLikes p.linked.dv (addrsOnPath p : Likes) + _ = _
    ac_rfl
  · show bufferLikes (Path.substituteFrom p.linked p.key r p.depth pa).dv (likesAt
      (Path.substituteFrom p.linked p.key r p.depth pa).dv
      (Path.substituteFrom p.linked p.key r p.depth pa).root) = _
    have hsub : PMap.Sub p.linked.dv (Path.substituteFrom p.linked p.key r p.depth pa).dv := hpw.dv
    rw [s2, bufferLikes_add, bufferLikes_add, s3, bufferLikes_sub hS hsub,
      bufferLikes_sub (fun b hb => likesAt_has hr.sees hb) q2, b2]
    show bufferLikes p.linked.dv (addrsOnPath p : Likes) + _ = _
    ac_rfl

/-! ### Garbage collection keeps the counts -/

theorem view_change {l new : Linked} {t} (hs : Sees l.dv l.bdv l.root t) (hv : l.ValidView new)
    (hb : l.BuffersPreserved new) :
    likesAt new.dv new.root = likesAt l.dv l.root ∧
    bufferLikes new.dv (likesAt new.dv new.root) = bufferLikes l.dv (likesAt l.dv l.root) := by
  have hn := view_sees hs hv hb
  have h1 : likesAt new.dv new.root = likesAt l.dv l.root := by
    rw [hv.2.1, likesAt_sub hn hv.2.2.1]
  refine ⟨h1, ?_⟩
  rw [← h1, bufferLikes_sub (fun b hb => likesAt_has hn hb) hv.2.2.1]

/-- Counted buffers kept means reachable buffers kept. -/
theorem preserved_of {l new : Linked} {t} (hs : Sees l.dv l.bdv l.root t)
    (h : Kept (bufferLikes l.dv (likesAt l.dv l.root)) new.bdv) : l.BuffersPreserved new :=
  fun b hb => h b ((mem_bufferLikes hs).mpr hb)

/-- Everything counted is on the disk. -/
theorem kept_of {l : Linked} {t} (hs : Sees l.dv l.bdv l.root t) (hb : l.NoDanglingBuffer) :
    Kept (likesAt l.dv l.root) l.dv ∧ Kept (bufferLikes l.dv (likesAt l.dv l.root)) l.bdv :=
  ⟨fun _ ha => likesAt_has hs ha, fun b h => hb b ((mem_bufferLikes hs).mp h)⟩

/-! ### The transitions of the linked betree taken apart -/

section inversion
variable {s s' : LinkedBetree.State} {l : BLabel Linked}

theorem by_flushMemtable {b n x} (h : NextBy s l (.flushMemtable b n x) s') :
    x.NoDup ∧ b = s.memtable.buffer ∧ (s.linked.pushMemtable b x).ValidView n ∧
      l = .internal ∧ s' = ⟨s.memtable.drain, n⟩ := by
  cases h with | flushMemtable h1 h2 h3 => exact ⟨h1, h2, h3, rfl, rfl⟩

theorem by_grow {a} (h : NextBy s l (.grow a) s') :
    l = .internal ∧ s' = { s with linked := s.linked.grow a } := by
  cases h; exact ⟨rfl, rfl⟩

theorem by_split {n p r x pa} (h : NextBy s l (.split n p r x pa) s') :
    p.target.CanSplitParent r ∧ ValidPathReplacement s.linked p x.NoDup x.repr pa ∧
      (postSplit p r x pa).ValidView n ∧ l = .internal ∧ s' = { s with linked := n } := by
  cases h with | split h1 h2 h3 => exact ⟨h1, h2, h3, rfl, rfl⟩

theorem by_flush {n p i gc x pa} (h : NextBy s l (.flush n p i gc x pa) s') :
    p.target.CanFlush i gc ∧ ValidPathReplacement s.linked p x.NoDup x.repr pa ∧
      (postFlush p i gc x pa).ValidView n ∧ l = .internal ∧ s' = { s with linked := n } := by
  cases h with | flush h1 h2 h3 => exact ⟨h1, h2, h3, rfl, rfl⟩

theorem by_compact {n p a b c x pa} (h : NextBy s l (.compact n p a b c x pa) s') :
    p.target.CanCompact a b c ∧ ValidPathReplacement s.linked p x.NoDup x.repr pa ∧
      (postCompact p a b c x pa).ValidView n ∧ l = .internal ∧ s' = { s with linked := n } := by
  cases h with | compact h1 h2 h3 => exact ⟨h1, h2, h3, rfl, rfl⟩

theorem by_bufferNoop {n} (h : NextBy s l (.bufferNoop n) s') :
    s.linked.ValidView n ∧ s.linked.BuffersPreserved n ∧ l = .internal ∧
      s' = { s with linked := n } := by
  cases h with | bufferNoop h1 h2 => exact ⟨h1, h2, rfl, rfl⟩

/-- Queries, puts and freezing keep the tree and are strong steps as they are. -/
theorem weak_external (hl : l ≠ .internal) (h : WeakNext s l s') :
    LinkedBetree.Next s l s' ∧ s'.linked = s.linked := by
  obtain ⟨st, h⟩ := h
  cases h with
  | query h1 h2 => exact ⟨⟨_, .query h1 h2, trivial⟩, rfl⟩
  | put h1 h2 => exact ⟨⟨_, .put h1 h2, trivial⟩, rfl⟩
  | freezeAs h1 => exact ⟨⟨_, .freezeAs h1, trivial⟩, rfl⟩
  | flushMemtable => exact absurd rfl hl
  | grow => exact absurd rfl hl
  | split => exact absurd rfl hl
  | flush => exact absurd rfl hl
  | compact => exact absurd rfl hl
  | bufferNoop => exact absurd rfl hl
  | noop => exact absurd rfl hl

end inversion

/-! ### Whole operations -/

theorem fresh_or {l : Linked} {as bs : PSet Address} (h : l.IsFresh (fun a => as a ∨ bs a)) :
    l.IsFresh as ∧ l.IsFresh bs :=
  ⟨⟨fun a ha => h.1 a (.inl ha), fun a ha => h.2 a (.inl ha)⟩,
   ⟨fun a ha => h.1 a (.inr ha), fun a ha => h.2 a (.inr ha)⟩⟩

theorem or_fresh {l : Linked} {as bs : PSet Address} (h1 : l.IsFresh as) (h2 : l.IsFresh bs) :
    l.IsFresh (fun a => as a ∨ bs a) :=
  ⟨fun a ha => ha.elim (h1.1 a) (h2.1 a), fun a ha => ha.elim (h1.2 a) (h2.2 a)⟩

theorem split_post {l : Linked} {t} {p r} {x : SplitAddrs} {pa : List Address}
    (hs : Sees l.dv l.bdv l.root t) (hc : p.target.CanSplitParent r)
    (hv : ValidPathReplacement l p x.NoDup x.repr pa)
    (hf : l.IsFresh (fun a => x.repr a ∨ a ∈ pa)) :
    (∃ t', Writes l (postSplit p r x pa) (fun a => x.repr a ∨ a ∈ pa) t') ∧
    Change l (postSplit p r x pa) (splitDiscardBetree p r) (addBetreeLikes x.likes pa)
      0 (splitAddBuffers p r) := by
  obtain ⟨f1, f2⟩ := fresh_or hf
  obtain ⟨_, t2, t3, t4⟩ := target_sees hs hv
  have hf' : p.target.IsFresh x.repr := ⟨by rw [t2]; exact f1.1, by rw [t3]; exact f1.2⟩
  obtain ⟨_, hw⟩ := split_spec t4 hf' hv.2.2.2.1 hc
  refine ⟨⟨_, path_writes hs hv f2 hw⟩, ?_⟩
  have := path_change hs hv f2 hw (split_change t4 hf' hv.2.2.2.1 hc)
  rw [← add_assoc] at this
  exact this

theorem flush_post {l : Linked} {t} {p i gc} {x : TwoAddrs} {pa : List Address}
    (hs : Sees l.dv l.bdv l.root t) (hc : p.target.CanFlush i gc)
    (hv : ValidPathReplacement l p x.NoDup x.repr pa)
    (hf : l.IsFresh (fun a => x.repr a ∨ a ∈ pa)) :
    (∃ t', Writes l (postFlush p i gc x pa) (fun a => x.repr a ∨ a ∈ pa) t') ∧
    Change l (postFlush p i gc x pa) (flushDiscardBetree p i) (addBetreeLikes x.likes pa)
      (flushDiscardBuffers p gc) (flushAddBuffers p i) := by
  obtain ⟨f1, f2⟩ := fresh_or hf
  obtain ⟨_, t2, t3, t4⟩ := target_sees hs hv
  have hf' : p.target.IsFresh x.repr := ⟨by rw [t2]; exact f1.1, by rw [t3]; exact f1.2⟩
  obtain ⟨_, hw⟩ := flush_spec t4 hf' hv.2.2.2.1 hc
  refine ⟨⟨_, path_writes hs hv f2 hw⟩, ?_⟩
  have := path_change hs hv f2 hw (flush_change t4 hf' hv.2.2.2.1 hc)
  rw [← add_assoc] at this
  exact this

theorem compact_post {l : Linked} {t} {p a b c} {x : TwoAddrs} {pa : List Address}
    (hs : Sees l.dv l.bdv l.root t) (hc : p.target.CanCompact a b c)
    (hv : ValidPathReplacement l p x.NoDup x.repr pa)
    (hf : l.IsFresh (fun a => x.repr a ∨ a ∈ pa)) :
    (∃ t', Writes l (postCompact p a b c x pa) (fun a => x.repr a ∨ a ∈ pa) t') ∧
    Change l (postCompact p a b c x pa) (compactDiscardBetree p) (compactAddBetree x pa)
      (compactDiscardBuffers p a b) (compactAddBuffers x) := by
  obtain ⟨f1, f2⟩ := fresh_or hf
  obtain ⟨_, t2, t3, t4⟩ := target_sees hs hv
  have hf' : p.target.IsFresh x.repr := ⟨by rw [t2]; exact f1.1, by rw [t3]; exact f1.2⟩
  obtain ⟨_, hw⟩ := compact_spec t4 hf' hc
  refine ⟨⟨_, path_writes hs hv f2 hw⟩, ?_⟩
  exact path_change hs hv f2 hw (compact_change t4 hf' hc)

theorem push_root {l new : Linked} {b x} (h : (l.pushMemtable b x).ValidView new) :
    rootLikes new = {x.addr1} := by
  have hr : new.root = some x.addr1 := h.2.1.symm
  have : new.HasRoot := ⟨_, hr, h.1.2 _ hr⟩
  unfold rootLikes
  rw [if_pos this, hr]
  rfl

/-! ### The invariant and both directions of a step -/

/-- LikesBetree_v.rs 1183-1186 with 1175-1180: the recorded counts are those of the tree. -/
structure Inv (s : State) : Prop where
  linked : s.betree.linked.Inv
  tree : s.betreeLikes = likesAt s.betree.linked.dv s.betree.linked.root
  buf : s.bufferLikes = bufferLikes s.betree.linked.dv
    (likesAt s.betree.linked.dv s.betree.linked.root)

theorem init_inv {img : Stamped Linked} {s} (h : Init img s) : Inv s := by
  obtain ⟨⟨h1, h2, h3, he⟩, ht, hb⟩ := h
  rw [he] at ht hb
  rw [transitive_eq h1] at ht hb
  exact ⟨by rw [he]; exact ⟨h1, h2, h3⟩, by rw [he]; exact ht, by rw [he]; exact hb⟩

/-- After an operation and dropping pages: the counts are those of the operation. -/
theorem after {l post new : Linked} {out inn outB innB nt nb : Likes} {as t'}
    (hp : Writes l post as t') (hc : Change l post out inn outB innB) (hv : post.ValidView new)
    (hnt : nt = likesAt l.dv l.root - out + inn)
    (hnb : nb = bufferLikes l.dv (likesAt l.dv l.root) - outB + innB)
    (hb : post.BuffersPreserved new) :
    nt = likesAt new.dv new.root ∧ nb = bufferLikes new.dv (likesAt new.dv new.root) := by
  obtain ⟨v1, v2⟩ := view_change hp.sees hv hb
  rw [v2, v1, hc.buf.eq]
  exact ⟨by rw [hc.tree.eq]; exact hnt, hnb⟩

theorem preserved_after {l post new : Linked} {out inn outB innB nb : Likes} {as t'}
    (hp : Writes l post as t') (hc : Change l post out inn outB innB)
    (hnb : nb = bufferLikes l.dv (likesAt l.dv l.root) - outB + innB)
    (hk : Kept nb new.bdv) : post.BuffersPreserved new := by
  refine preserved_of hp.sees ?_
  rw [hc.buf.eq, ← hnb]
  exact hk

/-- A step of the counting betree is a strong step of the linked betree, and the counts stay
right. -/
theorem step {s s' : State} {l : BLabel Linked} (hi : Inv s) (h : Next s l s') :
    LinkedBetree.Next s.betree l s'.betree ∧ Inv s' := by
  obtain ⟨hw, hs, hok⟩ := inv_sees hi.linked
  have fin : ∀ {s' : State}, LinkedBetree.Next s.betree l s'.betree →
      s'.betreeLikes = likesAt s'.betree.linked.dv s'.betree.linked.root →
      s'.bufferLikes = bufferLikes s'.betree.linked.dv
        (likesAt s'.betree.linked.dv s'.betree.linked.root) →
      LinkedBetree.Next s.betree l s'.betree ∧ Inv s' :=
    fun hn h1 h2 => ⟨hn, ⟨(LinkedBetree.step hi.linked hn).1, h1, h2⟩⟩
  cases h with
  | noop hl hn =>
    obtain ⟨h1, h2⟩ := weak_external hl hn
    exact fin (s' := { s with betree := _ }) h1 (by rw [h2]; exact hi.tree) (by rw [h2]; exact hi.buf)
  | @flushMemtable new x nt nb hn hf hnt hnb hk hkb =>
    obtain ⟨n1, n2, n3, _, n5⟩ := by_flushMemtable hn
    have hp := push_spec (m := s.betree.memtable) hs hf
    have hc := push_change (m := s.betree.memtable) hs hf
    have hnb : nb = bufferLikes s.betree.linked.dv
        (likesAt s.betree.linked.dv s.betree.linked.root) - 0 + {x.addr2} := by
      rw [hnb, hi.buf, Multiset.sub_zero, ← Multiset.singleton_add, add_comm]
    have hpr := preserved_after hp hc hnb hkb
    rw [push_root n3, hi.tree] at hnt
    obtain ⟨e1, e2⟩ := after hp hc n3 hnt hnb hpr
    exact fin (s' := ⟨new, nt, nb⟩) ⟨_, hn, hf, hpr⟩ e1 e2
  | @grow new a hn hf =>
    obtain ⟨_, n2⟩ := by_grow hn
    have hc := grow_change hs hf
    have e1 := hc.tree.eq
    have e2 := hc.buf.eq
    rw [Multiset.sub_zero, ← hi.tree, add_comm, Multiset.singleton_add] at e1
    rw [Multiset.sub_zero, ← hi.buf, add_zero] at e2
    exact fin (s' := ⟨new, _, _⟩) ⟨_, hn, hf⟩ (by rw [n2]; exact e1.symm) (by rw [n2]; exact e2.symm)
  | @split new p r x pa nt nb hn hf hnt hnb hk hkb =>
    obtain ⟨n1, n2, n3, _, n5⟩ := by_split hn
    obtain ⟨⟨t', hp⟩, hc⟩ := split_post hs n1 n2 hf
    have hnb : nb = bufferLikes s.betree.linked.dv
        (likesAt s.betree.linked.dv s.betree.linked.root) - 0 + splitAddBuffers p r := by
      rw [hnb, hi.buf, Multiset.sub_zero]
    have hkb' : Kept nb new.linked.bdv := by
      intro b hb
      rw [hnb, Multiset.sub_zero, ← hi.buf] at hb
      rcases Multiset.mem_add.mp hb with hb | hb
      · exact hkb b hb
      · apply hkb
        rw [hi.buf]
        obtain ⟨_, t2, t3, t4⟩ := target_sees hs n2
        obtain ⟨_, hr, hvi, hcr, _⟩ := n1
        obtain ⟨a, ts, _, _, hk, _, _⟩ := root_node t4 hr
        obtain ⟨c, cts, c1, c2, c3, c4, c5⟩ := child_apart hk hvi hcr
        unfold splitAddBuffers at hb
        dsimp only at hb
        rw [c4, bufferLikes_single] at hb
        refine Multiset.mem_bind.mpr ⟨c, ?_, ?_⟩
        · refine Multiset.mem_of_le hc.tree.le ?_
          unfold splitDiscardBetree
          rw [c4]
          simp
        · rw [show s.betree.linked.dv = (p.target.childAtIdx (requestIdx r)).dv from t2.symm]
          exact hb
    have hpr := preserved_after hp hc hnb hkb'
    rw [hi.tree] at hnt
    obtain ⟨e1, e2⟩ := after hp hc n3 hnt hnb hpr
    exact fin (s' := ⟨new, nt, nb⟩) ⟨_, hn, (fresh_or hf).1, (fresh_or hf).2, hpr⟩ e1 e2
  | @flush new p i gc x pa nt nb hn hf hnt hnb hk hkb =>
    obtain ⟨n1, n2, n3, _, n5⟩ := by_flush hn
    obtain ⟨⟨t', hp⟩, hc⟩ := flush_post hs n1 n2 hf
    rw [hi.buf] at hnb
    rw [hi.tree] at hnt
    have hpr := preserved_after hp hc hnb hkb
    obtain ⟨e1, e2⟩ := after hp hc n3 hnt hnb hpr
    exact fin (s' := ⟨new, nt, nb⟩) ⟨_, hn, (fresh_or hf).1, (fresh_or hf).2, hpr⟩ e1 e2
  | @compact new p a b c x pa nt nb hn hf hnt hnb hk hkb =>
    obtain ⟨n1, n2, n3, _, n5⟩ := by_compact hn
    obtain ⟨⟨t', hp⟩, hc⟩ := compact_post hs n1 n2 hf
    rw [hi.buf] at hnb
    rw [hi.tree] at hnt
    have hpr := preserved_after hp hc hnb hkb
    obtain ⟨e1, e2⟩ := after hp hc n3 hnt hnb hpr
    exact fin (s' := ⟨new, nt, nb⟩) ⟨_, hn, (fresh_or hf).1, (fresh_or hf).2, hpr⟩ e1 e2
  | @bufferNoop new hn =>
    obtain ⟨n1, n2, _, _⟩ := by_bufferNoop hn
    obtain ⟨e1, e2⟩ := view_change hs n1 n2
    exact fin (s' := { s with betree := new }) ⟨_, hn, trivial⟩ (hi.tree.trans e1.symm)
      (hi.buf.trans e2.symm)
  | internalNoop hn => exact fin (s' := s) ⟨_, hn, trivial⟩ hi.tree hi.buf

/-- Every strong step of the linked betree can be taken with counting. -/
theorem lift {s : State} {b : LinkedBetree.State} {l : BLabel Linked} (hi : Inv s)
    (h : LinkedBetree.Next s.betree l b) : ∃ s', Next s l s' ∧ s'.betree = b := by
  obtain ⟨hw, hs, hok⟩ := inv_sees hi.linked
  have hb := (LinkedBetree.step hi.linked h).1
  obtain ⟨_, hs', _⟩ := inv_sees hb
  obtain ⟨k1, k2⟩ := kept_of hs' hb.2.1
  have hmono : ∀ {m m' : Likes} {d : BDisk}, Kept m d → m' ≤ m → Kept m' d :=
    fun h hle a ha => h a (Multiset.mem_of_le hle ha)
  obtain ⟨st, hn, hst⟩ := h
  cases st with
  | query r =>
    refine ⟨{ s with betree := b }, .noop ?_ ⟨_, hn⟩, rfl⟩
    intro hl; subst hl; cases hn
  | put =>
    refine ⟨{ s with betree := b }, .noop ?_ ⟨_, hn⟩, rfl⟩
    intro hl; subst hl; cases hn
  | freezeAs =>
    refine ⟨{ s with betree := b }, .noop ?_ ⟨_, hn⟩, rfl⟩
    intro hl; subst hl; cases hn
  | flushMemtable sealed new x =>
    obtain ⟨n1, rfl, n3, rfl, rfl⟩ := by_flushMemtable hn
    have hp := push_spec (m := s.betree.memtable) hs hst.1
    have hc := push_change (m := s.betree.memtable) hs hst.1
    obtain ⟨e1, e2⟩ := after hp hc n3 (nt := s.betreeLikes - rootLikes s.betree.linked + rootLikes new)
      (nb := x.addr2 ::ₘ s.bufferLikes) (by rw [push_root n3, hi.tree])
      (by rw [hi.buf, Multiset.sub_zero, ← Multiset.singleton_add, add_comm]) hst.2
    exact ⟨_, .flushMemtable hn hst.1 rfl rfl (by rw [e1]; exact k1) (by rw [e2]; exact k2), rfl⟩
  | grow a =>
    obtain ⟨rfl, rfl⟩ := by_grow hn
    exact ⟨_, .grow hn hst, rfl⟩
  | split new p r x pa =>
    obtain ⟨n1, n2, n3, rfl, rfl⟩ := by_split hn
    have hf := or_fresh hst.1 hst.2.1
    obtain ⟨⟨t', hp⟩, hc⟩ := split_post hs n1 n2 hf
    obtain ⟨e1, e2⟩ := after hp hc n3
      (nt := s.betreeLikes - splitDiscardBetree p r + addBetreeLikes x.likes pa)
      (nb := s.bufferLikes + splitAddBuffers p r) (by rw [hi.tree])
      (by rw [hi.buf, Multiset.sub_zero]) hst.2.2
    refine ⟨_, .split hn hf rfl rfl (by rw [e1]; exact k1) ?_, rfl⟩
    exact hmono k2 (by rw [← e2]; exact Multiset.le_add_right _ _)
  | flush new p i gc x pa =>
    obtain ⟨n1, n2, n3, rfl, rfl⟩ := by_flush hn
    have hf := or_fresh hst.1 hst.2.1
    obtain ⟨⟨t', hp⟩, hc⟩ := flush_post hs n1 n2 hf
    obtain ⟨e1, e2⟩ := after hp hc n3
      (nt := s.betreeLikes - flushDiscardBetree p i + addBetreeLikes x.likes pa)
      (nb := s.bufferLikes - flushDiscardBuffers p gc + flushAddBuffers p i) (by rw [hi.tree])
      (by rw [hi.buf]) hst.2.2
    exact ⟨_, .flush hn hf rfl rfl (by rw [e1]; exact k1) (by rw [e2]; exact k2), rfl⟩
  | compact new p a b c x pa =>
    obtain ⟨n1, n2, n3, rfl, rfl⟩ := by_compact hn
    have hf := or_fresh hst.1 hst.2.1
    obtain ⟨⟨t', hp⟩, hc⟩ := compact_post hs n1 n2 hf
    obtain ⟨e1, e2⟩ := after hp hc n3
      (nt := s.betreeLikes - compactDiscardBetree p + compactAddBetree x pa)
      (nb := s.bufferLikes - compactDiscardBuffers p a b + compactAddBuffers x) (by rw [hi.tree])
      (by rw [hi.buf]) hst.2.2
    exact ⟨_, .compact hn hf rfl rfl (by rw [e1]; exact k1) (by rw [e2]; exact k2), rfl⟩
  | bufferNoop new =>
    obtain ⟨n1, n2, rfl, rfl⟩ := by_bufferNoop hn
    exact ⟨_, .bufferNoop hn, rfl⟩
  | noop =>
    cases hn
    exact ⟨s, .internalNoop .noop, rfl⟩

end Verif.LikesBetree

/-! ### Counts per allocation unit -/

namespace Verif.AllocationBetree
open Verif LinkedBetree LikesBetree

theorem sees_buffers {d : Disk} {bd : BDisk} {a b : Address} {n : LNode} (hn : d a = some n)
    (hb : b ∈ n.buffers) {p} (hr : Reach d p a) : ∀ {t}, Sees d bd p t → bd.Has b := by
  induction hr with
  | here h =>
    intro t ht
    obtain ⟨m, _, _, _, hm, h2, _⟩ := ht.some_inv
    rw [hn] at hm
    cases hm
    exact h2.has b hb
  | down h hi _ ih =>
    intro t ht
    obtain ⟨m, _, _, _, hm, _, _, hk⟩ := ht.some_inv
    rw [h] at hm
    cases hm
    exact ih hn (hk _ hi)

theorem noDangling_of {l : Linked} {t} (hs : Sees l.dv l.bdv l.root t) : l.NoDanglingBuffer := by
  rintro b ⟨a, n, hr, hn, hb⟩
  exact sees_buffers hn hb hr hs

/-- The two machines side by side: unit counts are the page counts seen per unit. -/
structure Rel (s : State) (t : LikesBetree.State) : Prop where
  betree : t.betree = s.betree
  inv : LikesBetree.Inv t
  tree : s.betreeAus = toAuLikes t.betreeLikes
  buf : s.bufferAus = toAuLikes t.bufferLikes

theorem init_rel {img : Stamped Linked} {s} (h : Init img s) :
    ∃ t, LikesBetree.Init img t ∧ Rel s t := by
  obtain ⟨h1, h2, h3⟩ := h
  have hi : LikesBetree.Init img ⟨s.betree, (transitiveLikes s.betree.linked).1,
      (transitiveLikes s.betree.linked).2⟩ := ⟨h1, rfl, rfl⟩
  exact ⟨_, hi, ⟨rfl, LikesBetree.init_inv hi, h2, h3⟩⟩

theorem trade_au {old new out inn : Likes} (h : Trade old new out inn) :
    toAuLikes new = toAuLikes old - toAuLikes out + toAuLikes inn := (h.map Address.au).eq

/-- Pages kept because their unit is counted include all counted pages. -/
theorem kept_of_units {post new : Linked} {t'} (hs : Sees post.dv post.bdv post.root t')
    {nt nb : AULikes} (ht : nt = toAuLikes (likesAt post.dv post.root))
    (hb : nb = toAuLikes (bufferLikes post.dv (likesAt post.dv post.root)))
    (h1 : Kept post.dv nt new.dv) (h2 : Kept post.bdv nb new.bdv) :
    LikesBetree.Kept (likesAt post.dv post.root) new.dv ∧
    LikesBetree.Kept (bufferLikes post.dv (likesAt post.dv post.root)) new.bdv := by
  constructor
  · intro a ha
    exact h1 a (likesAt_has hs ha) (by rw [ht]; exact Multiset.mem_map_of_mem _ ha)
  · intro b hb'
    exact h2 b (noDangling_of hs b ((mem_bufferLikes hs).mp hb'))
      (by rw [hb]; exact Multiset.mem_map_of_mem _ hb')

theorem step {s s' : State} {t : LikesBetree.State} {l : BLabel Linked} (hr : Rel s t)
    (h : Next s l s') : ∃ t', LikesBetree.Next t l t' ∧ Rel s' t' := by
  obtain ⟨tb, tt, tf⟩ := t
  obtain ⟨hbt, hi, hrt, hrb⟩ := hr
  cases hbt
  have hit : tt = likesAt s.betree.linked.dv s.betree.linked.root := hi.tree
  have hib : tf = bufferLikes s.betree.linked.dv
    (likesAt s.betree.linked.dv s.betree.linked.root) := hi.buf
  obtain ⟨hw, hs, hok⟩ := inv_sees hi.linked
  have hs : Sees s.betree.linked.dv s.betree.linked.bdv s.betree.linked.root
    (treeOf s.betree.linked) := hs
  have fin : ∀ {s' : State} {t' : LikesBetree.State}, LikesBetree.Next ⟨s.betree, tt, tf⟩ l t' →
      t'.betree = s'.betree → s'.betreeAus = toAuLikes t'.betreeLikes →
      s'.bufferAus = toAuLikes t'.bufferLikes → ∃ t', LikesBetree.Next ⟨s.betree, tt, tf⟩ l t' ∧
        Rel s' t' :=
    fun hn h1 h2 h3 => ⟨_, hn, ⟨h1, (LikesBetree.step hi hn).2, h2, h3⟩⟩
  have hrt : s.betreeAus = toAuLikes (likesAt s.betree.linked.dv s.betree.linked.root) := by
    rw [hrt]; exact congrArg toAuLikes hit
  have hrb : s.bufferAus = toAuLikes (bufferLikes s.betree.linked.dv
      (likesAt s.betree.linked.dv s.betree.linked.root)) := by
    rw [hrb]; exact congrArg toAuLikes hib
  cases h with
  | noop hl hn =>
    exact fin (s' := { s with betree := _ }) (.noop hl hn) rfl (by rw [hit]; exact hrt)
      (by rw [hib]; exact hrb)
  | @flushMemtable new x nt nb hn hf hnt hnb hk hkb =>
    obtain ⟨n1, n2, n3, _, n5⟩ := by_flushMemtable hn
    have hp := push_spec (m := s.betree.memtable) hs hf
    have hc := push_change (m := s.betree.memtable) hs hf
    have et := trade_au hc.tree
    have eb := trade_au hc.buf
    rw [← hrt, ← push_root n3, ← hnt] at et
    rw [← hrb, show toAuLikes 0 = 0 from rfl, Multiset.sub_zero, add_comm,
      show toAuLikes {x.addr2} = {x.addr2.au} from rfl, Multiset.singleton_add, ← hnb] at eb
    obtain ⟨k1, k2⟩ := kept_of_units (new := new.linked) hp.sees et.symm eb.symm hk hkb
    have e1 := hc.tree.eq
    have e2 := hc.buf.eq
    rw [← hit, ← push_root n3] at e1
    rw [Multiset.sub_zero, add_comm, ← hib, Multiset.singleton_add] at e2
    exact fin (s' := ⟨new, nt, nb⟩) (.flushMemtable hn hf e1 e2 k1 k2) rfl et.symm eb.symm
  | @grow new a hn hf =>
    have hc := grow_change hs hf
    refine fin (s' := ⟨new, _, _⟩) (.grow hn hf) rfl ?_ (by show s.bufferAus = _; rw [hrb, hib])
    show a.au ::ₘ s.betreeAus = toAuLikes (a ::ₘ tt)
    rw [hrt, hit, toAuLikes, toAuLikes, Multiset.map_cons]
  | @split new p r x pa nt nb hn hf hnt hnb hk hkb =>
    obtain ⟨n1, n2, n3, _, n5⟩ := by_split hn
    obtain ⟨⟨t', hp⟩, hc⟩ := split_post hs n1 n2 hf
    have et := trade_au hc.tree
    have eb := trade_au hc.buf
    rw [← hrt, ← hnt] at et
    rw [← hrb, show toAuLikes 0 = 0 from rfl, Multiset.sub_zero, ← hnb] at eb
    obtain ⟨k1, k2⟩ := kept_of_units (new := new.linked) hp.sees et.symm eb.symm hk hkb
    have e1 := hc.tree.eq
    have e2 := hc.buf.eq
    rw [← hit] at e1
    rw [Multiset.sub_zero, ← hib] at e2
    refine fin (s' := ⟨new, nt, nb⟩) (.split hn hf e1 e2 k1 ?_) rfl et.symm eb.symm
    intro b hb
    exact k2 b (by rw [e2]; exact Multiset.mem_add.mpr (.inl hb))
  | @flush new p i gc x pa nt nb hn hf hnt hnb hk hkb =>
    obtain ⟨n1, n2, n3, _, n5⟩ := by_flush hn
    obtain ⟨⟨t', hp⟩, hc⟩ := flush_post hs n1 n2 hf
    have et := trade_au hc.tree
    have eb := trade_au hc.buf
    rw [← hrt, ← hnt] at et
    rw [← hrb, ← hnb] at eb
    obtain ⟨k1, k2⟩ := kept_of_units (new := new.linked) hp.sees et.symm eb.symm hk hkb
    have e1 := hc.tree.eq
    have e2 := hc.buf.eq
    rw [← hit] at e1
    rw [← hib] at e2
    exact fin (s' := ⟨new, nt, nb⟩) (.flush hn hf e1 e2 k1 k2) rfl et.symm eb.symm
  | @compact new p a b c x pa nt nb hn hf hnt hnb hk hkb =>
    obtain ⟨n1, n2, n3, _, n5⟩ := by_compact hn
    obtain ⟨⟨t', hp⟩, hc⟩ := compact_post hs n1 n2 hf
    have et := trade_au hc.tree
    have eb := trade_au hc.buf
    rw [← hrt, ← hnt] at et
    rw [← hrb, ← hnb] at eb
    obtain ⟨k1, k2⟩ := kept_of_units (new := new.linked) hp.sees et.symm eb.symm hk hkb
    have e1 := hc.tree.eq
    have e2 := hc.buf.eq
    rw [← hit] at e1
    rw [← hib] at e2
    exact fin (s' := ⟨new, nt, nb⟩) (.compact hn hf e1 e2 k1 k2) rfl et.symm eb.symm
  | @bufferNoop new hn =>
    exact fin (s' := { s with betree := new }) (.bufferNoop hn) rfl (by rw [hit]; exact hrt)
      (by rw [hib]; exact hrb)
  | internalNoop hn =>
    exact fin (s' := s) (.internalNoop hn) rfl (by rw [hit]; exact hrt) (by rw [hib]; exact hrb)

/-! ### Which steps of the linked betree the unit counts allow -/

/-- Pages of units that are still in use after the step are kept. -/
def KeepsUnits (l new : Linked) : Prop :=
  (∀ a a', l.dv.Has a → Reach new.dv new.root a' → a'.au = a.au → new.dv.Has a) ∧
  (∀ b b', l.bdv.Has b → new.ReachableBuffer b' → b'.au = b.au → new.bdv.Has b)

theorem mem_au {m : Likes} {u : Nat} (h : u ∈ toAuLikes m) : ∃ a ∈ m, a.au = u :=
  Multiset.mem_map.mp h

/-- The conditions on what is kept, from `KeepsUnits`. -/
theorem kept_by {l post new : Linked} {as t'} (hp : Writes l post as t') (hv : post.ValidView new)
    (hpr : post.BuffersPreserved new) (hk : KeepsUnits l new)
    (hb : ∀ b, post.bdv.Has b → l.bdv.Has b ∨ post.ReachableBuffer b) :
    Kept post.dv (toAuLikes (likesAt post.dv post.root)) new.dv ∧
    Kept post.bdv (toAuLikes (bufferLikes post.dv (likesAt post.dv post.root))) new.bdv := by
  obtain ⟨v1, v2⟩ := view_change hp.sees hv hpr
  have hs' := view_sees hp.sees hv hpr
  constructor
  · intro a ha hu
    rw [← v1] at hu
    obtain ⟨a', h1, h2⟩ := mem_au hu
    rcases hp.only a ha with h | ⟨_, h⟩
    · exact hk.1 a a' h ((mem_likesAt hs').mp h1) h2
    · rw [← mem_likesAt hp.sees, ← v1, mem_likesAt hs'] at h
      exact reach_has h
  · intro b hb' hu
    rw [← v2] at hu
    obtain ⟨b', h1, h2⟩ := mem_au hu
    rcases hb b hb' with h | h
    · exact hk.2 b b' h ((mem_bufferLikes hs').mp h1) h2
    · exact hpr b h

/-- Every strong step of the linked betree that keeps the units in use can be taken with unit
counts; dropping unreached pages always can. -/
theorem lift {s : State} {t : LikesBetree.State} {b : LinkedBetree.State} {l : BLabel Linked}
    (hr : Rel s t) (h : LinkedBetree.Next s.betree l b) (hk : KeepsUnits s.betree.linked b.linked) :
    ∃ s', Next s l s' ∧ s'.betree = b := by
  obtain ⟨tb, tt, tf⟩ := t
  obtain ⟨hbt, hi, hrt, hrb⟩ := hr
  cases hbt
  have hit : tt = likesAt s.betree.linked.dv s.betree.linked.root := hi.tree
  have hib : tf = bufferLikes s.betree.linked.dv
    (likesAt s.betree.linked.dv s.betree.linked.root) := hi.buf
  obtain ⟨hw, hs, hok⟩ := inv_sees hi.linked
  have hs : Sees s.betree.linked.dv s.betree.linked.bdv s.betree.linked.root
    (treeOf s.betree.linked) := hs
  have hrt : s.betreeAus = toAuLikes (likesAt s.betree.linked.dv s.betree.linked.root) := by
    rw [hrt]; exact congrArg toAuLikes hit
  have hrb : s.bufferAus = toAuLikes (bufferLikes s.betree.linked.dv
      (likesAt s.betree.linked.dv s.betree.linked.root)) := by
    rw [hrb]; exact congrArg toAuLikes hib
  obtain ⟨st, hn, hst⟩ := h
  cases st with
  | query r =>
    refine ⟨{ s with betree := b }, .noop ?_ ⟨_, hn⟩, rfl⟩
    intro hl; subst hl; cases hn
  | put =>
    refine ⟨{ s with betree := b }, .noop ?_ ⟨_, hn⟩, rfl⟩
    intro hl; subst hl; cases hn
  | freezeAs =>
    refine ⟨{ s with betree := b }, .noop ?_ ⟨_, hn⟩, rfl⟩
    intro hl; subst hl; cases hn
  | flushMemtable sealed new x =>
    obtain ⟨n1, rfl, n3, rfl, rfl⟩ := by_flushMemtable hn
    have hp := push_spec (m := s.betree.memtable) hs hst.1
    have hc := push_change (m := s.betree.memtable) hs hst.1
    have et := trade_au hc.tree
    have eb := trade_au hc.buf
    rw [← hrt, ← push_root n3] at et
    rw [← hrb, show toAuLikes 0 = 0 from rfl, Multiset.sub_zero, add_comm,
      show toAuLikes {x.addr2} = {x.addr2.au} from rfl, Multiset.singleton_add] at eb
    have hx : (s.betree.linked.pushMemtable s.betree.memtable.buffer x).ReachableBuffer x.addr2 := by
      rw [← mem_bufferLikes hp.sees, hc.buf.eq]
      exact Multiset.mem_add.mpr (.inr (Multiset.mem_singleton_self _))
    obtain ⟨k1, k2⟩ := kept_by hp n3 hst.2 hk fun b hb => by
      rcases has_insert.mp hb with rfl | hb
      · exact .inr hx
      · exact .inl hb
    rw [et] at k1
    rw [eb] at k2
    exact ⟨_, .flushMemtable hn hst.1 rfl rfl k1 k2, rfl⟩
  | grow a =>
    obtain ⟨rfl, rfl⟩ := by_grow hn
    exact ⟨_, .grow hn hst, rfl⟩
  | split new p r x pa =>
    obtain ⟨n1, n2, n3, rfl, rfl⟩ := by_split hn
    have hf := or_fresh hst.1 hst.2.1
    obtain ⟨⟨t', hp⟩, hc⟩ := split_post hs n1 n2 hf
    have et := trade_au hc.tree
    have eb := trade_au hc.buf
    rw [← hrt] at et
    rw [← hrb, show toAuLikes 0 = 0 from rfl, Multiset.sub_zero] at eb
    obtain ⟨k1, k2⟩ := kept_by hp n3 hst.2.2 hk fun b hb => by
      obtain ⟨_, t2, t3, t4⟩ := target_sees hs n2
      have e : (postSplit p r x pa).bdv = s.betree.linked.bdv := by
        unfold postSplit Path.substitute
        rw [substitute_bdv, ← t3]
        cases r <;> rfl
      rw [e] at hb
      exact .inl hb
    rw [et] at k1
    rw [eb] at k2
    exact ⟨_, .split hn hf rfl rfl k1 k2, rfl⟩
  | flush new p i gc x pa =>
    obtain ⟨n1, n2, n3, rfl, rfl⟩ := by_flush hn
    have hf := or_fresh hst.1 hst.2.1
    obtain ⟨⟨t', hp⟩, hc⟩ := flush_post hs n1 n2 hf
    have et := trade_au hc.tree
    have eb := trade_au hc.buf
    rw [← hrt] at et
    rw [← hrb] at eb
    obtain ⟨k1, k2⟩ := kept_by hp n3 hst.2.2 hk fun b hb => by
      obtain ⟨_, t2, t3, t4⟩ := target_sees hs n2
      have e : (postFlush p i gc x pa).bdv = s.betree.linked.bdv := by
        unfold postFlush Path.substitute
        rw [substitute_bdv, ← t3]
        rfl
      rw [e] at hb
      exact .inl hb
    rw [et] at k1
    rw [eb] at k2
    exact ⟨_, .flush hn hf rfl rfl k1 k2, rfl⟩
  | compact new p a b c x pa =>
    obtain ⟨n1, n2, n3, rfl, rfl⟩ := by_compact hn
    have hf := or_fresh hst.1 hst.2.1
    obtain ⟨⟨t', hp⟩, hc⟩ := compact_post hs n1 n2 hf
    have et := trade_au hc.tree
    have eb := trade_au hc.buf
    rw [← hrt] at et
    rw [← hrb] at eb
    have hx : (postCompact p a b c x pa).ReachableBuffer x.addr2 := by
      rw [← mem_bufferLikes hp.sees, hc.buf.eq]
      exact Multiset.mem_add.mpr (.inr (Multiset.mem_singleton_self _))
    obtain ⟨k1, k2⟩ := kept_by hp n3 hst.2.2 hk fun y hb => by
      obtain ⟨_, t2, t3, t4⟩ := target_sees hs n2
      have e : (postCompact p a b c x pa).bdv = PMap.insert s.betree.linked.bdv x.addr2 c := by
        unfold postCompact Path.substitute
        rw [substitute_bdv, ← t3]
        rfl
      rw [e] at hb
      rcases has_insert.mp hb with rfl | hb
      · exact .inr hx
      · exact .inl hb
    rw [et] at k1
    rw [eb] at k2
    exact ⟨_, .compact hn hf rfl rfl k1 k2, rfl⟩
  | bufferNoop new =>
    obtain ⟨n1, n2, rfl, rfl⟩ := by_bufferNoop hn
    exact ⟨_, .bufferNoop hn, rfl⟩
  | noop =>
    cases hn
    exact ⟨s, .internalNoop .noop, rfl⟩

end Verif.AllocationBetree
