import Verif.Betree.LinkedBranch
import Verif.Betree.BranchProof
/-
Proofs about Betree/LinkedBranch.lean: the tree shown by the pages of a branch, and each operation on
pages as the operation on that tree.
-/
namespace Verif.LBr
open Verif
variable {T : Type}

/-- `Shows d a t`: the pages under address `a` spell out the tree `t`. -/
inductive Shows (d : Disk T) : Address → BNode → Prop
  | leaf {a ks ms} : d a = some (.leaf ks ms) → Shows d a (.leaf ks ms)
  | index {a ps cs x ts} : d a = some (.index ps cs x) → cs.length = ts.length →
      (∀ (i : Nat) c t, cs[i]? = some c → ts[i]? = some t → Shows d c t) →
      Shows d a (.index ps ts)

theorem shows_leaf {d : Disk T} {a ks ms} (h : Shows d a (.leaf ks ms)) :
    d a = some (.leaf ks ms) := by
  cases h; assumption

theorem shows_index {d : Disk T} {a ps ts} (h : Shows d a (.index ps ts)) :
    ∃ cs x, d a = some (.index ps cs x) ∧ cs.length = ts.length ∧
      ∀ (i : Nat) c t, cs[i]? = some c → ts[i]? = some t → Shows d c t := by
  cases h with
  | index h1 h2 h3 => exact ⟨_, _, h1, h2, h3⟩

/-- A page shows at most one tree. -/
theorem Shows.unique {d : Disk T} {a t} (h : Shows d a t) : ∀ {t'}, Shows d a t' → t = t' := by
  induction h with
  | leaf e =>
    intro t' h'
    cases h' with
    | leaf e' => rw [e] at e'; cases e'; rfl
    | index e' => rw [e] at e'; cases e'
  | @index a ps cs x ts e hl hc ih =>
    intro t' h'
    cases h' with
    | leaf e' => rw [e] at e'; cases e'
    | @index _ ps' cs' x' ts' e' hl' hc' =>
      rw [e] at e'; cases e'
      congr 1
      refine List.ext_getElem? fun i => ?_
      by_cases hi : i < cs.length
      · have h1 : i < ts.length := hl ▸ hi
        have h2 : i < ts'.length := hl' ▸ hi
        rw [List.getElem?_eq_getElem h1, List.getElem?_eq_getElem h2]
        congr 1
        exact ih i cs[i] ts[i] (List.getElem?_eq_getElem hi) (List.getElem?_eq_getElem h1)
          (hc' i cs[i] ts'[i] (List.getElem?_eq_getElem hi) (List.getElem?_eq_getElem h2))
      · rw [List.getElem?_eq_none (by omega), List.getElem?_eq_none (by omega)]

theorem Shows.page {d : Disk T} {a t} (h : Shows d a t) : ∃ n, d a = some n ∧ ¬ n.IsAux := by
  cases h with
  | leaf e => exact ⟨_, e, fun h => h⟩
  | index e => exact ⟨_, e, fun h => h⟩

theorem Reach.trans {d : Disk T} {a b c} (h : Reach d a b) (h' : Reach d b c) : Reach d a c := by
  induction h with
  | here => exact h'
  | down e hc _ ih => exact .down e hc (ih h')

theorem Reach.single {d : Disk T} {a n c} (e : d a = some n) (hc : c ∈ n.children) : Reach d a c :=
  .down e hc .here

/-- Pages of a shown tree show subtrees, no larger than the tree. -/
theorem Shows.reach {d : Disk T} {a b} (hr : Reach d a b) : ∀ {t}, Shows d a t →
    ∃ t', Shows d b t' ∧ (b = a ∧ t' = t ∨ sizeOf t' < sizeOf t) := by
  induction hr with
  | here => intro t h; exact ⟨t, h, .inl ⟨rfl, rfl⟩⟩
  | @down a n c b e hc _ ih =>
    intro t h
    cases h with
    | leaf e' => rw [e] at e'; cases e'; cases hc
    | @index _ ps cs x ts e' hl hs =>
      rw [e] at e'; cases e'
      obtain ⟨i, hi⟩ := List.mem_iff_getElem?.mp (show c ∈ cs from hc)
      obtain ⟨hi1, rfl⟩ := List.getElem?_eq_some_iff.mp hi
      have hi2 : i < ts.length := hl ▸ hi1
      have hg := List.getElem?_eq_getElem hi2
      obtain ⟨t', h1, h2⟩ := ih (hs i _ _ hi hg)
      have hsz := List.sizeOf_lt_of_mem (List.getElem_mem hi2)
      have e3 : sizeOf (BNode.index ps ts) = 1 + sizeOf ps + sizeOf ts := by simp
      refine ⟨t', h1, .inr ?_⟩
      rcases h2 with ⟨_, rfl⟩ | h2 <;> omega

/-- No page of a shown tree is below itself. -/
theorem Shows.no_cycle {d : Disk T} {a t n c} (h : Shows d a t) (e : d a = some n)
    (hc : c ∈ n.children) : ¬ Reach d c a := by
  intro hr
  cases h with
  | leaf e' => rw [e] at e'; cases e'; cases hc
  | @index _ ps cs x ts e' hl hs =>
    have h0 : Shows d a (.index ps ts) := .index e' hl hs
    rw [e] at e'; cases e'
    obtain ⟨i, hi⟩ := List.mem_iff_getElem?.mp (show c ∈ cs from hc)
    obtain ⟨hi1, rfl⟩ := List.getElem?_eq_some_iff.mp hi
    have hi2 : i < ts.length := hl ▸ hi1
    have hci := hs i _ _ hi (List.getElem?_eq_getElem hi2)
    have hsz := List.sizeOf_lt_of_mem (List.getElem_mem hi2)
    have e3 : sizeOf (BNode.index ps ts) = 1 + sizeOf ps + sizeOf ts := by simp
    obtain ⟨t', h1, h2⟩ := Shows.reach hr hci
    have := h1.unique h0
    subst this
    rcases h2 with ⟨_, h2⟩ | h2
    · rw [← h2] at hsz; omega
    · omega

theorem Shows.children {d : Disk T} {a ps ts} (h : Shows d a (.index ps ts)) {n}
    (e : d a = some n) : ∃ cs x, n = .index ps cs x ∧ cs.length = ts.length ∧
      ∀ (i : Nat) c t, cs[i]? = some c → ts[i]? = some t → Shows d c t := by
  obtain ⟨cs, x, e', h1, h2⟩ := shows_index h
  rw [e] at e'; cases e'
  exact ⟨cs, x, rfl, h1, h2⟩

/-- The keys under a page are those of the tree it shows. -/
theorem Shows.allKeys {d : Disk T} {a t} (h : Shows d a t) (k : Key) :
    AllKeys d a k ↔ t.AllKeys k := by
  induction h with
  | leaf e =>
    rw [BNode.AllKeys]
    constructor
    · intro h
      cases h with
      | own e' hk => rw [e] at e'; cases e'; exact hk
      | down e' hc => rw [e] at e'; cases e'; cases hc
    · intro hk; exact .own e hk
  | @index a ps cs x ts e hl hc ih =>
    rw [BNode.allKeys_index]
    constructor
    · intro h
      cases h with
      | own e' hk => rw [e] at e'; cases e'; exact .inl hk
      | down e' hm hk =>
        rw [e] at e'; cases e'
        obtain ⟨i, hi⟩ := List.mem_iff_getElem?.mp (show _ ∈ cs from hm)
        obtain ⟨hi1, rfl⟩ := List.getElem?_eq_some_iff.mp hi
        have hi2 : i < ts.length := hl ▸ hi1
        exact .inr ⟨ts[i], List.getElem_mem hi2,
          (ih i _ _ hi (List.getElem?_eq_getElem hi2)).mp hk⟩
    · rintro (hk | ⟨t, ht, hk⟩)
      · exact .own e hk
      · obtain ⟨i, hi⟩ := List.mem_iff_getElem?.mp ht
        obtain ⟨hi1, rfl⟩ := List.getElem?_eq_some_iff.mp hi
        have hi2 : i < cs.length := hl ▸ hi1
        exact .down e (List.getElem_mem hi2)
          ((ih i _ _ (List.getElem?_eq_getElem hi2) hi).mpr hk)

/-- A page with a rank on a well-formed disk shows a tree. -/
theorem shows_of_ranking {d : Disk T} (hw : d.WF) {r : PMap Address Nat} (hr : d.ValidRanking r) :
    ∀ (m : Nat) {a}, r a = some m → (∃ n, d a = some n ∧ ¬ n.IsAux) → ∃ t, Shows d a t := by
  intro m
  induction m using Nat.strongRecOn with
  | ind m ih =>
    intro a ha ⟨n, hn, hx⟩
    cases n with
    | auxiliary x => exact absurd trivial hx
    | leaf ks ms => exact ⟨_, .leaf hn⟩
    | index ps cs x =>
      have hch : ∀ c ∈ cs, ∃ t, Shows d c t := by
        intro c hc
        obtain ⟨m', h1, h2⟩ := hr a m _ ha hn c hc
        exact ih m' h2 h1 (hw.2 a _ hn c hc)
      have key : ∀ cs : List Address, (∀ c ∈ cs, ∃ t, Shows d c t) →
          ∃ ts : List BNode, cs.length = ts.length ∧
          ∀ (i : Nat) c t, cs[i]? = some c → ts[i]? = some t → Shows d c t := by
        intro cs
        induction cs with
        | nil => intro _; exact ⟨[], rfl, fun i c t h => by simp at h⟩
        | cons c cs ih2 =>
          intro h
          obtain ⟨t, ht⟩ := h c (by simp)
          obtain ⟨ts, h1, h2⟩ := ih2 fun c hc => h c (List.mem_cons_of_mem _ hc)
          refine ⟨t :: ts, by simp [h1], fun i c' t' e1 e2 => ?_⟩
          cases i with
          | zero => simp at e1 e2; subst e1; subst e2; exact ht
          | succ i => simp at e1 e2; exact h2 i c' t' e1 e2
      obtain ⟨ts, h1, h2⟩ := key cs hch
      exact ⟨_, .index hn h1 h2⟩

/-- What the invariant says page by page is well-formedness of the shown tree. -/
theorem Shows.wf_iff {d : Disk T} (hw : d.WF) {a t} (h : Shows d a t) :
    t.WF ↔ (⟨a, d⟩ : Branch T).KeysSorted ∧ (⟨a, d⟩ : Branch T).KeysInRange := by
  induction h with
  | @leaf a ks ms e =>
    rw [BNode.wf_leaf]
    have h1 := hw.1 a _ e
    have hl : ∀ b, Reach d a b → b = a := by
      intro b hb
      cases hb with
      | here => rfl
      | down e' hc => rw [e] at e'; cases e'; cases hc
    constructor
    · intro h
      refine ⟨fun b n hb hn => ?_, fun b ps cs x hb hn => ?_⟩
      · rw [hl b hb] at hn
        have hn : d a = some n := hn
        rw [e] at hn; cases hn; exact h.2.2
      · rw [hl b hb] at hn
        have hn : d a = some _ := hn
        rw [e] at hn; cases hn
    · intro h
      exact ⟨h1.1, h1.2, h.1 a _ .here e⟩
  | @index a ps cs x ts e hl hc ih =>
    rw [BNode.WF]
    have h1 := hw.1 a _ e
    have hup : ∀ b, Reach d a b → b = a ∨ ∃ (i : Nat) (c : Address) (t : BNode),
        cs[i]? = some c ∧ ts[i]? = some t ∧ Reach d c b := by
      intro b hb
      cases hb with
      | here => exact .inl rfl
      | down e' hm hb =>
        rw [e] at e'; cases e'
        obtain ⟨i, hi⟩ := List.mem_iff_getElem?.mp (show _ ∈ cs from hm)
        obtain ⟨hi1, rfl⟩ := List.getElem?_eq_some_iff.mp hi
        have hi2 : i < ts.length := hl ▸ hi1
        exact .inr ⟨i, _, _, hi, List.getElem?_eq_getElem hi2, hb⟩
    have hmem : ∀ c ∈ cs, Reach d a c := fun c hc => .single e hc
    have hpair : ∀ {i : Nat} {t : BNode}, ts[i]? = some t → ∃ c, cs[i]? = some c := by
      intro i t ht
      obtain ⟨hi1, rfl⟩ := List.getElem?_eq_some_iff.mp ht
      exact ⟨_, List.getElem?_eq_getElem (hl ▸ hi1)⟩
    have hpair' : ∀ {i : Nat} {c}, cs[i]? = some c → ∃ t, ts[i]? = some t := by
      intro i t ht
      obtain ⟨hi1, rfl⟩ := List.getElem?_eq_some_iff.mp ht
      exact ⟨_, List.getElem?_eq_getElem (hl ▸ hi1)⟩
    constructor
    · rintro ⟨a1, a2, a3, a4, a5⟩
      refine ⟨fun b n hb hn => ?_, fun b ps' cs' x' hb hn => ?_⟩
      · rcases hup b hb with rfl | ⟨i, c, t, e1, e2, hb⟩
        · have hn : d b = some n := hn
          rw [e] at hn; cases hn; exact a2
        · exact ((ih i c t e1 e2).mp (a3 t (List.mem_of_getElem? e2))).1 b n hb hn
      · rcases hup b hb with rfl | ⟨i, c, t, e1, e2, hb⟩
        · have hn : d b = some _ := hn
          rw [e] at hn; cases hn
          refine ⟨fun i c p e1 e2 k hk => ?_, fun i c p e1 e2 k hk => ?_⟩
          · obtain ⟨t, ht⟩ := hpair' e1
            exact a4 i t p ht e2 k (((hc i c t e1 ht).allKeys k).mp hk)
          · obtain ⟨t, ht⟩ := hpair' e1
            exact a5 i t p ht e2 k (((hc _ c t e1 ht).allKeys k).mp hk)
        · exact ((ih i c t e1 e2).mp (a3 t (List.mem_of_getElem? e2))).2 b _ _ _ hb hn
    · rintro ⟨b1, b2⟩
      obtain ⟨c1, c2⟩ := b2 a ps cs x .here e
      refine ⟨by have h1 : ps.length + 1 = cs.length := h1; omega, b1 a _ .here e,
        fun t ht => ?_, fun i t p e1 e2 k hk => ?_,
        fun i t p e1 e2 k hk => ?_⟩
      · obtain ⟨i, e2⟩ := List.mem_iff_getElem?.mp ht
        obtain ⟨c, e1⟩ := hpair e2
        have hr := hmem c (List.mem_of_getElem? e1)
        exact (ih i c t e1 e2).mpr ⟨fun b n hb hn => b1 b n (hr.trans hb) hn,
          fun b ps' cs' x' hb hn => b2 b ps' cs' x' (hr.trans hb) hn⟩
      · obtain ⟨c, hc'⟩ := hpair e1
        exact c1 i c p hc' e2 k (((hc i c t hc' e1).allKeys k).mpr hk)
      · obtain ⟨c, hc'⟩ := hpair e1
        exact c2 i c p hc' e2 k (((hc _ c t hc' e1).allKeys k).mpr hk)

open Classical in
/-- A shown tree gives a ranking: the size of the tree each page shows. -/
noncomputable def sizeRanking (d : Disk T) : PMap Address Nat :=
  fun a => if h : ∃ t, Shows d a t then some (sizeOf (choose h)) else none

theorem sizeRanking_eq {d : Disk T} {a t} (h : Shows d a t) : sizeRanking d a = some (sizeOf t) := by
  unfold sizeRanking
  have hx : ∃ t, Shows d a t := ⟨t, h⟩
  rw [dif_pos hx, (Classical.choose_spec hx).unique h]

theorem sizeRanking_valid (d : Disk T) : d.ValidRanking (sizeRanking d) := by
  intro a m n ha hn c hc
  have hx : ∃ t, Shows d a t := by
    by_cases h : ∃ t, Shows d a t
    · exact h
    · unfold sizeRanking at ha; rw [dif_neg h] at ha; cases ha
  obtain ⟨t, ht⟩ := hx
  rw [sizeRanking_eq ht] at ha; cases ha
  obtain ⟨t', h1, h2⟩ := Shows.reach (.single hn hc) ht
  refine ⟨_, sizeRanking_eq h1, ?_⟩
  rcases h2 with ⟨rfl, _⟩ | h2
  · exact absurd .here (ht.no_cycle hn hc)
  · exact h2

/-- The invariant of a branch: its disk is well formed and its pages show a well-formed tree. -/
theorem inv_iff (b : Branch T) : b.Inv ↔ b.disk.WF ∧ ∃ t, Shows b.disk b.root t ∧ t.WF := by
  constructor
  · rintro ⟨⟨⟨hw, hroot⟩, r, hr, hm⟩, hs, hk⟩
    obtain ⟨m, hm⟩ := (PMap.has_iff _ _).mp hm
    obtain ⟨t, ht⟩ := shows_of_ranking hw hr m hm hroot
    exact ⟨hw, t, ht, (ht.wf_iff hw).mpr ⟨hs, hk⟩⟩
  · rintro ⟨hw, t, ht, htw⟩
    exact ⟨⟨⟨hw, ht.page⟩, sizeRanking b.disk, sizeRanking_valid _,
      (PMap.has_iff _ _).mpr ⟨_, sizeRanking_eq ht⟩⟩,
      (ht.wf_iff hw).mp htw⟩

/-! ### Routing and queries -/

theorem Shows.node_leaf {d : Disk T} {a ks ms} (h : Shows d a (.leaf ks ms)) :
    (⟨a, d⟩ : Branch T).node = .leaf ks ms := by
  unfold Branch.node; simp only [shows_leaf h, Option.getD_some]

theorem Shows.isLeaf {d : Disk T} {a t} (h : Shows d a t) :
    (⟨a, d⟩ : Branch T).node.IsLeaf ↔ t.IsLeaf := by
  cases t with
  | leaf ks ms => rw [h.node_leaf]; exact Iff.rfl
  | index ps ts =>
    obtain ⟨cs, x, e, _⟩ := shows_index h
    unfold Branch.node; simp only [e, Option.getD_some]; exact Iff.rfl

theorem Shows.isIndex {d : Disk T} {a t} (h : Shows d a t) :
    (⟨a, d⟩ : Branch T).node.IsIndex ↔ t.IsIndex := by
  cases t with
  | leaf ks ms => rw [h.node_leaf]; exact Iff.rfl
  | index ps ts =>
    obtain ⟨cs, x, e, _⟩ := shows_index h
    unfold Branch.node; simp only [e, Option.getD_some]; exact Iff.rfl

theorem Shows.route {d : Disk T} {a t} (h : Shows d a t) (k : Key) :
    (⟨a, d⟩ : Branch T).node.route k = t.route k := by
  cases t with
  | leaf ks ms => rw [h.node_leaf]; rfl
  | index ps ts =>
    obtain ⟨cs, x, e, _⟩ := shows_index h
    unfold Branch.node; simp only [e, Option.getD_some]; rfl

/-- The child a key is routed to, on pages and in the tree. -/
theorem Shows.child {d : Disk T} {a ps ts} (h : Shows d a (.index ps ts))
    (hw : (BNode.index ps ts).WF) (k : Key) : ∃ cs x c, d a = some (.index ps cs x) ∧
      cs[BNode.slot ps k]? = some c ∧ (⟨a, d⟩ : Branch T).child k = ⟨c, d⟩ ∧
      Shows d c ((BNode.index ps ts).child k) := by
  obtain ⟨cs, x, e, hl, hc⟩ := shows_index h
  have h1 := BNode.child_some hw k
  obtain ⟨h2, h3⟩ := List.getElem?_eq_some_iff.mp h1
  have h4 : BNode.slot ps k < cs.length := hl ▸ h2
  have h5 := List.getElem?_eq_getElem h4
  refine ⟨cs, x, _, e, h5, ?_, hc _ _ _ h5 h1⟩
  unfold Branch.child Branch.childAt
  rw [h.route]
  have : ((BNode.index ps ts).route k + 1).toNat = BNode.slot ps k := rfl
  rw [this]
  unfold Branch.node
  simp only [e, Option.getD_some, Node.children]
  rw [List.getD_eq_getElem?_getD, h5]; rfl

theorem query_index {ps ts} (hw : (BNode.index ps ts).WF) (k : Key) :
    (BNode.index ps ts).query k = ((BNode.index ps ts).child k).query k := by
  rw [BNode.query]
  have h1 := BNode.child_some hw k
  unfold BNode.slot at h1
  obtain ⟨h2, h3⟩ := List.getElem?_eq_some_iff.mp h1
  rw [List.getElem?_eq_getElem (by simpa using h2)]
  simp only [Option.elim, List.getElem_attach, h3]

/-- With enough steps the walk over pages answers as the tree. -/
theorem queryFrom_shows {d : Disk T} (k : Key) {r : PMap Address Nat} (hr : d.ValidRanking r) :
    ∀ {t a} (_ : Shows d a t) (_ : t.WF) {m} (_ : r a = some m) {f} (_ : m < f),
      queryFrom d k f a = t.query k := by
  intro t
  refine BNode.ind (motive := fun t => ∀ {a} (_ : Shows d a t) (_ : t.WF) {m} (_ : r a = some m)
    {f} (_ : m < f), queryFrom d k f a = t.query k) ?_ ?_ t
  · intro ks ms a h hw m hm f hf
    obtain ⟨f, rfl⟩ : ∃ g, f = g + 1 := ⟨f - 1, by omega⟩
    unfold queryFrom
    simp only [h.node_leaf]
    rw [BNode.query]
  · intro ps ts ih a h hw m hm f hf
    obtain ⟨f, rfl⟩ : ∃ g, f = g + 1 := ⟨f - 1, by omega⟩
    obtain ⟨cs, x, c, e, hc, hch, hsh⟩ := h.child hw k
    rw [queryFrom]
    have hn : (⟨a, d⟩ : Branch T).node = .index ps cs x := by
      unfold Branch.node; simp only [e, Option.getD_some]
    simp only [hn, hch]
    rw [query_index hw]
    obtain ⟨m', h1, h2⟩ := hr a m _ hm e c (List.mem_of_getElem? hc)
    exact ih _ (BNode.child_mem hw k) hsh (BNode.child_wf hw k) h1 (by omega)

theorem query_shows {b : Branch T} (hw : b.disk.WF) {t} (h : Shows b.disk b.root t) (ht : t.WF)
    (k : Key) : b.query k = t.query k := by
  have hi := ((inv_iff b).mpr ⟨hw, t, h, ht⟩).1
  unfold Branch.query
  rw [dif_pos hi]
  obtain ⟨h1, h2⟩ := Classical.choose_spec hi.2
  obtain ⟨m, h2⟩ := (PMap.has_iff _ _).mp h2
  refine queryFrom_shows k h1 h ht h2 ?_
  unfold getRank; rw [h2]; exact Nat.lt_succ_self m

/-! ### Paths -/

/-- A valid path on pages is a valid path in the tree. -/
theorem path_to_tree {d : Disk T} {key : Key} : ∀ (n : Nat) {a t}, Shows d a t → t.WF →
    Path.ValidFrom (⟨a, d⟩ : Branch T) key n → BPath.ValidFrom t key n
  | 0, a, t, h, hw, _ => hw
  | n + 1, a, .leaf ks ms, h, hw, hv => by
    obtain ⟨_, hi, _⟩ := hv
    exact absurd (h.isIndex.mp hi) fun h => h
  | n + 1, a, .index ps ts, h, hw, hv => by
    obtain ⟨_, hi, hv⟩ := hv
    obtain ⟨cs, x, c, e, hc, hch, hsh⟩ := h.child hw key
    rw [hch] at hv
    exact ⟨hw, trivial, path_to_tree n hsh (BNode.child_wf hw key) hv⟩

/-- The target of a path shows the tree's target. -/
theorem path_shows {d : Disk T} {key : Key} : ∀ (n : Nat) {a t}, Shows d a t →
    BPath.ValidFrom t key n →
    ∃ c, Path.targetFrom (⟨a, d⟩ : Branch T) key n = ⟨c, d⟩ ∧
    Shows d c (BPath.targetFrom t key n) ∧ Reach d a c
  | 0, a, t, h, _ => ⟨a, rfl, h, .here⟩
  | n + 1, a, .leaf ks ms, h, hv => absurd hv.2.1 fun h => h
  | n + 1, a, .index ps ts, h, hv => by
    obtain ⟨hw, hi, hv⟩ := hv
    obtain ⟨cs, x, c, e, hc, hch, hsh⟩ := h.child hw key
    obtain ⟨c', i1, i2, i3⟩ := path_shows n hsh hv
    exact ⟨c', by rw [Path.targetFrom, hch]; exact i1, i2, .down e (List.mem_of_getElem? hc) i3⟩

/-- Every path of the tree is a path on the pages. -/
theorem path_of_tree {d : Disk T} (hd : d.WF) {key : Key} : ∀ (n : Nat) {a t}, Shows d a t →
    BPath.ValidFrom t key n → Path.ValidFrom (⟨a, d⟩ : Branch T) key n
  | 0, a, t, h, _ => ⟨hd, h.page⟩
  | n + 1, a, .leaf ks ms, h, hv => absurd hv.2.1 fun h => h
  | n + 1, a, .index ps ts, h, hv => by
    obtain ⟨hw, _, hv⟩ := hv
    obtain ⟨cs, x, c, e, hc, hch, hsh⟩ := h.child hw key
    refine ⟨⟨hd, h.page⟩, h.isIndex.mpr trivial, ?_⟩
    rw [hch]
    exact path_of_tree hd n hsh hv

theorem equiv_shows {d : Disk T} {key other : Key} : ∀ (n : Nat) {a t}, Shows d a t →
    BPath.ValidFrom t key n →
    (Path.EquivFrom (⟨a, d⟩ : Branch T) key other n ↔ BPath.EquivFrom t key other n)
  | 0, a, t, h, hw => by
    unfold Path.EquivFrom BPath.EquivFrom
    rw [h.route, h.route]
  | n + 1, a, .leaf ks ms, h, hv => absurd hv.2.1 fun h => h
  | n + 1, a, .index ps ts, h, hv => by
    obtain ⟨hw, _, hv⟩ := hv
    obtain ⟨cs, x, c, e, hc, hch, hsh⟩ := h.child hw key
    unfold Path.EquivFrom BPath.EquivFrom
    rw [h.route, h.route, hch, equiv_shows n hsh hv]

/-! ### No page is shared -/

/-- Subtrees shown by pages of a well-formed tree are well formed. -/
theorem Shows.sub_wf {d : Disk T} {a b} (hr : Reach d a b) : ∀ {t t'}, Shows d a t → t.WF →
    Shows d b t' → t'.WF := by
  induction hr with
  | here => intro t t' h hw h'; rw [← h.unique h']; exact hw
  | @down a n c b e hc _ ih =>
    intro t t' h hw h'
    cases h with
    | leaf e' => rw [e] at e'; cases e'; cases hc
    | @index _ ps cs x ts e' hl hs =>
      rw [e] at e'; cases e'
      obtain ⟨i, hi⟩ := List.mem_iff_getElem?.mp (show c ∈ cs from hc)
      obtain ⟨hi1, rfl⟩ := List.getElem?_eq_some_iff.mp hi
      have hg := List.getElem?_eq_getElem (show i < ts.length from hl ▸ hi1)
      exact ih (hs i _ _ hi hg) ((BNode.wf_index.mp hw).2.2.1 _ (List.mem_of_getElem? hg)) h'

/-- Two children of a well-formed tree have no page in common. -/
theorem Shows.disjoint {d : Disk T} {a ps ts} (h : Shows d a (.index ps ts))
    (hw : (BNode.index ps ts).WF) {cs x} (e : d a = some (.index ps cs x)) {i j : Nat} {c c' b}
    (hi : cs[i]? = some c) (hj : cs[j]? = some c') (h1 : Reach d c b) (h2 : Reach d c' b) :
    i = j := by
  obtain ⟨cs', x', e', hl, hc⟩ := shows_index h
  rw [e] at e'; cases e'
  obtain ⟨hi1, rfl⟩ := List.getElem?_eq_some_iff.mp hi
  obtain ⟨hj1, rfl⟩ := List.getElem?_eq_some_iff.mp hj
  have gi := List.getElem?_eq_getElem (show i < ts.length from hl ▸ hi1)
  have gj := List.getElem?_eq_getElem (show j < ts.length from hl ▸ hj1)
  have si := hc i _ _ hi gi
  have sj := hc j _ _ hj gj
  have key : ∀ {a t}, Shows d a t → Reach d a b → ∀ k, AllKeys d b k → t.AllKeys k := by
    intro a t hs hr k hk
    rw [← hs.allKeys]
    clear hs h1 h2
    induction hr with
    | here => exact hk
    | down e hc _ ih => exact .down e hc (ih hk)
  obtain ⟨w1, w2, w3, w4⟩ := BNode.wf_index.mp hw
  obtain ⟨t, ht, _⟩ := Shows.reach h1 si
  have hne : ∃ k, AllKeys d b k := by
    have htw : t.WF := Shows.sub_wf h1 si (w3 _ (List.mem_of_getElem? gi)) ht
    obtain ⟨k, m, hk⟩ := BNode.exists_entry htw
    exact ⟨k, (ht.allKeys k).mpr (BNode.entry_key hk)⟩
  obtain ⟨k, hk⟩ := hne
  rw [← w4 i _ k gi (key si h1 k hk), ← w4 j _ k gj (key sj h2 k hk)]

/-- A tree whose pages were not touched is still shown. -/
theorem Shows.frame {d d' : Disk T} {a t} (h : Shows d a t)
    (hf : ∀ b, Reach d a b → d' b = d b) : Shows d' a t := by
  induction h with
  | leaf e => exact .leaf (by rw [hf _ .here]; exact e)
  | @index a ps cs x ts e hl hc ih =>
    refine .index (by rw [hf _ .here]; exact e) hl fun i c t e1 e2 => ih i c t e1 e2 fun b hb => ?_
    exact hf b (.down e (List.mem_of_getElem? e1) hb)

/-- Replacing what the target of a path shows, without touching other pages of the tree, replaces
the subtree at that path. -/
theorem substitute_shows {d d' : Disk T} {key : Key} {t' : BNode} : ∀ (n : Nat) {a t}, Shows d a t →
    BPath.ValidFrom t key n →
    (∀ b, Reach d a b → ¬ Reach d (Path.targetFrom (⟨a, d⟩ : Branch T) key n).root b → d' b = d b) →
    Shows d' (Path.targetFrom (⟨a, d⟩ : Branch T) key n).root t' →
    Shows d' a (BPath.substituteFrom t key t' n) ∧
    Reach d' a (Path.targetFrom (⟨a, d⟩ : Branch T) key n).root
  | 0, a, t, h, hv, hf, hs => ⟨hs, .here⟩
  | n + 1, a, .leaf ks ms, h, hv, hf, hs => absurd hv.2.1 fun h => h
  | n + 1, a, .index ps ts, h, hv, hf, hs => by
    obtain ⟨hw, _, hv⟩ := hv
    obtain ⟨cs, x, c, e, hc, hch, hsh⟩ := h.child hw key
    rw [Path.targetFrom, hch] at hf hs ⊢
    have hcm := List.mem_of_getElem? hc
    obtain ⟨_, i1, _, i4⟩ := path_shows n hsh hv
    rw [i1] at hf hs ⊢
    obtain ⟨s1, s2⟩ := substitute_shows (d := d) (d' := d') (key := key) (t' := t') n hsh hv
      (by rw [i1]; exact fun b hb hnb => hf b (.down e hcm hb) hnb) (by rw [i1]; exact hs)
    rw [i1] at s2
    have ea : d' a = some (.index ps cs x) := by
      rw [hf a .here fun hr => h.no_cycle e hcm (i4.trans hr)]; exact e
    obtain ⟨cs', x', e', hl, hcs⟩ := shows_index h
    rw [e] at e'; cases e'
    refine ⟨?_, .down ea hcm s2⟩
    rw [BPath.substituteFrom]
    have hsl : ((BNode.index ps ts).route key + 1).toNat = BNode.slot ps key := rfl
    rw [hsl]
    refine .index ea (by simpa [BNode.children] using hl) fun i c' t'' e1 e2 => ?_
    by_cases hi : i = BNode.slot ps key
    · subst hi
      rw [hc] at e1; cases e1
      have hlt := (List.getElem?_eq_some_iff.mp hc).1
      rw [BNode.children, List.getElem?_set_self (hl ▸ hlt)] at e2
      cases e2; exact s1
    · rw [BNode.children, List.getElem?_set_ne (by omega)] at e2
      refine (hcs i c' t'' e1 e2).frame fun b hb => hf b (.down e (List.mem_of_getElem? e1) hb) ?_
      intro hr
      exact hi (h.disjoint hw e e1 hc hb (i4.trans hr))

/-! ### Insert and append: one leaf page is rewritten -/

theorem modify_same (d : Disk T) (a : Address) (n : Node T) : d.modify a n a = some n :=
  PMap.insert_same _ _ _

theorem modify_other (d : Disk T) {a b : Address} (n : Node T) (h : b ≠ a) :
    d.modify a n b = d b := PMap.insert_other _ _ h

theorem leaf_modify_wf {d : Disk T} (hd : d.WF) {c ks ms} (hl : 0 < ks.length)
    (hm : ks.length = ms.length) : (d.modify c (.leaf ks ms)).WF := by
  constructor
  · intro a n hn
    by_cases h : a = c
    · subst h; rw [modify_same] at hn; cases hn; exact ⟨hl, hm⟩
    · rw [modify_other _ _ h] at hn; exact hd.1 a n hn
  · intro a n hn x hx
    by_cases h : a = c
    · subst h; rw [modify_same] at hn; cases hn; cases hx
    · rw [modify_other _ _ h] at hn
      obtain ⟨n', h1, h2⟩ := hd.2 a n hn x hx
      by_cases hxc : x = c
      · subst hxc; exact ⟨_, modify_same _ _ _, fun h => h⟩
      · exact ⟨n', by rw [modify_other _ _ hxc]; exact h1, h2⟩

theorem leaf_modify_reach {d : Disk T} {c ks ms ks' ms'} (e : d c = some (.leaf ks ms)) (a b : Address) :
    Reach (d.modify c (.leaf ks' ms')) a b ↔ Reach d a b := by
  constructor
  · intro h
    induction h with
    | here => exact .here
    | @down a n x b hn hx _ ih =>
      by_cases h : a = c
      · subst h; rw [modify_same] at hn; cases hn; cases hx
      · rw [modify_other _ _ h] at hn; exact .down hn hx ih
  · intro h
    induction h with
    | here => exact .here
    | @down a n x b hn hx _ ih =>
      by_cases h : a = c
      · subst h; rw [e] at hn; cases hn; cases hx
      · exact .down (by rw [modify_other _ _ h]; exact hn) hx ih

/-- Rewriting the leaf page at the end of a path. -/
theorem leaf_update {d : Disk T} (hd : d.WF) {a t key n} (hs : Shows d a t)
    (hv : BPath.ValidFrom t key n) (hl : (BPath.targetFrom t key n).IsLeaf) {ks' ms'}
    (h1 : 0 < ks'.length) (h2 : ks'.length = ms'.length) :
    ∃ c, Path.targetFrom (⟨a, d⟩ : Branch T) key n = ⟨c, d⟩ ∧ Reach d a c ∧
      (d.modify c (.leaf ks' ms')).WF ∧
      Shows (d.modify c (.leaf ks' ms')) a (BPath.substituteFrom t key (.leaf ks' ms') n) ∧
      ∀ b, Reach (d.modify c (.leaf ks' ms')) a b ↔ Reach d a b := by
  obtain ⟨c, e1, e2, e3⟩ := path_shows n hs hv
  cases e : BPath.targetFrom t key n with
  | index ps ts => rw [e] at hl; exact absurd hl fun h => h
  | leaf ks ms =>
    rw [e] at e2
    have e4 := shows_leaf e2
    refine ⟨c, e1, e3, leaf_modify_wf hd h1 h2, ?_, leaf_modify_reach e4 a⟩
    refine (substitute_shows n hs hv ?_ ?_).1
    · rw [e1]
      intro b _ hb
      refine modify_other _ _ fun h => hb ?_
      subst h; exact .here
    · rw [e1]; exact .leaf (modify_same _ _ _)

theorem insertLeaf_leaf (t : BNode) (k : Key) (m : Message) :
    t.insertLeaf k m = .leaf (t.insertLeaf k m).keys (t.insertLeaf k m).msgs := by
  unfold BNode.insertLeaf; dsimp only; split <;> rfl

theorem insertLeaf_page {d : Disk T} {c ks ms} (h : Shows d c (.leaf ks ms)) (k : Key) (m : Message) :
    (⟨c, d⟩ : Branch T).insertLeaf k m = ⟨c, d.modify c (.leaf ((BNode.leaf ks ms).insertLeaf k m).keys
      ((BNode.leaf ks ms).insertLeaf k m).msgs)⟩ := by
  have ht : (BNode.leaf ks ms).insertLeaf k m =
      if 0 ≤ KeyT.largestLte ks k ∧ ks[(KeyT.largestLte ks k).toNat]? = some k then
        .leaf ks (ms.set (KeyT.largestLte ks k).toNat m)
      else .leaf (ks.insertIdx (KeyT.largestLte ks k + 1).toNat k)
        (ms.insertIdx (KeyT.largestLte ks k + 1).toNat m) := rfl
  rw [ht]
  unfold Branch.insertLeaf
  simp only [h.node_leaf, Node.keys, Node.msgs]
  by_cases hc : 0 ≤ KeyT.largestLte ks k ∧ ks[(KeyT.largestLte ks k).toNat]? = some k
  · rw [if_pos hc, if_pos hc]; rfl
  · rw [if_neg hc, if_neg hc]; rfl

theorem insert_shows {b : Branch T} {k m p t} (hd : b.disk.WF) (hs : Shows b.disk b.root t)
    (ht : t.WF) (hc : b.CanInsert k p) :
    t.CanInsert k ⟨t, k, p.depth⟩ ∧ (b.insert k m p).root = b.root ∧ (b.insert k m p).disk.WF ∧
    Shows (b.insert k m p).disk b.root (t.insert k m ⟨t, k, p.depth⟩) ∧
    Reach b.disk b.root p.target.root ∧
    (∀ a, a ≠ p.target.root → (b.insert k m p).disk a = b.disk a) ∧
    ∀ a, Reach (b.insert k m p).disk b.root a ↔ Reach b.disk b.root a := by
  obtain ⟨hv, rfl, rfl, hl⟩ := hc
  obtain ⟨⟨root, d⟩, key, n⟩ := p
  have hv' := path_to_tree n hs ht hv
  obtain ⟨c, e1, e2, e3⟩ := path_shows n hs hv'
  have hl : (Path.targetFrom (⟨root, d⟩ : Branch T) key n).node.IsLeaf := hl
  rw [e1, e2.isLeaf] at hl
  have hci : t.CanInsert key ⟨t, key, n⟩ := ⟨ht, hv', rfl, rfl, hl⟩
  refine ⟨hci, rfl, ?_⟩
  have htw := BPath.target_wf n hv'
  unfold Branch.insert Path.substitute Path.target BNode.insert BPath.substitute BPath.target
  dsimp only at hs e1 ⊢
  obtain ⟨ks, ms, e⟩ : ∃ ks ms, BPath.targetFrom t key n = .leaf ks ms := by
    cases e : BPath.targetFrom t key n with
    | leaf ks ms => exact ⟨ks, ms, rfl⟩
    | index ps ts => rw [e] at hl; exact absurd hl fun h => h
  rw [e] at e2 htw hl
  have hw' := (BNode.insertLeaf_spec htw key m).1
  rw [insertLeaf_leaf, BNode.wf_leaf] at hw'
  obtain ⟨c', f1, f2, f3, f4, f5⟩ := leaf_update hd hs hv' (by rw [e]; trivial) hw'.1 hw'.2.1
  rw [e1] at f1; cases f1
  rw [e1, e, insertLeaf_page e2]
  dsimp only
  rw [insertLeaf_leaf]
  exact ⟨f3, f4, f2, fun a ha => modify_other _ _ ha, f5⟩

theorem append_shows {b : Branch T} {ks ms p t} (hd : b.disk.WF) (hs : Shows b.disk b.root t)
    (ht : t.WF) (hc : b.CanAppend ks ms p) :
    t.CanAppend ks ms ⟨t, p.key, p.depth⟩ ∧ (b.append ks ms p).root = b.root ∧
    (b.append ks ms p).disk.WF ∧
    Shows (b.append ks ms p).disk b.root (t.append ks ms ⟨t, p.key, p.depth⟩) ∧
    Reach b.disk b.root p.target.root ∧
    (∀ a, a ≠ p.target.root → (b.append ks ms p).disk a = b.disk a) ∧
    ∀ a, Reach (b.append ks ms p).disk b.root a ↔ Reach b.disk b.root a := by
  obtain ⟨hv, rfl, c1, c2, c3, hl, c5, c6, c7⟩ := hc
  obtain ⟨⟨root, d⟩, key, n⟩ := p
  have hv' := path_to_tree n hs ht hv
  obtain ⟨c, e1, e2, e3⟩ := path_shows n hs hv'
  unfold Path.target at hl c5
  dsimp only at hl c5 c6 hs
  rw [e1] at hl c5
  rw [e2.isLeaf] at hl
  unfold Branch.append Path.substitute Path.target BNode.append BPath.substitute BPath.target
    BNode.CanAppend
  dsimp only
  obtain ⟨lk, lm, e⟩ : ∃ ks ms, BPath.targetFrom t key n = .leaf ks ms := by
    cases e : BPath.targetFrom t key n with
    | leaf ks ms => exact ⟨ks, ms, rfl⟩
    | index ps ts => rw [e] at hl; exact absurd hl fun h => h
  have htw := BPath.target_wf n hv'
  rw [e] at e2 htw hl
  obtain ⟨w1, w2, _⟩ := BNode.wf_leaf.mp htw
  obtain ⟨c', f1, f2, f3, f4, f5⟩ := leaf_update hd hs hv' (by rw [e]; trivial) (ks' := lk ++ ks)
    (ms' := lm ++ ms) (by simp; omega) (by simp; omega)
  rw [e1] at f1; cases f1
  rw [e2.node_leaf] at c5
  unfold Branch.appendLeaf
  rw [e1, e2.node_leaf]
  refine ⟨⟨hv', rfl, c1, c2, c3, ?_, ?_, c6, ?_⟩, rfl, f3, ?_, f2, ?_, f5⟩
  · unfold BPath.target; dsimp only; rw [e]; trivial
  · unfold BPath.target; dsimp only; rw [e]; exact c5
  · intro last h; exact (equiv_shows n hs hv').mp (c7 last h)
  · rw [e]; exact f4
  · intro a ha; exact modify_other _ _ ha

/-! ### Grow: one fresh page becomes the root -/

theorem grow_shows {b : Branch T} {r : Address} {t} (hs : Shows b.disk b.root t)
    (hc : b.CanGrow r) :
    (b.grow r).root = r ∧ (b.grow r).disk.WF ∧ Shows (b.grow r).disk r t.grow ∧
    (∀ a, a ≠ r → (b.grow r).disk a = b.disk a) ∧
    ∀ a, Reach (b.grow r).disk r a ↔ a = r ∨ Reach b.disk b.root a := by
  obtain ⟨⟨hd, hroot⟩, hf⟩ := hc
  have hf : b.disk r = none := hf
  have hother : ∀ a, a ≠ r → (b.grow r).disk a = b.disk a := fun a ha => modify_other _ _ ha
  have hr : (b.grow r).disk r = some (.index [] [b.root] none) := modify_same _ _ _
  have hne : ∀ {a n}, b.disk a = some n → a ≠ r := by
    intro a n h e; subst e; rw [hf] at h; cases h
  have hkeep : ∀ {a n}, b.disk a = some n → (b.grow r).disk a = some n := fun h => by
    rw [hother _ (hne h)]; exact h
  have hsub : ∀ {t a}, Shows b.disk a t → ∀ c, Reach b.disk a c → c ≠ r := by
    intro t a h c hc
    obtain ⟨t', h1, _⟩ := Shows.reach hc h
    obtain ⟨n, h2, _⟩ := h1.page
    exact hne h2
  refine ⟨rfl, ⟨fun a n hn => ?_, fun a n hn c hc => ?_⟩, ?_, hother, fun a => ?_⟩
  · by_cases h : a = r
    · subst h; rw [hr] at hn; cases hn; rfl
    · rw [hother a h] at hn; exact hd.1 a n hn
  · by_cases h : a = r
    · subst h; rw [hr] at hn; cases hn
      simp only [Node.children, List.mem_singleton] at hc
      subst hc
      obtain ⟨n, h1, h2⟩ := hroot
      exact ⟨n, hkeep h1, h2⟩
    · rw [hother a h] at hn
      obtain ⟨n', h1, h2⟩ := hd.2 a n hn c hc
      exact ⟨n', hkeep h1, h2⟩
  · refine .index hr rfl fun i c t' e1 e2 => ?_
    match i, e1, e2 with
    | 0, e1, e2 =>
      cases e1; cases e2
      exact hs.frame fun b' hb => hother _ (hsub hs b' hb)
    | i + 1, e1, e2 => cases e1
  · constructor
    · intro h
      have back : ∀ {x y}, Reach (b.grow r).disk x y → (∃ t, Shows b.disk x t) →
          Reach b.disk x y := by
        intro x y h
        induction h with
        | here => intro _; exact .here
        | @down x n c y hn hc _ ih =>
          rintro ⟨t, ht⟩
          obtain ⟨n', hn', _⟩ := ht.page
          rw [hkeep hn'] at hn; cases hn
          obtain ⟨t', h1, _⟩ := Shows.reach (.single hn' hc) ht
          exact .down hn' hc (ih ⟨t', h1⟩)
      cases h with
      | here => exact .inl rfl
      | down hn hc h =>
        rw [hr] at hn; cases hn
        simp only [Node.children, List.mem_singleton] at hc
        subst hc
        exact .inr (back h ⟨t, hs⟩)
    · rintro (rfl | h)
      · exact .here
      · refine .down hr (List.mem_singleton.mpr rfl : b.root ∈ [b.root]) ?_
        have fwd : ∀ {x y}, Reach b.disk x y → Reach (b.grow r).disk x y := by
          intro x y h
          induction h with
          | here => exact .here
          | down hn hc _ ih => exact .down (hkeep hn) hc ih
        exact fwd h

/-! ### Split: the target and its child are rewritten, one fresh page is added -/

theorem splitOk_shows {d : Disk T} {a : SplitArg} {c t} (h : Shows d c t) (hw : t.WF) :
    SplitOk a (⟨c, d⟩ : Branch T).node ↔ a.WF t := by
  cases a with
  | leaf p =>
    unfold SplitOk SplitArg.WF
    dsimp only
    rw [h.isLeaf]
    cases t with
    | leaf ks ms => rw [h.node_leaf]; exact Iff.rfl
    | index ps ts => exact ⟨fun h => absurd h.1 fun h => h, fun h => absurd h.1 fun h => h⟩
  | index p i =>
    unfold SplitOk SplitArg.WF
    dsimp only
    rw [h.isIndex]
    cases t with
    | leaf ks ms => exact ⟨fun h => absurd h.1 fun h => h, fun h => absurd h.1 fun h => h⟩
    | index ps ts =>
      obtain ⟨cs, x, e, hl, _⟩ := shows_index h
      have hn : (⟨c, d⟩ : Branch T).node = .index ps cs x := by
        unfold Branch.node; simp only [e, Option.getD_some]
      rw [hn]
      have := (BNode.wf_index.mp hw).1
      constructor
      · rintro ⟨h1, _, h3⟩; exact ⟨h1, hw, h3⟩
      · rintro ⟨h1, _, h3⟩; exact ⟨h1, by simp only [Node.children, Node.pivots]; omega, h3⟩

/-- The two pages a page is split into. -/
theorem splitNode_pages {d : Disk T} {a : SplitArg} {c t} (h : Shows d c t) (hw : t.WF)
    (ha : a.WF t) (right : Address) : ∃ L R n : Node T, d c = some n ∧
      (⟨c, d⟩ : Branch T).splitNode a right = (d.modify c L).modify right R ∧
      L.WF ∧ R.WF ∧ ¬ L.IsAux ∧ ¬ R.IsAux ∧
      (∀ x, x ∈ n.children ↔ x ∈ L.children ∨ x ∈ R.children) ∧
      ∀ d' : Disk T, d' c = some L → d' right = some R →
        (∀ x ∈ n.children, ∀ y, Reach d x y → d' y = d y) →
        Shows d' c (t.splitNode a).1 ∧ Shows d' right (t.splitNode a).2 := by
  cases t with
  | leaf ks ms =>
    have hn := h.node_leaf
    cases a with
    | index p i => exact absurd ha.1 fun h => h
    | leaf p =>
      obtain ⟨_, a2, a3, a4⟩ := ha
      simp only [BNode.keys, BNode.msgs] at a2 a3 a4
      refine ⟨.leaf (ks.take (KeyT.largestLt ks p + 1).toNat) (ms.take (KeyT.largestLt ks p + 1).toNat),
        .leaf (ks.drop (KeyT.largestLt ks p + 1).toNat) (ms.drop (KeyT.largestLt ks p + 1).toNat),
        _, shows_leaf h, ?_, ?_, ?_, fun h => h, fun h => h, ?_, ?_⟩
      · unfold Branch.splitNode; rw [hn]
        unfold Branch.splitLeaf; rw [hn]; rfl
      · constructor <;> simp only [List.length_take] <;> omega
      · constructor <;> simp only [List.length_drop] <;> omega
      · intro x; simp [Node.children]
      · intro d' h1 h2 _
        exact ⟨.leaf h1, .leaf h2⟩
  | index ps ts =>
    obtain ⟨cs, x, e, hl, hc⟩ := shows_index h
    have hn : (⟨c, d⟩ : Branch T).node = .index ps cs x := by
      unfold Branch.node; simp only [e, Option.getD_some]
    cases a with
    | leaf p => exact absurd ha.1 fun h => h
    | index p i =>
      obtain ⟨_, _, a3⟩ := ha
      have a3 : ps[i]? = some p := a3
      obtain ⟨hi, _⟩ := List.getElem?_eq_some_iff.mp a3
      have hlen := (BNode.wf_index.mp hw).1
      refine ⟨.index (ps.take i) (cs.take (i + 1)) none,
        .index ((ps.take (cs.length - 1)).drop (i + 1)) ((cs.take cs.length).drop (i + 1)) none,
        _, e, ?_, ?_, ?_, fun h => h, fun h => h, ?_, ?_⟩
      · unfold Branch.splitNode; rw [hn]
        unfold Branch.splitIndex Branch.subIndex; rw [hn]; rfl
      · simp only [Node.WF, List.length_take]; omega
      · simp only [Node.WF, List.length_take, List.length_drop]; omega
      · intro y
        simp only [Node.children, List.take_length]
        rw [← List.mem_append, List.take_append_drop]
      · intro d' h1 h2 hf
        have hfr : ∀ (j : Nat) y t, cs[j]? = some y → ts[j]? = some t → Shows d' y t := by
          intro j y t e1 e2
          exact (hc j y t e1 e2).frame (hf y (List.mem_of_getElem? e1))
        constructor
        · have : ((BNode.index ps ts).splitNode (.index p i)).1 =
              .index (ps.take i) (ts.take (i + 1)) := by
            simp [BNode.splitNode, BNode.splitIndex, BNode.subIndex, BNode.pivots, BNode.children]
          rw [this]
          refine .index h1 (by simp only [List.length_take]; omega) fun j y t e1 e2 => ?_
          rw [List.getElem?_take] at e1 e2
          by_cases hj : j < i + 1
          · rw [if_pos hj] at e1 e2; exact hfr j y t e1 e2
          · rw [if_neg hj] at e1; cases e1
        · have : ((BNode.index ps ts).splitNode (.index p i)).2 =
              .index ((ps.take (cs.length - 1)).drop (i + 1)) ((ts.take ts.length).drop (i + 1)) := by
            simp [BNode.splitNode, BNode.splitIndex, BNode.subIndex, BNode.pivots, BNode.children, hl]
          rw [this]
          refine .index h2 (by simp only [List.length_take, List.length_drop]; omega)
            fun j y t e1 e2 => ?_
          rw [List.take_length, List.getElem?_drop] at e1 e2
          exact hfr _ y t e1 e2

/-- Splitting a child of a page, on pages and in the tree. -/
theorem splitChild_shows {d : Disk T} (hd : d.WF) {a : SplitArg} {c t right} (h : Shows d c t)
    (hc : t.CanSplitChild a) (hf : d right = none) : ∃ cc d',
      (⟨c, d⟩ : Branch T).child a.pivot = ⟨cc, d⟩ ∧
      (⟨c, d⟩ : Branch T).splitChild a right = ⟨c, d'⟩ ∧ d'.WF ∧ Shows d' c (t.splitChild a) ∧
      Reach d c cc ∧ c ≠ cc ∧
      (∀ x, x ≠ c → x ≠ cc → x ≠ right → d' x = d x) ∧
      (∀ x, d'.Has x ↔ d.Has x ∨ x = right) ∧
      ∃ n0 n n0' L R, d c = some n0 ∧ d cc = some n ∧ d' c = some n0' ∧ d' cc = some L ∧
        d' right = some R ∧
        cc ∈ n0.children ∧ (∀ x, x ∈ n0'.children ↔ x = right ∨ x ∈ n0.children) ∧
        (∀ x, x ∈ n.children ↔ x ∈ L.children ∨ x ∈ R.children) := by
  obtain ⟨hw, hi, ha⟩ := hc
  cases t with
  | leaf ks ms => exact absurd hi fun h => h
  | index ps ts =>
    obtain ⟨cs, x, cc, e, hcc, hch, hsh⟩ := h.child hw a.pivot
    have hcm := List.mem_of_getElem? hcc
    have hcw := BNode.child_wf hw a.pivot
    obtain ⟨L, R, n, en, es, wL, wR, aL, aR, hLR, hshow⟩ := splitNode_pages hsh hcw ha right
    have hne : c ≠ cc := fun he => h.no_cycle e hcm (he ▸ .here)
    have hnr : c ≠ right := fun he => by rw [he, hf] at e; cases e
    have hnr' : cc ≠ right := fun he => by rw [he, hf] at en; cases en
    have hn : (⟨c, d⟩ : Branch T).node = .index ps cs x := by
      unfold Branch.node; simp only [e, Option.getD_some]
    obtain ⟨cs', x', e', hl, hcs⟩ := shows_index h
    rw [e] at e'; cases e'
    have hlen := (BNode.wf_index.mp hw).1
    have hsl := BNode.slot_le ps a.pivot
    have hsp : (⟨c, d⟩ : Branch T).splitChild a right = ⟨c, (d.merge ((d.modify cc L).modify right R)).modify c
        (.index (ps.insertIdx (BNode.slot ps a.pivot) a.pivot)
          (cs.insertIdx (BNode.slot ps a.pivot + 1) right) none)⟩ := by
      unfold Branch.splitChild
      rw [hch, es, hn]
      rfl
    generalize hd' : (d.merge ((d.modify cc L).modify right R)).modify c
        (.index (ps.insertIdx (BNode.slot ps a.pivot) a.pivot)
          (cs.insertIdx (BNode.slot ps a.pivot + 1) right) none) = d' at hsp
    have p1 : d' c = some (.index (ps.insertIdx (BNode.slot ps a.pivot) a.pivot)
          (cs.insertIdx (BNode.slot ps a.pivot + 1) right) none) := by
      rw [← hd']; exact modify_same _ _ _
    have pm : ∀ y, y ≠ c → d' y = (d.merge ((d.modify cc L).modify right R)) y := by
      intro y hy; rw [← hd']; exact modify_other _ _ hy
    have p2 : d' right = some R := by
      rw [pm _ (Ne.symm hnr)]; unfold Disk.merge
      exact PMap.unionRight_some.mpr (.inl <| modify_same _ _ _)
    have p3 : d' cc = some L := by
      rw [pm _ (Ne.symm hne)]; unfold Disk.merge
      exact PMap.unionRight_some.mpr (.inl <| by rw [modify_other _ _ hnr']; exact modify_same _ _ _)
    have p4 : ∀ y, y ≠ c → y ≠ cc → y ≠ right → d' y = d y := by
      intro y h1 h2 h3
      rw [pm _ h1]; unfold Disk.merge PMap.unionRight
      rw [modify_other _ _ h3, modify_other _ _ h2]
      cases d y <;> rfl
    have hmem : ∀ y, y ∈ cs.insertIdx (BNode.slot ps a.pivot + 1) right ↔ y = right ∨ y ∈ cs :=
      fun y => List.mem_insertIdx (by omega)
    have hreal : ∀ y m, d y = some m → ∃ m', d' y = some m' ∧ (¬ m.IsAux → ¬ m'.IsAux) := by
      intro y m hy
      by_cases h1 : y = c
      · subst h1; exact ⟨_, p1, fun _ h => h⟩
      · by_cases h2 : y = cc
        · subst h2; exact ⟨_, p3, fun _ => aL⟩
        · have h3 : y ≠ right := fun he => by rw [he, hf] at hy; cases hy
          exact ⟨m, by rw [p4 y h1 h2 h3]; exact hy, fun h => h⟩
    have hchild : ∀ y m, d y = some m → ∀ z ∈ m.children, ∃ m', d' z = some m' ∧ ¬ m'.IsAux := by
      intro y m hy z hz
      obtain ⟨m', h1, h2⟩ := hd.2 y m hy z hz
      obtain ⟨m'', h3, h4⟩ := hreal z m' h1
      exact ⟨m'', h3, h4 h2⟩
    refine ⟨cc, d', hch, hsp, ⟨fun y m hy => ?_, fun y m hy z hz => ?_⟩, ?_, .single e hcm, hne, p4, ?_,
      _, n, _, L, R, e, en, p1, p3, p2, hcm, hmem, hLR⟩
    · by_cases h1 : y = c
      · subst h1; rw [p1] at hy; cases hy
        simp only [Node.WF]
        rw [List.length_insertIdx_of_le_length (by omega), List.length_insertIdx_of_le_length (by omega)]
        omega
      · by_cases h2 : y = cc
        · subst h2; rw [p3] at hy; cases hy; exact wL
        · by_cases h3 : y = right
          · subst h3; rw [p2] at hy; cases hy; exact wR
          · rw [p4 y h1 h2 h3] at hy; exact hd.1 y m hy
    · by_cases h1 : y = c
      · subst h1; rw [p1] at hy; cases hy
        rcases (hmem z).mp hz with rfl | hz
        · exact ⟨R, p2, aR⟩
        · exact hchild _ _ e z hz
      · by_cases h2 : y = cc
        · subst h2; rw [p3] at hy; cases hy
          exact hchild _ _ en z ((hLR z).mpr (.inl hz))
        · by_cases h3 : y = right
          · subst h3; rw [p2] at hy; cases hy
            exact hchild _ _ en z ((hLR z).mpr (.inr hz))
          · rw [p4 y h1 h2 h3] at hy; exact hchild y m hy z hz
    · -- the tree shown
      have hreach : ∀ y, Reach d c y → y ≠ right := by
        intro y hy he
        obtain ⟨t', h1, _⟩ := Shows.reach hy h
        obtain ⟨m, h2, _⟩ := h1.page
        rw [he, hf] at h2; cases h2
      obtain ⟨sl, sr⟩ := hshow d' p3 p2 fun z hz y hy => p4 y
        (fun he => h.no_cycle e hcm (.down en hz (he ▸ hy)))
        (fun he => hsh.no_cycle en hz (he ▸ hy))
        (hreach y (.down e hcm (.down en hz hy)))
      have hsib : ∀ (j : Nat) y t', j ≠ BNode.slot ps a.pivot → cs[j]? = some y → ts[j]? = some t' →
          Shows d' y t' := by
        intro j y t' hj e1 e2
        refine (hcs j y t' e1 e2).frame fun b hb => ?_
        have hym := List.mem_of_getElem? e1
        refine p4 b (fun he => h.no_cycle e hym (he ▸ hb)) (fun he => hj ?_)
          (hreach b (.down e hym hb))
        exact h.disjoint hw e e1 hcc (he ▸ hb) .here
      have htree : (BNode.index ps ts).splitChild a = .index (ps.insertIdx (BNode.slot ps a.pivot) a.pivot)
          ((ts.set (BNode.slot ps a.pivot) (((BNode.index ps ts).child a.pivot).splitNode a).1).insertIdx
            (BNode.slot ps a.pivot + 1) (((BNode.index ps ts).child a.pivot).splitNode a).2) := rfl
      rw [htree]
      have hlt : BNode.slot ps a.pivot < ts.length := by omega
      refine .index p1 ?_ fun j y t' e1 e2 => ?_
      · rw [List.length_insertIdx_of_le_length (by omega), List.length_insertIdx_of_le_length (by simp; omega)]
        simp [hl]
      · rw [List.getElem?_insertIdx] at e1 e2
        by_cases h1 : j < BNode.slot ps a.pivot + 1
        · rw [if_pos h1] at e1 e2
          by_cases h2 : j = BNode.slot ps a.pivot
          · subst h2
            rw [hcc] at e1; cases e1
            rw [List.getElem?_set_self hlt] at e2; cases e2
            exact sl
          · rw [List.getElem?_set_ne (by omega)] at e2
            exact hsib j y t' h2 e1 e2
        · rw [if_neg h1] at e1 e2
          by_cases h2 : j = BNode.slot ps a.pivot + 1
          · rw [if_pos h2] at e1 e2
            split at e1
            · cases e1
              split at e2
              · cases e2; exact sr
              · cases e2
            · cases e1
          · rw [if_neg h2] at e1 e2
            rw [List.getElem?_set_ne (by omega)] at e2
            exact hsib (j - 1) y t' (by omega) e1 e2
    · intro y
      rw [PMap.has_iff, PMap.has_iff]
      constructor
      · rintro ⟨m, hm⟩
        by_cases h1 : y = c
        · subst h1; exact .inl ⟨_, e⟩
        · by_cases h2 : y = cc
          · subst h2; exact .inl ⟨_, en⟩
          · by_cases h3 : y = right
            · exact .inr h3
            · rw [p4 y h1 h2 h3] at hm; exact .inl ⟨m, hm⟩
      · rintro (⟨m, hm⟩ | rfl)
        · obtain ⟨m', h1, _⟩ := hreal y m hm
          exact ⟨m', h1⟩
        · exact ⟨R, p2⟩

theorem Reach.snoc {d : Disk T} {a b n c} (h : Reach d a b) (e : d b = some n)
    (hc : c ∈ n.children) : Reach d a c := h.trans (.single e hc)

theorem Reach.snoc_induction {d : Disk T} {a : Address} {motive : Address → Prop} (h0 : motive a)
    (hs : ∀ b n c, Reach d a b → d b = some n → c ∈ n.children → motive b → motive c) :
    ∀ {b}, Reach d a b → motive b := by
  intro b h
  have gen : ∀ {x y}, Reach d x y → Reach d a x → motive x → motive y := by
    intro x y h
    induction h with
    | here => intro _ h; exact h
    | @down x n c y e hc _ ih => intro hr hm; exact ih (hr.snoc e hc) (hs x n c hr e hc hm)
  exact gen h .here h0

theorem split_shows {b : Branch T} {right p a t} (hd : b.disk.WF) (hs : Shows b.disk b.root t)
    (ht : t.WF) (hc : b.CanSplit right p a) :
    t.CanSplit ⟨t, p.key, p.depth⟩ a ∧ (b.split right p a).root = b.root ∧
    (b.split right p a).disk.WF ∧
    Shows (b.split right p a).disk b.root (t.split ⟨t, p.key, p.depth⟩ a) ∧
    Reach b.disk b.root p.target.root ∧ Reach b.disk b.root (p.target.child a.pivot).root ∧
    (∀ x, x ≠ p.target.root → x ≠ (p.target.child a.pivot).root → x ≠ right →
      (b.split right p a).disk x = b.disk x) ∧
    (∀ x, (b.split right p a).disk.Has x ↔ b.disk.Has x ∨ x = right) ∧
    ∀ x, Reach (b.split right p a).disk b.root x ↔ x = right ∨ Reach b.disk b.root x := by
  obtain ⟨hv, rfl, hk, hroot, hidx, hnw, hchr, hok, hf⟩ := hc
  obtain ⟨⟨root, d⟩, key, n⟩ := p
  have hv' := path_to_tree n hs ht hv
  obtain ⟨c, e1, e2, e3⟩ := path_shows n hs hv'
  have htw := BPath.target_wf n hv'
  unfold Path.target at hidx hchr hok hf
  unfold Branch.split Path.substitute Path.target BNode.split BPath.substitute BPath.target
  dsimp only at hs hd e1 e2 e3 hv' hk htw hidx hok hf ⊢
  rw [e1] at hidx hok hf ⊢
  have hf : d right = none := hf
  have hcs : (BPath.targetFrom t key n).CanSplitChild a := by
    refine ⟨htw, e2.isIndex.mp hidx, ?_⟩
    have hi := e2.isIndex.mp hidx
    cases e : BPath.targetFrom t key n with
    | leaf ks ms => rw [e] at hi; exact absurd hi fun h => h
    | index ps ts =>
      rw [e] at e2 htw
      obtain ⟨cs, x, cc, _, _, hch, hsh⟩ := e2.child htw a.pivot
      rw [hch] at hok
      exact (splitOk_shows hsh (BNode.child_wf htw a.pivot)).mp hok
  obtain ⟨cc, d', f1, f2, f3, f4, f5, f6, f7, f8, n0, m, n0', L, R, g1, g2, g3, g4, g5, g6, g7, g8⟩ :=
    splitChild_shows hd e2 hcs hf
  rw [f1, f2]
  have hsub := substitute_shows (d := d) (d' := d') (key := key)
    (t' := (BPath.targetFrom t key n).splitChild a) n hs hv'
    (by
      rw [e1]
      intro x hx hnx
      refine f7 x (fun h => hnx (h ▸ .here)) (fun h => hnx (h ▸ f5)) fun h => ?_
      obtain ⟨t', h1, _⟩ := Shows.reach hx hs
      obtain ⟨m, h2, _⟩ := h1.page
      rw [h, hf] at h2; cases h2) (by rw [e1]; exact f4)
  rw [e1] at hsub
  obtain ⟨s1, s2⟩ := hsub
  refine ⟨⟨ht, hv', rfl, hk, hcs⟩, rfl, f3, s1, e3, e3.trans f5, f7, f8, fun x => ⟨fun h => ?_, ?_⟩⟩
  · refine Reach.snoc_induction (d := d') (a := root)
      (motive := fun x => x = right ∨ Reach d root x) (.inr .here) ?_ h
    intro y k z _ hy hz ih
    by_cases hyr : y = right
    · subst hyr
      rw [g5] at hy; cases hy
      exact .inr ((e3.trans f5).snoc g2 ((g8 z).mpr (.inr hz)))
    · have ih : Reach d root y := ih.resolve_left hyr
      by_cases hyc : y = c
      · subst hyc
        rw [g3] at hy; cases hy
        rcases (g7 z).mp hz with rfl | hz
        · exact .inl rfl
        · exact .inr (ih.snoc g1 hz)
      · by_cases hycc : y = cc
        · subst hycc
          rw [g4] at hy; cases hy
          exact .inr (ih.snoc g2 ((g8 z).mpr (.inl hz)))
        · rw [f7 y hyc hycc hyr] at hy
          exact .inr (ih.snoc hy hz)
  · have hright : Reach d' root right := s2.snoc g3 ((g7 right).mpr (.inl rfl))
    rintro (rfl | h)
    · exact hright
    · refine Reach.snoc_induction (d := d) (a := root)
        (motive := fun x => Reach d' root x) .here ?_ h
      intro y k z _ hy hz ih
      by_cases hyc : y = c
      · subst hyc
        rw [g1] at hy; cases hy
        exact ih.snoc g3 ((g7 z).mpr (.inr hz))
      · by_cases hycc : y = cc
        · subst hycc
          rw [g2] at hy; cases hy
          rcases (g8 z).mp hz with hz | hz
          · exact ih.snoc g4 hz
          · exact hright.snoc g5 hz
        · have hyr : y ≠ right := fun he => by rw [he, hf] at hy; cases hy
          exact ih.snoc (by rw [f7 y hyc hycc hyr]; exact hy) hz

end Verif.LBr
