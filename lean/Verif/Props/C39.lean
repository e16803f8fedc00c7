import Verif.Betree.LinkedBranchProof
import Verif.Props.C18
/-
C39. The branch on pages behaves as the tree-shaped branch.
Specification: `Shows d a t` (the pages under `a` spell out the tree `t`), `PageHolds` (a leaf page
reachable from the root has the pair), `At` (the page found by following child positions), and the
tree operations of PivotBranch (Betree/Branch.lean, C18).
-/
namespace Verif.C39
open Verif LBr
variable {T : Type}

/-- A leaf page of the branch has key `k` and message `m` at the same position. -/
def PageHolds (b : Branch T) (k : Key) (m : Message) : Prop :=
  ∃ a ks ms, ∃ i : Nat, Reach b.disk b.root a ∧ b.disk a = some (.leaf ks ms) ∧
    ks[i]? = some k ∧ ms[i]? = some m

/-- Following the child positions `is` from page `a` leads to page `x`. -/
inductive At (d : Disk T) : Address → List Nat → Address → Prop
  | nil {a} : At d a [] a
  | cons {a ps cs x} {i : Nat} {c is y} : d a = some (.index ps cs x) → cs[i]? = some c →
      At d c is y → At d a (i :: is) y

theorem At.reach {d : Disk T} {a is y} (h : At d a is y) : Reach d a y := by
  induction h with
  | nil => exact .here
  | cons e hc _ ih => exact .down e (List.mem_of_getElem? hc) ih

/-- The invariant of a branch (acyclic, keys sorted, keys in range) says exactly that the disk is
well formed and the pages spell out a well-formed tree; that tree is unique. -/
theorem inv_is_tree (b : Branch T) :
    (b.Inv ↔ b.disk.WF ∧ ∃ t, Shows b.disk b.root t ∧ t.WF) ∧
    ∀ t t', Shows b.disk b.root t → Shows b.disk b.root t' → t = t' :=
  ⟨inv_iff b, fun _ _ h h' => h.unique h'⟩

/-- No page of a branch is shared: each is found at one position only, and none is below itself. -/
theorem no_sharing {b : Branch T} (h : b.Inv) {is js x} (hi : At b.disk b.root is x)
    (hj : At b.disk b.root js x) : is = js := by
  obtain ⟨_, t, hs, ht⟩ := (inv_iff b).mp h
  generalize b.root = a at *
  generalize b.disk = d at *
  clear h
  induction hi generalizing js t with
  | nil =>
    cases hj with
    | nil => rfl
    | cons e hc h => exact absurd h.reach (hs.no_cycle e (List.mem_of_getElem? hc))
  | @cons a ps cs x i c is y e hc hat ih =>
    cases hj with
    | nil => exact absurd hat.reach (hs.no_cycle e (List.mem_of_getElem? hc))
    | @cons _ ps' cs' x' j c' js _ e' hc' h' =>
      rw [e] at e'; cases e'
      cases t with
      | leaf ks ms => rw [shows_leaf hs] at e; cases e
      | index ps'' ts =>
        obtain ⟨cs'', x'', e'', hl, hch⟩ := shows_index hs
        rw [e] at e''; cases e''
        have hij := hs.disjoint ht e hc hc' hat.reach h'.reach
        subst hij
        rw [hc] at hc'; cases hc'
        obtain ⟨hi1, _⟩ := List.getElem?_eq_some_iff.mp hc
        have hg := List.getElem?_eq_getElem (show i < ts.length from hl ▸ hi1)
        rw [ih _ ((BNode.wf_index.mp ht).2.2.1 _ (List.mem_of_getElem? hg)) h' (hch i c _ hc hg)]

/-- A query on pages answers as the query on the tree. -/
theorem query_same {b : Branch T} (h : b.Inv) {t} (hs : Shows b.disk b.root t) (k : Key) :
    b.query k = t.query k := by
  obtain ⟨hd, t', hs', ht⟩ := (inv_iff b).mp h
  rw [hs'.unique hs] at ht
  exact query_shows hd hs ht k

/-- The pairs in the leaf pages are those of the tree. -/
theorem holds_same {b : Branch T} {t} (hs : Shows b.disk b.root t) (k : Key) (m : Message) :
    PageHolds b k m ↔ t.Holds k m := by
  obtain ⟨root, d⟩ := b
  unfold PageHolds
  dsimp only at *
  induction hs with
  | leaf e =>
    rw [BNode.holds_leaf]
    constructor
    · rintro ⟨a, ks', ms', i, hr, ha, h1, h2⟩
      cases hr with
      | here => rw [e] at ha; cases ha; exact ⟨i, h1, h2⟩
      | down e' hc => rw [e] at e'; cases e'; cases hc
    · rintro ⟨i, h1, h2⟩; exact ⟨_, _, _, i, .here, e, h1, h2⟩
  | @index a ps cs x ts e hl hc ih =>
    rw [BNode.holds_index]
    constructor
    · rintro ⟨b, ks', ms', i, hr, ha, h1, h2⟩
      cases hr with
      | here => rw [e] at ha; cases ha
      | down e' hm hr =>
        rw [e] at e'; cases e'
        obtain ⟨j, hj⟩ := List.mem_iff_getElem?.mp (show _ ∈ cs from hm)
        obtain ⟨hj1, rfl⟩ := List.getElem?_eq_some_iff.mp hj
        have hj2 : j < ts.length := hl ▸ hj1
        exact ⟨ts[j], List.getElem_mem hj2, (ih j _ _ hj (List.getElem?_eq_getElem hj2)).mp
          ⟨b, ks', ms', i, hr, ha, h1, h2⟩⟩
    · rintro ⟨t, ht, hk⟩
      obtain ⟨j, hj⟩ := List.mem_iff_getElem?.mp ht
      obtain ⟨hj1, rfl⟩ := List.getElem?_eq_some_iff.mp hj
      have hj2 : j < cs.length := hl ▸ hj1
      obtain ⟨b, ks, ms, i, hr, h1⟩ :=
        (ih j _ _ (List.getElem?_eq_getElem hj2) hj).mpr hk
      exact ⟨b, ks, ms, i, .down e (List.getElem_mem hj2) hr, h1⟩

/-- A query finds exactly what the leaf pages hold. -/
theorem query_is_lookup {b : Branch T} (h : b.Inv) (k : Key) :
    (∀ m, PageHolds b k m → b.query k = m) ∧ ((∀ m, ¬ PageHolds b k m) → b.query k = .nop) := by
  obtain ⟨hd, t, hs, ht⟩ := (inv_iff b).mp h
  have hq := BNode.query_spec (k := k) ht
  rw [query_same h hs]
  exact ⟨fun m hm => hq.1 m ((holds_same hs k m).mp hm),
    fun hn => hq.2 fun m hm => hn m ((holds_same hs k m).mpr hm)⟩

/-- Inserting on pages is inserting in the tree; only the leaf page at the end of the path is
written, and the pages of the tree stay the same. -/
theorem insert_same {b : Branch T} (h : b.Inv) {t} (hs : Shows b.disk b.root t) {k p}
    (hc : b.CanInsert k p) (m : Message) :
    t.CanInsert k ⟨t, k, p.depth⟩ ∧ (b.insert k m p).Inv ∧
    Shows (b.insert k m p).disk (b.insert k m p).root (t.insert k m ⟨t, k, p.depth⟩) ∧
    Reach b.disk b.root p.target.root ∧
    (∀ a, a ≠ p.target.root → (b.insert k m p).disk a = b.disk a) ∧
    (∀ a, Reach (b.insert k m p).disk (b.insert k m p).root a ↔ Reach b.disk b.root a) := by
  obtain ⟨hd, t', hs', ht⟩ := (inv_iff b).mp h
  rw [hs'.unique hs] at ht
  obtain ⟨h1, h2, h3, h4, h5, h6, h7⟩ := insert_shows (m := m) hd hs ht hc
  rw [h2]
  exact ⟨h1, (inv_iff _).mpr ⟨h3, _, by rw [h2]; exact h4, (BNode.insert_spec h1).1⟩, h4, h5, h6, h7⟩

/-- Appending on pages is appending in the tree; only the leaf page at the end of the path is
written, and the pages of the tree stay the same. -/
theorem append_same {b : Branch T} (h : b.Inv) {t} (hs : Shows b.disk b.root t) {ks ms p}
    (hc : b.CanAppend ks ms p) :
    t.CanAppend ks ms ⟨t, p.key, p.depth⟩ ∧ (b.append ks ms p).Inv ∧
    Shows (b.append ks ms p).disk (b.append ks ms p).root (t.append ks ms ⟨t, p.key, p.depth⟩) ∧
    Reach b.disk b.root p.target.root ∧
    (∀ a, a ≠ p.target.root → (b.append ks ms p).disk a = b.disk a) ∧
    (∀ a, Reach (b.append ks ms p).disk (b.append ks ms p).root a ↔ Reach b.disk b.root a) := by
  obtain ⟨hd, t', hs', ht⟩ := (inv_iff b).mp h
  rw [hs'.unique hs] at ht
  obtain ⟨h1, h2, h3, h4, h5, h6, h7⟩ := append_shows hd hs ht hc
  rw [h2]
  exact ⟨h1, (inv_iff _).mpr ⟨h3, _, by rw [h2]; exact h4, (BNode.append_spec h1).1⟩, h4, h5, h6, h7⟩

/-- Growing on pages is growing the tree; only the fresh page is written, and it is the only page
the tree gains. -/
theorem grow_same {b : Branch T} (h : b.Inv) {t} (hs : Shows b.disk b.root t) {r}
    (hc : b.CanGrow r) :
    (b.grow r).Inv ∧ Shows (b.grow r).disk (b.grow r).root t.grow ∧ ¬ b.disk.Has r ∧
    (∀ a, a ≠ r → (b.grow r).disk a = b.disk a) ∧
    (∀ a, Reach (b.grow r).disk (b.grow r).root a ↔ a = r ∨ Reach b.disk b.root a) := by
  obtain ⟨hd, t', hs', ht⟩ := (inv_iff b).mp h
  rw [hs'.unique hs] at ht
  obtain ⟨h1, h2, h3, h4, h5⟩ := grow_shows hs hc
  refine ⟨(inv_iff _).mpr ⟨h2, _, h3, (BNode.grow_spec ht).1⟩, h3, ?_, h4, h5⟩
  rw [PMap.has_iff]
  rintro ⟨n, hn⟩
  have : b.disk r = none := hc.2
  rw [this] at hn; cases hn

/-- Splitting on pages is splitting in the tree; only the target, the child that is split and the
fresh page are written, and the fresh page is the only page the tree gains. -/
theorem split_same {b : Branch T} (h : b.Inv) {t} (hs : Shows b.disk b.root t) {right p a}
    (hc : b.CanSplit right p a) :
    t.CanSplit ⟨t, p.key, p.depth⟩ a ∧ (b.split right p a).Inv ∧
    Shows (b.split right p a).disk (b.split right p a).root (t.split ⟨t, p.key, p.depth⟩ a) ∧
    Reach b.disk b.root p.target.root ∧ Reach b.disk b.root (p.target.child a.pivot).root ∧
    (∀ x, x ≠ p.target.root → x ≠ (p.target.child a.pivot).root → x ≠ right →
      (b.split right p a).disk x = b.disk x) ∧
    (∀ x, (b.split right p a).disk.Has x ↔ b.disk.Has x ∨ x = right) ∧
    (∀ x, Reach (b.split right p a).disk (b.split right p a).root x ↔
      x = right ∨ Reach b.disk b.root x) := by
  obtain ⟨hd, t', hs', ht⟩ := (inv_iff b).mp h
  rw [hs'.unique hs] at ht
  obtain ⟨h1, h2, h3, h4, h5, h6, h7, h8, h9⟩ := split_shows hd hs ht hc
  rw [h2]
  exact ⟨h1, (inv_iff _).mpr ⟨h3, _, by rw [h2]; exact h4, (BNode.split_spec h1).1⟩,
    h4, h5, h6, h7, h8, h9⟩

/-- What is legal in the tree is legal on pages along the same path, given a fresh address. -/
theorem enabled {b : Branch T} (h : b.Inv) {t} (hs : Shows b.disk b.root t) :
    (∀ k n, t.CanInsert k ⟨t, k, n⟩ → b.CanInsert k ⟨b, k, n⟩) ∧
    (∀ ks ms k n, t.CanAppend ks ms ⟨t, k, n⟩ → b.CanAppend ks ms ⟨b, k, n⟩) ∧
    (∀ k n a right, b.disk right = none → t.CanSplit ⟨t, k, n⟩ a →
      b.CanSplit right ⟨b, k, n⟩ a) ∧
    (∀ r, b.disk r = none → b.CanGrow r) := by
  obtain ⟨hd, t', hs', ht⟩ := (inv_iff b).mp h
  rw [hs'.unique hs] at ht
  refine ⟨fun k n hc => ?_, fun ks ms k n hc => ?_, fun k n a right hf hc => ?_, fun r hr => ?_⟩
  · obtain ⟨_, hv, _, _, hl⟩ := hc
    obtain ⟨c, e1, e2, _⟩ := path_shows n hs hv
    refine ⟨path_of_tree hd n hs hv, rfl, rfl, ?_⟩
    show (Path.targetFrom b k n).node.IsLeaf
    rw [e1]; exact e2.isLeaf.mpr hl
  · obtain ⟨hv, _, c1, c2, c3, c4, c5, c6, c7⟩ := hc
    obtain ⟨c, e1, e2, _⟩ := path_shows n hs hv
    have e1 : Path.targetFrom b k n = ⟨c, b.disk⟩ := e1
    have hl := e2.isLeaf.mpr c4
    refine ⟨path_of_tree hd n hs hv, rfl, c1, c2, c3, ?_, ?_, c6, ?_⟩
    · show (Path.targetFrom b k n).node.IsLeaf
      rw [e1]; exact hl
    · show ∀ last first, (Path.targetFrom b k n).node.keys.getLast? = some last → _
      rw [e1]
      change ∀ last first, (BPath.targetFrom t k n).keys.getLast? = some last → _ at c5
      cases e : BPath.targetFrom t k n with
      | leaf lk lm => rw [e] at e2 c5; rw [e2.node_leaf]; exact c5
      | index ps ts => exact absurd (e ▸ e2.isLeaf.mp hl : (BNode.index ps ts).IsLeaf) fun h => h
    · intro last hlast; exact (equiv_shows n hs hv).mpr (c7 last hlast)
  · obtain ⟨_, hv, _, hk, hw, hi, ha⟩ := hc
    obtain ⟨c, e1, e2, _⟩ := path_shows n hs hv
    have e1 : Path.targetFrom b k n = ⟨c, b.disk⟩ := e1
    refine ⟨path_of_tree hd n hs hv, rfl, hk, ?_⟩
    show (Path.targetFrom b k n).CanSplitChild a right
    rw [e1]
    have hi : (BPath.targetFrom t k n).IsIndex := hi
    have hw : (BPath.targetFrom t k n).WF := hw
    have ha : a.WF ((BPath.targetFrom t k n).child a.pivot) := ha
    cases e : BPath.targetFrom t k n with
    | leaf ks ms => rw [e] at hi; exact absurd hi fun h => h
    | index ps ts =>
      rw [e] at e2 hw ha
      obtain ⟨cs, x, cc, g1, _, hch, hsh⟩ := e2.child hw a.pivot
      refine ⟨e2.page, e2.isIndex.mpr trivial, ?_, ?_, ?_, hf⟩
      · unfold Branch.node
        simp only [g1, Option.getD_some]
        exact hd.1 c _ g1
      · rw [hch]; exact hsh.page
      · rw [hch]; exact (splitOk_shows hsh (BNode.child_wf hw _)).mpr ha
  · exact ⟨⟨hd, hs.page⟩, hr⟩

/-- Every key can be inserted in a branch satisfying the invariant. -/
theorem insert_always_possible {b : Branch T} (h : b.Inv) (k : Key) : ∃ p, b.CanInsert k p := by
  obtain ⟨_, t, hs, ht⟩ := (inv_iff b).mp h
  obtain ⟨⟨t', k', n⟩, h1⟩ := BNode.insert_possible ht k
  obtain rfl : t' = t := h1.2.2.1
  obtain rfl : k' = k := h1.2.2.2.1
  exact ⟨_, (enabled h hs).1 k' n h1⟩

/-- The operations on a branch of pages, each with the map update it stands for and the addresses
it was given. -/
inductive Op : Branch T → (PMap Key Message → PMap Key Message) → List Address → Branch T → Prop
  | insert {b k p} (m : Message) : b.CanInsert k p → Op b (fun f => f.insert k m) [] (b.insert k m p)
  | append {b ks ms p} : b.CanAppend ks ms p →
      Op b (fun f => f.unionRight (fun k => (ks.zip ms).lookup k)) [] (b.append ks ms p)
  | split {b right p a} : b.CanSplit right p a → Op b id [right] (b.split right p a)
  | grow {b r} : b.CanGrow r → Op b id [r] (b.grow r)

/-- Any number of operations, with the updates and the addresses given, in order. -/
inductive Ops : Branch T → List (PMap Key Message → PMap Key Message) → List Address → Branch T → Prop
  | nil {b} : Ops b [] [] b
  | snoc {b us as b' u as' b''} : Ops b us as b' → Op b' u as' b'' →
      Ops b (us ++ [u]) (as ++ as') b''

/-- One operation: the invariant is kept, the tree shown makes the same step, a page outside the
tree and not given is untouched, the tree gains exactly the addresses given, and a disk holding
only the tree keeps holding only the tree. -/
theorem op_step {b b' : Branch T} {u as} (h : b.Inv) {t} (hs : Shows b.disk b.root t)
    (ho : Op b u as b') : b'.Inv ∧ (∃ t', C18.Op t u t' ∧ Shows b'.disk b'.root t') ∧
      (∀ x, ¬ Reach b.disk b.root x → x ∉ as → b'.disk x = b.disk x) ∧
      (∀ x, Reach b'.disk b'.root x ↔ x ∈ as ∨ Reach b.disk b.root x) ∧
      (∀ x ∈ as, b.disk x = none) ∧ (b.Tight → b'.Tight) := by
  have tight : ∀ {b' : Branch T} {as : List Address}, b'.Inv →
      (∀ x, ¬ Reach b.disk b.root x → x ∉ as → b'.disk x = b.disk x) →
      (∀ x, Reach b'.disk b'.root x ↔ x ∈ as ∨ Reach b.disk b.root x) → b.Tight → b'.Tight := by
    intro b' as hi h1 h2 ht x
    rw [h2]
    constructor
    · intro hx
      by_cases hr : Reach b.disk b.root x
      · exact .inr hr
      · by_cases ha : x ∈ as
        · exact .inl ha
        · have := h1 x hr ha
          refine .inr ((ht x).mp ?_)
          rw [PMap.has_iff] at hx ⊢
          rw [← this]; exact hx
    · intro hx
      obtain ⟨_, t', hs', _⟩ := (inv_iff b').mp hi
      obtain ⟨t'', h3, _⟩ := Shows.reach ((h2 x).mpr hx) hs'
      obtain ⟨n, h4, _⟩ := h3.page
      exact (PMap.has_iff _ _).mpr ⟨n, h4⟩
  cases ho with
  | insert m hc =>
    obtain ⟨h1, h2, h3, h4, h5, h6⟩ := insert_same h hs hc m
    have f1 := fun x (hx : ¬ Reach b.disk b.root x) (_ : x ∉ ([] : List Address)) =>
      h5 x fun e => hx (e ▸ h4)
    have f2 : ∀ x, _ ↔ x ∈ ([] : List Address) ∨ _ := fun x => by simpa using h6 x
    exact ⟨h2, ⟨_, .insert m h1, h3⟩, f1, f2, by simp, tight h2 f1 f2⟩
  | append hc =>
    obtain ⟨h1, h2, h3, h4, h5, h6⟩ := append_same h hs hc
    have f1 := fun x (hx : ¬ Reach b.disk b.root x) (_ : x ∉ ([] : List Address)) =>
      h5 x fun e => hx (e ▸ h4)
    have f2 : ∀ x, _ ↔ x ∈ ([] : List Address) ∨ _ := fun x => by simpa using h6 x
    exact ⟨h2, ⟨_, .append h1, h3⟩, f1, f2, by simp, tight h2 f1 f2⟩
  | @split right p a hc =>
    obtain ⟨h1, h2, h3, h4, h5, h6, _, h8⟩ := split_same h hs hc
    have f1 := fun x (hx : ¬ Reach b.disk b.root x) (hn : x ∉ [right]) =>
      h6 x (fun e => hx (e ▸ h4)) (fun e => hx (e ▸ h5)) (by simpa using hn)
    have f2 : ∀ x, _ ↔ x ∈ [right] ∨ _ := fun x => by simpa using h8 x
    refine ⟨h2, ⟨_, .split h1, h3⟩, f1, f2, ?_, tight h2 f1 f2⟩
    intro x hx
    simp only [List.mem_singleton] at hx
    subst hx
    obtain ⟨hv, rfl, _, _, _, _, _, _, hf⟩ := hc
    obtain ⟨hd, t', hs', ht⟩ := (inv_iff _).mp h
    obtain ⟨c, e1, _⟩ := path_shows p.depth hs' (path_to_tree p.depth hs' ht hv)
    have e1 : p.target = ⟨c, p.branch.disk⟩ := e1
    rw [e1] at hf
    exact hf
  | @grow r hc =>
    obtain ⟨h1, h2, h3, h4, h5⟩ := grow_same h hs hc
    have f1 := fun x (_ : ¬ Reach b.disk b.root x) (hn : x ∉ [r]) => h4 x (by simpa using hn)
    have f2 : ∀ x, _ ↔ x ∈ [r] ∨ _ := fun x => by simpa using h5 x
    refine ⟨h1, ⟨_, .grow, h2⟩, f1, f2, ?_, tight h1 f1 f2⟩
    intro x hx
    simp only [List.mem_singleton] at hx
    subst hx
    exact hc.2

/-- Any sequence of operations on pages: the invariant is kept; the leaf pages hold a map to which
the updates were applied in order, and queries look it up; pages that are neither of the old tree
nor given to an operation are untouched; the tree's pages are the old ones and those given. -/
theorem any_sequence {b b' : Branch T} {us as} (h : b.Inv) (ho : Ops b us as b')
    {f : PMap Key Message} (hf : ∀ k m, f k = some m ↔ PageHolds b k m) :
    b'.Inv ∧ (∀ k m, (us.foldl (fun f u => u f) f) k = some m ↔ PageHolds b' k m) ∧
    (∀ k, b'.query k = ((us.foldl (fun f u => u f) f) k).getD .nop) ∧
    (∀ x, ¬ Reach b.disk b.root x → x ∉ as → b'.disk x = b.disk x) ∧
    (∀ x, Reach b'.disk b'.root x ↔ x ∈ as ∨ Reach b.disk b.root x) ∧
    (b.Tight → b'.Tight) := by
  obtain ⟨hd, t, hs, ht⟩ := (inv_iff b).mp h
  have main : b'.Inv ∧ (∃ t', C18.Ops t us t' ∧ Shows b'.disk b'.root t') ∧
      (∀ x, ¬ Reach b.disk b.root x → x ∉ as → b'.disk x = b.disk x) ∧
      (∀ x, Reach b'.disk b'.root x ↔ x ∈ as ∨ Reach b.disk b.root x) ∧
      (b.Tight → b'.Tight) := by
    induction ho with
    | nil => exact ⟨h, ⟨t, .nil, hs⟩, fun _ _ _ => rfl, fun x => by simp, fun h => h⟩
    | snoc _ hop ih =>
      obtain ⟨i1, ⟨t', i2, i3⟩, i4, i5, i6⟩ := ih
      obtain ⟨j1, ⟨t'', j2, j3⟩, j4, j5, _, j7⟩ := op_step i1 i3 hop
      refine ⟨j1, ⟨t'', .snoc i2 j2, j3⟩, fun x h1 h2 => ?_, fun x => ?_, fun h => j7 (i6 h)⟩
      · rw [List.mem_append, not_or] at h2
        rw [j4 x (by rw [i5]; exact fun h => h.elim h2.1 h1) h2.2, i4 x h1 h2.1]
      · rw [j5, i5, List.mem_append]
        constructor
        · rintro (h | h | h)
          · exact .inl (.inr h)
          · exact .inl (.inl h)
          · exact .inr h
        · rintro ((h | h) | h)
          · exact .inr (.inl h)
          · exact .inl h
          · exact .inr (.inr h)
  obtain ⟨m1, ⟨t', m2, m3⟩, m4, m5, m6⟩ := main
  obtain ⟨n1, n2, n3⟩ := C18.any_sequence ht m2
  have hft : t.contents = f := by
    funext k
    apply Option.ext
    intro m
    rw [BNode.contents_iff ht, hf, holds_same hs]
  rw [hft] at n2 n3
  refine ⟨m1, fun k m => ?_, fun k => ?_, m4, m5, m6⟩
  · rw [← n2, BNode.contents_iff n1, holds_same m3]
  · rw [query_same m1 m3, n3]

/-! ### Pages showing the tree of C18: keys 1 3 | 5 7 | 9 with pivots 5 and 8 -/

def pg (n : Nat) : Address := ⟨n, 0⟩

/-- The root has an auxiliary page; page 8 belongs to someone else. -/
def pages : Disk Nat := fun a =>
  if a = pg 0 then some (.index [5, 8] [pg 1, pg 2, pg 3] (some (pg 9)))
  else if a = pg 1 then some (.leaf [1, 3] [.define 10, .define 30])
  else if a = pg 2 then some (.leaf [5, 7] [.define 50, .define 70])
  else if a = pg 3 then some (.leaf [9] [.define 90])
  else if a = pg 8 then some (.leaf [4] [.define 40])
  else if a = pg 9 then some (.auxiliary 77)
  else none

def demo : Branch Nat := ⟨pg 0, pages⟩

theorem pages_wf : pages.WF := by
  have h : ∀ a n, pages a = some n → n.WF ∧ ∀ c ∈ n.children, ∃ n', pages c = some n' ∧ ¬ n'.IsAux := by
    intro a n hn
    unfold pages at hn
    split at hn
    · cases hn
      refine ⟨rfl, fun c hc => ?_⟩
      simp only [Node.children, List.mem_cons, List.not_mem_nil, or_false] at hc
      rcases hc with rfl | rfl | rfl
      · exact ⟨_, rfl, fun h => h⟩
      · exact ⟨_, rfl, fun h => h⟩
      · exact ⟨_, rfl, fun h => h⟩
    · split at hn
      · cases hn; exact ⟨⟨by decide, rfl⟩, by simp [Node.children]⟩
      · split at hn
        · cases hn; exact ⟨⟨by decide, rfl⟩, by simp [Node.children]⟩
        · split at hn
          · cases hn; exact ⟨⟨by decide, rfl⟩, by simp [Node.children]⟩
          · split at hn
            · cases hn; exact ⟨⟨by decide, rfl⟩, by simp [Node.children]⟩
            · split at hn
              · cases hn; exact ⟨trivial, by simp [Node.children]⟩
              · cases hn
  exact ⟨fun a n hn => (h a n hn).1, fun a n hn => (h a n hn).2⟩

theorem demo_shows : Shows demo.disk demo.root C18.demo := by
  refine .index (cs := [pg 1, pg 2, pg 3]) (x := some (pg 9)) rfl rfl fun i c t e1 e2 => ?_
  match i, e1, e2 with
  | 0, e1, e2 => cases e1; cases e2; exact .leaf rfl
  | 1, e1, e2 => cases e1; cases e2; exact .leaf rfl
  | 2, e1, e2 => cases e1; cases e2; exact .leaf rfl
  | i + 3, e1, e2 => cases e1

theorem demo_inv : demo.Inv := (inv_iff _).mpr ⟨pages_wf, _, demo_shows, C18.demo_wf⟩

example : demo.query 7 = .define 70 := by
  rw [query_same demo_inv demo_shows]; exact C18.demo_query7

example : PageHolds demo 9 (.define 90) :=
  (holds_same demo_shows 9 _).mpr (BNode.holds_index.mpr
    ⟨.leaf [9] [.define 90], by simp, BNode.holds_leaf.mpr ⟨0, rfl, rfl⟩⟩)

/-- Two positions, two pages. -/
example : At demo.disk demo.root [1] (pg 2) ∧ At demo.disk demo.root [2] (pg 3) :=
  ⟨.cons rfl rfl .nil, .cons rfl rfl .nil⟩

theorem demo_insert : demo.CanInsert 6 ⟨demo, 6, 1⟩ :=
  (enabled demo_inv demo_shows).1 6 1 C18.demo_insert

/-- The insert rewrites page 2 and no other. -/
example : (demo.insert 6 (.define 60) ⟨demo, 6, 1⟩).disk (pg 2) =
    some (.leaf [5, 6, 7] [.define 50, .define 60, .define 70]) ∧
    (demo.insert 6 (.define 60) ⟨demo, 6, 1⟩).disk (pg 8) = demo.disk (pg 8) := by
  exact ⟨rfl, (insert_same demo_inv demo_shows demo_insert (.define 60)).2.2.2.2.1 (pg 8) (by decide)⟩

theorem demo_append : demo.CanAppend [10, 12] [.define 1, .define 2] ⟨demo, 10, 1⟩ :=
  (enabled demo_inv demo_shows).2.1 _ _ 10 1 C18.demo_append

theorem demo_split : demo.CanSplit (pg 4) ⟨demo, 7, 0⟩ (.leaf 7) :=
  (enabled demo_inv demo_shows).2.2.1 7 0 (.leaf 7) (pg 4) rfl C18.demo_split

/-- The split rewrites pages 0 and 2 and writes the fresh page 4. -/
example : (demo.split (pg 4) ⟨demo, 7, 0⟩ (.leaf 7)).disk (pg 0) =
      some (.index [5, 7, 8] [pg 1, pg 2, pg 4, pg 3] none) ∧
    (demo.split (pg 4) ⟨demo, 7, 0⟩ (.leaf 7)).disk (pg 2) = some (.leaf [5] [.define 50]) ∧
    (demo.split (pg 4) ⟨demo, 7, 0⟩ (.leaf 7)).disk (pg 4) = some (.leaf [7] [.define 70]) ∧
    (demo.split (pg 4) ⟨demo, 7, 0⟩ (.leaf 7)).disk (pg 8) = demo.disk (pg 8) :=
  ⟨rfl, rfl, rfl, (split_same demo_inv demo_shows demo_split).2.2.2.2.2.1 (pg 8)
    (by decide) (by decide) (by decide)⟩

/-- A run of all four operations: split a leaf, append, grow, split the old root, insert. -/
theorem demo_ops : ∃ b us, Ops demo us [pg 4, pg 5, pg 6] b ∧
    b.query 6 = .define 60 ∧ b.query 12 = .define 2 ∧ b.query 7 = .define 70 := by
  have e0 : Ops demo [] [] demo := .nil
  have e1 := e0.snoc (.append demo_append)
  obtain ⟨_, a2, a3, _, a5, a6⟩ := append_same demo_inv demo_shows demo_append
  generalize hb1 : demo.append [10, 12] [.define 1, .define 2] ⟨demo, 10, 1⟩ = b1 at *
  have f1 : ∀ n, n ≠ 3 → b1.disk (pg n) = pages (pg n) := fun n hn => a5 _ (by
    show pg n ≠ pg 3
    intro h; exact hn (by cases h; rfl))
  have e2 := e1.snoc (.grow (r := pg 4) ((enabled a2 a3).2.2.2 (pg 4) (f1 4 (by decide))))
  obtain ⟨b2, b3, _, b5, _⟩ := grow_same a2 a3 (r := pg 4) ((enabled a2 a3).2.2.2 (pg 4) (f1 4 (by decide)))
  generalize hb2 : b1.grow (pg 4) = b2' at *
  have f2 : ∀ n, n ≠ 3 → n ≠ 4 → b2'.disk (pg n) = pages (pg n) := fun n h1 h2 => by
    rw [b5 _ (fun h => h2 (by cases h; rfl)), f1 n h1]
  -- split the root's only child at pivot 5
  have w1 : (C18.demo.append [10, 12] [.define 1, .define 2] ⟨C18.demo, 10, 1⟩).WF :=
    (C18.append_is_update C18.demo_append).1
  have hsplit : (C18.demo.append [10, 12] [.define 1, .define 2] ⟨C18.demo, 10, 1⟩).grow.CanSplit
      ⟨(C18.demo.append [10, 12] [.define 1, .define 2] ⟨C18.demo, 10, 1⟩).grow, 5, 0⟩ (.index 5 0) :=
    ⟨(BNode.grow_spec w1).1, (BNode.grow_spec w1).1, rfl, rfl, (BNode.grow_spec w1).1, trivial,
      trivial, w1, rfl⟩
  have s3 := (enabled b2 b3).2.2.1 5 0 (.index 5 0) (pg 5) (f2 5 (by decide) (by decide)) hsplit
  have e3 := e2.snoc (.split s3)
  obtain ⟨_, c2, c3, _, _, _, c7, _⟩ := split_same b2 b3 s3
  generalize hb3 : b2'.split (pg 5) _ _ = b3' at *
  have n6 : b3'.disk (pg 6) = none := by
    cases h : b3'.disk (pg 6) with
    | none => rfl
    | some n =>
      have := (c7 (pg 6)).mp ((PMap.has_iff _ _).mpr ⟨n, h⟩)
      rcases this with this | this
      · obtain ⟨n, hn⟩ := (PMap.has_iff _ _).mp this
        rw [f2 6 (by decide) (by decide)] at hn; cases hn
      · cases this
  have e4 := e3.snoc (.grow (r := pg 6) ((enabled c2 c3).2.2.2 (pg 6) n6))
  obtain ⟨d2, _⟩ := grow_same c2 c3 (r := pg 6) ((enabled c2 c3).2.2.2 (pg 6) n6)
  obtain ⟨p, hp⟩ := insert_always_possible d2 6
  have e5 := e4.snoc (.insert (.define 60) hp)
  refine ⟨_, _, e5, ?_⟩
  have hf : ∀ k m, C18.demo.contents k = some m ↔ PageHolds demo k m := fun k m => by
    rw [BNode.contents_iff C18.demo_wf, holds_same demo_shows]
  obtain ⟨_, _, q, _⟩ := any_sequence demo_inv e5 hf
  rw [q, q, q]
  refine ⟨rfl, rfl, ?_⟩
  show ((PMap.insert (PMap.unionRight C18.demo.contents
    (fun k => ([(10 : Key), 12].zip [Message.define 1, .define 2]).lookup k)) 6 (.define 60)) 7).getD .nop = _
  have : C18.demo.contents 7 = some (.define 70) := (hf 7 _).mpr
    ⟨pg 2, _, _, 1, .down (n := .index [5, 8] [pg 1, pg 2, pg 3] (some (pg 9))) rfl
      (by simp [Node.children]) .here, rfl, rfl, rfl⟩
  rw [PMap.insert_other _ _ (by decide)]
  unfold PMap.unionRight
  simp only [show (([(10 : Key), 12].zip [Message.define 1, .define 2]).lookup 7) = none from rfl, this]
  rfl

/-- A branch on a disk of its own. -/
def small : Branch Nat := ⟨pg 1, fun a => if a = pg 1 then some (.leaf [1] [.define 1]) else none⟩

theorem small_shows : Shows small.disk small.root (.leaf [1] [.define 1]) := .leaf rfl

example : small.Inv ∧ small.Tight ∧ (small.grow (pg 2)).Tight := by
  have hd : small.disk.WF := by
    constructor
    · intro a n hn
      unfold small at hn; dsimp only at hn
      split at hn
      · cases hn; exact ⟨by decide, rfl⟩
      · cases hn
    · intro a n hn c hc
      unfold small at hn; dsimp only at hn
      split at hn
      · cases hn; cases hc
      · cases hn
  have hi : small.Inv := (inv_iff _).mpr ⟨hd, _, small_shows, BNode.wf_leaf.mpr
    ⟨by decide, rfl, (KeyT.strictlySorted_iff _).mpr (by decide)⟩⟩
  have ht : small.Tight := by
    intro a
    rw [PMap.has_iff]
    constructor
    · rintro ⟨n, hn⟩
      unfold small at hn; dsimp only at hn
      split at hn
      · rename_i h; rw [h]; exact .here
      · cases hn
    · intro h
      cases h with
      | here => exact ⟨_, rfl⟩
      | down e hc => cases (show some (Node.leaf (T := Nat) [1] [.define 1]) = some _ from e); cases hc
  exact ⟨hi, ht, (op_step hi small_shows (.grow ((enabled hi small_shows).2.2.2 (pg 2) rfl))).2.2.2.2.2 ht⟩

end Verif.C39
