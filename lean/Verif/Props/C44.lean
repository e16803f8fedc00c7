import Verif.Alloc.AllocationBranchProof
/-
C44. A branch under construction owns exactly its pages; sealed, its summary is exactly the units
it occupies, and it answers as what was written into it.

Specification: bookkeeping by hand over the history of events (Alloc/AllocationBranch.lean, last
section): the pages taken, the units held, the entries written. `C39.PageHolds` says that a leaf
page reached from the root holds an entry.

The code's events cannot grow a tree: the machine with `w := False` is the code as written, with
`w := True` it can. Theorems for every `w` hold of both.
-/
namespace Verif.C44
open Verif LBr ABr

variable {g : Geometry} {w : Prop} {free : PSet Nat} {tr : List Act} {s : AllocBranch}

/-- The invariant stated in the code holds in every reachable state. -/
theorem inv_always (h : (machine g w free).Exec tr s) : s.Inv g := by
  have hb := built h
  refine ⟨hb.wf, ?_, ?_⟩
  · intro hs
    cases hbr : s.branch with
    | none => rw [(hb.none hbr).2.2] at hs; cases hs
    | some b => rfl
  · intro b hbr
    refine ⟨fun hs => ?_, fun hn => ⟨hb.inv b hbr, fun a => ?_, hb.tight b hbr hn⟩⟩
    · obtain ⟨h1, h2, h3, _⟩ := hb.summary b hbr hs
      have h5 : ∀ a, FullRepr b a → getSummary b a.au := by
        intro a ha
        rw [h3]
        obtain ⟨p, hp, _⟩ := (hb.reserved a).mpr ((hb.pages b hbr a).mp ((h1 a).mpr ha))
        exact (PMap.has_iff _ _).mpr ⟨p, hp⟩
      exact ⟨⟨hb.inv b hbr, h2, h5, fun a => ⟨fun ha => (h1 a).mp ha.1,
        fun ha => ⟨(h1 a).mpr ha, h5 a ha⟩⟩⟩, h1, h3⟩
    · rw [hb.pages b hbr, hb.reserved]

/-- While it is built, the pages of a branch are the pages of its tree, the pages reserved in its
allocator, and the pages taken by its history. -/
theorem pages_exact (h : (machine g w free).Exec tr s) {b} (hb : s.branch = some b)
    (hn : s.isSealed = false) (a : Address) :
    (b.disk.Has a ↔ Reach b.disk b.root a) ∧ (b.disk.Has a ↔ s.mini.pageIsReserved a) ∧
    (b.disk.Has a ↔ a ∈ taken tr) := by
  have hx := built h
  exact ⟨hx.tight b hb hn a, by rw [hx.pages b hb, hx.reserved], hx.pages b hb a⟩

/-- Every page is taken once, lies on the disk and in a unit held. -/
theorem page_taken_once (h : (machine g w free).Exec tr s) :
    (taken tr).Nodup ∧ ∀ a ∈ taken tr, a.wf g ∧ held free tr a.au := by
  have hx := built h
  refine ⟨hx.nodup, fun a ha => ?_⟩
  obtain ⟨p, hp, hr⟩ := (hx.reserved a).mpr ha
  exact ⟨((hx.wf.1 _ _ hp).1.2 a hr).1, (hx.held _).mp ((PMap.has_iff _ _).mpr ⟨p, hp⟩)⟩

/-- A step changes only pages of the branch and pages it takes, which were free. -/
theorem writes_own_pages (h : (machine g w free).Exec tr s) {a s'} (hs : Next g w s a s')
    {b b'} (hb : s.branch = some b) (hb' : s'.branch = some b') :
    (∀ x, b'.disk x ≠ b.disk x → x ∈ taken tr ∨ x ∈ a.page) ∧
    (∀ x ∈ a.page, x ∉ taken tr) ∧ ∀ x ∈ taken tr, b'.disk.Has x := by
  have hx := built h
  have hy := built (h.snoc hs)
  refine ⟨fun x hne => ?_, fun x hp ht => ?_, fun x ht => ?_⟩
  · have hp := hy.pages b' hb' x
    rw [taken_snoc, List.mem_append] at hp
    cases e : b'.disk x with
    | some n => exact hp.mp ((PMap.has_iff _ _).mpr ⟨n, e⟩)
    | none =>
      cases e' : b.disk x with
      | some n => exact .inl ((hx.pages b hb x).mp ((PMap.has_iff _ _).mpr ⟨n, e'⟩))
      | none => rw [e, e'] at hne; exact absurd rfl hne
  · have := hy.nodup
    rw [taken_snoc, List.nodup_append] at this
    exact this.2.2 x ht x hp rfl
  · rw [hy.pages b' hb', taken_snoc, List.mem_append]; exact .inl ht

/-- The units read through the root of a sealed branch: the units of its pages, no more and no
fewer; the units its allocator keeps; the units held by its history. The pages are those of the
tree and, under an index root, the summary page. -/
theorem summary_exact (h : (machine g w free).Exec tr s) (hs : s.isSealed = true) :
    ∃ b, s.branch = some b ∧
      (∀ au, getSummary b au ↔ ∃ a : Address, a.au = au ∧ b.disk.Has a) ∧
      (∀ au, getSummary b au ↔ s.mini.allocs.Has au) ∧ (∀ au, getSummary b au ↔ held free tr au) ∧
      (∀ a, b.disk.Has a ↔ a ∈ taken tr) ∧
      (∀ a, b.disk.Has a ↔ Reach b.disk b.root a ∨ ∃ ps cs, b.disk b.root = some (.index ps cs (some a))) ∧
      (∀ ps cs x, b.disk b.root = some (.index ps cs x) →
        ∃ p, x = some p ∧ b.disk p = some (.auxiliary (getSummary b))) := by
  have hx := built h
  cases hbr : s.branch with
  | none => rw [(hx.none hbr).2.2] at hs; cases hs
  | some b =>
    obtain ⟨h1, h2, h3, h4⟩ := hx.summary b hbr hs
    obtain ⟨n, hn, _⟩ := h2.1
    have hnode : b.node = n := by unfold Branch.node; rw [hn]; rfl
    refine ⟨b, rfl, fun au => ?_, h3, fun au => by rw [h3, hx.held], hx.pages b hbr, fun a => ?_, ?_⟩
    · rw [h3]
      constructor
      · intro ha
        obtain ⟨a, h5, h6⟩ := h4 au ha
        exact ⟨a, h5, (hx.pages b hbr a).mpr h6⟩
      · rintro ⟨a, rfl, ha⟩
        obtain ⟨p, hp, _⟩ := (hx.reserved a).mpr ((hx.pages b hbr a).mp ha)
        exact (PMap.has_iff _ _).mpr ⟨p, hp⟩
    · rw [h1 a]
      unfold FullRepr
      rw [hnode, hn]
      simp
    · intro ps cs x e
      rw [hn] at e
      cases e
      obtain ⟨p, t, h5, h6⟩ := h2.2 ps cs x hnode
      refine ⟨p, h5, ?_⟩
      subst h5
      have : getSummary b = t := by
        unfold getSummary
        rw [hnode]
        dsimp only
        rw [h6]
      rw [this]; exact h6

/-- Units given back were held, hold no page of the branch and are not in its summary. Only sealing
gives units back, and it gives back every unit without a page. -/
theorem given_back_unused (h : (machine g w free).Exec tr s) {e allocs deallocs s'}
    (hs : Next g w s (.build e allocs deallocs) s') :
    (∀ au, deallocs au → held free tr au ∧ ¬ held free (tr ++ [.build e allocs deallocs]) au ∧
      (∀ a : Address, a.au = au → a ∉ taken (tr ++ [.build e allocs deallocs])) ∧
      ∀ b, s'.branch = some b → s'.isSealed = true → ¬ getSummary b au) ∧
    (∀ au, deallocs au → Act.isSeal (.build e allocs deallocs)) ∧
    (Act.isSeal (.build e allocs deallocs) → ∀ au, held free tr au →
      (∀ a : Address, a.au = au → a ∉ taken tr) → deallocs au) := by
  have hx := built h
  have hy := built (h.snoc hs)
  have hn : ∀ au, deallocs au → ¬ held free (tr ++ [.build e allocs deallocs]) au := by
    intro au hd hh
    rw [held_snoc] at hh
    exact hh.2 hd
  cases hs with
  | build hb =>
    refine ⟨fun au hd => ⟨?_, hn au hd, fun a ha ht => ?_, fun b hb hs hg => ?_⟩, fun au hd => ?_, ?_⟩
    · cases hb with
      | initLeaf _ hd' => exact absurd hd (hd' au)
      | append _ hd' => exact absurd hd (hd' au)
      | split _ hd' => exact absurd hd (hd' au)
      | allocFill hd' => exact absurd hd (hd' au)
      | sealUp _ hc => exact (hx.held au).mp (((canRemove_iff au).mp ((hc.2.2.2.2 au).mpr hd)).1)
    · obtain ⟨p, hp, _⟩ := (hy.reserved a).mpr ht
      subst ha
      exact hn _ hd ((hy.held _).mp ((PMap.has_iff _ _).mpr ⟨p, hp⟩))
    · exact hn au hd ((hy.held au).mp (((hy.summary b hb hs).2.2.1 au).mp hg))
    · cases hb with
      | initLeaf _ hd' => exact absurd hd (hd' au)
      | append _ hd' => exact absurd hd (hd' au)
      | split _ hd' => exact absurd hd (hd' au)
      | allocFill hd' => exact absurd hd (hd' au)
      | sealUp _ hc => trivial
    · intro his au hh hu
      cases hb with
      | initLeaf => exact his.elim
      | append => exact his.elim
      | split => exact his.elim
      | allocFill => exact his.elim
      | sealUp _ hc =>
        rw [← hc.2.2.2.2 au, canRemove_iff, reservedAus_iff hx.wf]
        refine ⟨(hx.held au).mpr hh, ?_⟩
        rintro ⟨a, h1, h2⟩
        exact hu a h1 ((hx.reserved a).mp h2)

/-- A branch, sealed or not, holds exactly what its history wrote, and a query returns the message
written for the key, or nothing. -/
theorem answers (h : (machine g w free).Exec tr s) {b} (hb : s.branch = some b) (k : Key) :
    (∀ m, C39.PageHolds b k m ↔ written tr k = some m) ∧
    b.query k = (written tr k).getD .nop := by
  have hx := built h
  have hh := hx.holds b hb
  refine ⟨fun m => (hh k m).symm, ?_⟩
  obtain ⟨h1, h2⟩ := C39.query_is_lookup (hx.inv b hb) k
  cases e : written tr k with
  | some m => exact h1 m ((hh k m).mp e)
  | none =>
    refine h2 fun m hm => ?_
    rw [← hh, e] at hm; cases hm

/-- A sealed branch never changes again. -/
theorem sealed_frozen (hs : s.isSealed = true) {a s'} : ¬ Next g w s a s' := by
  intro h
  cases h with
  | grow _ hc => rw [hc.1] at hs; cases hs
  | build hb =>
    cases hb with
    | initLeaf _ _ hc => rw [hc.1] at hs; cases hs
    | append _ _ hc => rw [hc.1] at hs; cases hs
    | split _ _ hc => rw [hc.1] at hs; cases hs
    | allocFill _ hc => rw [hc.1] at hs; cases hs
    | sealUp _ hc => rw [hc.1] at hs; cases hs

/-- A branch with a leaf root can be sealed at any time; one with an index root whenever a unit it
occupies has a free page. -/
theorem seal_possible (h : (machine g w free).Exec tr s) {b} (hb : s.branch = some b)
    (hn : s.isSealed = false) :
    (b.node.IsLeaf → ∃ deallocs s', Next g w s (.build (.sealUp none) (fun _ => False) deallocs) s') ∧
    (b.node.IsIndex → ∀ p, s.mini.canAllocate g p → (∃ a ∈ taken tr, a.au = p.au) →
      ∃ deallocs s', Next g w s (.build (.sealUp (some p)) (fun _ => False) deallocs) s') := by
  have hx := built h
  refine ⟨fun hl => ⟨fun au => s.mini.canRemove au, _, .build (.sealUp (fun _ h => h)
    ⟨hn, hb, ⟨(fun h => by cases h), (fun hi => ?_)⟩, (fun _ h => by cases h), fun _ => Iff.rfl⟩)⟩,
    fun hi p hp ha => ⟨fun au => s.mini.canRemove au, _, .build (.sealUp (fun _ h => h)
    ⟨hn, hb, ⟨fun _ => hi, fun _ => rfl⟩, ?_, fun _ => Iff.rfl⟩)⟩⟩
  · cases hnd : b.node with
    | leaf => rw [hnd] at hi; exact hi.elim
    | index => rw [hnd] at hl; exact hl.elim
    | auxiliary => rw [hnd] at hl; exact hl.elim
  · intro q hq
    cases hq
    refine ⟨hp, fun hr => ?_⟩
    obtain ⟨a, h1, h2⟩ := ha
    exact ((canRemove_iff _).mp hr).2 ((reservedAus_iff hx.wf _).mpr ⟨a, h2, (hx.reserved a).mpr h1⟩)

/-- Any non-empty sorted list of entries can be built into a sealed branch out of one unit. -/
theorem any_contents {ks : List Key} {ms : List Message} (h1 : 0 < ks.length)
    (h2 : ks.length = ms.length) (h3 : KeyT.StrictlySorted ks) {a : Address} (hf : free a.au)
    (ha : a.wf g) : ∃ tr s b, (machine g w free).Exec tr s ∧ s.isSealed = true ∧
      s.branch = some b ∧ (∀ k m, C39.PageHolds b k m ↔ (ks.zip ms).lookup k = some m) ∧
      (∀ au, getSummary b au ↔ au = a.au) ∧ ∀ au, s.mini.allocs.Has au ↔ au = a.au := by
  have hcan : (AllocBranch.new free).mini.canAllocate g a := new_canAllocate hf ha
  have e1 : (machine g w free).Exec [.build (.initLeaf a ks ms) (fun _ => False) (fun _ => False)]
      ((AllocBranch.new free).initBranch g a ks ms) := by
    refine Machine.Exec.snoc (tr := []) ⟨_, rfl, .nil _⟩ ?_
    refine .build (.initLeaf (fun _ h => h) (fun _ h => h) ⟨rfl, ?_, hcan, h1, h2, h3⟩)
    rintro au ⟨p, hp, hr⟩
    obtain ⟨x, _, hx⟩ := (reservedAus_iff (built_new g free).wf au).mp ⟨p, hp, hr⟩
    cases ((built_new g free).reserved x).mp hx
  obtain ⟨d, s', hstep⟩ := (seal_possible e1 rfl rfl).1 (by
    show (Branch.node _).IsLeaf
    unfold Branch.node
    simp only [PMap.insert_same, Option.getD_some]
    trivial)
  have e2 := e1.snoc hstep
  have hs : s'.isSealed = true := (built e2).sealed_iff.mpr ⟨_, List.mem_append_right _ (List.mem_singleton.mpr rfl), trivial⟩
  obtain ⟨b, hb, s1, s2, _, s4, _⟩ := summary_exact e2 hs
  have hp : ∀ x, b.disk.Has x ↔ x = a := by
    intro x; rw [s4]; simp [taken, Act.page]
  have hsum : ∀ au, getSummary b au ↔ au = a.au := by
    intro au
    rw [s1]
    constructor
    · rintro ⟨x, rfl, hx⟩; rw [(hp x).mp hx]
    · rintro rfl; exact ⟨a, rfl, (hp a).mpr rfl⟩
  refine ⟨_, s', b, e2, hs, hb, fun k m => ?_, hsum, fun au => by rw [← s2, hsum]⟩
  rw [(answers e2 hb k).1 m]
  have : written ([Act.build (.initLeaf a ks ms) (fun _ => False) (fun _ => False)] ++
      [Act.build (.sealUp none) (fun _ => False) d]) k = (ks.zip ms).lookup k := by
    rw [written_snoc_none _ rfl]
    show (PMap.empty.unionRight fun k => (ks.zip ms).lookup k) k = _
    unfold PMap.unionRight
    dsimp only
    cases (ks.zip ms).lookup k <;> rfl
  rw [this]

/-! ### The code as written: branches never outgrow one page -/

/-- Without growth the root stays a leaf: -/
theorem root_leaf (h : (machine g False free).Exec tr s) {b} (hb : s.branch = some b) :
    b.node.IsLeaf := by
  have main : ∀ b, s.branch = some b → b.node.IsLeaf := by
    refine Machine.exec_invariant (M := machine g False free)
      (I := fun _ s => ∀ b, s.branch = some b → b.node.IsLeaf) ?_ ?_ h
    · intro s hs b hb; cases hs; cases hb
    · intro tr s a s' ih hs b' hb'
      cases hs with
      | grow hw => exact hw.elim
      | build hbn =>
        cases hbn with
        | initLeaf =>
          cases hb'
          show (Branch.node _).IsLeaf
          unfold Branch.node
          simp only [PMap.insert_same, Option.getD_some]
          trivial
        | @append b ks ms p _ _ _ _ hc =>
          cases hb'
          obtain ⟨_, c2, hv, rfl, _⟩ := hc
          have hl := ih _ c2
          obtain ⟨br, key, depth⟩ := p
          cases depth with
          | zero =>
            show (Branch.node ⟨br.root, br.disk.modify br.root _⟩).IsLeaf
            unfold Branch.node
            simp only [modify_same, Option.getD_some]
            trivial
          | succ n =>
            have hi : br.node.IsIndex := hv.2.1
            have hl : br.node.IsLeaf := hl
            cases hnd : br.node with
            | leaf => rw [hnd] at hi; exact hi.elim
            | index => rw [hnd] at hl; exact hl.elim
            | auxiliary => rw [hnd] at hl; exact hl.elim
        | @split b addr p sa _ _ _ _ hc =>
          obtain ⟨_, c2, _, hv, rfl, _, hsp⟩ := hc
          have hl := ih _ c2
          obtain ⟨br, key, depth⟩ := p
          have hl : br.node.IsLeaf := hl
          have hi : br.node.IsIndex := by
            cases depth with
            | zero => exact hsp.2.1
            | succ n => exact hv.2.1
          cases hnd : br.node with
          | leaf => rw [hnd] at hi; exact hi.elim
          | index => rw [hnd] at hl; exact hl.elim
          | auxiliary => rw [hnd] at hl; exact hl.elim
        | allocFill => exact ih b' hb'
        | @sealUp b ptr _ _ _ hc =>
          cases ptr with
          | none => exact ih b' hb'
          | some p =>
            have hi := hc.2.2.1.mp rfl
            have hl := ih _ hc.2.1
            cases hnd : b.node with
            | leaf => rw [hnd] at hi; exact hi.elim
            | index => rw [hnd] at hl; exact hl.elim
            | auxiliary => rw [hnd] at hl; exact hl.elim
  exact main b hb

/-- so it consists of one page, no matter what was written into it, -/
theorem one_page_only (h : (machine g False free).Exec tr s) {b} (hb : s.branch = some b) :
    taken tr = [b.root] ∧ ∀ a, b.disk.Has a ↔ a = b.root := by
  have hx := built h
  have hl := root_leaf h hb
  have hp : ∀ a, b.disk.Has a ↔ a = b.root := by
    intro a
    cases hnd : b.node with
    | leaf ks ms =>
      cases hs : s.isSealed with
      | false => rw [hx.tight b hb hs, leaf_reach hnd]
      | true =>
        rw [(hx.summary b hb hs).1 a]
        unfold FullRepr
        rw [leaf_reach hnd, hnd]
        simp
    | index => rw [hnd] at hl; exact hl.elim
    | auxiliary => rw [hnd] at hl; exact hl.elim
  refine ⟨?_, hp⟩
  have hm : ∀ a, a ∈ taken tr ↔ a = b.root := fun a => by rw [← hx.pages b hb, hp]
  have hnd := hx.nodup
  cases ht : taken tr with
  | nil => have := (hm b.root).mpr rfl; rw [ht] at this; cases this
  | cons x xs =>
    rw [ht] at hm hnd
    obtain rfl := (hm x).mp List.mem_cons_self
    cases xs with
    | nil => rfl
    | cons y ys =>
      obtain rfl := (hm y).mp (List.mem_cons_of_mem _ List.mem_cons_self)
      simp at hnd

/-- and the split event and the summary page of the code are never used. -/
theorem split_never (h : (machine g False free).Exec tr s) {e allocs deallocs s'}
    (hs : Next g False s (.build e allocs deallocs) s') :
    (∀ addr p a, e ≠ .split addr p a) ∧ ∀ p, e ≠ .sealUp (some p) := by
  cases hs with
  | build hb =>
    cases hb with
    | initLeaf => exact ⟨fun _ _ _ h => (by cases h), fun _ h => by cases h⟩
    | append => exact ⟨fun _ _ _ h => (by cases h), fun _ h => by cases h⟩
    | allocFill => exact ⟨fun _ _ _ h => (by cases h), fun _ h => by cases h⟩
    | @split b addr p sa _ _ ha hd hc =>
      have hy := one_page_only (h.snoc (.build (.split ha hd hc))) rfl
      have hx := one_page_only h hc.2.1
      rw [taken_snoc, hx.1] at hy
      exact absurd hy.1 (by simp [Act.page])
    | @sealUp b ptr _ _ _ hc =>
      refine ⟨fun _ _ _ h => (by cases h), fun p h => ?_⟩
      cases h
      have hi := hc.2.2.1.mp rfl
      have hl := root_leaf h hc.2.1
      cases hnd : b.node with
      | leaf => rw [hnd] at hi; exact hi.elim
      | index => rw [hnd] at hl; exact hl.elim
      | auxiliary => rw [hnd] at hl; exact hl.elim

/-! ### `linked_contains` is the wrong way round -/

/-- What the code calls containing a key: no entry for it, or one that does nothing. A key written
with any other message is reported absent, a key never written is reported present. -/
theorem contains_inverted (h : (machine g w free).Exec tr s) {b} (hb : s.branch = some b) (k : Key) :
    (LinkedContains b k ↔ (written tr k).getD .nop = .nop) ∧
    (written tr k = none → LinkedContains b k) ∧
    ∀ m, written tr k = some m → m ≠ .nop → ¬ LinkedContains b k := by
  have hq := (answers h hb k).2
  unfold LinkedContains
  rw [hq]
  exact ⟨Iff.rfl, (fun e => by rw [e]; rfl), fun m e hm => by rw [e]; exact hm⟩

/-- In every branch that holds an entry which does something, the code's answer is wrong. -/
theorem contains_wrong (h : (machine g w free).Exec tr s) {b} (hb : s.branch = some b) {k m}
    (hk : C39.PageHolds b k m) (hm : m ≠ .nop) :
    ¬ (LinkedContains b k ↔ ∃ m, C39.PageHolds b k m) := by
  intro hc
  exact (contains_inverted h hb k).2.2 m (((answers h hb k).1 m).mp hk) hm (hc.mpr ⟨m, hk⟩)

/-! ### Concrete cases -/

def geo : Geometry := ⟨4, 8⟩
def pg (au page : Nat) : Address := ⟨au, page⟩
/-- units 0, 1, 2 -/
def units : PSet Nat := fun au => au < 3
def no : PSet Nat := fun _ => False

theorem no_no : ∀ au, ¬ no au := fun _ h => h

def ks : List Key := [1, 3, 5]
def ms : List Message := [.define 10, .define 30, .update 7]

/-- A leaf is written to page 0 of unit 0. -/
noncomputable def s1 : AllocBranch := (AllocBranch.new units).initBranch geo (pg 0 0) ks ms

theorem can {a : Address} (h1 : a.au < 3) (h2 : a.page < 4) :
    (AllocBranch.new units).mini.canAllocate geo a :=
  new_canAllocate h1 ⟨Nat.lt_trans h1 (by decide), h2⟩

theorem demo1 (w : Prop) :
    (machine geo w units).Exec [.build (.initLeaf (pg 0 0) ks ms) no no] s1 := by
  refine Machine.Exec.snoc (tr := []) ⟨_, rfl, .nil _⟩ ?_
  refine .build (.initLeaf no_no no_no ⟨rfl, ?_, can (by decide) (by decide), by decide, rfl,
    (KeyT.strictlySorted_iff _).mpr (by decide)⟩)
  rintro au ⟨p, hp, hr⟩
  obtain ⟨x, _, hx⟩ := (reservedAus_iff (built_new geo units).wf au).mp ⟨p, hp, hr⟩
  cases ((built_new geo units).reserved x).mp hx

/-- The code as written, from here: entries are appended, the branch is sealed, units 1 and 2 are
given back. -/
theorem demo_code : ∃ s b deallocs p, (machine geo False units).Exec
      ([.build (.initLeaf (pg 0 0) ks ms) no no] ++ [.build (.append [8, 9] [.define 80, .define 90] p) no no] ++
        [.build (.sealUp none) no deallocs]) s ∧ s.isSealed = true ∧ s.branch = some b ∧
      b.query 3 = .define 30 ∧ b.query 9 = .define 90 ∧ b.query 4 = .nop ∧
      ¬ LinkedContains b 3 ∧ LinkedContains b 4 ∧ getSummary b 0 ∧ deallocs 1 ∧ ¬ getSummary b 1 := by
  have e1 := demo1 False
  generalize hb1 : (⟨pg 0 0, PMap.empty.insert (pg 0 0) (.leaf ks ms)⟩ : Branch Summary) = b1
  have hbr : s1.branch = some b1 := by rw [← hb1]; rfl
  have hn1 : b1.node = .leaf ks ms := by
    rw [← hb1]; unfold Branch.node; simp only [PMap.insert_same, Option.getD_some]
  have hca : b1.CanAppend [8, 9] [.define 80, .define 90] ⟨b1, 8, 0⟩ := by
    have hi := (built e1).inv b1 hbr
    have ht : (⟨b1, 8, 0⟩ : Path Summary).target = b1 := rfl
    refine ⟨hi.1.1, rfl, by decide, rfl, (KeyT.strictlySorted_iff _).mpr (by decide), ?_, ?_, rfl, ?_⟩
    · rw [ht, hn1]; trivial
    · rw [ht, hn1]
      intro last first h1 h2
      cases h1; cases h2
      decide
    · intro last hl
      cases hl
      show b1.node.route 8 = b1.node.route 9
      rw [hn1]
      decide
  have e2 := e1.snoc (Next.build (w := False) (.append no_no no_no ⟨rfl, hbr, hca⟩))
  obtain ⟨d, s3, hstep⟩ := (seal_possible e2 (b := b1.append _ _ _) rfl rfl).1 (root_leaf e2 rfl)
  have e3 := e2.snoc hstep
  have hs3 : s3.isSealed = true := (built e3).sealed_iff.mpr
    ⟨_, List.mem_append_right _ (List.mem_singleton.mpr rfl), trivial⟩
  obtain ⟨b, hb, q1, _, q3, q4, _⟩ := summary_exact e3 hs3
  have hq : ∀ k, b.query k = ((PMap.unionRight (PMap.unionRight PMap.empty fun k => (ks.zip ms).lookup k)
      fun k => ([8, 9].zip [Message.define 80, .define 90]).lookup k) k).getD .nop := by
    intro k
    rw [(answers e3 hb k).2, written_snoc_none _ rfl]
    rfl
  have h3 : b.query 3 = .define 30 := by rw [hq]; rfl
  have h4 : b.query 4 = .nop := by rw [hq]; rfl
  have hd1 : d 1 := by
    refine (given_back_unused e2 hstep).2.2 trivial 1 ?_ ?_
    · show ((units 1 ∨ no 1) ∧ ¬ no 1 ∨ no 1) ∧ ¬ no 1
      simp [units, no]
    · intro a ha ht
      simp [taken, Act.page] at ht
      subst ht
      cases ha
  refine ⟨s3, b, d, _, e3, hs3, hb, h3, (by rw [hq]; rfl), h4, ?_, h4, ?_, hd1, ?_⟩
  · unfold LinkedContains; rw [h3]; intro h; cases h
  · refine (q1 0).mpr ⟨pg 0 0, rfl, (q4 _).mpr ?_⟩
    simp [taken, Act.page]
  · rw [q3]; exact ((given_back_unused e2 hstep).1 1 hd1).2.1

/-- With growth, from the same state: the root becomes an index (page 1), the leaf is split (page 0
of unit 1), and sealing writes the summary to page 1 of unit 1. Units 0 and 1 are in use, unit 2 is
given back. -/
theorem demo_grow : ∃ s b deallocs p, (machine geo True units).Exec
      ([.build (.initLeaf (pg 0 0) ks ms) no no] ++ [.grow (pg 0 1)] ++
        [.build (.split (pg 1 0) p (.leaf 3)) no no] ++
        [.build (.sealUp (some (pg 1 1))) no deallocs]) s ∧ s.isSealed = true ∧ s.branch = some b ∧
      b.query 3 = .define 30 ∧ b.query 1 = .define 10 ∧
      (∀ au, getSummary b au ↔ au = 0 ∨ au = 1) ∧ deallocs 2 ∧
      ∃ ps cs, b.disk b.root = some (.index ps cs (some (pg 1 1))) := by
  have e1 := demo1 True
  generalize hb1 : (⟨pg 0 0, PMap.empty.insert (pg 0 0) (.leaf ks ms)⟩ : Branch Summary) = b1
  have hbr : s1.branch = some b1 := by rw [← hb1]; rfl
  have hi1 := (built e1).inv b1 hbr
  have hsh1 : Shows b1.disk b1.root (.leaf ks ms) := by
    rw [← hb1]; exact .leaf (PMap.insert_same PMap.empty (pg 0 0) _)
  have m1 : s1.mini.canAllocate geo (pg 0 1) :=
    canAllocate_after (can (by decide) (by decide)) (can (by decide) (by decide)) (by decide)
  have hg : b1.CanGrow (pg 0 1) := by
    refine ⟨hi1.1.1, ?_⟩
    rw [← hb1]; exact PMap.insert_other PMap.empty (k := pg 0 0) (x := pg 0 1) (.leaf ks ms) (by decide)
  have e2 := e1.snoc (Next.grow trivial ⟨rfl, hbr, m1, hg⟩)
  obtain ⟨hi2, hsh2, _⟩ := C39.grow_same hi1 hsh1 hg
  generalize hb2 : b1.grow (pg 0 1) = b2 at *
  have hw2 : (BNode.leaf ks ms).grow.WF := by
    obtain ⟨_, t, h1, h2⟩ := (inv_iff b2).mp hi2
    rw [h1.unique hsh2] at h2; exact h2
  have hw1 : (BNode.leaf ks ms).WF := by
    obtain ⟨_, t, h1, h2⟩ := (inv_iff b1).mp hi1
    rw [h1.unique hsh1] at h2; exact h2
  have m2 : (s1.grow geo b1 (pg 0 1)).mini.canAllocate geo (pg 1 0) :=
    canAllocate_after m1 (canAllocate_after (can (by decide) (by decide))
      (can (by decide) (by decide)) (by decide)) (by decide)
  have hbr2 : (s1.grow geo b1 (pg 0 1)).branch = some b2 := by rw [← hb2]; rfl
  have hfresh : b2.disk (pg 1 0) = none := by
    cases e : b2.disk (pg 1 0) with
    | none => rfl
    | some n =>
      have := ((built e2).pages b2 hbr2 _).mp ((PMap.has_iff _ _).mpr ⟨n, e⟩)
      simp [taken, Act.page, pg] at this
  have hsp : b2.CanSplit (pg 1 0) ⟨b2, 3, 0⟩ (.leaf 3) := by
    refine (C39.enabled hi2 hsh2).2.2.1 3 0 (.leaf 3) (pg 1 0) hfresh ?_
    exact ⟨hw2, hw2, rfl, rfl, hw2, trivial, BNode.leaf_splittable
      (ks := ks) (ms := ms) hw1 (i := 1) (by decide) rfl⟩
  have e3 := e2.snoc (Next.build (w := True) (.split no_no no_no ⟨rfl, hbr2, m2, hsp⟩))
  obtain ⟨_, _, hsh3, _⟩ := C39.split_same hi2 hsh2 hsp
  generalize hs3 : (s1.grow geo b1 (pg 0 1)).split geo b2 (pg 1 0) ⟨b2, 3, 0⟩ (.leaf 3) = s3 at e3
  have hbr3 : s3.branch = some (b2.split (pg 1 0) ⟨b2, 3, 0⟩ (.leaf 3)) := by rw [← hs3]; rfl
  have m3 : s3.mini.canAllocate geo (pg 1 1) := by
    rw [← hs3]
    exact canAllocate_after m2 (canAllocate_after m1 (canAllocate_after (can (by decide) (by decide))
      (can (by decide) (by decide)) (by decide)) (by decide)) (by decide)
  have hidx : (b2.split (pg 1 0) ⟨b2, 3, 0⟩ (.leaf 3)).node.IsIndex := by
    refine hsh3.isIndex.mpr ?_
    trivial
  obtain ⟨d, s4, hstep⟩ := (seal_possible e3 hbr3 (by rw [← hs3]; rfl)).2 hidx (pg 1 1) m3
    ⟨pg 1 0, (by simp [taken, Act.page]), rfl⟩
  have e4 := e3.snoc hstep
  have hs4 : s4.isSealed = true := (built e4).sealed_iff.mpr
    ⟨_, List.mem_append_right _ (List.mem_singleton.mpr rfl), trivial⟩
  obtain ⟨b, hb, q1, _, q3, q4, q5, q6⟩ := summary_exact e4 hs4
  have hq : ∀ k, b.query k = ((PMap.unionRight PMap.empty fun k => (ks.zip ms).lookup k) k).getD .nop := by
    intro k
    rw [(answers e4 hb k).2, written_snoc_none _ rfl, written_snoc_none _ rfl, written_snoc_none _ rfl]
    rfl
  have hsum : ∀ au, getSummary b au ↔ au = 0 ∨ au = 1 := by
    intro au
    rw [q1]
    simp only [q4, taken]
    constructor
    · rintro ⟨a, rfl, ha⟩
      simp [Act.page] at ha
      rcases ha with rfl | rfl | rfl | rfl <;> simp [pg]
    · rintro (rfl | rfl)
      · exact ⟨pg 0 0, rfl, by simp [Act.page]⟩
      · exact ⟨pg 1 0, rfl, by simp [Act.page]⟩
  have hd2 : d 2 := by
    refine (given_back_unused e3 hstep).2.2 trivial 2 ?_ ?_
    · show ((units 2 ∨ no 2) ∧ ¬ no 2 ∨ no 2) ∧ ¬ no 2
      simp [units, no]
    · intro a ha ht
      simp [taken, Act.page] at ht
      rcases ht with rfl | rfl | rfl <;> cases ha
  refine ⟨s4, b, d, _, e4, hs4, hb, (by rw [hq]; rfl), (by rw [hq]; rfl), hsum, hd2, ?_⟩
  cases hstep with
  | build hbn =>
    cases hbn with
    | sealUp _ hc =>
      rename_i b3 _
      have hb3 := hc.2.1
      rw [hbr3] at hb3
      cases hb3
      cases hb
      exact ⟨_, _, modify_same _ _ _⟩

end Verif.C44
