import Verif.Alloc.BranchLedgerSpec
import Verif.Alloc.BranchDemo
/-
C45. The betree over branches never loses track of an allocation unit: what it asked for and did not
give back is exactly what its nodes, the branches in use and the branches under construction occupy,
each unit with one owner; pages in use are not disturbed by any step.
Specification: Alloc/BranchLedgerSpec.lean, and `held`: the units of the image, plus those in the
first set of each label, minus those in the second.
-/
namespace Verif.C45
open LinkedBetree (Reach)
open ABB BranchLedger
open ABr (ValidSealedBranch getSummary FullRepr allAus AllocBranch)

section
variable {g : Geometry} {w : Prop} {cp : Check} {image : Stamped BLinked} {tr : List Label}
  {s s' : ABB.State}

/-! ### The specification and the model's words -/

theorem node_eq {d : BrDisk} {r : Address} {n} (h : d r = some n) :
    (⟨r, d⟩ : LBr.Branch ABr.Summary).node = n := by
  show (d r).getD _ = n
  rw [h]; rfl

theorem page_iff {d : BrDisk} {r x : Address} (h : ValidSealedBranch ⟨r, d⟩) :
    PageOf d r x ↔ FullRepr ⟨r, d⟩ x := by
  obtain ⟨n, hn⟩ := (PMap.has_iff _ _).mp (valid_has h (.inl .here)).1
  have hn : d r = some n := hn
  have e : (⟨r, d⟩ : LBr.Branch ABr.Summary).node = n := node_eq hn
  unfold PageOf FullRepr
  rw [e, hn]
  simp only [Option.some.injEq]

theorem lists_iff {d : BrDisk} {r : Address} (h : ValidSealedBranch ⟨r, d⟩) (u : Nat) :
    Lists d r u ↔ getSummary ⟨r, d⟩ u := by
  obtain ⟨n, hn⟩ := (PMap.has_iff _ _).mp (valid_has h (.inl .here)).1
  have hn : d r = some n := hn
  have e : (⟨r, d⟩ : LBr.Branch ABr.Summary).node = n := node_eq hn
  have hs := h.2.1.2
  rw [e] at hs
  unfold Lists getSummary
  rw [e, hn]
  cases n with
  | leaf ks ms => simp
  | index ps cs x =>
    obtain ⟨p, t, rfl, hp⟩ := hs _ _ _ rfl
    have hp : d p = some (.auxiliary t) := hp
    simp [hp]
  | auxiliary t =>
    exfalso
    obtain ⟨_, tt, ht, _⟩ := (LBr.inv_iff _).mp h.1
    cases ht with
    | leaf e => cases hn.symm.trans e
    | index e => cases hn.symm.trans e

theorem inUse_iff (s : ABB.State) (r : Address) : InUse s r ↔ Roots s r := Iff.rfl

theorem nodeUnit_iff (hg : Good g w s) (u : Nat) : NodeUnit s u ↔ u ∈ s.betreeAus :=
  ((rel_facts hg.rel).2.2.1 u).symm

theorem branchUnit_iff (hg : Good g w s) (u : Nat) : BranchUnit s u ↔ summaryAus s.summary u := by
  rw [hg.br.aus]
  exact exists_congr fun r => and_congr_right fun hr => lists_iff (hg.br.valid r hr) u

theorem wipUnit_iff (s : ABB.State) (u : Nat) : WipUnit s u ↔ allocAus s.wip u := Iff.rfl

theorem imageUnit_iff (h : (machine g w cp image).Exec tr s) (u : Nat) :
    ImageUnit image.value u ↔ imageUnits image.value u := by
  obtain ⟨s0, h0, _⟩ := h
  have hg := (init_good (g := g) (w := w) h0).1
  have e : s0.betree.linked = image.value := by
    obtain ⟨_, _, _, _, _, _, _, _, _, rfl⟩ := h0; rfl
  have hn := (rel_facts hg.rel).2.2.1 u
  have hd := hg.dv
  have hv := hg.br.valid
  rw [e] at hn hd hv
  unfold ImageUnit imageUnits
  refine or_congr ⟨fun ⟨a, h1, h2⟩ => ⟨a, LikesBetree.reach_has h1, h2⟩, ?_⟩ ?_
  · rintro ⟨a, h1, rfl⟩
    exact hn.mp (hd a h1)
  · constructor
    · rintro ⟨a, n, r, h1, h2, h3, h4⟩
      have hr : image.value.tree.ReachableBuffer r := ⟨a, n, h1, h2, h3⟩
      have : Roots s0 r := .inl (by rw [e]; exact hr)
      exact ⟨r, hr, (lists_iff (hv r this) u).mp h4⟩
    · rintro ⟨r, hr, h4⟩
      have : Roots s0 r := .inl (by rw [e]; exact hr)
      obtain ⟨a, n, h1, h2, h3⟩ := hr
      exact ⟨a, n, r, h1, h2, h3, (lists_iff (hv r this) u).mpr h4⟩

/-! ### The ledger -/

/-- What is held is what is occupied. -/
theorem ledger (h : (machine g w cp image).Exec tr s) (u : Nat) :
    held (ImageUnit image.value) tr u ↔ NodeUnit s u ∨ BranchUnit s u ∨ WipUnit s u := by
  obtain ⟨hg, hu⟩ := run_good h
  have : ImageUnit image.value = imageUnits image.value :=
    funext fun u => propext (imageUnit_iff h u)
  rw [this, ← hu u, nodeUnit_iff hg, branchUnit_iff hg, wipUnit_iff]
  exact Iff.rfl

/-- Each unit has one kind of owner, one branch in use, one branch under construction. -/
theorem one_owner (h : (machine g w cp image).Exec tr s) (u : Nat) :
    ¬ (NodeUnit s u ∧ BranchUnit s u) ∧ ¬ (NodeUnit s u ∧ WipUnit s u) ∧
    ¬ (BranchUnit s u ∧ WipUnit s u) ∧
    (∀ r r', InUse s r → InUse s r' → Lists s.betree.linked.bdv r u →
      Lists s.betree.linked.bdv r' u → r = r') ∧
    ∀ (i j : Nat) b c, s.wip[i]? = some b → s.wip[j]? = some c → b.mini.allocs.Has u →
      c.mini.allocs.Has u → i = j := by
  obtain ⟨hg, _⟩ := run_good h
  rw [nodeUnit_iff hg, branchUnit_iff hg, wipUnit_iff]
  refine ⟨fun ⟨h1, h2⟩ => hg.node_branch u h1 h2, fun ⟨h1, h2⟩ => hg.node_wip u h1 h2,
    fun ⟨h1, h2⟩ => hg.branch_wip u h1 h2, fun r r' h1 h2 h3 h4 => ?_, fun i j b c => hg.wip.apart i j b c u⟩
  exact hg.br.disjoint r r' u h1 h2 ((lists_iff (hg.br.valid r h1) u).mp h3)
    ((lists_iff (hg.br.valid r' h2) u).mp h4)

/-- The disk of branches holds the pages of branches in use and no others; they lie in the units
their branch lists, and no two branches share one. Node pages lie in units with a reached node. -/
theorem pages_owned (h : (machine g w cp image).Exec tr s) :
    (∀ x, s.betree.linked.bdv.Has x ↔ ∃ r, InUse s r ∧ PageOf s.betree.linked.bdv r x) ∧
    (∀ r x, InUse s r → PageOf s.betree.linked.bdv r x → Lists s.betree.linked.bdv r x.au) ∧
    (∀ r r' x, InUse s r → InUse s r' → PageOf s.betree.linked.bdv r x →
      PageOf s.betree.linked.bdv r' x → r = r') ∧
    ∀ a : Address, s.betree.linked.dv.Has a → NodeUnit s a.au := by
  obtain ⟨hg, _⟩ := run_good h
  have hl : ∀ r x, InUse s r → PageOf s.betree.linked.bdv r x → Lists s.betree.linked.bdv r x.au := by
    intro r x hr hx
    exact (lists_iff (hg.br.valid r hr) _).mpr
      (valid_has (hg.br.valid r hr) ((page_iff (hg.br.valid r hr)).mp hx)).2
  refine ⟨fun x => ⟨fun hx => ?_, ?_⟩, hl, fun r r' x h1 h2 h3 h4 => ?_, fun a ha => ?_⟩
  · obtain ⟨r, hr, hx⟩ := hg.br.owner hx
    exact ⟨r, hr, (page_iff (hg.br.valid r hr)).mpr hx⟩
  · rintro ⟨r, hr, hx⟩
    exact (valid_has (hg.br.valid r hr) ((page_iff (hg.br.valid r hr)).mp hx)).1
  · exact (one_owner h x.au).2.2.2.1 r r' h1 h2 (hl r x h1 h3) (hl r' x h2 h4)
  · exact (nodeUnit_iff hg _).mpr (hg.dv a ha)

/-- The invariant the code claims always holds. -/
theorem inv_always (h : (machine g w cp image).Exec tr s) : s.Inv g := by
  obtain ⟨hg, _⟩ := run_good h
  obtain ⟨⟨tb, tt, tf⟩, hb, hi, ht, hf⟩ := hg.rel
  have hb : tb = (blank s).betree := hb
  subst hb
  have hl : (lk blankJ s.betree.linked).Inv := hi.linked
  have hteq := LikesBetree.transitive_eq hl.1
  have hit : tt = (LikesBetree.transitiveLikes s.betree.linked.tree).1 :=
    hi.tree.trans (congrArg Prod.fst hteq).symm
  have hib : tf = (LikesBetree.transitiveLikes s.betree.linked.tree).2 :=
    hi.buf.trans (congrArg Prod.snd hteq).symm
  have hmem : ∀ a, a ∈ (LikesBetree.transitiveLikes s.betree.linked.tree).2 ↔
      s.betree.linked.tree.ReachableBuffer a := by
    intro a
    obtain ⟨_, hs, _⟩ := LinkedBetree.inv_sees hl
    rw [← hib]
    have hbuf := hi.buf
    dsimp only at hbuf
    rw [hbuf]
    exact LikesBetree.mem_bufferLikes (l := lk blankJ s.betree.linked) hs
  have hR : ∀ a, (a ∈ (LikesBetree.transitiveLikes s.betree.linked.tree).2 ∨
      inputRoots s.compactors a) ↔ Roots s a := fun a => or_congr (hmem a) Iff.rfl
  have hud : UnitsDistinct fun a => a ∈ (LikesBetree.transitiveLikes s.betree.linked.tree).2 ∨
      inputRoots s.compactors a := fun a b h1 h2 hne e =>
    hne (hg.br.units a b ((hR a).mp h1) ((hR b).mp h2) e)
  refine ⟨hl.1, fun b hb => hg.br.has (.inl hb), hl.2.2, ht.trans (by rw [hit]), hf.trans (by rw [hib]),
    fun a ha => hg.br.valid a ((hR a).mp ha), hud, ?_, ?_, hg.dv, hg.br.closed, hg.node_branch,
    hg.node_wip, hg.branch_wip, ?_, ?_⟩
  · intro u v x y h1 h2 hne a h3 h4
    obtain ⟨p, p1, p2, rfl⟩ := (hg.br.summary u x).mp h1
    obtain ⟨q, q1, q2, rfl⟩ := (hg.br.summary v y).mp h2
    have := hg.br.disjoint p q a p1 q1 h3 h4
    subst this
    exact hne (p2.symm.trans q2)
  · funext u
    refine Option.ext fun x => ?_
    rw [buildSummary_some hud, hg.br.summary]
    exact exists_congr fun a => and_congr_left fun _ => (hR a).symm
  · intro b hb
    obtain ⟨free, t, hx⟩ := hg.wip.hist b hb
    exact C44.inv_always hx
  · exact fun i j b c h1 h2 hne u h3 h4 => hne (hg.wip.apart i j b c u h1 h2 h3 h4)

/-- The recorded counts are numbers of references: child pointers into a unit, and entries in the
buffer lists of reached nodes that name a branch with its root in the unit. -/
theorem counts_exact (h : (machine g w cp image).Exec tr s) (u : Nat) :
    CountIs (fun x => ∃ b : Address, b.au = u ∧ CountRefs.NodeRef s.betree.linked.tree b x)
      (s.betreeAus.count u) ∧
    CountIs (fun x => ∃ b : Address, b.au = u ∧ CountRefs.BufRef s.betree.linked.tree b x)
      (s.branchAus.count u) := by
  obtain ⟨hg, _⟩ := run_good h
  obtain ⟨t, hb, hi, ht, hf⟩ := hg.rel
  have hb : t.betree.linked = lk blankJ s.betree.linked := by rw [hb]; rfl
  obtain ⟨hw, hs, _⟩ := LinkedBetree.inv_sees hi.linked
  have ht : s.betreeAus = toAuLikes t.betreeLikes := ht
  have hf : s.branchAus = toAuLikes t.bufferLikes := hf
  rw [ht, hf, hi.tree, hi.buf]
  have h1 := LikesBetree.count_unit (R := CountRefs.NodeRef t.betree.linked) LikesBetree.nodeRef_target
    (fun b => LikesBetree.count_node hw hs b) u
  have h2 := LikesBetree.count_unit (R := CountRefs.BufRef t.betree.linked) LikesBetree.bufRef_target
    (fun b => LikesBetree.count_buf hw hs b) u
  rw [hb] at h1 h2 ⊢
  exact ⟨h1, h2⟩

/-! ### Steps -/

/-- Units asked for were not held, units given back were, and what is given back has no owner
afterwards. -/
theorem step_honest (h : (machine g w cp image).Exec tr s) {al de : PSet Nat}
    (hs : Next g w cp s (.internal al de) s') (u : Nat) :
    (al u → ¬ held (ImageUnit image.value) tr u) ∧
    (de u → held (ImageUnit image.value) tr u) ∧
    (de u → ¬ NodeUnit s' u ∧ ¬ BranchUnit s' u ∧ ¬ WipUnit s' u) ∧
    (¬ de u → held (ImageUnit image.value) tr u → NodeUnit s' u ∨ BranchUnit s' u ∨ WipUnit s' u) := by
  have h2 := h.snoc hs
  have hl := ledger h u
  have hl2 := ledger h2 u
  rw [ABB.held_snoc] at hl2
  obtain ⟨hg, _⟩ := run_good h
  have hn := nodeUnit_iff hg u
  have hb := branchUnit_iff hg u
  have hw := wipUnit_iff s u
  have fresh : ∀ {al : PSet Nat}, s.IsFresh al → al u → ¬ held (ImageUnit image.value) tr u := by
    intro al hf ha hx
    rcases hl.mp hx with h1 | h1 | h1
    · exact hf.1 u (hn.mp h1) ha
    · exact hf.2.1 u (hb.mp h1) ha
    · exact hf.2.2 u (hw.mp h1) ha
  have hr : ∀ gone : PSet Nat, summaryAus (s.summary.restrict gone) u → summaryAus s.summary u := by
    rintro gone ⟨k, y, h1, h2⟩; exact ⟨k, y, (PMap.restrict_some.mp h1).2, h2⟩
  refine ⟨?_, ?_, fun hd => ?_, fun hd hx => hl2.mp ⟨.inl hx, hd⟩⟩
  · intro ha
    cases hs with
    | branchBegin hf | branchBuild hf | flushMemtable hf | grow hf | split hf | flush hf
    | compactComplete hf => exact fresh hf ha
    | branchGrow _ h0 | branchAbort h0 | compactBegin h0 => exact absurd ha (h0 u)
    | compactAbort _ _ _ _ h0 => exact absurd ha (h0 u)
  · intro hd
    rw [hl, hn, hb, hw]
    cases hs with
    | branchBegin _ h0 | grow _ _ h0 | branchGrow _ _ h0 | compactBegin _ h0 => exact absurd hd (h0 u)
    | branchBuild hf hi hx => exact .inr (.inr (alloc_at hi ((hg.wip.build hi hf.2.2 hx).2.2 u hd)))
    | branchAbort _ hi h0 => exact .inr (.inr (alloc_at hi ((h0 u).mp hd)))
    | flushMemtable _ _ _ _ _ _ _ _ _ _ h0 => exact .inl ((h0 u).mp hd).1
    | split _ _ _ _ _ _ _ _ _ _ h0 => exact .inl ((h0 u).mp hd).1
    | flush _ _ _ _ _ _ _ _ _ _ _ _ h0 =>
      rcases (h0 u).mp hd with h1 | h1
      · exact .inl h1.1
      · exact .inr (.inl (hr _ h1))
    | compactAbort _ _ _ _ _ h0 => exact .inr (.inl (hr _ ((h0 u).mp hd)))
    | compactComplete _ _ _ _ _ _ _ _ _ _ _ _ _ _ _ _ _ h0 =>
      rcases (h0 u).mp hd with h1 | h1
      · exact .inl h1.1
      · exact .inr (.inl (hr _ h1))
  · have := hl2.not.mp fun h3 => h3.2 hd
    exact ⟨fun h3 => this (.inl h3), fun h3 => this (.inr (.inl h3)), fun h3 => this (.inr (.inr h3))⟩

theorem agree_reach {d d' : BrDisk} (hag : PMap.Agrees d d') {r x : Address}
    (h : LBr.Reach d r x) (h1 : ∀ y, LBr.Reach d r y → d.Has y)
    (h2 : ∀ y, LBr.Reach d' r y → d'.Has y) : d' x = d x := by
  have root : ∀ {r : Address}, d.Has r → d'.Has r → d' r = d r := by
    intro r k1 k2
    obtain ⟨n, hn⟩ := (PMap.has_iff _ _).mp k1
    obtain ⟨m, hm⟩ := (PMap.has_iff _ _).mp k2
    rw [hn, hm, hag r n m hn hm]
  induction h with
  | here => exact root (h1 _ .here) (h2 _ .here)
  | @down a n c b e hc _ ih =>
    have e' : d' a = some n := by rw [root (h1 _ .here) (h2 _ .here)]; exact e
    exact ih (fun y hy => h1 y (.down e hc hy)) (fun y hy => h2 y (.down e' hc hy))

theorem shows_frame {d d' : BrDisk} {r : Address} {t} (h : LBr.Shows d r t)
    (hf : ∀ x, LBr.Reach d r x → d' x = d x) : LBr.Shows d' r t := by
  induction h with
  | leaf e => exact .leaf ((hf _ .here).trans e)
  | index e hl _ ih =>
    refine .index ((hf _ .here).trans e) hl fun i c t h1 h2 => ih i c t h1 h2 fun x hx => ?_
    exact hf x (.down e (List.mem_of_getElem? h1) hx)

/-- A branch in use before and after a step is the same, page by page, lists the same units and
gives the same answers. Node pages are never overwritten. -/
theorem undisturbed (h : (machine g w cp image).Exec tr s) {a : Label} (hs : Next g w cp s a s') :
    (∀ r, InUse s r → InUse s' r →
      (∀ x, PageOf s.betree.linked.bdv r x → s'.betree.linked.bdv x = s.betree.linked.bdv x) ∧
      (∀ x, PageOf s'.betree.linked.bdv r x ↔ PageOf s.betree.linked.bdv r x) ∧
      (∀ u, Lists s'.betree.linked.bdv r u ↔ Lists s.betree.linked.bdv r u) ∧
      ∀ k, query s'.betree.linked.bdv r k = query s.betree.linked.bdv r k) ∧
    ∀ x n n', s.betree.linked.dv x = some n → s'.betree.linked.dv x = some n' → n' = n := by
  obtain ⟨hg, _⟩ := run_good h
  obtain ⟨hg', _, hag⟩ := good_step hg hs
  refine ⟨fun r hr hr' => ?_, ?_⟩
  · have v := hg.br.valid r hr
    have v' := hg'.br.valid r hr'
    have hag' : PMap.Agrees s'.betree.linked.bdv s.betree.linked.bdv :=
      fun k x y h1 h2 => (hag k y x h2 h1).symm
    have r1 : ∀ x, LBr.Reach s.betree.linked.bdv r x →
        s'.betree.linked.bdv x = s.betree.linked.bdv x := fun x hx =>
      agree_reach hag hx (fun y hy => (valid_has v (.inl hy)).1) (fun y hy => (valid_has v' (.inl hy)).1)
    have r2 : ∀ x, LBr.Reach s'.betree.linked.bdv r x →
        s.betree.linked.bdv x = s'.betree.linked.bdv x := fun x hx =>
      agree_reach hag' hx (fun y hy => (valid_has v' (.inl hy)).1) (fun y hy => (valid_has v (.inl hy)).1)
    have e := r1 r .here
    have p1 : ∀ x, PageOf s.betree.linked.bdv r x → PageOf s'.betree.linked.bdv r x := fun x hx =>
      hx.imp (fun hx => reach_frame r1 hx) (fun hx => by rw [e]; exact hx)
    have p2 : ∀ x, PageOf s'.betree.linked.bdv r x → PageOf s.betree.linked.bdv r x := fun x hx =>
      hx.imp (fun hx => reach_frame r2 hx) (fun hx => by rw [← e]; exact hx)
    have pe : ∀ x, PageOf s.betree.linked.bdv r x →
        s'.betree.linked.bdv x = s.betree.linked.bdv x := by
      intro x hx
      obtain ⟨n, hn⟩ := (PMap.has_iff _ _).mp (valid_has v ((page_iff v).mp hx)).1
      obtain ⟨m, hm⟩ := (PMap.has_iff _ _).mp (valid_has v' ((page_iff v').mp (p1 x hx))).1
      rw [show s'.betree.linked.bdv x = some m from hm, show s.betree.linked.bdv x = some n from hn,
        hag x n m hn hm]
    refine ⟨pe, fun x => ⟨p2 x, p1 x⟩, fun u => ?_, fun k => ?_⟩
    · unfold Lists
      rw [e]
      refine or_congr Iff.rfl (exists_congr fun ps => exists_congr fun cs => exists_congr fun p =>
        exists_congr fun S => and_congr_right fun h1 => ?_)
      rw [pe p (.inr ⟨ps, cs, h1⟩)]
    · obtain ⟨_, t, ht, _⟩ := (LBr.inv_iff _).mp v.1
      have ht' := shows_frame ht r1
      show (ABB.getBranch s'.betree.linked.bdv r).query k = (ABB.getBranch s.betree.linked.bdv r).query k
      rw [query_iBuf (b := ABB.getBranch s'.betree.linked.bdv r) v'.1,
        query_iBuf (b := ABB.getBranch s.betree.linked.bdv r) v.1]
      show (iBuf s'.betree.linked.bdv r).query k = (iBuf s.betree.linked.bdv r).query k
      rw [iBuf_eq ht, iBuf_eq ht']
  · intro x n n' h1 h2
    cases a with
    | ext l =>
      rw [ABB.ext_same hs] at h2
      cases h1.symm.trans h2; rfl
    | internal al de =>
      have hl := lift (blankReading cp) hg hs (fun h => h.elim)
      obtain ⟨t, ht⟩ := hg.rel
      obtain ⟨t', h3, h4⟩ := AllocationBetree.step (s := blank s) (s' := blank s') ht hl
      have h5 := (LikesBetree.step ht.inv h3).1
      have h6 := (C17.copy_on_write ht.inv.linked h5 x).1 n n'
      rw [ht.betree, h4.betree] at h6
      exact h6 h1 h2

/-! ### Work is never blocked -/

/-- A set of units none of which is held is fresh. -/
theorem fresh (h : (machine g w cp image).Exec tr s) {al : PSet Nat}
    (hf : ∀ u, al u → ¬ held (ImageUnit image.value) tr u) : s.IsFresh al := by
  refine Demo.fresh_of fun u h1 h2 => hf u h2 ((ledger h u).mpr ?_)
  obtain ⟨hg, _⟩ := run_good h
  rw [nodeUnit_iff hg, branchUnit_iff hg, wipUnit_iff]
  exact h1

/-- Everything written so far can be made ready to persist: with two units that are not held, and no
others, the memtable can be written out in internal steps; then the tree can be frozen. -/
theorem can_persist (hi : Alone image.value.dv) (h : (machine g w cp image).Exec tr s)
    {x addr : Address} (hx : x.wf g) (hne : x.au ≠ addr.au)
    (hf : ∀ u, u = x.au ∨ u = addr.au → ¬ held (ImageUnit image.value) tr u) :
    ∃ more s', (machine g w cp image).Exec
        (tr ++ more ++ [.ext (.freezeAs ⟨s'.betree.linked.iBdv, s.betree.memtable.seqEnd⟩)]) s' ∧
      (∀ l ∈ more, ∃ al de, l = .internal al de ∧ ∀ u, al u → u = x.au ∨ u = addr.au) := by
  by_cases hm : s.betree.memtable.IsEmpty
  · refine ⟨[], s, ?_, fun l h => by cases h⟩
    rw [List.append_nil]
    exact h.snoc (.noop (fun h => by cases h) (.freezeAs hm))
  · obtain ⟨de, s', nt, ks, ms, q1, q2, _, _, _, _, _⟩ :=
      flush_run h (alone_run hi h) hm hx hne (fresh h hf)
    refine ⟨buildLabels x.au ++ [.internal (fun u => u = addr.au) de], s', ?_, ?_⟩
    · rw [← List.append_assoc]
      have he : ExtNext s'.betree (.freezeAs ⟨s'.betree.linked.iBdv, s'.betree.memtable.seqEnd⟩) s'.betree :=
        .freezeAs (by rw [q2]; rfl)
      rw [show s'.betree.memtable.seqEnd = s.betree.memtable.seqEnd by rw [q2]; rfl] at he
      exact q1.snoc (.noop (fun h => by cases h) he)
    · intro l hl
      simp only [buildLabels, List.cons_append, List.nil_append, List.mem_cons, List.not_mem_nil,
        or_false] at hl
      rcases hl with rfl | rfl | rfl | rfl
      · exact ⟨_, _, rfl, fun u h => .inl h⟩
      · exact ⟨_, _, rfl, fun u h => h.elim⟩
      · exact ⟨_, _, rfl, fun u h => h.elim⟩
      · exact ⟨_, _, rfl, fun u h => .inr h⟩

/-- A split the tree allows can be carried out with units that are not held. -/
theorem can_split (hi : Alone image.value.dv) (h : (machine g w cp image).Exec tr s)
    {p : LinkedBetree.Path} {r} {x : LinkedBetree.SplitAddrs} {pa : List Address}
    (hx : SplitUnitsDistinct x) (hxp : ∀ u, unitsOf x.repr u → ¬ unitsOf (fun a => a ∈ pa) u)
    (hpa : ListUnitsDistinct pa) (hc : p.target.CanSplitParent r)
    (hp : LinkedBetree.ValidPathReplacement s.betree.linked.tree p x.NoDup x.repr pa)
    (hf : ∀ u, unitsOf x.repr u ∨ unitsOf (fun a => a ∈ pa) u →
      ¬ held (ImageUnit image.value) tr u) :
    ∃ al de s', Next g w cp s (.internal al de) s' ∧
      s'.betree.memtable = s.betree.memtable ∧
      s'.betree.linked.root = (LinkedBetree.postSplit p r x pa).root ∧
      s'.betree.linked.bdv = s.betree.linked.bdv ∧
      ∀ a n, s'.betree.linked.dv a = some n ↔ (LinkedBetree.postSplit p r x pa).dv a = some n ∧
        Reach (LinkedBetree.postSplit p r x pa).dv (LinkedBetree.postSplit p r x pa).root a := by
  obtain ⟨de, s', nt, q1, q2, _, _, q3⟩ := split_can (cp := cp) (run_good h).1 (alone_run hi h) hx hxp
    hpa hc hp (fresh h hf)
  refine ⟨_, de, s', q1, by rw [q2], by rw [q2]; rfl, by rw [q2]; rfl, fun a n => ⟨fun hn => ?_, ?_⟩⟩
  · refine ⟨?_, (q3 a).mp ((PMap.has_iff _ _).mpr ⟨n, hn⟩)⟩
    rw [q2] at hn; exact trim_sub hn
  · rintro ⟨h1, h2⟩
    obtain ⟨m, hm⟩ := (PMap.has_iff _ _).mp ((q3 a).mpr h2)
    have hm' := hm
    rw [q2] at hm'
    rw [hm, ← h1, trim_sub hm']

/-- A flush the tree allows can be carried out with units that are not held. -/
theorem can_flush (hi : Alone image.value.dv) (h : (machine g w cp image).Exec tr s)
    {p : LinkedBetree.Path} {i gc} {x : LinkedBetree.TwoAddrs} {pa : List Address}
    (hx : TwoUnitsDistinct x) (hxp : ∀ u, unitsOf x.repr u → ¬ unitsOf (fun a => a ∈ pa) u)
    (hpa : ListUnitsDistinct pa) (hc : p.target.CanFlush i gc)
    (hp : LinkedBetree.ValidPathReplacement s.betree.linked.tree p x.NoDup x.repr pa)
    (hf : ∀ u, unitsOf x.repr u ∨ unitsOf (fun a => a ∈ pa) u →
      ¬ held (ImageUnit image.value) tr u) :
    ∃ al de s', Next g w cp s (.internal al de) s' ∧
      s'.betree.memtable = s.betree.memtable ∧
      s'.betree.linked.root = (LinkedBetree.postFlush p i gc x pa).root ∧
      ∀ a n, s'.betree.linked.dv a = some n ↔ (LinkedBetree.postFlush p i gc x pa).dv a = some n ∧
        Reach (LinkedBetree.postFlush p i gc x pa).dv (LinkedBetree.postFlush p i gc x pa).root a := by
  obtain ⟨de, s', nt, d, q1, q2, _, _, q3⟩ := flush_can (cp := cp) (run_good h).1 (alone_run hi h) hx hxp
    hpa hc hp (fresh h hf)
  refine ⟨_, de, s', q1, by rw [q2], by rw [q2]; rfl, fun a n => ⟨fun hn => ?_, ?_⟩⟩
  · refine ⟨?_, (q3 a).mp ((PMap.has_iff _ _).mpr ⟨n, hn⟩)⟩
    rw [q2] at hn; exact trim_sub hn
  · rintro ⟨h1, h2⟩
    obtain ⟨m, hm⟩ := (PMap.has_iff _ _).mp ((q3 a).mpr h2)
    have hm' := hm
    rw [q2] at hm'
    rw [hm, ← h1, trim_sub hm']

/-- Nothing stays behind: running compactions and branches under construction can be given up, and
then only the units of the tree are held, the units an image of this tree would have. -/
theorem can_release (h : (machine g w cp image).Exec tr s) :
    ∃ more s', (machine g w cp image).Exec (tr ++ more) s' ∧
      (∀ l ∈ more, ∃ de, l = .internal (fun _ => False) de) ∧
      s'.betree.memtable = s.betree.memtable ∧ s'.betree.linked.root = s.betree.linked.root ∧
      s'.betree.linked.dv = s.betree.linked.dv ∧
      ∀ u, held (ImageUnit image.value) (tr ++ more) u ↔ ImageUnit s'.betree.linked u := by
  have key : ∀ n tr s, (machine g w cp image).Exec tr s → s.wip.length + s.compactors.length = n →
      ∃ more s', (machine g w cp image).Exec (tr ++ more) s' ∧
      (∀ l ∈ more, ∃ de, l = .internal (fun _ => False) de) ∧
      s'.betree.memtable = s.betree.memtable ∧ s'.betree.linked.root = s.betree.linked.root ∧
      s'.betree.linked.dv = s.betree.linked.dv ∧ s'.wip = [] ∧ s'.compactors = [] := by
    intro n
    induction n with
    | zero =>
      intro tr s h hn
      exact ⟨[], s, by rw [List.append_nil]; exact h, (fun l h => by cases h), rfl, rfl, rfl,
        List.eq_nil_of_length_eq_zero (by omega), List.eq_nil_of_length_eq_zero (by omega)⟩
    | succ n ih =>
      intro tr s h hn
      have step : ∃ de s', Next g w cp s (.internal (fun _ => False) de) s' ∧
          s'.betree.memtable = s.betree.memtable ∧ s'.betree.linked.root = s.betree.linked.root ∧
          s'.betree.linked.dv = s.betree.linked.dv ∧
          s'.wip.length + s'.compactors.length = n := by
        cases hw : s.wip with
        | cons b bs =>
          refine ⟨_, _, .branchAbort (i := 0) (b := b) (fun _ h => h) (by rw [hw]; rfl)
            (fun _ => Iff.rfl), rfl, rfl, rfl, ?_⟩
          simp only [hw, List.eraseIdx_cons_zero]
          rw [hw] at hn
          simp only [List.length_cons] at hn
          omega
        | nil =>
          rw [hw] at hn
          simp only [List.length_nil] at hn
          refine ⟨_, _, .compactAbort (i := 0) (by omega) rfl (fun _ => Iff.rfl) rfl (fun _ h => h)
            (fun _ => Iff.rfl), rfl, rfl, rfl, ?_⟩
          simp only [hw, List.length_nil, List.length_eraseIdx]
          rw [if_pos (by omega)]
          omega
      obtain ⟨de, s1, h1, e1, e2, e3, e4⟩ := step
      obtain ⟨more, s2, h2, hm, f1, f2, f3, f4⟩ := ih _ _ (h.snoc h1) e4
      refine ⟨.internal (fun _ => False) de :: more, s2, by simpa using h2, ?_, f1.trans e1,
        f2.trans e2, f3.trans e3, f4⟩
      intro l hl
      rcases List.mem_cons.mp hl with rfl | hl
      · exact ⟨_, rfl⟩
      · exact hm l hl
  obtain ⟨more, s', h', hm, e1, e2, e3, e4, e5⟩ := key _ _ _ h rfl
  refine ⟨more, s', h', hm, e1, e2, e3, fun u => ?_⟩
  rw [ledger h']
  unfold NodeUnit BranchUnit WipUnit ImageUnit InUse NodeReached
  rw [e4, e5]
  constructor
  · rintro (h | ⟨r, ⟨a, n, h1, h2, h3⟩ | ⟨c, h, _⟩, h4⟩ | ⟨b, h, _⟩)
    · exact .inl h
    · exact .inr ⟨a, n, r, h1, h2, h3, h4⟩
    · cases h
    · cases h
  · rintro (h | ⟨a, n, r, h1, h2, h3, h4⟩)
    · exact .inl h
    · exact .inr (.inl ⟨r, .inl ⟨a, n, h1, h2, h3⟩, h4⟩)
end

/-! ### A concrete case -/

/-- One key put and written out with units 5 and 6: afterwards unit 6 holds the root node, unit 5
the branch, and nothing else is held. -/
theorem demo : ∃ tr s, (code Demo.geo Demo.image).Exec tr s ∧ NodeUnit s 6 ∧ BranchUnit s 5 ∧
    ∀ u, held (ImageUnit Demo.image.value) tr u ↔ u = 5 ∨ u = 6 := by
  obtain ⟨de, s, h, _, hroot, hdv, _, _, hu⟩ := Demo.pushed (w := False) (cp := codeCheck)
  have hr : Reach s.betree.linked.dv s.betree.linked.root Demo.n0 := by rw [hroot]; exact .here hdv
  have hg := (run_good h).1
  have hx : InUse s Demo.x0 := .inl ⟨Demo.n0, _, hr, hdv, by simp [Demo.rootNode]⟩
  have h6 : NodeUnit s 6 := ⟨Demo.n0, hr, rfl⟩
  have h5 : BranchUnit s 5 := ⟨Demo.x0, hx,
    (lists_iff (hg.br.valid _ hx) _).mpr (valid_root (hg.br.valid _ hx))⟩
  refine ⟨_, s, h, h6, h5, fun u => ?_⟩
  rw [ledger h]
  constructor
  · intro hh
    refine hu u ?_
    rw [nodeUnit_iff hg, branchUnit_iff hg, wipUnit_iff] at hh
    exact hh
  · rintro (rfl | rfl)
    · exact .inr (.inl h5)
    · exact .inl h6

/-- The image of the run above has one node page to a unit, as `can_persist` and others ask. -/
example : Alone Demo.image.value.dv := by
  intro a b h
  obtain ⟨n, hn⟩ := (PMap.has_iff _ _).mp h
  cases hn

end Verif.C45
