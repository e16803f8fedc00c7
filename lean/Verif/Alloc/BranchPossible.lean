import Verif.Alloc.BranchRuns
import Verif.Betree.LinkedPossible
/-
Which steps of Alloc/AllocationBranchBetree.lean can be taken. Proofs only; no code is modelled here.
-/
namespace Verif.ABB
open Verif LinkedBetree LikesBetree ABr

/-- Every node page is alone in its unit. -/
def Alone (d : Disk) : Prop := ∀ a b : Address, d.Has a → d.Has b → a.au = b.au → a = b

theorem Alone.sub {d d' : Disk} (h : Alone d) (hs : ∀ a, d'.Has a → d.Has a) : Alone d' :=
  fun a b ha hb => h a b (hs a ha) (hs b hb)

theorem distinct_mem {pa : List Address} (h : ListUnitsDistinct pa) {a b : Address} (ha : a ∈ pa)
    (hb : b ∈ pa) (e : a.au = b.au) : a = b := by
  obtain ⟨i, hi, rfl⟩ := List.getElem_of_mem ha
  obtain ⟨j, hj, rfl⟩ := List.getElem_of_mem hb
  by_cases hij : i = j
  · subst hij; rfl
  · exact absurd e (h i j _ _ (List.getElem?_eq_getElem hi) (List.getElem?_eq_getElem hj) hij)

section
variable {g : Geometry} {w : Prop} {cp : Check} {s : State}

/-- The units of the pages at `as` hold no page yet. -/
def Apart (s : State) (as : PSet Address) : Prop :=
  ∀ a, as a → a.au ∉ s.betreeAus ∧ ¬ summaryAus s.summary a.au

theorem Apart.fresh (hg : Good g w s) {as : PSet Address} (h : Apart s as) (J : Read) :
    (lk J s.betree.linked).IsFresh as :=
  fresh_lk hg.dv hg.br.closed (fun a ha => (h a ha).1) (fun a ha => (h a ha).2)

theorem aus_eq (hg : Good g w s) :
    s.betreeAus = toAuLikes (likesAt s.betree.linked.dv s.betree.linked.root) := by
  obtain ⟨⟨tb, tt, tf⟩, hb, hi, ht, _⟩ := hg.rel
  have hb : tb = (blank s).betree := hb
  subst hb
  have hit : tt = likesAt s.betree.linked.dv s.betree.linked.root := hi.tree
  rw [← hit]; exact ht

theorem good_inv (hg : Good g w s) : (lk blankJ s.betree.linked).Inv := (rel_facts hg.rel).1

/-- Nodes written into units of their own are alone in them. -/
theorem alone_writes (hg : Good g w s) (ha : Alone s.betree.linked.dv) {post : Linked}
    {as : PSet Address} {t'} (hw : Writes (lk blankJ s.betree.linked) post as t') (hf : Apart s as)
    (hd : ∀ a b : Address, as a → as b → a.au = b.au → a = b) : Alone post.dv := by
  intro a b h1 h2 e
  rcases hw.only a h1 with h3 | ⟨h3, _⟩ <;> rcases hw.only b h2 with h4 | ⟨h4, _⟩
  · exact ha a b h3 h4 e
  · exact absurd (e ▸ hg.dv a h3) (hf b h4).1
  · exact absurd (e ▸ hg.dv b h4) (hf a h3).1
  · exact hd a b h3 h4 e

/-- the nodes of `post` in the units `nt`, with the buffer disk `d` -/
noncomputable def trim (post : Linked) (nt : AULikes) (d : BrDisk) : BLinked :=
  ⟨post.root, post.dv.restrict fun a => a.au ∈ nt, d⟩

theorem trim_has {post : Linked} {nt : AULikes} {d : BrDisk} {a : Address} :
    (trim post nt d).dv.Has a ↔ post.dv.Has a ∧ a.au ∈ nt := by
  unfold trim
  simp only [PMap.has_iff, PMap.restrict_some]
  exact ⟨fun ⟨n, h1, h2⟩ => ⟨⟨n, h2⟩, h1⟩, fun ⟨⟨n, h2⟩, h1⟩ => ⟨n, h1, h2⟩⟩

theorem trim_sub {post : Linked} {nt : AULikes} {d : BrDisk} {a : Address} {n}
    (h : (trim post nt d).dv a = some n) : post.dv a = some n := by
  have h : (post.dv.restrict fun a => a.au ∈ nt) a = some n := h
  exact (PMap.restrict_some.mp h).2

/-- If nodes are alone in their units, keeping the units in use keeps exactly the nodes reached. -/
theorem trim_wf {post : Linked} (hi : post.Inv) (ha : Alone post.dv) {nt : AULikes}
    (hnt : nt = toAuLikes (likesAt post.dv post.root)) (d : BrDisk) :
    (trim post nt d).tree.WF ∧ ∀ a, (trim post nt d).dv.Has a ↔ Reach post.dv post.root a := by
  obtain ⟨hw, hs, _⟩ := inv_sees hi
  have hk : ∀ a, (trim post nt d).dv.Has a ↔ Reach post.dv post.root a := by
    intro a
    rw [trim_has, hnt]
    constructor
    · rintro ⟨h1, h2⟩
      obtain ⟨b, h3, h4⟩ := mem_toAu.mp h2
      have hb := (mem_likesAt hs).mp h3
      rw [← ha b a (reach_has hb) h1 h4]; exact hb
    · intro h1
      exact ⟨reach_has h1, mem_toAu.mpr ⟨a, (mem_likesAt hs).mpr h1, rfl⟩⟩
  have hsub : PMap.Sub (trim post nt d).dv post.dv := by
    intro a n h
    have h : (post.dv.restrict fun a => a.au ∈ nt) a = some n := h
    exact (PMap.restrict_some.mp h).2
  refine ⟨⟨⟨fun a n h => hw.1 a n (hsub _ _ h), fun a n h => ?_, ?_⟩, ?_⟩, hk⟩
  · have hr := (hk a).mp ((PMap.has_iff _ _).mpr ⟨n, h⟩)
    have hn := hsub _ _ h
    obtain ⟨h1, h2⟩ := hw.2.1 a n hn
    refine ⟨fun i hi' c hc => ?_, fun i hi' c m hc hm => h2 i hi' c m hc (hsub _ _ hm)⟩
    obtain ⟨m, hm⟩ := (PMap.has_iff _ _).mp (h1 i hi' c hc)
    exact (hk c).mpr (reach_trans hr (.down hn hi' (by rw [hc]; exact .here hm)))
  · obtain ⟨L, hL⟩ := hw.2.2
    refine ⟨L, fun a h => hL a ?_⟩
    exact reach_has ((hk a).mp h)
  · intro a h
    have h : post.root = some a := h
    obtain ⟨m, hm⟩ := (PMap.has_iff _ _).mp (hi.1.1.2 a h)
    refine (hk a).mpr ?_
    rw [h]; exact .here hm

/-! ### The nodes after each operation -/

theorem push_facts (hg : Good g w s) {addr x : Address} (hf : Apart s (TwoAddrs.mk addr x).repr) :
    ∃ t', Writes (lk blankJ s.betree.linked)
        ((lk blankJ s.betree.linked).pushMemtable Buffer.empty ⟨addr, x⟩) (TwoAddrs.mk addr x).repr t' ∧
      ((lk blankJ s.betree.linked).pushMemtable Buffer.empty ⟨addr, x⟩).Inv ∧
      s.betreeAus - toAuLikes (rootLikes s.betree.linked.tree) + toAuLikes {addr} =
        toAuLikes (likesAt (s.betree.linked.tree.pushMemtable Buffer.empty ⟨addr, x⟩).dv
          (s.betree.linked.tree.pushMemtable Buffer.empty ⟨addr, x⟩).root) := by
  have hi := good_inv hg
  obtain ⟨hw, hs, hok⟩ := inv_sees hi
  have hfr := hf.fresh hg blankJ
  have hp := push_spec (m := .emptyAt 0) hs hfr
  have hc := push_change (m := .emptyAt 0) hs hfr
  have hok' := (FilteredBetree.step (s := ⟨.emptyAt 0, treeOf (lk blankJ s.betree.linked)⟩) hok
    (.flushMemtable hok.1)).1
  refine ⟨_, hp, (hp.self_view hw hok').1, ?_⟩
  rw [aus_eq hg]
  exact (AllocationBetree.trade_au hc.tree).symm

theorem grow_facts (hg : Good g w s) {addr : Address} (hf : Apart s (fun a => a = addr)) :
    ∃ t', Writes (lk blankJ s.betree.linked) ((lk blankJ s.betree.linked).grow addr)
      (fun b => b = addr) t' := by
  obtain ⟨hw, hs, hok⟩ := inv_sees (good_inv hg)
  exact ⟨_, grow_spec hs (hf.fresh hg blankJ)⟩

theorem split_facts (hg : Good g w s) {p : Path} {r} {x : SplitAddrs} {pa : List Address}
    (hc : p.target.CanSplitParent r)
    (hp : ValidPathReplacement s.betree.linked.tree p x.NoDup x.repr pa)
    (hf : Apart s fun a => x.repr a ∨ a ∈ pa) :
    ∃ t', Writes (lk blankJ s.betree.linked) (withB (postSplit p r x pa) (jd blankJ s.betree.linked.bdv))
        (fun a => x.repr a ∨ a ∈ pa) t' ∧
      (withB (postSplit p r x pa) (jd blankJ s.betree.linked.bdv)).Inv ∧
      s.betreeAus - toAuLikes (splitDiscardBetree p r) + toAuLikes (addBetreeLikes x.likes pa) =
        toAuLikes (likesAt (postSplit p r x pa).dv (postSplit p r x pa).root) := by
  have hi := good_inv hg
  obtain ⟨hw, hs, hok⟩ := inv_sees hi
  have hfr := hf.fresh hg blankJ
  have ep := target_pathB (jd blankJ s.betree.linked.bdv) p
  have hc' : (pathB (jd blankJ s.betree.linked.bdv) p).target.CanSplitParent r := by
    rw [ep, canSplit_withB]; exact hc
  have hp' := replacement_pathB (jd blankJ s.betree.linked.bdv) p hp
  obtain ⟨f1, f2⟩ := fresh_or hfr
  obtain ⟨t1, t2, t3, t4⟩ := target_sees (l := lk blankJ s.betree.linked) hs hp'
  have hft : (pathB (jd blankJ s.betree.linked.bdv) p).target.IsFresh x.repr :=
    ⟨by rw [t2]; exact f1.1, by rw [t3]; exact f1.2⟩
  obtain ⟨c1, c2⟩ := split_spec t4 hft hp.2.2.2.1 hc'
  have hwr : Writes _ (postSplit (pathB (jd blankJ s.betree.linked.bdv) p) r x pa) _ _ :=
    path_writes (l := lk blankJ s.betree.linked) hs hp' f2 c2
  have hok' := (FilteredBetree.step (s := ⟨.emptyAt 0, treeOf (lk blankJ s.betree.linked)⟩) hok
    (.split (p := ⟨treeOf (lk blankJ s.betree.linked), p.key, p.depth⟩) t1 c1 rfl)).1
  have e := postSplit_pathB (jd blankJ s.betree.linked.bdv) p r x pa
  have hch := (split_post (l := lk blankJ s.betree.linked) hs hc' hp' hfr).2
  refine ⟨_, e ▸ hwr, e ▸ (hwr.self_view hw hok').1, ?_⟩
  have := AllocationBetree.trade_au hch.tree
  rw [e] at this
  rw [aus_eq hg]
  unfold splitDiscardBetree at this ⊢
  rw [ep, addrs_pathB] at this
  exact this.symm

theorem flush_facts (hg : Good g w s) {p : Path} {i gc} {x : TwoAddrs} {pa : List Address}
    (hc : p.target.CanFlush i gc)
    (hp : ValidPathReplacement s.betree.linked.tree p x.NoDup x.repr pa)
    (hf : Apart s fun a => x.repr a ∨ a ∈ pa) :
    ∃ t', Writes (lk blankJ s.betree.linked) (withB (postFlush p i gc x pa) (jd blankJ s.betree.linked.bdv))
        (fun a => x.repr a ∨ a ∈ pa) t' ∧
      (withB (postFlush p i gc x pa) (jd blankJ s.betree.linked.bdv)).Inv ∧
      s.betreeAus - toAuLikes (flushDiscardBetree p i) + toAuLikes (addBetreeLikes x.likes pa) =
        toAuLikes (likesAt (postFlush p i gc x pa).dv (postFlush p i gc x pa).root) := by
  have hi := good_inv hg
  obtain ⟨hw, hs, hok⟩ := inv_sees hi
  have hfr := hf.fresh hg blankJ
  have ep := target_pathB (jd blankJ s.betree.linked.bdv) p
  have hc' : (pathB (jd blankJ s.betree.linked.bdv) p).target.CanFlush i gc := by
    rw [ep, canFlush_withB]; exact hc
  have hp' := replacement_pathB (jd blankJ s.betree.linked.bdv) p hp
  obtain ⟨f1, f2⟩ := fresh_or hfr
  obtain ⟨t1, t2, t3, t4⟩ := target_sees (l := lk blankJ s.betree.linked) hs hp'
  have hft : (pathB (jd blankJ s.betree.linked.bdv) p).target.IsFresh x.repr :=
    ⟨by rw [t2]; exact f1.1, by rw [t3]; exact f1.2⟩
  obtain ⟨c1, c2⟩ := flush_spec t4 hft hp.2.2.2.1 hc'
  have hwr : Writes _ (postFlush (pathB (jd blankJ s.betree.linked.bdv) p) i gc x pa) _ _ :=
    path_writes (l := lk blankJ s.betree.linked) hs hp' f2 c2
  have hok' := (FilteredBetree.step (s := ⟨.emptyAt 0, treeOf (lk blankJ s.betree.linked)⟩) hok
    (.flush (p := ⟨treeOf (lk blankJ s.betree.linked), p.key, p.depth⟩) t1 c1 rfl)).1
  have e := postFlush_pathB (jd blankJ s.betree.linked.bdv) p i gc x pa
  have hch := (flush_post (l := lk blankJ s.betree.linked) hs hc' hp' hfr).2
  refine ⟨_, e ▸ hwr, e ▸ (hwr.self_view hw hok').1, ?_⟩
  have := AllocationBetree.trade_au hch.tree
  rw [e] at this
  rw [aus_eq hg]
  unfold flushDiscardBetree at this ⊢
  rw [ep, addrs_pathB] at this
  exact this.symm

theorem compact_facts (hg : Good g w s) {p : Path} {a b} {x : TwoAddrs} {pa : List Address}
    (hc : p.target.WF ∧ p.target.HasRoot ∧ a < b ∧ b ≤ p.target.node.buffers.length)
    (hp : ValidPathReplacement s.betree.linked.tree p x.NoDup x.repr pa)
    (hf : Apart s fun a => x.repr a ∨ a ∈ pa) :
    ∃ t', Writes (lk blankJ s.betree.linked)
        (withB (postCompact p a b Buffer.empty x pa)
          ((jd blankJ s.betree.linked.bdv).insert x.addr2 Buffer.empty))
        (fun a => x.repr a ∨ a ∈ pa) t' ∧
      (withB (postCompact p a b Buffer.empty x pa)
          ((jd blankJ s.betree.linked.bdv).insert x.addr2 Buffer.empty)).Inv ∧
      s.betreeAus - toAuLikes (compactDiscardBetree p) + toAuLikes (compactAddBetree x pa) =
        toAuLikes (likesAt (postCompact p a b Buffer.empty x pa).dv
          (postCompact p a b Buffer.empty x pa).root) := by
  have hi := good_inv hg
  obtain ⟨hw, hs, hok⟩ := inv_sees hi
  have hfr := hf.fresh hg blankJ
  have ep := target_pathB (jd blankJ s.betree.linked.bdv) p
  have hcc := (blankReading fun _ _ _ _ _ _ => True).compact (d := s.betree.linked.bdv)
    (n := p.target.node) (a := a) (b := b) (d' := s.betree.linked.bdv) (x := x.addr2)
    (fun h => h.elim) (fun h => h.elim) trivial
  have hc' : (pathB (jd blankJ s.betree.linked.bdv) p).target.CanCompact a b Buffer.empty := by
    rw [ep]; exact ⟨hc.1, hc.2.1, hc.2.2.1, hc.2.2.2, hcc.1, hcc.2⟩
  have hp' := replacement_pathB (jd blankJ s.betree.linked.bdv) p hp
  obtain ⟨f1, f2⟩ := fresh_or hfr
  obtain ⟨t1, t2, t3, t4⟩ := target_sees (l := lk blankJ s.betree.linked) hs hp'
  have hft : (pathB (jd blankJ s.betree.linked.bdv) p).target.IsFresh x.repr :=
    ⟨by rw [t2]; exact f1.1, by rw [t3]; exact f1.2⟩
  obtain ⟨c1, c2⟩ := compact_spec t4 hft hc'
  have hwr : Writes _ (postCompact (pathB (jd blankJ s.betree.linked.bdv) p) a b Buffer.empty x pa) _ _ :=
    path_writes (l := lk blankJ s.betree.linked) hs hp' f2 c2
  have hok' := (FilteredBetree.step (s := ⟨.emptyAt 0, treeOf (lk blankJ s.betree.linked)⟩) hok
    (.compact (p := ⟨treeOf (lk blankJ s.betree.linked), p.key, p.depth⟩) t1 c1 rfl)).1
  have e := postCompact_pathB (jd blankJ s.betree.linked.bdv) p a b Buffer.empty Buffer.empty x pa
  have hch := (compact_post (l := lk blankJ s.betree.linked) hs hc' hp' hfr).2
  refine ⟨_, e ▸ hwr, e ▸ (hwr.self_view hw hok').1, ?_⟩
  have := AllocationBetree.trade_au hch.tree
  rw [e] at this
  rw [aus_eq hg]
  unfold compactDiscardBetree at this ⊢
  rw [ep, addrs_pathB] at this
  exact this.symm

/-! ### Nodes stay alone in their units -/

theorem alone_step (hg : Good g w s) (ha : Alone s.betree.linked.dv) {a : Label} {s' : State}
    (h : Next g w cp s a s') : Alone s'.betree.linked.dv := by
  cases h with
  | noop hl h => cases h <;> exact ha
  | branchBegin => exact ha
  | branchBuild => exact ha
  | branchGrow => exact ha
  | branchAbort => exact ha
  | compactBegin => exact ha
  | compactAbort => exact ha
  | @flushMemtable al de i b br new addr nt nb hf hi hs hb hx hm hv hnt hnb hal hd hdv hbd =>
    obtain ⟨f1, f2, f3, f4⟩ := done_fresh hg hi hs hb
    have hap : Apart s (TwoAddrs.mk addr br.root).repr := by
      rintro y (rfl | rfl)
      · exact ⟨fun h => hf.1 _ h ((hal _).mpr rfl), fun h => hf.2.1 _ h ((hal _).mpr rfl)⟩
      · exact ⟨f4, f3⟩
    obtain ⟨_, hw, _⟩ := push_facts hg hap
    have hne : addr.au ≠ br.root.au := fun e => by
      have hu : al br.root.au := (hal _).mpr e.symm
      exact hf.2.2 _ (alloc_at hi (((hg.wip.done hi hs hb).2.2 _).mp (valid_root (hg.wip.done hi hs hb).1))) hu
    refine (alone_writes hg ha hw hap ?_).sub fun a h => ((hdv a).mp h).1
    rintro y z (rfl | rfl) (rfl | rfl) e
    · rfl
    · exact absurd e hne
    · exact absurd e.symm hne
    · rfl
  | @grow al de addr hf hal hd =>
    have hap : Apart s (fun a => a = addr) := by
      rintro y rfl
      exact ⟨fun h => hf.1 _ h ((hal _).mpr rfl), fun h => hf.2.1 _ h ((hal _).mpr rfl)⟩
    obtain ⟨_, hw⟩ := grow_facts hg hap
    have := alone_writes hg ha hw hap (by rintro y z rfl rfl _; rfl)
    exact this
  | @split al de new p r x pa nt nb hf hx hxp hpa hc hp hv hnt hnb hal hd hdv hbd =>
    have hap : Apart s fun a => x.repr a ∨ a ∈ pa := by
      intro y hy
      have hu : al y.au := (hal _).mpr (hy.imp (fun h => ⟨y, h, rfl⟩) (fun h => ⟨y, h, rfl⟩))
      exact ⟨fun h => hf.1 _ h hu, fun h => hf.2.1 _ h hu⟩
    obtain ⟨_, hw, _⟩ := split_facts hg hc hp hap
    refine (alone_writes hg ha hw hap ?_).sub fun a h => ((hdv a).mp h).1
    obtain ⟨x1, x2, x3⟩ := hx
    rintro y z (hy | hy) (hz | hz) e
    · rcases hy with rfl | rfl | rfl <;> rcases hz with rfl | rfl | rfl <;>
        first | rfl | exact absurd e x1 | exact absurd e x2 | exact absurd e x3 |
          exact absurd e.symm x1 | exact absurd e.symm x2 | exact absurd e.symm x3
    · exact absurd ⟨z, hz, rfl⟩ (hxp z.au ⟨y, hy, e⟩)
    · exact absurd ⟨y, hy, rfl⟩ (hxp y.au ⟨z, hz, e.symm⟩)
    · exact distinct_mem hpa hy hz e
  | @flush al de new p i gc x pa nt nb gone sm hf hx hxp hpa hc hp hv hnt hnb hgo hsm hal hd hdv hbd =>
    have hap : Apart s fun a => x.repr a ∨ a ∈ pa := by
      intro y hy
      have hu : al y.au := (hal _).mpr (hy.imp (fun h => ⟨y, h, rfl⟩) (fun h => ⟨y, h, rfl⟩))
      exact ⟨fun h => hf.1 _ h hu, fun h => hf.2.1 _ h hu⟩
    obtain ⟨_, hw, _⟩ := flush_facts hg hc hp hap
    refine (alone_writes hg ha hw hap ?_).sub fun a h => ((hdv a).mp h).1
    rintro y z (hy | hy) (hz | hz) e
    · rcases hy with rfl | rfl <;> rcases hz with rfl | rfl <;>
        first | rfl | exact absurd e hx | exact absurd e.symm hx
    · exact absurd ⟨z, hz, rfl⟩ (hxp z.au ⟨y, hy, e⟩)
    · exact absurd ⟨y, hy, rfl⟩ (hxp y.au ⟨z, hz, e.symm⟩)
    · exact distinct_mem hpa hy hz e
  | @compactComplete al de new p a b i j bw br addr pa c cs nt nb gone sm hf hxp hpa hi hin hj hs hb hc
      hp hv hcs hnt hnb hgo hsm hal hd hdv hbd =>
    obtain ⟨f1, f2, f3, f4⟩ := done_fresh hg hj hs hb
    have hap : Apart s fun a => (TwoAddrs.mk addr br.root).repr a ∨ a ∈ pa := by
      rintro y ((rfl | rfl) | hy)
      · exact ⟨fun h => hf.1 _ h ((hal _).mpr (.inl rfl)), fun h => hf.2.1 _ h ((hal _).mpr (.inl rfl))⟩
      · exact ⟨f4, f3⟩
      · have hu : al y.au := (hal _).mpr (.inr ⟨y, hy, rfl⟩)
        exact ⟨fun h => hf.1 _ h hu, fun h => hf.2.1 _ h hu⟩
    obtain ⟨_, hw, _⟩ := compact_facts hg ⟨hc.1, hc.2.1, hc.2.2.1, hc.2.2.2.1⟩ hp hap
    have hbr : allocAus s.wip br.root.au :=
      alloc_at hj (((hg.wip.done hj hs hb).2.2 _).mp (valid_root (hg.wip.done hj hs hb).1))
    have hne : addr.au ≠ br.root.au := fun e => hf.2.2 _ hbr ((hal _).mpr (.inl e.symm))
    have hne2 : ∀ y ∈ pa, y.au ≠ br.root.au := fun y hy e =>
      hf.2.2 _ hbr ((hal _).mpr (.inr ⟨y, hy, e⟩))
    have hne3 : ∀ y ∈ pa, y.au ≠ addr.au := fun y hy e => hxp ⟨y, hy, e⟩
    refine (alone_writes hg ha hw hap ?_).sub fun a h => ((hdv a).mp h).1
    rintro y z ((rfl | rfl) | hy) ((rfl | rfl) | hz) e
    · rfl
    · exact absurd e hne
    · exact absurd e.symm (hne3 z hz)
    · exact absurd e.symm hne
    · rfl
    · exact absurd e.symm (hne2 z hz)
    · exact absurd e (hne3 y hy)
    · exact absurd e (hne2 y hy)
    · exact distinct_mem hpa hy hz e

theorem alone_run {image : Stamped BLinked} {tr} (hi : Alone image.value.dv)
    (h : (machine g w cp image).Exec tr s) : Alone s.betree.linked.dv := by
  refine (Machine.exec_invariant (M := machine g w cp image)
    (I := fun _ s => Good g w s ∧ Alone s.betree.linked.dv) ?_ ?_ h).2
  · intro s hs
    refine ⟨(init_good hs).1, ?_⟩
    obtain ⟨_, _, _, _, _, _, _, _, _, rfl⟩ := hs
    exact hi
  · rintro _ s a s' ⟨hg, ha⟩ hs
    exact ⟨(good_step hg hs).1, alone_step hg ha hs⟩

/-! ### The steps that change nodes can be taken -/

theorem agrees_restrict {d : BrDisk} (P : PSet Address) : PMap.Agrees (d.restrict P) d := by
  intro k v w h1 h2
  rw [(PMap.restrict_some.mp h1).2] at h2; exact Option.some.inj h2

theorem restrict_has {d : BrDisk} {P : PSet Address} {a : Address} :
    (d.restrict P).Has a ↔ d.Has a ∧ P a := by
  simp only [PMap.has_iff, PMap.restrict_some]
  exact ⟨fun ⟨n, h1, h2⟩ => ⟨⟨n, h2⟩, h1⟩, fun ⟨⟨n, h2⟩, h1⟩ => ⟨n, h1, h2⟩⟩

theorem rootLikes_pos {l : Linked} (h : l.HasRoot) :
    rootLikes l = l.root.elim 0 fun a => {a} := if_pos h

/-- A sealed branch that stands for the memtable can be pushed, given one fresh unit. -/
theorem push_can (hg : Good g w s) (ha : Alone s.betree.linked.dv) {i : Nat} {b br}
    (hi : s.wip[i]? = some b) (hs : b.isSealed = true) (hbr : b.branch = some br)
    (hm : iBuf br.disk br.root = s.betree.memtable.buffer) {addr : Address}
    (hf : s.IsFresh fun u => u = addr.au) :
    ∃ de s' nt, Next g w cp s (.internal (fun u => u = addr.au) de) s' ∧
      s'.betree.memtable = s.betree.memtable.drain ∧
      s'.betree.linked = trim (s.betree.linked.tree.pushMemtable Buffer.empty ⟨addr, br.root⟩) nt
        (s.betree.linked.bdv.unionRight br.disk) ∧
      s'.compactors = s.compactors ∧ s'.wip = s.wip.eraseIdx i ∧
      ∀ a, s'.betree.linked.dv.Has a ↔
        Reach (s.betree.linked.tree.pushMemtable Buffer.empty ⟨addr, br.root⟩).dv (some addr) a := by
  obtain ⟨vs, vt, vu⟩ := hg.wip.done hi hs hbr
  obtain ⟨f1, f2, f3, f4⟩ := done_fresh hg hi hs hbr
  obtain ⟨a1, a2, a3, a4, _⟩ := hg.br.add vs vt f1
  have hap : Apart s (TwoAddrs.mk addr br.root).repr := by
    rintro y (rfl | rfl)
    · exact ⟨fun h => hf.1 _ h rfl, fun h => hf.2.1 _ h rfl⟩
    · exact ⟨f4, f3⟩
  have hne : addr.au ≠ br.root.au := fun e =>
    hf.2.2 _ (alloc_at hi ((vu _).mp (valid_root vs))) e.symm
  obtain ⟨t', hw, hinv, hnt⟩ := push_facts hg hap
  have hal := alone_writes hg ha hw hap (by
    rintro y z (rfl | rfl) (rfl | rfl) e
    · rfl
    · exact absurd e hne
    · exact absurd e.symm hne
    · rfl)
  have key := trim_wf hinv hal hnt (s.betree.linked.bdv.unionRight br.disk)
  have key : (trim (s.betree.linked.tree.pushMemtable Buffer.empty ⟨addr, br.root⟩)
      (s.betreeAus - toAuLikes (rootLikes s.betree.linked.tree) + toAuLikes {addr})
      (s.betree.linked.bdv.unionRight br.disk)).tree.WF ∧ _ := key
  have hagree : PMap.Agrees (s.betree.linked.bdv.unionRight br.disk)
      (s.betree.linked.bdv.insert br.root br.node) := by
    intro k v z h1 h2
    by_cases e : k = br.root
    · subst e
      rw [PMap.insert_same] at h2; cases h2
      obtain ⟨n, hn⟩ := (PMap.has_iff _ _).mp (valid_has vs (.inl .here)).1
      rw [a4 _ _ hn] at h1; cases h1
      unfold LBr.Branch.node; rw [hn]; rfl
    · rw [PMap.insert_other _ _ e] at h2
      rw [a3 _ _ h2] at h1; exact (Option.some.inj h1).symm
  have hroot : rootLikes (trim (s.betree.linked.tree.pushMemtable Buffer.empty ⟨addr, br.root⟩)
      (s.betreeAus - toAuLikes (rootLikes s.betree.linked.tree) + toAuLikes {addr})
      (s.betree.linked.bdv.unionRight br.disk)).tree = {addr} := by
    have hh : (trim (s.betree.linked.tree.pushMemtable Buffer.empty ⟨addr, br.root⟩)
      (s.betreeAus - toAuLikes (rootLikes s.betree.linked.tree) + toAuLikes {addr})
      (s.betree.linked.bdv.unionRight br.disk)).tree.HasRoot := ⟨addr, rfl, key.1.2 addr rfl⟩
    exact (rootLikes_pos hh).trans rfl
  refine ⟨fun u => u ∈ s.betreeAus ∧ u ∉ s.betreeAus - toAuLikes (rootLikes s.betree.linked.tree) +
      toAuLikes {addr}, _, _,
    .flushMemtable (new := trim (s.betree.linked.tree.pushMemtable Buffer.empty ⟨addr, br.root⟩)
      (s.betreeAus - toAuLikes (rootLikes s.betree.linked.tree) + toAuLikes {addr})
      (s.betree.linked.bdv.unionRight br.disk)) (addr := addr) hf hi hs hbr
      (fun e => hne (congrArg Address.au e)) ?_ ⟨key.1, rfl, ?_, hagree⟩ (by rw [hroot]) rfl (fun _ => Iff.rfl)
      (fun _ => Iff.rfl) (fun a => trim_has) rfl, rfl, rfl, rfl, rfl, key.2⟩
  · rw [← hm]
    refine (iBuf_sub ?_ a4 (valid_has vs (.inl .here)).1).symm
    exact ((LBr.inv_iff _).mp vs.1).1
  · intro a n h
    exact trim_sub h

/-- A split allowed by the tree can be carried out, given fresh units, one for each page. -/
theorem split_can (hg : Good g w s) (ha : Alone s.betree.linked.dv) {p : Path} {r} {x : SplitAddrs}
    {pa : List Address} (hx : SplitUnitsDistinct x)
    (hxp : ∀ u, unitsOf x.repr u → ¬ unitsOf (fun a => a ∈ pa) u) (hpa : ListUnitsDistinct pa)
    (hc : p.target.CanSplitParent r)
    (hp : ValidPathReplacement s.betree.linked.tree p x.NoDup x.repr pa)
    (hf : s.IsFresh fun u => unitsOf x.repr u ∨ unitsOf (fun a => a ∈ pa) u) :
    ∃ de s' nt, Next g w cp s
        (.internal (fun u => unitsOf x.repr u ∨ unitsOf (fun a => a ∈ pa) u) de) s' ∧
      s'.betree = ⟨s.betree.memtable, trim (postSplit p r x pa) nt s.betree.linked.bdv⟩ ∧
      s'.compactors = s.compactors ∧ s'.wip = s.wip ∧
      ∀ a, s'.betree.linked.dv.Has a ↔ Reach (postSplit p r x pa).dv (postSplit p r x pa).root a := by
  have hap : Apart s fun a => x.repr a ∨ a ∈ pa := by
    intro y hy
    have hu := hy.imp (fun h : x.repr y => (⟨y, h, rfl⟩ : unitsOf x.repr y.au))
      (fun h => (⟨y, h, rfl⟩ : unitsOf (fun a => a ∈ pa) y.au))
    exact ⟨fun h => hf.1 _ h hu, fun h => hf.2.1 _ h hu⟩
  obtain ⟨t', hw, hinv, hnt⟩ := split_facts hg hc hp hap
  have hal := alone_writes hg ha hw hap (by
    obtain ⟨x1, x2, x3⟩ := hx
    rintro y z (hy | hy) (hz | hz) e
    · rcases hy with rfl | rfl | rfl <;> rcases hz with rfl | rfl | rfl <;>
        first | rfl | exact absurd e x1 | exact absurd e x2 | exact absurd e x3 |
          exact absurd e.symm x1 | exact absurd e.symm x2 | exact absurd e.symm x3
    · exact absurd ⟨z, hz, rfl⟩ (hxp z.au ⟨y, hy, e⟩)
    · exact absurd ⟨y, hy, rfl⟩ (hxp y.au ⟨z, hz, e.symm⟩)
    · exact distinct_mem hpa hy hz e)
  have key := trim_wf hinv hal hnt s.betree.linked.bdv
  refine ⟨_, _, _, .split (new := trim (postSplit p r x pa) _ s.betree.linked.bdv) hf hx hxp hpa hc hp
    ⟨key.1, rfl, ?_, ?_⟩ rfl rfl (fun _ => Iff.rfl) (fun _ => Iff.rfl) (fun a => trim_has) rfl,
    rfl, rfl, rfl, key.2⟩
  · intro a n h
    exact trim_sub h
  · intro k v z h1 h2
    have h1 : s.betree.linked.bdv k = some v := h1
    have h2 : s.betree.linked.bdv k = some z := h2
    rw [h1] at h2; exact Option.some.inj h2

/-- A flush allowed by the tree can be carried out, given fresh units, one for each page. -/
theorem flush_can (hg : Good g w s) (ha : Alone s.betree.linked.dv) {p : Path} {i gc} {x : TwoAddrs}
    {pa : List Address} (hx : TwoUnitsDistinct x)
    (hxp : ∀ u, unitsOf x.repr u → ¬ unitsOf (fun a => a ∈ pa) u) (hpa : ListUnitsDistinct pa)
    (hc : p.target.CanFlush i gc)
    (hp : ValidPathReplacement s.betree.linked.tree p x.NoDup x.repr pa)
    (hf : s.IsFresh fun u => unitsOf x.repr u ∨ unitsOf (fun a => a ∈ pa) u) :
    ∃ de s' nt d, Next g w cp s
        (.internal (fun u => unitsOf x.repr u ∨ unitsOf (fun a => a ∈ pa) u) de) s' ∧
      s'.betree = ⟨s.betree.memtable, trim (postFlush p i gc x pa) nt d⟩ ∧
      s'.compactors = s.compactors ∧ s'.wip = s.wip ∧
      ∀ a, s'.betree.linked.dv.Has a ↔
        Reach (postFlush p i gc x pa).dv (postFlush p i gc x pa).root a := by
  have hap : Apart s fun a => x.repr a ∨ a ∈ pa := by
    intro y hy
    have hu := hy.imp (fun h : x.repr y => (⟨y, h, rfl⟩ : unitsOf x.repr y.au))
      (fun h => (⟨y, h, rfl⟩ : unitsOf (fun a => a ∈ pa) y.au))
    exact ⟨fun h => hf.1 _ h hu, fun h => hf.2.1 _ h hu⟩
  obtain ⟨t', hw, hinv, hnt⟩ := flush_facts hg hc hp hap
  have hal := alone_writes hg ha hw hap (by
    rintro y z (hy | hy) (hz | hz) e
    · rcases hy with rfl | rfl <;> rcases hz with rfl | rfl <;>
        first | rfl | exact absurd e hx | exact absurd e.symm hx
    · exact absurd ⟨z, hz, rfl⟩ (hxp z.au ⟨y, hy, e⟩)
    · exact absurd ⟨y, hy, rfl⟩ (hxp y.au ⟨z, hz, e.symm⟩)
    · exact distinct_mem hpa hy hz e)
  have key := fun d => trim_wf hinv hal hnt d
  refine ⟨_, _, _, _, .flush (new := trim (postFlush p i gc x pa) _ (s.betree.linked.bdv.restrict _))
    hf hx hxp hpa hc hp
    ⟨(key _).1, rfl, ?_, agrees_restrict _⟩ rfl rfl (fun _ => Iff.rfl) rfl (fun _ => Iff.rfl)
    (fun _ => Iff.rfl) (fun a => trim_has) (fun a => restrict_has), rfl, rfl, rfl, (key _).2⟩
  intro a n h
  exact trim_sub h

/-- A compaction whose result has been built can be completed, given fresh units for the node and
the path, if the check accepts the result on every well-formed disk that holds the pages of the new branch. -/
theorem compact_can (hg : Good g w s) (ha : Alone s.betree.linked.dv) {p : Path} {a b i j : Nat} {c}
    {bw br} {addr : Address} {pa : List Address} (hxp : ¬ unitsOf (fun a => a ∈ pa) addr.au)
    (hpa : ListUnitsDistinct pa) (hi : s.compactors[i]? = some c) (hin : ValidCompactorInput p a b c)
    (hj : s.wip[j]? = some bw) (hs : bw.isSealed = true) (hbr : bw.branch = some br)
    (hc : p.target.WF ∧ p.target.HasRoot ∧ a < b ∧ b ≤ p.target.node.buffers.length)
    (hcp : ∀ d' : BrDisk, d'.WF → (∀ y : Address, getSummary br y.au → d' y = br.disk y) →
      cp s.betree.linked.bdv p.target.node a b d' br.root)
    (hp : ValidPathReplacement s.betree.linked.tree p (TwoAddrs.mk addr br.root).NoDup
      (TwoAddrs.mk addr br.root).repr pa)
    (hf : s.IsFresh fun u => u = addr.au ∨ unitsOf (fun a => a ∈ pa) u) :
    ∃ de s' nt d, Next g w cp s (.internal (fun u => u = addr.au ∨ unitsOf (fun a => a ∈ pa) u) de) s' ∧
      s'.betree = ⟨s.betree.memtable,
        trim (postCompact p a b Buffer.empty ⟨addr, br.root⟩ pa) nt d⟩ ∧
      (∀ y : Address, getSummary br y.au → d y = br.disk y) ∧
      s'.compactors = s.compactors.eraseIdx i ∧ s'.wip = s.wip.eraseIdx j ∧
      ∀ y, s'.betree.linked.dv.Has y ↔
        Reach (postCompact p a b Buffer.empty ⟨addr, br.root⟩ pa).dv
          (postCompact p a b Buffer.empty ⟨addr, br.root⟩ pa).root y := by
  obtain ⟨vs, vt, vu⟩ := hg.wip.done hj hs hbr
  obtain ⟨f1, f2, f3, f4⟩ := done_fresh hg hj hs hbr
  obtain ⟨a1, a2, a3, a4, _⟩ := hg.br.add vs vt f1
  have hwip : allocAus s.wip br.root.au := alloc_at hj ((vu _).mp (valid_root vs))
  have hap : Apart s fun a => (TwoAddrs.mk addr br.root).repr a ∨ a ∈ pa := by
    rintro y ((rfl | rfl) | h)
    · exact ⟨fun h => hf.1 _ h (.inl rfl), fun h => hf.2.1 _ h (.inl rfl)⟩
    · exact ⟨f4, f3⟩
    · exact ⟨fun h1 => hf.1 _ h1 (.inr ⟨y, h, rfl⟩), fun h1 => hf.2.1 _ h1 (.inr ⟨y, h, rfl⟩)⟩
  have hne : addr.au ≠ br.root.au := fun e => hf.2.2 _ hwip (.inl e.symm)
  have hnr : ∀ z ∈ pa, z.au ≠ br.root.au := fun z hz e => hf.2.2 _ hwip (.inr ⟨z, hz, e⟩)
  obtain ⟨t', hw, hinv, hnt⟩ := compact_facts hg hc hp hap
  have hal := alone_writes hg ha hw hap (by
    rintro y z ((rfl | rfl) | hy) ((rfl | rfl) | hz) e
    · rfl
    · exact absurd e hne
    · exact absurd ⟨z, hz, e.symm⟩ hxp
    · exact absurd e.symm hne
    · rfl
    · exact absurd e.symm (hnr z hz)
    · exact absurd ⟨y, hy, e⟩ hxp
    · exact absurd e (hnr y hy)
    · exact distinct_mem hpa hy hz e)
  have key := fun d => trim_wf hinv hal hnt d
  generalize hnt' : s.betreeAus - toAuLikes (compactDiscardBetree p) +
    toAuLikes (compactAddBetree ⟨addr, br.root⟩ pa) = nt at key
  obtain ⟨nb, hnb⟩ : ∃ nb, nb = s.branchAus - toAuLikes (compactDiscardBuffers p a b) +
    toAuLikes (compactAddBuffers ⟨addr, br.root⟩) := ⟨_, rfl⟩
  obtain ⟨gone, hgo⟩ : ∃ gone : PSet Nat, ∀ u, gone u ↔
    s.summary.Has u ∧ u ∉ nb ∧ ¬ readRefAus (s.compactors.eraseIdx i) u := ⟨_, fun _ => Iff.rfl⟩
  obtain ⟨sm, hsm⟩ : ∃ sm, sm = (s.summary.insert br.root.au (getSummary br)).removeKeys gone :=
    ⟨_, rfl⟩
  obtain ⟨d, hd⟩ : ∃ d, d = (s.betree.linked.bdv.unionRight br.disk).restrict
    fun y => summaryAus sm y.au := ⟨_, rfl⟩
  have hng : ¬ gone br.root.au := by
    intro h1
    refine ((hgo _).mp h1).2.1 ?_
    rw [hnb]
    exact Multiset.mem_add.mpr (.inr (mem_toAu.mpr ⟨br.root, Multiset.mem_singleton.mpr rfl, rfl⟩))
  obtain ⟨k1, k2, k3⟩ := compact_disk hg hj hs hbr hng hsm hd
  have hdw : LBr.Disk.WF d := by
    refine (a1.drop (gone := gone) (R' := fun y => (Roots s y ∨ y = br.root) ∧ ¬ gone y.au) (d' := d)
      (fun _ => Iff.rfl) ?_ fun y => ?_).1.wf
    · rw [hd]; exact fun k v h => (PMap.restrict_some.mp h).2
    · rw [hd, ← hsm]; exact restrict_has
  have hagree : PMap.Agrees d (s.betree.linked.bdv.insert br.root br.node) := by
    intro k v z h1 h2
    have h1 : s.betree.linked.bdv.unionRight br.disk k = some v := by
      rw [hd] at h1; exact (PMap.restrict_some.mp h1).2
    by_cases e : k = br.root
    · subst e
      rw [PMap.insert_same] at h2; cases h2
      obtain ⟨n, hn⟩ := (PMap.has_iff _ _).mp (valid_has vs (.inl .here)).1
      rw [a4 _ _ hn] at h1; cases h1
      unfold LBr.Branch.node; rw [hn]; rfl
    · rw [PMap.insert_other _ _ e] at h2
      rw [a3 _ _ h2] at h1; exact (Option.some.inj h1).symm
  refine ⟨_, _, nt, d, .compactComplete
    (new := trim (postCompact p a b Buffer.empty ⟨addr, br.root⟩ pa) nt d) hf hxp hpa hi hin hj hs hbr
    ⟨hc.1, hc.2.1, hc.2.2.1, hc.2.2.2, hcp _ hdw k3⟩ hp ⟨(key d).1, rfl, ?_, hagree⟩ rfl hnt'.symm hnb hgo hsm
    (fun _ => Iff.rfl) (fun _ => Iff.rfl) (fun a => trim_has) hd, rfl, k3, rfl, rfl, (key d).2⟩
  intro y n h
  exact trim_sub h

end
end Verif.ABB
