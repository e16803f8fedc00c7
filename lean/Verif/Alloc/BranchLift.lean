import Verif.Alloc.BranchSet
import Verif.Alloc.LikesProof
/-
The betree over branches seen as a betree over whole buffers. `J` says which buffer stands for the
branch rooted at a page. Proofs only; no code is modelled here.
-/
namespace Verif.ABB
open Verif LinkedBetree LikesBetree ABr

/-! ### The nodes do not look at the buffer pages -/

/-- the same nodes with other buffer pages -/
def withB (l : Linked) (b : BDisk) : Linked := { l with bdv := b }

section skeleton
variable (l : Linked) (b : BDisk)

theorem wf_withB : (withB l b).WF = l.WF := rfl
theorem hasRoot_withB : (withB l b).HasRoot = l.HasRoot := rfl
theorem node_withB : (withB l b).node = l.node := rfl
theorem acyclic_withB : (withB l b).Acyclic ↔ l.Acyclic := Iff.rfl
theorem child_withB (i : Nat) : (withB l b).childAtIdx i = withB (l.childAtIdx i) b := rfl
theorem childForKey_withB (k : Key) : (withB l b).childForKey k = withB (l.childForKey k) b := rfl
theorem reachableBuffer_withB : (withB l b).ReachableBuffer = l.ReachableBuffer := rfl
theorem grow_withB (a : Address) : (withB l b).grow a = withB (l.grow a) b := rfl
theorem rootLikes_withB : rootLikes (withB l b) = rootLikes l := rfl
theorem transitive_withB : transitiveLikes (withB l b) = transitiveLikes l := rfl
theorem canFlush_withB (i gc : Nat) : (withB l b).CanFlush i gc = l.CanFlush i gc := rfl
theorem canSplit_withB (r : SplitRequest) : (withB l b).CanSplitParent r = l.CanSplitParent r := by
  cases r <;> rfl
theorem splitParent_withB (r : SplitRequest) (x : SplitAddrs) :
    (withB l b).splitParent r x = withB (l.splitParent r x) b := by cases r <;> rfl
theorem flush_withB (i gc : Nat) (x : TwoAddrs) : (withB l b).flush i gc x = withB (l.flush i gc x) b :=
  rfl
theorem compact_withB (i j : Nat) (c c' : Buffer) (x : TwoAddrs) :
    (withB l b).compact i j c x = withB (l.compact i j c' x) (b.insert x.addr2 c) := rfl
theorem push_withB (c c' : Buffer) (x : TwoAddrs) :
    (withB l b).pushMemtable c x = withB (l.pushMemtable c' x) (b.insert x.addr2 c) := rfl

theorem validFrom_withB (k : Key) : ∀ (n : Nat) (l : Linked),
    Path.ValidFrom (withB l b) k n ↔ Path.ValidFrom l k n
  | 0, l => Iff.rfl
  | n + 1, l => by
    show _ ∧ _ ∧ _ ∧ _ ∧ Path.ValidFrom (withB (l.childForKey k) b) k n ↔ _
    rw [validFrom_withB k n]
    exact Iff.rfl

theorem targetFrom_withB (k : Key) : ∀ (n : Nat) (l : Linked),
    Path.targetFrom (withB l b) k n = withB (Path.targetFrom l k n) b
  | 0, l => rfl
  | n + 1, l => targetFrom_withB k n (l.childForKey k)

theorem substituteFrom_withB (k : Key) (r : Linked) (c : BDisk) : ∀ (n : Nat) (l : Linked) (as : List Address),
    Path.substituteFrom (withB l b) k (withB r c) n as = withB (Path.substituteFrom l k r n as) c
  | 0, l, as => rfl
  | n + 1, l, as => by
    have ih := substituteFrom_withB k r c n (l.childForKey k) (as.drop 1)
    simp only [Path.substituteFrom]
    rw [childForKey_withB, ih]
    rfl

theorem addrsFrom_withB (k : Key) : ∀ (n : Nat) (l : Linked),
    addrsFrom (withB l b) k n = addrsFrom l k n
  | 0, l => rfl
  | n + 1, l => by
    show _ :: addrsFrom (withB (l.childForKey k) b) k n = _
    rw [addrsFrom_withB k n]
    rfl

/-- the same path through the nodes with other buffer pages -/
def pathB (p : Path) : Path := { p with linked := withB p.linked b }

variable (p : Path)

theorem target_pathB : (pathB b p).target = withB p.target b := targetFrom_withB b _ _ _
theorem valid_pathB : (pathB b p).Valid ↔ p.Valid := validFrom_withB b _ _ _
theorem addrs_pathB : addrsOnPath (pathB b p) = addrsOnPath p := addrsFrom_withB b _ _ _

theorem replacement_pathB {l : Linked} {nodup repr pa} (h : ValidPathReplacement l p nodup repr pa) :
    ValidPathReplacement (withB l b) (pathB b p) nodup repr pa := by
  obtain ⟨h1, h2, h3, h4, h5, h6⟩ := h
  exact ⟨(valid_pathB b p).mpr h1, h2, h3, h4, h5, by rw [h6]; rfl⟩

theorem postSplit_pathB (r : SplitRequest) (x : SplitAddrs) (pa : List Address) :
    postSplit (pathB b p) r x pa = withB (postSplit p r x pa) b := by
  unfold postSplit Path.substitute
  rw [target_pathB, splitParent_withB]
  exact substituteFrom_withB b _ _ _ _ _ _

theorem postFlush_pathB (i gc : Nat) (x : TwoAddrs) (pa : List Address) :
    postFlush (pathB b p) i gc x pa = withB (postFlush p i gc x pa) b := by
  unfold postFlush Path.substitute
  rw [target_pathB, flush_withB]
  exact substituteFrom_withB b _ _ _ _ _ _

theorem postCompact_pathB (i j : Nat) (c c' : Buffer) (x : TwoAddrs) (pa : List Address) :
    postCompact (pathB b p) i j c x pa = withB (postCompact p i j c' x pa) (b.insert x.addr2 c) := by
  unfold postCompact Path.substitute
  rw [target_pathB, compact_withB (c' := c')]
  exact substituteFrom_withB b _ _ _ _ _ _

end skeleton

/-! ### A buffer for every branch -/

abbrev Read := BrDisk → Address → Buffer

/-- every page with the buffer that stands for the branch rooted there -/
def jd (J : Read) (d : BrDisk) : BDisk := fun a => (d a).map fun _ => J d a

theorem jd_has (J : Read) (d : BrDisk) (a : Address) : (jd J d).Has a ↔ d.Has a := by
  unfold PMap.Has jd
  cases d a <;> simp

theorem jd_some {J : Read} {d : BrDisk} {a : Address} {v} : jd J d a = some v ↔ d.Has a ∧ J d a = v := by
  unfold PMap.Has jd
  cases d a <;> simp

/-- the tree with buffers in place of branches -/
def lk (J : Read) (l : BLinked) : Linked := ⟨l.root, l.dv, jd J l.bdv⟩

theorem lk_eq (J : Read) (l : BLinked) : lk J l = withB l.tree (jd J l.bdv) := rfl
theorem iBdv_eq (l : BLinked) : l.iBdv = lk iBuf l := rfl

/-- the state of the betree over buffers, with the memtable `m` -/
def over (J : Read) (m : Memtable) (s : State) : AllocationBetree.State :=
  ⟨⟨m, lk J s.betree.linked⟩, s.betreeAus, s.branchAus⟩

/-- Where both disks have a page it stands for the same buffer. -/
def Same (J : Read) (d d' : BrDisk) : Prop := ∀ a, d.Has a → d'.Has a → J d' a = J d a

theorem view_lk {J : Read} {t : Linked} {d : BrDisk} {new : BLinked}
    (hv : (BLinked.on t d).ValidView new) (h : Same J d new.bdv) :
    (withB t (jd J d)).ValidView (lk J new) := by
  obtain ⟨h1, h2, h3, _⟩ := hv
  refine ⟨h1, h2, h3, ?_⟩
  intro a v w hv hw
  obtain ⟨a1, rfl⟩ := jd_some.mp hv
  obtain ⟨a2, rfl⟩ := jd_some.mp hw
  exact h a a2 a1

theorem view_lk_insert {J : Read} {t : Linked} {d : BrDisk} {x : Address} {c : BranchNode}
    {new : BLinked} (hv : (BLinked.on t (d.insert x c)).ValidView new) (h : Same J d new.bdv) :
    (withB t ((jd J d).insert x (J new.bdv x))).ValidView (lk J new) := by
  obtain ⟨h1, h2, h3, _⟩ := hv
  refine ⟨h1, h2, h3, ?_⟩
  intro a v w hv hw
  obtain ⟨a1, rfl⟩ := jd_some.mp hv
  have hw : ((jd J d).insert x (J new.bdv x)) a = some w := hw
  by_cases hx : a = x
  · subst hx
    rw [PMap.insert_same] at hw; cases hw; rfl
  · rw [PMap.insert_other _ _ hx] at hw
    obtain ⟨a2, rfl⟩ := jd_some.mp hw
    exact h a a2 a1

/-- Freshness, page by page. -/
theorem fresh_lk {J : Read} {s : State} {as : PSet Address}
    (hdv : ∀ a : Address, s.betree.linked.dv.Has a → a.au ∈ s.betreeAus)
    (hbd : ∀ a : Address, s.betree.linked.bdv.Has a → summaryAus s.summary a.au)
    (h1 : ∀ a, as a → a.au ∉ s.betreeAus) (h2 : ∀ a, as a → ¬ summaryAus s.summary a.au) :
    (lk J s.betree.linked).IsFresh as :=
  ⟨fun a ha hd => h1 a ha (hdv a hd), fun a ha hd => h2 a ha (hbd a ((jd_has J _ a).mp hd))⟩

/-! ### The steps over buffers -/

section lift
variable {J : Read} {m : Memtable} {s : State} {new : BLinked} {nt nb : AULikes}

theorem lift_flushMemtable {addr : Address} {br : LBr.Branch Summary}
    (hx : (TwoAddrs.mk addr br.root).NoDup)
    (hm : J new.bdv br.root = m.buffer)
    (hv : (s.betree.linked.pushMemtable br.node ⟨addr, br.root⟩).ValidView new)
    (hnt : nt = s.betreeAus - toAuLikes (rootLikes s.betree.linked.tree) +
      toAuLikes (rootLikes new.tree))
    (hnb : nb = br.root.au ::ₘ s.branchAus)
    (hdv : ∀ a, new.dv.Has a ↔
      (s.betree.linked.pushMemtable br.node ⟨addr, br.root⟩).dv.Has a ∧ a.au ∈ nt)
    (hsame : Same J s.betree.linked.bdv new.bdv)
    (hf : (lk J s.betree.linked).IsFresh (TwoAddrs.mk addr br.root).repr)
    (hk : ∀ a : Address, s.betree.linked.bdv.Has a → a.au ∈ nb → new.bdv.Has a)
    (hr : new.bdv.Has br.root) (s' : State)
    (hs' : s'.betree.linked = new) (ht' : s'.betreeAus = nt) (hb' : s'.branchAus = nb) :
    AllocationBetree.Next (over J m s) .internal (over J m.drain s') := by
  obtain ⟨b', t', n', _, _, _⟩ := s'
  dsimp only at hs' ht' hb'
  subst hs' ht' hb'
  have e : (lk J s.betree.linked).pushMemtable m.buffer ⟨addr, br.root⟩ =
      withB (s.betree.linked.tree.pushMemtable Buffer.empty ⟨addr, br.root⟩)
        ((jd J s.betree.linked.bdv).insert br.root m.buffer) := rfl
  refine AllocationBetree.Next.flushMemtable (s := over J m s) (x := ⟨addr, br.root⟩)
    (new := ⟨m.drain, lk J b'.linked⟩) (.flushMemtable hx rfl ?_) hf hnt hnb ?_ ?_
  · show ((lk J s.betree.linked).pushMemtable m.buffer ⟨addr, br.root⟩).ValidView (lk J b'.linked)
    rw [e, ← hm]
    exact view_lk_insert hv hsame
  · intro a ha hu
    exact (hdv a).mpr ⟨ha, hu⟩
  · intro a ha hu
    refine (jd_has J _ a).mpr ?_
    by_cases hx : a = br.root
    · subst hx; exact hr
    · refine hk a ?_ hu
      have ha : ((jd J s.betree.linked.bdv).insert br.root m.buffer).Has a := ha
      unfold PMap.Has at ha
      rw [PMap.insert_other _ _ hx] at ha
      exact (jd_has J _ a).mp ha

theorem lift_grow {addr : Address} (hf : (lk J s.betree.linked).IsFresh (fun b => b = addr))
    (s' : State) (hs' : s'.betree.linked = .on (s.betree.linked.tree.grow addr) s.betree.linked.bdv)
    (ht' : s'.betreeAus = addr.au ::ₘ s.betreeAus) (hb' : s'.branchAus = s.branchAus) :
    AllocationBetree.Next (over J m s) .internal (over J m s') := by
  obtain ⟨⟨_, b'⟩, t', n', _, _, _⟩ := s'
  dsimp only at hs' ht' hb'
  subst hs' ht' hb'
  exact AllocationBetree.Next.grow (s := over J m s) (new := ⟨m, (lk J s.betree.linked).grow addr⟩)
    .grow hf

theorem lift_split {p : Path} {r} {x : SplitAddrs} {pa : List Address}
    (hc : p.target.CanSplitParent r)
    (hp : ValidPathReplacement s.betree.linked.tree p x.NoDup x.repr pa)
    (hv : (BLinked.on (postSplit p r x pa) s.betree.linked.bdv).ValidView new)
    (hnt : nt = s.betreeAus - toAuLikes (splitDiscardBetree p r) +
      toAuLikes (addBetreeLikes x.likes pa))
    (hnb : nb = s.branchAus + toAuLikes (splitAddBuffers p r))
    (hdv : ∀ a, new.dv.Has a ↔ (postSplit p r x pa).dv.Has a ∧ a.au ∈ nt)
    (hbd : new.bdv = s.betree.linked.bdv)
    (hf : (lk J s.betree.linked).IsFresh (fun a => x.repr a ∨ a ∈ pa))
    (s' : State) (hs' : s'.betree.linked = new) (ht' : s'.betreeAus = nt) (hb' : s'.branchAus = nb) :
    AllocationBetree.Next (over J m s) .internal (over J m s') := by
  obtain ⟨b', t', n', _, _, _⟩ := s'
  dsimp only at hs' ht' hb'
  subst hs' ht' hb'
  have ep := target_pathB (jd J s.betree.linked.bdv) p
  refine AllocationBetree.Next.split (s := over J m s) (new := ⟨m, lk J b'.linked⟩)
    (p := pathB (jd J s.betree.linked.bdv) p) (r := r) (x := x) (pa := pa)
    (.split ?_ ?_ ?_) hf ?_ ?_ ?_ ?_
  · rw [ep, canSplit_withB]; exact hc
  · exact replacement_pathB _ _ hp
  · rw [postSplit_pathB]
    exact view_lk hv (by rw [hbd]; exact fun a _ _ => rfl)
  · rw [hnt]
    unfold splitDiscardBetree
    rw [ep, addrs_pathB, child_withB, rootLikes_withB, rootLikes_withB]
    rfl
  · rw [hnb]
    unfold splitAddBuffers
    rw [ep, child_withB]
    rfl
  · rw [postSplit_pathB]
    exact fun a ha hu => (hdv a).mpr ⟨ha, hu⟩
  · rw [postSplit_pathB]
    intro a ha hu
    refine (jd_has J _ a).mpr ?_
    rw [hbd]
    exact (jd_has J _ a).mp ha

theorem lift_flush {p : Path} {i gc} {x : TwoAddrs} {pa : List Address}
    (hc : p.target.CanFlush i gc)
    (hp : ValidPathReplacement s.betree.linked.tree p x.NoDup x.repr pa)
    (hv : (BLinked.on (postFlush p i gc x pa) s.betree.linked.bdv).ValidView new)
    (hnt : nt = s.betreeAus - toAuLikes (flushDiscardBetree p i) +
      toAuLikes (addBetreeLikes x.likes pa))
    (hnb : nb = s.branchAus - toAuLikes (flushDiscardBuffers p gc) +
      toAuLikes (flushAddBuffers p i))
    (hdv : ∀ a, new.dv.Has a ↔ (postFlush p i gc x pa).dv.Has a ∧ a.au ∈ nt)
    (hsame : Same J s.betree.linked.bdv new.bdv)
    (hk : ∀ a : Address, s.betree.linked.bdv.Has a → a.au ∈ nb → new.bdv.Has a)
    (hf : (lk J s.betree.linked).IsFresh (fun a => x.repr a ∨ a ∈ pa))
    (s' : State) (hs' : s'.betree.linked = new) (ht' : s'.betreeAus = nt) (hb' : s'.branchAus = nb) :
    AllocationBetree.Next (over J m s) .internal (over J m s') := by
  obtain ⟨b', t', n', _, _, _⟩ := s'
  dsimp only at hs' ht' hb'
  subst hs' ht' hb'
  have ep := target_pathB (jd J s.betree.linked.bdv) p
  refine AllocationBetree.Next.flush (s := over J m s) (new := ⟨m, lk J b'.linked⟩)
    (p := pathB (jd J s.betree.linked.bdv) p) (i := i) (gc := gc) (x := x) (pa := pa)
    (.flush ?_ ?_ ?_) hf ?_ ?_ ?_ ?_
  · rw [ep, canFlush_withB]; exact hc
  · exact replacement_pathB _ _ hp
  · rw [postFlush_pathB]
    exact view_lk hv hsame
  · rw [hnt]
    unfold flushDiscardBetree
    rw [ep, addrs_pathB, child_withB, rootLikes_withB, rootLikes_withB]
    rfl
  · rw [hnb]
    unfold flushDiscardBuffers flushAddBuffers
    rw [ep]
    rfl
  · rw [postFlush_pathB]
    exact fun a ha hu => (hdv a).mpr ⟨ha, hu⟩
  · rw [postFlush_pathB]
    intro a ha hu
    exact (jd_has J _ a).mpr (hk a ((jd_has J _ a).mp ha) hu)

theorem lift_compact {p : Path} {a b : Nat} {br : LBr.Branch Summary} {addr : Address}
    {pa : List Address}
    (hc : (withB p.target (jd J s.betree.linked.bdv)).CanCompact a b (J new.bdv br.root))
    (hp : ValidPathReplacement s.betree.linked.tree p (TwoAddrs.mk addr br.root).NoDup
      (TwoAddrs.mk addr br.root).repr pa)
    (hv : (postCompactOn s.betree.linked.bdv p a b br.node ⟨addr, br.root⟩ pa).ValidView new)
    (hnt : nt = s.betreeAus - toAuLikes (compactDiscardBetree p) +
      toAuLikes (compactAddBetree ⟨addr, br.root⟩ pa))
    (hnb : nb = s.branchAus - toAuLikes (compactDiscardBuffers p a b) +
      toAuLikes (compactAddBuffers ⟨addr, br.root⟩))
    (hdv : ∀ y, new.dv.Has y ↔
      (postCompactOn s.betree.linked.bdv p a b br.node ⟨addr, br.root⟩ pa).dv.Has y ∧ y.au ∈ nt)
    (hsame : Same J s.betree.linked.bdv new.bdv)
    (hk : ∀ a : Address, s.betree.linked.bdv.Has a → a.au ∈ nb → new.bdv.Has a)
    (hr : new.bdv.Has br.root)
    (hf : (lk J s.betree.linked).IsFresh (fun a => (TwoAddrs.mk addr br.root).repr a ∨ a ∈ pa))
    (s' : State) (hs' : s'.betree.linked = new) (ht' : s'.betreeAus = nt) (hb' : s'.branchAus = nb) :
    AllocationBetree.Next (over J m s) .internal (over J m s') := by
  obtain ⟨b', t', n', _, _, _⟩ := s'
  dsimp only at hs' ht' hb'
  subst hs' ht' hb'
  have ep := target_pathB (jd J s.betree.linked.bdv) p
  have eq : postCompact (pathB (jd J s.betree.linked.bdv) p) a b (J b'.linked.bdv br.root)
      ⟨addr, br.root⟩ pa = withB (postCompact p a b Buffer.empty ⟨addr, br.root⟩ pa)
        ((jd J s.betree.linked.bdv).insert br.root (J b'.linked.bdv br.root)) :=
    postCompact_pathB _ _ _ _ _ _ _ _
  refine AllocationBetree.Next.compact (s := over J m s) (new := ⟨m, lk J b'.linked⟩)
    (p := pathB (jd J s.betree.linked.bdv) p) (a := a) (b := b) (c := J b'.linked.bdv br.root)
    (x := ⟨addr, br.root⟩) (pa := pa)
    (.compact ?_ ?_ ?_) hf ?_ ?_ ?_ ?_
  · rw [ep]; exact hc
  · exact replacement_pathB _ _ hp
  · rw [eq]
    exact view_lk_insert hv hsame
  · rw [hnt]
    unfold compactDiscardBetree
    rw [ep, addrs_pathB, rootLikes_withB]
    rfl
  · rw [hnb]
    unfold compactDiscardBuffers
    rw [ep]
    rfl
  · rw [eq]
    exact fun a ha hu => (hdv a).mpr ⟨ha, hu⟩
  · rw [eq]
    intro y ha hu
    refine (jd_has J _ y).mpr ?_
    by_cases hx : y = br.root
    · subst hx; exact hr
    · refine hk y ?_ hu
      have ha : ((jd J s.betree.linked.bdv).insert br.root (J b'.linked.bdv br.root)).Has y := ha
      unfold PMap.Has at ha
      rw [PMap.insert_other _ _ hx] at ha
      exact (jd_has J _ y).mp ha

/-- Dropping buffer pages that the tree does not use. -/
theorem lift_drop {d' : BrDisk} (hw : s.betree.linked.tree.WF)
    (hsame : Same J s.betree.linked.bdv d') (hr : ∀ b, s.betree.linked.tree.ReachableBuffer b → d'.Has b)
    (s' : State) (hs' : s'.betree.linked = { s.betree.linked with bdv := d' })
    (ht' : s'.betreeAus = s.betreeAus) (hb' : s'.branchAus = s.branchAus) :
    AllocationBetree.Next (over J m s) .internal (over J m s') := by
  obtain ⟨⟨_, b'⟩, t', n', _, _, _⟩ := s'
  dsimp only at hs' ht' hb'
  subst hs' ht' hb'
  refine AllocationBetree.Next.bufferNoop (s := over J m s)
    (new := ⟨m, lk J { s.betree.linked with bdv := d' }⟩) (.bufferNoop ⟨hw, rfl, fun _ _ h => h, ?_⟩ ?_)
  · intro a v w hv hw
    obtain ⟨a1, rfl⟩ := jd_some.mp hv
    obtain ⟨a2, rfl⟩ := jd_some.mp hw
    exact hsame a a2 a1
  · intro b hb
    exact (jd_has J _ b).mpr (hr b hb)

end lift
end Verif.ABB
