import Verif.Alloc.BranchLift
import Verif.Alloc.BranchWips
import Mathlib.Tactic.Tauto
/-
Proofs about Alloc/AllocationBranchBetree.lean: the invariant and its preservation, and the steps
seen over whole buffers. No code is modelled here.
-/
namespace Verif.ABB
open Verif LinkedBetree LikesBetree ABr

/-! ### Reachable buffers -/

/-- the roots of the branches in use: by the tree or by a running compaction -/
def Roots (s : State) : PSet Address := fun a =>
  s.betree.linked.tree.ReachableBuffer a ∨ inputRoots s.compactors a

theorem target_reach {k : Key} : ∀ (n : Nat) {l : Linked} {a : Address}, Path.ValidFrom l k n →
    Reach l.dv (Path.targetFrom l k n).root a → Reach l.dv l.root a
  | 0, _, _, _, h => h
  | n + 1, l, a, hv, h => by
    obtain ⟨⟨r, hr, hh⟩, _, hk, _, hv⟩ := hv
    have ih := target_reach n (l := l.childForKey k) hv h
    obtain ⟨m, hm⟩ := (PMap.has_iff _ _).mp hh
    have hn : l.node = m := by simp [Linked.node, hr, hm]
    obtain ⟨i, hi, hlt⟩ := route_child hk
    rw [hr]
    refine .down hm (hn ▸ hlt) ?_
    have : (l.childForKey k).root = m.childAt i := by
      show l.node.childAt (l.node.pivots.route k).toNat = _
      rw [hi, hn]; rfl
    rw [← this]; exact ih

theorem target_dv (k : Key) : ∀ (n : Nat) (l : Linked), (Path.targetFrom l k n).dv = l.dv
  | 0, _ => rfl
  | n + 1, l => target_dv k n (l.childForKey k)

theorem node_at {l : Linked} (h : l.HasRoot) : ∃ a, l.root = some a ∧ l.dv a = some l.node := by
  obtain ⟨a, ha, hh⟩ := h
  obtain ⟨n, hn⟩ := (PMap.has_iff _ _).mp hh
  exact ⟨a, ha, by simp [Linked.node, ha, hn]⟩

/-- The buffers of the node a path leads to are buffers of the tree. -/
theorem target_buffers {l : Linked} {p : Path} (hl : l = p.linked) (hv : p.Valid)
    (hr : p.target.HasRoot) {b : Address} (hb : b ∈ p.target.node.buffers) : l.ReachableBuffer b := by
  subst hl
  obtain ⟨a, ha, hn⟩ := node_at hr
  have hd : p.target.dv = p.linked.dv := target_dv _ _ _
  rw [hd] at hn
  refine ⟨a, _, target_reach p.depth hv ?_, hn, hb⟩
  show Reach p.linked.dv p.target.root a
  rw [ha]; exact .here hn

/-- The buffers of a child of that node too. -/
theorem child_buffers {l : Linked} {p : Path} (hl : l = p.linked) (hv : p.Valid)
    (hr : p.target.HasRoot) {i : Nat} (hi : p.target.node.ValidChildIndex i) {b : Address}
    (hb : b ∈ bufferLikes (p.target.childAtIdx i).dv (rootLikes (p.target.childAtIdx i))) :
    l.ReachableBuffer b := by
  subst hl
  obtain ⟨a, ha, hn⟩ := node_at hr
  have hd : p.target.dv = p.linked.dv := target_dv _ _ _
  have hcd : (p.target.childAtIdx i).dv = p.linked.dv := hd
  rw [hcd] at hb
  rw [hd] at hn
  unfold rootLikes at hb
  by_cases hc : (p.target.childAtIdx i).HasRoot
  · rw [if_pos hc] at hb
    obtain ⟨c, hc1, hc2⟩ := node_at hc
    rw [hc1] at hb
    rw [hcd] at hc2
    have hb : b ∈ bufferLikes p.linked.dv {c} := hb
    rw [bufferLikes_single, bufs_of hc2] at hb
    refine ⟨c, _, target_reach p.depth hv ?_, hc2, Multiset.mem_coe.mp hb⟩
    show Reach p.linked.dv p.target.root c
    rw [ha]
    refine .down hn hi ?_
    rw [show p.target.node.childAt i = some c from hc1]
    exact .here hc2
  · rw [if_neg hc] at hb
    have hb : b ∈ bufferLikes p.linked.dv 0 := hb
    rw [bufferLikes_zero] at hb
    exact absurd hb (Multiset.notMem_zero _)

/-- The buffers reached after an operation were reached before or are added by it. -/
theorem reach_new {l post new : Linked} {t t' as out inn outB innB} (hs : Sees l.dv l.bdv l.root t)
    (hw : Writes l post as t') (hc : Change l post out inn outB innB) (hv : post.ValidView new)
    {b : Address} (hb : new.ReachableBuffer b) : l.ReachableBuffer b ∨ b ∈ innB := by
  obtain ⟨a, n, h1, h2, h3⟩ := hb
  have hp : post.ReachableBuffer b := ⟨a, n, by rw [hv.2.1]; exact reach_mono hv.2.2.1 h1, hv.2.2.1 _ _ h2, h3⟩
  have hm := (mem_bufferLikes hw.sees).mpr hp
  obtain ⟨rest, e1, e2⟩ := hc.buf
  rw [e2] at hm
  rcases Multiset.mem_add.mp hm with h | h
  · exact .inr h
  · refine .inl ((mem_bufferLikes hs).mp ?_)
    rw [e1]; exact Multiset.mem_add.mpr (.inr h)

/-! ### The invariant -/

/-- every branch stands for an empty buffer -/
def blankJ : Read := fun _ _ => Buffer.empty

def blank (s : State) : AllocationBetree.State := over blankJ (.emptyAt 0) s

structure Good (g : Geometry) (w : Prop) (s : State) : Prop where
  rel : ∃ t, AllocationBetree.Rel (blank s) t
  br : Br s.betree.linked.bdv (Roots s) s.summary
  dv : ∀ a : Address, s.betree.linked.dv.Has a → a.au ∈ s.betreeAus
  node_branch : ∀ u, u ∈ s.betreeAus → ¬ summaryAus s.summary u
  node_wip : ∀ u, u ∈ s.betreeAus → ¬ allocAus s.wip u
  branch_wip : ∀ u, summaryAus s.summary u → ¬ allocAus s.wip u
  wip : Wips g w s.wip

/-- What the counts say about a state. -/
theorem rel_facts {s : State} (h : ∃ t, AllocationBetree.Rel (blank s) t) :
    (lk blankJ s.betree.linked).Inv ∧
    (∃ t, Sees (lk blankJ s.betree.linked).dv (lk blankJ s.betree.linked).bdv
      (lk blankJ s.betree.linked).root t) ∧
    (∀ u, u ∈ s.betreeAus ↔
      ∃ a : Address, Reach s.betree.linked.dv s.betree.linked.root a ∧ a.au = u) ∧
    ∀ u, u ∈ s.branchAus ↔ ∃ b : Address, s.betree.linked.tree.ReachableBuffer b ∧ b.au = u := by
  obtain ⟨⟨tb, tt, tf⟩, hb, hi, ht, hf⟩ := h
  have hb : tb = (blank s).betree := hb
  subst hb
  obtain ⟨hw, hs, _⟩ := inv_sees hi.linked
  have hit : tt = likesAt s.betree.linked.dv s.betree.linked.root := hi.tree
  have hib : tf = bufferLikes s.betree.linked.dv (likesAt s.betree.linked.dv s.betree.linked.root) :=
    hi.buf
  refine ⟨hi.linked, ⟨_, hs⟩, fun u => ?_, fun u => ?_⟩
  · have : s.betreeAus = toAuLikes tt := ht
    rw [this, hit]
    constructor
    · intro hu
      obtain ⟨a, h1, h2⟩ := AllocationBetree.mem_au hu
      exact ⟨a, (mem_likesAt hs).mp h1, h2⟩
    · rintro ⟨a, h1, h2⟩
      exact Multiset.mem_map.mpr ⟨a, (mem_likesAt hs).mpr h1, h2⟩
  · have : s.branchAus = toAuLikes tf := hf
    rw [this, hib]
    constructor
    · intro hu
      obtain ⟨a, h1, h2⟩ := AllocationBetree.mem_au hu
      exact ⟨a, (mem_bufferLikes (l := lk blankJ s.betree.linked) hs).mp h1, h2⟩
    · rintro ⟨a, h1, h2⟩
      exact Multiset.mem_map.mpr ⟨a, (mem_bufferLikes (l := lk blankJ s.betree.linked) hs).mpr h1, h2⟩

theorem mem_sub_add {α : Type} [DecidableEq α] {a b c : Multiset α} {u : α} (h : u ∈ a - b + c) :
    u ∈ a ∨ u ∈ c := by
  rcases Multiset.mem_add.mp h with h | h
  · exact .inl (Multiset.mem_of_le (Multiset.sub_le_self _ _) h)
  · exact .inr h

theorem mem_toAu {m : Likes} {u : Nat} : u ∈ toAuLikes m ↔ ∃ a ∈ m, a.au = u := Multiset.mem_map

theorem sub_of_agrees {d d' : BrDisk} (h : PMap.Agrees d' d) (hd : ∀ a, d'.Has a → d.Has a) :
    PMap.Sub d' d := by
  intro a v hv
  obtain ⟨x, hx⟩ := (PMap.has_iff _ _).mp (hd a ((PMap.has_iff _ _).mpr ⟨v, hv⟩))
  rw [hx, h a v x hv hx]

/-- A way to read branches as buffers and the memtable as a memtable. `strict`: the reading looks at
the branches. -/
structure Reading (cp : Check) where
  strict : Prop
  J : Read
  M : Memtable → Memtable
  drain : ∀ m, M m.drain = (M m).drain
  same : ∀ {d d' : BrDisk} {a}, (strict → d'.WF) → PMap.Sub d' d → d'.Has a → J d' a = J d a
  flush : ∀ {d x} {m : Memtable}, iBuf d x = m.buffer → J d x = (M m).buffer
  compact : ∀ {d : BrDisk} {n : LNode} {a b : Nat} {d' : BrDisk} {x},
    (strict → ∀ y ∈ n.buffers, ValidSealedBranch ⟨y, d⟩) → (strict → ValidSealedBranch ⟨x, d'⟩) →
    cp d n a b d' x →
    (∀ k, (J d' x).Contains k ↔ (jd J d).ValidCompactKeyDomain n a b k) ∧
    ∀ k, (J d' x).Contains k → (J d' x).query k = (jd J d).compactKeyValue n a b k

def Reading.over {cp : Check} (r : Reading cp) (s : State) : AllocationBetree.State :=
  ABB.over r.J (r.M s.betree.memtable) s

/-- Nothing is read. -/
def blankReading (cp : Check) : Reading cp where
  strict := False
  J := blankJ
  M := fun _ => .emptyAt 0
  drain := fun _ => rfl
  same := fun _ _ _ => rfl
  flush := fun _ => rfl
  compact := by
    intro d n a b d' x _ _ _
    have hno : ∀ k, ¬ Buffer.empty.Contains k := fun k h => by
      obtain h := (PMap.has_iff _ _).mp h
      obtain ⟨_, h⟩ := h
      cases h
    refine ⟨fun k => ⟨fun h => absurd h (hno k), ?_⟩, fun k h => absurd h (hno k)⟩
    rintro ⟨_, _, i, ⟨_, y, _, z, hz, hc⟩, _⟩
    obtain ⟨_, rfl⟩ := jd_some.mp hz
    exact absurd hc (hno k)

section step
variable {g : Geometry} {w : Prop} {cp : Check} {s s' : State} {al de : PSet Nat}

/-- A finished branch beside the branches in use. -/
theorem done_fresh (hg : Good g w s) {i : Nat} {b br} (hi : s.wip[i]? = some b)
    (hs : b.isSealed = true) (hbr : b.branch = some br) :
    (∀ u, getSummary br u → ¬ summaryAus s.summary u) ∧ (∀ u, getSummary br u → u ∉ s.betreeAus) ∧
    ¬ summaryAus s.summary br.root.au ∧ br.root.au ∉ s.betreeAus := by
  obtain ⟨hv, _, hu⟩ := hg.wip.done hi hs hbr
  have h1 : ∀ u, getSummary br u → ¬ summaryAus s.summary u := fun u h1 h2 =>
    hg.branch_wip u h2 (alloc_at hi ((hu u).mp h1))
  have h2 : ∀ u, getSummary br u → u ∉ s.betreeAus := fun u h1 h2 =>
    hg.node_wip u h2 (alloc_at hi ((hu u).mp h1))
  exact ⟨h1, h2, h1 _ (valid_root hv), h2 _ (valid_root hv)⟩

/-- The pages of a unit that the tree still uses are kept. -/
theorem kept_unit (hb : Br s.betree.linked.bdv (Roots s) s.summary) {gone : PSet Nat} {u : Nat}
    (hu : ∃ b : Address, Roots s b ∧ b.au = u) (hn : ¬ gone u) :
    summaryAus (s.summary.removeKeys gone) u := by
  obtain ⟨b, h1, rfl⟩ := hu
  exact ⟨b.au, _, PMap.removeKeys_some.mpr ⟨hn, (hb.summary _ _).mpr ⟨b, h1, rfl, rfl⟩⟩,
    valid_root (hb.valid b h1)⟩

/-- After a compaction the new branch is on the disk with all its pages. -/
theorem compact_disk (hg : Good g w s) {j : Nat} {bw br} (hj : s.wip[j]? = some bw)
    (hs : bw.isSealed = true) (hbr : bw.branch = some br) {gone : PSet Nat} {sm : PMap Nat Summary}
    (hng : ¬ gone br.root.au)
    (hsm : sm = (s.summary.insert br.root.au (getSummary br)).removeKeys gone) {d' : BrDisk}
    (hbd : d' = (s.betree.linked.bdv.unionRight br.disk).restrict fun y => summaryAus sm y.au) :
    (∀ u, getSummary br u → summaryAus sm u) ∧ d'.Has br.root ∧
    ∀ x : Address, getSummary br x.au → d' x = br.disk x := by
  obtain ⟨hv, ht, hu⟩ := hg.wip.done hj hs hbr
  obtain ⟨f1, _⟩ := done_fresh hg hj hs hbr
  have k1 : ∀ u, getSummary br u → summaryAus sm u := by
    intro u hx
    rw [hsm]
    exact ⟨br.root.au, _, PMap.removeKeys_some.mpr ⟨hng, PMap.insert_same _ _ _⟩, hx⟩
  have k2 : ∀ x : Address, getSummary br x.au → d' x = br.disk x := by
    intro x hx
    rw [hbd]
    cases hb : br.disk x with
    | some n => exact PMap.restrict_some.mpr ⟨k1 _ hx, PMap.unionRight_some.mpr (.inl hb)⟩
    | none =>
      cases e : ((s.betree.linked.bdv.unionRight br.disk).restrict fun y => summaryAus sm y.au) x with
      | none => rfl
      | some n =>
        obtain ⟨_, e2⟩ := PMap.restrict_some.mp e
        rcases PMap.unionRight_some.mp e2 with e3 | ⟨_, e3⟩
        · rw [hb] at e3; cases e3
        · exact absurd (hg.br.closed x ((PMap.has_iff _ _).mpr ⟨n, e3⟩)) (f1 _ hx)
  refine ⟨k1, ?_, k2⟩
  unfold PMap.Has
  rw [k2 _ (valid_root hv)]
  exact (valid_has hv (.inl .here)).1

/-- Every internal step, seen over buffers. -/
theorem lift (r : Reading cp) (hg : Good g w s) (h : Next g w cp s (.internal al de) s')
    (hw' : r.strict → s'.betree.linked.bdv.WF) :
    AllocationBetree.Next (r.over s) .internal (r.over s') := by
  have hbr := hg.br
  obtain ⟨hinv, _, _, hbi⟩ := rel_facts hg.rel
  have fresh : ∀ {as : PSet Address}, s.IsFresh al → (∀ a, as a → al a.au) →
      (lk r.J s.betree.linked).IsFresh as := fun hf ha =>
    fresh_lk hg.dv hbr.closed (fun a h1 h2 => hf.1 _ h2 (ha a h1))
      (fun a h1 h2 => hf.2.1 _ h2 (ha a h1))
  have hor : ∀ {u}, u ∈ s.branchAus → ∃ b : Address, Roots s b ∧ b.au = u := fun hu => by
    obtain ⟨b, h1, h2⟩ := (hbi _).mp hu
    exact ⟨b, .inl h1, h2⟩
  cases h with
  | branchBegin => exact .internalNoop .noop
  | branchBuild => exact .internalNoop .noop
  | branchGrow => exact .internalNoop .noop
  | branchAbort => exact .internalNoop .noop
  | compactBegin => exact .internalNoop .noop
  | @flushMemtable _ _ i b br new addr nt nb hf hi hs hb hx hm hv hnt hnb ha hd hdv hbd =>
    obtain ⟨vs, vt, vu⟩ := hg.wip.done hi hs hb
    obtain ⟨f1, f2, f3, f4⟩ := done_fresh hg hi hs hb
    obtain ⟨_, _, a3, a4, _⟩ := hbr.add vs vt f1
    have hroot : new.bdv.Has br.root := by
      obtain ⟨n, hn⟩ := (PMap.has_iff _ _).mp (valid_has vs (.inl .here)).1
      rw [hbd]; exact (PMap.has_iff _ _).mpr ⟨n, a4 _ _ hn⟩
    have := lift_flushMemtable (J := r.J) (m := r.M s.betree.memtable) (s := s) hx (r.flush hm) hv hnt hnb
      hdv ?_ ?_ ?_ hroot
      { s with
          betree := ⟨s.betree.memtable.drain, new⟩, betreeAus := nt, branchAus := nb
          summary := s.summary.insert br.root.au (getSummary br)
          wip := s.wip.eraseIdx i } rfl rfl rfl
    · rw [← r.drain] at this; exact this
    · intro a h1 h2
      rw [hbd]
      exact (r.same (fun _ => hbr.wf) a3 h1).symm
    · refine fresh_lk hg.dv hbr.closed ?_ ?_
      · rintro a (rfl | rfl) h1
        · exact hf.1 _ h1 ((ha _).mpr rfl)
        · exact f4 h1
      · rintro a (rfl | rfl) h1
        · exact hf.2.1 _ h1 ((ha _).mpr rfl)
        · exact f3 h1
    · intro a h1 _
      obtain ⟨n, hn⟩ := (PMap.has_iff _ _).mp h1
      rw [hbd]; exact (PMap.has_iff _ _).mpr ⟨n, a3 _ _ hn⟩
  | grow hf ha hd =>
    exact lift_grow (J := r.J) (fresh hf fun a h1 => by subst h1; exact (ha _).mpr rfl) _ rfl rfl rfl
  | split hf hx hxp hpa hc hp hv hnt hnb ha hd hdv hbd =>
    exact lift_split hc hp hv hnt hnb hdv hbd (fresh hf fun a h1 => (ha _).mpr
      (h1.imp (fun h => ⟨a, h, rfl⟩) (fun h => ⟨a, h, rfl⟩))) _ rfl rfl rfl
  | @flush _ _ new p i gc x pa nt nb gone sm hf hx hxp hpa hc hp hv hnt hnb hgo hsm ha hd hdv hbd =>
    have hsub : PMap.Sub new.bdv s.betree.linked.bdv :=
      sub_of_agrees hv.2.2.2 fun a h => ((hbd a).mp h).1
    refine lift_flush hc hp hv hnt hnb hdv ?_ ?_ (fresh hf fun a h1 => (ha _).mpr
      (h1.imp (fun h => ⟨a, h, rfl⟩) (fun h => ⟨a, h, rfl⟩))) _ rfl rfl rfl
    · intro a _ h2
      exact r.same hw' hsub h2
    · intro a h1 h2
      refine (hbd a).mpr ⟨h1, ?_⟩
      rw [hsm]
      refine kept_unit hbr ?_ (fun h3 => ((hgo _).mp h3).2.1 h2)
      rw [hnb] at h2
      rcases mem_sub_add h2 with h2 | h2
      · exact hor h2
      · obtain ⟨b, h3, h4⟩ := mem_toAu.mp h2
        refine ⟨b, .inl (target_buffers hp.2.2.2.2.2 hp.1 hc.2.1 ?_), h4⟩
        have h3 : b ∈ p.target.flushBuffers i := Multiset.mem_coe.mp h3
        exact List.mem_of_mem_take (List.mem_of_mem_drop h3)
  | @compactAbort _ _ i cs gone sm hi hcs hgo hsm ha hd =>
    have hkeep : ∀ a : Address, s.betree.linked.tree.ReachableBuffer a →
        (s.betree.linked.bdv.restrict fun a => summaryAus sm a.au).Has a := by
      intro a h1
      obtain ⟨n, hn⟩ := (PMap.has_iff _ _).mp (hbr.has (.inl h1))
      refine (PMap.has_iff _ _).mpr ⟨n, PMap.restrict_some.mpr ⟨?_, hn⟩⟩
      rw [hsm]
      exact kept_unit hbr ⟨a, .inl h1, rfl⟩ fun h2 => ((hgo _).mp h2).2 ((hbi _).mpr ⟨a, h1, rfl⟩)
    refine lift_drop hinv.1.1 ?_ hkeep _ rfl rfl rfl
    intro a _ h2
    exact r.same hw' (fun k v h => (PMap.restrict_some.mp h).2) h2
  | @compactComplete _ _ new p a b i j bw br addr pa c cs nt nb gone sm hf hxp hpa hi hin hj hs hb hc
      hp hv hcs hnt hnb hgo hsm ha hd hdv hbd =>
    obtain ⟨vs, vt, vu⟩ := hg.wip.done hj hs hb
    obtain ⟨f1, f2, f3, f4⟩ := done_fresh hg hj hs hb
    obtain ⟨_, a2, a3, a4, _⟩ := hbr.add vs vt f1
    have hng : ¬ gone br.root.au := by
      intro h1
      refine ((hgo _).mp h1).2.1 ?_
      rw [hnb]
      exact Multiset.mem_add.mpr (.inr (mem_toAu.mpr ⟨br.root, Multiset.mem_singleton.mpr rfl, rfl⟩))
    obtain ⟨k1, k2, k3⟩ := compact_disk hg hj hs hb hng hsm hbd
    have hsub : PMap.Sub new.bdv (s.betree.linked.bdv.unionRight br.disk) := by
      rw [hbd]; exact fun k v h => (PMap.restrict_some.mp h).2
    have hcc := r.compact (d := s.betree.linked.bdv) (n := p.target.node) (a := a) (b := b)
      (d' := new.bdv) (x := br.root)
      (fun _ y hy => hbr.valid y (.inl (target_buffers hp.2.2.2.2.2 hp.1 hc.2.1 hy)))
      (fun hst => (valid_move vs (hw' hst) k3).1) hc.2.2.2.2
    refine lift_compact ⟨hc.1, hc.2.1, hc.2.2.1, hc.2.2.2.1, hcc.1, hcc.2⟩ hp hv hnt hnb hdv ?_ ?_ k2 ?_
      _ rfl rfl rfl
    · intro y h1 h2
      have e1 := r.same hw' hsub h2
      have e2 := r.same (fun _ => hbr.wf) a3 h1
      rw [e2]; exact e1
    · intro y h1 h2
      have hne : y.au ≠ br.root.au := fun e => f3 (by rw [← e]; exact hbr.closed y h1)
      have h3 : y.au ∈ s.branchAus := by
        rw [hnb] at h2
        rcases mem_sub_add h2 with h2 | h2
        · exact h2
        · obtain ⟨z, h3, h4⟩ := mem_toAu.mp h2
          rw [Multiset.mem_singleton.mp h3] at h4
          exact absurd h4.symm hne
      obtain ⟨z, h4, h5⟩ := hor h3
      obtain ⟨n, hn⟩ := (PMap.has_iff _ _).mp h1
      rw [hbd]
      refine (PMap.has_iff _ _).mpr ⟨n, PMap.restrict_some.mpr ⟨?_, a3 _ _ hn⟩⟩
      rw [hsm]
      refine ⟨y.au, getSummary ⟨z, s.betree.linked.bdv⟩, PMap.removeKeys_some.mpr
        ⟨fun h6 => ((hgo _).mp h6).2.1 h2, ?_⟩, ?_⟩
      · rw [PMap.insert_other _ _ hne]
        exact (hbr.summary _ _).mpr ⟨z, h4, h5, rfl⟩
      · rw [← h5]; exact valid_root (hbr.valid z h4)
    · refine fresh_lk hg.dv hbr.closed ?_ ?_
      · rintro y ((rfl | rfl) | h1) h2
        · exact hf.1 _ h2 ((ha _).mpr (.inl rfl))
        · exact f4 h2
        · exact hf.1 _ h2 ((ha _).mpr (.inr ⟨y, h1, rfl⟩))
      · rintro y ((rfl | rfl) | h1) h2
        · exact hf.2.1 _ h2 ((ha _).mpr (.inl rfl))
        · exact f3 h2
        · exact hf.2.1 _ h2 ((ha _).mpr (.inr ⟨y, h1, rfl⟩))

/-! ### The invariant is kept and the units add up -/

/-- the units in use -/
def Units (s : State) : PSet Nat := fun u =>
  u ∈ s.betreeAus ∨ summaryAus s.summary u ∨ allocAus s.wip u

theorem summaryAus_insert {m : PMap Nat Summary} {k : Nat} {x : Summary} (h : ¬ m.Has k) (u : Nat) :
    summaryAus (m.insert k x) u ↔ summaryAus m u ∨ x u := by
  constructor
  · rintro ⟨j, y, h1, h2⟩
    by_cases e : j = k
    · subst e; rw [PMap.insert_same] at h1; cases h1; exact .inr h2
    · rw [PMap.insert_other _ _ e] at h1; exact .inl ⟨j, y, h1, h2⟩
  · rintro (⟨j, y, h1, h2⟩ | h2)
    · refine ⟨j, y, ?_, h2⟩
      rw [PMap.insert_other _ _ (by rintro rfl; exact h ((PMap.has_iff _ _).mpr ⟨y, h1⟩))]
      exact h1
    · exact ⟨k, x, PMap.insert_same _ _ _, h2⟩

theorem mem_add_likes {m : Likes} {repr : PSet Address} (hm : ∀ a, a ∈ m ↔ repr a) (pa : List Address)
    (u : Nat) : u ∈ toAuLikes (addBetreeLikes m pa) ↔ unitsOf repr u ∨ unitsOf (fun a => a ∈ pa) u := by
  rw [mem_toAu]
  unfold addBetreeLikes unitsOf
  constructor
  · rintro ⟨a, h1, h2⟩
    rcases Multiset.mem_add.mp h1 with h | h
    · exact .inl ⟨a, (hm a).mp h, h2⟩
    · exact .inr ⟨a, Multiset.mem_coe.mp h, h2⟩
  · rintro (⟨a, h1, h2⟩ | ⟨a, h1, h2⟩)
    · exact ⟨a, Multiset.mem_add.mpr (.inl ((hm a).mpr h1)), h2⟩
    · exact ⟨a, Multiset.mem_add.mpr (.inr (Multiset.mem_coe.mpr h1)), h2⟩

theorem mem_split_likes (x : SplitAddrs) (a : Address) : a ∈ x.likes ↔ x.repr a := by
  unfold SplitAddrs.likes SplitAddrs.repr
  simp only [Multiset.mem_add, Multiset.mem_singleton]
  tauto

theorem mem_two_likes (x : TwoAddrs) (a : Address) : a ∈ x.likes ↔ x.repr a := by
  unfold TwoAddrs.likes TwoAddrs.repr
  simp only [Multiset.mem_add, Multiset.mem_singleton]

theorem inputRoots_erase {cs : List CompactorInput} {i : Nat} {a : Address}
    (h : inputRoots (cs.eraseIdx i) a) : inputRoots cs a := by
  obtain ⟨c, h1, h2⟩ := h
  exact ⟨c, List.mem_of_mem_eraseIdx h1, h2⟩

open Lean in
/-- propositional reasoning from the listed facts alone -/
macro "props" "[" ts:term,* "]" : tactic => do
  let l := ts.getElems
  let c ← l.foldrM (fun t acc => `(And.intro $t $acc)) (← `(True.intro))
  `(tactic| (have key := $c; clear * - key; grind))

theorem rel_next (hg : Good g w s) (h : Next g w cp s (.internal al de) s') :
    ∃ t, AllocationBetree.Rel (blank s') t := by
  obtain ⟨t, ht⟩ := hg.rel
  have := lift (blankReading cp) hg h (fun h => h.elim)
  obtain ⟨t', _, h2⟩ := AllocationBetree.step (s := blank s) (s' := blank s') ht this
  exact ⟨t', h2⟩

/-- One internal step. -/
theorem internal_step (hg : Good g w s) (h : Next g w cp s (.internal al de) s') :
    Good g w s' ∧ (∀ u, Units s' u ↔ (Units s u ∨ al u) ∧ ¬ de u) ∧
    PMap.Agrees s.betree.linked.bdv s'.betree.linked.bdv := by
  have hrel' := rel_next hg h
  have hbr := hg.br
  obtain ⟨hinv, ⟨tr, hsees⟩, _, hbi⟩ := rel_facts hg.rel
  obtain ⟨_, _, _, hbi'⟩ := rel_facts hrel'
  have hnb := hg.node_branch
  have hnw := hg.node_wip
  have hbw := hg.branch_wip
  have hrefl : PMap.Agrees s.betree.linked.bdv s.betree.linked.bdv := fun k v w h1 h2 => by
    rw [h1] at h2; exact Option.some.inj h2
  have fresh : ∀ {as : PSet Address}, s.IsFresh al → (∀ a, as a → al a.au) →
      (lk blankJ s.betree.linked).IsFresh as := fun hf ha =>
    fresh_lk hg.dv hbr.closed (fun a h1 h2 => hf.1 _ h2 (ha a h1))
      (fun a h1 h2 => hf.2.1 _ h2 (ha a h1))
  cases h with
  | branchBegin hf hd =>
    have hall := new_aus al
    have haa := alloc_append (bs := s.wip) (AllocBranch.new al)
    refine ⟨⟨hrel', hbr, hg.dv, hnb, fun u => ?_, fun u => ?_, hg.wip.append ⟨al, [], _, rfl, .nil _⟩ ?_⟩,
      fun u => ?_, hrefl⟩
    · dsimp only; props [hf.1 u, hnw u, haa u, hall u]
    · dsimp only; props [hf.2.1 u, hbw u, haa u, hall u]
    · intro u h1 h2; exact hf.2.2 u h2 ((hall u).mp h1)
    · unfold Units; dsimp only; props [haa u, hall u, hd u]
  | branchBuild hf hi hb =>
    obtain ⟨k1, k2, k3⟩ := hg.wip.build hi hf.2.2 hb
    have k4 := fun u hu => alloc_at hi (k3 u hu)
    refine ⟨⟨hrel', hbr, hg.dv, hnb, fun u => ?_, fun u => ?_, k1⟩, fun u => ?_, hrefl⟩
    · dsimp only; props [hf.1 u, hnw u, k2 u]
    · dsimp only; props [hf.2.1 u, hbw u, k2 u]
    · unfold Units; dsimp only; props [k2 u, k4 u, hnw u, hbw u]
  | branchGrow hw ha hd hi hc =>
    obtain ⟨k1, k2⟩ := hg.wip.grow hw hi hc
    refine ⟨⟨hrel', hbr, hg.dv, hnb, fun u => ?_, fun u => ?_, k1⟩, fun u => ?_, hrefl⟩
    · dsimp only; props [hnw u, k2 u]
    · dsimp only; props [hbw u, k2 u]
    · unfold Units; dsimp only; props [k2 u, ha u, hd u]
  | branchAbort ha hi hd =>
    have k2 := hg.wip.erase_aus hi
    have k3 := fun u hu => alloc_at hi ((hd u).mp hu)
    refine ⟨⟨hrel', hbr, hg.dv, hnb, fun u => ?_, fun u => ?_, hg.wip.erase _⟩, fun u => ?_, hrefl⟩
    · dsimp only; props [hnw u, k2 u]
    · dsimp only; props [hbw u, k2 u]
    · unfold Units; dsimp only; props [k2 u, k3 u, hnw u, hbw u, ha u, hd u]
  | @compactBegin _ _ p a b c ha hd hp hc =>
    have hR : ∀ x, Roots { s with compactors := s.compactors ++ [c] } x ↔ Roots s x := by
      intro x
      constructor
      · rintro (h1 | ⟨c', h1, h2⟩)
        · exact .inl h1
        · rcases List.mem_append.mp h1 with h3 | h3
          · exact .inr ⟨c', h3, h2⟩
          · rw [List.mem_singleton.mp h3, hc.2.2.2.2] at h2
            exact .inl (target_buffers hp.symm hc.1 hc.2.1
              (List.mem_of_mem_take (List.mem_of_mem_drop h2)))
      · rintro (h1 | ⟨c', h1, h2⟩)
        · exact .inl h1
        · exact .inr ⟨c', List.mem_append_left _ h1, h2⟩
    refine ⟨⟨hrel', hbr.congr hR, hg.dv, hnb, hnw, hbw, hg.wip⟩, fun u => ?_, hrefl⟩
    unfold Units; dsimp only; props [ha u, hd u]
  | @grow _ _ addr hf ha hd =>
    have hR : ∀ x, Roots { s with
          betree := { s.betree with
            linked := .on (s.betree.linked.tree.grow addr) s.betree.linked.bdv }
          betreeAus := addr.au ::ₘ s.betreeAus } x ↔ Roots s x := by
      have hfr := fresh (as := fun b => b = addr) hf fun a h1 => by subst h1; exact (ha _).mpr rfl
      have hc := grow_change hsees hfr
      have hgs := grow_spec hsees hfr
      have key : ∀ x, (s.betree.linked.tree.grow addr).ReachableBuffer x ↔
          s.betree.linked.tree.ReachableBuffer x := by
        intro x
        have e1 := mem_bufferLikes hgs.sees (b := x)
        have e2 := mem_bufferLikes hsees (b := x)
        obtain ⟨rest, e3, e4⟩ := hc.buf
        rw [e4, Multiset.zero_add] at e1
        rw [e3, Multiset.zero_add] at e2
        exact e1.symm.trans e2
      intro x
      exact or_congr (key x) Iff.rfl
    have hmem : ∀ u, u ∈ addr.au ::ₘ s.betreeAus ↔ u ∈ s.betreeAus ∨ al u := by
      intro u; rw [Multiset.mem_cons, ha]; tauto
    refine ⟨⟨hrel', hbr.congr hR, fun a h1 => ?_, fun u => ?_, fun u => ?_, hbw, hg.wip⟩, fun u => ?_, hrefl⟩
    · obtain ⟨n, hn⟩ := (PMap.has_iff _ _).mp h1
      by_cases e : a = addr
      · subst e; exact Multiset.mem_cons_self _ _
      · have hn : (s.betree.linked.dv.insert addr _) a = some n := hn
        rw [PMap.insert_other _ _ e] at hn
        exact Multiset.mem_cons_of_mem (hg.dv a ((PMap.has_iff _ _).mpr ⟨n, hn⟩))
    · dsimp only; props [hmem u, hnb u, hf.2.1 u]
    · dsimp only; props [hmem u, hnw u, hf.2.2 u]
    · unfold Units; dsimp only; props [hmem u, hd u]
  | @flushMemtable _ _ i b br new addr nt nb hf hi hs hb hx hm hv hnt hnb' ha hd hdv hbd =>
    obtain ⟨vs, vt, vu⟩ := hg.wip.done hi hs hb
    obtain ⟨f1, f2, f3, f4⟩ := done_fresh hg hi hs hb
    obtain ⟨a1, a2, a3, a4, _⟩ := hbr.add vs vt f1
    have hk : ¬ s.summary.Has br.root.au := fun h1 => by
      obtain ⟨y, hy⟩ := (PMap.has_iff _ _).mp h1
      obtain ⟨z, z1, z2, _⟩ := (hbr.summary _ _).mp hy
      exact f3 ((hbr.aus _).mpr ⟨z, z1, by rw [← z2]; exact valid_root (hbr.valid z z1)⟩)
    have hfr : (lk blankJ s.betree.linked).IsFresh (TwoAddrs.mk addr br.root).repr := by
      refine fresh_lk hg.dv hbr.closed ?_ ?_
      · rintro a (rfl | rfl) h1
        · exact hf.1 _ h1 ((ha _).mpr rfl)
        · exact f4 h1
      · rintro a (rfl | rfl) h1
        · exact hf.2.1 _ h1 ((ha _).mpr rfl)
        · exact f3 h1
    have hpush := push_spec (m := .emptyAt 0) hsees hfr
    have hch := push_change (m := .emptyAt 0) hsees hfr
    have hview : ((lk blankJ s.betree.linked).pushMemtable (Memtable.emptyAt 0).buffer
        ⟨addr, br.root⟩).ValidView (lk blankJ new) :=
      view_lk_insert (J := blankJ) hv fun _ _ _ => rfl
    have hin : ∀ x, new.tree.ReachableBuffer x → Roots s x ∨ x = br.root := by
      intro x hx
      rcases reach_new hsees hpush hch hview hx with h1 | h1
      · exact .inl (.inl h1)
      · exact .inr (Multiset.mem_singleton.mp h1)
    have hin' : ∀ x : Address, (Roots s x ∨ x = br.root) → x.au ∈ nb → new.tree.ReachableBuffer x := by
      intro x h1 h2
      obtain ⟨y, h3, h4⟩ := (hbi' _).mp h2
      rw [← a1.units y x (hin y h3) h1 h4]; exact h3
    have hR : ∀ x, Roots { s with
          betree := ⟨s.betree.memtable.drain, new⟩, betreeAus := nt, branchAus := nb
          summary := s.summary.insert br.root.au (getSummary br)
          wip := s.wip.eraseIdx i } x ↔ Roots s x ∨ x = br.root := by
      intro x
      constructor
      · rintro (h1 | h1)
        · exact hin x h1
        · exact .inl (.inr h1)
      · intro h1
        rcases h1 with (h2 | h2) | h2
        · refine .inl (hin' x (.inl (.inl h2)) ?_)
          rw [hnb']; exact Multiset.mem_cons_of_mem ((hbi _).mpr ⟨x, h2, rfl⟩)
        · exact .inr h2
        · refine .inl (hin' x (.inr h2) ?_)
          rw [hnb', h2]; exact Multiset.mem_cons_self _ _
    have hroot : rootLikes new.tree = {addr} := push_root hview
    have hmem : ∀ u, (u ∈ nt → u ∈ s.betreeAus ∨ al u) ∧ (al u → u ∈ nt) := by
      intro u
      rw [hnt, hroot]
      constructor
      · intro h1
        rcases mem_sub_add h1 with h2 | h2
        · exact .inl h2
        · obtain ⟨a, h3, h4⟩ := mem_toAu.mp h2
          rw [Multiset.mem_singleton.mp h3] at h4
          exact .inr ((ha u).mpr h4.symm)
      · intro h1
        exact Multiset.mem_add.mpr (.inr (mem_toAu.mpr
          ⟨addr, Multiset.mem_singleton.mpr rfl, ((ha u).mp h1).symm⟩))
    have hsa := summaryAus_insert (x := getSummary br) hk
    have hwe := hg.wip.erase_aus hi
    have hal : ∀ u, allAus b.mini u → allocAus s.wip u := fun u h => alloc_at hi h
    refine ⟨⟨hrel', ?_, fun a h1 => ((hdv a).mp h1).2, fun u => ?_, fun u => ?_, fun u => ?_,
      hg.wip.erase _⟩, fun u => ?_, ?_⟩
    · rw [show (State.betree _).linked.bdv = s.betree.linked.bdv.unionRight br.disk from hbd]
      exact a1.congr hR
    · dsimp only; props [hmem u, hsa u, hnb u, f2 u, hf.2.1 u, hf.2.2 u, vu u, hal u]
    · dsimp only; props [hmem u, hwe u, hnw u, hf.2.2 u]
    · dsimp only; props [hsa u, hwe u, hbw u, vu u]
    · unfold Units; dsimp only; props [hmem u, hsa u, hwe u, vu u, hal u, hd u, hnb u, hnw u, hbw u, hf.1 u, hf.2.1 u, hf.2.2 u]
    · show PMap.Agrees _ new.bdv
      rw [hbd]
      intro k v x h1 h2
      rw [a3 _ _ h1] at h2; exact Option.some.inj h2
  | @split _ _ new p r x pa nt nb hf hx hxp hpa hc hp hv hnt hnb' ha hd hdv hbd =>
    have hfr := fresh (as := fun a => x.repr a ∨ a ∈ pa) hf fun a h1 => (ha _).mpr
      (h1.imp (fun h => ⟨a, h, rfl⟩) (fun h => ⟨a, h, rfl⟩))
    have ep := target_pathB (jd blankJ s.betree.linked.bdv) p
    obtain ⟨⟨_, hwr⟩, hch⟩ := split_post (l := lk blankJ s.betree.linked)
      (p := pathB (jd blankJ s.betree.linked.bdv) p) (r := r) (x := x) (pa := pa) hsees
      (by rw [ep, canSplit_withB]; exact hc) (replacement_pathB _ _ hp) hfr
    have hview : (postSplit (pathB (jd blankJ s.betree.linked.bdv) p) r x pa).ValidView (lk blankJ new) := by
      rw [postSplit_pathB]; exact view_lk hv fun _ _ _ => rfl
    have hin : ∀ y, new.tree.ReachableBuffer y → s.betree.linked.tree.ReachableBuffer y := by
      intro y hy
      rcases reach_new hsees hwr hch hview hy with h1 | h1
      · exact h1
      · unfold splitAddBuffers at h1
        rw [ep] at h1
        exact child_buffers hp.2.2.2.2.2 hp.1 hc.2.1 hc.2.2.1 h1
    have hR : ∀ y, Roots { s with betree := { s.betree with linked := new }, betreeAus := nt, branchAus := nb } y ↔ Roots s y := by
      intro y
      refine or_congr ⟨hin y, fun h1 => ?_⟩ Iff.rfl
      have h2 : y.au ∈ nb := by
        rw [hnb']; exact Multiset.mem_add.mpr (.inl ((hbi _).mpr ⟨y, h1, rfl⟩))
      obtain ⟨z, h3, h4⟩ := (hbi' _).mp h2
      rw [← hbr.units z y (.inl (hin z h3)) (.inl h1) h4]; exact h3
    have hmem : ∀ u, (u ∈ nt → u ∈ s.betreeAus ∨ al u) ∧ (al u → u ∈ nt) := by
      intro u
      rw [hnt]
      have e := mem_add_likes (mem_split_likes x) pa u
      have e2 := ha u
      refine ⟨fun h1 => (mem_sub_add h1).imp id fun h2 => e2.mpr (e.mp h2), fun h1 => ?_⟩
      exact Multiset.mem_add.mpr (.inr (e.mpr (e2.mp h1)))
    refine ⟨⟨hrel', ?_, fun a h1 => ((hdv a).mp h1).2, fun u => ?_, fun u => ?_, hbw, hg.wip⟩,
      fun u => ?_, ?_⟩
    · rw [show (State.betree _).linked.bdv = s.betree.linked.bdv from hbd]
      exact hbr.congr hR
    · dsimp only; props [hmem u, hnb u, hf.2.1 u]
    · dsimp only; props [hmem u, hnw u, hf.2.2 u]
    · unfold Units; dsimp only; props [hmem u, hd u, hnb u, hnw u, hf.1 u, hf.2.1 u, hf.2.2 u]
    · show PMap.Agrees _ new.bdv
      rw [hbd]; exact hrefl
  | @flush _ _ new p i gc x pa nt nb gone sm hf hx hxp hpa hc hp hv hnt hnb' hgo hsm ha hd hdv hbd =>
    have hfr := fresh (as := fun a => x.repr a ∨ a ∈ pa) hf fun a h1 => (ha _).mpr
      (h1.imp (fun h => ⟨a, h, rfl⟩) (fun h => ⟨a, h, rfl⟩))
    have ep := target_pathB (jd blankJ s.betree.linked.bdv) p
    obtain ⟨⟨_, hwr⟩, hch⟩ := flush_post (l := lk blankJ s.betree.linked)
      (p := pathB (jd blankJ s.betree.linked.bdv) p) (i := i) (gc := gc) (x := x) (pa := pa) hsees
      (by rw [ep, canFlush_withB]; exact hc) (replacement_pathB _ _ hp) hfr
    have hview : (postFlush (pathB (jd blankJ s.betree.linked.bdv) p) i gc x pa).ValidView (lk blankJ new) := by
      rw [postFlush_pathB]; exact view_lk hv fun _ _ _ => rfl
    have hin : ∀ y, new.tree.ReachableBuffer y → s.betree.linked.tree.ReachableBuffer y := by
      intro y hy
      rcases reach_new hsees hwr hch hview hy with h1 | h1
      · exact h1
      · unfold flushAddBuffers at h1
        rw [ep] at h1
        refine target_buffers hp.2.2.2.2.2 hp.1 hc.2.1 ?_
        have h1 : y ∈ p.target.flushBuffers i := Multiset.mem_coe.mp h1
        exact List.mem_of_mem_take (List.mem_of_mem_drop h1)
    have hR : ∀ y : Address, Roots { s with
          betree := { s.betree with linked := new }, betreeAus := nt, branchAus := nb
          summary := sm } y ↔ Roots s y ∧ ¬ gone y.au := by
      intro y
      constructor
      · rintro (h1 | h1)
        · exact ⟨.inl (hin y h1), fun h2 => ((hgo _).mp h2).2.1 ((hbi' _).mpr ⟨y, h1, rfl⟩)⟩
        · exact ⟨.inr h1, fun h2 => ((hgo _).mp h2).2.2 ⟨y, h1, rfl⟩⟩
      · rintro ⟨h1 | h1, h2⟩
        · by_cases h3 : y.au ∈ nb
          · obtain ⟨z, h4, h5⟩ := (hbi' _).mp h3
            have := hbr.units z y (.inl (hin z h4)) (.inl h1) h5
            exact .inl (this ▸ h4)
          · by_cases h4 : readRefAus s.compactors y.au
            · obtain ⟨z, h5, h6⟩ := h4
              have := hbr.units z y (.inr h5) (.inl h1) h6
              exact .inr (this ▸ h5)
            · exact absurd ((hgo _).mpr ⟨(hbi _).mpr ⟨y, h1, rfl⟩, h3, h4⟩) h2
        · exact .inr h1
    have hmem : ∀ u, (u ∈ nt → u ∈ s.betreeAus ∨ al u) ∧ (al u → u ∈ nt) := by
      intro u
      rw [hnt]
      have e := mem_add_likes (mem_two_likes x) pa u
      have e2 := ha u
      refine ⟨fun h1 => (mem_sub_add h1).imp id fun h2 => e2.mpr (e.mp h2), fun h1 => ?_⟩
      exact Multiset.mem_add.mpr (.inr (e.mpr (e2.mp h1)))
    have hsub : PMap.Sub new.bdv s.betree.linked.bdv :=
      sub_of_agrees hv.2.2.2 fun a h => ((hbd a).mp h).1
    have hdr := hbr.drop hR hsub (by rw [← hsm]; exact hbd)
    have hda := fun u => hbr.drop_aus (gone := gone) u
    rw [← hsm] at hdr
    simp only [← hsm] at hda
    have hsr : ∀ u, summaryAus (s.summary.restrict gone) u → summaryAus s.summary u := by
      rintro u ⟨k, y, h1, h2⟩; exact ⟨k, y, (PMap.restrict_some.mp h1).2, h2⟩
    refine ⟨⟨hrel', hdr.1, fun a h1 => ((hdv a).mp h1).2, fun u => ?_, fun u => ?_, fun u => ?_, hg.wip⟩,
      fun u => ?_, ?_⟩
    · dsimp only; props [hmem u, hda u, hnb u, hf.2.1 u]
    · dsimp only; props [hmem u, hnw u, hf.2.2 u]
    · dsimp only; props [hda u, hbw u]
    · unfold Units; dsimp only; props [hmem u, hd u, hda u, hsr u, hnb u, hnw u, hbw u, hf.1 u, hf.2.1 u, hf.2.2 u]
    · intro k v z h1 h2
      rw [hsub _ _ h2] at h1; exact (Option.some.inj h1).symm
  | @compactAbort _ _ i cs gone sm hi hcs hgo hsm ha hd =>
    have hR : ∀ y : Address, Roots { s with
          betree := { s.betree with linked := { s.betree.linked with
            bdv := s.betree.linked.bdv.restrict fun a => summaryAus sm a.au } }
          summary := sm, compactors := cs } y ↔ Roots s y ∧ ¬ gone y.au := by
      intro y
      constructor
      · rintro (h1 | h1)
        · exact ⟨.inl h1, fun h2 => ((hgo _).mp h2).2 ((hbi _).mpr ⟨y, h1, rfl⟩)⟩
        · refine ⟨.inr ?_, fun h2 => ((hgo _).mp h2).1.2 ⟨y, h1, rfl⟩⟩
          have h1 : inputRoots cs y := h1
          rw [hcs] at h1; exact inputRoots_erase h1
      · rintro ⟨h1 | h1, h2⟩
        · exact .inl h1
        · by_cases h3 : readRefAus cs y.au
          · obtain ⟨z, h5, h6⟩ := h3
            have h7 : inputRoots s.compactors z := by rw [hcs] at h5; exact inputRoots_erase h5
            have := hbr.units z y (.inr h7) (.inr h1) h6
            exact .inr (this ▸ h5)
          · by_cases h4 : y.au ∈ s.branchAus
            · obtain ⟨z, h5, h6⟩ := (hbi _).mp h4
              have := hbr.units z y (.inl h5) (.inr h1) h6
              exact .inl (this ▸ h5)
            · exact absurd ((hgo _).mpr ⟨⟨⟨y, h1, rfl⟩, h3⟩, h4⟩) h2
    have hsub : PMap.Sub (s.betree.linked.bdv.restrict fun a => summaryAus sm a.au) s.betree.linked.bdv :=
      fun k v h => (PMap.restrict_some.mp h).2
    have hdr := hbr.drop hR hsub (by
      intro x
      rw [← hsm]
      simp only [PMap.has_iff, PMap.restrict_some]
      exact ⟨fun ⟨v, h1, h2⟩ => ⟨⟨v, h2⟩, h1⟩, fun ⟨⟨v, h2⟩, h1⟩ => ⟨v, h1, h2⟩⟩)
    have hda := fun u => hbr.drop_aus (gone := gone) u
    rw [← hsm] at hdr
    simp only [← hsm] at hda
    refine ⟨⟨hrel', hdr.1, hg.dv, fun u => ?_, hnw, fun u => ?_, hg.wip⟩, fun u => ?_, ?_⟩
    · dsimp only; props [hda u, hnb u]
    · dsimp only; props [hda u, hbw u]
    · have hsr : summaryAus (s.summary.restrict gone) u → summaryAus s.summary u := by
        rintro ⟨k, y, h1, h2⟩; exact ⟨k, y, (PMap.restrict_some.mp h1).2, h2⟩
      unfold Units; dsimp only; props [hd u, hda u, hsr, hnb u, hbw u, ha u]
    · intro k v z h1 h2
      rw [hsub _ _ h2] at h1; exact (Option.some.inj h1).symm
  | @compactComplete _ _ new p a b i j bw br addr pa c cs nt nb gone sm hf hxp hpa hi hin' hj hs hb hc
      hp hv hcs hnt hnb' hgo hsm ha hd hdv hbd =>
    obtain ⟨vs, vt, vu⟩ := hg.wip.done hj hs hb
    obtain ⟨f1, f2, f3, f4⟩ := done_fresh hg hj hs hb
    obtain ⟨a1, a2, a3, a4, _⟩ := hbr.add vs vt f1
    have hk : ¬ s.summary.Has br.root.au := fun h1 => by
      obtain ⟨z, z1, z2⟩ := (hbr.key _).mp h1
      exact f3 ((hbr.aus _).mpr ⟨z, z1, by rw [← z2]; exact valid_root (hbr.valid z z1)⟩)
    have hfr : (lk blankJ s.betree.linked).IsFresh
        (fun a => (TwoAddrs.mk addr br.root).repr a ∨ a ∈ pa) := by
      refine fresh_lk hg.dv hbr.closed ?_ ?_
      · rintro y ((rfl | rfl) | h1) h2
        · exact hf.1 _ h2 ((ha _).mpr (.inl rfl))
        · exact f4 h2
        · exact hf.1 _ h2 ((ha _).mpr (.inr ⟨y, h1, rfl⟩))
      · rintro y ((rfl | rfl) | h1) h2
        · exact hf.2.1 _ h2 ((ha _).mpr (.inl rfl))
        · exact f3 h2
        · exact hf.2.1 _ h2 ((ha _).mpr (.inr ⟨y, h1, rfl⟩))
    have ep := target_pathB (jd blankJ s.betree.linked.bdv) p
    have hcc := (blankReading cp).compact (d := s.betree.linked.bdv) (n := p.target.node) (a := a)
      (b := b) (d' := new.bdv) (x := br.root) (fun h => h.elim) (fun h => h.elim) hc.2.2.2.2
    obtain ⟨⟨_, hwr⟩, hch⟩ := compact_post (l := lk blankJ s.betree.linked)
      (p := pathB (jd blankJ s.betree.linked.bdv) p) (a := a) (b := b) (c := Buffer.empty)
      (x := ⟨addr, br.root⟩) (pa := pa) hsees
      (by rw [ep]; exact ⟨hc.1, hc.2.1, hc.2.2.1, hc.2.2.2.1, hcc.1, hcc.2⟩)
      (replacement_pathB _ _ hp) hfr
    have hview : (postCompact (pathB (jd blankJ s.betree.linked.bdv) p) a b Buffer.empty
        ⟨addr, br.root⟩ pa).ValidView (lk blankJ new) := by
      rw [postCompact_pathB (c' := Buffer.empty)]
      exact view_lk_insert (J := blankJ) hv fun _ _ _ => rfl
    have hin : ∀ x, new.tree.ReachableBuffer x → Roots s x ∨ x = br.root := by
      intro x hx
      rcases reach_new hsees hwr hch hview hx with h1 | h1
      · exact .inl (.inl h1)
      · exact .inr (Multiset.mem_singleton.mp h1)
    have hin2 : ∀ x : Address, (Roots s x ∨ x = br.root) → x.au ∈ nb → new.tree.ReachableBuffer x := by
      intro x h1 h2
      obtain ⟨y, h3, h4⟩ := (hbi' _).mp h2
      rw [← a1.units y x (hin y h3) h1 h4]; exact h3
    have hrnb : br.root.au ∈ nb := by
      rw [hnb']
      exact Multiset.mem_add.mpr (.inr (mem_toAu.mpr ⟨br.root, Multiset.mem_singleton.mpr rfl, rfl⟩))
    have hng : ¬ gone br.root.au := fun h1 => ((hgo _).mp h1).2.1 hrnb
    have hR : ∀ y : Address, Roots ⟨⟨s.betree.memtable, new⟩, nt, nb, sm, cs, s.wip.eraseIdx j⟩ y ↔
        (Roots s y ∨ y = br.root) ∧ ¬ gone y.au := by
      intro y
      constructor
      · rintro (h1 | h1)
        · exact ⟨hin y h1, fun h2 => ((hgo _).mp h2).2.1 ((hbi' _).mpr ⟨y, h1, rfl⟩)⟩
        · refine ⟨.inl (.inr ?_), fun h2 => ((hgo _).mp h2).2.2 ⟨y, h1, rfl⟩⟩
          have h1 : inputRoots cs y := h1
          rw [hcs] at h1; exact inputRoots_erase h1
      · rintro ⟨h1, h2⟩
        by_cases h3 : y.au ∈ nb
        · exact .inl (hin2 y h1 h3)
        · rcases h1 with h1 | rfl
          · by_cases h4 : readRefAus cs y.au
            · obtain ⟨z, h5, h6⟩ := h4
              have h7 : inputRoots s.compactors z := by rw [hcs] at h5; exact inputRoots_erase h5
              have := hbr.units z y (.inr h7) h1 h6
              exact .inr (this ▸ h5)
            · exact absurd ((hgo _).mpr ⟨(hbr.key _).mpr ⟨y, h1, rfl⟩, h3, h4⟩) h2
          · exact absurd hrnb h3
    have hmem : ∀ u, (u ∈ nt → u ∈ s.betreeAus ∨ al u) ∧ (al u → u ∈ nt) := by
      intro u
      have e : u ∈ toAuLikes (compactAddBetree ⟨addr, br.root⟩ pa) ↔ al u := by
        rw [ha, mem_toAu]
        unfold compactAddBetree unitsOf
        constructor
        · rintro ⟨y, h1, h2⟩
          rcases Multiset.mem_cons.mp h1 with rfl | h1
          · exact .inl h2.symm
          · exact .inr ⟨y, Multiset.mem_coe.mp h1, h2⟩
        · rintro (h1 | ⟨y, h1, h2⟩)
          · exact ⟨addr, Multiset.mem_cons_self _ _, h1.symm⟩
          · exact ⟨y, Multiset.mem_cons_of_mem (Multiset.mem_coe.mpr h1), h2⟩
      rw [hnt]
      refine ⟨fun h1 => (mem_sub_add h1).imp id e.mp, fun h1 => ?_⟩
      exact Multiset.mem_add.mpr (.inr (e.mpr h1))
    have hsub : PMap.Sub new.bdv (s.betree.linked.bdv.unionRight br.disk) := by
      rw [hbd]; exact fun k v h => (PMap.restrict_some.mp h).2
    have hdr := a1.drop (R' := Roots ⟨⟨s.betree.memtable, new⟩, nt, nb, sm, cs, s.wip.eraseIdx j⟩) hR hsub (by
      intro x
      rw [← hsm, hbd]
      simp only [PMap.has_iff, PMap.restrict_some]
      exact ⟨fun ⟨v, h1, h2⟩ => ⟨⟨v, h2⟩, h1⟩, fun ⟨⟨v, h2⟩, h1⟩ => ⟨v, h1, h2⟩⟩)
    have hda := fun u => a1.drop_aus (gone := gone) u
    rw [← hsm] at hdr
    simp only [← hsm] at hda
    have hre : (s.summary.insert br.root.au (getSummary br)).restrict gone = s.summary.restrict gone := by
      funext u
      have e : ∀ y, ((s.summary.insert br.root.au (getSummary br)).restrict gone) u = some y ↔
          (s.summary.restrict gone) u = some y := by
        intro y
        rw [PMap.restrict_some, PMap.restrict_some]
        by_cases e : u = br.root.au
        · subst e; exact ⟨fun h => absurd h.1 hng, fun h => absurd h.1 hng⟩
        · rw [PMap.insert_other _ _ e]
      exact Option.ext e
    rw [hre] at hda
    have hsa := summaryAus_insert (x := getSummary br) hk
    have hwe := hg.wip.erase_aus hj
    have hal : ∀ u, allAus bw.mini u → allocAus s.wip u := fun u h => alloc_at hj h
    have hsr : ∀ u, summaryAus (s.summary.restrict gone) u → summaryAus s.summary u := by
      rintro u ⟨k, y, h1, h2⟩; exact ⟨k, y, (PMap.restrict_some.mp h1).2, h2⟩
    refine ⟨⟨hrel', hdr.1, fun a h1 => ((hdv a).mp h1).2, fun u => ?_, fun u => ?_, fun u => ?_,
      hg.wip.erase _⟩, fun u => ?_, ?_⟩
    · dsimp only; props [hmem u, hda u, hsa u, hnb u, f2 u, hf.2.1 u, hf.2.2 u, vu u, hal u]
    · dsimp only; props [hmem u, hwe u, hnw u, hf.2.2 u]
    · dsimp only; props [hda u, hsa u, hwe u, hbw u, vu u]
    · unfold Units; dsimp only; props [hmem u, hda u, hsa u, hwe u, vu u, hal u, hd u, hsr u, f2 u, f1 u, hnb u, hnw u, hbw u, hf.1 u, hf.2.1 u, hf.2.2 u]
    · intro k v x h1 h2
      have h2 := hsub _ _ h2
      rw [a3 _ _ h1] at h2; exact Option.some.inj h2

end step
end Verif.ABB
