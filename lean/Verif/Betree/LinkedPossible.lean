import Verif.Betree.LinkedProof
/-
Every reorganisation the filtered layer allows can be carried out by the linked layer (flushes to
an existing child only, since the linked `can_flush` asks for one), and all garbage can be dropped
at any time. Used in C17 to show that the guarded steps are not vacuous.
-/
namespace Verif.LinkedBetree
open Verif FilteredBetree

/-- A state satisfying the invariant, on a finite buffer disk. -/
def Ready (s : State) : Prop := s.linked.Inv ∧ PMap.Finite s.linked.bdv

/-- No page is dropped. -/
def Keeps (s s' : State) : Prop :=
  PMap.Sub s.linked.dv s'.linked.dv ∧ PMap.Sub s.linked.bdv s'.linked.bdv

theorem exists_fresh {l : Linked} (h1 : PMap.Finite l.dv) (h2 : PMap.Finite l.bdv) (n : Nat) :
    ∃ as : List Address, as.length = n ∧ as.Nodup ∧ ∀ a ∈ as, ¬ l.dv.Has a ∧ ¬ l.bdv.Has a := by
  obtain ⟨l1, h1⟩ := h1
  obtain ⟨l2, h2⟩ := h2
  have bound : ∀ (xs : List Address), ∃ N, ∀ a ∈ xs, a.page < N := by
    intro xs
    induction xs with
    | nil => exact ⟨0, by simp⟩
    | cons x xs ih =>
      obtain ⟨N, hN⟩ := ih
      refine ⟨N + x.page + 1, fun a ha => ?_⟩
      rcases List.mem_cons.mp ha with rfl | ha
      · omega
      · have := hN a ha; omega
  obtain ⟨N, hN⟩ := bound (l1 ++ l2)
  refine ⟨(List.range n).map (fun i => ⟨0, N + i⟩), by simp, ?_, ?_⟩
  · refine List.Pairwise.map _ (fun i j (h : i ≠ j) he => ?_) List.nodup_range
    simp at he; omega
  · intro a ha
    obtain ⟨i, _, rfl⟩ := List.mem_map.mp ha
    refine ⟨fun h => ?_, fun h => ?_⟩
    · have := hN _ (List.mem_append.mpr (.inl (h1 _ h))); simp at this; omega
    · have := hN _ (List.mem_append.mpr (.inr (h2 _ h))); simp at this; omega

/-- What was written is a valid view of itself. -/
theorem Writes.self_view {l l' : Linked} {as t'} (h : Writes l l' as t') (hw : l.dv.WF)
    (ht : Tree.RootOk layer t') : l'.Inv ∧ l'.ValidView l' ∧ l'.BuffersPreserved l' := by
  have hi : l'.Inv := (inv_iff l').mpr ⟨h.wf hw ht.1, t', h.sees, ht⟩
  refine ⟨hi, ⟨hi.1.1, rfl, sub_refl _, fun k v w h1 h2 => ?_⟩, hi.2.1⟩
  rw [h1] at h2; cases h2; rfl

theorem path_valid_conv {key : Key} : ∀ (depth : Nat) {l : Linked} {t}, l.dv.WF →
    Sees l.dv l.bdv l.root t → TreePath.ValidFrom layer t key depth → Path.ValidFrom l key depth
  | 0, l, t, hw, hs, hv => by
    have hr := (hasRoot_iff hs).mpr hv.2.2.1
    obtain ⟨a, bs, ts, _, hn, rfl, _, _⟩ := sees_root hs hr
    exact ⟨hr, hs.acyclic hw, hw.1 _ _ hn, hv.2.2.2⟩
  | depth + 1, l, t, hw, hs, hv => by
    obtain ⟨h1, h2, h3, h4⟩ := hv
    have hr := (hasRoot_iff hs).mpr h2.2.1
    obtain ⟨a, bs, ts, _, hn, rfl, _, hkids⟩ := sees_root hs hr
    have hk : l.node.KeyInDomain key := ⟨hw.1 _ _ hn, h2.2.2⟩
    refine ⟨hr, hs.acyclic hw, hk, ?_, ?_⟩
    · intro i hi hp
      have hi : i < l.node.children.length := hi
      have hsee := hkids.2 i hi
      rw [show l.node.children.getD i none = none from hp] at hsee
      have hti : ts[i]? = some (ts.getD i .nil) := by
        have : i < ts.length := by rw [hkids.1]; exact hi
        simp [List.getD, List.getElem?_eq_getElem this]
      have := h3 _ (List.mem_of_getElem? hti)
      cases hg : ts.getD i Tree.nil with
      | nil => rw [hg] at this; exact this
      | node => rw [hg] at hsee; cases hsee
    · exact path_valid_conv depth (l := l.childForKey key) hw (sees_childForKey hkids hk) h4

/-- The replacement conditions for a path of the tree, with fresh addresses. -/
theorem path_replacement {l : Linked} (hi : l.Inv) {key : Key} {depth : Nat}
    (hp : TreePath.Valid layer ⟨treeOf l, key, depth⟩) {nodup : Prop} {repr : PSet Address}
    (hn : nodup) {pa : List Address} (h1 : pa.Nodup) (h2 : depth = pa.length)
    (h3 : ∀ a, repr a → a ∉ pa) :
    ValidPathReplacement l ⟨l, key, depth⟩ nodup repr pa := by
  obtain ⟨hw, hs, hok⟩ := inv_sees hi
  exact ⟨path_valid_conv depth hw hs hp, h1, h2, hn, h3, rfl⟩

theorem canSplit_conv {l : Linked} {t} {r : SplitRequest} (hw : l.WF)
    (hs : Sees l.dv l.bdv l.root t) (h : t.CanSplitParent layer r) : l.CanSplitParent r := by
  have hn : t.IsNode := by cases r <;> exact h.2.1
  have hr := (hasRoot_iff hs).mpr hn
  obtain ⟨_, bs, ts, _, hnode, rfl, hlook, hkids⟩ := sees_root hs hr
  have child : ∀ i c, ts[i]? = some c → c.IsNode → l.node.ValidChildIndex i ∧
      Sees l.dv l.bdv (l.childAtIdx i).root c ∧ (l.childAtIdx i).HasRoot := by
    intro i c hc hcn
    have hi : i < l.node.children.length := by
      have := (List.getElem?_eq_some_iff.mp hc).1; have := hkids.1; omega
    have hsee := sees_child hkids hi
    rw [show ts.getD i .nil = c by simp [List.getD, hc]] at hsee
    exact ⟨hi, hsee, (hasRoot_iff hsee).mpr hcn⟩
  cases r with
  | leaf i k =>
    obtain ⟨_, _, c, hc, hcw, hleaf, hdom, hne⟩ := h
    have hcn : c.IsNode := by cases c with
      | nil => exact absurd hleaf (fun h => h)
      | node => trivial
    obtain ⟨c1, c2, c3⟩ := child i c hc hcn
    refine ⟨hw, hr, c1, c3, ?_⟩
    obtain ⟨_, cbs, cts, _, hcnode, rfl, hclook, hckids⟩ := sees_root c2 c3
    obtain ⟨e1, e2, e3⟩ := hleaf
    refine ⟨hw.1.1 _ _ hcnode, ⟨?_, ?_⟩, hdom, hne⟩
    · subst e1
      obtain ⟨k1, k2⟩ := hckids
      have k1 : (l.childAtIdx i).node.children.length = 1 := k1.symm
      have k2 := k2 0 (by omega)
      generalize (l.childAtIdx i).node.children = ps at k1 k2
      match ps, k1 with
      | [p], _ =>
        cases p with
        | none => rfl
        | some a => cases k2
    · have e2 : (l.childAtIdx i).node.flushed.length = 1 := e2
      have e3 : (l.childAtIdx i).node.flushed.getD 0 0 = 0 := e3
      show (l.childAtIdx i).node.flushed = [0]
      generalize (l.childAtIdx i).node.flushed = fl at e2 e3
      match fl, e2 with
      | [x], _ => simp at e3; rw [e3]
  | index i j =>
    obtain ⟨_, _, c, hc, hcw, hidx, h0, hj⟩ := h
    have hcn : c.IsNode := by cases c with
      | nil => exact absurd hidx (fun h => h)
      | node => trivial
    obtain ⟨c1, c2, c3⟩ := child i c hc hcn
    refine ⟨hw, hr, c1, c3, ?_⟩
    obtain ⟨_, cbs, cts, _, hcnode, rfl, hclook, hckids⟩ := sees_root c2 c3
    refine ⟨hw.1.1 _ _ hcnode, ?_, h0, hj⟩
    intro i' hi' hp
    have hi' : i' < (l.childAtIdx i).node.children.length := hi'
    have hsee := hckids.2 i' hi'
    rw [show (l.childAtIdx i).node.children.getD i' none = none from hp] at hsee
    have hti : cts[i']? = some (cts.getD i' .nil) := by
      have : i' < cts.length := by rw [hckids.1]; exact hi'
      simp [List.getD, List.getElem?_eq_getElem this]
    have := hidx _ (List.mem_of_getElem? hti)
    cases hg : cts.getD i' Tree.nil with
    | nil => rw [hg] at this; exact this
    | node => rw [hg] at hsee; cases hsee

theorem canFlush_conv {l : Linked} {t} {i gc : Nat} (hw : l.WF)
    (hs : Sees l.dv l.bdv l.root t) (h : Node.CanFlush t i gc)
    (hc : (t.children.getD i .nil).IsNode) : l.CanFlush i gc := by
  obtain ⟨_, hn, hi, hg⟩ := h
  have hr := (hasRoot_iff hs).mpr hn
  obtain ⟨_, bs, ts, _, hnode, rfl, hlook, hkids⟩ := sees_root hs hr
  have hi : i < ts.length := hi
  have hi' : i < l.node.children.length := by have := hkids.1; omega
  refine ⟨hw, hr, ⟨hi', fun hp => ?_⟩, ?_⟩
  · have hsee := hkids.2 i hi'
    rw [show l.node.children.getD i none = none from hp] at hsee
    have hc : (ts.getD i .nil).IsNode := hc
    cases hg : ts.getD i Tree.nil with
    | nil => rw [hg] at hc; exact hc
    | node => rw [hg] at hsee; cases hsee
  · rw [hlook.length]; exact hg

theorem canCompact_conv {l : Linked} {t} {a b : Nat} {c : Buffer} (hw : l.WF)
    (hs : Sees l.dv l.bdv l.root t) (h : Node.CanCompact t a b c) : l.CanCompact a b c := by
  obtain ⟨htw, hn, hab, hb, hdom, hval⟩ := h
  have hr := (hasRoot_iff hs).mpr hn
  obtain ⟨_, bs, ts, _, hnode, rfl, hlook, hkids⟩ := sees_root hs hr
  have hlen := hlook.length
  have hnw := hw.1.1 _ _ hnode
  have hkd : ∀ k, (Tree.node (P := Payload) ⟨bs, l.node.flushed⟩ l.node.pivots ts).KeyInDomain layer k
      ↔ l.node.KeyInDomain k := fun k =>
    ⟨fun h => ⟨hnw, h.2.2⟩, fun h => ⟨htw, trivial, h.2⟩⟩
  have hmo : Node.makeOffsetMap (.node ⟨bs, l.node.flushed⟩ l.node.pivots ts) =
      l.node.makeOffsetMap := by
    funext k
    unfold Node.makeOffsetMap LNode.makeOffsetMap
    by_cases hk : l.node.KeyInDomain k
    · rw [if_pos ((hkd k).mpr hk), if_pos hk]; rfl
    · rw [if_neg (fun h => hk ((hkd k).mp h)), if_neg hk]; exact hlen.symm
  have hsl : Looks l.bdv ((l.node.buffers.take b).drop a) (bs.slice a b) := (hlook.take b).drop a
  have hb : b ≤ bs.length := hb
  refine ⟨hw, hr, hab, by omega, ?_, ?_⟩
  · intro k
    rw [hdom k]
    unfold BDisk.ValidCompactKeyDomain Node.ValidCompactKeyDomain
    rw [hmo, hkd]
    refine and_congr Iff.rfl (and_congr Iff.rfl (exists_congr fun i => ?_))
    exact (hsl.keyIn _ _ _ _).symm
  · intro k hk
    rw [hval k hk]
    exact (hsl.queryFrom _ _).symm

theorem substitute_bdv {key : Key} {r : Linked} : ∀ (depth : Nat) {l : Linked} {as : List Address},
    (Path.substituteFrom l key r depth as).bdv = r.bdv
  | 0, _, _ => rfl
  | _ + 1, _, _ => rfl

theorem target_bdv {key : Key} : ∀ (depth : Nat) {l : Linked},
    (Path.targetFrom l key depth).bdv = l.bdv ∧ (Path.targetFrom l key depth).dv = l.dv
  | 0, _ => ⟨rfl, rfl⟩
  | d + 1, l => target_bdv d (l := l.childForKey key)

/-- Pushing the write buffer is always possible. -/
theorem push_possible {s : State} (h : Ready s) : ∃ s', Next s .internal s' ∧ Ready s' ∧
    abs s' = { memtable := s.memtable.drain, root := Node.pushMemtable (treeOf s.linked) s.memtable } ∧
    Keeps s s' := by
  obtain ⟨hw, hs, hok⟩ := inv_sees h.1
  obtain ⟨as, hl, hn, hf⟩ := exists_fresh hw.2.2 h.2 2
  match as, hl with
  | [a, b], _ =>
    have hfr : s.linked.IsFresh (TwoAddrs.repr ⟨a, b⟩) :=
      ⟨fun x hx => (hf x (by rcases hx with rfl | rfl <;> simp)).1,
       fun x hx => (hf x (by rcases hx with rfl | rfl <;> simp)).2⟩
    have hp := push_spec (m := s.memtable) hs hfr
    obtain ⟨h1, h2, h3⟩ := hp.self_view hw (pushMemtable_spec hok s.memtable).1
    refine ⟨⟨s.memtable.drain, s.linked.pushMemtable s.memtable.buffer ⟨a, b⟩⟩,
      ⟨_, .flushMemtable (x := ⟨a, b⟩) (by simpa [TwoAddrs.NoDup] using hn) rfl h2, hfr, h3⟩,
      ⟨h1, finite_insert h.2⟩, ?_, hp.dv, hp.bdv⟩
    unfold abs
    rw [treeOf_eq hp.sees]

/-- Growing is always possible. -/
theorem grow_possible {s : State} (h : Ready s) : ∃ s', Next s .internal s' ∧ Ready s' ∧
    abs s' = { memtable := s.memtable, root := (treeOf s.linked).grow layer } ∧ Keeps s s' := by
  obtain ⟨hw, hs, hok⟩ := inv_sees h.1
  obtain ⟨as, hl, hn, hf⟩ := exists_fresh hw.2.2 h.2 1
  match as, hl with
  | [a], _ =>
    have hfr : s.linked.IsFresh (fun b => b = a) :=
      ⟨fun x hx => (hf x (by simp [hx])).1, fun x hx => (hf x (by simp [hx])).2⟩
    have hp := grow_spec hs hfr
    obtain ⟨h1, _, _⟩ := hp.self_view hw (hok.grow lawful).1
    refine ⟨⟨s.memtable, s.linked.grow a⟩, ⟨_, .grow, hfr⟩, ⟨h1, h.2⟩, ?_, hp.dv, hp.bdv⟩
    unfold abs
    rw [treeOf_eq hp.sees]

/-- Splitting is possible wherever the tree allows it. -/
theorem split_possible {s : State} (h : Ready s) {key : Key} {depth : Nat} {r : SplitRequest}
    (hp : TreePath.Valid layer ⟨treeOf s.linked, key, depth⟩)
    (hc : (TreePath.target ⟨treeOf s.linked, key, depth⟩).CanSplitParent layer r) :
    ∃ s', Next s .internal s' ∧ Ready s' ∧ abs s' = FilteredBetree.State.mk s.memtable
      (TreePath.substitute layer ⟨treeOf s.linked, key, depth⟩
        ((TreePath.target ⟨treeOf s.linked, key, depth⟩).splitParent layer r)) ∧
      Keeps s s' := by
  obtain ⟨hw, hs, hok⟩ := inv_sees h.1
  obtain ⟨as, hl, hn, hf⟩ := exists_fresh hw.2.2 h.2 (3 + depth)
  match as, hl with
  | [], hl => simp at hl; omega
  | [_], hl => simp at hl; omega
  | [_, _], hl => simp at hl; omega
  | a :: b :: c :: pa, hl =>
    simp only [List.nodup_cons, List.mem_cons, not_or] at hn
    obtain ⟨⟨n1, n2, n3⟩, ⟨n4, n5⟩, n6, n7⟩ := hn
    have hd : depth = pa.length := by simp at hl; omega
    let x : SplitAddrs := ⟨a, b, c⟩
    have hfr : s.linked.IsFresh x.repr :=
      ⟨fun y hy => (hf y (by rcases hy with rfl | rfl | rfl <;> simp [x])).1,
       fun y hy => (hf y (by rcases hy with rfl | rfl | rfl <;> simp [x])).2⟩
    have hfp : s.linked.IsFresh (fun y => y ∈ pa) :=
      ⟨fun y hy => (hf y (by simp [hy])).1, fun y hy => (hf y (by simp [hy])).2⟩
    have hv := path_replacement h.1 hp (nodup := x.NoDup) (repr := x.repr)
      ⟨n1, n4, Ne.symm n2⟩ n7 hd (by rintro y (rfl | rfl | rfl) <;> assumption)
    obtain ⟨t1, t2, t3, t4⟩ := target_sees hs hv
    have hft : (Path.target ⟨s.linked, key, depth⟩).IsFresh x.repr :=
      ⟨by rw [t2]; exact hfr.1, by rw [t3]; exact hfr.2⟩
    have htw : (Path.target ⟨s.linked, key, depth⟩).WF :=
      ⟨by rw [t2]; exact hw, nondangling_of t4⟩
    have hc' := canSplit_conv htw t4 hc
    have c2 := (split_spec t4 hft hv.2.2.2.1 hc').2
    have hwr := path_writes hs hv hfp c2
    obtain ⟨h1, h2, h3⟩ := hwr.self_view hw
      (hok.path (p := ⟨treeOf s.linked, key, depth⟩) hp (Tree.splitParent_same lawful hc)).1
    refine ⟨⟨s.memtable, postSplit ⟨s.linked, key, depth⟩ r x pa⟩,
      ⟨_, .split hc' hv h2, hfr, hfp, h3⟩, ⟨h1, ?_⟩, ?_, hwr.dv, hwr.bdv⟩
    · have e : (postSplit ⟨s.linked, key, depth⟩ r x pa).bdv = s.linked.bdv := by
        unfold postSplit Path.substitute
        rw [substitute_bdv]
        cases r <;> exact (target_bdv depth).1
      rw [e]; exact h.2
    · exact congrArg (FilteredBetree.State.mk s.memtable) (treeOf_eq hwr.sees)

/-- Flushing is possible wherever the tree allows it and the child exists. -/
theorem flush_possible {s : State} (h : Ready s) {key : Key} {depth i gc : Nat}
    (hp : TreePath.Valid layer ⟨treeOf s.linked, key, depth⟩)
    (hc : Node.CanFlush (TreePath.target ⟨treeOf s.linked, key, depth⟩) i gc)
    (hn : ((TreePath.target ⟨treeOf s.linked, key, depth⟩).children.getD i .nil).IsNode) :
    ∃ s', Next s .internal s' ∧ Ready s' ∧ abs s' = FilteredBetree.State.mk s.memtable
      (TreePath.substitute layer ⟨treeOf s.linked, key, depth⟩
        (Node.flush (TreePath.target ⟨treeOf s.linked, key, depth⟩) i gc)) ∧
      Keeps s s' := by
  obtain ⟨hw, hs, hok⟩ := inv_sees h.1
  obtain ⟨as, hl, hnd, hf⟩ := exists_fresh hw.2.2 h.2 (2 + depth)
  match as, hl with
  | [], hl => simp at hl; omega
  | [_], hl => simp at hl; omega
  | a :: b :: pa, hl =>
    simp only [List.nodup_cons, List.mem_cons, not_or] at hnd
    obtain ⟨⟨n1, n2⟩, n3, n4⟩ := hnd
    have hd : depth = pa.length := by simp at hl; omega
    let x : TwoAddrs := ⟨a, b⟩
    have hfr : s.linked.IsFresh x.repr :=
      ⟨fun y hy => (hf y (by rcases hy with rfl | rfl <;> simp [x])).1,
       fun y hy => (hf y (by rcases hy with rfl | rfl <;> simp [x])).2⟩
    have hfp : s.linked.IsFresh (fun y => y ∈ pa) :=
      ⟨fun y hy => (hf y (by simp [hy])).1, fun y hy => (hf y (by simp [hy])).2⟩
    have hv := path_replacement h.1 hp (nodup := x.NoDup) (repr := x.repr)
      n1 n4 hd (by rintro y (rfl | rfl) <;> assumption)
    obtain ⟨t1, t2, t3, t4⟩ := target_sees hs hv
    have hft : (Path.target ⟨s.linked, key, depth⟩).IsFresh x.repr :=
      ⟨by rw [t2]; exact hfr.1, by rw [t3]; exact hfr.2⟩
    have htw : (Path.target ⟨s.linked, key, depth⟩).WF :=
      ⟨by rw [t2]; exact hw, nondangling_of t4⟩
    have hc' := canFlush_conv htw t4 hc hn
    have c2 := (flush_spec t4 hft hv.2.2.2.1 hc').2
    have hwr := path_writes hs hv hfp c2
    obtain ⟨h1, h2, h3⟩ := hwr.self_view hw
      (hok.path (p := ⟨treeOf s.linked, key, depth⟩) hp (flush_same hc)).1
    refine ⟨⟨s.memtable, postFlush ⟨s.linked, key, depth⟩ i gc x pa⟩,
      ⟨_, .flush hc' hv h2, hfr, hfp, h3⟩, ⟨h1, ?_⟩, ?_, hwr.dv, hwr.bdv⟩
    · have e : (postFlush ⟨s.linked, key, depth⟩ i gc x pa).bdv = s.linked.bdv := by
        unfold postFlush Path.substitute
        rw [substitute_bdv]
        exact (target_bdv depth).1
      rw [e]; exact h.2
    · exact congrArg (FilteredBetree.State.mk s.memtable) (treeOf_eq hwr.sees)

/-- Compacting is possible wherever the tree allows it. -/
theorem compact_possible {s : State} (h : Ready s) {key : Key} {depth a b : Nat} {c : Buffer}
    (hp : TreePath.Valid layer ⟨treeOf s.linked, key, depth⟩)
    (hc : Node.CanCompact (TreePath.target ⟨treeOf s.linked, key, depth⟩) a b c) :
    ∃ s', Next s .internal s' ∧ Ready s' ∧ abs s' = FilteredBetree.State.mk s.memtable
      (TreePath.substitute layer ⟨treeOf s.linked, key, depth⟩
        (Node.compact (TreePath.target ⟨treeOf s.linked, key, depth⟩) a b c)) ∧
      Keeps s s' := by
  obtain ⟨hw, hs, hok⟩ := inv_sees h.1
  obtain ⟨as, hl, hnd, hf⟩ := exists_fresh hw.2.2 h.2 (2 + depth)
  match as, hl with
  | [], hl => simp at hl; omega
  | [_], hl => simp at hl; omega
  | a1 :: a2 :: pa, hl =>
    simp only [List.nodup_cons, List.mem_cons, not_or] at hnd
    obtain ⟨⟨n1, n2⟩, n3, n4⟩ := hnd
    have hd : depth = pa.length := by simp at hl; omega
    let x : TwoAddrs := ⟨a1, a2⟩
    have hfr : s.linked.IsFresh x.repr :=
      ⟨fun y hy => (hf y (by rcases hy with rfl | rfl <;> simp [x])).1,
       fun y hy => (hf y (by rcases hy with rfl | rfl <;> simp [x])).2⟩
    have hfp : s.linked.IsFresh (fun y => y ∈ pa) :=
      ⟨fun y hy => (hf y (by simp [hy])).1, fun y hy => (hf y (by simp [hy])).2⟩
    have hv := path_replacement h.1 hp (nodup := x.NoDup) (repr := x.repr)
      n1 n4 hd (by rintro y (rfl | rfl) <;> assumption)
    obtain ⟨t1, t2, t3, t4⟩ := target_sees hs hv
    have hft : (Path.target ⟨s.linked, key, depth⟩).IsFresh x.repr :=
      ⟨by rw [t2]; exact hfr.1, by rw [t3]; exact hfr.2⟩
    have htw : (Path.target ⟨s.linked, key, depth⟩).WF :=
      ⟨by rw [t2]; exact hw, nondangling_of t4⟩
    have hc' := canCompact_conv htw t4 hc
    have c2 := (compact_spec t4 hft hc').2
    have hwr := path_writes hs hv hfp c2
    obtain ⟨h1, h2, h3⟩ := hwr.self_view hw
      (hok.path (p := ⟨treeOf s.linked, key, depth⟩) hp (compact_same hc)).1
    refine ⟨⟨s.memtable, postCompact ⟨s.linked, key, depth⟩ a b c x pa⟩,
      ⟨_, .compact hc' hv h2, hfr, hfp, h3⟩, ⟨h1, ?_⟩, ?_, hwr.dv, hwr.bdv⟩
    · have e : (postCompact ⟨s.linked, key, depth⟩ a b c x pa).bdv = s.linked.bdv.insert a2 c := by
        unfold postCompact Path.substitute
        rw [substitute_bdv]
        show PMap.insert (Path.targetFrom s.linked key depth).bdv a2 c = _
        rw [(target_bdv depth).1]
      rw [e]; exact finite_insert h.2
    · exact congrArg (FilteredBetree.State.mk s.memtable) (treeOf_eq hwr.sees)

open Classical in
/-- Only what is reached from the root. -/
noncomputable def collect (l : Linked) : Linked :=
  { root := l.root
    dv := fun a => if Reach l.dv l.root a then l.dv a else none
    bdv := fun a => if l.ReachableBuffer a then l.bdv a else none }

/-- Dropping everything that is not reached, nodes and buffers, is always possible. -/
theorem gc_step {s : State} (h : s.linked.Inv) :
    NextBy s .internal (.bufferNoop (collect s.linked)) { s with linked := collect s.linked } ∧
    (collect s.linked).Inv ∧
    abs { s with linked := collect s.linked } = abs s := by
  obtain ⟨hw, hs, hok⟩ := inv_sees h
  have hin : ∀ a, Reach s.linked.dv s.linked.root a → (collect s.linked).dv a = s.linked.dv a := by
    intro a ha; simp only [collect, if_pos ha]
  have hout : ∀ a n, (collect s.linked).dv a = some n →
      Reach s.linked.dv s.linked.root a ∧ s.linked.dv a = some n := by
    intro a n ha
    simp only [collect] at ha
    by_cases hr : Reach s.linked.dv s.linked.root a
    · rw [if_pos hr] at ha; exact ⟨hr, ha⟩
    · rw [if_neg hr] at ha; cases ha
  have hsub : PMap.Sub (collect s.linked).dv s.linked.dv := fun a n ha => (hout a n ha).2
  have hwf : (collect s.linked).WF := by
    refine ⟨⟨fun a n ha => hw.1 a n (hout a n ha).2, fun a n ha => ?_, ?_⟩, ?_⟩
    · obtain ⟨hr, hn⟩ := hout a n ha
      obtain ⟨h1, h2⟩ := hw.2.1 a n hn
      refine ⟨fun i hi c hc => ?_, fun i hi c m hc hm => h2 i hi c m hc (hout c m hm).2⟩
      obtain ⟨m, hm⟩ := (PMap.has_iff _ _).mp (h1 i hi c hc)
      have : Reach s.linked.dv s.linked.root c :=
        reach_trans hr (.down hn hi (by rw [hc]; exact .here hm))
      exact (PMap.has_iff _ _).mpr ⟨m, (hin c this).trans hm⟩
    · obtain ⟨l, hl⟩ := hw.2.2
      refine ⟨l, fun a ha => hl a ?_⟩
      obtain ⟨n, hn⟩ := (PMap.has_iff _ _).mp ha
      exact (PMap.has_iff _ _).mpr ⟨n, hsub _ _ hn⟩
    · intro a ha
      obtain ⟨m, hm⟩ := (PMap.has_iff _ _).mp (h.1.1.2 a ha)
      have : Reach s.linked.dv s.linked.root a := by
        rw [show s.linked.root = some a from ha]; exact .here hm
      exact (PMap.has_iff _ _).mpr ⟨m, (hin a this).trans hm⟩
  have hv : s.linked.ValidView (collect s.linked) := by
    refine ⟨hwf, rfl, hsub, fun a b c hb hc => ?_⟩
    simp only [collect] at hb
    split at hb
    · rw [hc] at hb; cases hb; rfl
    · cases hb
  have hp : s.linked.BuffersPreserved (collect s.linked) := by
    intro b hb
    classical
    show (if s.linked.ReachableBuffer b then s.linked.bdv b else none) ≠ none
    rw [if_pos hb]; exact h.2.1 b hb
  have hsee := view_sees hs hv hp
  refine ⟨.bufferNoop hv hp, (inv_iff _).mpr ⟨hwf.1, _, hsee, hok⟩, ?_⟩
  unfold abs
  rw [treeOf_eq hsee]

theorem gc_possible {s : State} (h : Ready s) :
    Next s .internal { s with linked := collect s.linked } ∧
    Ready { s with linked := collect s.linked } ∧
    abs { s with linked := collect s.linked } = abs s := by
  obtain ⟨h1, h2, h3⟩ := gc_step h.1
  refine ⟨⟨_, h1, trivial⟩, ⟨h2, ?_⟩, h3⟩
  obtain ⟨l, hl⟩ := h.2
  refine ⟨l, fun a ha => hl a ?_⟩
  classical
  have ha : (if s.linked.ReachableBuffer a then s.linked.bdv a else none) ≠ none := ha
  by_cases hr : s.linked.ReachableBuffer a
  · rw [if_pos hr] at ha; exact ha
  · rw [if_neg hr] at ha; exact absurd rfl ha

end Verif.LinkedBetree
