import Verif.Alloc.BranchPossible
/-
Building a branch out of one unit, inside Alloc/AllocationBranchBetree.lean. Proofs only; no code is
modelled here.
-/
namespace Verif.ABB
open Verif LinkedBetree LikesBetree ABr

theorem lookup_zip_map (f : Key → Message) (k : Key) : ∀ ks : List Key,
    (ks.zip (ks.map f)).lookup k = if k ∈ ks then some (f k) else none
  | [] => rfl
  | x :: ks => by
    rw [List.map_cons, List.zip_cons_cons, List.lookup_cons]
    by_cases h : k = x
    · subst h; simp
    · have : (k == x) = false := by simp [h]
      rw [this, lookup_zip_map f k ks]
      simp [h]

/-- Every buffer is a sorted list of entries. -/
theorem buffer_list (m : Buffer) : ∃ (ks : List Key) (ms : List Message), ks.length = ms.length ∧
    KeyT.StrictlySorted ks ∧ (fun k => (ks.zip ms).lookup k) = m := by
  have step : ∀ n : Nat, ∃ ks : List Key, ks.Pairwise KeyT.Lt ∧
      ∀ k, k ∈ ks ↔ k.toNat < n ∧ PMap.Has m k := by
    intro n
    induction n with
    | zero => exact ⟨[], .nil, fun k => by simp⟩
    | succ n ih =>
      obtain ⟨ks, h1, h2⟩ := ih
      by_cases hn : ∃ k : Key, k.toNat = n ∧ PMap.Has m k
      · obtain ⟨x, rfl, hx⟩ := hn
        refine ⟨ks ++ [x], ?_, fun k => ?_⟩
        · rw [List.pairwise_append]
          refine ⟨h1, List.pairwise_singleton _ _, fun a ha b hb => ?_⟩
          rw [List.mem_singleton.mp hb]
          have hlt := ((h2 a).mp ha).1
          exact ⟨UInt64.le_iff_toNat_le.mpr (by omega), fun e => by rw [e] at hlt; omega⟩
        · rw [List.mem_append, h2, List.mem_singleton]
          constructor
          · rintro (⟨h3, h4⟩ | rfl)
            · exact ⟨by omega, h4⟩
            · exact ⟨by omega, hx⟩
          · rintro ⟨h3, h4⟩
            rcases Nat.lt_or_ge k.toNat x.toNat with h | h
            · exact .inl ⟨h, h4⟩
            · exact .inr (UInt64.toNat_inj.mp (by omega))
      · refine ⟨ks, h1, fun k => ?_⟩
        rw [h2]
        constructor
        · rintro ⟨h3, h4⟩; exact ⟨by omega, h4⟩
        · rintro ⟨h3, h4⟩
          refine ⟨?_, h4⟩
          rcases Nat.lt_or_ge k.toNat n with h | h
          · exact h
          · exact absurd ⟨k, by omega, h4⟩ hn
  obtain ⟨ks, h1, h2⟩ := step (2 ^ 64)
  refine ⟨ks, ks.map fun k => (m k).getD .nop, by simp, (KeyT.strictlySorted_iff _).mpr h1, ?_⟩
  funext k
  rw [lookup_zip_map]
  have hk : k ∈ ks ↔ PMap.Has m k := by
    rw [h2]; exact and_iff_right (UInt64.toNat_lt k)
  cases hm : m k with
  | none =>
    rw [if_neg fun h => by
      obtain ⟨v, hv⟩ := (PMap.has_iff _ _).mp (hk.mp h); rw [hm] at hv; cases hv]
  | some v =>
    rw [if_pos (hk.mpr ((PMap.has_iff _ _).mpr ⟨v, hm⟩))]; rfl

/-- A branch of one page. -/
def leafBranch (a : Address) (ks : List Key) (ms : List Message) : LBr.Branch Summary :=
  ⟨a, PMap.empty.insert a (.leaf ks ms)⟩

theorem leaf_iBuf {a : Address} {ks : List Key} {ms : List Message} {d : BrDisk}
    (h : d a = some (.leaf ks ms)) : iBuf d a = fun k => (ks.zip ms).lookup k := by
  rw [iBuf_eq (LBr.Shows.leaf h)]
  funext k
  rw [BNode.contents, BNode.entries]

theorem leaf_query {a : Address} {ks : List Key} {ms : List Message} {d : BrDisk} (hw : d.WF)
    (h : d a = some (.leaf ks ms)) (h0 : 0 < ks.length) (h1 : ks.length = ms.length)
    (h2 : KeyT.StrictlySorted ks) (k : Key) : query d a k = Buffer.query (fun k => (ks.zip ms).lookup k) k := by
  have hi : (getBranch d a).Inv :=
    (LBr.inv_iff _).mpr ⟨hw, _, LBr.Shows.leaf h, BNode.wf_leaf.mpr ⟨h0, h1, h2⟩⟩
  have := query_iBuf hi k
  rw [show iBuf (getBranch d a).disk (getBranch d a).root = _ from leaf_iBuf h] at this
  exact this

section
variable {g : Geometry} {w : Prop} {cp : Check} {image : Stamped BLinked} {tr : List Label}
  {s : State}

/-- the labels of building a branch in the unit `u` -/
def buildLabels (u : Nat) : List Label :=
  [.internal (fun v => v = u) (fun _ => False), .internal (fun _ => False) (fun _ => False),
    .internal (fun _ => False) (fun _ => False)]

/-- Any non-empty sorted list of entries can be built into a branch, given one fresh unit. -/
theorem build_can (h : (machine g w cp image).Exec tr s) {ks : List Key} {ms : List Message}
    (h1 : 0 < ks.length) (h2 : ks.length = ms.length) (h3 : KeyT.StrictlySorted ks) {a : Address}
    (ha : a.wf g) (hf : s.IsFresh fun v => v = a.au) :
    ∃ b, (machine g w cp image).Exec (tr ++ buildLabels a.au) { s with wip := s.wip ++ [b] } ∧
      b.isSealed = true ∧ b.branch = some (leafBranch a ks ms) := by
  have e1 := h.snoc (Next.branchBegin (w := w) (g := g) (cp := cp) hf (fun _ h => h))
  have hcan : (AllocBranch.new fun v => v = a.au).mini.canAllocate g a := new_canAllocate rfl ha
  have nof : ∀ s : State, s.IsFresh fun _ => False := fun s =>
    ⟨fun _ _ h => h, fun _ _ h => h, fun _ _ h => h⟩
  have get : ∀ b : AllocBranch, (s.wip ++ [b])[s.wip.length]? = some b := by simp
  have put : ∀ b c : AllocBranch, (s.wip ++ [b]).set s.wip.length c = s.wip ++ [c] := by simp
  have n1 : BuildNext g (AllocBranch.new fun v => v = a.au) (.initLeaf a ks ms) (fun _ => False)
      (fun _ => False) ((AllocBranch.new fun v => v = a.au).initBranch g a ks ms) := by
    refine .initLeaf (fun _ h => h) (fun _ h => h) ⟨rfl, ?_, hcan, h1, h2, h3⟩
    rintro au ⟨p, hp, hr⟩
    obtain ⟨x, _, hx⟩ := (reservedAus_iff (built_new g _).wf au).mp ⟨p, hp, hr⟩
    cases ((built_new g _).reserved x).mp hx
  have x1 : (ABr.machine g w fun v => v = a.au).Exec
      [.build (.initLeaf a ks ms) (fun _ => False) (fun _ => False)] _ :=
    Machine.Exec.snoc (tr := []) ⟨_, rfl, .nil _⟩ (.build n1)
  have e2 := e1.snoc (Next.branchBuild (i := s.wip.length) (nof _) (get _) n1)
  dsimp only at e2
  rw [put] at e2
  generalize hb1 : (AllocBranch.new fun v => v = a.au).initBranch g a ks ms = b1 at *
  have hs1 : b1.isSealed = false := by rw [← hb1]; rfl
  have hbr : b1.branch = some (leafBranch a ks ms) := by rw [← hb1]; rfl
  have hleaf : (leafBranch a ks ms).node.IsLeaf := by
    unfold LBr.Branch.node leafBranch
    simp only [PMap.insert_same, Option.getD_some]
    trivial
  have hx := built x1
  have hnr : ∀ u, ¬ b1.mini.canRemove u := by
    intro u hu
    obtain ⟨k1, k2⟩ := (canRemove_iff _).mp hu
    have : u = a.au := by
      have := (hx.held u).mp k1
      have : (u = a.au ∨ False) ∧ ¬ False := this
      exact this.1.resolve_right id
    subst this
    exact k2 ((reservedAus_iff hx.wf _).mpr ⟨a, rfl, (hx.reserved a).mpr (List.mem_singleton.mpr rfl)⟩)
  have n2 : BuildNext g b1 (.sealUp none) (fun _ => False) (fun _ => False) _ :=
    .sealUp (fun _ h => h) ⟨hs1, hbr, ⟨(fun h => by cases h), fun hi => by
      cases hnd : (leafBranch a ks ms).node with
      | leaf => rw [hnd] at hi; exact hi.elim
      | index => rw [hnd] at hleaf; exact hleaf.elim
      | auxiliary => rw [hnd] at hleaf; exact hleaf.elim⟩, (fun _ h => by cases h),
      fun u => ⟨fun h => hnr u h, fun h => h.elim⟩⟩
  have e3 := e2.snoc (Next.branchBuild (i := s.wip.length) (nof _) (get _) n2)
  dsimp only at e3
  rw [put] at e3
  refine ⟨b1.sealBranch g (leafBranch a ks ms) none (fun _ => False), ?_, ?_, ?_⟩
  · rw [List.append_assoc, List.append_assoc] at e3
    exact e3
  · rfl
  · exact hbr

theorem leaf_summary (a : Address) (ks : List Key) (ms : List Message) (u : Nat) :
    getSummary (leafBranch a ks ms) u ↔ u = a.au := by
  have : (leafBranch a ks ms).node = .leaf ks ms := by
    unfold LBr.Branch.node leafBranch
    simp only [PMap.insert_same, Option.getD_some]
  unfold getSummary
  rw [this]
  exact Iff.rfl

theorem leaf_at (a : Address) (ks : List Key) (ms : List Message) :
    (leafBranch a ks ms).disk a = some (.leaf ks ms) := PMap.insert_same _ _ _

/-- A non-empty memtable can be written out, given two fresh units. -/
theorem flush_run (h : (machine g w cp image).Exec tr s) (hal : Alone s.betree.linked.dv)
    (hm : ¬ s.betree.memtable.IsEmpty) {x addr : Address} (hx : x.wf g) (hne : x.au ≠ addr.au)
    (hf : s.IsFresh fun u => u = x.au ∨ u = addr.au) :
    ∃ de s' nt ks ms, (machine g w cp image).Exec
        (tr ++ buildLabels x.au ++ [.internal (fun u => u = addr.au) de]) s' ∧
      s'.betree.memtable = s.betree.memtable.drain ∧
      s'.betree.linked = trim (s.betree.linked.tree.pushMemtable Buffer.empty ⟨addr, x⟩) nt
        (s.betree.linked.bdv.unionRight (leafBranch x ks ms).disk) ∧
      (fun k => (ks.zip ms).lookup k) = s.betree.memtable.buffer ∧
      s'.compactors = s.compactors ∧ s'.wip = s.wip ∧
      ∀ a, s'.betree.linked.dv.Has a ↔
        Reach (s.betree.linked.tree.pushMemtable Buffer.empty ⟨addr, x⟩).dv (some addr) a := by
  obtain ⟨ks, ms, h1, h2, h3⟩ := buffer_list s.betree.memtable.buffer
  have h0 : 0 < ks.length := by
    refine Nat.pos_of_ne_zero fun e => hm ?_
    have : ks = [] := List.eq_nil_of_length_eq_zero e
    subst this
    rw [Memtable.IsEmpty, ← h3]; rfl
  obtain ⟨b, hb, hs, hbr⟩ := build_can h h0 h1 h2 hx
    ⟨fun u a b => hf.1 u a (.inl b), fun u a b => hf.2.1 u a (.inl b), fun u a b => hf.2.2 u a (.inl b)⟩
  obtain ⟨hg, _⟩ := run_good hb
  have get : (s.wip ++ [b])[s.wip.length]? = some b := by simp
  have hun : ∀ u, allAus b.mini u ↔ u = x.au := fun u =>
    ((hg.wip.done get hs hbr).2.2 u).symm.trans (leaf_summary x ks ms u)
  obtain ⟨de, s', nt, q1, q2, q3, q4, q5, q6⟩ := push_can (cp := cp) hg hal get hs hbr (addr := addr) (by
      refine (leaf_iBuf (leaf_at x ks ms)).trans h3) (by
      refine ⟨fun u a b => hf.1 u a (.inr b), fun u a b => hf.2.1 u a (.inr b), fun u a e => ?_⟩
      rcases (alloc_append b u).mp a with a | a
      · exact hf.2.2 u a (.inr e)
      · exact hne (((hun u).mp a).symm.trans e))
  refine ⟨de, s', nt, ks, ms, hb.snoc q1, q2, q3, h3, q4, q5.trans ?_, q6⟩
  simp [List.eraseIdx_append]

theorem target_ok {k : Key} : ∀ (n : Nat) {l : Linked}, Path.ValidFrom l k n →
    (Path.targetFrom l k n).HasRoot ∧ (Path.targetFrom l k n).Acyclic
  | 0, _, h => ⟨h.1, h.2.1⟩
  | n + 1, l, h => target_ok n (l := l.childForKey k) h.2.2.2.2

/-- A compaction can be begun, built and completed, given fresh units, if the check accepts the
list of entries. -/
theorem compact_run (h : (machine g w cp image).Exec tr s) (hal : Alone s.betree.linked.dv) {p : Path}
    {a b : Nat} {x addr : Address} {pa : List Address} {ks : List Key} {ms : List Message}
    (hv : p.Valid) (hl : p.linked = s.betree.linked.tree) (hab : a < b)
    (hbl : b ≤ p.target.node.buffers.length) (hd : p.depth = pa.length)
    (h1 : 0 < ks.length) (h2 : ks.length = ms.length) (h3 : KeyT.StrictlySorted ks) (hx : x.wf g)
    (hxa : x.au ≠ addr.au) (hxp : ¬ unitsOf (fun a => a ∈ pa) x.au)
    (hap : ¬ unitsOf (fun a => a ∈ pa) addr.au) (hpa : ListUnitsDistinct pa)
    (hf : s.IsFresh fun u => u = x.au ∨ u = addr.au ∨ unitsOf (fun a => a ∈ pa) u)
    (hcp : ∀ d' : BrDisk, d'.WF → d' x = some (.leaf ks ms) →
      cp s.betree.linked.bdv p.target.node a b d' x) :
    ∃ de s' nt d, (machine g w cp image).Exec
        (tr ++ [.internal (fun _ => False) (fun _ => False)] ++ buildLabels x.au ++
          [.internal (fun u => u = addr.au ∨ unitsOf (fun a => a ∈ pa) u) de]) s' ∧
      s'.betree = ⟨s.betree.memtable, trim (postCompact p a b Buffer.empty ⟨addr, x⟩ pa) nt d⟩ ∧
      d x = some (.leaf ks ms) ∧
      s'.compactors = s.compactors ∧ s'.wip = s.wip ∧
      ∀ y, s'.betree.linked.dv.Has y ↔
        Reach (postCompact p a b Buffer.empty ⟨addr, x⟩ pa).dv
          (postCompact p a b Buffer.empty ⟨addr, x⟩ pa).root y := by
  have ht := target_ok p.depth hv
  obtain ⟨c, hc⟩ : ∃ c : CompactorInput, c = ⟨(p.target.node.buffers.take b).drop a,
    fun k => p.target.node.makeOffsetMap k - a⟩ := ⟨_, rfl⟩
  have hin : ValidCompactorInput p a b c := ⟨hv, ht.1, hab, hbl, hc⟩
  have e1 := h.snoc (Next.compactBegin (g := g) (w := w) (cp := cp) (allocs := fun _ => False)
    (deallocs := fun _ => False) (fun _ h => h) (fun _ h => h) hl hin)
  obtain ⟨bw, hb, hs, hbr⟩ := build_can e1 h1 h2 h3 hx
    ⟨fun u a b => hf.1 u a (.inl b), fun u a b => hf.2.1 u a (.inl b), fun u a b => hf.2.2 u a (.inl b)⟩
  dsimp only at hb
  obtain ⟨hg, _⟩ := run_good hb
  have get : (s.wip ++ [bw])[s.wip.length]? = some bw := by simp
  have getc : (s.compactors ++ [c])[s.compactors.length]? = some c := by simp
  have hun : ∀ u, allAus bw.mini u ↔ u = x.au := fun u =>
    ((hg.wip.done get hs hbr).2.2 u).symm.trans (leaf_summary x ks ms u)
  have hnd : pa.Nodup := by
    rw [List.nodup_iff_getElem?_ne_getElem?]
    intro i j hij hj e
    have hj' : pa[j]? = some pa[j] := List.getElem?_eq_getElem hj
    rw [hj'] at e
    exact hpa i j _ _ e hj' (by omega) rfl
  obtain ⟨de, s', nt, d, q1, q2, q0, q3, q4, q5⟩ := compact_can (cp := cp) hg hal hap hpa getc hin get hs hbr
    ⟨ht.2.1, ht.1, hab, hbl⟩ (fun d' hw hd' => hcp d' hw ((hd' x ((leaf_summary x ks ms _).mpr rfl)).trans (leaf_at x ks ms)))
    (addr := addr) (pa := pa) ⟨hv, hnd, hd, fun e => hxa (congrArg Address.au e).symm, by
      rintro y (rfl | rfl) hy
      · exact hap ⟨_, hy, rfl⟩
      · exact hxp ⟨_, hy, rfl⟩, hl.symm⟩ (by
      refine ⟨fun u a b => hf.1 u a (.inr b), fun u a b => hf.2.1 u a (.inr b), fun u a e => ?_⟩
      rcases (alloc_append bw u).mp a with a | a
      · exact hf.2.2 u a (.inr e)
      · rw [(hun u).mp a] at e
        rcases e with e | e
        · exact hxa e
        · exact hxp e)
  refine ⟨de, s', nt, d, hb.snoc q1, q2, ?_, q3.trans ?_, q4.trans ?_, q5⟩
  · exact (q0 x ((leaf_summary x ks ms _).mpr rfl)).trans (leaf_at x ks ms)
  · simp [List.eraseIdx_append]
  · simp [List.eraseIdx_append]

end
end Verif.ABB
