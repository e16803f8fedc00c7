import Verif.Kv.BlockAlloc
/-
Every handler of the block side does a step of its specification, `BlockCache`, and keeps the block side
in order. No code is modelled here.
-/
namespace Verif.Kv.BlockImpl
open IndTable (Tab Bitmap numBlocks TRow ofRows)
open BlockCache (assign FrozenSafe ValidAllocation OpStep)
variable {Node : Type}

/-- The state as the specification has it (`I`, StateBCImpl.i.dfy). -/
def Ready.view (s : Ready Node) : BlockCache.Ready Node :=
  ⟨s.persistent.view, s.frozen.map (·.view), s.eph.view, s.persistentLoc, s.frozenLoc, s.tableWrite,
    s.writes.toMap, s.reads.toMap, s.cache.toMap⟩

/-- `Inv`, StateBCImpl.i.dfy -/
structure Inv (kids : Node → List Ref) (s : Ready Node) : Prop where
  eph : s.eph.Inv
  ephQueue : s.eph.queue ≠ none
  frozen : ∀ t, s.frozen = some t → t.Inv
  blocks : Blocks s.alloc s.persistent.view.locs s.eph.view.locs (s.frozen.map (·.view.locs)) s.writes.toMap
  wNodup : s.writes.keys.Nodup
  rNodup : s.reads.keys.Nodup
  cNodup : s.cache.keys.Nodup
  lruNodup : s.lru.Nodup
  lruMem : ∀ r, r ∈ s.lru ↔ s.cache.get r ≠ none
  size : s.size ≤ maxCacheSize
  kids : ∀ r n, s.cache.get r = some n → s.eph.view.graph r = some (kids n)
  dirty : ∀ r, s.eph.view.graph r ≠ none → s.eph.view.locs r = none → s.cache.get r ≠ none
  dirtyF : ∀ t, s.frozen = some t → ∀ r, t.view.graph r ≠ none → t.view.locs r = none →
    s.cache.get r ≠ none ∧ s.eph.view.locs r = none
  tw : s.tableWrite ≠ none → s.frozenLoc ≠ none
  fl : s.frozenLoc ≠ none → s.frozen ≠ none
  pLoc : ValidTableLoc s.persistentLoc
  fLoc : ∀ l, s.frozenLoc = some l → ValidTableLoc l

/-- What is known of the outside: marshalled nodes and tables fit in their places. -/
structure EnvOk (io : Env Node) : Prop where
  node : ∀ n k, io.nodeLen n = some k → k ≤ nodeBlockSize
  tab : ∀ t k, io.tabLen t = some k → 0 < k ∧ k ≤ tableMaxLength

/-- A handler did a step of the specification and left the state in order. -/
def Good (A : App Node) (kids : Node → List Ref) (s : Ready Node) (o : Out Node) : Prop :=
  BlockCache.Next A (.ready s.view) o.dop o.vop o.step (.ready o.next.view) ∧ Inv kids o.next

variable {A : App Node} {kids : Node → List Ref} {s : Ready Node}

theorem frozen_locs (s : Ready Node) : (s.frozen.map (·.view)).map (·.locs) = s.frozen.map (·.view.locs) := by
  cases s.frozen <;> rfl

theorem noop_good (h : Inv kids s) : Good A kids s s.noop :=
  ⟨.noop (.inl rfl) (.inl rfl), h⟩

theorem frozenSafe_iff (s : Ready Node) (ref : Ref) : s.frozenEmpty ref = false ↔ FrozenSafe s.view ref := by
  unfold Ready.frozenEmpty FrozenSafe Ready.view
  dsimp only
  cases hf : s.frozen with
  | none => simp
  | some t =>
    dsimp only [Option.map_some]
    have := t.hasEmptyLoc_eq ref
    constructor
    · intro k t' ht' h1 h2
      cases ht'
      rw [this.mpr ⟨h1, h2⟩] at k
      cases k
    · intro k
      cases hc : t.hasEmptyLoc ref with
      | false => rfl
      | true =>
        obtain ⟨h1, h2⟩ := this.mp hc
        exact absurd h2 (k _ rfl h1)

theorem lruRemove_mem (l : List Ref) (r x : Ref) : x ∈ lruRemove l r ↔ x ∈ l ∧ x ≠ r := by
  unfold lruRemove; rw [List.mem_filter, decide_eq_true_eq]

theorem lruRemove_nodup {l : List Ref} (h : l.Nodup) (r : Ref) : (lruRemove l r).Nodup := h.filter _

theorem lruUse_mem (l : List Ref) (r x : Ref) : x ∈ lruUse l r ↔ x = r ∨ x ∈ l := by
  unfold lruUse
  rw [List.mem_append, lruRemove_mem, List.mem_singleton]
  constructor
  · rintro (k | k)
    · exact .inr k.1
    · exact .inl k
  · rintro (k | k)
    · exact .inr k
    · by_cases e : x = r
      · exact .inr e
      · exact .inl ⟨k, e⟩

theorem lruUse_nodup {l : List Ref} (h : l.Nodup) (r : Ref) : (lruUse l r).Nodup := by
  unfold lruUse
  refine List.nodup_append.mpr ⟨lruRemove_nodup h r, by simp, ?_⟩
  intro a ha b hb e
  rw [List.mem_singleton] at hb
  subst hb; subst e
  exact ((lruRemove_mem l a a).mp ha).2 rfl

theorem reading_iff (s : Ready Node) (hn : s.reads.keys.Nodup) (ref : Ref) :
    s.reading ref = true ↔ ∃ id, s.reads.get id = some ref := by
  unfold Ready.reading
  rw [List.any_eq_true]
  constructor
  · rintro ⟨x, hx, e⟩
    have e' : x.2 = ref := by simpa using e
    exact ⟨x.1, e' ▸ AList.mem_get hn hx⟩
  · rintro ⟨id, h⟩
    exact ⟨(id, ref), AList.get_mem h, by simp⟩

/-! ### Bookkeeping -/

theorem write_view (h : Inv kids s) {ref : Ref} {n : Node} (hk : ∀ x ∈ kids n, s.eph.view.graph x ≠ none) :
    (s.write kids ref n).view = { s.view with
      cache := s.view.cache.insert ref n
      eph := ⟨s.view.eph.locs.remove ref, s.view.eph.graph.insert ref (kids n)⟩ } := by
  obtain ⟨_, h2, _⟩ := h.eph.update (r := ref) (succs := kids n)
    (fun x hx e => hk x hx (Tab.graph_none.mpr e))
  unfold Ready.write Ready.view
  dsimp only
  rw [h2, AList.toMap_set]

theorem Inv.write (h : Inv kids s) {ref : Ref} {n : Node} (hk : ∀ x ∈ kids n, s.eph.view.graph x ≠ none)
    (hsz : (s.write kids ref n).size ≤ maxCacheSize) : Inv kids (s.write kids ref n) := by
  obtain ⟨h1, h2, h3, h4, _⟩ := h.eph.update (r := ref) (succs := kids n)
    (fun x hx e => hk x hx (Tab.graph_none.mpr e))
  refine ⟨h1, ?_, h.frozen, ?_, h.wNodup, h.rNodup, AList.nodup_set h.cNodup _ _, lruUse_nodup h.lruNodup _,
    ?_, hsz, ?_, ?_, ?_, h.tw, h.fl, h.pLoc, h.fLoc⟩
  · intro e
    have e' : (s.eph.update ref (kids n)).2.queue = none := e
    rw [e'] at h4
    cases hq : s.eph.queue with
    | none => exact h.ephQueue hq
    | some _ => rw [hq] at h4; cases h4
  · show Blocks (Ready.freeOld s.alloc (s.eph.update ref (kids n)).1) _ (s.eph.update ref (kids n)).2.view.locs _ _
    rw [h3, h2]
    exact h.blocks.freeOld ref
  · intro r
    show r ∈ lruUse s.lru ref ↔ (s.cache.set ref n).get r ≠ none
    rw [lruUse_mem, AList.get_set, h.lruMem]
    by_cases e : r = ref
    · rw [if_pos e]; simp [e]
    · rw [if_neg e]; exact ⟨fun k => k.resolve_left e, .inr⟩
  · intro r m hm
    show (s.eph.update ref (kids n)).2.view.graph r = _
    have hm' : (s.cache.set ref n).get r = some m := hm
    rw [AList.get_set] at hm'
    rw [h2]
    dsimp only [PMap.insert]
    split at hm'
    · rename_i e; rw [if_pos e]; cases hm'; rfl
    · rename_i e; rw [if_neg e]; exact h.kids r m hm'
  · intro r hg hl
    show (s.cache.set ref n).get r ≠ none
    have hg' : (s.eph.update ref (kids n)).2.view.graph r ≠ none := hg
    have hl' : (s.eph.update ref (kids n)).2.view.locs r = none := hl
    rw [h2] at hg' hl'
    dsimp only [PMap.insert, PMap.remove] at hg' hl'
    rw [AList.get_set]
    by_cases e : r = ref
    · rw [if_pos e]; simp
    · rw [if_neg e] at hg' hl' ⊢
      exact h.dirty r hg' hl'
  · intro t ht r hg hl
    obtain ⟨k1, k2⟩ := h.dirtyF t ht r hg hl
    constructor
    · show (s.cache.set ref n).get r ≠ none
      rw [AList.get_set]
      split
      · simp
      · exact k1
    · show (s.eph.update ref (kids n)).2.view.locs r = none
      rw [h2]
      dsimp only [PMap.remove]
      split
      · rfl
      · exact k2

theorem write_size (s : Ready Node) {ref : Ref} (n : Node) (hc : s.cache.get ref ≠ none) :
    (s.write kids ref n).size = s.size := by
  unfold Ready.size Ready.write
  dsimp only
  rw [AList.length_set_mem hc]

theorem write_new_size (s : Ready Node) {ref : Ref} (n : Node) (hc : s.cache.get ref = none) :
    (s.write kids ref n).size = s.size + 1 := by
  unfold Ready.size Ready.write
  dsimp only
  rw [AList.length_set_new hc]; omega

/-- A node in the cache is replaced. -/
theorem write_step (hA : ∀ n x, x ∈ kids n ↔ A.succs n x) (h : Inv kids s) {ref : Ref} {n : Node}
    (hc : s.cache.get ref ≠ none) (hf : s.frozenEmpty ref = false)
    (hk : ∀ x ∈ kids n, s.eph.view.graph x ≠ none) :
    OpStep A s.view (.write ref n) (s.write kids ref n).view ∧ Inv kids (s.write kids ref n) := by
  refine ⟨?_, h.write hk (by rw [write_size s n hc]; exact h.size)⟩
  rw [write_view h hk]
  refine .dirty hc ?_ (fun x hx => hk x ((hA n x).mpr hx)) ((frozenSafe_iff s ref).mp hf) (fun x => hA n x)
  cases hg : s.cache.get ref with
  | none => exact absurd hg hc
  | some m =>
    show s.eph.view.graph ref ≠ none
    rw [h.kids ref m hg]; simp

/-- A new node. -/
theorem alloc_step (hA : ∀ n x, x ∈ kids n ↔ A.succs n x) (h : Inv kids s) {ref : Ref} {n : Node}
    (hc : s.cache.get ref = none) (hg : s.eph.view.graph ref = none)
    (hk : ∀ x ∈ kids n, s.eph.view.graph x ≠ none) (hsz : s.size + 1 ≤ maxCacheSize) :
    OpStep A s.view (.alloc ref n) (s.write kids ref n).view ∧ Inv kids (s.write kids ref n) := by
  refine ⟨?_, h.write hk (by rw [write_new_size s n hc]; exact hsz)⟩
  rw [write_view h hk]
  have hl : s.view.eph.locs.remove ref = s.view.eph.locs := by
    funext x
    unfold PMap.remove
    split
    · rename_i e
      rw [e]
      show none = s.eph.view.locs ref
      rw [Tab.view_locs, Tab.graph_none.mp hg]; rfl
    · rfl
  rw [hl]
  exact .alloc hc hg (fun x hx => hk x ((hA n x).mpr hx)) (fun x => hA n x)

/-- The two ways of writing a node do the same if its children stay. -/
theorem writeSame_view (h : Inv kids s) {ref : Ref} {m n : Node} (hc : s.cache.get ref = some m)
    (hk : kids n = kids m) :
    (s.writeSame ref n).view = { s.view with
      cache := s.view.cache.insert ref n
      eph := ⟨s.view.eph.locs.remove ref, s.view.eph.graph.insert ref (kids n)⟩ } := by
  have hg : s.eph.view.graph.insert ref (kids n) = s.eph.view.graph := by
    funext x
    unfold PMap.insert
    split
    · rename_i e; rw [e, h.kids ref m hc, hk]
    · rfl
  obtain ⟨h1, _⟩ := Tab.removeLoc_view (s := s.eph) ref
  unfold Ready.writeSame Ready.view
  dsimp only
  rw [h1, AList.toMap_set, hg]

theorem Inv.writeSame (h : Inv kids s) {ref : Ref} {m n : Node} (hc : s.cache.get ref = some m)
    (hk : kids n = kids m) : Inv kids (s.writeSame ref n) := by
  obtain ⟨h2, h3⟩ := Tab.removeLoc_view (s := s.eph) ref
  refine ⟨h.eph.removeLoc ref, ?_, h.frozen, ?_, h.wNodup, h.rNodup, AList.nodup_set h.cNodup _ _,
    lruUse_nodup h.lruNodup _, ?_, ?_, ?_, ?_, ?_, h.tw, h.fl, h.pLoc, h.fLoc⟩
  · show (s.eph.removeLoc ref).2.queue ≠ none
    unfold Tab.removeLoc
    split <;> exact h.ephQueue
  · show Blocks (Ready.freeOld s.alloc (s.eph.removeLoc ref).1) _ (s.eph.removeLoc ref).2.view.locs _ _
    rw [h3, h2]
    exact h.blocks.freeOld ref
  · intro r
    show r ∈ lruUse s.lru ref ↔ (s.cache.set ref n).get r ≠ none
    rw [lruUse_mem, AList.get_set, h.lruMem]
    by_cases e : r = ref
    · rw [if_pos e]; simp [e]
    · rw [if_neg e]; exact ⟨fun k => k.resolve_left e, .inr⟩
  · show (s.cache.set ref n).length + s.reads.length ≤ maxCacheSize
    rw [AList.length_set_mem (by rw [hc]; simp)]
    exact h.size
  · intro r m' hm
    show (s.eph.removeLoc ref).2.view.graph r = _
    have hm' : (s.cache.set ref n).get r = some m' := hm
    rw [AList.get_set] at hm'
    rw [h2]
    dsimp only
    split at hm'
    · rename_i e; cases hm'; rw [e, hk]; exact h.kids ref m hc
    · exact h.kids r m' hm'
  · intro r hg hl
    show (s.cache.set ref n).get r ≠ none
    have hg' : (s.eph.removeLoc ref).2.view.graph r ≠ none := hg
    have hl' : (s.eph.removeLoc ref).2.view.locs r = none := hl
    rw [h2] at hg' hl'
    dsimp only [PMap.remove] at hg' hl'
    rw [AList.get_set]
    by_cases e : r = ref
    · rw [if_pos e]; simp
    · rw [if_neg e] at hl' ⊢
      exact h.dirty r hg' hl'
  · intro t ht r hg hl
    obtain ⟨k1, k2⟩ := h.dirtyF t ht r hg hl
    constructor
    · show (s.cache.set ref n).get r ≠ none
      rw [AList.get_set]
      split
      · simp
      · exact k1
    · show (s.eph.removeLoc ref).2.view.locs r = none
      rw [h2]
      dsimp only [PMap.remove]
      split
      · rfl
      · exact k2

theorem writeSame_step (hA : ∀ n x, x ∈ kids n ↔ A.succs n x) (h : Inv kids s) {ref : Ref} {m n : Node}
    (hc : s.cache.get ref = some m) (hf : s.frozenEmpty ref = false) (hk : kids n = kids m) :
    OpStep A s.view (.write ref n) (s.writeSame ref n).view ∧ Inv kids (s.writeSame ref n) := by
  refine ⟨?_, h.writeSame hc hk⟩
  rw [writeSame_view h hc hk]
  have hg := h.kids ref m hc
  refine .dirty (by show s.cache.get ref ≠ none; rw [hc]; simp) (by show s.eph.view.graph ref ≠ none; rw [hg]; simp)
    (fun x hx => ?_) ((frozenSafe_iff s ref).mp hf) (fun x => hA n x)
  exact h.eph.closed ref (kids m) hg x (hk ▸ (hA n x).mpr hx)

theorem freeRefFrom_some {avoid : Option Ref} {i n ref : Nat} (h : s.freeRefFrom avoid i n = some ref) :
    s.cache.get ref = none ∧ some ref ≠ avoid ∧ i ≤ ref := by
  induction n generalizing i with
  | zero => cases h
  | succ n ih =>
    unfold Ready.freeRefFrom at h
    split at h
    · rename_i k; cases h; exact ⟨k.2, k.1, Nat.le_refl _⟩
    · obtain ⟨h1, h2, h3⟩ := ih h
      exact ⟨h1, h2, by omega⟩

/-- **A free reference is new**: not in the table, not in the cache, not the one to avoid. -/
theorem freeRef_some (h : Inv kids s) {avoid : Option Ref} {ref : Ref} (hr : s.freeRef avoid = some ref) :
    s.cache.get ref = none ∧ s.eph.view.graph ref = none ∧ some ref ≠ avoid := by
  obtain ⟨h1, h2, h3⟩ := freeRefFrom_some hr
  refine ⟨h1, ?_, h2⟩
  cases hg : s.eph.view.graph ref with
  | none => rfl
  | some ss =>
    have := h.eph.upper ref (fun k => by rw [Tab.graph_none.mpr k] at hg; cases hg)
    exact absurd this (Nat.not_le.mpr h3)

/-! ### Freeing -/

theorem dealloc_good (h : Inv kids s) {ref : Ref} (hd : Tab.Deallocable s.eph ref) :
    Good A kids s (s.dealloc ref) := by
  unfold Ready.dealloc
  split
  · exact noop_good h
  rename_i hc
  have hc' : s.frozenEmpty ref = false ∧ s.reading ref = false := by
    cases h1 : s.frozenEmpty ref <;> cases h2 : s.reading ref <;> rw [h1, h2] at hc <;> simp_all
  obtain ⟨h1, h2, h3, h4, _⟩ := h.eph.removeRef hd
  have hfs := (frozenSafe_iff s ref).mp hc'.1
  constructor
  · dsimp only
    have hv : ({ s with
        eph := (s.eph.removeRef ref).2
        lru := lruRemove s.lru ref
        cache := s.cache.del ref
        alloc := Ready.freeOld s.alloc (s.eph.removeRef ref).1 } : Ready Node).view =
      { s.view with
        eph := ⟨s.view.eph.locs.remove ref, s.view.eph.graph.remove ref⟩
        cache := s.view.cache.remove ref } := by
      unfold Ready.view
      dsimp only
      rw [h2, AList.toMap_del]
    rw [hv]
    refine .unalloc hd.here hd.notRoot hd.noPreds hfs ?_
    intro id x hx e
    subst e
    have := (reading_iff s h.rNodup x).mpr ⟨id, hx⟩
    rw [hc'.2] at this; cases this
  · dsimp only
    refine ⟨h1, ?_, h.frozen, ?_, h.wNodup, h.rNodup, AList.nodup_del h.cNodup _, lruRemove_nodup h.lruNodup _,
      ?_, ?_, ?_, ?_, ?_, h.tw, h.fl, h.pLoc, h.fLoc⟩
    · intro e
      have e' : (s.eph.removeRef ref).2.queue = none := e
      rw [e'] at h4
      cases hq : s.eph.queue with
      | none => exact h.ephQueue hq
      | some _ => rw [hq] at h4; cases h4
    · show Blocks (Ready.freeOld s.alloc (s.eph.removeRef ref).1) _ (s.eph.removeRef ref).2.view.locs _ _
      rw [h3, h2]
      exact h.blocks.freeOld ref
    · intro r
      show r ∈ lruRemove s.lru ref ↔ (s.cache.del ref).get r ≠ none
      rw [lruRemove_mem, AList.get_del, h.lruMem]
      by_cases e : r = ref
      · rw [if_pos e]; simp [e]
      · rw [if_neg e]; exact ⟨fun k => k.1, fun k => ⟨k, e⟩⟩
    · have := AList.length_del_le s.cache ref
      have := h.size
      show (s.cache.del ref).length + s.reads.length ≤ maxCacheSize
      unfold Ready.size at this
      omega
    · intro r m hm
      show (s.eph.removeRef ref).2.view.graph r = _
      have hm' : (s.cache.del ref).get r = some m := hm
      rw [AList.get_del] at hm'
      split at hm'
      · cases hm'
      · rename_i e
        rw [h2]
        dsimp only [PMap.remove]
        rw [if_neg e]
        exact h.kids r m hm'
    · intro r hg hl
      show (s.cache.del ref).get r ≠ none
      have hg' : (s.eph.removeRef ref).2.view.graph r ≠ none := hg
      have hl' : (s.eph.removeRef ref).2.view.locs r = none := hl
      rw [h2] at hg' hl'
      dsimp only [PMap.remove] at hg' hl'
      rw [AList.get_del]
      by_cases e : r = ref
      · rw [if_pos e] at hg'; exact absurd rfl hg'
      · rw [if_neg e] at hg' hl' ⊢
        exact h.dirty r hg' hl'
    · intro t ht r hg hl
      obtain ⟨k1, k2⟩ := h.dirtyF t ht r hg hl
      have e : r ≠ ref := by
        rintro rfl
        refine hfs t.view ?_ hg hl
        show s.frozen.map _ = _
        have : s.frozen = some t := ht
        rw [this]; rfl
      constructor
      · show (s.cache.del ref).get r ≠ none
        rw [AList.get_del, if_neg e]
        exact k1
      · show (s.eph.removeRef ref).2.view.locs r = none
        rw [h2]
        dsimp only [PMap.remove]
        rw [if_neg e]
        exact k2

/-! ### Writing a node -/

theorem freeLoc_some (h : Inv kids s) {len : Nat} {loc : Loc} (hl : s.freeLoc len = some loc)
    (hlen : len ≤ nodeBlockSize) :
    GoodLoc loc ∧ ValidAllocation s.view loc ∧ ¬ Used s.eph.view.locs (loc.addr / nodeBlockSize) ∧
      ∀ id x, s.writes.get id = some x → x.2.addr ≠ loc.addr := by
  unfold Ready.freeLoc at hl
  cases hi : s.alloc.find with
  | none => rw [hi] at hl; cases hl
  | some i =>
    rw [hi] at hl
    cases hl
    have hp : 0 < nodeBlockSize := by unfold nodeBlockSize; omega
    have hd : i * nodeBlockSize / nodeBlockSize = i := Nat.mul_div_cancel _ hp
    obtain ⟨_, _, f1, f2, f3, f4⟩ := find_free h.blocks hi
    have key : ∀ (locs : PMap Ref Loc), ¬ Used locs i → ∀ r l, locs r = some l → l.addr ≠ i * nodeBlockSize := by
      intro locs hu r l hr e
      exact hu (.inr ⟨r, l, hr, by rw [e, hd]⟩)
    refine ⟨goodLoc_of_find h.blocks hi hlen, ⟨key _ f2, key _ f1, ?_, ?_⟩, ?_, ?_⟩
    · intro t ht
      have ht' : s.frozen.map (·.view) = some t := ht
      cases hf : s.frozen with
      | none => rw [hf] at ht'; cases ht'
      | some t0 =>
        rw [hf] at ht'
        cases ht'
        exact key _ (f3 t0.view.locs (by rw [hf]; rfl))
    · intro id ref l hw e
      refine f4 id (ref, l) hw ?_
      have e' : l.addr = i * nodeBlockSize := e
      dsimp only
      rw [e', hd]
    · dsimp only; rw [hd]; exact f1
    · intro id x hx e
      refine f4 id x hx ?_
      have e' : x.2.addr = i * nodeBlockSize := e
      rw [e', hd]

theorem addLoc_queue (t : Tab) (ref : Ref) (l : Loc) : (t.addLoc ref l).2.queue = t.queue := by
  unfold Tab.addLoc
  split
  · split <;> rfl
  · rfl

theorem insert_remove {K V : Type} [DecidableEq K] (m : PMap K V) (k : K) (v : V) :
    (m.remove k).insert k v = m.insert k v := by
  funext x
  unfold PMap.insert PMap.remove
  by_cases e : x = k
  · rw [if_pos e, if_pos e]
  · rw [if_neg e, if_neg e, if_neg e]

/-- The three assignments of `TryToWriteBlock`. -/
def Ready.assigned (s : Ready Node) (id : ReqId) (ref : Ref) (loc : Loc) : Ready Node :=
  ((s.assignEph ref loc).assignOutstanding id ref loc).assignFrozen ref loc

theorem assigned_eq (s : Ready Node) (id : ReqId) (ref : Ref) (loc : Loc) :
    ∃ a, s.assigned id ref loc = { s with
      eph := (s.eph.addLoc ref loc).2
      frozen := s.frozen.map (fun t => (t.addLoc ref loc).2)
      writes := s.writes.set id (ref, loc)
      alloc := a } := by
  unfold Ready.assigned Ready.assignFrozen
  have e : ((s.assignEph ref loc).assignOutstanding id ref loc).frozen = s.frozen := rfl
  rw [e]
  cases hf : s.frozen with
  | some t => exact ⟨_, rfl⟩
  | none =>
    refine ⟨((s.assignEph ref loc).assignOutstanding id ref loc).alloc, ?_⟩
    have : Option.map (fun t : Tab => (t.addLoc ref loc).2) none = s.frozen := hf.symm
    rw [this]; rfl

theorem assigned_blocks (h : Inv kids s) {id : ReqId} {ref : Ref} {loc : Loc} (hg : GoodLoc loc)
    (hu : ¬ Used s.eph.view.locs (loc.addr / nodeBlockSize))
    (hw : ∀ id x, s.writes.get id = some x → x.2.addr ≠ loc.addr) :
    Blocks (s.assigned id ref loc).alloc s.persistent.view.locs (assign s.eph.view ref loc).locs
      (s.frozen.map (fun t => (assign t.view ref loc).locs)) (s.writes.toMap.insert id (ref, loc)) := by
  -- the table in memory
  have b1 : Blocks (s.assignEph ref loc).alloc s.persistent.view.locs (assign s.eph.view ref loc).locs
      (s.frozen.map (·.view.locs)) s.writes.toMap := by
    obtain ⟨_, v2⟩ := s.eph.addLoc_view ref loc
    unfold Ready.assignEph assign
    dsimp only
    by_cases hc : s.eph.view.graph ref ≠ none ∧ s.eph.view.locs ref = none
    · rw [if_pos hc, v2.mpr hc]
      exact h.blocks.useEph hc.2 hg hu
    · rw [if_neg hc]
      have : (s.eph.addLoc ref loc).1 = false := by
        cases hb : (s.eph.addLoc ref loc).1 with
        | false => rfl
        | true => exact absurd (v2.mp hb) hc
      rw [this]
      exact h.blocks
  -- the write in flight
  have b2 : Blocks ((s.assignEph ref loc).assignOutstanding id ref loc).alloc s.persistent.view.locs
      (assign s.eph.view ref loc).locs (s.frozen.map (·.view.locs)) (s.writes.toMap.insert id (ref, loc)) := by
    unfold Ready.assignOutstanding
    dsimp only
    have ew : (s.assignEph ref loc).writes = s.writes := rfl
    rw [ew]
    cases hx : s.writes.get id with
    | none =>
      dsimp only
      exact b1.useOut (x := (ref, loc)) hx hg hw
    | some x =>
      dsimp only
      rw [if_pos (h.blocks.outLoc id x hx).bit, ← insert_remove]
      refine (b1.freeOut (x := x) hx).useOut (x := (ref, loc)) (PMap.remove_same ..) hg ?_
      intro j y hy
      unfold PMap.remove at hy
      split at hy
      · cases hy
      · exact hw j y hy
  -- the frozen table
  unfold Ready.assigned Ready.assignFrozen
  have ef : ((s.assignEph ref loc).assignOutstanding id ref loc).frozen = s.frozen := rfl
  rw [ef]
  cases hf : s.frozen with
  | none => rw [hf] at b2; exact b2
  | some t =>
    rw [hf] at b2
    obtain ⟨_, v2⟩ := t.addLoc_view ref loc
    dsimp only [Option.map_some]
    have hif : (assign t.view ref loc).locs = if t.view.graph ref ≠ none ∧ t.view.locs ref = none then
        t.view.locs.insert ref loc else t.view.locs := by
      unfold assign; split <;> rfl
    rw [hif]
    by_cases hc : t.view.graph ref ≠ none ∧ t.view.locs ref = none
    · rw [if_pos hc, v2.mpr hc]
      exact b2.useFrozen hc.2 hg
    · rw [if_neg hc]
      have : (t.addLoc ref loc).1 = false := by
        cases hb : (t.addLoc ref loc).1 with
        | false => rfl
        | true => exact absurd (v2.mp hb) hc
      rw [this]
      exact b2

theorem assign_graph (t : Table) (ref : Ref) (loc : Loc) : (assign t ref loc).graph = t.graph := by
  unfold assign; split <;> rfl

theorem assign_none {t : Table} {ref : Ref} {loc : Loc} {r : Ref} (hg : t.graph r ≠ none)
    (h : (assign t ref loc).locs r = none) : t.locs r = none ∧ r ≠ ref := by
  unfold assign at h
  split at h
  · dsimp only [PMap.insert] at h
    split at h
    · cases h
    · rename_i e; exact ⟨h, e⟩
  · rename_i hc
    refine ⟨h, ?_⟩
    rintro rfl
    exact hc ⟨hg, h⟩

theorem tryToWrite_good (h : Inv kids s) {io : Env Node} (hio : EnvOk io) {ref : Ref}
    (htw : s.tableWrite = none) : Good A kids s (s.tryToWrite io ref) := by
  unfold Ready.tryToWrite
  cases hc : s.cache.get ref with
  | none => exact noop_good h
  | some n =>
    dsimp only
    cases hn : io.nodeLen n with
    | none => exact noop_good h
    | some len =>
      dsimp only
      cases hl : s.freeLoc len with
      | none => exact noop_good h
      | some loc =>
        dsimp only
        obtain ⟨g1, g2, g3, g4⟩ := freeLoc_some h hl (hio.node n len hn)
        have hb := assigned_blocks (id := io.id) (ref := ref) h g1 g3 g4
        obtain ⟨a, ha⟩ := assigned_eq s io.id ref loc
        obtain ⟨v1, _⟩ := s.eph.addLoc_view ref loc
        have e0 : ((s.assignEph ref loc).assignOutstanding io.id ref loc).assignFrozen ref loc =
          s.assigned io.id ref loc := rfl
        rw [e0]
        rw [ha] at hb ⊢
        constructor
        · dsimp only
          have hv : ({ s with
              eph := (s.eph.addLoc ref loc).2
              frozen := s.frozen.map (fun t => (t.addLoc ref loc).2)
              writes := s.writes.set io.id (ref, loc)
              alloc := a } : Ready Node).view = { s.view with
                eph := assign s.view.eph ref loc
                frozen := s.view.frozen.map (assign · ref loc)
                writes := s.view.writes.insert io.id (ref, loc) } := by
            unfold Ready.view
            dsimp only
            rw [v1, AList.toMap_set]
            cases hf : s.frozen with
            | none => rfl
            | some t =>
              have := (t.addLoc_view ref loc).1
              dsimp only [Option.map_some]
              rw [this]
          rw [hv]
          exact .writeBackNodeReq hc g1.valid htw g2
        · dsimp only at hb ⊢
          refine ⟨h.eph.addLoc ref loc, ?_, ?_, ?_, AList.nodup_set h.wNodup _ _, h.rNodup, h.cNodup,
            h.lruNodup, h.lruMem, h.size, ?_, ?_, ?_, h.tw, ?_, h.pLoc, h.fLoc⟩
          · dsimp only; rw [addLoc_queue]; exact h.ephQueue
          · intro t ht
            dsimp only at ht
            cases hf : s.frozen with
            | none => rw [hf] at ht; cases ht
            | some t0 =>
              rw [hf] at ht; cases ht
              exact (h.frozen t0 hf).addLoc ref loc
          · dsimp only
            rw [v1, AList.toMap_set]
            have : (s.frozen.map (fun t => (t.addLoc ref loc).2)).map (·.view.locs) =
                s.frozen.map (fun t => (assign t.view ref loc).locs) := by
              cases s.frozen with
              | none => rfl
              | some t =>
                have := (t.addLoc_view ref loc).1
                dsimp only [Option.map_some]
                rw [this]
            rw [this]
            exact hb
          · intro r m hm
            dsimp only at hm ⊢
            rw [v1, assign_graph]
            exact h.kids r m hm
          · intro r hg hl'
            dsimp only at hg hl' ⊢
            rw [v1] at hg hl'
            rw [assign_graph] at hg
            exact h.dirty r hg (assign_none hg hl').1
          · intro t ht r hg hl'
            dsimp only at ht ⊢
            cases hf : s.frozen with
            | none => rw [hf] at ht; cases ht
            | some t0 =>
              rw [hf] at ht
              have ht' : (t0.addLoc ref loc).2 = t := by simpa using ht
              subst ht'
              have w1 := (t0.addLoc_view ref loc).1
              rw [w1] at hg hl'
              rw [assign_graph] at hg
              obtain ⟨k1, k2⟩ := assign_none hg hl'
              obtain ⟨d1, d2⟩ := h.dirtyF t0 hf r hg k1
              refine ⟨d1, ?_⟩
              rw [v1]
              unfold assign
              split
              · dsimp only
                rw [PMap.insert_other _ _ k2]; exact d2
              · exact d2
          · intro hfl
            have := h.fl hfl
            dsimp only
            cases hf : s.frozen with
            | none => exact absurd hf this
            | some t0 => simp

/-! ### Evicting -/

theorem canEvict_iff (h : Inv kids s) {ref : Ref} (hc : s.canEvict ref = true) :
    s.eph.view.graph ref ≠ none → ∃ l, s.eph.view.locs ref = some l ∧
        ∀ id, s.writes.toMap id ≠ some (ref, l) := by
  intro hg
  unfold Ready.canEvict at hc
  cases he : s.eph.t.get ref with
  | none => exact absurd (Tab.graph_none.mpr he) hg
  | some e =>
    rw [he] at hc
    dsimp only at hc
    cases hl : e.loc with
    | none => rw [hl] at hc; cases hc
    | some l =>
      rw [hl] at hc
      refine ⟨l, by rw [Tab.view_locs, he]; exact hl, fun id hw => ?_⟩
      have hm := AList.get_mem hw
      have : s.writes.any (fun x => x.2 == (ref, l)) = true :=
        List.any_eq_true.mpr ⟨_, hm, by simp⟩
      dsimp only at hc
      rw [this] at hc; cases hc

theorem evictOrDealloc_good (h : Inv kids s) {io : Env Node} (hio : EnvOk io) :
    Good A kids s (s.evictOrDealloc io) := by
  unfold Ready.evictOrDealloc
  cases hd : s.eph.findDeallocable with
  | some ref => exact dealloc_good h (h.eph.findDeallocable hd)
  | none =>
    dsimp only
    cases hl : s.lru.head? with
    | none => exact noop_good h
    | some ref =>
      dsimp only
      have hin : s.cache.get ref ≠ none := (h.lruMem ref).mp (List.mem_of_head? hl)
      split
      · split
        · rename_i htw; exact tryToWrite_good h hio htw
        · exact noop_good h
      · rename_i hnw
        split
        · rename_i hce
          have hnw' : s.eph.hasEmptyLoc ref = false ∧ s.frozenEmpty ref = false := by
            unfold Ready.needToWrite at hnw
            cases h1 : s.eph.hasEmptyLoc ref <;> cases h2 : s.frozenEmpty ref <;> rw [h1, h2] at hnw <;> simp_all
          have hfs := (frozenSafe_iff s ref).mp hnw'.2
          constructor
          · dsimp only
            have hv : ({ s with lru := lruRemove s.lru ref, cache := s.cache.del ref } : Ready Node).view =
                { s.view with cache := s.view.cache.remove ref } := by
              unfold Ready.view; dsimp only; rw [AList.toMap_del]
            rw [hv]
            exact .evict hin (canEvict_iff h hce) hfs
          · dsimp only
            refine ⟨h.eph, h.ephQueue, h.frozen, h.blocks, h.wNodup, h.rNodup, AList.nodup_del h.cNodup _,
              lruRemove_nodup h.lruNodup _, ?_, ?_, ?_, ?_, ?_, h.tw, h.fl, h.pLoc, h.fLoc⟩
            · intro r
              show r ∈ lruRemove s.lru ref ↔ (s.cache.del ref).get r ≠ none
              rw [lruRemove_mem, AList.get_del, h.lruMem]
              by_cases e : r = ref
              · rw [if_pos e]; simp [e]
              · rw [if_neg e]; exact ⟨fun k => k.1, fun k => ⟨k, e⟩⟩
            · have := AList.length_del_le s.cache ref
              have := h.size
              show (s.cache.del ref).length + s.reads.length ≤ maxCacheSize
              unfold Ready.size at this
              omega
            · intro r m hm
              have hm' : (s.cache.del ref).get r = some m := hm
              rw [AList.get_del] at hm'
              split at hm'
              · cases hm'
              · exact h.kids r m hm'
            · intro r hg hl'
              show (s.cache.del ref).get r ≠ none
              rw [AList.get_del]
              split
              · rename_i e
                subst e
                have := (s.eph.hasEmptyLoc_eq r).mpr ⟨hg, hl'⟩
                rw [hnw'.1] at this; cases this
              · exact h.dirty r hg hl'
            · intro t ht r hg hl'
              obtain ⟨k1, k2⟩ := h.dirtyF t ht r hg hl'
              refine ⟨?_, k2⟩
              show (s.cache.del ref).get r ≠ none
              rw [AList.get_del]
              split
              · rename_i e
                subst e
                refine absurd hl' (hfs t.view ?_ hg)
                show s.frozen.map _ = _
                have : s.frozen = some t := ht
                rw [this]; rfl
              · exact k1
        · exact noop_good h

/-! ### Reading a node -/

theorem pageInReq_good (h : Inv kids s) {io : Env Node} {ref : Ref} (hc : s.cache.get ref = none)
    (hsz : s.size ≤ maxCacheSize - 1) : Good A kids s (s.pageInReq io ref) := by
  unfold Ready.pageInReq
  split
  · exact noop_good h
  · rename_i hr
    cases hl : s.eph.view.locs ref with
    | none => exact noop_good h
    | some loc =>
      dsimp only
      constructor
      · dsimp only
        have hv : ({ s with reads := s.reads.set io.id ref } : Ready Node).view =
            { s.view with reads := s.view.reads.insert io.id ref } := by
          unfold Ready.view; dsimp only; rw [AList.toMap_set]
        rw [hv]
        refine .pageInNodeReq ?_ hl hc ?_
        · obtain ⟨e, k, _⟩ := Tab.locs_get hl
          show s.eph.view.graph ref ≠ none
          rw [ne_eq, Tab.graph_none, k]; simp
        · intro i x hx e
          subst e
          exact hr ((reading_iff s h.rNodup x).mpr ⟨i, hx⟩)
      · dsimp only
        refine ⟨h.eph, h.ephQueue, h.frozen, h.blocks, h.wNodup, AList.nodup_set h.rNodup _ _, h.cNodup,
          h.lruNodup, h.lruMem, ?_, h.kids, h.dirty, h.dirtyF, h.tw, h.fl, h.pLoc, h.fLoc⟩
        have := AList.length_set_le s.reads io.id ref
        show s.cache.length + (s.reads.set io.id ref).length ≤ maxCacheSize
        unfold Ready.size at hsz
        have : 1 ≤ maxCacheSize := by decide
        omega

theorem pageInOrMakeRoom_good (h : Inv kids s) {io : Env Node} (hio : EnvOk io) {ref : Ref}
    (hc : s.cache.get ref = none) : Good A kids s (s.pageInOrMakeRoom io ref) := by
  unfold Ready.pageInOrMakeRoom
  split
  · rename_i hsz; exact pageInReq_good h hc hsz
  · split
    · exact evictOrDealloc_good h hio
    · exact noop_good h

theorem pageInResp_good (hA : ∀ n x, x ∈ kids n ↔ A.succs n x) (h : Inv kids s) {id : ReqId}
    {node : Option Node} (hwf : ∀ n, node = some n → A.wf n) : Good A kids s (s.pageInResp kids id node) := by
  have hno : Good A kids s ⟨.respReadNode id node, .statesInternal, .noop, s⟩ :=
    ⟨.noop (.inl rfl) (.inr (.inr (.inl ⟨id, node, rfl, hwf⟩))), h⟩
  unfold Ready.pageInResp
  cases hr : s.reads.get id with
  | none => exact hno
  | some ref =>
    dsimp only
    cases he : s.eph.t.get ref with
    | none => exact hno
    | some e =>
      dsimp only
      split
      · exact hno
      split
      · exact hno
      rename_i hc
      have hc' : s.cache.get ref = none := Classical.not_not.mp hc
      cases hn : node with
      | none => rw [hn] at hno; exact hno
      | some n =>
        dsimp only
        split
        · rename_i hk
          have hg : s.eph.view.graph ref = some (kids n) := by rw [Tab.view_graph, he, ← hk]; rfl
          constructor
          · dsimp only
            have hv : ({ s with
                lru := lruUse s.lru ref
                cache := s.cache.set ref n
                reads := s.reads.del id } : Ready Node).view =
              { s.view with cache := s.view.cache.insert ref n, reads := s.view.reads.remove id } := by
              unfold Ready.view; dsimp only; rw [AList.toMap_set, AList.toMap_del]
            rw [hv]
            exact .pageInNodeResp hr hc' hg (fun x => hA n x) (hwf n hn)
          · dsimp only
            refine ⟨h.eph, h.ephQueue, h.frozen, h.blocks, h.wNodup, AList.nodup_del h.rNodup _,
              AList.nodup_set h.cNodup _ _, lruUse_nodup h.lruNodup _, ?_, ?_, ?_, ?_, ?_, h.tw, h.fl, h.pLoc, h.fLoc⟩
            · intro r
              show r ∈ lruUse s.lru ref ↔ (s.cache.set ref n).get r ≠ none
              rw [lruUse_mem, AList.get_set, h.lruMem]
              by_cases e : r = ref
              · rw [if_pos e]; simp [e]
              · rw [if_neg e]; exact ⟨fun k => k.resolve_left e, .inr⟩
            · show (s.cache.set ref n).length + (s.reads.del id).length ≤ maxCacheSize
              have h1 := AList.length_del h.rNodup (k := id) (by rw [hr]; simp)
              have h2 := AList.length_set_new hc' n
              have := h.size
              unfold Ready.size at this
              omega
            · intro r m hm
              show s.eph.view.graph r = _
              have hm' : (s.cache.set ref n).get r = some m := hm
              rw [AList.get_set] at hm'
              split at hm'
              · rename_i e1; cases hm'; rw [e1]; exact hg
              · exact h.kids r m hm'
            · intro r hg' hl'
              show (s.cache.set ref n).get r ≠ none
              rw [AList.get_set]
              split
              · simp
              · exact h.dirty r hg' hl'
            · intro t ht r hg' hl'
              obtain ⟨k1, k2⟩ := h.dirtyF t ht r hg' hl'
              refine ⟨?_, k2⟩
              show (s.cache.set ref n).get r ≠ none
              rw [AList.get_set]
              split
              · simp
              · exact k1
        · rw [hn] at hno; exact hno

/-! ### Answers to writes -/

theorem writeNodeResp_good (h : Inv kids s) (id : ReqId) : Good A kids s (s.writeNodeResp id) := by
  unfold Ready.writeNodeResp
  cases hx : s.writes.get id with
  | none =>
    refine ⟨.noop (.inl rfl) (.inr (.inr (.inr (.inr ⟨id, rfl, ?_⟩)))), h⟩
    intro r e; cases e; exact hx
  | some x =>
    dsimp only
    constructor
    · dsimp only
      have hv : ({ s with
          alloc := s.alloc.freeOutstanding (x.2.addr / nodeBlockSize)
          writes := s.writes.del id } : Ready Node).view = { s.view with writes := s.view.writes.remove id } := by
        unfold Ready.view; dsimp only; rw [AList.toMap_del]
      rw [hv]
      exact .writeBackNodeResp (by show s.writes.get id ≠ none; rw [hx]; simp)
    · dsimp only
      refine ⟨h.eph, h.ephQueue, h.frozen, ?_, AList.nodup_del h.wNodup _, h.rNodup, h.cNodup, h.lruNodup,
        h.lruMem, h.size, h.kids, h.dirty, h.dirtyF, h.tw, h.fl, h.pLoc, h.fLoc⟩
      dsimp only
      rw [AList.toMap_del]
      exact h.blocks.freeOut hx

theorem writeTableResp_good (h : Inv kids s) (id : ReqId) : Good A kids s (s.writeTableResp id) := by
  unfold Ready.writeTableResp
  split
  · rename_i htw
    cases hl : s.frozenLoc with
    | none => exact absurd hl (h.tw (by rw [htw]; simp))
    | some l =>
      dsimp only
      rw [← hl]
      refine ⟨.writeBackTableResp hl htw, ?_⟩
      dsimp only
      exact ⟨h.eph, h.ephQueue, h.frozen, h.blocks, h.wNodup, h.rNodup, h.cNodup, h.lruNodup, h.lruMem, h.size,
        h.kids, h.dirty, h.dirtyF, (fun k => absurd rfl k), h.fl, h.pLoc, h.fLoc⟩
  · rename_i htw
    refine ⟨.noop (.inl rfl) (.inr (.inr (.inr (.inl ⟨id, rfl, ?_⟩)))), h⟩
    intro r e; cases e; exact htw

/-! ### Syncing -/

theorem cleanUp_good (h : Inv kids s) (htw : s.tableWrite = none) : Good A kids s s.cleanUp := by
  unfold Ready.cleanUp
  cases hf : s.frozen with
  | none => exact noop_good h
  | some t =>
    cases hl : s.frozenLoc with
    | none => exact noop_good h
    | some l =>
      dsimp only
      have hb := h.blocks
      rw [hf] at hb
      constructor
      · exact .cleanUp htw hl (by show s.frozen.map _ = _; rw [hf]; rfl)
      · exact ⟨h.eph, h.ephQueue, (fun _ k => nomatch k), hb.move, h.wNodup, h.rNodup, h.cNodup, h.lruNodup,
          h.lruMem, h.size, h.kids, h.dirty, (fun _ k => nomatch k), (fun k => absurd htw k),
          (fun k => absurd rfl k), h.fLoc l hl, (fun _ k => nomatch k)⟩

theorem maybeFreeze_good (h : Inv kids s) (hf : s.frozen = none) : Good A kids s s.maybeFreeze := by
  have hfl : s.frozenLoc = none := by
    cases hl : s.frozenLoc with
    | none => rfl
    | some l => exact absurd hf (h.fl (by rw [hl]; simp))
  have htw : s.tableWrite = none := by
    cases ht : s.tableWrite with
    | none => rfl
    | some l => exact absurd hfl (h.tw (by rw [ht]; simp))
  unfold Ready.maybeFreeze
  cases hd : s.eph.findDeallocable with
  | some ref => exact dealloc_good h (h.eph.findDeallocable hd)
  | none =>
    dsimp only
    have hb := h.blocks
    rw [hf] at hb
    constructor
    · have hv : ({ s with frozen := some s.eph.clone, alloc := s.alloc.copyEph } : Ready Node).view =
          { s.view with frozen := some s.view.eph, frozenLoc := none } := by
        unfold Ready.view; dsimp only; rw [hfl]; rfl
      dsimp only
      rw [hv]
      exact .freeze htw
    · dsimp only
      refine ⟨h.eph, h.ephQueue, ?_, hb.copy, h.wNodup, h.rNodup, h.cNodup, h.lruNodup,
          h.lruMem, h.size, h.kids, h.dirty, ?_, h.tw, (fun _ => by simp), h.pLoc, h.fLoc⟩
      · intro t ht; cases ht; exact h.eph.clone
      · intro t ht r hg hl
        cases ht
        exact ⟨h.dirty r hg hl, hl⟩

theorem findNoLoc_inv (h : Inv kids s) {t : Tab} (hf : s.frozen = some t) :
    Inv kids { s with frozen := some t.findNoLoc.2 } ∧
    ({ s with frozen := some t.findNoLoc.2 } : Ready Node).view = s.view := by
  obtain ⟨f1, f2, _⟩ := (h.frozen t hf).findNoLoc
  have hb := h.blocks
  rw [hf] at hb
  constructor
  · refine ⟨h.eph, h.ephQueue, ?_, ?_, h.wNodup, h.rNodup, h.cNodup, h.lruNodup,
          h.lruMem, h.size, h.kids, h.dirty, ?_, h.tw, (fun _ => by simp), h.pLoc, h.fLoc⟩
    · intro t' ht; cases ht; exact f1
    · dsimp only [Option.map_some]; rw [f2]; exact hb
    · intro t' ht r hg hl
      cases ht
      rw [f2] at hg hl
      exact h.dirtyF t hf r hg hl
  · unfold Ready.view
    dsimp only [Option.map_some]
    rw [f2, hf]; rfl

theorem otherTableAddr_ne (a : Nat) : Ready.otherTableAddr a ≠ a ∧ ValidTableAddr (Ready.otherTableAddr a) := by
  have hne : table2Addr ≠ table1Addr := by
    unfold table2Addr
    have : 0 < tableMaxLength := by decide
    omega
  unfold Ready.otherTableAddr
  split
  · rename_i e; rw [e]; exact ⟨hne, .inr rfl⟩
  · rename_i e; exact ⟨fun k => e k.symm, .inl rfl⟩

theorem Good.of_view {s s1 : Ready Node} {o : Out Node} (h : Good A kids s1 o) (hv : s1.view = s.view) :
    Good A kids s o := by
  unfold Good at h ⊢
  rw [← hv]; exact h

theorem sync_good (h : Inv kids s) {io : Env Node} (hio : EnvOk io) : Good A kids s (s.sync io) := by
  unfold Ready.sync
  split
  · exact noop_good h
  rename_i hfl
  have hfl' : s.frozenLoc = none := Classical.not_not.mp hfl
  have htw : s.tableWrite = none := by
    cases ht : s.tableWrite with
    | none => rfl
    | some l => exact absurd hfl' (h.tw (by rw [ht]; simp))
  cases hf : s.frozen with
  | none => exact maybeFreeze_good h hf
  | some t =>
    dsimp only
    obtain ⟨i1, i2⟩ := findNoLoc_inv h hf
    obtain ⟨f1, f2, _, f4, f5⟩ := (h.frozen t hf).findNoLoc
    refine Good.of_view (s1 := { s with frozen := some t.findNoLoc.2 }) ?_ i2
    cases hn : t.findNoLoc.1 with
    | some ref =>
      dsimp only
      unfold Ready.syncFound
      split
      · exact noop_good i1
      · exact tryToWrite_good i1 hio htw
    | none =>
      dsimp only
      split
      · exact noop_good i1
      · rename_i hw
        have hw' : s.writes = [] := Classical.not_not.mp hw
        cases hl : io.tabLen t.findNoLoc.2 with
        | none => exact noop_good i1
        | some len =>
          dsimp only
          obtain ⟨l1, l2⟩ := hio.tab _ _ hl
          obtain ⟨o1, o2⟩ := otherTableAddr_ne s.persistentLoc.addr
          have hv : ValidTableLoc ⟨Ready.otherTableAddr s.persistentLoc.addr, len⟩ := ⟨o2, l1, l2⟩
          constructor
          · refine .writeBackTableReq rfl hv ?_ ?_ hfl' ?_
            · intro x hx
              rw [f2] at hx ⊢
              exact f5 hn x hx
            · show s.writes.toMap = .empty
              rw [hw']; rfl
            · intro ho
              exact o1 (table_overlap_addr hv h.pLoc ho)
          · dsimp only
            refine ⟨i1.eph, i1.ephQueue, i1.frozen, i1.blocks, i1.wNodup, i1.rNodup, i1.cNodup, i1.lruNodup,
              i1.lruMem, i1.size, i1.kids, i1.dirty, i1.dirtyF, (fun _ => by simp), (fun _ => by simp), i1.pLoc, ?_⟩
            intro l e; cases e; exact hv

/-! ### Opening -/

theorem opened_inv {loc : Loc} {rows : List TRow} (hn : (rows.map (·.1)).Nodup)
    (hv : ∀ x ∈ rows, ValidNodeLoc x.2.1) (hloc : ValidTableLoc loc) {t : Tab} (ht : ofRows rows = some t)
    {s : Ready Node} (hs : opened loc t = some s) :
    Inv kids s ∧ BlockCache.WFComplete t.view ∧ BlockCache.Distinct t.view ∧
    s.view = ⟨t.view, none, t.view, loc, none, none, .empty, .empty, .empty⟩ := by
  obtain ⟨t1, t2, t3, t4, t5⟩ := IndTable.ofRows_inv hn ht
  unfold opened at hs
  cases hb : t.initBitmap with
  | none => rw [hb] at hs; cases hs
  | some b =>
    rw [hb] at hs
    cases hs
    obtain ⟨b1, b2, b3, b4⟩ := IndTable.initBitmap_eq t1 hb
    have hvl : ∀ r l, t.view.locs r = some l → ValidNodeLoc l := by
      intro r l hl
      rw [t2] at hl
      obtain ⟨e, k1, k2⟩ := Tab.locs_get hl
      have hm := AList.get_mem k1
      obtain ⟨x, hx, ex⟩ := List.mem_map.mp hm
      cases ex
      cases k2
      exact hv x hx
    refine ⟨⟨t1, t3, (fun _ k => nomatch k), ?_, List.nodup_nil, List.nodup_nil, List.nodup_nil, List.nodup_nil,
      ?_, Nat.zero_le _, (fun _ _ k => nomatch k), ?_, (fun _ k => nomatch k), (fun k => absurd rfl k),
      (fun k => absurd rfl k), hloc, (fun _ k => nomatch k)⟩, ?_, b2, rfl⟩
    · refine Blocks.start b1 (fun r l hl => ⟨hvl r l hl, (b3 r l hl).1⟩) b2
    · intro r
      exact ⟨(fun k => nomatch k), fun k => absurd rfl k⟩
    · intro r hg hl
      exact absurd hl (b4 r hg)
    · refine { valid := hvl, sub := ?_, root := ?_, closed := t1.closed, complete := b4 }
      · intro r l hl
        obtain ⟨e, k, _⟩ := Tab.locs_get hl
        rw [ne_eq, Tab.graph_none, k]; simp
      · exact fun k => t1.root (Tab.graph_none.mp k)

end Verif.Kv.BlockImpl
