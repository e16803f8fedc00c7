import Verif.Kv.TableLimits
import Verif.Kv.FitRun
/-
The lengths of pivots and the sizes of references in the nodes that are cached. No code is modelled here.
-/
namespace Verif.Kv.TreeImpl
open Pivot BlockImpl
open Betree (Message)
open SectorBytes (codec NodeOk maxLen)
open FullImpl (Call run BlockNext)

theorem prefixEnd_length : ∀ (p : Key) {e : Key}, prefixEnd p = .key e → e.length ≤ p.length
  | [], e, h => by cases h
  | a :: as, e, h => by
    unfold prefixEnd at h
    rw [List.length_cons, shortestUncommon_cons] at h
    split at h
    · rename_i s hs
      cases h
      have := prefixEnd_length as (e := s) hs
      simp; omega
    · split at h
      · cases h; simp
      · cases h

/-- The pivots of a node are short and its references fit in 64 bits. -/
structure Small (n : Node) : Prop where
  short : ∀ k, Elem.key k ∈ n.pivots → k.length ≤ 1024
  refs : ∀ r ∈ kids n, r < 2 ^ 64

/-- An end of a range that is short. -/
def ShortE (x : Elem) : Prop := ∀ k, x = .key k → k.length ≤ 1024

theorem Small.elem {n : Node} (h : Small n) {i : Nat} {x : Elem} (hx : n.pivots[i]? = some x) : ShortE x := by
  rintro k rfl
  exact h.short k (List.mem_of_getElem? hx)

theorem prefixEnd_short {p : Key} (h : p.length ≤ 1024) : ShortE (prefixEnd p) :=
  fun _ hk => Nat.le_trans (prefixEnd_length p hk) h

theorem kids_map {n : Node} {f : List Ref → List Ref} {pv ed bk} (hf : ∀ l, ∀ r ∈ f l, r ∈ l) {r : Ref}
    (h : r ∈ kids ⟨pv, ed, n.children.map f, bk⟩) : r ∈ kids n := by
  unfold kids at h ⊢
  cases hc : n.children with
  | none => rw [hc] at h; cases h
  | some cs => rw [hc] at h; exact hf _ _ h

theorem keepLeft_small {n : Node} (h : Small n) {p : Key} (hp : p.length ≤ 1024) : Small (n.keepLeft p) := by
  refine ⟨fun k hk => ?_, fun r hr => h.refs r (kids_map (fun l r hr => List.mem_of_mem_take hr) hr)⟩
  rcases List.mem_append.mp hk with hk | hk
  · exact h.short k (List.mem_of_mem_take hk)
  · rw [List.mem_singleton] at hk; cases hk; exact hp

theorem keepRight_small {n : Node} (h : Small n) {p : Key} (hp : p.length ≤ 1024) : Small (n.keepRight p) := by
  refine ⟨fun k hk => ?_, fun r hr => h.refs r (kids_map (fun l r hr => List.mem_of_mem_drop hr) hr)⟩
  rcases List.mem_cons.mp hk with hk | hk
  · cases hk; exact hp
  · exact h.short k (List.mem_of_mem_drop hk)

theorem cutoff_small {n : Node} (h : Small n) {l : Key} {r : Elem} (hl : l.length ≤ 1024) (hr : ShortE r) :
    Small (n.cutoff l r) := by
  cases r with
  | top => exact keepRight_small h hl
  | key r => exact keepRight_small (keepLeft_small h (hr r rfl)) hl

theorem translate_small {n : Node} (h : Small n) {p q : Key} {stop : Elem} (hq : q.length ≤ 1024)
    (hpq : q.length = p.length) (hs : ShortE stop) : Small (n.translate p q stop) := by
  refine ⟨fun k hk => ?_, h.refs⟩
  rcases List.mem_append.mp hk with hk | hk
  · obtain ⟨x, hx, e⟩ := List.mem_map.mp hk
    cases x with
    | top => cases e
    | key k0 =>
      cases e
      have := h.short k0 ((List.dropLast_sublist _).subset hx)
      simp only [changePrefix, List.length_append, List.length_drop]
      omega
  · rw [List.mem_singleton] at hk; exact hs k hk.symm

/-- Along an edge keys keep their length, so the edge is as long as the prefix it replaces. -/
theorem edge_length {n : Node} (hg : Pivot.Good n) {L : Nat} (hf : Fit L n) {i lo hi e0 b}
    (hs : Slot n i lo hi (some e0) b) : e0.length = (pivotLcp lo hi).length := by
  have hok := hg.slots _ _ _ _ _ hs
  obtain ⟨lk, rfl⟩ := hs.lo_key hg.toShape
  have h1 := hf.tr hg hs (le_refl _) hok.lt
  have h2 := (pivotLcp_prefix (le_refl (Elem.key lk)) hok.lt).length_le
  simp only [Pivot.tr, changePrefix, List.length_append, List.length_drop] at h1
  omega

theorem restrictChild_small {parent child : Node} (hp : Pivot.Good parent) (hf : Fit 1024 parent)
    (sp : Small parent) (sc : Small child) {i lo hi e b} (hs : Slot parent i lo hi e b) :
    Small (restrictChild parent child i) := by
  have hok := hp.slots _ _ _ _ _ hs
  have hcr := childRange_slot hs
  have slo := sp.elem hs.lo
  have shi := sp.elem hs.hi
  obtain ⟨lk, rfl⟩ := hs.lo_key hp.toShape
  cases e with
  | none =>
    have hform : restrictChild parent child i = child.cutoff lk hi := by
      simp [restrictChild, hcr, hs.e]
    rw [hform]
    exact cutoff_small sc (slo lk rfl) shi
  | some e0 =>
    have hl := edge_length hp hf hs
    have hpre := (pivotLcp_prefix (le_refl (Elem.key lk)) hok.lt).length_le
    have hlk := slo lk rfl
    have hform : restrictChild parent child i = (child.cutoff (changePrefix (pivotLcp (.key lk) hi) e0 lk)
        (translateEnd (pivotLcp (.key lk) hi) e0 hi)).translate e0 (pivotLcp (.key lk) hi) hi := by
      simp [restrictChild, hcr, hs.e, hs.hi, lcpAt, hs.lo, translateElem]
    rw [hform]
    refine translate_small (cutoff_small sc ?_ ?_) (by omega) hl.symm shi
    · simp only [changePrefix, List.length_append, List.length_drop]; omega
    · intro k hk
      unfold translateEnd at hk
      split at hk
      · rename_i k0
        have hk0 := shi k0 rfl
        split at hk
        · cases hk
          simp only [changePrefix, List.length_append, List.length_drop]; omega
        · exact prefixEnd_short (by omega) k hk
      · exact prefixEnd_short (by omega) k hk

theorem cloned_small {n : Node} (h : Small n) {src dst : Key} (h1 : src.length = dst.length)
    (h2 : dst.length ≤ 1024) : Small (n.cloned src dst) :=
  have := translate_small (cutoff_small h (l := src) (by omega) (prefixEnd_short (p := src) (by omega))) h2
    h1.symm (prefixEnd_short h2)
  ⟨this.short, this.refs⟩

theorem cloneRoot_small {n : Node} (h : Small n) {src dst : Key} (h1 : src.length = dst.length)
    (h2 : dst.length ≤ 1024) : Small (n.cloneRoot src dst) := by
  have hc := cloned_small h h1 h2
  have hl := keepLeft_small h h2
  unfold Node.cloneRoot
  dsimp only
  split
  · refine ⟨fun k hk => ?_, fun r hr => ?_⟩
    · rcases List.mem_append.mp hk with hk | hk
      · exact hl.short k ((List.dropLast_sublist _).subset hk)
      · exact hc.short k hk
    · change r ∈ kids _ ++ kids _ at hr
      rcases List.mem_append.mp hr with hr | hr
      · exact hl.refs r hr
      · exact hc.refs r hr
  · rename_i e he
    have hr := keepRight_small h (Nat.le_trans (prefixEnd_length dst he) h2)
    refine ⟨fun k hk => ?_, fun r hr' => ?_⟩
    · rcases List.mem_append.mp hk with hk | hk
      · rcases List.mem_append.mp hk with hk | hk
        · exact hl.short k ((List.dropLast_sublist _).subset hk)
        · exact hc.short k hk
      · exact hr.short k (List.mem_of_mem_tail hk)
    · change r ∈ kids _ ++ kids _ ++ kids _ at hr'
      rcases List.mem_append.mp hr' with hr' | hr'
      · rcases List.mem_append.mp hr' with hr' | hr'
        · exact hl.refs r hr'
        · exact hc.refs r hr'
      · exact hr.refs r hr'

theorem freeRefFrom_lt {s : S} {avoid : Option Ref} : ∀ (n i : Nat) {r : Nat}, s.freeRefFrom avoid i n = some r →
    r < i + n
  | 0, i, r, h => by cases h
  | n + 1, i, r, h => by
    unfold Ready.freeRefFrom at h
    split at h
    · cases h; omega
    · have := freeRefFrom_lt n (i + 1) h; omega

theorem freeRef_lt {s : S} {avoid : Option Ref} {r : Nat} (h : s.freeRef avoid = some r) : r < 2 ^ 64 := by
  unfold Ready.freeRef at h
  by_cases hu : s.eph.upper < 2 ^ 64
  · have := freeRefFrom_lt _ _ h; omega
  · have e : 2 ^ 64 - 1 - s.eph.upper = 0 := by omega
    rw [e] at h; cases h

/-! ### The code -/

def AllSmall (s : S) : Prop := ∀ r n, s.cache.get r = some n → Small n

/-- The cached nodes keep lengths. -/
def Level (s : S) : Prop := ∀ r n, s.cache.get r = some n → Fit 1024 n

theorem AllSmall.of_cache {s s' : S} (h : AllSmall s)
    (he : ∀ r n, s'.cache.get r = some n → s.cache.get r = some n) : AllSmall s' :=
  fun r n hn => h r n (he r n hn)

theorem AllSmall.set {s : S} (h : AllSmall s) {ref : Ref} {n : Node} (hn : Small n) :
    AllSmall (s.write kids ref n) := by
  intro r m hm
  rw [write_cache, AList.get_set] at hm
  split at hm
  · cases hm; exact hn
  · exact h r m hm

theorem grow_small {s : S} (h : AllSmall s) : AllSmall (grow s).next := by
  unfold grow
  split
  · rename_i old hold
    split
    · exact h
    · split
      · split
        · rename_i c hc
          refine (h.set (h _ _ hold)).set ⟨fun k hk => ?_, fun r hr => ?_⟩
          · simp only [grownRoot, List.mem_cons, List.not_mem_nil, or_false] at hk
            rcases hk with hk | hk <;> cases hk
            simp
          · change r ∈ [c] at hr
            rw [List.mem_singleton.mp hr]; exact freeRef_lt hc
        · exact h
      · exact h
  · exact h

theorem flush_small {s : S} (h : AllSmall s) (hS : Sound s) (hL : Level s) (p : Ref) (slot : Nat) :
    AllSmall (flush s p slot).next := by
  unfold flush
  split
  case h_2 => exact h
  rename_i parent hpar
  split
  case h_2 => exact h
  rename_i c hslot
  split
  case h_2 => exact h
  rename_i child hch
  split
  · exact h
  split
  case isFalse => exact h
  dsimp only
  split
  case isFalse => exact h
  split
  case h_2 => exact h
  rename_i c' hc'
  obtain ⟨lo, hi, e, b, hs⟩ := slot_of (hS _ _ hpar) hslot
  have hcut := restrictChild_small (hS _ _ hpar) (hL _ _ hpar) (h _ _ hpar) (h _ _ hch) hs
  refine (h.set (Small.mk ?_ ?_)).set (Small.mk ?_ fun r hr => ?_)
  · exact hcut.short
  · exact hcut.refs
  · exact (h _ _ hpar).short
  have hb := (h _ _ hpar).refs
  unfold kids at hr hb
  dsimp only at hr
  cases hcs : parent.children with
  | none => rw [hcs] at hr; cases hr
  | some cs =>
    rw [hcs] at hr hb
    rcases List.mem_or_eq_of_mem_set hr with hr | rfl
    · exact hb r hr
    · exact freeRef_lt hc'

theorem split_small {s : S} (h : AllSmall s) (hS : Sound s) (hL : Level s) (p : Ref) (slot : Nat) :
    AllSmall (split s p slot).next := by
  unfold split
  split
  case h_2 => exact h
  rename_i parent hpar
  split
  case h_2 => exact h
  rename_i c hslot
  split
  case h_2 => exact h
  rename_i child hch
  split
  · exact h
  split
  case isFalse => exact h
  dsimp only
  split
  · exact h
  split
  case h_2 => exact h
  rename_i l hl
  split
  case h_2 => exact h
  rename_i r hr
  split
  case h_2 => exact h
  rename_i pivot lo hi hpiv hlo hhi
  split
  case isFalse => exact h
  obtain ⟨lo', hi', e, b, hs⟩ := slot_of (hS _ _ hpar) hslot
  have hcut := restrictChild_small (hS _ _ hpar) (hL _ _ hpar) (h _ _ hpar) (h _ _ hch) hs
  have hb := h _ _ hpar
  refine ((h.set ⟨fun k hk => hcut.short k (List.mem_of_mem_take hk), fun r hr => hcut.refs r
    (kids_map (fun l r hr => List.mem_of_mem_take hr) hr)⟩).set ⟨fun k hk => hcut.short k (List.mem_of_mem_drop hk),
    fun r hr => hcut.refs r (kids_map (fun l r hr => List.mem_of_mem_drop hr) hr)⟩).set ⟨fun k hk => ?_, fun x hx => ?_⟩
  · rcases List.mem_append.mp hk with hk | hk
    · exact hb.short k (List.mem_of_mem_take hk)
    · rcases List.mem_cons.mp hk with hk | hk
      · cases hk; exact hcut.short _ (List.mem_of_getElem? hpiv)
      · exact hb.short k (List.mem_of_mem_drop hk)
  · have hb := hb.refs
    unfold kids Node.splitParent at hx
    unfold kids at hb
    dsimp only at hx
    cases hcs : parent.children with
    | none => rw [hcs] at hx; cases hx
    | some cs =>
      rw [hcs] at hx hb
      change x ∈ replace1with2 cs l r slot at hx
      unfold replace1with2 at hx
      rcases List.mem_append.mp hx with hx | hx
      · exact hb x (List.mem_of_mem_take hx)
      · rcases List.mem_cons.mp hx with rfl | hx
        · exact freeRef_lt hl
        · rcases List.mem_cons.mp hx with rfl | hx
          · exact freeRef_lt hr
          · exact hb x (List.mem_of_mem_drop hx)

/-- A key in a buffer is short, and so is its value. -/
theorem bucket_short {n : Node} (hg : Pivot.Good n) (hf : Fit 1024 n) {b : Bucket} (hb : b ∈ n.buckets)
    {x : Key × Message} (hx : x ∈ b) : x.1.length ≤ 1024 ∧ ∀ v, x.2 = .define v → v.length ≤ 1024 := by
  obtain ⟨i, hi⟩ := List.mem_iff_getElem?.mp hb
  obtain ⟨lo, hi', e, b', hs⟩ := hg.slot (List.getElem?_eq_some_iff.mp hi).1
  have := hs.b.symm.trans hi
  cases this
  have hok := hg.slots _ _ _ _ _ hs
  obtain ⟨h1, h2⟩ := hok.keys x hx
  have hget : b.get x.1 = x.2 := Bucket.get_mem hok.sorted hx
  cases hm : x.2 with
  | update => exact absurd hm (hok.defs x hx)
  | define w =>
    obtain ⟨h3, h4⟩ := hf.msg hg hs h1 h2 (hget.trans hm)
    exact ⟨h3, fun v e => by cases e; exact h4⟩

theorem repivot_small {s : S} (h : AllSmall s) (hS : Sound s) (hL : Level s) (ref : Ref) :
    AllSmall (repivot s ref).next := by
  unfold repivot
  split
  case h_2 => exact h
  rename_i leaf hleaf
  split
  · exact h
  split
  case h_2 => exact h
  refine h.set ⟨fun k hk => ?_, fun r hr => by cases hr⟩
  simp only [Node.repivot, List.mem_cons, List.not_mem_nil, or_false] at hk
  rcases hk with hk | hk | hk <;> cases hk
  · simp
  · unfold middleKey
    split
    · rename_i x hx
      split
      · simp
      · cases hb : leaf.buckets[0]? with
        | none => rw [hb] at hx; cases hx
        | some b =>
          rw [hb] at hx
          exact (bucket_short (hS _ _ hleaf) (hL _ _ hleaf) (List.mem_of_getElem? hb) (List.mem_of_getElem? hx)).1
    · simp

theorem runFlushPolicy_small {s : S} (h : AllSmall s) (hS : Sound s) (hL : Level s) (io : Env Node) :
    AllSmall (runFlushPolicy s io).next := by
  unfold runFlushPolicy
  obtain ⟨i3, i4⟩ := toFlush_lim 39 { s with lru := lruUse s.lru rootRef } rootRef []
  generalize toFlush 39 { s with lru := lruUse s.lru rootRef } rootRef [] = a at *
  have i3 : a.1.cache = s.cache := i3
  have hS' : Sound a.1 := fun r n hn => hS r n (by rw [← i3]; exact hn)
  have hL' : Level a.1 := fun r n hn => hL r n (by rw [← i3]; exact hn)
  have h' : AllSmall a.1 := fun r n hn => h r n (by rw [← i3]; exact hn)
  dsimp only
  split
  · exact h'.of_cache (fun r n hn => by rw [pageInReq_cache] at hn; exact hn)
  · exact split_small h' hS' hL' _ _
  · exact repivot_small h' hS' hL' _
  · exact flush_small h' hS' hL' _ _
  · exact grow_small h'
  · exact h'.of_cache (fun r n hn => evict_cache _ _ hn)
  · exact h'

theorem insert_small {s : S} (h : AllSmall s) (hS : Sound s) (hL : Level s) (io : Env Node) (k : Key) (v : Value)
    (replay : Bool) : AllSmall (insert s io k v replay).next := by
  unfold insert
  split
  case isFalse => exact h
  split
  · split
    · exact h.of_cache (fun r n hn => by rw [pageInReq_cache] at hn; exact hn)
    · exact h
  · rename_i old hold
    split
    case isFalse => exact h
    split
    · split
      · exact h
      · intro r m hm
        dsimp only [Ready.writeSame] at hm
        rw [AList.get_set] at hm
        split at hm
        · cases hm
          exact ⟨(h _ _ hold).short, (h _ _ hold).refs⟩
        · exact h r m hm
    · exact runFlushPolicy_small h hS hL io

theorem clone_small {s : S} (h : AllSmall s) (io : Env Node) (src dst : Key) (replay : Bool)
    (hd : ShortDone 1024 (clone s io src dst replay).vop) : AllSmall (clone s io src dst replay).next := by
  unfold clone at hd ⊢
  split
  case isFalse => exact h
  rename_i h0
  rw [if_pos h0] at hd
  split
  · split
    · exact h.of_cache (fun r n hn => by rw [pageInReq_cache] at hn; exact hn)
    · exact h
  · rename_i old hold
    rw [hold] at hd
    dsimp only at hd
    split
    · exact h
    rename_i h1
    rw [if_neg h1] at hd
    split
    case isFalse => exact h
    rename_i hchk
    rw [if_pos hchk] at hd
    have := hd _ _ rfl
    exact h.set (cloneRoot_small (h _ _ hold) this.1 this.2)

/-- A call keeps the nodes small. -/
theorem call_small {s : S} (h : AllSmall s) (hS : Sound s) (hL : Level s) (io : Env Node) (call : Call)
    (hn : ∀ id n, call = .readNode id (some n) → Small n) (hd : ShortDone 1024 (run s io call).vop) :
    AllSmall (run s io call).next := by
  cases call with
  | query k => exact h.of_cache (fun r n hn => queryFrom_cache io k 40 s k _ _ _ hn)
  | succ start max =>
    refine h.of_cache (fun r n hn => ?_)
    have e := succFrom_cache io start max 40 s (startKey start) none .top none rootRef []
    change (succFrom io start max 40 s (startKey start) none .top none rootRef []).next.cache.get r = _ at hn
    rw [e] at hn; exact hn
  | insert k v replay => exact insert_small h hS hL io k v replay
  | clone src dst replay => exact clone_small h io src dst replay hd
  | sync => exact h.of_cache (sync_keeps s io).1
  | readNode id node =>
    intro r n hr
    change (s.pageInResp kids id node).next.cache.get r = _ at hr
    unfold Ready.pageInResp at hr
    split at hr
    · split at hr
      · split at hr
        · exact h r n hr
        · split at hr
          · exact h r n hr
          · split at hr
            · split at hr
              · dsimp only at hr
                rw [AList.get_set] at hr
                split at hr
                · cases hr; exact hn id _ rfl
                · exact h r n hr
              · exact h r n hr
            · exact h r n hr
      · exact h r n hr
    · exact h r n hr
  | wroteNode id =>
    refine h.of_cache (fun r n hr => ?_)
    change (s.writeNodeResp id).next.cache.get r = _ at hr
    unfold Ready.writeNodeResp at hr
    split at hr <;> exact hr
  | wroteTable id =>
    refine h.of_cache (fun r n hr => ?_)
    change (s.writeTableResp id).next.cache.get r = _ at hr
    unfold Ready.writeTableResp at hr
    split at hr
    · split at hr <;> exact hr
    · exact hr
  | cleanUp =>
    refine h.of_cache (fun r n hr => ?_)
    change s.cleanUp.next.cache.get r = _ at hr
    unfold Ready.cleanUp at hr
    split at hr <;> exact hr

/-! ### Runs -/

def BSmall (b : BlockImpl.State Node) : Prop := ∀ r, b = .ready r → AllSmall r

theorem block_small {b b' : BlockImpl.State Node} {dop : BlockDisk.Op Node} {vop : VOp}
    {step : BlockCache.Step Node} (h : BSmall b) (hS : ∀ r, b = .ready r → Sound r)
    (hL : ∀ r, b = .ready r → Level r)
    (hn : ∀ id n, dop = .respReadNode id (some n) → Small n) (hd : ShortDone 1024 vop)
    (hb : BlockNext b dop vop step b') : BSmall b' := by
  cases hb with
  | receiveLoc hl => intro r e; cases e
  | pageInTable => intro r e; cases e
  | @opened loc id rws tab s k1 k2 k3 k4 =>
    intro r e
    cases e
    unfold BlockImpl.opened at k4
    obtain ⟨bm, _, e⟩ := Option.map_eq_some_iff.mp k4
    subst e
    intro r n hr
    cases hr
  | refused _ => exact h
  | @call s io call hio =>
    intro r e
    cases e
    exact call_small (h s rfl) (hS s rfl) (hL s rfl) io call
      (fun id n e => hn id n (by rw [e]; exact FullImpl.run_readNode s io id n)) hd
  | early k1 k2 => exact h
  | rest k => exact h

variable {loc : Loc} {kind : ByteDisk.Kind} {tr : List (Option (BlockSystem.Label Node))} {s : FullImpl.State}

/-- Clones keep the length of the prefix. -/
def EqualClones (tr : List (Option (BlockSystem.Label Node))) : Prop :=
  ∀ src dst st, some ⟨.advance (.clone src dst) false, st⟩ ∈ tr → src.length = dst.length

theorem exec_level (h : (FullImpl.machine codec loc kind).Exec tr s) (hc : EqualClones tr) :
    ∀ r, s.b = .ready r → Level r := by
  intro r hr x n hn
  obtain ⟨h1, h2⟩ := FullImpl.exec_refines SectorBytes.codec_crc SectorBytes.codec_superblock
    (fun b n hb => (hwf b n hb).wf) h
  refine fit_of_exec SectorBytes.codec_crc SectorBytes.codec_superblock h1 hc (r := r.view)
    (by show FullImpl.bview s.b = _; rw [hr]; rfl) (x := x) ?_ hn
  have : BlockImpl.Inv kids r := by rw [hr] at h2; exact h2
  have hk := this.kids x n hn
  show r.eph.view.graph x ≠ none
  rw [hk]; simp

theorem exec_small (h : (FullImpl.machine codec loc kind).Exec tr s) (hc : EqualClones tr) : BSmall s.b := by
  refine (Machine.exec_invariant (M := FullImpl.machine codec loc kind)
    (I := fun tr s => (FullImpl.machine codec loc kind).Exec tr s ∧ (EqualClones tr → BSmall s.b)) ?_ ?_ h).2 hc
  · rintro s hs
    exact ⟨⟨_, hs, .nil _⟩, fun _ r e => by rw [hs.1] at e; cases e⟩
  · rintro tr s l s' ⟨h1, h2⟩ hs
    refine ⟨h1.snoc hs, fun hc => ?_⟩
    have hc0 : EqualClones tr := fun a b st hm => hc a b st (List.mem_append_left _ hm)
    have h2 := h2 hc0
    have hdone := done_of_exec SectorBytes.codec_crc SectorBytes.codec_superblock
      (FullImpl.exec_refines SectorBytes.codec_crc SectorBytes.codec_superblock
        (fun b n hb => (hwf b n hb).wf) (h1.snoc hs)).1 hc
    cases hs with
    | disk hd => exact h2
    | crash => intro r e; cases e
    | machine hc' hd =>
      cases hc' with
      | invalid k1 k2 => exact h2
      | valid k1 k2 k3 =>
        refine block_small h2 (exec_lim h1).2 (exec_level h1 hc0) (fun id n e => ?_)
          (hdone _ (List.mem_append_right _ (List.mem_singleton.mpr rfl))) k2
        obtain ⟨b, hb⟩ := FullImpl.blockOp_readNode e
        have ok := hwf b n hb
        refine ⟨ok.pivots, fun r hr => ?_⟩
        unfold kids at hr
        cases hcs : n.children with
        | none => rw [hcs] at hr; cases hr
        | some cs => rw [hcs] at hr; exact ok.refs cs hcs r hr

/-- **Every node in memory is within the bounds of the format.** -/
theorem exec_ok (h : (FullImpl.machine codec loc kind).Exec tr s) (hc : EqualClones tr) {r : S}
    (hr : s.b = .ready r) {x : Ref} {n : Node} (hn : r.cache.get x = some n) : NodeOk n := by
  obtain ⟨h1, h2⟩ := exec_lim h
  rw [hr] at h1
  have hl := h1.1 x n hn
  have hg := h2 r hr x n hn
  have hf := exec_level h hc r hr x n hn
  have hs := exec_small h hc r hr x n hn
  refine ⟨hg.inv.wf, hl.many, hl.weight, hs.short, fun k hk => ?_,
    fun b hb x hx => (bucket_short hg hf hb hx).1, fun b hb x hx => (bucket_short hg hf hb hx).2, fun cs hcs r hr => ?_⟩
  · obtain ⟨i, hi⟩ := List.mem_iff_getElem?.mp hk
    obtain ⟨lo, hi', e, b', hs'⟩ := hg.slot (i := i) (by
      have := (List.getElem?_eq_some_iff.mp hi).1; rw [hg.edges] at this; exact this)
    have := hs'.e.symm.trans hi
    cases this
    rw [edge_length hg hf hs']
    have hlo := hs.elem hs'.lo
    obtain ⟨lk, rfl⟩ := hs'.lo_key hg.toShape
    exact Nat.le_trans (pivotLcp_prefix (le_refl _) (hg.slots _ _ _ _ _ hs').lt).length_le (hlo lk rfl)
  · exact hs.refs r (by unfold kids; rw [hcs]; exact hr)

end Verif.Kv.TreeImpl
