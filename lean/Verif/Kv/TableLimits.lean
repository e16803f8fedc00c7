import Verif.Kv.TreeLimits
import Verif.Kv.SectorProof
import Verif.Kv.Mkfs
/-
The indirection table stays within its limit, and with the nodes (Verif/Kv/TreeLimits.lean) everything in
memory does. No code is modelled here.
-/
namespace Verif.Kv.TreeImpl
open Pivot BlockImpl IndTable
open Betree (Message)
open SectorBytes (maxTable codec NodeOk)
open FullImpl (Call run BlockNext BInv blockOp_readNode)

/-! ### How many rows there are -/

theorem predInc_rows (s : Tab) (r : Ref) : (s.predInc r).t.length = s.t.length := by
  unfold Tab.predInc
  split
  · rename_i e he; exact AList.length_set_mem (by rw [he]; simp) _
  · rfl

theorem predDec_rows (s : Tab) (r : Ref) : (s.predDec r).t.length = s.t.length := by
  unfold Tab.predDec
  split
  · rename_i e he; exact AList.length_set_mem (by rw [he]; simp) _
  · rfl

theorem foldInc_rows : ∀ (l : List Ref) (s : Tab), (l.foldl Tab.predInc s).t.length = s.t.length
  | [], _ => rfl
  | r :: l, s => by rw [List.foldl_cons, foldInc_rows l, predInc_rows]

theorem foldDec_rows : ∀ (l : List Ref) (s : Tab), (l.foldl Tab.predDec s).t.length = s.t.length
  | [], _ => rfl
  | r :: l, s => by rw [List.foldl_cons, foldDec_rows l, predDec_rows]

theorem updatePreds_rows (s : Tab) (new old : List Ref) : (s.updatePreds new old).t.length = s.t.length := by
  unfold Tab.updatePreds
  rw [foldDec_rows, foldInc_rows]

theorem update_rows (s : Tab) (r : Ref) (l : List Ref) : (s.update r l).2.t.length ≤ s.t.length + 1 := by
  unfold Tab.update
  dsimp only
  rw [updatePreds_rows]
  exact AList.length_set_le _ _ _

theorem removeLoc_rows (s : Tab) (r : Ref) : (s.removeLoc r).2.t.length = s.t.length := by
  unfold Tab.removeLoc
  split
  · rename_i e he; exact AList.length_set_mem (by rw [he]; simp) _
  · rfl

theorem addLoc_rows (s : Tab) (r : Ref) (l : Loc) : (s.addLoc r l).2.t.length = s.t.length := by
  unfold Tab.addLoc
  split
  · rename_i e he
    split
    · exact AList.length_set_mem (by rw [he]; simp) _
    · rfl
  · rfl

theorem removeRef_rows (s : Tab) (r : Ref) : (s.removeRef r).2.t.length ≤ s.t.length := by
  unfold Tab.removeRef
  split
  · dsimp only
    rw [updatePreds_rows]
    exact AList.length_del_le _ _
  · exact Nat.le_refl _

/-- The number of rows of the table in memory. -/
def rows (s : S) : Nat := s.eph.t.length

theorem write_rows (s : S) (r : Ref) (n : Node) : rows (s.write kids r n) ≤ rows s + 1 := update_rows _ _ _

theorem dealloc_rows (s : S) (r : Ref) : rows (s.dealloc r).next ≤ rows s := by
  unfold Ready.dealloc
  split
  · exact Nat.le_refl _
  · exact removeRef_rows _ _

theorem assigned_rows (s : S) (id : ReqId) (ref : Ref) (loc : Loc) :
    rows (((s.assignEph ref loc).assignOutstanding id ref loc).assignFrozen ref loc) = rows s := by
  have h : rows ((s.assignEph ref loc).assignOutstanding id ref loc) = rows s := addLoc_rows _ _ _
  unfold Ready.assignFrozen
  split <;> exact h

theorem tryToWrite_rows (s : S) (io : Env Node) (ref : Ref) : rows (s.tryToWrite io ref).next = rows s := by
  unfold Ready.tryToWrite
  split
  · split
    · split
      · exact assigned_rows _ _ _ _
      · rfl
    · rfl
  · rfl

theorem evict_rows (s : S) (io : Env Node) : rows (s.evictOrDealloc io).next ≤ rows s := by
  unfold Ready.evictOrDealloc
  split
  · exact dealloc_rows s _
  · split
    · split
      · split
        · rw [tryToWrite_rows]
        · exact Nat.le_refl _
      · split <;> exact Nat.le_refl _
    · exact Nat.le_refl _

theorem pageInReq_rows (s : S) (io : Env Node) (ref : Ref) : rows (s.pageInReq io ref).next = rows s := by
  unfold Ready.pageInReq
  split
  · rfl
  · split <;> rfl

theorem pageIn_rows (s : S) (io : Env Node) (ref : Ref) : rows (s.pageInOrMakeRoom io ref).next ≤ rows s := by
  unfold Ready.pageInOrMakeRoom
  split
  · rw [pageInReq_rows]
  · split
    · exact evict_rows s io
    · exact Nat.le_refl _

theorem grow_rows (s : S) : rows (grow s).next ≤ rows s + 3 := by
  unfold grow
  split
  · split
    · exact Nat.le_add_right _ _
    · split
      · split
        · refine Nat.le_trans (write_rows _ _ _) ?_
          exact Nat.le_trans (Nat.add_le_add_right (write_rows _ _ _) 1) (by omega)
        · exact Nat.le_add_right _ _
      · exact Nat.le_add_right _ _
  · exact Nat.le_add_right _ _

theorem flush_rows (s : S) (p : Ref) (slot : Nat) : rows (flush s p slot).next ≤ rows s + 3 := by
  unfold flush
  split
  case h_2 => exact Nat.le_add_right _ _
  split
  case h_2 => exact Nat.le_add_right _ _
  split
  case h_2 => exact Nat.le_add_right _ _
  split
  · exact Nat.le_add_right _ _
  split
  case isFalse => exact Nat.le_add_right _ _
  dsimp only
  split
  case isFalse => exact Nat.le_add_right _ _
  split
  case h_2 => exact Nat.le_add_right _ _
  refine Nat.le_trans (write_rows _ _ _) ?_
  exact Nat.le_trans (Nat.add_le_add_right (write_rows _ _ _) 1) (by omega)

theorem split_rows (s : S) (p : Ref) (slot : Nat) : rows (split s p slot).next ≤ rows s + 3 := by
  unfold split
  split
  case h_2 => exact Nat.le_add_right _ _
  split
  case h_2 => exact Nat.le_add_right _ _
  split
  case h_2 => exact Nat.le_add_right _ _
  split
  · exact Nat.le_add_right _ _
  split
  case isFalse => exact Nat.le_add_right _ _
  dsimp only
  split
  · exact Nat.le_add_right _ _
  split
  case h_2 => exact Nat.le_add_right _ _
  split
  case h_2 => exact Nat.le_add_right _ _
  split
  case h_2 => exact Nat.le_add_right _ _
  split
  case isFalse => exact Nat.le_add_right _ _
  refine Nat.le_trans (write_rows _ _ _) ?_
  refine Nat.le_trans (Nat.add_le_add_right (write_rows _ _ _) 1) ?_
  exact Nat.add_le_add_right (Nat.add_le_add_right (write_rows _ _ _) 1) 1

theorem repivot_rows (s : S) (r : Ref) : rows (repivot s r).next ≤ rows s + 3 := by
  unfold repivot
  split
  case h_2 => exact Nat.le_add_right _ _
  split
  · exact Nat.le_add_right _ _
  split
  · exact Nat.le_trans (write_rows _ _ _) (by omega)
  · exact Nat.le_add_right _ _

theorem toFlush_rows (fuel : Nat) : ∀ (s : S) (cur : Ref) (path : List (Ref × Nat)),
    rows (toFlush fuel s cur path).1 = rows s := by
  induction fuel with
  | zero => intro s cur path; rfl
  | succ fuel ih =>
    intro s cur path
    unfold toFlush
    split
    case h_2 => rfl
    split
    · rfl
    · split
      · rfl
      · dsimp only
        split
        case h_2 => rfl
        split
        · split
          · rfl
          · exact ih _ _ _
        · rfl

theorem runFlushPolicy_rows (s : S) (io : Env Node) : rows (runFlushPolicy s io).next ≤ rows s + 3 := by
  unfold runFlushPolicy
  have h := toFlush_rows 39 { s with lru := lruUse s.lru rootRef } rootRef []
  generalize toFlush 39 { s with lru := lruUse s.lru rootRef } rootRef [] = a at *
  have h : rows a.1 = rows s := h
  dsimp only
  split
  · rw [pageInReq_rows, h]; omega
  · rw [← h]; exact split_rows _ _ _
  · rw [← h]; exact repivot_rows _ _
  · rw [← h]; exact flush_rows _ _ _
  · rw [← h]; exact grow_rows _
  · rw [← h]; exact Nat.le_trans (evict_rows _ _) (Nat.le_add_right _ _)
  · show rows a.1 ≤ _; omega

theorem insert_rows {s : S} (h : rows s ≤ maxTable) (io : Env Node) (k : Key) (v : Value) (replay : Bool) :
    rows (insert s io k v replay).next ≤ maxTable := by
  have hm : maxTable = 2 ^ 32 := rfl
  unfold insert
  split
  case isFalse => exact h
  rename_i hl
  have hl : rows s ≤ maxTable - 3 := hl
  split
  · split
    · rw [pageInReq_rows]; exact h
    · exact h
  · split
    case isFalse => exact h
    split
    · split
      · exact h
      · show (s.eph.removeLoc rootRef).2.t.length ≤ maxTable
        rw [removeLoc_rows]; exact h
    · have := runFlushPolicy_rows s io
      omega

theorem clone_rows {s : S} (h : rows s ≤ maxTable) (io : Env Node) (src dst : Key) (replay : Bool) :
    rows (clone s io src dst replay).next ≤ maxTable := by
  have hm : maxTable = 2 ^ 32 := rfl
  unfold clone
  split
  case isFalse => exact h
  rename_i hl
  have hl : rows s ≤ maxTable - 3 := hl
  split
  · split
    · rw [pageInReq_rows]; exact h
    · exact h
  · split
    · exact h
    split
    · exact Nat.le_trans (write_rows _ _ _) (by omega)
    · exact h

theorem queryFrom_rows (io : Env Node) (q : Key) (fuel : Nat) : ∀ (s : S) (key : Key) (msg : Message) (ref : Ref)
    (l : List Layer), rows (queryFrom io q fuel s key msg ref l).next ≤ rows s := by
  induction fuel with
  | zero => intro s key msg ref l; exact Nat.le_refl _
  | succ fuel ih =>
    intro s key msg ref l
    unfold queryFrom
    split
    · exact pageIn_rows s io ref
    · split
      · dsimp only
        split
        · exact Nat.le_refl _
        · split
          · split
            · exact ih { s with lru := lruUse s.lru ref } _ _ _ _
            · exact Nat.le_refl _
          · exact Nat.le_refl _
      · exact Nat.le_refl _

theorem succFrom_rows (io : Env Node) (start : RangeStart) (max : Nat) (fuel : Nat) : ∀ (s : S) (key : Key)
    (pset : Option PrefixSet) (upTo : Elem) (g : Option Bucket) (ref : Ref) (l : List Layer),
    rows (succFrom io start max fuel s key pset upTo g ref l).next = rows s := by
  induction fuel with
  | zero =>
    intro s key pset upTo g ref l
    unfold succFrom
    split
    · split
      · exact pageInReq_rows s io ref
      · rfl
    · split
      · dsimp only
        split <;> rfl
      · rfl
  | succ fuel ih =>
    intro s key pset upTo g ref l
    unfold succFrom
    split
    · split
      · exact pageInReq_rows s io ref
      · rfl
    · split
      · dsimp only
        split
        · split
          · rename_i h1 h2
            cases h1
            exact ih _ _ _ _ _ _ _
          · rfl
        · rfl
      · rfl

/-! ### All calls -/

theorem sync_keeps (s : S) (io : Env Node) : (∀ r n, (s.sync io).next.cache.get r = some n → s.cache.get r = some n) ∧
    rows (s.sync io).next ≤ rows s := by
  unfold Ready.sync
  split
  · exact ⟨fun _ _ h => h, Nat.le_refl _⟩
  split
  · unfold Ready.maybeFreeze
    split
    · exact ⟨fun _ _ h => dealloc_cache s _ h, dealloc_rows s _⟩
    · exact ⟨fun _ _ h => h, Nat.le_refl _⟩
  · dsimp only
    split
    · unfold Ready.syncFound
      split
      · exact ⟨fun _ _ h => h, Nat.le_refl _⟩
      · exact ⟨fun _ _ h => by rw [tryToWrite_cache] at h; exact h, by rw [tryToWrite_rows]; exact Nat.le_refl _⟩
    · split
      · exact ⟨fun _ _ h => h, Nat.le_refl _⟩
      · split <;> exact ⟨fun _ _ h => h, Nat.le_refl _⟩

/-- A call keeps the nodes within their limits. -/
theorem call_lim {s : S} (h : Lim s) (hS : Sound s) (io : Env Node) (call : Call)
    (hn : ∀ id n, call = .readNode id (some n) → NodeLim n) : Lim (run s io call).next := by
  cases call with
  | query k => exact h.of_cache (fun r n hn => queryFrom_cache io k 40 s k _ _ _ hn)
  | succ start max =>
    refine h.of_cache (fun r n hn => ?_)
    have e := succFrom_cache io start max 40 s (startKey start) none .top none rootRef []
    change (succFrom io start max 40 s (startKey start) none .top none rootRef []).next.cache.get r = _ at hn
    rw [e] at hn; exact hn
  | insert k v replay => exact insert_lim h hS io k v replay
  | clone src dst replay => exact clone_lim h hS io src dst replay
  | sync => exact h.of_cache (sync_keeps s io).1
  | readNode id node =>
    intro r n hr
    change (s.pageInResp kids id node).next.cache.get r = _ at hr
    unfold Ready.pageInResp at hr
    split at hr
    · split at hr
      · split at hr
        · exact h r n hr
        · split at hr
          · exact h r n hr
          · split at hr
            · split at hr
              · dsimp only at hr
                rw [AList.get_set] at hr
                split at hr
                · cases hr; exact hn id _ rfl
                · exact h r n hr
              · exact h r n hr
            · exact h r n hr
      · exact h r n hr
    · exact h r n hr
  | wroteNode id =>
    refine h.of_cache (fun r n hr => ?_)
    change (s.writeNodeResp id).next.cache.get r = _ at hr
    unfold Ready.writeNodeResp at hr
    split at hr <;> exact hr
  | wroteTable id =>
    refine h.of_cache (fun r n hr => ?_)
    change (s.writeTableResp id).next.cache.get r = _ at hr
    unfold Ready.writeTableResp at hr
    split at hr
    · split at hr <;> exact hr
    · exact hr
  | cleanUp =>
    refine h.of_cache (fun r n hr => ?_)
    change s.cleanUp.next.cache.get r = _ at hr
    unfold Ready.cleanUp at hr
    split at hr <;> exact hr

/-- A call keeps the table within its limit. -/
theorem call_rows {s : S} (h : rows s ≤ maxTable) (io : Env Node) (call : Call) :
    rows (run s io call).next ≤ maxTable := by
  cases call with
  | query k => exact Nat.le_trans (queryFrom_rows io k 40 s k _ _ _) h
  | succ start max =>
    exact Nat.le_trans (Nat.le_of_eq (succFrom_rows io start max 40 s (startKey start) none .top none rootRef [])) h
  | insert k v replay => exact insert_rows h io k v replay
  | clone src dst replay => exact clone_rows h io src dst replay
  | sync => exact Nat.le_trans (sync_keeps s io).2 h
  | readNode id node =>
    show rows (s.pageInResp kids id node).next ≤ _
    unfold Ready.pageInResp
    split
    · split
      · split
        · exact h
        · split
          · exact h
          · split
            · split <;> exact h
            · exact h
      · exact h
    · exact h
  | wroteNode id =>
    show rows (s.writeNodeResp id).next ≤ _
    unfold Ready.writeNodeResp
    split <;> exact h
  | wroteTable id =>
    show rows (s.writeTableResp id).next ≤ _
    unfold Ready.writeTableResp
    split
    · split <;> exact h
    · exact h
  | cleanUp =>
    show rows s.cleanUp.next ≤ _
    unfold Ready.cleanUp
    split <;> exact h

/-! ### What is read -/

theorem maps_few : ∀ {vs : List Marshal.V} {t0 t : Table}, SectorBytes.tableMaps t0 vs = some t → ∀ l : List Ref,
    (∀ r, t0.graph r ≠ none → r ∈ l) → ∃ l' : List Ref, l'.length = l.length + vs.length ∧ ∀ r, t.graph r ≠ none → r ∈ l'
  | [], t0, t, h, l, hl => by cases h; exact ⟨l, rfl, hl⟩
  | v :: vs, t0, t, h, l, hl => by
    rw [SectorBytes.tableMaps] at h
    split at h
    · rename_i x hx
      split at h
      · rename_i t' ht
        unfold SectorBytes.addRow at ht
        split at ht
        · cases ht
        · cases ht
          obtain ⟨l', h1, h2⟩ := maps_few h (x.ref :: l) (fun r hr => by
            by_cases e : r = x.ref
            · rw [e]; exact .head _
            · dsimp only at hr
              rw [PMap.insert_other _ _ e] at hr
              exact .tail _ (hl r hr))
          exact ⟨l', by rw [h1, List.length_cons, List.length_cons]; omega, h2⟩
      · cases h
    · cases h

/-- A table that is read is within its limit. -/
theorem table_few {b : List UInt8} {t : Table} (h : codec.table b = some t) :
    ∃ l : List Ref, l.length ≤ maxTable ∧ ∀ r, t.graph r ≠ none → r ∈ l := by
  unfold Codec.table at h
  split at h
  case h_2 => cases h
  rename_i t' h'
  cases h
  unfold Codec.sector at h'
  split at h'
  case isFalse => cases h'
  change SectorBytes.parseSector _ = _ at h'
  unfold SectorBytes.parseSector at h'
  split at h'
  case h_2 => cases h'
  unfold SectorBytes.sectorOfVal at h'
  split at h'
  case h_2 => cases h'
  split at h'
  · obtain ⟨_, _, e⟩ := Option.map_eq_some_iff.mp h'; cases e
  split at h'
  case isFalse => obtain ⟨_, _, e⟩ := Option.map_eq_some_iff.mp h'; cases e
  obtain ⟨t', e, e'⟩ := Option.map_eq_some_iff.mp h'
  cases e'
  unfold SectorBytes.tableOfVal at e
  split at e
  case h_2 => cases e
  split at e
  case isFalse => cases e
  rename_i hm
  split at e
  case h_2 => cases e
  rename_i t2 ht
  split at e
  case isFalse => cases e
  cases e
  obtain ⟨l, h1, h2⟩ := maps_few ht [] (fun r hr => absurd rfl hr)
  exact ⟨l, by simp only [List.length_nil] at h1; omega, h2⟩

theorem nodup_few : ∀ {l l' : List Ref}, l.Nodup → (∀ r ∈ l, r ∈ l') → l.length ≤ l'.length
  | [], _, _, _ => Nat.zero_le _
  | r :: l, l', hn, h => by
    obtain ⟨h1, h2⟩ := List.nodup_cons.mp hn
    have hr := h r (.head _)
    have := nodup_few h2 (l' := l'.erase r) (fun x hx => (List.mem_erase_of_ne (fun e : x = r => h1 (e ▸ hx))).mpr (h x (.tail _ hx)))
    rw [List.length_erase_of_mem hr] at this
    have := List.length_pos_of_mem hr
    rw [List.length_cons]
    omega

theorem keys_few {t : AList Ref IndTable.Entry} (hn : t.keys.Nodup) {l : List Ref} {g : Ref → Option (List Ref)}
    (hg : ∀ r, t.get r ≠ none → g r ≠ none) (hl : ∀ r, g r ≠ none → r ∈ l) : t.length ≤ l.length := by
  rw [← AList.length_keys]
  exact nodup_few hn (fun r hr => hl r (hg r (AList.get_keys.mpr hr)))

/-! ### Runs -/

/-- Everything in memory is within its limits. -/
def BLim : BlockImpl.State Node → Prop
  | .ready r => Lim r ∧ rows r ≤ maxTable
  | _ => True

theorem blockOp_readTable {dop : ByteDisk.Op} {id : ReqId} {t : Table}
    (h : ByteSystem.blockOp codec dop = .respReadTable id (some t)) : ∃ b, codec.table b = some t := by
  cases dop with
  | respRead i r =>
    simp only [ByteSystem.blockOp] at h
    split at h
    · cases h
    · split at h
      · injection h with _ h; exact ⟨r.bytes, h⟩
      · cases h
  | reqRead i l => simp only [ByteSystem.blockOp] at h; split at h <;> [skip; split at h] <;> cases h
  | reqWrite i w =>
    simp only [ByteSystem.blockOp] at h
    split at h
    · split at h <;> cases h
    · split at h
      · split at h <;> cases h
      · cases h
  | respWrite i l => simp only [ByteSystem.blockOp] at h; split at h <;> [skip; split at h] <;> cases h
  | reqWrite2 => cases h
  | none => cases h

theorem block_lim {b b' : BlockImpl.State Node} {dop : BlockDisk.Op Node} {vop : VOp}
    {step : BlockCache.Step Node} (h : BLim b) (hS : ∀ r, b = .ready r → Sound r)
    (hn : ∀ id n, dop = .respReadNode id (some n) → NodeLim n)
    (ht : ∀ id t, dop = .respReadTable id (some t) → ∃ b, codec.table b = some t)
    (hb : BlockNext b dop vop step b') : BLim b' := by
  cases hb with
  | receiveLoc hl => trivial
  | pageInTable => trivial
  | @opened loc id rws tab s k1 k2 k3 k4 =>
    obtain ⟨b, hb⟩ := ht _ _ rfl
    obtain ⟨l, h1, h2⟩ := table_few hb
    obtain ⟨i1, i2, _⟩ := IndTable.ofRows_inv k1 k3
    unfold BlockImpl.opened at k4
    obtain ⟨bm, _, e⟩ := Option.map_eq_some_iff.mp k4
    subst e
    refine ⟨fun r n hr => (by cases hr), ?_⟩
    refine Nat.le_trans (keys_few (t := tab.t) (g := tab.view.graph) i1.nodup (fun r hr => ?_) (by rw [i2]; exact h2)) h1
    rw [ne_eq, IndTable.Tab.graph_none]
    exact hr
  | refused _ => exact h
  | @call s io call hio =>
    exact ⟨call_lim h.1 (hS s rfl) io call (fun id n e => hn id n (by rw [e]; exact FullImpl.run_readNode s io id n)),
      call_rows h.2 io call⟩
  | early k1 k2 => exact h
  | rest k => exact h

theorem hwf : ∀ b n, codec.node b = some n → NodeOk n := by
  intro b n h
  unfold Codec.node at h
  split at h
  case h_2 => cases h
  rename_i m h'
  cases h
  unfold Codec.sector at h'
  split at h'
  case isFalse => cases h'
  change SectorBytes.parseSector _ = _ at h'
  unfold SectorBytes.parseSector at h'
  split at h'
  case h_2 => cases h'
  rename_i v r hv
  obtain ⟨_, hval, _⟩ := Marshal.parse_good _ SectorBytes.sectorG_valid _ _ _ hv
  unfold SectorBytes.sectorOfVal at h'
  cases hval with
  | @case c v _ hv' =>
    dsimp only at h'
    split at h'
    · obtain ⟨_, _, e⟩ := Option.map_eq_some_iff.mp h'; cases e
    split at h'
    · obtain ⟨_, _, e⟩ := Option.map_eq_some_iff.mp h'; cases e
    obtain ⟨n', e, e'⟩ := Option.map_eq_some_iff.mp h'
    cases e'
    exact SectorBytes.nodeOfVal_some hv' e
  | _ => cases h'

/-- **In every run everything in memory is within its limits**, and the nodes are in order. -/
theorem exec_lim {loc : Loc} {kind : ByteDisk.Kind} {tr : List (Option (BlockSystem.Label Node))} {s : FullImpl.State}
    (h : (FullImpl.machine codec loc kind).Exec tr s) : BLim s.b ∧ ∀ r, s.b = .ready r → Sound r := by
  have sound : ∀ {tr s}, (FullImpl.machine codec loc kind).Exec tr s → ∀ r, s.b = .ready r → Sound r := by
    intro tr s h r hr x n hn
    obtain ⟨h1, h2⟩ := FullImpl.exec_refines SectorBytes.codec_crc SectorBytes.codec_superblock
      (fun b n hb => (hwf b n hb).wf) h
    refine FullImpl.sound_of_exec SectorBytes.codec_crc SectorBytes.codec_superblock h1 (r := r.view)
      (by show FullImpl.bview s.b = _; rw [hr]; rfl) (x := x) ?_ hn
    have : BlockImpl.Inv kids r := by rw [hr] at h2; exact h2
    have hk := this.kids x n hn
    show r.eph.view.graph x ≠ none
    rw [hk]; simp
  refine ⟨?_, sound h⟩
  refine (Machine.exec_invariant (M := FullImpl.machine codec loc kind)
    (I := fun tr s => (FullImpl.machine codec loc kind).Exec tr s ∧ BLim s.b) ?_ ?_ h).2
  · rintro s hs
    exact ⟨⟨_, hs, .nil _⟩, by rw [hs.1]; trivial⟩
  · rintro tr s l s' ⟨h1, h2⟩ hs
    refine ⟨h1.snoc hs, ?_⟩
    cases hs with
    | disk hd => exact h2
    | crash => trivial
    | machine hc hd =>
      cases hc with
      | invalid k1 k2 => exact h2
      | valid k1 k2 k3 =>
        exact block_lim h2 (sound h1) (fun id n e => by
            obtain ⟨b, hb⟩ := blockOp_readNode e
            exact ⟨(hwf b n hb).many, (hwf b n hb).weight⟩)
          (fun id t e => blockOp_readTable e) k2

end Verif.Kv.TreeImpl
