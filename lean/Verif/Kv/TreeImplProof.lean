import Verif.Kv.TreeFlush
import Verif.Kv.BlockImplProof
/-
Every operation on the tree, as it is coded, is a transaction of the tree or a step of the block side, and
keeps the block side in order. No code is modelled here.
-/
namespace Verif.Kv.TreeImpl
open Pivot BlockImpl
open Betree (Message)
open BlockCache (OpStep Ops)
open SectorBytes (bucketWeight weight messageWeight maxWeight maxChildren maxTable)

/-- The nodes in the cache are good ones. -/
def Sound (s : S) : Prop := ∀ r n, s.cache.get r = some n → Pivot.Good n

theorem kids_iff (n : Node) (x : Ref) : x ∈ kids n ↔ app.succs n x := by
  show x ∈ n.children.getD [] ↔ ∃ cs, n.children = some cs ∧ x ∈ cs
  cases n.children with
  | none => simp
  | some cs => simp

/-! ### Checks -/

theorem boundedB_iff (pt : List Elem) (k : Key) : boundedB pt k = true ↔ Bounded pt k := by
  unfold boundedB Bounded
  cases h1 : pt.head? with
  | none => simp
  | some a =>
    cases h2 : pt.getLast? with
    | none => simp
    | some b => simp

theorem containsAllB_iff (pt : List Elem) : containsAllB pt = true ↔ ContainsAll pt := by
  unfold containsAllB ContainsAll
  simp

theorem inRangeB_iff (parent child : Node) (slot : Nat) :
    inRangeB parent child slot = true ↔ InChildRange parent child slot := by
  unfold inRangeB InChildRange ContainsRange
  cases h0 : parent.childRange slot with
  | none => simp
  | some lr =>
    obtain ⟨l, r⟩ := lr
    cases h1 : child.pivots.head? with
    | none => simp
    | some a =>
      cases h2 : child.pivots.getLast? with
      | none => simp
      | some b =>
        simp only [Bool.and_eq_true, decide_eq_true_eq, Option.some.injEq, Prod.mk.injEq]
        constructor
        · intro k; exact ⟨l, r, ⟨rfl, rfl⟩, a, b, rfl, rfl, k.1, k.2⟩
        · rintro ⟨_, _, ⟨rfl, rfl⟩, _, _, rfl, rfl, k⟩; exact k

theorem noKey_aux (l : List Bucket) (start stop : Nat) (src : Key) :
    ((l.take stop).drop start).all (fun b => b.all (fun x => !src.isPrefixOf x.1)) = true ↔
      ∀ i (b : Bucket) x, start ≤ i → i < stop → l[i]? = some b → x ∈ b → ¬ src <+: x.1 := by
  rw [List.all_eq_true]
  constructor
  · intro h i b x h1 h2 hb hx hpre
    have := h b (List.mem_of_getElem? (i := i - start) (by
      rw [List.getElem?_drop, List.getElem?_take, if_pos (by omega), show start + (i - start) = i by omega]
      exact hb))
    have := List.all_eq_true.mp this x hx
    rw [List.isPrefixOf_iff_prefix.mpr hpre] at this
    cases this
  · intro h b hb
    obtain ⟨i, hi⟩ := List.mem_iff_getElem?.mp hb
    rw [List.getElem?_drop, List.getElem?_take] at hi
    by_cases hlt : start + i < stop
    · rw [if_pos hlt] at hi
      rw [List.all_eq_true]
      intro x hx
      have := h _ b x (Nat.le_add_right _ _) hlt hi hx
      cases hp : src.isPrefixOf x.1 with
      | true => exact absurd (List.isPrefixOf_iff_prefix.mp hp) this
      | false => rfl
    · rw [if_neg hlt] at hi; cases hi

theorem noKeyB_iff (n : Node) (src : Key) : noKeyB n src = true ↔ NoKeyWithPrefix n src :=
  noKey_aux _ _ _ _

/-! ### Transactions -/

theorem txn_good {s s' : S} {u : UIOp} {b : Bool} {reads : List (Ref × Node)} {ops : List (GOp Node)}
    (h : Inv kids s) (hv : Valid u reads ops) (hr : ∀ x n, (x, n) ∈ reads → s.cache.get x = some n)
    (ho : Ops (OpStep app) s.view ops s'.view) (hi : Inv kids s') :
    BlockImpl.Good app kids s ⟨.none, .advance u b, .transaction reads ops, s'⟩ := by
  refine ⟨.transaction hv (fun x n hx => ?_) ho, hi⟩
  have hc := hr x n hx
  refine ⟨?_, hc⟩
  show s.eph.view.graph x ≠ none
  rw [h.kids x n hc]; simp

/-- The children of a node in the cache are known. -/
theorem closed {s : S} (h : Inv kids s) {r : Ref} {n : Node} (hc : s.cache.get r = some n) {x : Ref}
    (hx : x ∈ kids n) : s.eph.view.graph x ≠ none :=
  h.eph.closed r (kids n) (h.kids r n hc) x hx

theorem write_graph {s : S} (h : Inv kids s) {ref : Ref} {n : Node}
    (hk : ∀ x ∈ kids n, s.eph.view.graph x ≠ none) :
    (s.write kids ref n).eph.view.graph = s.eph.view.graph.insert ref (kids n) :=
  congrArg (fun v => v.eph.graph) (write_view h hk)

theorem write_cache (s : S) (ref : Ref) (n : Node) : (s.write kids ref n).cache = s.cache.set ref n := rfl

theorem write_get_other (s : S) {ref x : Ref} (n : Node) (hx : x ≠ ref) :
    (s.write kids ref n).cache.get x = s.cache.get x := by
  have := congrFun (AList.toMap_set s.cache ref n) x
  exact this.trans (PMap.insert_other _ _ hx)

theorem write_get_same (s : S) (ref : Ref) (n : Node) : (s.write kids ref n).cache.get ref = some n := by
  have := congrFun (AList.toMap_set s.cache ref n) ref
  exact this.trans (PMap.insert_same _ _ _)

theorem write_frozenEmpty (s : S) (ref x : Ref) (n : Node) :
    (s.write kids ref n).frozenEmpty x = s.frozenEmpty x := rfl

theorem write_keeps {s : S} (h : Inv kids s) {ref : Ref} {n : Node}
    (hk : ∀ x ∈ kids n, s.eph.view.graph x ≠ none) {x : Ref} (hx : x = ref ∨ s.eph.view.graph x ≠ none) :
    (s.write kids ref n).eph.view.graph x ≠ none := by
  rw [write_graph h hk]
  by_cases e : x = ref
  · subst e; rw [PMap.insert_same]; simp
  · rw [PMap.insert_other _ _ e]; exact hx.resolve_left e

/-- A node is added and another one is changed. -/
theorem alloc_write_good {s : S} (h : Inv kids s) (hsz : s.size ≤ maxCacheSize - 1) {reads : List (Ref × Node)}
    {c p : Ref} {cn pn old : Node} (hp : s.cache.get p = some old) (hf : s.frozenEmpty p = false)
    (hfree : s.freeRef none = some c)
    (hv : Valid .noop reads [.alloc c cn, .write p pn])
    (hr : ∀ x n, (x, n) ∈ reads → s.cache.get x = some n)
    (hc : ∀ x ∈ kids cn, s.eph.view.graph x ≠ none)
    (hk : ∀ x ∈ kids pn, x = c ∨ s.eph.view.graph x ≠ none) :
    BlockImpl.Good app kids s (internal reads [.alloc c cn, .write p pn]
      ((s.write kids c cn).write kids p pn)) := by
  obtain ⟨f1, f2, _⟩ := freeRef_some h hfree
  have hmax : maxCacheSize = 100 := rfl
  obtain ⟨a1, a2⟩ := alloc_step kids_iff h f1 f2 hc (by omega)
  have hpc : p ≠ c := fun e => by rw [e, f1] at hp; cases hp
  obtain ⟨b1, b2⟩ := write_step kids_iff a2 (ref := p) (n := pn)
    (by rw [write_get_other s cn hpc, hp]; simp) (by rw [write_frozenEmpty]; exact hf)
    (fun x hx => write_keeps h hc (hk x hx))
  exact txn_good h hv hr (.cons a1 (.cons b1 .nil)) b2

theorem grow_good {s : S} (h : Inv kids s) (hS : Sound s) (hsz : s.size ≤ maxCacheSize - 1) :
    BlockImpl.Good app kids s (grow s) := by
  unfold grow
  split
  case h_2 => exact noop_good h
  rename_i old hold
  split
  · exact noop_good h
  rename_i hf
  split
  case isFalse => exact noop_good h
  rename_i hall
  split
  case h_2 => exact noop_good h
  rename_i c hfree
  refine alloc_write_good h hsz hold (by simpa using hf) hfree
    (.grow (hS _ _ hold).inv.wf ((containsAllB_iff _).mp hall)) ?_ (fun x hx => closed h hold hx) ?_
  · intro x n hx
    rw [List.mem_singleton] at hx; cases hx; exact hold
  · intro x hx
    have : x = c := by simpa [kids, grownRoot] using hx
    exact .inl this

theorem kids_some {n : Node} {slot : Nat} {c : Ref} (h : (kids n)[slot]? = some c) :
    ∃ cs, n.children = some cs ∧ cs[slot]? = some c := by
  unfold kids at h
  cases hc : n.children with
  | none => rw [hc] at h; simp at h
  | some cs => rw [hc] at h; exact ⟨cs, rfl, h⟩

theorem slot_of {n : Node} (hn : Pivot.Good n) {slot : Nat} {c : Ref} (h : (kids n)[slot]? = some c) :
    ∃ lo hi e b, Slot n slot lo hi e b := by
  obtain ⟨cs, h1, h2⟩ := kids_some h
  exact hn.slot (by rw [← hn.children cs h1]; exact lt_of_getElem? h2)

/-- The code's flush is one of those of the specification. -/
theorem flush_is {parent child : Node} (hp : Pivot.Good parent) (hc : Pivot.Good child) {slot : Nat}
    {lo hi : Elem} {e : Option Key} {b : Bucket}
    (hs : Slot parent slot lo hi e b) (hr : InChildRange parent child slot) (p c c' : Ref) :
    ∃ fl : Key → Bool,
      (Flush.mk p parent c child c' slot fl).newchild = { restrictChild parent child slot with
        buckets := (partialFlush (parent.buckets[slot]?.getD []) (restrictChild parent child slot).pivots
          (restrictChild parent child slot).buckets).1 } ∧
      (Flush.mk p parent c child c' slot fl).newparent = ⟨parent.pivots, parent.edges.set slot none,
        parent.children.map (·.set slot c'), parent.buckets.set slot
          (partialFlush (parent.buckets[slot]?.getD []) (restrictChild parent child slot).pivots
          (restrictChild parent child slot).buckets).2⟩ := by
  obtain ⟨g, hlo, hhi, _, _, _⟩ := restrictChild_spec hp hc hs hr
  have hok := hp.slots _ _ _ _ _ hs
  rw [hs.b]
  simp only [Option.getD_some]
  obtain ⟨n, e1, e2⟩ := partialFlush_spec (top := b) g.sorted g.buckets hok.sorted
    (fun x hx => ⟨lo, hi, hlo, hhi, (hok.keys x hx).1, (hok.keys x hx).2⟩)
  obtain ⟨t1, t2⟩ := filter_take hok.sorted n
  refine ⟨fun k => (b.take n).any (fun y => y.1 == k), ?_, ?_⟩
  · unfold Flush.newchild Flush.cut Flush.bucket
    dsimp only
    rw [hs.b, e2]
    simp only [Option.getD_some]
    congr 2
    funext i d
    congr 1
    have : b.filter (fun x => (b.take n).any (fun y => y.1 == x.1) &&
        route (restrictChild parent child slot).pivots x.1 == i) =
      (b.filter (fun x => (b.take n).any (fun y => y.1 == x.1))).filter
        (fun x => route (restrictChild parent child slot).pivots x.1 == i) := by
      rw [List.filter_filter]
      congr 1
      funext x
      exact Bool.and_comm _ _
    rw [this, t1]
  · unfold Flush.newparent Flush.bucket
    dsimp only
    rw [hs.b, e1]
    simp only [Option.getD_some]
    rw [t2]

theorem flush_good {s : S} (h : Inv kids s) (hS : Sound s) (hsz : s.size ≤ maxCacheSize - 1) (p : Ref)
    (slot : Nat) : BlockImpl.Good app kids s (flush s p slot) := by
  unfold flush
  split
  case h_2 => exact noop_good h
  rename_i parent hpar
  split
  case h_2 => exact noop_good h
  rename_i c hslot
  split
  case h_2 => exact noop_good h
  rename_i child hch
  split
  · exact noop_good h
  rename_i hf
  split
  case isFalse => exact noop_good h
  rename_i hchk
  have hr : InChildRange parent child slot := by
    rw [Bool.and_eq_true] at hchk
    exact (inRangeB_iff _ _ _).mp hchk.1
  dsimp only
  split
  case isFalse => exact noop_good h
  split
  case h_2 => exact noop_good h
  rename_i c' hfree
  have gp := hS _ _ hpar
  have gc := hS _ _ hch
  obtain ⟨lo, hi, e, b, hs⟩ := slot_of gp hslot
  obtain ⟨fl, e1, e2⟩ := flush_is gp gc hs hr p c c'
  rw [← e1, ← e2]
  have hv : (Flush.mk p parent c child c' slot fl).Valid :=
    ⟨gp.inv.wf, gc.inv.wf, hs.bound, kids_some hslot, hr⟩
  refine alloc_write_good h hsz hpar (by simpa using hf) hfree (.flush hv) ?_ ?_ ?_
  · intro x n hx
    rcases List.mem_cons.mp hx with k | k
    · cases k; exact hpar
    · rw [List.mem_singleton] at k; cases k; exact hch
  · intro x hx
    obtain ⟨_, _, _, _, hsub⟩ := flush_child (f := ⟨p, parent, c, child, c', slot, fl⟩) gp gc hs hr
    exact closed h hch ((kids_iff _ _).mpr (hsub x ((kids_iff _ _).mp hx)))
  · intro x hx
    obtain ⟨cs, hcs, hx⟩ := (kids_iff _ _).mp hx
    have hcs' : parent.children.map (·.set slot c') = some cs := hcs
    obtain ⟨ds, hd, rfl⟩ := Option.map_eq_some_iff.mp hcs'
    rcases List.mem_or_eq_of_mem_set hx with k | k
    · exact .inr (closed h hpar ((kids_iff _ _).mpr ⟨ds, hd, k⟩))
    · exact .inl k

theorem split_good {s : S} (h : Inv kids s) (hS : Sound s) (hsz : s.size ≤ maxCacheSize - 2) (p : Ref)
    (slot : Nat) : BlockImpl.Good app kids s (split s p slot) := by
  unfold split
  split
  case h_2 => exact noop_good h
  rename_i parent hpar
  split
  case h_2 => exact noop_good h
  rename_i c hslot
  split
  case h_2 => exact noop_good h
  rename_i child hch
  split
  · exact noop_good h
  rename_i hf
  split
  case isFalse => exact noop_good h
  rename_i hchk
  have hr : InChildRange parent child slot := by
    rw [Bool.and_eq_true] at hchk
    exact (inRangeB_iff _ _ _).mp hchk.1
  dsimp only
  split
  · exact noop_good h
  rename_i hlen
  split
  case h_2 => exact noop_good h
  rename_i l hl
  split
  case h_2 => exact noop_good h
  rename_i r hr2
  split
  case h_2 => exact noop_good h
  rename_i pivot lo hi hpiv hlo hhi
  split
  case isFalse => exact noop_good h
  rename_i hcond
  have gp := hS _ _ hpar
  have gc := hS _ _ hch
  obtain ⟨lo', hi', e, b, hs⟩ := slot_of gp hslot
  obtain ⟨g, _, _, _, _, hsub⟩ := restrictChild_spec gp gc hs hr
  have htwo := g.two
  have hbk := g.buckets
  have hv : ValidSplit parent child c slot ((restrictChild parent child slot).buckets.length / 2) pivot :=
    ⟨gp.inv.wf, gc.inv.wf, hs.bound, ⟨lo, hi, hlo, hhi, hcond.1, hcond.2.1⟩, kids_some hslot, hr, by omega,
      by omega, hpiv⟩
  obtain ⟨_, _, _, _, hsl⟩ := splitLeft_spec g hv.one hv.inNum hpiv
  obtain ⟨_, _, _, _, hsr⟩ := splitRight_spec g hv.inNum hpiv
  generalize hnum : (restrictChild parent child slot).buckets.length / 2 = num at *
  generalize hln : (restrictChild parent child slot).splitLeft num = ln at *
  generalize hrn : (restrictChild parent child slot).splitRight num = rn at *
  obtain ⟨l1, l2, _⟩ := freeRef_some h hl
  obtain ⟨r1, r2, r3⟩ := freeRef_some h hr2
  have hrl : r ≠ l := fun e => r3 (by rw [e])
  have hpl : p ≠ l := fun e => by rw [e, l1] at hpar; cases hpar
  have hpr : p ≠ r := fun e => by rw [e, r1] at hpar; cases hpar
  have kl : ∀ x ∈ kids ln, s.eph.view.graph x ≠ none := fun x hx =>
    closed h hch ((kids_iff _ _).mpr (hsub x (hsl x ((kids_iff _ _).mp hx))))
  have kr : ∀ x ∈ kids rn, s.eph.view.graph x ≠ none := fun x hx =>
    closed h hch ((kids_iff _ _).mpr (hsub x (hsr x ((kids_iff _ _).mp hx))))
  have hmax : maxCacheSize = 100 := rfl
  obtain ⟨a1, a2⟩ := alloc_step kids_iff h l1 l2 kl (by omega)
  have kr' : ∀ x ∈ kids rn, (s.write kids l ln).eph.view.graph x ≠ none := fun x hx =>
    write_keeps h kl (.inr (kr x hx))
  obtain ⟨b1, b2⟩ := alloc_step kids_iff a2 (ref := r) (n := rn) (by rw [write_get_other s ln hrl]; exact r1)
    (by rw [write_graph h kl, PMap.insert_other _ _ hrl]; exact r2) kr'
    (by rw [write_new_size s ln l1]; omega)
  obtain ⟨d1, d2⟩ := write_step kids_iff b2 (ref := p) (n := parent.splitParent pivot slot l r)
    (by rw [write_get_other _ rn hpr, write_get_other _ ln hpl, hpar]; simp)
    (by rw [write_frozenEmpty, write_frozenEmpty]; simpa using hf)
    (fun x hx => by
      obtain ⟨cs, hcs, hx⟩ := (kids_iff _ _).mp hx
      have hcs' : parent.children.map (fun cs => replace1with2 cs l r slot) = some cs := hcs
      obtain ⟨ds, hd, rfl⟩ := Option.map_eq_some_iff.mp hcs'
      have hx' : x ∈ ds.take slot ∨ x = l ∨ x = r ∨ x ∈ ds.drop (slot + 1) := by
        simpa [replace1with2] using hx
      have old : x ∈ ds → s.eph.view.graph x ≠ none := fun k =>
        closed h hpar ((kids_iff _ _).mpr ⟨ds, hd, k⟩)
      rcases hx' with k | k | k | k
      · exact write_keeps a2 kr' (.inr (write_keeps h kl (.inr (old (List.mem_of_mem_take k)))))
      · exact write_keeps a2 kr' (.inr (write_keeps h kl (.inl k)))
      · exact write_keeps a2 kr' (.inl k)
      · exact write_keeps a2 kr' (.inr (write_keeps h kl (.inr (old (List.mem_of_mem_drop k))))))
  rw [← hln, ← hrn] at *
  refine txn_good h (.split (parentref := p) hv) ?_ (.cons a1 (.cons b1 (.cons d1 .nil))) d2
  intro x n hx
  rcases List.mem_cons.mp hx with k | k
  · cases k; exact hpar
  · rw [List.mem_singleton] at k; cases k; exact hch

theorem middleKey_ne (b : Bucket) : middleKey b ≠ [] := by
  unfold middleKey
  split
  · split
    · simp
    · assumption
  · simp

theorem repivot_good {s : S} (h : Inv kids s) (hS : Sound s) {ref : Ref}
    (hl : ∀ n, s.cache.get ref = some n → n.children = none ∧ n.buckets.length = 1) :
    BlockImpl.Good app kids s (repivot s ref) := by
  unfold repivot
  split
  case h_2 => exact noop_good h
  rename_i leaf hleaf
  split
  · exact noop_good h
  rename_i hf
  split
  case h_2 => exact noop_good h
  rename_i hedge
  dsimp only
  obtain ⟨h1, h2⟩ := hl leaf hleaf
  have hv : ValidRepivot leaf (middleKey (leaf.buckets[0]?.getD [])) :=
    ⟨(hS _ _ hleaf).inv.wf, h2, middleKey_ne _, hedge, h1⟩
  obtain ⟨a1, a2⟩ := write_step kids_iff h (ref := ref) (n := leaf.repivot (middleKey (leaf.buckets[0]?.getD [])))
    (by rw [hleaf]; simp) (by simpa using hf) (fun x hx => by cases hx)
  refine txn_good h (.repivot hv) ?_ (.cons a1 .nil) a2
  intro x n hx
  rw [List.mem_singleton] at hx; cases hx; exact hleaf

/-! ### The flush policy -/

theorem Inv.use {s : S} (h : Inv kids s) {ref : Ref} (hc : s.cache.get ref ≠ none) :
    Inv kids ({ s with lru := lruUse s.lru ref } : S) :=
  ⟨h.eph, h.ephQueue, h.frozen, h.blocks, h.wNodup, h.rNodup, h.cNodup, lruUse_nodup h.lruNodup _,
    (fun r => by
      show r ∈ lruUse s.lru ref ↔ _
      rw [lruUse_mem, h.lruMem]
      constructor
      · rintro (k | k)
        · rw [k]; exact hc
        · exact k
      · exact .inr),
    h.size, h.kids, h.dirty, h.dirtyF, h.tw, h.fl, h.pLoc, h.fLoc⟩

/-- What the policy must see to, for its action to be possible. -/
def ActOk (s : S) : Action → Prop
  | .pageIn ref => s.cache.get ref = none ∧ s.size ≤ maxCacheSize - 1
  | .split _ _ => s.size ≤ maxCacheSize - 2
  | .repivot ref => ∀ n, s.cache.get ref = some n → n.children = none ∧ n.buckets.length = 1
  | .flush _ _ => s.size ≤ maxCacheSize - 1
  | .grow => s.size ≤ maxCacheSize - 1
  | .evict => True
  | .fail => True

theorem toSplit_ok {s : S} (hS : Sound s) (cur : Ref) (path : List (Ref × Nat))
    (hcur : ∀ n, s.cache.get cur = some n → n.children = none ∨ n.buckets.length ≠ 1) :
    ActOk s (toSplit s cur path) := by
  induction path generalizing cur with
  | nil => unfold toSplit; split <;> first | assumption | trivial
  | cons x rest ih =>
    obtain ⟨p, slot⟩ := x
    unfold toSplit
    split
    case h_2 => trivial
    rename_i pn n hp hn
    split
    · split
      · rename_i h1
        intro n' hn'
        rw [hn] at hn'; cases hn'
        exact ⟨(hcur n hn).resolve_right (fun k => k h1), h1⟩
      · split <;> first | assumption | trivial
    · rename_i hlen
      refine ih p (fun n' hn' => ?_)
      rw [hp] at hn'; cases hn'
      cases hch : pn.children with
      | none => exact .inl rfl
      | some cs =>
        right
        have := (hS _ _ hp).children cs hch
        have hk : kids pn = cs := by unfold kids; rw [hch]; rfl
        rw [hk] at hlen
        have h8 : maxChildren = 8 := rfl
        omega

theorem toFlush_ok (fuel : Nat) : ∀ (s : S) (cur : Ref) (path : List (Ref × Nat)), Inv kids s → Sound s →
    Inv kids (toFlush fuel s cur path).1 ∧ (toFlush fuel s cur path).1.view = s.view ∧
      (toFlush fuel s cur path).1.cache = s.cache ∧
      ActOk (toFlush fuel s cur path).1 (toFlush fuel s cur path).2 := by
  induction fuel with
  | zero => intro s cur path h _; exact ⟨h, rfl, rfl, trivial⟩
  | succ fuel ih =>
    intro s cur path h hS
    unfold toFlush
    split
    case h_2 => exact ⟨h, rfl, rfl, trivial⟩
    rename_i n hn
    split
    · rename_i hch
      refine ⟨h, rfl, rfl, toSplit_ok hS _ _ (fun n' hn' => ?_)⟩
      rw [hn] at hn'; cases hn'; exact .inl hch
    · rename_i cs hch
      split
      · rename_i h8
        refine ⟨h, rfl, rfl, toSplit_ok hS _ _ (fun n' hn' => ?_)⟩
        rw [hn] at hn'; cases hn'
        right; rw [h8]; decide
      · dsimp only
        split
        case h_2 => exact ⟨h, rfl, rfl, trivial⟩
        rename_i c hc
        split
        · rename_i child hchild
          have hi := Inv.use h (ref := c) (by rw [hchild]; simp)
          split
          · refine ⟨hi, rfl, rfl, ?_⟩
            dsimp only
            split <;> first | assumption | trivial
          · obtain ⟨i1, i2, i3, i4⟩ := ih { s with lru := lruUse s.lru c } c
              ((cur, biggestSlot n.buckets) :: path) hi hS
            exact ⟨i1, i2, i3, i4⟩
        · rename_i hnone
          refine ⟨h, rfl, rfl, ?_⟩
          dsimp only
          split
          · rename_i hsz; exact ⟨hnone, hsz⟩
          · trivial

theorem runFlushPolicy_good {s : S} (h : Inv kids s) (hS : Sound s) {io : Env Node} (hio : EnvOk io)
    (hroot : s.cache.get rootRef ≠ none) : BlockImpl.Good app kids s (runFlushPolicy s io) := by
  unfold runFlushPolicy
  obtain ⟨i1, i2, i3, i4⟩ := toFlush_ok 39 { s with lru := lruUse s.lru rootRef } rootRef []
    (Inv.use h hroot) hS
  generalize toFlush 39 { s with lru := lruUse s.lru rootRef } rootRef [] = a at *
  have hv : a.1.view = s.view := i2
  have hS' : Sound a.1 := fun r n hn => hS r n (by rw [← i3]; exact hn)
  refine Good.of_view ?_ hv
  dsimp only
  split
  · rename_i ref e; rw [e] at i4; exact pageInReq_good i1 i4.1 i4.2
  · rename_i p slot e; rw [e] at i4; exact split_good i1 hS' i4 p slot
  · rename_i ref e; rw [e] at i4; exact repivot_good i1 hS' i4
  · rename_i p slot e; rw [e] at i4; exact flush_good i1 hS' i4 p slot
  · rename_i e; rw [e] at i4; exact grow_good i1 hS' i4
  · exact evictOrDealloc_good i1 hio
  · exact noop_good i1

/-! ### Insertions and clones -/

theorem insert_good {s : S} (h : Inv kids s) (hS : Sound s) {io : Env Node} (hio : EnvOk io) (k : Key)
    (v : Value) (replay : Bool) : BlockImpl.Good app kids s (insert s io k v replay) := by
  unfold insert
  split
  case isFalse => exact noop_good h
  split
  · rename_i hc
    split
    · rename_i hsz; exact pageInReq_good h hc hsz
    · exact noop_good h
  · rename_i old hold
    split
    case isFalse => exact noop_good h
    rename_i hb
    split
    · split
      · exact noop_good h
      · rename_i hf
        obtain ⟨a1, a2⟩ := writeSame_step kids_iff h (n := old.add k (.define v)) hold (by simpa using hf) rfl
        refine txn_good h (.insert (hS _ _ hold).inv.wf ((boundedB_iff _ _).mp hb)) ?_ (.cons a1 .nil) a2
        intro x n hx
        rw [List.mem_singleton] at hx; cases hx; exact hold
    · exact runFlushPolicy_good h hS hio (by rw [hold]; simp)

theorem cloneRoot_succs {n : Node} (hn : Pivot.Good n) (hall : ContainsAll n.pivots) {src dst : Key}
    (hd : dst ≠ []) {x : Ref} (hx : x ∈ kids (n.cloneRoot src dst)) : x ∈ kids n := by
  obtain ⟨_, _, _, _, _, hsub⟩ := cloned_spec (src := src) hn hall hd
  have k1 : x ∈ (n.keepLeft dst).children.getD [] → x ∈ kids n := by
    unfold kids Node.keepLeft
    dsimp only
    cases n.children with
    | none => exact id
    | some cs => exact fun k => List.mem_of_mem_take k
  have k2 : x ∈ (n.cloned src dst).children.getD [] → x ∈ kids n := fun k =>
    (kids_iff _ _).mpr (hsub x ((kids_iff _ _).mp k))
  have k3 : ∀ e, x ∈ (n.keepRight e).children.getD [] → x ∈ kids n := fun e => by
    unfold kids Node.keepRight
    dsimp only
    cases n.children with
    | none => exact id
    | some cs => exact fun k => List.mem_of_mem_drop k
  have hx' : x ∈ (n.cloneRoot src dst).children.getD [] := hx
  unfold Node.cloneRoot at hx'
  dsimp only at hx'
  split at hx'
  · rcases List.mem_append.mp hx' with k | k
    · exact k1 k
    · exact k2 k
  · rcases List.mem_append.mp hx' with k | k
    · rcases List.mem_append.mp k with k | k
      · exact k1 k
      · exact k2 k
    · exact k3 _ k

theorem clone_good {s : S} (h : Inv kids s) (hS : Sound s) (io : Env Node) (src dst : Key) (replay : Bool) :
    BlockImpl.Good app kids s (clone s io src dst replay) := by
  unfold clone
  split
  case isFalse => exact noop_good h
  split
  · rename_i hc
    split
    · rename_i hsz; exact pageInReq_good h hc hsz
    · exact noop_good h
  · rename_i old hold
    split
    · exact noop_good h
    rename_i hf
    split
    case isFalse => exact noop_good h
    rename_i hchk
    simp only [Bool.and_eq_true, decide_eq_true_eq] at hchk
    obtain ⟨⟨⟨⟨c1, c2⟩, c3⟩, c4⟩, _⟩ := hchk
    have hall := (containsAllB_iff _).mp c3
    have hv : ValidClone old src dst := ⟨(hS _ _ hold).inv.wf, hall,
      (by intro e; rw [e] at c2; cases c2), c1, (noKeyB_iff _ _).mp c4⟩
    obtain ⟨a1, a2⟩ := write_step kids_iff h (ref := rootRef) (n := old.cloneRoot src dst)
      (by rw [hold]; simp) (by simpa using hf)
      (fun x hx => closed h hold (cloneRoot_succs (hS _ _ hold) hall c1 hx))
    refine txn_good h (.clone hv) ?_ (.cons a1 .nil) a2
    intro x n hx
    rw [List.mem_singleton] at hx; cases hx; exact hold

/-! ### Queries -/

/-- The layers seen so far lead to a reference and a key. -/
structure Path (s : S) (q : Key) (l : List Layer) (ref : Ref) (key : Key) : Prop where
  cached : ∀ x ∈ l, s.cache.get x.ref = some x.node
  bounded : ∀ x ∈ l, Bounded x.node.pivots x.key
  follows : Follows l
  first : l = [] → ref = rootRef ∧ key = q
  head : ∀ x xs, l = x :: xs → x.ref = rootRef ∧ x.key = q
  last : ∀ x, l.getLast? = some x → (∃ cs, x.node.children = some cs ∧
    cs[route x.node.pivots x.key]? = some ref) ∧ translateKey x.node.pivots x.node.edges x.key = key

theorem Path.start (s : S) (q : Key) : Path s q [] rootRef q :=
  ⟨(fun _ h => nomatch h), (fun _ h => nomatch h), (fun i h => absurd h (by simp)), (fun _ => ⟨rfl, rfl⟩),
    (fun _ _ h => nomatch h), (fun _ h => nomatch h)⟩

theorem Path.snoc {s : S} (hS : Sound s) {q key : Key} {l : List Layer} {ref : Ref} (h : Path s q l ref key)
    {n : Node} (hn : s.cache.get ref = some n) (hb : Bounded n.pivots key) :
    WFLookup (l ++ [⟨ref, n, key⟩]) q ∧ (∀ x ∈ l ++ [⟨ref, n, key⟩], s.cache.get x.ref = some x.node) ∧
    ∀ cs c, n.children = some cs → cs[route n.pivots key]? = some c →
      Path s q (l ++ [⟨ref, n, key⟩]) c (translateKey n.pivots n.edges key) := by
  have hcache : ∀ x ∈ l ++ [(⟨ref, n, key⟩ : Layer)], s.cache.get x.ref = some x.node := fun x hx => by
    rcases List.mem_append.mp hx with k | k
    · exact h.cached x k
    · rw [List.mem_singleton] at k; subst k; exact hn
  have hbd : ∀ x ∈ l ++ [(⟨ref, n, key⟩ : Layer)], Bounded x.node.pivots x.key := fun x hx => by
    rcases List.mem_append.mp hx with k | k
    · exact h.bounded x k
    · rw [List.mem_singleton] at k; subst k; exact hb
  have hfol : Follows (l ++ [(⟨ref, n, key⟩ : Layer)]) := by
    intro i hi
    rw [List.length_append, List.length_singleton] at hi
    by_cases hlt : i + 1 < l.length
    · rw [List.getElem_append_left (by omega), List.getElem_append_left hlt]
      exact h.follows i hlt
    · have hi' : i + 1 = l.length := by omega
      rw [List.getElem_append_left (by omega), List.getElem_append_right (by omega)]
      have := h.last (l[i]'(by omega)) (by
        rw [List.getLast?_eq_getElem?, show l.length - 1 = i by omega, List.getElem?_eq_getElem])
      simpa [hi'] using this
  have hhead : ∃ x xs, l ++ [(⟨ref, n, key⟩ : Layer)] = x :: xs ∧ x.ref = rootRef ∧ x.key = q := by
    cases l with
    | nil => exact ⟨_, _, rfl, (h.first rfl).1, (h.first rfl).2⟩
    | cons x xs => exact ⟨x, xs ++ [⟨ref, n, key⟩], rfl, h.head x xs rfl⟩
  refine ⟨⟨hhead, fun x hx => (hS _ _ (hcache x hx)).inv.wf, hbd, hfol⟩, hcache, ?_⟩
  intro cs c hcs hc
  refine ⟨hcache, hbd, hfol, fun e => absurd e (by simp), ?_, ?_⟩
  · intro x xs e
    obtain ⟨y, ys, e', h1, h2⟩ := hhead
    rw [e'] at e; cases e; exact ⟨h1, h2⟩
  · intro x hx
    rw [List.getLast?_append] at hx
    simp at hx
    subst hx
    exact ⟨⟨cs, hcs, hc⟩, rfl⟩

theorem reads_cached {s : S} {l : List Layer} (h : ∀ x ∈ l, s.cache.get x.ref = some x.node) :
    ∀ x n, (x, n) ∈ lookupReads l → s.cache.get x = some n := by
  intro x n hx
  obtain ⟨y, hy, e⟩ := List.mem_map.mp hx
  cases e
  exact h y hy

theorem Path.of_cache {s s' : S} (hc : s'.cache = s.cache) {q key : Key} {l : List Layer} {ref : Ref}
    (h : Path s q l ref key) : Path s' q l ref key :=
  ⟨fun x hx => by rw [hc]; exact h.cached x hx, h.bounded, h.follows, h.first, h.head, h.last⟩

theorem interpret_snoc (l : List Layer) (x : Layer) :
    interpret (l ++ [x]) = (interpret l).merge ((x.node.bucketAt x.key).get x.key) := by
  unfold interpret; rw [List.foldl_append]; rfl

theorem queryFrom_good {io : Env Node} (hio : EnvOk io) (q : Key) (fuel : Nat) :
    ∀ (s : S) (key : Key) (msg : Message) (ref : Ref) (l : List Layer), Inv kids s → Sound s →
      Path s q l ref key → interpret l = msg → BlockImpl.Good app kids s (queryFrom io q fuel s key msg ref l) := by
  induction fuel with
  | zero => intro s key msg ref l h _ _ _; exact noop_good h
  | succ fuel ih =>
    intro s key msg ref l h hS hp hm
    unfold queryFrom
    split
    · rename_i hc; exact pageInOrMakeRoom_good h hio hc
    rename_i n hn
    split
    case isFalse => exact noop_good h
    rename_i hb
    obtain ⟨p1, p2, p3⟩ := hp.snoc hS hn ((boundedB_iff _ _).mp hb)
    have hi := Inv.use h (ref := ref) (by rw [hn]; simp)
    have hint : interpret (l ++ [⟨ref, n, key⟩]) = msg.merge ((n.bucketAt key).get key) := by
      rw [interpret_snoc, hm]
    have hlast : (l ++ [(⟨ref, n, key⟩ : Layer)]).getLast? = some ⟨ref, n, key⟩ := by simp
    dsimp only
    split
    · rename_i v hv
      rw [hv] at hint
      refine txn_good (s' := ({ s with lru := lruUse s.lru ref } : S)) h (.query p1 (fun _ => ?_))
        (reads_cached p2) .nil hi
      unfold interpretLeaf
      rw [hlast, hint]
      dsimp only
      split <;> rfl
    · rename_i hv
      rw [hv] at hint
      split
      · rename_i cs hcs
        split
        · rename_i c hc
          exact ih { s with lru := lruUse s.lru ref } _ _ c _ hi hS (Path.of_cache (s := s) (s' := ({ s with lru := lruUse s.lru ref } : S)) rfl (p3 cs c hcs hc)) (hint.trans hv.symm)
        · exact noop_good (s := ({ s with lru := lruUse s.lru ref } : S)) hi
      · rename_i hcs
        refine txn_good (s' := ({ s with lru := lruUse s.lru ref } : S)) h (.query p1 (fun _ => ?_))
          (reads_cached p2) .nil hi
        unfold interpretLeaf
        rw [hlast, hint]
        dsimp only
        rw [if_pos hcs]; rfl

theorem query_good {s : S} (h : Inv kids s) (hS : Sound s) {io : Env Node} (hio : EnvOk io) (k : Key) :
    BlockImpl.Good app kids s (query s io k) :=
  queryFrom_good hio k 40 s k .update rootRef [] h hS (Path.start s k) rfl

end Verif.Kv.TreeImpl
