import Verif.Kv.PivotMap
/-
Lengths in the pivot betree: if every put has a key and a value of at most `L` bytes and every clone has two
prefixes of the same length, then along every edge keys keep their length, and all keys and values in
buffers have at most `L` bytes. No code is modelled here.
-/
namespace Verif.Kv.Pivot
open Betree (Message)
open BlockCache (Ops)
open BlockSystem (GStep)

/-- Every key is passed on with the same length, and only short keys have messages, with short values. -/
def Fit (L : Nat) (n : Node) : Prop := ∀ k x, view n k = some x → x.key.length = k.length ∧
  ∀ v, x.msg = .define v → k.length ≤ L ∧ v.length ≤ L

/-- What is asked of a client. -/
def ShortOp (L : Nat) : UIOp → Prop
  | .put k v => k.length ≤ L ∧ v.length ≤ L
  | .clone src dst => src.length = dst.length ∧ dst.length ≤ L
  | _ => True

variable {L : Nat}

theorem merge_some {a b : Message} {v : Value} (h : a.merge b = .define v) :
    a = .define v ∨ b = .define v := by
  cases a with
  | define w => exact .inl h
  | update => exact .inr (by cases b <;> exact h)

theorem Fit.tr {n : Node} (h : Fit L n) (hg : Good n) {i lo hi e b} (hs : Slot n i lo hi e b) {k : Key}
    (h1 : lo ≤ .key k) (h2 : .key k < hi) : (tr lo hi e k).length = k.length :=
  (h k _ (view_slot hg.toShape hs h1 h2)).1

theorem Fit.msg {n : Node} (h : Fit L n) (hg : Good n) {i lo hi e b} (hs : Slot n i lo hi e b) {k : Key}
    (h1 : lo ≤ .key k) (h2 : .key k < hi) {v : Value} (hv : b.get k = .define v) : k.length ≤ L ∧ v.length ≤ L :=
  (h k _ (view_slot hg.toShape hs h1 h2)).2 v hv

/-- A node made from others by looking keys up elsewhere. -/
theorem fit_of {n : Node} (h : ∀ k x, view n k = some x → ∃ m k' y, Fit L m ∧ view m k' = some y ∧
    k'.length = k.length ∧ y.key = x.key ∧ (x.msg = y.msg ∨ x.msg = .update)) : Fit L n := by
  intro k x hx
  obtain ⟨m, k', y, h1, h2, h3, h4, h5⟩ := h k x hx
  obtain ⟨a, b⟩ := h1 k' y h2
  refine ⟨by rw [← h4, a, h3], fun v hv => ?_⟩
  rcases h5 with e | e
  · rw [← h3]; exact b v (e ▸ hv)
  · rw [e] at hv; cases hv

theorem empty_fit : Fit L emptyNode := by
  intro k x h
  rw [empty_view] at h; cases h
  exact ⟨rfl, fun v h => nomatch h⟩

theorem grow_view (c : Ref) (k : Key) : view (grownRoot c) k = some ⟨k, some c, .update⟩ := by
  have hs : Slot (grownRoot c) 0 (.key []) .top none [] := ⟨rfl, rfl, rfl, rfl⟩
  rw [view_slot (grow_good c).toShape hs (Elem.nil_le k) (Elem.key_lt_top k)]
  rfl

theorem grow_fit (c : Ref) : Fit L (grownRoot c) := by
  intro k x h
  rw [grow_view] at h; cases h
  exact ⟨rfl, fun v h => nomatch h⟩

theorem add_fit {n : Node} (hg : Good n) (hf : Fit L n) {k : Key} (hb : Bounded n.pivots k) {v : Value}
    (h1 : k.length ≤ L) (h2 : v.length ≤ L) : Fit L (n.add k (.define v)) := by
  obtain ⟨_, _, ⟨y, a1, a2⟩, a3⟩ := add_spec hg hb v
  intro k' x hx
  by_cases e : k' = k
  · subst e
    rw [a2] at hx; cases hx
    exact ⟨(hf _ _ a1).1, fun w hw => by cases hw; exact ⟨h1, h2⟩⟩
  · rw [a3 _ e] at hx; exact hf _ _ hx

theorem restrict_fit {parent child : Node} (hp : Good parent) (hc : Good child) (fp : Fit L parent)
    (fc : Fit L child) {i : Nat} (hi : i < parent.buckets.length) (hr : InChildRange parent child i) :
    Fit L (restrictChild parent child i) := by
  obtain ⟨lo, hi, e, b, hs⟩ := hp.slot hi
  obtain ⟨a1, a2, a3, a4, _, _⟩ := restrictChild_spec hp hc hs hr
  refine fit_of (fun k x hx => ?_)
  by_cases hk : lo ≤ .key k ∧ .key k < hi
  · rw [a4 k hk.1 hk.2] at hx
    exact ⟨child, _, x, fc, hx, fp.tr hp hs hk.1 hk.2, rfl, .inl rfl⟩
  · rw [view_out a2 a3 hk] at hx; cases hx

theorem flush_fit {f : Flush} (hv : f.Valid) (hp : Good f.parent) (hc : Good f.child) (fp : Fit L f.parent)
    (fc : Fit L f.child) : Fit L f.newchild ∧ Fit L f.newparent := by
  obtain ⟨lo, hi, e, b, hs⟩ := hp.slot hv.inSlot
  obtain ⟨_, c2⟩ := childAt_of hv.isChild
  obtain ⟨_, _, a3, a4, _⟩ := flush_child hp hc hs hv.range
  obtain ⟨_, _, b3, b4⟩ := flush_parent hp hs c2
  constructor
  · intro k x hx
    by_cases hk : lo ≤ .key k ∧ .key k < hi
    · obtain ⟨y, h1, h2⟩ := a4 k hk.1 hk.2
      rw [h2] at hx; cases hx
      obtain ⟨y1, y2⟩ := fc _ _ h1
      have ht := fp.tr hp hs hk.1 hk.2
      refine ⟨by rw [← ht]; exact y1, fun v hm => ?_⟩
      rcases merge_some hm with h | h
      · split at h
        · exact fp.msg hp hs hk.1 hk.2 h
        · cases h
      · rw [← ht]; exact y2 v h
    · rw [a3 k hk] at hx; cases hx
  · intro k x hx
    by_cases hk : lo ≤ .key k ∧ .key k < hi
    · rw [b3 k hk.1 hk.2] at hx; cases hx
      refine ⟨rfl, fun v hm => ?_⟩
      dsimp only at hm
      split at hm
      · cases hm
      · exact fp.msg hp hs hk.1 hk.2 hm
    · rw [b4 k hk] at hx; exact fp _ _ hx

theorem split_fit {parent child : Node} {childref : Ref} {slot num : Nat} {pivot : Key} {l r : Ref}
    (hv : ValidSplit parent child childref slot num pivot) (hp : Good parent) (hc : Good child)
    (fp : Fit L parent) (fc : Fit L child) :
    Fit L ((restrictChild parent child slot).splitLeft num) ∧
      Fit L ((restrictChild parent child slot).splitRight num) ∧
      Fit L (parent.splitParent pivot slot l r) := by
  obtain ⟨lo, hi, e, b, hs⟩ := hp.slot hv.inSlot
  obtain ⟨c1, c2⟩ := childAt_of hv.isChild
  obtain ⟨a1, _⟩ := restrictChild_spec hp hc hs hv.range
  obtain ⟨_, l2, l3, _⟩ := splitLeft_spec a1 hv.one hv.inNum hv.isPivot
  obtain ⟨_, r2, r3, _⟩ := splitRight_spec a1 hv.inNum hv.isPivot
  obtain ⟨lo', hi', q1, q2, q3, q4⟩ := hv.insertable
  have e1 := q1.symm.trans hs.lo
  have e2 := q2.symm.trans hs.hi
  simp only [Option.some.injEq] at e1 e2
  subst e1; subst e2
  obtain ⟨_, _, p3, p4, p5⟩ := splitParent_spec (l := l) (r := r) hp hs q3 q4 c2
  have fr := restrict_fit hp hc fp fc hv.inSlot hv.range
  refine ⟨fun k x hx => ?_, fun k x hx => ?_, fun k x hx => ?_⟩
  · by_cases h : Elem.key k < .key pivot
    · rw [l2 k h] at hx; exact fr _ _ hx
    · rw [l3 k (not_lt.mp h)] at hx; cases hx
  · by_cases h : Elem.key k < .key pivot
    · rw [r3 k h] at hx; cases hx
    · rw [r2 k (not_lt.mp h)] at hx; exact fr _ _ hx
  · by_cases hk : lo' ≤ .key k ∧ .key k < hi'
    · by_cases h : Elem.key k < .key pivot
      · rw [p3 k hk.1 h] at hx; cases hx
        exact ⟨rfl, fun v hm => fp.msg hp hs hk.1 hk.2 hm⟩
      · rw [p4 k (not_lt.mp h) hk.2] at hx; cases hx
        exact ⟨rfl, fun v hm => fp.msg hp hs hk.1 hk.2 hm⟩
    · rw [p5 k hk] at hx; exact fp _ _ hx

theorem merge_fit {parent left right : Node} {leftref rightref : Ref} {slot : Nat} {pivot : Key} {c : Ref}
    (hv : ValidMerge parent left right leftref rightref slot pivot) (hp : Good parent)
    (hl : Good left) (hr : Good right) (fp : Fit L parent) (fl : Fit L left) (fr : Fit L right) :
    Fit L (fusedChild (restrictChild parent left slot) (restrictChild parent right (slot + 1)) pivot) ∧
      Fit L (parent.fusedParent slot c) := by
  have hin : slot < parent.buckets.length := by have := hv.inSlot; omega
  obtain ⟨lo, mid, e1, b1, hs1⟩ := hp.slot hin
  obtain ⟨mid', hi, e2, b2, hs2⟩ := hp.slot hv.inSlot
  have em := hs2.lo.symm.trans hs1.hi
  have em' := hs1.hi.symm.trans hv.isPivot
  simp only [Option.some.injEq] at em em'
  subst em; subst em'
  obtain ⟨cs, hcs, hc1, hc2⟩ := hv.isChild
  obtain ⟨_, ca2⟩ := childAt_of ⟨cs, hcs, hc1⟩
  obtain ⟨l1, _, l3, _, l5, _⟩ := restrictChild_spec hp hl hs1 hv.rangeLeft
  obtain ⟨r1, r2, _, _, r5, _⟩ := restrictChild_spec hp hr hs2 hv.rangeRight
  obtain ⟨_, _, _, j4, j5, _⟩ := join_spec l1 r1 l3 r2 (l5.trans (hv.kind.trans r5.symm))
  rw [fusedChild_eq r2]
  obtain ⟨_, _, p3, p4⟩ := fusedParent_spec (c := c) hp hs1 hs2 ca2
  have f1 := restrict_fit hp hl fp fl hin hv.rangeLeft
  have f2 := restrict_fit hp hr fp fr hv.inSlot hv.rangeRight
  refine ⟨fun k x hx => ?_, fun k x hx => ?_⟩
  · by_cases h : Elem.key k < .key pivot
    · rw [j4 k h] at hx; exact f1 _ _ hx
    · rw [j5 k (not_lt.mp h)] at hx; exact f2 _ _ hx
  · by_cases hk : lo ≤ .key k ∧ .key k < hi
    · rw [p3 k hk.1 hk.2] at hx; cases hx
      refine ⟨rfl, fun v hm => ?_⟩
      dsimp only at hm
      split at hm
      · next h => exact fp.msg hp hs1 hk.1 h hm
      · next h => exact fp.msg hp hs2 (not_lt.mp h) hk.2 hm
    · rw [p4 k hk] at hx; exact fp _ _ hx

theorem repivot_fit {n : Node} (hg : Good n) (hf : Fit L n) {p : Key} (hv : ValidRepivot n p) :
    Fit L (n.repivot p) := by
  obtain ⟨h1, _, h3⟩ := repivot_spec hg hv
  intro k x hx
  obtain ⟨y, a1, _, a3⟩ := h3 k
  have := a1.symm.trans hx
  cases this
  refine ⟨?_, fun v hm => ?_⟩
  · rcases view_cases h1.toShape k with ⟨_, hn⟩ | ⟨i, lo, hi, e, b, hs, _, _, hw⟩
    · rw [hn] at a1; cases a1
    · rw [a1] at hw; cases hw
      have he := hs.e
      have : e = none := by
        unfold Node.repivot at he
        match i, he with
        | 0, he => cases he; rfl
        | 1, he => cases he; rfl
      subst this
      rfl
  · cases hq : view n k with
    | none => rw [a3, hq] at hm; cases hm
    | some z => rw [a3, hq] at hm; exact (hf k z hq).2 v hm

theorem clone_fit {n : Node} (hg : Good n) (hf : Fit L n) {src dst : Key} (hv : ValidClone n src dst)
    (hl : src.length = dst.length) : Fit L (n.cloneRoot src dst) := by
  obtain ⟨_, _, h3, h4⟩ := cloneRoot_spec hg hv
  refine fit_of (fun k x hx => ?_)
  by_cases hd : dst <+: k
  · obtain ⟨s, rfl⟩ := hd
    rw [h3] at hx
    obtain ⟨y, h5, rfl⟩ := Option.map_eq_some_iff.mp hx
    exact ⟨n, _, y, hf, h5, by simp [hl], rfl, .inr rfl⟩
  · rw [h4 k hd] at hx
    exact ⟨n, k, x, hf, hx, rfl, rfl, .inl rfl⟩

/-! ### Graphs -/

/-- The application with what is asked of its client. -/
def appFit (L : Nat) : App Node := ⟨Succs, WFNode, fun u reads ops => Valid u reads ops ∧ ShortOp L u⟩

def AllFit (L : Nat) (g : Graph Node) : Prop := ∀ r n, g r = some n → Fit L n

theorem AllFit.insert {g : Graph Node} (h : AllFit L g) {r : Ref} {n : Node} (hn : Fit L n) :
    AllFit L (PMap.insert g r n) := by
  intro x m hx
  by_cases e : x = r
  · subst e; rw [PMap.insert_same] at hx; cases hx; exact hn
  · rw [PMap.insert_other _ _ e] at hx; exact h x m hx

theorem ops_app {g g' : Graph Node} {ops : List (GOp Node)} (h : Ops (GStep (appFit L)) g ops g') :
    Ops (GStep app) g ops g' := by
  induction h with
  | nil => exact .nil
  | cons h1 _ ih =>
    refine .cons ?_ ih
    cases h1 with
    | alloc a b => exact .alloc a b
    | write a b => exact .write a b

theorem ops_fit {g g' : Graph Node} {ops : List (GOp Node)} (h : Ops (GStep app) g ops g')
    (hg : AllFit L g) (ho : ∀ op ∈ ops, Fit L (opNode op)) : AllFit L g' := by
  induction h with
  | nil => exact hg
  | cons h1 _ ih =>
    refine ih ?_ (fun op hop => ho op (List.mem_cons_of_mem _ hop))
    cases h1 with
    | alloc _ _ => exact hg.insert (ho _ List.mem_cons_self)
    | write _ _ => exact hg.insert (ho _ List.mem_cons_self)

theorem valid_fit {u : UIOp} {reads : List (Ref × Node)} {ops : List (GOp Node)} (hv : Valid u reads ops)
    (hs : ShortOp L u) (rg : ∀ {x n}, (x, n) ∈ reads → Good n) (rf : ∀ {x n}, (x, n) ∈ reads → Fit L n) :
    ∀ op ∈ ops, Fit L (opNode op) := by
  intro op hop
  cases hv with
  | query => cases hop
  | succ => cases hop
  | stutter => cases hop
  | @insert k v old h1 h2 =>
    rw [List.mem_singleton] at hop; subst hop
    exact add_fit (rg List.mem_cons_self) (rf List.mem_cons_self) h2 hs.1 hs.2
  | @flush f h1 =>
    have := flush_fit h1 (rg List.mem_cons_self) (rg (List.mem_cons_of_mem _ List.mem_cons_self))
      (rf List.mem_cons_self) (rf (List.mem_cons_of_mem _ List.mem_cons_self))
    simp only [List.mem_cons, List.not_mem_nil, or_false] at hop
    rcases hop with rfl | rfl
    · exact this.1
    · exact this.2
  | @grow old child h1 h2 =>
    simp only [List.mem_cons, List.not_mem_nil, or_false] at hop
    rcases hop with rfl | rfl
    · exact rf List.mem_cons_self
    · exact grow_fit child
  | @split parentref parent childref child slot num pivot l r h1 =>
    have := split_fit (l := l) (r := r) h1 (rg List.mem_cons_self)
      (rg (List.mem_cons_of_mem _ List.mem_cons_self))
      (rf List.mem_cons_self) (rf (List.mem_cons_of_mem _ List.mem_cons_self))
    simp only [List.mem_cons, List.not_mem_nil, or_false] at hop
    rcases hop with rfl | rfl | rfl
    · exact this.1
    · exact this.2.1
    · exact this.2.2
  | @merge parentref parent leftref left rightref right slot pivot c h1 =>
    have := merge_fit (c := c) h1 (rg List.mem_cons_self) (rg (List.mem_cons_of_mem _ List.mem_cons_self))
      (rg (List.mem_cons_of_mem _ (List.mem_cons_of_mem _ List.mem_cons_self)))
      (rf List.mem_cons_self) (rf (List.mem_cons_of_mem _ List.mem_cons_self))
      (rf (List.mem_cons_of_mem _ (List.mem_cons_of_mem _ List.mem_cons_self)))
    simp only [List.mem_cons, List.not_mem_nil, or_false] at hop
    rcases hop with rfl | rfl
    · exact this.1
    · exact this.2
  | @repivot ref leaf pivot h1 =>
    rw [List.mem_singleton] at hop; subst hop
    exact repivot_fit (rg List.mem_cons_self) (rf List.mem_cons_self) h1
  | @clone src dst old h1 =>
    rw [List.mem_singleton] at hop; subst hop
    exact clone_fit (rg List.mem_cons_self) (rf List.mem_cons_self) h1 hs.1

/-- Every machine step is one of the map, and keeps the lengths. -/
theorem isMapFit (L : Nat) : Composite.IsMap (KvSystem.graphs (appFit L) (fun n => n = emptyNode))
    (fun g m => Abs g m ∧ AllFit L g) := by
  constructor
  · rintro g ⟨n, rfl, rfl, h⟩
    refine ⟨isMap.init _ ⟨_, rfl, rfl, h⟩, ?_⟩
    exact AllFit.insert (fun r n h => by cases h) empty_fit
  · rintro g m u g' ⟨ha, hf⟩ h
    rcases h with ⟨reads, ops, ⟨h1, h1'⟩, h2, h3⟩ | ⟨rfl, ref, h1, h2, h3, rfl⟩
    · have h3 := ops_app h3
      obtain ⟨m', k1, k2⟩ := step_map ha h1 h2 h3
      exact ⟨m', k1, k2, ops_fit h3 hf (valid_fit h1 h1' (fun h => ha.good _ _ (h2 _ _ h))
        (fun h => hf _ _ (h2 _ _ h)))⟩
    · obtain ⟨m', k1, k2⟩ := isMap.next _ _ .noop _ ha (.inr ⟨rfl, ref, h1, h2, h3, rfl⟩)
      refine ⟨m', k1, k2, fun r n hr => ?_⟩
      by_cases e : r = ref
      · subst e; simp at hr
      · rw [PMap.remove_other _ e] at hr; exact hf r n hr

end Verif.Kv.Pivot
