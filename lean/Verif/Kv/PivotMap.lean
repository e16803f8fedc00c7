import Verif.Kv.PivotProof
/-
The betree with pivot nodes is a map. No code is modelled here.
-/
namespace Verif.Kv.Pivot
open Betree (Message)
open BlockSystem (GStep)
open BlockCache (Ops)

/-! ### Steps -/

theorem slot_of_lt {n : Node} (hg : Good n) {i : Nat} (h : i < n.buckets.length) :
    ∃ k hi e b, Slot n i (.key k) hi e b ∧ Elem.key k < hi := by
  obtain ⟨lo, hi, e, b, hs⟩ := hg.slot h
  obtain ⟨k, rfl⟩ := hs.lo_key hg.toShape
  exact ⟨k, hi, e, b, hs, hg.slot_lt hs⟩

theorem insert_I (d : Value) {n : Node} (hg : Good n) {k : Key} (hb : Bounded n.pivots k) (v : Value) :
    I d (n.add k (.define v)) = Betree.addMessage (I d n) k (.define v) := by
  obtain ⟨_, _, ⟨x, h1, h2⟩, h3⟩ := add_spec hg hb v
  simp only [I, Betree.addMessage, Betree.Node.mk.injEq]
  constructor
  · funext k'
    by_cases hk : k' = k
    · subst hk
      rw [h1, h2]
      obtain ⟨a, c, m⟩ := x
      cases c <;> rfl
    · rw [h3 k' hk]
  · funext k'
    by_cases hk : k' = k
    · subst hk
      rw [h2, PMap.insert_same]
      obtain ⟨a, c, m⟩ := x
      cases c <;> rfl
    · rw [h3 k' hk, PMap.insert_other _ _ hk]

theorem grow_I (d : Value) (c : Ref) : I d (grownRoot c) = Betree.grownRoot c := by
  have hv : ∀ k, view (grownRoot c) k = some ⟨k, some c, .update⟩ := by
    intro k
    have sh : Shape (grownRoot c) := by
      refine ⟨?_, by simp [grownRoot], by simp [grownRoot], by simp [grownRoot], ?_⟩
      · simp [grownRoot, Elem.key_lt_top]
      · intro cs h; cases h; simp [grownRoot]
    have hs : Slot (grownRoot c) 0 (.key []) .top none [] := ⟨rfl, rfl, rfl, rfl⟩
    rw [view_slot sh hs (Elem.nil_le k) (Elem.key_lt_top k)]
    rfl
  simp only [I, Betree.grownRoot, hv]
  rfl

theorem grow_good (c : Ref) : Good (grownRoot c) := by
  refine { sorted := ?_, two := by simp [grownRoot], buckets := by simp [grownRoot],
           edges := by simp [grownRoot], children := ?_, slots := ?_ }
  · simp [grownRoot, Elem.key_lt_top]
  · intro cs h; cases h; simp [grownRoot]
  · intro i lo hi e b hs
    have hb := hs.bound
    simp only [grownRoot, List.length_cons, List.length_nil] at hb
    have : i = 0 := by omega
    subst this
    obtain ⟨h1, h2, h3, h4⟩ := hs
    cases h1; cases h2; cases h3; cases h4
    exact ⟨Elem.key_lt_top _, by simp, by simp, fun x hx => by simp at hx, .nil⟩

theorem empty_good : Good emptyNode := by
  refine { sorted := ?_, two := by simp [emptyNode], buckets := by simp [emptyNode],
           edges := by simp [emptyNode], children := ?_, slots := ?_ }
  · simp [emptyNode, Elem.key_lt_top]
  · intro cs h; cases h
  · intro i lo hi e b hs
    have hb := hs.bound
    simp only [emptyNode, List.length_cons, List.length_nil] at hb
    have : i = 0 := by omega
    subst this
    obtain ⟨h1, h2, h3, h4⟩ := hs
    cases h1; cases h2; cases h3; cases h4
    exact ⟨Elem.key_lt_top _, by simp, by simp, fun x hx => by simp at hx, .nil⟩

theorem empty_view (k : Key) : view emptyNode k = some ⟨k, none, .update⟩ := by
  have hs : Slot emptyNode 0 (.key []) .top none [] := ⟨rfl, rfl, rfl, rfl⟩
  rw [view_slot empty_good.toShape hs (Elem.nil_le k) (Elem.key_lt_top k)]
  rfl

theorem childAt_of {n : Node} {i : Nat} {c : Ref} (h : ∃ cs, n.children = some cs ∧ cs[i]? = some c) :
    n.childAt i = some c ∧ n.children ≠ none := by
  obtain ⟨cs, h1, h2⟩ := h
  exact ⟨by simp [Node.childAt, h1, h2], by simp [h1]⟩

theorem buf_merge (d : Value) (x : Item) (m : Message) :
    buf d (some { x with msg := m.merge x.msg }) = m.merge (buf d (some x)) := by
  obtain ⟨a, c, m'⟩ := x
  cases c with
  | none => exact merge_assoc _ _ _
  | some c => rfl

theorem kid_msg (x : Item) (m : Message) : kid (some { x with msg := m }) = kid (some x) := by
  obtain ⟨a, c, m'⟩ := x
  cases c <;> rfl

/-- A flush of the pivot betree is one of the betree. -/
theorem flush_I (d : Value) {f : Flush} (hv : f.Valid) (hp : Good f.parent) (hc : Good f.child) :
    Good f.newchild ∧ Good f.newparent ∧ ∃ F : Betree.Flush, F.Valid ∧ F.parentref = f.parentref ∧
      F.parent = I d f.parent ∧ F.childref = f.childref ∧ F.child = I d f.child ∧
      F.newchildref = f.newchildref ∧ F.newchild = I d f.newchild ∧ F.newparent = I d f.newparent := by
  obtain ⟨lo, hi, e, b, hs⟩ := hp.slot hv.inSlot
  obtain ⟨c1, c2⟩ := childAt_of hv.isChild
  obtain ⟨a1, a2, a3, a4, a5⟩ := flush_child hp hc hs hv.range
  obtain ⟨b1, b2, b3, b4⟩ := flush_parent hp hs c2
  refine ⟨a1, b1, ⟨f.parentref, I d f.parent, I d f.newparent, f.childref, I d f.child, f.newchildref,
    I d f.newchild, fun k => lo ≤ .key k ∧ .key k < hi,
    fun k => (lo ≤ .key k ∧ .key k < hi) ∧ f.flushed k⟩, ?_, rfl, rfl, rfl, rfl, rfl, rfl, rfl⟩
  have pv : ∀ k, lo ≤ .key k → .key k < hi →
      view f.parent k = some ⟨tr lo hi e k, some f.childref, b.get k⟩ := by
    intro k h1 h2
    rw [view_slot hp.toShape hs h1 h2, c1]
  refine ⟨I_wf _ _, I_wf _ _, I_wf _ _, I_wf _ _, fun k h => h.1, ?_, ?_, ?_, ?_, ?_, ?_, ?_, ?_, ?_⟩
  · rintro k ⟨h1, h2⟩
    exact ⟨tr lo hi e k, by simp only [I, pv k h1 h2, kid]⟩
  · rintro k ⟨⟨h1, h2⟩, h3⟩
    simp only [I, b3 k h1 h2, h3, if_true, buf]
  · intro k h
    show some _ = some _
    by_cases hin : lo ≤ .key k ∧ .key k < hi
    · have : f.flushed k = false := by
        cases h' : f.flushed k with
        | false => rfl
        | true => exact absurd ⟨hin, h'⟩ h
      rw [b3 k hin.1 hin.2, pv k hin.1 hin.2, this]
      rfl
    · rw [b4 k hin]
  · rintro k ⟨h1, h2⟩
    simp only [I, b3 k h1 h2, kid]
  · intro k h
    simp only [I, b4 k h]
  · rintro k E mp mc ⟨⟨h1, h2⟩, h3⟩ h4 h5 h6
    obtain ⟨x, e1, e2⟩ := a4 k h1 h2
    simp only [I, pv k h1 h2, kid, buf, Option.some.injEq] at h4 h5
    subst h4; subst h5
    simp only [I, e1, Option.some.injEq] at h6
    subst h6
    simp only [I, e2, h3, if_true, buf_merge]
  · rintro k E ⟨h1, h2⟩ h3 h4
    obtain ⟨x, e1, e2⟩ := a4 k h1 h2
    have : f.flushed k = false := by
      cases h' : f.flushed k with
      | false => rfl
      | true => exact absurd ⟨⟨h1, h2⟩, h'⟩ h3
    simp only [I, pv k h1 h2, kid, Option.some.injEq] at h4
    subst h4
    simp only [I, e2, e1, this, buf_merge]
    rfl
  · rintro k E ⟨h1, h2⟩ h4
    obtain ⟨x, e1, e2⟩ := a4 k h1 h2
    simp only [I, pv k h1 h2, kid, Option.some.injEq] at h4
    subst h4
    simp only [I, e2, e1, kid_msg]
  · intro k h
    simp only [I, a3 k h, kid]

theorem view_out {n : Node} {a z : Elem} (ha : n.pivots.head? = some a) (hz : n.pivots.getLast? = some z)
    {k : Key} (h : ¬ (a ≤ .key k ∧ .key k < z)) : view n k = none := by
  refine view_none ?_
  rintro ⟨x, y, b1, b2, b3, b4⟩
  rw [ha] at b1; rw [hz] at b2; cases b1; cases b2
  exact h ⟨b3, b4⟩

theorem kid_some {x : Option Item} {e : Betree.Edge} (h : kid x = some e) : x ≠ none := by
  rintro rfl; cases h

/-- A split of the pivot betree is a redirection of the betree. -/
theorem split_I (d : Value) {parentref parent childref child slot num pivot l r}
    (hv : ValidSplit parent child childref slot num pivot) (hp : Good parent) (hc : Good child)
    (hne : l ≠ r) :
    Good ((restrictChild parent child slot).splitLeft num) ∧
      Good ((restrictChild parent child slot).splitRight num) ∧
      Good (parent.splitParent pivot slot l r) ∧ ∃ R : Betree.Redirect, R.Valid ∧
        R.reads = [(parentref, I d parent), (childref, I d child)] ∧
        R.ops = [.alloc l (I d ((restrictChild parent child slot).splitLeft num)),
          .alloc r (I d ((restrictChild parent child slot).splitRight num)),
          .write parentref (I d (parent.splitParent pivot slot l r))] := by
  obtain ⟨lo, hi, e, b, hs⟩ := hp.slot hv.inSlot
  obtain ⟨c1, c2⟩ := childAt_of hv.isChild
  obtain ⟨a1, a2, a3, a4, a5, a6⟩ := restrictChild_spec hp hc hs hv.range
  obtain ⟨l1, l2, l3, l4, l5⟩ := splitLeft_spec a1 hv.one hv.inNum hv.isPivot
  obtain ⟨r1, r2, r3, r4, r5⟩ := splitRight_spec a1 hv.inNum hv.isPivot
  obtain ⟨lo', hi', q1, q2, q3, q4⟩ := hv.insertable
  have e1 := q1.symm.trans hs.lo
  have e2 := q2.symm.trans hs.hi
  simp only [Option.some.injEq] at e1 e2
  subst e1; subst e2
  obtain ⟨p1, p2, p3, p4, p5⟩ := splitParent_spec (l := l) (r := r) hp hs q3 q4 c2
  generalize hL : (restrictChild parent child slot).splitLeft num = L at *
  generalize hR : (restrictChild parent child slot).splitRight num = R at *
  generalize hP : parent.splitParent pivot slot l r = P at *
  have pv : ∀ k, lo' ≤ .key k → .key k < hi' →
      view parent k = some ⟨tr lo' hi' e k, some childref, b.get k⟩ := by
    intro k h1 h2
    rw [view_slot hp.toShape hs h1 h2, c1]
  have lin : ∀ k, view L k ≠ none → lo' ≤ .key k ∧ .key k < Elem.key pivot := by
    intro k hk
    have h2 : Elem.key k < .key pivot := by
      by_contra hc; exact hk (l3 k (not_lt.mp hc))
    rw [l2 k h2] at hk
    refine ⟨?_, h2⟩
    by_contra hc
    exact hk (view_out a2 a3 (fun h => hc h.1))
  have rin : ∀ k, view R k ≠ none → Elem.key pivot ≤ .key k ∧ .key k < hi' := by
    intro k hk
    have h2 : Elem.key pivot ≤ .key k := by
      by_contra hc; exact hk (r3 k (not_le.mp hc))
    rw [r2 k h2] at hk
    refine ⟨h2, ?_⟩
    by_contra hc
    exact hk (view_out a2 a3 (fun h => hc h.2))
  have q3' := le_of_lt q3
  have hnew : ∀ k, lo' ≤ .key k → .key k < hi' →
      kid (view P k) = some ⟨k, if Elem.key k < .key pivot then l else r⟩ := by
    intro k h1 h2
    by_cases hk : Elem.key k < .key pivot
    · rw [p3 k h1 hk, if_pos hk]; rfl
    · rw [p4 k (not_lt.mp hk) h2, if_neg hk]; rfl
  obtain ⟨k0, hk0⟩ := hs.lo_key hp.toShape
  have hk01 : lo' ≤ .key k0 := by rw [hk0]
  have hk02 : .key k0 < hi' := by rw [← hk0]; exact hp.slot_lt hs
  refine ⟨l1, r1, p1, ⟨parentref, I d parent, [childref], PMap.insert .empty childref (I d child),
    I d P, [l, r], (PMap.insert .empty l (I d L)).insert r (I d R),
    fun k => lo' ≤ .key k ∧ .key k < hi'⟩, ?_, ?_, ?_⟩
  · refine ⟨I_wf _ _, ?_, I_wf _ _, ?_, ?_, ?_, ?_, ?_, ?_, ?_, ?_, ?_, ?_, ?_⟩
    · intro x n h
      dsimp only at h
      by_cases hx : x = childref
      · subst hx; rw [PMap.insert_same] at h; cases h; exact I_wf _ _
      · rw [PMap.insert_other _ _ hx] at h; cases h
    · intro x n h
      dsimp only at h
      by_cases hx : x = r
      · subst hx; rw [PMap.insert_same] at h; cases h; exact I_wf _ _
      · rw [PMap.insert_other _ _ hx] at h
        by_cases hx : x = l
        · subst hx; rw [PMap.insert_same] at h; cases h; exact I_wf _ _
        · rw [PMap.insert_other _ _ hx] at h; cases h
    · rintro k ⟨h1, h2⟩
      refine ⟨?_, ?_⟩
      · simp only [I, pv k h1 h2, kid]; simp
      · simp only [I, hnew k h1 h2]; simp
    · intro x
      simp only [List.mem_singleton, I]
      constructor
      · rintro ⟨k, E, ⟨h1, h2⟩, h3, h4⟩
        rw [pv k h1 h2] at h3
        cases h3
        exact h4.symm
      · rintro rfl
        exact ⟨k0, _, ⟨hk01, hk02⟩, by rw [pv k0 hk01 hk02]; rfl, rfl⟩
    · intro x
      simp only [I]
      constructor
      · intro h
        have hx : x = childref := by
          by_contra hc
          rw [PMap.insert_other _ _ hc] at h
          exact h rfl
        subst hx
        exact ⟨k0, _, ⟨hk01, hk02⟩, by rw [pv k0 hk01 hk02]; rfl, rfl⟩
      · rintro ⟨k, E, ⟨h1, h2⟩, h3, h4⟩
        rw [pv k h1 h2] at h3
        cases h3
        subst h4
        rw [PMap.insert_same]; simp
    · rintro x ⟨k, E, ⟨h1, h2⟩, h3, h4⟩
      simp only [I, hnew k h1 h2, Option.some.injEq] at h3
      subst h3
      subst h4
      simp only [List.mem_cons, List.not_mem_nil, or_false]
      split
      · exact .inl rfl
      · exact .inr rfl
    · intro x
      simp only [List.mem_cons, List.not_mem_nil, or_false]
      by_cases hx : x = r
      · subst hx; simp
      · rw [PMap.insert_other _ _ hx]
        by_cases hx' : x = l
        · subst hx'; simp
        · rw [PMap.insert_other _ _ hx']; simp [hx, hx', PMap.empty]
    · funext k
      simp only [I, Option.some.injEq]
      by_cases hin : lo' ≤ .key k ∧ .key k < hi'
      · rw [pv k hin.1 hin.2]
        by_cases hk : Elem.key k < .key pivot
        · rw [p3 k hin.1 hk]; rfl
        · rw [p4 k (not_lt.mp hk) hin.2]; rfl
      · rw [p5 k hin]
    · rintro k E ⟨h1, h2⟩ h3
      simp only [I, hnew k h1 h2, Option.some.injEq] at h3
      subst h3; rfl
    · intro k h
      simp only [I, p5 k h]
    · rintro k E E' n n' ⟨h1, h2⟩ h3 h4 h5 h6
      simp only [I, pv k h1 h2, kid, Option.some.injEq] at h3
      subst h3
      simp only [I, hnew k h1 h2, Option.some.injEq] at h4
      subst h4
      simp only [PMap.insert_same, Option.some.injEq] at h5
      subst h5
      by_cases hk : Elem.key k < .key pivot
      · simp only [hk, if_true] at h6
        rw [PMap.insert_other _ _ hne, PMap.insert_same] at h6
        cases h6
        simp only [I, l2 k hk, a4 k h1 h2, and_self]
      · simp only [hk, if_false] at h6
        rw [PMap.insert_same] at h6
        cases h6
        simp only [I, r2 k (not_lt.mp hk), a4 k h1 h2, and_self]
    · intro x n k E h1 h2
      dsimp only at h1
      by_cases hx : x = r
      · subst hx; rw [PMap.insert_same] at h1; cases h1
        obtain ⟨k1, k2⟩ := rin k (kid_some h2)
        have k3 := le_trans q3' k1
        refine ⟨k, ⟨k, x⟩, E, ?_, rfl, h2, rfl, ⟨k3, k2⟩, ?_⟩
        · simp only [I, hnew k k3 k2, if_neg (not_lt.mpr k1)]
        · simp only [I, pv k k3 k2, kid]; simp
      · rw [PMap.insert_other _ _ hx] at h1
        by_cases hx' : x = l
        · subst hx'; rw [PMap.insert_same] at h1; cases h1
          obtain ⟨k1, k2⟩ := lin k (kid_some h2)
          have k3 := lt_trans k2 q4
          refine ⟨k, ⟨k, x⟩, E, ?_, rfl, h2, rfl, ⟨k1, k3⟩, ?_⟩
          · simp only [I, hnew k k1 k3, if_pos k2]
          · simp only [I, pv k k1 k3, kid]; simp
        · rw [PMap.insert_other _ _ hx'] at h1; cases h1
  · simp [Betree.Redirect.reads]
  · simp only [Betree.Redirect.ops]
    simp [PMap.insert_other _ _ hne]

/-- A merge of the pivot betree is a redirection of the betree. -/
theorem merge_I (d : Value) {parentref parent leftref left rightref right slot pivot c}
    (hv : ValidMerge parent left right leftref rightref slot pivot) (hp : Good parent)
    (hl : Good left) (hr : Good right) :
    Good (fusedChild (restrictChild parent left slot) (restrictChild parent right (slot + 1)) pivot) ∧
      Good (parent.fusedParent slot c) ∧ ∃ R : Betree.Redirect, R.Valid ∧
        R.reads = [(parentref, I d parent), (leftref, I d left), (rightref, I d right)] ∧
        R.ops = [.alloc c (I d (fusedChild (restrictChild parent left slot)
            (restrictChild parent right (slot + 1)) pivot)),
          .write parentref (I d (parent.fusedParent slot c))] := by
  obtain ⟨lo, mid, e1, b1, hs1⟩ := hp.slot (show slot < parent.buckets.length by have := hv.inSlot; omega)
  obtain ⟨mid', hi, e2, b2, hs2⟩ := hp.slot hv.inSlot
  have em := hs2.lo.symm.trans hs1.hi
  have em' := hs1.hi.symm.trans hv.isPivot
  simp only [Option.some.injEq] at em em'
  subst em; subst em'
  obtain ⟨cs, hcs, hc1, hc2⟩ := hv.isChild
  obtain ⟨ca1, ca2⟩ := childAt_of ⟨cs, hcs, hc1⟩
  obtain ⟨cb1, _⟩ := childAt_of ⟨cs, hcs, hc2⟩
  obtain ⟨l1, l2, l3, l4, l5, l6⟩ := restrictChild_spec hp hl hs1 hv.rangeLeft
  obtain ⟨r1, r2, r3, r4, r5, r6⟩ := restrictChild_spec hp hr hs2 hv.rangeRight
  obtain ⟨j1, j2, j3, j4, j5, j6, j7⟩ := join_spec l1 r1 l3 r2 (l5.trans (hv.kind.trans r5.symm))
  rw [fusedChild_eq r2]
  obtain ⟨p1, p2, p3, p4⟩ := fusedParent_spec (c := c) hp hs1 hs2 ca2
  have lt1 := hp.slot_lt hs1
  have lt2 := hp.slot_lt hs2
  generalize hJ : join (restrictChild parent left slot) (restrictChild parent right (slot + 1)) = J at *
  generalize hP : parent.fusedParent slot c = P at *
  rw [l2] at j2; rw [r3] at j3
  have pv : ∀ k, lo ≤ .key k → .key k < hi → view parent k = some (if Elem.key k < .key pivot then
      ⟨tr lo (.key pivot) e1 k, some leftref, b1.get k⟩ else ⟨tr (.key pivot) hi e2 k, some rightref, b2.get k⟩) := by
    intro k h1 h2
    split
    · next h => rw [view_slot hp.toShape hs1 h1 h, ca1]
    · next h => rw [view_slot hp.toShape hs2 (not_lt.mp h) h2, cb1]
  have kidp : ∀ k, lo ≤ .key k → .key k < hi → kid (view parent k) = some (if Elem.key k < .key pivot then
      ⟨tr lo (.key pivot) e1 k, leftref⟩ else ⟨tr (.key pivot) hi e2 k, rightref⟩) := by
    intro k h1 h2
    rw [pv k h1 h2]
    split <;> rfl
  have hnew : ∀ k, lo ≤ .key k → .key k < hi → kid (view P k) = some ⟨k, c⟩ := by
    intro k h1 h2
    rw [p3 k h1 h2]; rfl
  obtain ⟨k0, hk0⟩ := hs1.lo_key hp.toShape
  have hk01 : lo ≤ .key k0 := by rw [hk0]
  have hk02 : .key k0 < Elem.key pivot := by rw [← hk0]; exact lt1
  have olds : ∀ x n, (PMap.insert (PMap.insert .empty rightref (I d right)) leftref (I d left)) x = some n →
      (x = leftref ∧ n = I d left) ∨ (x = rightref ∧ n = I d right) := by
    intro x n h
    by_cases hx : x = leftref
    · subst hx; rw [PMap.insert_same] at h; cases h; exact .inl ⟨rfl, rfl⟩
    · rw [PMap.insert_other _ _ hx] at h
      by_cases hx : x = rightref
      · subst hx; rw [PMap.insert_same] at h; cases h; exact .inr ⟨rfl, rfl⟩
      · rw [PMap.insert_other _ _ hx] at h; cases h
  have oldr : (PMap.insert (PMap.insert .empty rightref (I d right)) leftref (I d left)) rightref =
      some (I d right) := by
    by_cases hx : rightref = leftref
    · rw [hx, PMap.insert_same, hv.equal hx.symm]
    · rw [PMap.insert_other _ _ hx, PMap.insert_same]
  have reach : ∀ x, x ∈ [leftref, rightref] → ∃ k E, (lo ≤ .key k ∧ .key k < hi) ∧
      kid (view parent k) = some E ∧ E.ref = x := by
    intro x hx
    simp only [List.mem_cons, List.not_mem_nil, or_false] at hx
    rcases hx with rfl | rfl
    · exact ⟨k0, _, ⟨hk01, lt_trans hk02 lt2⟩, kidp k0 hk01 (lt_trans hk02 lt2), by simp [hk02]⟩
    · refine ⟨pivot, _, ⟨le_of_lt lt1, lt2⟩, kidp pivot (le_of_lt lt1) lt2, ?_⟩
      rw [if_neg (lt_irrefl _)]
  have reach' : ∀ x, (∃ k E, (lo ≤ .key k ∧ .key k < hi) ∧
      kid (view parent k) = some E ∧ E.ref = x) → x ∈ [leftref, rightref] := by
    rintro x ⟨k, E, ⟨h1, h2⟩, h3, h4⟩
    rw [kidp k h1 h2] at h3
    simp only [Option.some.injEq] at h3
    subst h3; subst h4
    split <;> simp
  refine ⟨j1, p1, ⟨parentref, I d parent, [leftref, rightref],
    PMap.insert (PMap.insert .empty rightref (I d right)) leftref (I d left),
    I d P, [c], PMap.insert .empty c (I d J), fun k => lo ≤ .key k ∧ .key k < hi⟩, ?_, ?_, ?_⟩
  · refine ⟨I_wf _ _, ?_, I_wf _ _, ?_, ?_, ?_, ?_, ?_, ?_, ?_, ?_, ?_, ?_, ?_⟩
    · intro x n h
      rcases olds x n h with ⟨_, rfl⟩ | ⟨_, rfl⟩ <;> exact I_wf _ _
    · intro x n h
      dsimp only at h
      by_cases hx : x = c
      · subst hx; rw [PMap.insert_same] at h; cases h; exact I_wf _ _
      · rw [PMap.insert_other _ _ hx] at h; cases h
    · rintro k ⟨h1, h2⟩
      simp only [I, kidp k h1 h2, hnew k h1 h2]
      simp
    · intro x
      exact ⟨reach' x, reach x⟩
    · intro x
      constructor
      · intro h
        obtain ⟨n, hn⟩ := Option.ne_none_iff_exists'.mp h
        refine reach x ?_
        rcases olds x n hn with ⟨rfl, _⟩ | ⟨rfl, _⟩ <;> simp
      · intro h
        have := reach' x h
        simp only [List.mem_cons, List.not_mem_nil, or_false] at this
        dsimp only
        rcases this with rfl | rfl
        · rw [PMap.insert_same]; simp
        · rw [oldr]; simp
    · rintro x ⟨k, E, ⟨h1, h2⟩, h3, h4⟩
      simp only [I, hnew k h1 h2, Option.some.injEq] at h3
      subst h3
      simp only [List.mem_singleton]
      exact h4.symm
    · intro x
      simp only [List.mem_singleton]
      by_cases hx : x = c
      · subst hx; simp
      · rw [PMap.insert_other _ _ hx]; simp [hx, PMap.empty]
    · funext k
      simp only [I, Option.some.injEq]
      by_cases hin : lo ≤ .key k ∧ .key k < hi
      · rw [pv k hin.1 hin.2, p3 k hin.1 hin.2]
        split <;> rfl
      · rw [p4 k hin]
    · rintro k E ⟨h1, h2⟩ h3
      simp only [I, hnew k h1 h2, Option.some.injEq] at h3
      subst h3; rfl
    · intro k h
      simp only [I, p4 k h]
    · rintro k E E' n n' ⟨h1, h2⟩ h3 h4 h5 h6
      simp only [I, hnew k h1 h2, Option.some.injEq] at h4
      subst h4
      simp only [PMap.insert_same, Option.some.injEq] at h6
      subst h6
      simp only [I, kidp k h1 h2, Option.some.injEq] at h3
      by_cases hk : Elem.key k < .key pivot
      · rw [if_pos hk] at h3
        subst h3
        dsimp only at h5
        rw [PMap.insert_same] at h5
        cases h5
        simp only [I, j4 k hk, l4 k h1 hk, and_self]
      · rw [if_neg hk] at h3
        subst h3
        dsimp only at h5
        rw [oldr] at h5
        cases h5
        simp only [I, j5 k (not_lt.mp hk), r4 k (not_lt.mp hk) h2, and_self]
    · intro x n k E h1 h2
      dsimp only at h1
      by_cases hx : x = c
      · subst hx; rw [PMap.insert_same] at h1; cases h1
        have hin : lo ≤ .key k ∧ .key k < hi := by
          by_contra hc
          exact kid_some h2 (view_out j2 j3 hc)
        refine ⟨k, ⟨k, x⟩, E, ?_, rfl, h2, rfl, hin, ?_⟩
        · simp only [I, hnew k hin.1 hin.2]
        · simp only [I, kidp k hin.1 hin.2]; simp
      · rw [PMap.insert_other _ _ hx] at h1; cases h1
  · simp only [Betree.Redirect.reads]
    simp [oldr]
  · simp only [Betree.Redirect.ops]
    simp

theorem hasPrefix_iff {k p : Key} : MapSpec.KeyHasPrefix k p = true ↔ p <+: k := by
  simp only [MapSpec.KeyHasPrefix, decide_eq_true_eq]
  constructor
  · rintro ⟨_, h⟩
    rw [← h]; exact List.take_prefix _ _
  · rintro ⟨t, rfl⟩
    simp

theorem cloneMap_some {src dst k x : Key} (h : MapSpec.cloneMap src dst k = some x) :
    ∃ s, k = dst ++ s ∧ x = src ++ s := by
  simp only [MapSpec.cloneMap] at h
  split at h
  · next hp =>
    obtain ⟨t, rfl⟩ := hasPrefix_iff.mp hp
    cases h
    exact ⟨t, rfl, by simp⟩
  · cases h

theorem cloneMap_none {src dst k : Key} (h : MapSpec.cloneMap src dst k = none) : ¬ dst <+: k := by
  intro hp
  rw [MapSpec.cloneMap, if_pos (hasPrefix_iff.mpr hp)] at h
  cases h

/-- A clone of the pivot betree is one of the betree. -/
theorem clone_I (d : Value) {n : Node} (hg : Good n) {src dst : Key} (hv : ValidClone n src dst) :
    Betree.ValidClone (I d n) (I d (n.cloneRoot src dst)) (MapSpec.cloneMap src dst) := by
  obtain ⟨_, _, a3, a4⟩ := cloneRoot_spec hg hv
  have hsrc : ∀ s, ∃ y c, view n (src ++ s) = some ⟨y, some c, .update⟩ := by
    intro s
    obtain ⟨⟨y, c, m⟩, h1, h2⟩ := clone_source hg hv s
    simp only at h2
    subst h2
    cases c with
    | some c => exact ⟨y, c, h1⟩
    | none =>
      have hb := allKeys hv.all (src ++ s)
      rw [view_at hb] at h1
      simp only [Option.some.injEq, Item.mk.injEq] at h1
      exact absurd ((childAt_none hg hb).mp h1.2.1) hv.inner
  refine ⟨I_wf _ _, I_wf _ _, ?_, ?_, ?_, ?_, ?_, ?_⟩
  · intro k x h
    obtain ⟨s, rfl, rfl⟩ := cloneMap_some h
    obtain ⟨y, c, e⟩ := hsrc s
    simp only [I, e, buf]
  · intro k x h
    obtain ⟨s, rfl, rfl⟩ := cloneMap_some h
    obtain ⟨y, c, e⟩ := hsrc s
    simp only [I, e, kid]; simp
  · intro k x h
    obtain ⟨s, rfl, rfl⟩ := cloneMap_some h
    obtain ⟨y, c, e⟩ := hsrc s
    simp only [I, a3, e, Option.map_some, buf]
  · intro k h
    simp only [I, a4 k (cloneMap_none h)]
  · intro k x h
    obtain ⟨s, rfl, rfl⟩ := cloneMap_some h
    obtain ⟨y, c, e⟩ := hsrc s
    simp only [I, a3, e, Option.map_some, kid]
  · intro k h
    simp only [I, a4 k (cloneMap_none h)]

/-! ### Values -/

/-- The value of a key at a node: the first value on the way down, the empty one if there is none at a
leaf. The key must lie in the range of each node on the way. -/
inductive Eval (g : Graph Node) : Ref → Key → Value → Prop
  | here {r k v n x} : g r = some n → view n k = some x → x.msg = .define v → Eval g r k v
  | leaf {r k n x} : g r = some n → view n k = some x → x.msg = .update → x.child = none →
      Eval g r k []
  | down {r k v n x c} : g r = some n → view n k = some x → x.msg = .update → x.child = some c →
      Eval g c x.key v → Eval g r k v

theorem Eval.abs {g : Graph Node} {r k v} (h : Eval g r k v) (d : Value) : Betree.Eval (gI d g) r k v := by
  induction h with
  | @here r k v n x h1 h2 h3 =>
    refine .here (n := I d n) (by simp [gI, h1]) (I_wf _ _) ?_
    obtain ⟨a, c, m⟩ := x
    simp only at h3
    subst h3
    simp only [I, h2]
    cases c <;> rfl
  | @leaf r k n x h1 h2 h3 h4 =>
    refine .here (n := I d n) (by simp [gI, h1]) (I_wf _ _) ?_
    obtain ⟨a, c, m⟩ := x
    simp only at h3 h4
    subst h3; subst h4
    simp only [I, h2]; rfl
  | @down r k v n x c h1 h2 h3 h4 _ ih =>
    obtain ⟨a, c', m⟩ := x
    simp only at h3 h4
    subst h3; subst h4
    exact .down (n := I d n) (e := ⟨a, c⟩) (by simp [gI, h1]) (I_wf _ _) (by simp [I, h2, buf])
      (by simp [I, h2, kid]) ih

/-- A key whose value does not depend on what stands outside the ranges never leaves them. -/
theorem Eval.of_abs {g : Graph Node} {d d' : Value} (hd : d ≠ d') {r k v}
    (h : Betree.Eval (gI d g) r k v) (h' : Betree.Eval (gI d' g) r k v) : Eval g r k v := by
  induction h with
  | @here r k v n h1 _ h3 =>
    obtain ⟨n0, h4, rfl⟩ := Option.map_eq_some_iff.mp h1
    have h4 : g r = some n0 := h4
    simp only [I, Option.some.injEq] at h3
    match hx : view n0 k with
    | none =>
      rw [hx] at h3
      simp only [buf, Message.define.injEq] at h3
      cases h' with
      | here b1 _ b3 =>
        simp only [gI, h4, Option.map_some, Option.some.injEq] at b1
        subst b1
        simp only [I, hx, buf, Option.some.injEq, Message.define.injEq] at b3
        exact absurd (h3.trans b3.symm) hd
      | down b1 _ b3 _ _ =>
        simp only [gI, h4, Option.map_some, Option.some.injEq] at b1
        subst b1
        simp only [I, hx, buf, Option.some.injEq] at b3
        cases b3
    | some ⟨a, none, m⟩ =>
      rw [hx] at h3
      cases m with
      | define w =>
        simp only [buf, Message.merge, Message.define.injEq] at h3
        exact .here h4 hx (by rw [h3])
      | update =>
        simp only [buf, Message.merge, Message.define.injEq] at h3
        subst h3
        exact .leaf h4 hx rfl rfl
    | some ⟨a, some c, m⟩ =>
      rw [hx] at h3
      simp only [buf] at h3
      exact .here h4 hx h3
  | @down r k v n e h1 _ h3 h4 _ ih =>
    obtain ⟨n0, h5, rfl⟩ := Option.map_eq_some_iff.mp h1
    have h5 : g r = some n0 := h5
    simp only [I, Option.some.injEq] at h3 h4
    match hx : view n0 k with
    | none => rw [hx] at h4; cases h4
    | some ⟨a, none, m⟩ => rw [hx] at h4; cases h4
    | some ⟨a, some c, m⟩ =>
      rw [hx] at h3 h4
      simp only [buf] at h3
      subst h3
      cases h4
      refine .down h5 hx rfl rfl (ih ?_)
      cases h' with
      | here b1 _ b3 =>
        simp only [gI, h5, Option.map_some, Option.some.injEq] at b1
        subst b1
        simp only [I, hx, buf, Option.some.injEq] at b3
        cases b3
      | down b1 _ b3 b4 b5 =>
        simp only [gI, h5, Option.map_some, Option.some.injEq] at b1
        subst b1
        simp only [I, hx, kid, Option.some.injEq] at b4
        subst b4
        exact b5

theorem Eval.det {g : Graph Node} {r k v w} (h : Eval g r k v) (h' : Eval g r k w) : v = w :=
  (h.abs []).det (h'.abs [])

/-- The graph stands for the map. -/
structure Abs (g : Graph Node) (m : MapSpec.View) : Prop where
  good : AllGood g
  abs : ∀ d, Betree.Abs (gI d g) m

theorem Abs.eval {g : Graph Node} {m : MapSpec.View} (h : Abs g m) (k : Key) : Eval g rootRef k (m k) :=
  .of_abs (d := []) (d' := [0]) (by simp) ((h.abs []).value k) ((h.abs [0]).value k)

theorem next_det {m m1 m2 : MapSpec.View} {u : UIOp} (h1 : MapSpec.Next m u m1) (h2 : MapSpec.Next m u m2) :
    m1 = m2 := by
  cases h1 <;> cases h2 <;> rfl

/-- A transaction of the pivot betree that is, for each default, one of the betree. -/
theorem abs_step {g g' : Graph Node} {m : MapSpec.View} {u : UIOp} {ops : List (GOp Node)} (ha : Abs g m)
    (ho : Ops (GStep app) g ops g') (hg : ∀ op ∈ ops, Good (opNode op))
    (h : ∀ d, ∃ reads, Betree.Valid u reads (ops.map (opI d)) ∧
      ∀ x n, (x, n) ∈ reads → gI d g x = some n) :
    ∃ m', MapSpec.Next m u m' ∧ Abs g' m' := by
  have key : ∀ d, ∃ m', MapSpec.Next m u m' ∧ Betree.Abs (gI d g') m' := by
    intro d
    obtain ⟨reads, h1, h2⟩ := h d
    exact Betree.step_map (ha.abs d) h1 h2 (ops_gI d ho)
  obtain ⟨m', h1, _⟩ := key []
  refine ⟨m', h1, ops_good ho ha.good hg, fun d => ?_⟩
  obtain ⟨m'', h3, h4⟩ := key d
  rw [next_det h1 h3]
  exact h4

theorem repivot_eval {g : Graph Node} {ref : Ref} {n : Node} {p : Key} (hg : Good n)
    (hv : ValidRepivot n p) (hn : g ref = some n) {r k v} (h : Eval g r k v) :
    Eval (g.insert ref (n.repivot p)) r k v := by
  obtain ⟨_, _, hr⟩ := repivot_spec hg hv
  have leaf : ∀ {k x}, view n k = some x → x.child = none := by
    intro k x h
    by_cases hb : Bounded n.pivots k
    · rw [view_at hb] at h
      cases h
      exact (childAt_none hg hb).mpr hv.isLeaf
    · rw [view_none hb] at h; cases h
  induction h with
  | @here r k v n' x h1 h2 h3 =>
    by_cases e : r = ref
    · subst e
      rw [hn] at h1; cases h1
      obtain ⟨y, e1, e2, e3⟩ := hr k
      rw [h2] at e3
      exact .here (PMap.insert_same _ _ _) e1 (e3.trans h3)
    · exact .here (by rw [PMap.insert_other _ _ e]; exact h1) h2 h3
  | @leaf r k n' x h1 h2 h3 h4 =>
    by_cases e : r = ref
    · subst e
      rw [hn] at h1; cases h1
      obtain ⟨y, e1, e2, e3⟩ := hr k
      rw [h2] at e3
      exact .leaf (PMap.insert_same _ _ _) e1 (e3.trans h3) e2
    · exact .leaf (by rw [PMap.insert_other _ _ e]; exact h1) h2 h3 h4
  | @down r k v n' x c h1 h2 h3 h4 _ ih =>
    by_cases e : r = ref
    · subst e
      rw [hn] at h1; cases h1
      rw [leaf h2] at h4; cases h4
    · exact .down (by rw [PMap.insert_other _ _ e]; exact h1) h2 h3 h4 ih

theorem repivot_rootFree {g : Graph Node} {d : Value} {ref : Ref} {n : Node} {p : Key} (hg : Good n)
    (hv : ValidRepivot n p) (h : Betree.RootFree (gI d g)) :
    Betree.RootFree (gI d (g.insert ref (n.repivot p))) := by
  rw [gI_insert]
  refine h.insert ?_
  intro hs
  obtain ⟨cs, h1, _⟩ := I_succs hs
  rw [(repivot_spec hg hv).2.1] at h1
  cases h1

/-- Every transaction on a graph that stands for a map gives one that stands for the changed map. -/
theorem step_map {g g' : Graph Node} {m : MapSpec.View} {u reads ops} (ha : Abs g m)
    (hv : Valid u reads ops) (hr : ∀ x n, (x, n) ∈ reads → g x = some n)
    (ho : Ops (GStep app) g ops g') : ∃ m', MapSpec.Next m u m' ∧ Abs g' m' := by
  have rd : ∀ {x n}, (x, n) ∈ reads → Good n := fun h => ha.good _ _ (hr _ _ h)
  have gr : ∀ d x n, (x, n) ∈ reads.map (fun x => (x.1, I d x.2)) → gI d g x = some n := by
    intro d x n h
    obtain ⟨⟨a, b⟩, h1, h2⟩ := List.mem_map.mp h
    cases h2
    simp [gI, hr a b h1]
  cases hv with
  | @query k v l h1 h2 =>
    have hg : ∀ y ∈ l, Good y.node := fun y hy => rd (List.mem_map.mpr ⟨y, hy, rfl⟩)
    have hne : l ≠ [] := by obtain ⟨x, xs, rfl, _⟩ := h1.head; simp
    refine abs_step ha ho (by simp) (fun d => ⟨_, .query (lookup_I d h1) ?_, ?_⟩)
    · rw [interpret_I d hne h1.follows hg h1.bounded, h2 (marshalled hg h1.bounded)]
    · rw [reads_I]; exact gr d
  | @succ start rs stop l h1 =>
    have hg : ∀ y ∈ l, Good y.node := fun y hy => rd (List.mem_map.mpr ⟨y, hy, rfl⟩)
    refine abs_step ha ho (by simp) (fun d => ⟨_, .succ (succ_I d h1 hg), ?_⟩)
    rw [reads_I]; exact gr d
  | @insert k v old h1 h2 =>
    have hg := rd List.mem_cons_self
    refine abs_step ha ho ?_ (fun d => ⟨_, ?_, gr d⟩)
    · intro op hop
      rw [List.mem_singleton] at hop; subst hop
      exact (add_spec hg h2 v).1
    · simp only [List.map_cons, List.map_nil, opI, insert_I d hg h2]
      exact .insert (I_wf _ _)
  | @flush f h1 =>
    have hp : Good f.parent := rd List.mem_cons_self
    have hc : Good f.child := rd (List.mem_cons_of_mem _ List.mem_cons_self)
    obtain ⟨g1, g2, _⟩ := flush_I [] h1 hp hc
    refine abs_step ha ho ?_ (fun d => ⟨_, ?_, gr d⟩)
    · intro op hop
      simp only [List.mem_cons, List.not_mem_nil, or_false] at hop
      rcases hop with rfl | rfl
      · exact g1
      · exact g2
    · obtain ⟨_, _, F, f0, f1, f2, f3, f4, f5, f6, f7⟩ := flush_I d h1 hp hc
      simp only [List.map_cons, List.map_nil, opI, ← f1, ← f2, ← f3, ← f4, ← f5, ← f6, ← f7]
      exact .flush f0
  | @grow old child h1 h2 =>
    refine abs_step ha ho ?_ (fun d => ⟨_, ?_, gr d⟩)
    · intro op hop
      simp only [List.mem_cons, List.not_mem_nil, or_false] at hop
      rcases hop with rfl | rfl
      · exact rd List.mem_cons_self
      · exact grow_good child
    · simp only [List.map_cons, List.map_nil, opI, grow_I]
      exact .grow
  | @split parentref parent childref child slot num pivot l r h1 =>
    have hp : Good parent := rd List.mem_cons_self
    have hc : Good child := rd (List.mem_cons_of_mem _ List.mem_cons_self)
    have hne : l ≠ r := by
      rintro rfl
      cases ho with
      | cons o1 o2 =>
        cases o1
        cases o2 with
        | cons o3 _ =>
          cases o3 with
          | alloc _ o4 => simp at o4
    obtain ⟨g1, g2, g3, _⟩ := split_I (parentref := parentref) [] h1 hp hc hne
    refine abs_step ha ho ?_ (fun d => ⟨_, ?_, gr d⟩)
    · intro op hop
      simp only [List.mem_cons, List.not_mem_nil, or_false] at hop
      rcases hop with rfl | rfl | rfl
      · exact g1
      · exact g2
      · exact g3
    · obtain ⟨_, _, _, R, r0, r1, r2⟩ := split_I (parentref := parentref) d h1 hp hc hne
      simp only [List.map_cons, List.map_nil, opI, ← r1, ← r2]
      exact .redirect r0
  | @merge parentref parent leftref left rightref right slot pivot c h1 =>
    have hp : Good parent := rd List.mem_cons_self
    have hl : Good left := rd (List.mem_cons_of_mem _ List.mem_cons_self)
    have hr' : Good right := rd (List.mem_cons_of_mem _ (List.mem_cons_of_mem _ List.mem_cons_self))
    obtain ⟨g1, g2, _⟩ := merge_I (parentref := parentref) (c := c) [] h1 hp hl hr'
    refine abs_step ha ho ?_ (fun d => ⟨_, ?_, gr d⟩)
    · intro op hop
      simp only [List.mem_cons, List.not_mem_nil, or_false] at hop
      rcases hop with rfl | rfl
      · exact g1
      · exact g2
    · obtain ⟨_, _, R, r0, r1, r2⟩ := merge_I (parentref := parentref) (c := c) d h1 hp hl hr'
      simp only [List.map_cons, List.map_nil, opI, ← r1, ← r2]
      exact .redirect r0
  | @repivot ref leaf pivot h1 =>
    have hg : Good leaf := rd List.mem_cons_self
    have hn : g ref = some leaf := hr _ _ List.mem_cons_self
    cases ho with
    | cons o1 o2 =>
      cases o2
      cases o1
      refine ⟨m, .stutter, ha.good.insert (repivot_spec hg h1).1, fun d => ⟨?_, fun k => ?_⟩⟩
      · exact repivot_rootFree hg h1 (ha.abs d).root
      · exact (repivot_eval hg h1 hn (ha.eval k)).abs d
  | @clone src dst old h1 =>
    have hg := rd List.mem_cons_self
    refine abs_step ha ho ?_ (fun d => ⟨_, ?_, gr d⟩)
    · intro op hop
      rw [List.mem_singleton] at hop; subst hop
      exact (cloneRoot_spec hg h1).1
    · exact .clone (clone_I d hg h1)
  | stutter =>
    cases ho
    exact ⟨m, .stutter, ha⟩

/-- Every machine step of the pivot betree is one of the map. -/
theorem isMap : Composite.IsMap (KvSystem.graphs app (fun n => n = emptyNode)) Abs := by
  constructor
  · rintro g ⟨n, rfl, rfl, _⟩
    refine ⟨?_, fun d => ⟨?_, fun k => ?_⟩⟩
    · intro r n hr
      by_cases e : r = rootRef
      · subst e
        rw [PMap.insert_same] at hr; cases hr
        exact empty_good
      · rw [PMap.insert_other _ _ e] at hr; cases hr
    · intro r n hr hs
      obtain ⟨n0, h1, rfl⟩ := Option.map_eq_some_iff.mp hr
      by_cases e : r = rootRef
      · subst e
        rw [PMap.insert_same] at h1; cases h1
        obtain ⟨cs, h2, _⟩ := I_succs hs
        cases h2
      · rw [PMap.insert_other _ _ e] at h1; cases h1
    · exact (Eval.leaf (PMap.insert_same _ _ _) (empty_view k) rfl rfl).abs d
  · intro g m u g' ha h
    rcases h with ⟨reads, ops, h1, h2, h3⟩ | ⟨rfl, ref, h1, h2, h3, rfl⟩
    · exact step_map ha h1 h2 h3
    · refine ⟨m, .stutter, ?_, fun d => ?_⟩
      · intro r n hr
        by_cases e : r = ref
        · subst e; simp at hr
        · rw [PMap.remove_other _ e] at hr; exact ha.good r n hr
      · have : gI d (g.remove ref) = (gI d g).remove ref := by
          funext x
          by_cases e : x = ref
          · subst e; simp [gI]
          · simp [gI, PMap.remove_other _ e]
        rw [this]
        refine Betree.free_map (ha.abs d) h2 ?_
        intro x n hx hs
        obtain ⟨n0, h4, rfl⟩ := Option.map_eq_some_iff.mp hx
        exact h3 x n0 h4 (I_succs hs)

/-- The lookup that finds the value of a key. -/
theorem eval_lookup {g : Graph Node} (hg : AllGood g) {r k v} (h : Eval g r k v) :
    ∃ n xs, Follows (⟨r, n, k⟩ :: xs) ∧
      (∀ y ∈ (⟨r, n, k⟩ : Layer) :: xs, Bounded y.node.pivots y.key) ∧
      (∀ y ∈ (⟨r, n, k⟩ : Layer) :: xs, g y.ref = some y.node) ∧
      interpretLeaf (⟨r, n, k⟩ :: xs) = .define v := by
  have bd : ∀ {n k x}, view n k = some x → Bounded n.pivots k := by
    intro n k x h
    by_contra hc
    rw [view_none hc] at h; cases h
  have one : ∀ {r k n x}, g r = some n → view n k = some x → Follows [⟨r, n, k⟩] ∧
      (∀ y ∈ [(⟨r, n, k⟩ : Layer)], Bounded y.node.pivots y.key) ∧
      (∀ y ∈ [(⟨r, n, k⟩ : Layer)], g y.ref = some y.node) := by
    intro r k n x h1 h2
    refine ⟨fun i hi => by simp at hi, ?_, ?_⟩
    · intro y hy; rw [List.mem_singleton] at hy; subst hy; exact bd h2
    · intro y hy; rw [List.mem_singleton] at hy; subst hy; exact h1
  induction h with
  | @here r k v n x h1 h2 h3 =>
    obtain ⟨a1, a2, a3⟩ := one h1 h2
    refine ⟨n, [], a1, a2, a3, ?_⟩
    rw [view_at (bd h2)] at h2
    cases h2
    simp only at h3
    simp only [interpretLeaf, interpret, List.getLast?_singleton, List.foldl_cons, List.foldl_nil,
      Message.merge, h3]
    split <;> rfl
  | @leaf r k n x h1 h2 h3 h4 =>
    obtain ⟨a1, a2, a3⟩ := one h1 h2
    refine ⟨n, [], a1, a2, a3, ?_⟩
    have hb := bd h2
    rw [view_at hb] at h2
    cases h2
    simp only at h3 h4
    simp only [interpretLeaf, interpret, List.getLast?_singleton, List.foldl_cons, List.foldl_nil,
      Message.merge, h3, (childAt_none (hg _ _ h1) hb).mp h4, if_true]
  | @down r k v n x c h1 h2 h3 h4 _ ih =>
    obtain ⟨n', xs, b1, b2, b3, b4⟩ := ih
    obtain ⟨_, a2, a3⟩ := one h1 h2
    have hb := bd h2
    rw [view_at hb] at h2
    cases h2
    simp only at h3 h4 b1 b2 b3 b4
    refine ⟨n, ⟨c, n', _⟩ :: xs, follows_cons h4 rfl b1, ?_, ?_, ?_⟩
    · intro y hy
      rcases List.mem_cons.mp hy with rfl | hy
      · exact hb
      · exact b2 y hy
    · intro y hy
      rcases List.mem_cons.mp hy with rfl | hy
      · exact h1
      · exact b3 y hy
    · rw [← b4]
      simp only [interpretLeaf, interpret, List.getLast?_cons_cons, List.foldl_cons (l := _ :: _), h3]
      rfl

end Verif.Kv.Pivot
