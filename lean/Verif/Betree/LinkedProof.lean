import Verif.Betree.Linked
/-
The linked betree seen from its root is a filtered betree: proofs for C17.
-/
namespace Verif.LinkedBetree
open Verif FilteredBetree

/-- `Looks d as bs`: the pages `as` hold the buffers `bs`. -/
def Looks (d : BDisk) (as : List Address) (bs : BufferSeq) : Prop := as.map d = bs.map some

/-- `Sees d bd p t`: following `p` one finds the tree `t`. -/
inductive Sees (d : Disk) (bd : BDisk) : Pointer → FilteredBetree.Node → Prop
  | nil : Sees d bd none .nil
  | node {a n bs ts} : d a = some n → Looks bd n.buffers bs → ts.length = n.children.length →
      (∀ i, i < n.children.length → Sees d bd (n.children.getD i none) (ts.getD i .nil)) →
      Sees d bd (some a) (.node ⟨bs, n.flushed⟩ n.pivots ts)

namespace Looks
variable {d : BDisk} {as as' : List Address} {bs bs' : BufferSeq}

theorem length (h : Looks d as bs) : as.length = bs.length := by
  have := congrArg List.length h
  simpa using this

theorem nil : Looks d [] [] := rfl

theorem append (h : Looks d as bs) (h' : Looks d as' bs') : Looks d (as ++ as') (bs ++ bs') := by
  unfold Looks at *; rw [List.map_append, List.map_append, h, h']

theorem take (h : Looks d as bs) (n : Nat) : Looks d (as.take n) (bs.take n) := by
  unfold Looks at *; rw [List.map_take, List.map_take, h]

theorem drop (h : Looks d as bs) (n : Nat) : Looks d (as.drop n) (bs.drop n) := by
  unfold Looks at *; rw [List.map_drop, List.map_drop, h]

theorem single {a b} (h : d a = some b) : Looks d [a] [b] := by simp [Looks, h]

theorem cons_inv {a} (h : Looks d (a :: as) bs) : ∃ b bs', bs = b :: bs' ∧ d a = some b ∧ Looks d as bs' := by
  cases bs with
  | nil => simp [Looks] at h
  | cons b bs => simp only [Looks, List.map_cons, List.cons.injEq] at h; exact ⟨b, bs, rfl, h.1, h.2⟩

theorem get (h : Looks d as bs) (i : Nat) : (as[i]?).map d = (bs[i]?).map some := by
  rw [← List.getElem?_map, ← List.getElem?_map, h]

theorem has (h : Looks d as bs) : d.ValidBuffers as := by
  intro a ha
  obtain ⟨i, hi⟩ := List.getElem?_of_mem ha
  have := h.get i
  rw [hi] at this
  cases hb : bs[i]? with
  | none => rw [hb] at this; cases this
  | some b =>
    rw [hb] at this
    simp only [Option.map_some, Option.some.injEq] at this
    show d a ≠ none
    rw [this]; simp

theorem exists_of (h : d.ValidBuffers as) : ∃ bs, Looks d as bs := by
  induction as with
  | nil => exact ⟨[], rfl⟩
  | cons a as ih =>
    obtain ⟨bs, hb⟩ := ih (fun x hx => h x (by simp [hx]))
    obtain ⟨b, h2⟩ := (PMap.has_iff d a).mp (h a (by simp))
    exact ⟨b :: bs, by simp only [Looks, List.map_cons]; rw [h2, hb]⟩

theorem functional (h : Looks d as bs) (h' : Looks d as bs') : bs = bs' := by
  unfold Looks at *
  rw [h] at h'
  exact (List.map_inj_right (fun _ _ h => Option.some.inj h)).mp h'

theorem mono {d' : BDisk} (hs : PMap.Sub d d') (h : Looks d as bs) : Looks d' as bs := by
  induction as generalizing bs with
  | nil => cases bs with
    | nil => rfl
    | cons b bs => simp [Looks] at h
  | cons a as ih =>
    obtain ⟨b, bs', rfl, h1, h2⟩ := h.cons_inv
    simp only [Looks, List.map_cons]
    rw [hs _ _ h1, ih h2]

theorem agree {d' : BDisk} (hs : PMap.Agrees d' d) (hv : d'.ValidBuffers as) (h : Looks d as bs) :
    Looks d' as bs := by
  induction as generalizing bs with
  | nil => cases bs with
    | nil => rfl
    | cons b bs => simp [Looks] at h
  | cons a as ih =>
    obtain ⟨b, bs', rfl, h1, h2⟩ := h.cons_inv
    obtain ⟨b', h3⟩ := (PMap.has_iff d' a).mp (hv a (by simp))
    have := hs _ _ _ h3 h1
    subst this
    simp only [Looks, List.map_cons]
    rw [h3, ih (fun x hx => hv x (by simp [hx])) h2]

theorem queryAll (h : Looks d as bs) (k : Key) : d.queryAll as k = bs.query k := by
  induction as generalizing bs with
  | nil => cases bs with
    | nil => rfl
    | cons b bs => simp [Looks] at h
  | cons a as ih =>
    obtain ⟨b, bs', rfl, h1, h2⟩ := h.cons_inv
    simp only [BDisk.queryAll, BufferSeq.query, ih h2, BDisk.query, h1]

theorem queryFrom (h : Looks d as bs) (k : Key) (i : Nat) :
    d.queryFrom as k i = bs.queryFrom k i := (h.drop i).queryAll k

theorem keyIn (h : Looks d as bs) (o : Key → Nat) (f : Nat) (k : Key) (i : Nat) :
    d.KeyInBufferFiltered as o f k i ↔ bs.KeyInBufferFiltered o f k i := by
  unfold BDisk.KeyInBufferFiltered BufferSeq.KeyInBufferFiltered BufferSeq.KeyInBuffer
  have hg := h.get i
  refine and_congr (and_congr Iff.rfl ?_) Iff.rfl
  cases ha : as[i]? with
  | none =>
    rw [ha] at hg
    cases hb : bs[i]? with
    | none => simp
    | some b => rw [hb] at hg; cases hg
  | some a =>
    rw [ha] at hg
    cases hb : bs[i]? with
    | none => rw [hb] at hg; cases hg
    | some b =>
      rw [hb] at hg
      simp only [Option.map_some, Option.some.injEq] at hg
      simp [BDisk.QueryableContains, hg]

end Looks

namespace Sees
variable {d : Disk} {bd : BDisk} {p : Pointer} {t : FilteredBetree.Node}

theorem functional {t'} (h : Sees d bd p t) (h' : Sees d bd p t') : t = t' := by
  induction h generalizing t' with
  | nil => cases h'; rfl
  | node h1 h2 h3 _ ih =>
    cases h' with
    | node h1' h2' h3' h4' =>
      rw [h1] at h1'
      cases h1'
      cases h2.functional h2'
      rename_i ts _ ts'
      have : ts = ts' := by
        apply List.ext_getElem (by omega)
        intro i hi hi'
        have := ih i (by omega) (h4' i (by omega))
        simpa [List.getD, List.getElem?_eq_getElem hi, List.getElem?_eq_getElem hi'] using this
      rw [this]

theorem mono {d' : Disk} {bd' : BDisk} (hs : PMap.Sub d d') (hb : PMap.Sub bd bd')
    (h : Sees d bd p t) : Sees d' bd' p t := by
  induction h with
  | nil => exact .nil
  | node h1 h2 h3 _ ih => exact .node (hs _ _ h1) (h2.mono hb) h3 ih

/-- Dropping pages (nodes and buffers) that are not reached, and adding unreachable buffers. -/
theorem view {d' : Disk} {bd' : BDisk} (hw : d'.WF) (hs : PMap.Sub d' d) (ha : PMap.Agrees bd' bd)
    (h : Sees d bd p t) (hp : d'.Nondangling p)
    (hb : ∀ a n b, Reach d p a → d a = some n → b ∈ n.buffers → bd'.Has b) : Sees d' bd' p t := by
  induction h with
  | nil => exact .nil
  | node h1 h2 h3 h4 ih =>
    rename_i a n bs ts
    obtain ⟨n', hn'⟩ := (PMap.has_iff d' a).mp (hp a rfl)
    have := hs _ _ hn'
    rw [h1] at this
    cases this
    refine .node hn' (h2.agree ha fun b hb' => hb a n b (.here h1) h1 hb') h3 fun i hi => ?_
    refine ih i hi ((hw.2.1 a n hn').1 i hi) fun a' n' b hr hn hb' => ?_
    exact hb a' n' b (.down h1 hi hr) hn hb'

theorem some_inv {a} (h : Sees d bd (some a) t) : ∃ n bs ts, t = .node ⟨bs, n.flushed⟩ n.pivots ts ∧
    d a = some n ∧ Looks bd n.buffers bs ∧ ts.length = n.children.length ∧
    ∀ i, i < n.children.length → Sees d bd (n.childAt i) (ts.getD i .nil) := by
  cases h with
  | node h1 h2 h3 h4 => exact ⟨_, _, _, rfl, h1, h2, h3, h4⟩

/-- A well-formed disk shows well-formed trees. -/
theorem wf (hw : d.WF) (h : Sees d bd p t) : t.WF layer := by
  induction h with
  | nil => exact Tree.wf_nil
  | node h1 h2 h3 h4 ih =>
    rename_i a n bs ts
    obtain ⟨w1, w2, w3, w4⟩ := hw.1 a n h1
    rw [Tree.wf_node]
    refine ⟨w1, by omega, ⟨by show ts.length = n.flushed.length; omega, ?_⟩, ?_⟩
    · show BufferOffsets.AllLte n.flushed bs.length
      rw [← h2.length]; exact w4
    · intro i c hc
      have hi : i < n.children.length := by
        have := (List.getElem?_eq_some_iff.mp hc).1; omega
      have hg : ts.getD i .nil = c := by simp [List.getD, hc]
      refine ⟨hg ▸ ih i hi, fun hn => ?_⟩
      have hs := h4 i hi
      rw [hg] at hs
      have hl := (hw.2.1 a n h1).2 i hi
      unfold Disk.ChildLinked LNode.childAt at hl
      cases hp : n.children.getD i none with
      | none => rw [hp] at hs; cases hs; exact absurd hn (fun h => h)
      | some b =>
        rw [hp] at hs
        obtain ⟨m, bs', ts', rfl, hm, _⟩ := hs.some_inv
        exact hl b m hp hm

theorem nonempty {d : Disk} {bd : BDisk} {p : Pointer} {r : PMap Address Nat} (hr : d.ValidRanking r)
    (hp : d.Nondangling p) (hpr : ∀ a, p = some a → r.Has a)
    (hb : ∀ a n b, Reach d p a → d a = some n → b ∈ n.buffers → bd.Has b) :
    ∃ t, Sees d bd p t := by
  cases p with
  | none => exact ⟨_, .nil⟩
  | some a =>
    obtain ⟨ra, hra⟩ := (PMap.has_iff r a).mp (hpr a rfl)
    induction ra using Nat.strongRecOn generalizing a with
    | _ ra ih =>
      obtain ⟨n, hn⟩ := (PMap.has_iff d a).mp (hp a rfl)
      obtain ⟨bs, hbs⟩ := Looks.exists_of (d := bd) (as := n.buffers)
        (fun b hb' => hb a n b (.here hn) hn hb')
      have hc : ∀ i, ∃ t, i < n.children.length → Sees d bd (n.childAt i) t := by
        intro i
        by_cases hi : i < n.children.length
        · cases hc : n.childAt i with
          | none => exact ⟨_, fun _ => .nil⟩
          | some c =>
            obtain ⟨rc, hrc, hlt⟩ := hr.2 a n ra hn hra i c hi hc
            obtain ⟨t, ht⟩ := ih rc hlt c
              (by have := (hr.1.2.1 a n hn).1 i hi; rw [hc] at this; exact this)
              (by intro a' ha'; cases ha'; exact (PMap.has_iff r c).mpr ⟨rc, hrc⟩)
              (fun a' n' b h1 h2 h3 => hb a' n' b (.down hn hi (by rw [hc]; exact h1)) h2 h3) hrc
            exact ⟨t, fun _ => ht⟩
        · exact ⟨.nil, fun h => absurd h hi⟩
      let f := fun i => Classical.choose (hc i)
      have hf : ∀ i, i < n.children.length → Sees d bd (n.childAt i) (f i) :=
        fun i => Classical.choose_spec (hc i)
      refine ⟨_, .node hn hbs (ts := (List.range n.children.length).map f) (by simp) ?_⟩
      intro i hi
      have := hf i hi
      have he : ((List.range n.children.length).map f).getD i .nil = f i := by
        simp [List.getD, List.getElem?_range hi]
      rw [he]; exact this

theorem acyclic {d : Disk} {bd : BDisk} {p : Pointer} (hw : d.WF) (h : Sees d bd p t) :
    (⟨p, d, bd⟩ : Linked).Acyclic := by
  have hp : d.Nondangling p := by
    intro a ha
    subst ha
    obtain ⟨n, _, _, _, hn, _⟩ := h.some_inv
    exact (PMap.has_iff d a).mpr ⟨n, hn⟩
  refine ⟨⟨hw, hp⟩, ?_⟩
  classical
  refine ⟨fun a => if h : ∃ t, Sees d bd (some a) t then some (sizeOf (Classical.choose h)) else none,
    ⟨hw, hp⟩, ⟨hw, ?_⟩, ?_⟩
  · intro a n ra hn hra i c hi hc
    simp only at hra ⊢
    split at hra
    · rename_i he
      cases hra
      obtain ⟨m, bs, ts, ht, hm, _, hl, hk⟩ := (Classical.choose_spec he).some_inv
      have hn' : d a = some n := hn
      rw [hn'] at hm
      cases hm
      have hs := hk i hi
      rw [hc] at hs
      have he' : ∃ t, Sees d bd (some c) t := ⟨_, hs⟩
      rw [dif_pos he']
      refine ⟨_, rfl, ?_⟩
      rw [ht, (Classical.choose_spec he').functional hs]
      have : ts.getD i .nil ∈ ts := by
        have hi' : i < ts.length := by rw [hl]; exact hi
        simp only [List.getD, List.getElem?_eq_getElem hi', Option.getD_some]
        exact List.getElem_mem hi'
      have := List.sizeOf_lt_of_mem this
      generalize ts.getD i .nil = c at this
      simp only [Tree.node.sizeOf_spec]; omega
    · cases hra
  · rintro - a ha
    cases ha
    show (if h : ∃ t, Sees d bd (some a) t then some (sizeOf (Classical.choose h)) else none) ≠ none
    rw [dif_pos ⟨t, h⟩]
    simp

end Sees

/-- Children seen one by one. -/
def Kids (d : Disk) (bd : BDisk) (ps : List Pointer) (ts : List FilteredBetree.Node) : Prop :=
  ts.length = ps.length ∧ ∀ i, i < ps.length → Sees d bd (ps.getD i none) (ts.getD i .nil)

namespace Kids
variable {d : Disk} {bd : BDisk} {ps : List Pointer} {ts : List FilteredBetree.Node}

theorem mono {d' : Disk} {bd' : BDisk} (hs : PMap.Sub d d') (hb : PMap.Sub bd bd')
    (h : Kids d bd ps ts) : Kids d' bd' ps ts := ⟨h.1, fun i hi => (h.2 i hi).mono hs hb⟩

theorem set (h : Kids d bd ps ts) (i : Nat) {p t} (hp : Sees d bd p t) :
    Kids d bd (ps.set i p) (ts.set i t) := by
  refine ⟨by simp [h.1], fun j hj => ?_⟩
  have hj' : j < ps.length := by simpa using hj
  by_cases hij : i = j
  · subst hij
    simpa [List.getD, List.getElem?_set, hj', h.1] using hp
  · have := h.2 j hj'
    simpa [List.getD, List.getElem?_set, hij] using this

theorem insert (h : Kids d bd ps ts) {i : Nat} (hi : i ≤ ps.length) {p t} (hp : Sees d bd p t) :
    Kids d bd (ps.insertIdx i p) (ts.insertIdx i t) := by
  have hl := h.1
  have h1 : (ps.insertIdx i p).length = ps.length + 1 := List.length_insertIdx_of_le_length hi _
  have h2 : (ts.insertIdx i t).length = ts.length + 1 :=
    List.length_insertIdx_of_le_length (by omega) _
  refine ⟨by omega, fun j hj => ?_⟩
  rw [h1] at hj
  simp only [List.getD, List.getElem?_insertIdx]
  by_cases h3 : j < i
  · simp only [if_pos h3]
    exact h.2 j (by omega)
  · by_cases h4 : j = i
    · subst h4
      rw [if_neg h3, if_neg h3]
      simpa [hi, hl] using hp
    · simp only [if_neg h3, if_neg h4]
      exact h.2 (j - 1) (by omega)

theorem take (h : Kids d bd ps ts) (n : Nat) : Kids d bd (ps.take n) (ts.take n) := by
  have hl := h.1
  refine ⟨by simp [hl], fun j hj => ?_⟩
  have hj' : j < n ∧ j < ps.length := by simp at hj; omega
  simp only [List.getD, List.getElem?_take, if_pos hj'.1]
  exact h.2 j hj'.2

theorem drop (h : Kids d bd ps ts) (n : Nat) : Kids d bd (ps.drop n) (ts.drop n) := by
  have hl := h.1
  refine ⟨by simp [hl], fun j hj => ?_⟩
  have hj' : n + j < ps.length := by simp at hj; omega
  simp only [List.getD, List.getElem?_drop]
  exact h.2 (n + j) hj'

theorem single {p t} (hp : Sees d bd p t) : Kids d bd [p] [t] := by
  refine ⟨rfl, fun i hi => ?_⟩
  have : i = 0 := by simpa using hi
  subst this
  exact hp

end Kids

/-- Build what a freshly written node shows. -/
theorem sees_intro {d : Disk} {bd : BDisk} {a : Address} {n : LNode} {bs : BufferSeq} {ts}
    (h : d a = some n) (hb : Looks bd n.buffers bs) (hk : Kids d bd n.children ts) :
    Sees d bd (some a) (.node ⟨bs, n.flushed⟩ n.pivots ts) := .node h hb hk.1 hk.2

/-- What a linked tree with a root shows. -/
theorem sees_root {l : Linked} {t} (h : Sees l.dv l.bdv l.root t) (hr : l.HasRoot) :
    ∃ a bs ts, l.root = some a ∧ l.dv a = some l.node ∧
      t = .node ⟨bs, l.node.flushed⟩ l.node.pivots ts ∧ Looks l.bdv l.node.buffers bs ∧
      Kids l.dv l.bdv l.node.children ts := by
  obtain ⟨a, ha, _⟩ := hr
  rw [ha] at h
  obtain ⟨n, bs, ts, ht, hn, h1, h2, h3⟩ := h.some_inv
  have : l.node = n := by simp [Linked.node, ha, hn]
  rw [← this] at ht hn h1 h2 h3
  exact ⟨a, bs, ts, ha, hn, ht, h1, h2, h3⟩

theorem hasRoot_iff {l : Linked} {t} (h : Sees l.dv l.bdv l.root t) : l.HasRoot ↔ t.IsNode := by
  constructor
  · intro hr
    obtain ⟨_, _, _, _, _, rfl, _⟩ := sees_root h hr
    trivial
  · intro hn
    cases hp : l.root with
    | none => rw [hp] at h; cases h; exact absurd hn (fun h => h)
    | some a =>
      rw [hp] at h
      obtain ⟨n, _, _, _, hn', _⟩ := h.some_inv
      exact ⟨a, hp, (PMap.has_iff _ _).mpr ⟨n, hn'⟩⟩

/-- The pointer of a listed child shows the listed tree. -/
theorem sees_child {l : Linked} {ts} {i : Nat} (h : Kids l.dv l.bdv l.node.children ts)
    (hi : l.node.ValidChildIndex i) :
    Sees (l.childAtIdx i).dv (l.childAtIdx i).bdv (l.childAtIdx i).root (ts.getD i .nil) :=
  h.2 i hi

theorem nondangling_of {d : Disk} {bd p t} (h : Sees d bd p t) : d.Nondangling p := by
  intro a ha
  subst ha
  obtain ⟨n, _, _, _, hn, _⟩ := h.some_inv
  exact (PMap.has_iff _ _).mpr ⟨n, hn⟩

/-- The invariant of LinkedBetree_v.rs 810-815 says: the disk is well formed and shows a tree that
is empty or covers all keys. -/
theorem inv_iff (l : Linked) :
    l.Inv ↔ l.dv.WF ∧ ∃ t, Sees l.dv l.bdv l.root t ∧ Tree.RootOk layer t := by
  constructor
  · rintro ⟨⟨hw, r, _, hr, hroot⟩, hb, hd⟩
    obtain ⟨t, ht⟩ := Sees.nonempty (bd := l.bdv) hr hw.2 (fun a ha => hroot ⟨a, ha, hw.2 a ha⟩ a ha)
      (fun a n b h1 h2 h3 => hb b ⟨a, n, h1, h2, h3⟩)
    refine ⟨hw.1, t, ht, ht.wf hw.1, fun hn => ?_⟩
    have hr := (hasRoot_iff ht).mpr hn
    obtain ⟨_, _, _, _, _, rfl, _⟩ := sees_root ht hr
    exact hd hr
  · rintro ⟨hw, t, ht, hok⟩
    refine ⟨ht.acyclic hw, ?_, ?_⟩
    · rintro b ⟨a, n, hr, hn, hb⟩
      have : ∀ {p}, Reach l.dv p a → ∀ {t}, Sees l.dv l.bdv p t → l.bdv.Has b := by
        clear ht hok hr t
        intro p hr
        induction hr with
        | here h =>
          intro t ht
          obtain ⟨m, _, _, _, hm, h2, _⟩ := ht.some_inv
          rw [hn] at hm
          cases hm
          exact h2.has b hb
        | down h hi _ ih =>
          intro t ht
          obtain ⟨m, _, _, _, hm, _, _, hk⟩ := ht.some_inv
          rw [h] at hm
          cases hm
          exact ih hn (hk _ hi)
      exact this hr ht
    · intro hr
      obtain ⟨_, _, _, _, _, rfl, _⟩ := sees_root ht hr
      exact hok.2 trivial

/-! ### Paths -/

theorem sub_refl {K V : Type} (m : PMap K V) : PMap.Sub m m := fun _ _ h => h

theorem sub_trans {K V : Type} {a b c : PMap K V} (h : PMap.Sub a b) (h' : PMap.Sub b c) :
    PMap.Sub a c := fun k v hk => h' k v (h k v hk)

theorem sub_insert {K V : Type} [DecidableEq K] {m : PMap K V} {k : K} {v : V} (h : ¬ m.Has k) :
    PMap.Sub m (m.insert k v) := by
  intro x w hx
  have : x ≠ k := by
    intro e; subst e
    exact h ((PMap.has_iff _ _).mpr ⟨w, hx⟩)
  rw [PMap.insert_other _ _ this]; exact hx

theorem has_insert {K V : Type} [DecidableEq K] {m : PMap K V} {k x : K} {v : V} :
    (m.insert k v).Has x ↔ x = k ∨ m.Has x := by
  unfold PMap.Has PMap.insert
  by_cases h : x = k <;> simp [h]

theorem reach_mono {d d' : Disk} (h : PMap.Sub d d') {p a} (hr : Reach d p a) : Reach d' p a := by
  induction hr with
  | here h1 => exact .here (h _ _ h1)
  | down h1 hi _ ih => exact .down (h _ _ h1) hi ih

theorem reach_trans {d : Disk} {p a b} (h : Reach d p a) (h' : Reach d (some a) b) : Reach d p b := by
  induction h with
  | here _ => exact h'
  | down h1 hi _ ih => exact .down h1 hi (ih h')

/-- Pages reached from a pointer that shows a well-formed tree are healthy. -/
theorem reach_healthy {d : Disk} {bd p t a n} (hs : Sees d bd p t) (ht : t.WF layer)
    (hr : Reach d p a) (hn : d a = some n) : n.WF ∧ d.NodeNondangling n ∧ d.NodeLinked n := by
  induction hr generalizing t with
  | here h1 =>
    obtain ⟨m, bs, ts, rfl, hm, hl, hlen, hk⟩ := hs.some_inv
    rw [hn] at hm
    cases hm
    obtain ⟨w1, w2, ⟨w3, w4⟩, w5⟩ := Tree.wf_node.mp ht
    have w3 : ts.length = n.flushed.length := w3
    have w4 : BufferOffsets.AllLte n.flushed bs.length := w4
    refine ⟨⟨w1, by omega, by omega, by rw [hl.length]; exact w4⟩, ?_, ?_⟩
    · intro i hi c hc
      have h2 := hk i hi
      rw [hc] at h2
      obtain ⟨m, _, _, _, hm, _⟩ := h2.some_inv
      exact (PMap.has_iff _ _).mpr ⟨m, hm⟩
    · intro i hi c m hc hm
      have h2 := hk i hi
      rw [hc] at h2
      obtain ⟨m', bs', ts', he, hm', _⟩ := h2.some_inv
      rw [hm] at hm'
      cases hm'
      have hti : ts[i]? = some (ts.getD i .nil) := by
        have hi : i < n.children.length := hi
        have : i < ts.length := by omega
        simp [List.getD, List.getElem?_eq_getElem this]
      rw [he] at hti
      exact (w5 i _ hti).2 trivial
  | down h1 hi _ ih =>
    obtain ⟨m, bs, ts, rfl, hm, hl, hlen, hk⟩ := hs.some_inv
    rw [h1] at hm
    cases hm
    refine ih (hk _ hi) ?_ hn
    rename_i i _ _
    have hti : ts[i]? = some (ts.getD i .nil) := by
      have hi : i < _ := hi
      have : i < ts.length := by omega
      simp [List.getD, List.getElem?_eq_getElem this]
    exact ((Tree.wf_node.mp ht).2.2.2 i _ hti).1

/-- Adding reachable pages that show a well-formed tree keeps the disk well formed. -/
theorem extend_wf {d d' : Disk} {bd p t} (hw : d.WF) (hsub : PMap.Sub d d') (hfin : PMap.Finite d')
    (hnew : ∀ a, d'.Has a → d.Has a ∨ Reach d' p a) (hs : Sees d' bd p t) (ht : t.WF layer) :
    d'.WF := by
  have old : ∀ a n, d' a = some n → d.Has a → d a = some n := by
    intro a n hn h
    obtain ⟨m, hm⟩ := (PMap.has_iff _ _).mp h
    have := hsub _ _ hm
    rw [hn] at this
    cases this
    exact hm
  have key : ∀ a n, d' a = some n → n.WF ∧ d'.NodeNondangling n ∧ d'.NodeLinked n := by
    intro a n hn
    rcases hnew a ((PMap.has_iff _ _).mpr ⟨n, hn⟩) with h | h
    · have h1 := old a n hn h
      obtain ⟨h2, h3⟩ := hw.2.1 a n h1
      refine ⟨hw.1 a n h1, fun i hi c hc => ?_, fun i hi c m hc hm => ?_⟩
      · obtain ⟨m, hm⟩ := (PMap.has_iff _ _).mp (h2 i hi c hc)
        exact (PMap.has_iff _ _).mpr ⟨m, hsub _ _ hm⟩
      · exact h3 i hi c m hc (old c m hm (h2 i hi c hc))
    · exact reach_healthy hs ht h hn
  exact ⟨fun a n h => (key a n h).1, fun a n h => (key a n h).2, hfin⟩

/-- The child a bounded key is routed to. -/
theorem route_child {n : LNode} {k : Key} (h : n.KeyInDomain k) :
    ∃ i, n.pivots.route k = (i : Nat) ∧ n.ValidChildIndex i := by
  obtain ⟨i, hi, hlt, _⟩ := PivotTable.route_lemma h.1.1 h.2
  exact ⟨i, hi, by unfold LNode.ValidChildIndex; rw [h.1.2.1]; exact hlt⟩

theorem sees_childForKey {l : Linked} {bs} {ts : List FilteredBetree.Node} {k : Key}
    (hk : Kids l.dv l.bdv l.node.children ts) (hd : l.node.KeyInDomain k) :
    Sees l.dv l.bdv (l.childForKey k).root
      ((Tree.node (P := Payload) ⟨bs, l.node.flushed⟩ l.node.pivots ts).child k) := by
  obtain ⟨i, hi, hv⟩ := route_child hd
  have := hk.2 i hv
  simp only [Linked.childForKey, LNode.childPtr, LNode.childAt, Tree.child, Tree.children,
    Tree.pivots, hi, Int.toNat_natCast]
  exact this

theorem index_of {l : Linked} {bs} {ts : List FilteredBetree.Node}
    (hk : Kids l.dv l.bdv l.node.children ts) (h : l.node.IsIndex) :
    (Tree.node (P := Payload) ⟨bs, l.node.flushed⟩ l.node.pivots ts).IsIndex := by
  intro c hc
  obtain ⟨i, hi⟩ := List.getElem?_of_mem hc
  have hl : i < l.node.children.length := by
    have := (List.getElem?_eq_some_iff.mp hi).1; have := hk.1; omega
  have hs := hk.2 i hl
  have hg : ts.getD i .nil = c := by simp [List.getD, hi]
  rw [hg] at hs
  have hne := h i hl
  unfold LNode.childAt at hne
  cases hp : l.node.children.getD i none with
  | none => exact absurd hp hne
  | some a =>
    rw [hp] at hs
    obtain ⟨_, _, _, rfl, _⟩ := hs.some_inv
    trivial

theorem path_spec {key : Key} : ∀ (depth : Nat) {l : Linked} {t}, Sees l.dv l.bdv l.root t →
    Path.ValidFrom l key depth →
    TreePath.ValidFrom layer t key depth ∧
    (Path.targetFrom l key depth).dv = l.dv ∧ (Path.targetFrom l key depth).bdv = l.bdv ∧
    Sees l.dv l.bdv (Path.targetFrom l key depth).root (TreePath.targetFrom t key depth)
  | 0, l, t, hs, hv => by
    obtain ⟨hr, ha, hk⟩ := hv
    have hw := hs.wf ha.1.1
    obtain ⟨a, bs, ts, _, _, rfl, _, _⟩ := sees_root hs hr
    exact ⟨⟨hw, hw, trivial, hk.2⟩, rfl, rfl, hs⟩
  | depth + 1, l, t, hs, hv => by
    obtain ⟨hr, ha, hk, hx, hv⟩ := hv
    have hw := hs.wf ha.1.1
    obtain ⟨a, bs, ts, _, _, rfl, _, hkids⟩ := sees_root hs hr
    have hc := sees_childForKey (bs := bs) hkids hk
    obtain ⟨h1, h2, h3, h4⟩ := path_spec depth (l := l.childForKey key) hc hv
    exact ⟨⟨hw, ⟨hw, trivial, hk.2⟩, index_of hkids hx, h1⟩, h2, h3, h4⟩

theorem substitute_spec {key : Key} {r : Linked} {t'} :
    ∀ (depth : Nat) {l : Linked} {t} {as : List Address}, Sees l.dv l.bdv l.root t →
    Path.ValidFrom l key depth → PMap.Sub l.dv r.dv → PMap.Sub l.bdv r.bdv →
    Sees r.dv r.bdv r.root t' → as.Nodup → depth = as.length → (∀ a ∈ as, ¬ r.dv.Has a) →
    let s := Path.substituteFrom l key r depth as
    s.bdv = r.bdv ∧ PMap.Sub r.dv s.dv ∧
    (∀ a, s.dv.Has a → r.dv.Has a ∨ a ∈ as ∧ Reach s.dv s.root a) ∧
    Sees s.dv s.bdv s.root (TreePath.substituteFrom layer t key t' depth) ∧
    ∀ a, Reach r.dv r.root a → Reach s.dv s.root a
  | 0, l, t, as, _, _, _, _, hr, _, _, _ =>
    ⟨rfl, sub_refl _, fun _ h => .inl h, hr, fun _ h => h⟩
  | depth + 1, l, t, [], _, _, _, _, _, _, hl, _ => by simp at hl
  | depth + 1, l, t, a :: as, hs, hv, hd, hb, hr, hn, hl, hf => by
    obtain ⟨hroot, ha, hk, hx, hv⟩ := hv
    obtain ⟨_, bs, ts, _, hnode, rfl, hlook, hkids⟩ := sees_root hs hroot
    have hc := sees_childForKey (bs := bs) hkids hk
    obtain ⟨hna, hnd⟩ := List.nodup_cons.mp hn
    obtain ⟨h1, h2, h3, h4, h5⟩ := substitute_spec depth (l := l.childForKey key) (as := as) hc hv
      hd hb hr hnd (by simpa using hl) (fun x hx => hf x (by simp [hx]))
    have hfresh : ¬ (Path.substituteFrom (l.childForKey key) key r depth as).dv.Has a := by
      intro h
      rcases h3 a h with h | h
      · exact hf a (by simp) h
      · exact hna h.1
    simp only [Path.substituteFrom, List.drop_succ_cons, List.drop_zero, List.getD_cons_zero]
    generalize Path.substituteFrom (l.childForKey key) key r depth as = s at *
    have hsub := sub_insert (v := { l.node with
      children := l.node.children.set (l.node.pivots.route key).toNat s.root }) hfresh
    have down : ∀ x, Reach s.dv s.root x → Reach (s.dv.insert a { l.node with
        children := l.node.children.set (l.node.pivots.route key).toNat s.root }) (some a) x := by
      intro x hx
      obtain ⟨i, hi, hv⟩ := route_child hk
      have hi' : (l.node.pivots.route key).toNat = i := by rw [hi]; rfl
      have hv : i < l.node.children.length := hv
      refine .down (i := i) (PMap.insert_same _ _ _)
        (by show i < (l.node.children.set _ _).length; rw [List.length_set]; exact hv) ?_
      have : (LNode.mk l.node.buffers l.node.pivots
          (l.node.children.set (l.node.pivots.route key).toNat s.root) l.node.flushed).childAt i
          = s.root := by
        simp [LNode.childAt, List.getD, hi', hv]
      rw [this]
      exact reach_mono hsub hx
    refine ⟨trivial, sub_trans h2 hsub, ?_, ?_, fun x hx => down x (h5 x hx)⟩
    · intro x hx
      rcases has_insert.mp hx with rfl | hx
      · exact .inr ⟨by simp, .here (PMap.insert_same _ _ _)⟩
      · rcases h3 x hx with h | h
        · exact .inl h
        · exact .inr ⟨by simp [h.1], down x h.2⟩
    · have hkids' : Kids (s.dv.insert a { l.node with
          children := l.node.children.set (l.node.pivots.route key).toNat s.root }) r.bdv
          (l.node.children.set (l.node.pivots.route key).toNat s.root)
          (ts.set (l.node.pivots.route key).toNat (TreePath.substituteFrom layer
            ((Tree.node (P := Payload) ⟨bs, l.node.flushed⟩ l.node.pivots ts).child key) key t'
            depth)) := by
        refine Kids.set (hkids.mono (sub_trans (sub_trans hd h2) hsub) hb) _ (h4.mono hsub ?_)
        rw [h1]; exact sub_refl _
      exact sees_intro (n := { l.node with
          children := l.node.children.set (l.node.pivots.route key).toNat s.root })
        (PMap.insert_same _ _ _) (hlook.mono hb) hkids'

/-! ### Operations on nodes -/

/-- A piece of the disk that was written without touching what was there. -/
structure Writes (l l' : Linked) (as : PSet Address) (t' : FilteredBetree.Node) : Prop where
  dv : PMap.Sub l.dv l'.dv
  bdv : PMap.Sub l.bdv l'.bdv
  only : ∀ a, l'.dv.Has a → l.dv.Has a ∨ as a ∧ Reach l'.dv l'.root a
  fin : PMap.Finite l.dv → PMap.Finite l'.dv
  sees : Sees l'.dv l'.bdv l'.root t'

theorem finite_insert {K V : Type} [DecidableEq K] {m : PMap K V} {k : K} {v : V} (h : m.Finite) :
    (m.insert k v).Finite := by
  obtain ⟨l, hl⟩ := h
  refine ⟨k :: l, fun x hx => ?_⟩
  rcases has_insert.mp hx with rfl | hx
  · simp
  · exact List.mem_cons_of_mem _ (hl x hx)

/-- What was written leaves the disk well formed. -/
theorem Writes.wf {l l' : Linked} {as t'} (h : Writes l l' as t') (hw : l.dv.WF)
    (ht : t'.WF layer) : l'.dv.WF :=
  extend_wf hw h.dv (h.fin hw.2.2) (fun a ha => (h.only a ha).imp id (·.2)) h.sees ht

theorem push_spec {l : Linked} {t} {x : TwoAddrs} {m : Memtable} (hs : Sees l.dv l.bdv l.root t)
    (hf : l.IsFresh x.repr) :
    Writes l (l.pushMemtable m.buffer x) x.repr (Node.pushMemtable t m) := by
  have hb : PMap.Sub l.bdv (l.bdv.insert x.addr2 m.buffer) := sub_insert (hf.2 _ (.inr rfl))
  unfold Linked.pushMemtable
  by_cases hr : l.HasRoot
  · simp only [if_pos hr]
    have hd : PMap.Sub l.dv (l.dv.insert x.addr1 (l.node.extendBufferSeq [x.addr2])) :=
      sub_insert (hf.1 _ (.inl rfl))
    obtain ⟨_, bs, ts, _, hnode, rfl, hlook, hkids⟩ := sees_root hs hr
    refine ⟨hd, hb, ?_, finite_insert, ?_⟩
    · intro a ha
      rcases has_insert.mp ha with rfl | h
      · exact .inr ⟨.inl rfl, .here (PMap.insert_same _ _ _)⟩
      · exact .inl h
    · exact sees_intro (n := l.node.extendBufferSeq [x.addr2]) (bs := bs ++ [m.buffer])
        (PMap.insert_same _ _ _)
        ((hlook.mono hb).append (Looks.single (PMap.insert_same _ _ _))) (hkids.mono hd hb)
  · simp only [if_neg hr]
    have hn : ¬ t.IsNode := fun h => hr ((hasRoot_iff hs).mpr h)
    have hd : PMap.Sub l.dv
        (l.dv.insert x.addr1 ((LNode.emptyRoot .total).extendBufferSeq [x.addr2])) :=
      sub_insert (hf.1 _ (.inl rfl))
    cases t with
    | node => exact absurd trivial hn
    | nil =>
      refine ⟨hd, hb, ?_, finite_insert, ?_⟩
      · intro a ha
        rcases has_insert.mp ha with rfl | h
        · exact .inr ⟨.inl rfl, .here (PMap.insert_same _ _ _)⟩
        · exact .inl h
      · exact sees_intro (n := (LNode.emptyRoot .total).extendBufferSeq [x.addr2])
          (bs := [m.buffer]) (PMap.insert_same _ _ _)
          (Looks.single (PMap.insert_same _ _ _)) (Kids.single .nil)

theorem grow_spec {l : Linked} {t} {a : Address} (hs : Sees l.dv l.bdv l.root t)
    (hf : l.IsFresh (fun b => b = a)) : Writes l (l.grow a) (fun b => b = a) (t.grow layer) := by
  have hd : PMap.Sub l.dv (l.grow a).dv := sub_insert (hf.1 _ rfl)
  refine ⟨hd, sub_refl _, ?_, finite_insert, ?_⟩
  · intro x hx
    rcases has_insert.mp hx with rfl | h
    · exact .inr ⟨rfl, .here (PMap.insert_same _ _ _)⟩
    · exact .inl h
  · exact sees_intro (n := ⟨[], .ofDomain .total, [l.root], [0]⟩) (bs := [])
      (PMap.insert_same _ _ _) Looks.nil (Kids.single (hs.mono hd (sub_refl _)))

theorem flush_spec {l : Linked} {t} {x : TwoAddrs} {i gc : Nat} (hs : Sees l.dv l.bdv l.root t)
    (hf : l.IsFresh x.repr) (hx : x.NoDup) (h : l.CanFlush i gc) :
    Node.CanFlush t i gc ∧ Writes l (l.flush i gc x) x.repr (Node.flush t i gc) := by
  obtain ⟨hw, hr, ho, hg⟩ := h
  have htw := hs.wf hw.1
  obtain ⟨_, bs, ts, _, hnode, rfl, hlook, hkids⟩ := sees_root hs hr
  have hlen := hlook.length
  have hc := sees_child hkids ho.1
  have hcr : (l.childAtIdx i).HasRoot := by
    cases hp : l.node.childAt i with
    | none => exact absurd hp ho.2
    | some a => exact ⟨a, hp, nondangling_of hc a hp⟩
  obtain ⟨_, cbs, cts, _, hcnode, hct, hclook, hckids⟩ := sees_root hc hcr
  have hi : i < ts.length := by rw [hkids.1]; exact ho.1
  constructor
  · refine ⟨htw, trivial, hi, ?_⟩
    show BufferOffsets.AllGte (BufferOffsets.update l.node.flushed i bs.length) gc
    rw [← hlen]; exact hg
  · generalize hnr : (⟨(l.node.buffers.take l.node.buffers.length).drop gc, l.node.pivots,
      l.node.children.set i (some x.addr2), BufferOffsets.shiftLeft
        (BufferOffsets.update l.node.flushed i l.node.buffers.length) gc⟩ : LNode) = nr
    generalize hnc : (l.childAtIdx i).node.extendBufferSeq (l.flushBuffers i) = nc
    have hdv : (l.flush i gc x).dv = (l.dv.insert x.addr1 nr).insert x.addr2 nc := by
      subst hnr; subst hnc; rfl
    have h1 : PMap.Sub l.dv (l.dv.insert x.addr1 nr) := sub_insert (hf.1 _ (.inl rfl))
    have h2 : PMap.Sub (l.dv.insert x.addr1 nr) ((l.dv.insert x.addr1 nr).insert x.addr2 nc) := by
      apply sub_insert
      intro h
      rcases has_insert.mp h with h | h
      · exact hx h.symm
      · exact hf.1 _ (.inr rfl) h
    have hd : PMap.Sub l.dv (l.flush i gc x).dv := by rw [hdv]; exact sub_trans h1 h2
    have hroot : (l.flush i gc x).dv x.addr1 = some nr := by
      rw [hdv]; exact h2 _ _ (PMap.insert_same _ _ _)
    have hchild : (l.flush i gc x).dv x.addr2 = some nc := by
      rw [hdv]; exact PMap.insert_same _ _ _
    refine ⟨hd, sub_refl _, ?_, fun hfin => by rw [hdv]; exact finite_insert (finite_insert hfin), ?_⟩
    · intro a ha
      rw [hdv] at ha
      rcases has_insert.mp ha with rfl | ha
      · refine .inr ⟨.inr rfl, .down (i := i) hroot ?_ ?_⟩
        · subst hnr
          show i < (l.node.children.set i (some x.addr2)).length
          rw [List.length_set]; exact ho.1
        · have : nr.childAt i = some x.addr2 := by
            subst hnr
            have := ho.1
            unfold LNode.ValidChildIndex at this
            simp [LNode.childAt, List.getD, this]
          rw [this]; exact .here hchild
      rcases has_insert.mp ha with rfl | ha
      · exact .inr ⟨.inl rfl, .here hroot⟩
      · exact .inl ha
    · have hsc : Sees (l.flush i gc x).dv l.bdv (some x.addr2)
          (Node.extendBufferSeq ((ts.getD i .nil).promote layer
            ((Tree.node (P := Payload) ⟨bs, l.node.flushed⟩ l.node.pivots ts).childDomain i))
            (bs.slice (l.node.flushed.getD i 0) bs.length)) := by
        rw [hct]
        subst hnc
        refine sees_intro (n := (l.childAtIdx i).node.extendBufferSeq (l.flushBuffers i)) hchild ?_
          (hckids.mono hd (sub_refl _))
        refine hclook.append ?_
        unfold Linked.flushBuffers
        rw [hlen]
        exact (hlook.take _).drop _
      have hk := (hkids.mono hd (sub_refl _)).set i hsc
      subst hnr
      have := sees_intro hroot (bs := (bs.take bs.length).drop gc)
        (by show Looks l.bdv ((l.node.buffers.take l.node.buffers.length).drop gc) _
            rw [hlen]; exact (hlook.take _).drop _) hk
      simp only [hlen] at this
      exact this

theorem compact_spec {l : Linked} {t} {x : TwoAddrs} {a b : Nat} {c : Buffer}
    (hs : Sees l.dv l.bdv l.root t) (hf : l.IsFresh x.repr) (h : l.CanCompact a b c) :
    Node.CanCompact t a b c ∧ Writes l (l.compact a b c x) x.repr (Node.compact t a b c) := by
  obtain ⟨hw, hr, hab, hb, hdom, hval⟩ := h
  have htw := hs.wf hw.1
  obtain ⟨_, bs, ts, _, hnode, rfl, hlook, hkids⟩ := sees_root hs hr
  have hlen := hlook.length
  have hnw := hw.1.1 _ _ hnode
  have hkd : ∀ k, (Tree.node (P := Payload) ⟨bs, l.node.flushed⟩ l.node.pivots ts).KeyInDomain layer k
      ↔ l.node.KeyInDomain k := fun k =>
    ⟨fun h => ⟨hnw, h.2.2⟩, fun h => ⟨htw, trivial, h.2⟩⟩
  have hmo : Node.makeOffsetMap (.node ⟨bs, l.node.flushed⟩ l.node.pivots ts) =
      l.node.makeOffsetMap := by
    funext k
    unfold Node.makeOffsetMap LNode.makeOffsetMap
    by_cases hk : l.node.KeyInDomain k
    · rw [if_pos ((hkd k).mpr hk), if_pos hk]; rfl
    · rw [if_neg (fun h => hk ((hkd k).mp h)), if_neg hk]; exact hlen.symm
  have hsl : Looks l.bdv ((l.node.buffers.take b).drop a) (bs.slice a b) := (hlook.take b).drop a
  constructor
  · refine ⟨htw, trivial, hab, by show b ≤ bs.length; omega, ?_, ?_⟩
    · intro k
      rw [hdom k]
      unfold BDisk.ValidCompactKeyDomain Node.ValidCompactKeyDomain
      rw [hmo, hkd]
      refine and_congr Iff.rfl (and_congr Iff.rfl (exists_congr fun i => ?_))
      exact hsl.keyIn _ _ _ _
    · intro k hk
      rw [hval k hk]
      exact hsl.queryFrom _ _
  · have hd : PMap.Sub l.dv (l.compact a b c x).dv := sub_insert (hf.1 _ (.inl rfl))
    have hbd : PMap.Sub l.bdv (l.compact a b c x).bdv := sub_insert (hf.2 _ (.inr rfl))
    refine ⟨hd, hbd, ?_, finite_insert, ?_⟩
    · intro y hy
      rcases has_insert.mp hy with rfl | h
      · exact .inr ⟨.inl rfl, .here (PMap.insert_same _ _ _)⟩
      · exact .inl h
    · have hl : Looks (l.compact a b c x).bdv
          (l.node.buffers.take a ++ [x.addr2] ++ l.node.buffers.drop b)
          (bs.take a ++ [c] ++ bs.drop b) :=
        ((((hlook.mono hbd).take a).append (Looks.single (PMap.insert_same _ _ _))).append
          ((hlook.mono hbd).drop b))
      exact sees_intro (n := { l.node with
          buffers := l.node.buffers.take a ++ [x.addr2] ++ l.node.buffers.drop b
          flushed := BufferOffsets.adjustCompact l.node.flushed a b })
        (PMap.insert_same _ _ _) hl (hkids.mono hd hbd)

/-- The three pages written by a split. -/
theorem splitWrite_spec {l : Linked} {x : SplitAddrs} {i : Nat} {e : Element} {lr : LNode × LNode}
    {bs lbs rbs : BufferSeq} {ts lts rts : List FilteredBetree.Node}
    (hlook : Looks l.bdv l.node.buffers bs) (hkids : Kids l.dv l.bdv l.node.children ts)
    (hi : l.node.ValidChildIndex i)
    (hf : l.IsFresh x.repr) (hx : x.NoDup)
    (hl : Looks l.bdv lr.1.buffers lbs) (hlk : Kids l.dv l.bdv lr.1.children lts)
    (hr : Looks l.bdv lr.2.buffers rbs) (hrk : Kids l.dv l.bdv lr.2.children rts) :
    Writes l (l.splitWrite i e lr x) x.repr
      (.node ⟨bs, BufferOffsets.dup l.node.flushed i⟩ (l.node.pivots.insert (i + 1) e)
        ((ts.set i (.node ⟨lbs, lr.1.flushed⟩ lr.1.pivots lts)).insertIdx (i + 1)
          (.node ⟨rbs, lr.2.flushed⟩ lr.2.pivots rts))) := by
  generalize hp : (⟨l.node.buffers, l.node.pivots.insert (i + 1) e,
    (l.node.children.set i (some x.left)).insertIdx (i + 1) (some x.right),
    BufferOffsets.dup l.node.flushed i⟩ : LNode) = p
  have hdv : (l.splitWrite i e lr x).dv =
      ((l.dv.insert x.left lr.1).insert x.right lr.2).insert x.parent p := by subst hp; rfl
  obtain ⟨x1, x2, x3⟩ := hx
  have h1 : PMap.Sub l.dv (l.dv.insert x.left lr.1) := sub_insert (hf.1 _ (.inl rfl))
  have h2 : PMap.Sub (l.dv.insert x.left lr.1) ((l.dv.insert x.left lr.1).insert x.right lr.2) := by
    apply sub_insert
    intro h
    rcases has_insert.mp h with h | h
    · exact x1 h.symm
    · exact hf.1 _ (.inr (.inl rfl)) h
  have h3 : PMap.Sub ((l.dv.insert x.left lr.1).insert x.right lr.2)
      (((l.dv.insert x.left lr.1).insert x.right lr.2).insert x.parent p) := by
    apply sub_insert
    intro h
    rcases has_insert.mp h with h | h
    · exact x2 h.symm
    rcases has_insert.mp h with h | h
    · exact x3 h
    · exact hf.1 _ (.inr (.inr rfl)) h
  have hd : PMap.Sub l.dv (l.splitWrite i e lr x).dv := by
    rw [hdv]; exact sub_trans h1 (sub_trans h2 h3)
  have el : (l.splitWrite i e lr x).dv x.left = some lr.1 := by
    rw [hdv]; exact h3 _ _ (h2 _ _ (PMap.insert_same _ _ _))
  have er : (l.splitWrite i e lr x).dv x.right = some lr.2 := by
    rw [hdv]; exact h3 _ _ (PMap.insert_same _ _ _)
  have ep : (l.splitWrite i e lr x).dv x.parent = some p := by
    rw [hdv]; exact PMap.insert_same _ _ _
  have hi' : i < l.node.children.length := hi
  have hplen : p.children.length = l.node.children.length + 1 := by
    subst hp
    show ((l.node.children.set i (some x.left)).insertIdx (i + 1) (some x.right)).length = _
    rw [List.length_insertIdx_of_le_length (by rw [List.length_set]; omega), List.length_set]
  refine ⟨hd, sub_refl _, ?_, fun hfin => by
    rw [hdv]; exact finite_insert (finite_insert (finite_insert hfin)), ?_⟩
  · intro a ha
    rw [hdv] at ha
    rcases has_insert.mp ha with rfl | ha
    · exact .inr ⟨.inr (.inr rfl), .here ep⟩
    rcases has_insert.mp ha with rfl | ha
    · refine .inr ⟨.inr (.inl rfl), .down (i := i + 1) ep
        (by unfold LNode.ValidChildIndex; omega) ?_⟩
      have : p.childAt (i + 1) = some x.right := by
        subst hp
        show ((l.node.children.set i (some x.left)).insertIdx (i + 1) (some x.right)).getD (i + 1) none
          = _
        rw [List.getD, List.getElem?_insertIdx, if_neg (Nat.lt_irrefl _), if_pos rfl,
          if_pos (by rw [List.length_set]; exact hi')]
        rfl
      rw [this]; exact .here er
    rcases has_insert.mp ha with rfl | ha
    · refine .inr ⟨.inl rfl, .down (i := i) ep (by unfold LNode.ValidChildIndex; omega) ?_⟩
      have : p.childAt i = some x.left := by
        subst hp
        simp [LNode.childAt, List.getD, List.getElem?_insertIdx, hi']
      rw [this]; exact .here el
    · exact .inl ha
  · have sl := sees_intro el hl (hlk.mono hd (sub_refl _))
    have sr := sees_intro er hr (hrk.mono hd (sub_refl _))
    have hk := ((hkids.mono hd (sub_refl _)).set i sl).insert (i := i + 1)
      (by rw [List.length_set]; exact hi) sr
    subst hp
    exact sees_intro ep hlook hk

theorem split_spec {l : Linked} {t} {x : SplitAddrs} {r : SplitRequest}
    (hs : Sees l.dv l.bdv l.root t) (hf : l.IsFresh x.repr) (hx : x.NoDup)
    (h : l.CanSplitParent r) :
    t.CanSplitParent layer r ∧ Writes l (l.splitParent r x) x.repr (t.splitParent layer r) := by
  obtain ⟨hw, hr, hi, hcr, h⟩ := h
  have htw := hs.wf hw.1
  obtain ⟨_, bs, ts, _, hnode, rfl, hlook, hkids⟩ := sees_root hs hr
  have hc := sees_child hkids hi
  have hcw := hc.wf hw.1
  obtain ⟨_, cbs, cts, _, hcnode, hct, hclook, hckids⟩ := sees_root hc hcr
  rw [hct] at hcw
  have hts : ts[requestIdx r]? = some (ts.getD (requestIdx r) .nil) := by
    have : requestIdx r < ts.length := by rw [hkids.1]; exact hi
    simp [List.getD, List.getElem?_eq_getElem this]
  cases r with
  | leaf i k =>
    simp only [requestIdx] at *
    obtain ⟨hnw, ⟨hleaf, hfl⟩, hdom, hne⟩ := h
    constructor
    · refine ⟨htw, trivial, _, hts, ?_⟩
      rw [hct]
      refine ⟨hcw, ⟨?_, ?_⟩, hdom, hne⟩
      · have hk := hckids
        rw [hleaf] at hk
        have h1 : cts.length = 1 := hk.1
        have h2 : Sees l.dv l.bdv none (cts.getD 0 .nil) := hk.2 0 (by simp)
        match cts, h1 with
        | [c], _ => cases h2 with | nil => rfl
      · show (l.childAtIdx i).node.flushed.length = 1 ∧ (l.childAtIdx i).node.flushed.getD 0 0 = 0
        rw [hfl]; exact ⟨rfl, rfl⟩
    · have := splitWrite_spec (e := .ofKey k) (lr := (l.childAtIdx i).node.splitLeaf k) hlook hkids hi
        hf hx hclook hckids hclook hckids
      simp only [Tree.splitParent, hct, Linked.splitParent]
      exact this
  | index i j =>
    simp only [requestIdx] at *
    obtain ⟨hnw, hidx, h0, hj⟩ := h
    constructor
    · refine ⟨htw, trivial, _, hts, ?_⟩
      rw [hct]
      exact ⟨hcw, index_of hckids hidx, h0, hj⟩
    · have := splitWrite_spec (e := (l.childAtIdx i).node.pivots.get j)
        (lr := (l.childAtIdx i).node.splitIndex j) hlook hkids hi
        hf hx hclook (hckids.take j) hclook (hckids.drop j)
      simp only [Tree.splitParent, hct, Linked.splitParent]
      exact this

/-- A page-wise operation at the end of a path. -/
theorem path_writes {l : Linked} {t} {p : Path} {nodup : Prop} {repr : PSet Address}
    {pa : List Address} {r : Linked} {t'} (hs : Sees l.dv l.bdv l.root t)
    (hv : ValidPathReplacement l p nodup repr pa) (hf : l.IsFresh (fun a => a ∈ pa))
    (hr : Writes p.target r repr t') :
    Writes l (p.substitute r pa) (fun a => repr a ∨ a ∈ pa)
      (TreePath.substitute layer ⟨t, p.key, p.depth⟩ t') := by
  obtain ⟨hp, hnd, hlen, _, hdis, rfl⟩ := hv
  obtain ⟨_, h2, h3, _⟩ := path_spec p.depth hs hp
  have hd := hr.dv
  have hb := hr.bdv
  have ho := hr.only
  have hfin := hr.fin
  rw [show p.target.dv = p.linked.dv from h2] at hd ho hfin
  rw [show p.target.bdv = p.linked.bdv from h3] at hb
  obtain ⟨s1, s2, s3, s4, s5⟩ := substitute_spec p.depth hs hp hd hb hr.sees hnd hlen (by
    intro a ha h
    rcases ho a h with h | h
    · exact hf.1 a ha h
    · exact hdis a h.1 ha)
  refine ⟨sub_trans hd s2, ?_, ?_, ?_, s4⟩
  · unfold Path.substitute
    rw [s1]; exact hb
  · intro a ha
    rcases s3 a ha with h | h
    · rcases ho a h with h | h
      · exact .inl h
      · exact .inr ⟨.inl h.1, s5 a h.2⟩
    · exact .inr ⟨.inr h.1, h.2⟩
  · intro h
    obtain ⟨as, has⟩ := hfin h
    refine ⟨as ++ pa, fun a ha => ?_⟩
    rcases s3 a ha with h | h
    · exact List.mem_append.mpr (.inl (has a h))
    · exact List.mem_append.mpr (.inr h.1)

theorem target_sees {l : Linked} {t} {p : Path} {nodup : Prop} {repr : PSet Address}
    {pa : List Address} (hs : Sees l.dv l.bdv l.root t)
    (hv : ValidPathReplacement l p nodup repr pa) :
    TreePath.Valid layer ⟨t, p.key, p.depth⟩ ∧ p.target.dv = l.dv ∧ p.target.bdv = l.bdv ∧
    Sees p.target.dv p.target.bdv p.target.root (TreePath.target ⟨t, p.key, p.depth⟩) := by
  obtain ⟨hp, _, _, _, _, rfl⟩ := hv
  obtain ⟨h1, h2, h3, h4⟩ := path_spec p.depth hs hp
  refine ⟨h1, h2, h3, ?_⟩
  rw [show p.target.dv = p.linked.dv from h2, show p.target.bdv = p.linked.bdv from h3]
  exact h4

/-- Garbage collection keeps the view. -/
theorem view_sees {l new : Linked} {t} (hs : Sees l.dv l.bdv l.root t) (hv : l.ValidView new)
    (hb : l.BuffersPreserved new) : Sees new.dv new.bdv new.root t := by
  obtain ⟨hw, hr, hd, hbd⟩ := hv
  rw [← hr]
  exact hs.view hw.1 hd hbd (by rw [hr]; exact hw.2)
    (fun a n b h1 h2 h3 => hb b ⟨a, n, h1, h2, h3⟩)

/-! ### Queries -/

theorem answers_iff {k : Key} {l : Linked} {t} (hw : l.dv.WF) (hs : Sees l.dv l.bdv l.root t)
    (m : Message) : Answers Linked.shape k l m ↔ Answers (Tree.shape layer) k t m := by
  have key : ∀ {l : Linked} {t}, l.dv.WF → Sees l.dv l.bdv l.root t → l.HasRoot →
      (Linked.shape.KeyIn l k ↔ (Tree.shape layer).KeyIn t k) ∧
      Linked.shape.msg l k = (Tree.shape layer).msg t k ∧
      (Linked.shape.KeyIn l k →
        Sees (l.childForKey k).dv (l.childForKey k).bdv (l.childForKey k).root
          ((Tree.shape layer).child t k)) := by
    intro l t hw hs hr
    have htw := hs.wf hw
    obtain ⟨a, bs, ts, ha, hnode, rfl, hlook, hkids⟩ := sees_root hs hr
    refine ⟨⟨fun h => ⟨htw, trivial, h.2.2⟩, fun h => ⟨hlook.has, hw.1 _ _ hnode, h.2.2⟩⟩, ?_, ?_⟩
    · exact hlook.queryFrom k _
    · intro h
      exact sees_childForKey hkids h.2
  constructor
  · intro h
    induction h generalizing t with
    | leaf h1 h2 =>
      have hn : ¬ t.IsNode := fun h => h1 ((hasRoot_iff hs).mpr h)
      exact .leaf hn (hs.wf hw)
    | @node l m h1 h2 h3 h4 ih =>
      obtain ⟨k1, k2, k3⟩ := key hw hs h1
      rw [k2]
      exact .node ((hasRoot_iff hs).mp h1) (hs.wf hw) (k1.mp h3) (ih (by exact hw) (k3 h3))
  · intro h
    induction h generalizing l with
    | leaf h1 h2 => exact .leaf (fun h => h1 ((hasRoot_iff hs).mp h)) (hs.acyclic hw)
    | @node t m h1 h2 h3 h4 ih =>
      have hr := (hasRoot_iff hs).mpr h1
      obtain ⟨k1, k2, k3⟩ := key hw hs hr
      rw [← k2]
      have h3' := k1.mpr h3
      exact .node hr (hs.acyclic hw) h3' (ih (l := l.childForKey k) hw (k3 h3'))

/-! ### Simulation -/

open Classical in
/-- The tree a linked betree shows (empty if it shows none). -/
noncomputable def treeOf (l : Linked) : FilteredBetree.Node :=
  if h : ∃ t, Sees l.dv l.bdv l.root t then Classical.choose h else .nil

theorem treeOf_eq {l : Linked} {t} (h : Sees l.dv l.bdv l.root t) : treeOf l = t := by
  unfold treeOf
  rw [dif_pos ⟨t, h⟩]
  exact (Classical.choose_spec (⟨t, h⟩ : ∃ t, Sees l.dv l.bdv l.root t)).functional h

theorem inv_sees {l : Linked} (h : l.Inv) :
    l.dv.WF ∧ Sees l.dv l.bdv l.root (treeOf l) ∧ Tree.RootOk layer (treeOf l) := by
  obtain ⟨hw, t, ht, hok⟩ := (inv_iff l).mp h
  rw [treeOf_eq ht]
  exact ⟨hw, ht, hok⟩

/-- Labels translated to the filtered layer. -/
noncomputable def label : BLabel Linked → BLabel FilteredBetree.Node
  | .query e k v => .query e k v
  | .put p => .put p
  | .freezeAs im => .freezeAs { value := treeOf im.value, seqEnd := im.seqEnd }
  | .internal => .internal

noncomputable def abs (s : State) : FilteredBetree.State :=
  { memtable := s.memtable, root := treeOf s.linked }

theorem answers_root {l : Linked} (h : l.Inv) (k : Key) :
    Answers Linked.shape k l ((treeOf l).at_ layer k) := by
  obtain ⟨hw, hs, hok⟩ := inv_sees h
  exact (answers_iff hw hs _).mpr (hok.answers k)

theorem receipt_at {l : Linked} (h : l.Inv) {k : Key} {r : Receipt Linked}
    (hr : r.ValidFor Linked.shape l k) : r.result = (treeOf l).at_ layer k := by
  have := Receipt.valid_iff.mp ⟨r, hr, rfl⟩
  exact this.functional (answers_root h k)

theorem step {s s' : State} {l : BLabel Linked} (hi : s.linked.Inv) (h : Next s l s') :
    s'.linked.Inv ∧ FilteredBetree.Next (abs s) (label l) (abs s') := by
  obtain ⟨hw, hs, hok⟩ := inv_sees hi
  have fin : ∀ {s' : State} {t'}, s'.linked.dv.WF → Sees s'.linked.dv s'.linked.bdv s'.linked.root t' →
      FilteredBetree.Next (abs s) .internal ⟨s'.memtable, t'⟩ →
      s'.linked.Inv ∧ FilteredBetree.Next (abs s) .internal (abs s') := by
    intro s' t' hw' hs' hn
    have hok' := (FilteredBetree.step (s := abs s) hok hn).1
    refine ⟨(inv_iff _).mpr ⟨hw', t', hs', hok'⟩, ?_⟩
    unfold abs
    rw [treeOf_eq hs']
    exact hn
  obtain ⟨st, h, hst⟩ := h
  cases h with
  | query hr hv =>
    refine ⟨hi, ?_⟩
    rw [receipt_at hi hr] at hv
    obtain ⟨r, hr', hrr⟩ := Receipt.answers_valid (hok.answers _)
    exact .query (s := abs s) hr' (by rw [hrr]; exact hv)
  | put h1 h2 => exact ⟨hi, .put (s := abs s) h1 h2⟩
  | freezeAs h => exact ⟨hi, .freezeAs (s := abs s) hok.1 h⟩
  | noop => exact ⟨hi, .noop (s := abs s) hok.1⟩
  | @flushMemtable sealed new x h1 h2 h3 =>
    subst h2
    have hp := push_spec (m := s.memtable) hs hst.1
    exact fin (s' := ⟨_, new⟩) h3.1.1 (view_sees hp.sees h3 hst.2)
      (.flushMemtable (s := abs s) hok.1)
  | @grow a =>
    have hg := grow_spec hs hst
    exact fin (s' := ⟨s.memtable, s.linked.grow a⟩) (hg.wf hw (hok.grow lawful).1.1) hg.sees
      (.grow (s := abs s) hok.1)
  | @split new p r x pa h1 h2 h3 =>
    obtain ⟨t1, t2, t3, t4⟩ := target_sees hs h2
    have hf : p.target.IsFresh x.repr := ⟨by rw [t2]; exact hst.1.1, by rw [t3]; exact hst.1.2⟩
    obtain ⟨c1, c2⟩ := split_spec t4 hf h2.2.2.2.1 h1
    exact fin (s' := ⟨s.memtable, new⟩) h3.1.1
      (view_sees (path_writes hs h2 hst.2.1 c2).sees h3 hst.2.2)
      (.split (s := abs s) (p := ⟨treeOf s.linked, p.key, p.depth⟩) t1 c1 rfl)
  | @flush new p i gc x pa h1 h2 h3 =>
    obtain ⟨t1, t2, t3, t4⟩ := target_sees hs h2
    have hf : p.target.IsFresh x.repr := ⟨by rw [t2]; exact hst.1.1, by rw [t3]; exact hst.1.2⟩
    obtain ⟨c1, c2⟩ := flush_spec t4 hf h2.2.2.2.1 h1
    exact fin (s' := ⟨s.memtable, new⟩) h3.1.1
      (view_sees (path_writes hs h2 hst.2.1 c2).sees h3 hst.2.2)
      (.flush (s := abs s) (p := ⟨treeOf s.linked, p.key, p.depth⟩) t1 c1 rfl)
  | @compact new p a b c x pa h1 h2 h3 =>
    obtain ⟨t1, t2, t3, t4⟩ := target_sees hs h2
    have hf : p.target.IsFresh x.repr := ⟨by rw [t2]; exact hst.1.1, by rw [t3]; exact hst.1.2⟩
    obtain ⟨c1, c2⟩ := compact_spec t4 hf h1
    exact fin (s' := ⟨s.memtable, new⟩) h3.1.1
      (view_sees (path_writes hs h2 hst.2.1 c2).sees h3 hst.2.2)
      (.compact (s := abs s) (p := ⟨treeOf s.linked, p.key, p.depth⟩) t1 c1 rfl)
  | @bufferNoop new h1 h2 =>
    exact fin (s' := ⟨s.memtable, new⟩) h1.1.1 (view_sees hs h1 h2) (.noop (s := abs s) hok.1)

end Verif.LinkedBetree
