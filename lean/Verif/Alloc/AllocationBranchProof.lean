import Verif.Alloc.AllocationBranch
import Verif.Props.C39
/- Lemmas about building a branch (Alloc/AllocationBranch.lean); no code is modelled here. -/
namespace Verif.ABr
open Verif

/-! ### The page allocator -/

section mini
variable {g : Geometry} {m : MiniAlloc}

theorem allocate_reserved {a : Address} (h : m.canAllocate g a) (x : Address) :
    (m.allocate g a).pageIsReserved x ↔ m.pageIsReserved x ∨ x = a := by
  obtain ⟨p, hp, _⟩ := h
  unfold MiniAlloc.pageIsReserved MiniAlloc.allocate
  dsimp only
  rw [hp, Option.getD_some]
  by_cases hx : x.au = a.au
  · rw [hx, PMap.insert_same, hp]
    constructor
    · rintro ⟨q, hq, hr⟩
      cases hq
      exact hr.imp (fun h => ⟨p, rfl, h⟩) id
    · rintro (⟨q, hq, hr⟩ | hr)
      · cases hq; exact ⟨_, rfl, .inl hr⟩
      · exact ⟨_, rfl, .inr hr⟩
  · rw [PMap.insert_other _ _ hx]
    exact ⟨.inl, fun h => h.elim id fun h => absurd (h ▸ rfl) hx⟩

theorem allocate_has {a : Address} (h : m.canAllocate g a) (au : Nat) :
    (m.allocate g a).allocs.Has au ↔ m.allocs.Has au := by
  obtain ⟨p, hp, _⟩ := h
  unfold MiniAlloc.allocate
  dsimp only
  by_cases hx : au = a.au
  · subst hx
    rw [PMap.has_iff, PMap.has_iff, PMap.insert_same]
    exact ⟨fun _ => ⟨_, hp⟩, fun _ => ⟨_, rfl⟩⟩
  · rw [PMap.has_iff, PMap.has_iff, PMap.insert_other _ _ hx]

theorem allocate_wf {a : Address} (hw : m.wf g) (h : m.canAllocate g a) : (m.allocate g a).wf g := by
  have hh := allocate_has h
  obtain ⟨p, hp, hf⟩ := h
  refine ⟨?_, ?_⟩
  · intro au q hq
    unfold MiniAlloc.allocate at hq
    dsimp only at hq
    rw [hp, Option.getD_some] at hq
    by_cases hx : au = a.au
    · subst hx
      rw [PMap.insert_same] at hq
      cases hq
      obtain ⟨⟨w1, w2⟩, w3⟩ := hw.1 _ _ hp
      refine ⟨⟨w1, ?_⟩, w3⟩
      rintro x (hx | hx)
      · exact w2 x hx
      · have hx : x = a := hx
        subst hx
        exact ⟨hf.1, hf.2.1⟩
    · rw [PMap.insert_other _ _ hx] at hq
      exact hw.1 _ _ hq
  · intro au hc
    rw [hh]
    unfold MiniAlloc.allocate at hc
    dsimp only at hc
    split at hc
    · cases hc
    · cases hc; exact (PMap.has_iff _ _).mpr ⟨p, hp⟩

theorem fill_reserved (aus : PSet Nat) (x : Address) :
    (m.addAus aus).pageIsReserved x ↔ m.pageIsReserved x := by
  unfold MiniAlloc.pageIsReserved MiniAlloc.addAus
  dsimp only
  cases h : m.allocs x.au with
  | some p => exact Iff.rfl
  | none =>
    dsimp only
    constructor
    · rintro ⟨p, hp, hr⟩
      split at hp
      · cases hp; exact hr.elim
      · cases hp
    · rintro ⟨p, hp, _⟩; cases hp

theorem fill_has (aus : PSet Nat) (au : Nat) :
    (m.addAus aus).allocs.Has au ↔ m.allocs.Has au ∨ aus au := by
  rw [PMap.has_iff, PMap.has_iff]
  unfold MiniAlloc.addAus
  dsimp only
  cases h : m.allocs au with
  | some p => simp
  | none => by_cases hx : aus au <;> simp [hx]

theorem fill_wf (hw : m.wf g) (aus : PSet Nat) : (m.addAus aus).wf g := by
  refine ⟨?_, fun au hc => (fill_has aus au).mpr (.inl (hw.2 au hc))⟩
  intro au p hp
  unfold MiniAlloc.addAus at hp
  dsimp only at hp
  cases h : m.allocs au with
  | some q => rw [h] at hp; cases hp; exact hw.1 _ _ h
  | none =>
    rw [h] at hp
    dsimp only at hp
    split at hp
    · cases hp; exact ⟨⟨(fun _ h => h.elim), (fun _ h => h.elim)⟩, rfl⟩
    · cases hp

theorem prune_has (aus : PSet Nat) (au : Nat) :
    (m.prune aus).allocs.Has au ↔ m.allocs.Has au ∧ ¬ aus au := by
  rw [PMap.has_iff, PMap.has_iff]
  unfold MiniAlloc.prune
  dsimp only
  constructor
  · rintro ⟨p, hp⟩
    obtain ⟨h1, h2⟩ := PMap.removeKeys_some.mp hp
    exact ⟨⟨p, h2⟩, h1⟩
  · rintro ⟨⟨p, hp⟩, h⟩; exact ⟨p, PMap.removeKeys_some.mpr ⟨h, hp⟩⟩

theorem prune_reserved (aus : PSet Nat) (x : Address) :
    (m.prune aus).pageIsReserved x ↔ m.pageIsReserved x ∧ ¬ aus x.au := by
  unfold MiniAlloc.pageIsReserved MiniAlloc.prune
  dsimp only
  constructor
  · rintro ⟨p, hp, hr⟩
    obtain ⟨h1, h2⟩ := PMap.removeKeys_some.mp hp
    exact ⟨⟨p, h2, hr⟩, h1⟩
  · rintro ⟨⟨p, hp, hr⟩, h⟩; exact ⟨p, PMap.removeKeys_some.mpr ⟨h, hp⟩, hr⟩

theorem prune_wf (hw : m.wf g) (aus : PSet Nat) : (m.prune aus).wf g := by
  refine ⟨fun au p hp => hw.1 _ _ (PMap.removeKeys_some.mp hp).2, fun au hc => ?_⟩
  unfold MiniAlloc.prune at hc
  dsimp only at hc
  split at hc
  · cases hc
  · next h => exact (prune_has aus au).mpr ⟨hw.2 _ hc, fun hx => h ⟨au, hc, hx⟩⟩

theorem reservedAus_iff (hw : m.wf g) (au : Nat) :
    reservedAus m au ↔ ∃ a : Address, a.au = au ∧ m.pageIsReserved a := by
  constructor
  · rintro ⟨p, hp, hn⟩
    unfold PageAlloc.noRefs at hn
    obtain ⟨a, ha⟩ := Classical.not_forall.mp hn
    have ha : p.reserved a := Classical.not_not.mp ha
    obtain ⟨⟨_, h2⟩, h3⟩ := hw.1 _ _ hp
    have e : a.au = au := by rw [(h2 a ha).2, h3]
    exact ⟨a, e, p, by rw [e]; exact hp, ha⟩
  · rintro ⟨a, rfl, p, hp, hr⟩
    exact ⟨p, hp, fun hn => hn a hr⟩

theorem canRemove_iff (au : Nat) : m.canRemove au ↔ m.allocs.Has au ∧ ¬ reservedAus m au := by
  rw [PMap.has_iff]
  constructor
  · rintro ⟨p, hp, hn⟩
    refine ⟨⟨p, hp⟩, ?_⟩
    rintro ⟨q, hq, hr⟩
    rw [hp] at hq; cases hq
    exact hr hn
  · rintro ⟨⟨p, hp⟩, h⟩
    exact ⟨p, hp, Classical.not_not.mp fun hn => h ⟨p, hp, hn⟩⟩

theorem canAllocate_free {a : Address} (h : m.canAllocate g a) : ¬ m.pageIsReserved a := by
  obtain ⟨p, hp, _, _, hf⟩ := h
  rintro ⟨q, hq, hr⟩
  rw [hp] at hq; cases hq
  exact hf (.inr hr)

theorem canAllocate_after {a x : Address} (h : m.canAllocate g a) (hx : m.canAllocate g x)
    (hne : x ≠ a) : (m.allocate g a).canAllocate g x := by
  obtain ⟨p, hp, _⟩ := h
  obtain ⟨q, hq, h1, h2, h3⟩ := hx
  by_cases e : x.au = a.au
  · have : p = q := by rw [e, hp] at hq; cases hq; rfl
    subst this
    refine ⟨p.reserve fun x => x = a, ?_, h1, h2, ?_⟩
    · unfold MiniAlloc.allocate
      dsimp only
      rw [hp, e, PMap.insert_same, Option.getD_some]
    · rintro (h | h | h)
      · exact h3 (.inl h)
      · exact h3 (.inr h)
      · exact hne h
  · refine ⟨q, ?_, h1, h2, h3⟩
    unfold MiniAlloc.allocate
    dsimp only
    rw [PMap.insert_other _ _ e]; exact hq

theorem new_canAllocate {free : PSet Nat} {a : Address} (hf : free a.au) (ha : a.wf g) :
    (MiniAlloc.empty.addAus free).canAllocate g a := by
  refine ⟨PageAlloc.new a.au, ?_, ha, rfl, fun h => h.elim id id⟩
  simp [MiniAlloc.addAus, MiniAlloc.empty, hf]

theorem empty_reserved (x : Address) : ¬ MiniAlloc.empty.pageIsReserved x := by
  rintro ⟨p, hp, _⟩; cases hp

theorem empty_wf : MiniAlloc.empty.wf g :=
  ⟨(fun au p hp => by cases hp), (fun au h => by cases h)⟩

end mini

/-! ### Sealing a branch -/

open LBr

theorem reach_congr {T : Type} {d d' : Disk T}
    (h : ∀ a c, (∃ n, d a = some n ∧ c ∈ n.children) → ∃ n, d' a = some n ∧ c ∈ n.children)
    {a b} (hr : Reach d a b) : Reach d' a b := by
  induction hr with
  | here => exact .here
  | @down a n c b e hc _ ih =>
    obtain ⟨n', e', hc'⟩ := h a c ⟨n, e, hc⟩
    exact .down e' hc' ih

/-- Sealing keeps the tree: same pages, same shown tree; the summary page and the root are the only
pages written. -/
theorem seal_shows {b : Branch Summary} {addr : Address} {s : Summary} {t} (hd : b.disk.WF)
    (hs : Shows b.disk b.root t) (hx : b.node.IsIndex) (hf : b.disk addr = none) :
    (sealWith b addr s).disk.WF ∧ Shows (sealWith b addr s).disk b.root t ∧
    (∀ a, Reach (sealWith b addr s).disk b.root a ↔ Reach b.disk b.root a) ∧
    (sealWith b addr s).node = .index b.node.pivots b.node.children (some addr) ∧
    (sealWith b addr s).disk addr = some (.auxiliary s) ∧
    (∀ a, a ≠ addr → a ≠ b.root → (sealWith b addr s).disk a = b.disk a) ∧
    (∀ a, (sealWith b addr s).disk.Has a ↔ b.disk.Has a ∨ a = addr) := by
  obtain ⟨root, d⟩ := b
  dsimp only at *
  cases t with
  | leaf ks ms => rw [hs.node_leaf] at hx; exact hx.elim
  | index ps ts =>
    obtain ⟨cs, x, e, hl, hc⟩ := shows_index hs
    have hn : (⟨root, d⟩ : Branch Summary).node = .index ps cs x := by
      unfold Branch.node; simp only [e, Option.getD_some]
    have hne : addr ≠ root := fun h => by rw [h, e] at hf; cases hf
    unfold sealWith
    dsimp only
    rw [hn]
    dsimp only [Node.pivots, Node.children]
    generalize hd' : (d.modify addr (.auxiliary s)).modify root (.index ps cs (some addr)) = d'
    have e1 : d' root = some (.index ps cs (some addr)) := by rw [← hd', modify_same]
    have e2 : d' addr = some (.auxiliary s) := by rw [← hd', modify_other _ _ hne, modify_same]
    have e3 : ∀ a, a ≠ addr → a ≠ root → d' a = d a := fun a h1 h2 => by
      rw [← hd', modify_other _ _ h2, modify_other _ _ h1]
    have fwd : ∀ a c, (∃ n, d a = some n ∧ c ∈ n.children) → ∃ n, d' a = some n ∧ c ∈ n.children := by
      rintro a c ⟨n, h1, h2⟩
      by_cases ha : a = root
      · subst ha; rw [e] at h1; cases h1; exact ⟨_, e1, h2⟩
      · by_cases hb : a = addr
        · subst hb; rw [hf] at h1; cases h1
        · exact ⟨n, by rw [e3 a hb ha]; exact h1, h2⟩
    have bwd : ∀ a c, (∃ n, d' a = some n ∧ c ∈ n.children) → ∃ n, d a = some n ∧ c ∈ n.children := by
      rintro a c ⟨n, h1, h2⟩
      by_cases ha : a = root
      · subst ha; rw [e1] at h1; cases h1; exact ⟨_, e, h2⟩
      · by_cases hb : a = addr
        · subst hb; rw [e2] at h1; cases h1; cases h2
        · exact ⟨n, by rw [← e3 a hb ha]; exact h1, h2⟩
    refine ⟨⟨?_, ?_⟩, ?_, ?_, ?_, e2, e3, ?_⟩
    · intro a n h1
      by_cases ha : a = root
      · subst ha; rw [e1] at h1; cases h1; have := hd.1 _ _ e; exact this
      · by_cases hb : a = addr
        · subst hb; rw [e2] at h1; cases h1; trivial
        · exact hd.1 a n (by rw [← e3 a hb ha]; exact h1)
    · intro a n h1 c hcc
      obtain ⟨n', h2, h3⟩ := bwd a c ⟨n, h1, hcc⟩
      obtain ⟨n'', h4, h5⟩ := hd.2 a n' h2 c h3
      by_cases ha : c = root
      · subst ha; exact ⟨_, e1, fun h => h⟩
      · by_cases hb : c = addr
        · subst hb; rw [hf] at h4; cases h4
        · exact ⟨n'', by rw [e3 c hb ha]; exact h4, h5⟩
    · refine .index e1 hl fun i c t h1 h2 => (hc i c t h1 h2).frame fun y hy => e3 y ?_ ?_
      · rintro rfl
        obtain ⟨t', h3, _⟩ := Shows.reach hy (hc i c t h1 h2)
        obtain ⟨n, h4, _⟩ := h3.page
        rw [hf] at h4; cases h4
      · rintro rfl
        exact hs.no_cycle e (List.mem_of_getElem? h1) hy
    · exact fun a => ⟨reach_congr bwd, reach_congr fwd⟩
    · unfold Branch.node; simp only [e1, Option.getD_some]
    · intro a
      rw [PMap.has_iff, PMap.has_iff]
      by_cases ha : a = root
      · subst ha; rw [e1, e]; simp
      · by_cases hb : a = addr
        · subst hb; rw [e2]; simp
        · rw [e3 a hb ha]; simp [hb]

/-! ### Histories -/

theorem taken_snoc (tr : List Act) (a : Act) : taken (tr ++ [a]) = taken tr ++ a.page := by
  simp [taken]

theorem held_snoc (free : PSet Nat) (tr : List Act) (a : Act) :
    held free (tr ++ [a]) = a.hold (held free tr) := by
  simp [held]

theorem written_snoc (tr : List Act) (a : Act) :
    written (tr ++ [a]) = (written tr).unionRight fun k => a.entries.lookup k := by
  simp [written]

theorem written_snoc_none (tr : List Act) {a : Act} (h : a.entries = []) :
    written (tr ++ [a]) = written tr := by
  rw [written_snoc, h]
  funext k
  rfl

/-- What is true of a branch and the history that built it. -/
structure Built (g : Geometry) (free : PSet Nat) (tr : List Act) (s : AllocBranch) : Prop where
  wf : s.mini.wf g
  held : ∀ au, s.mini.allocs.Has au ↔ held free tr au
  reserved : ∀ a, s.mini.pageIsReserved a ↔ a ∈ taken tr
  nodup : (taken tr).Nodup
  sealed_iff : s.isSealed = true ↔ ∃ a ∈ tr, a.isSeal
  none : s.branch = none → taken tr = [] ∧ written tr = PMap.empty ∧ s.isSealed = false
  inv : ∀ b, s.branch = some b → b.Inv
  pages : ∀ b, s.branch = some b → ∀ a, b.disk.Has a ↔ a ∈ taken tr
  holds : ∀ b, s.branch = some b → ∀ k m, written tr k = some m ↔ C39.PageHolds b k m
  tight : ∀ b, s.branch = some b → s.isSealed = false → b.Tight
  summary : ∀ b, s.branch = some b → s.isSealed = true → TightWithSummary b ∧
    SealedRoot b ∧ (∀ au, getSummary b au ↔ s.mini.allocs.Has au) ∧
    ∀ au, s.mini.allocs.Has au → ∃ a : Address, a.au = au ∧ a ∈ taken tr

theorem built_new (g : Geometry) (free : PSet Nat) : Built g free [] (AllocBranch.new free) where
  wf := fill_wf empty_wf _
  held au := by
    show (MiniAlloc.empty.addAus free).allocs.Has au ↔ _
    rw [fill_has, PMap.has_iff]
    exact ⟨fun h => h.elim (fun ⟨_, h⟩ => by cases h) id, .inr⟩
  reserved a := by
    show (MiniAlloc.empty.addAus free).pageIsReserved a ↔ _
    rw [fill_reserved]
    exact ⟨fun h => absurd h (empty_reserved a), fun h => by cases h⟩
  nodup := .nil
  sealed_iff := ⟨(fun h => by cases h), (fun ⟨_, h, _⟩ => by cases h)⟩
  none _ := ⟨rfl, rfl, rfl⟩
  inv b h := by cases h
  pages b h := by cases h
  holds b h := by cases h
  tight b h := by cases h
  summary b h := by cases h

theorem sealed_snoc {tr : List Act} {s s' : AllocBranch} {a : Act}
    (h : s.isSealed = true ↔ ∃ a ∈ tr, a.isSeal) (hs : s'.isSealed = s.isSealed) (ha : ¬ a.isSeal) :
    s'.isSealed = true ↔ ∃ x ∈ tr ++ [a], x.isSeal := by
  rw [hs, h]
  constructor
  · rintro ⟨x, h1, h2⟩; exact ⟨x, List.mem_append_left _ h1, h2⟩
  · rintro ⟨x, h1, h2⟩
    rw [List.mem_append, List.mem_singleton] at h1
    rcases h1 with h1 | rfl
    · exact ⟨x, h1, h2⟩
    · exact absurd h2 ha

theorem held_noop {free : PSet Nat} {tr : List Act} {e : BuildEvent} {allocs deallocs : PSet Nat}
    (ha : ∀ au, ¬ allocs au) (hd : ∀ au, ¬ deallocs au) (au : Nat) :
    held free (tr ++ [.build e allocs deallocs]) au ↔ held free tr au := by
  rw [held_snoc]
  show (held free tr au ∨ allocs au) ∧ ¬ deallocs au ↔ _
  simp [ha au, hd au]

/-- A one-page branch as written by `branch_initialize`. -/
theorem single_leaf {addr : Address} {ks : List Key} {ms : List Message} (h1 : 0 < ks.length)
    (h2 : ks.length = ms.length) (h3 : KeyT.StrictlySorted ks) :
    let b : Branch Summary := ⟨addr, PMap.empty.insert addr (.leaf ks ms)⟩
    b.Inv ∧ b.Tight ∧ (∀ a, b.disk.Has a ↔ a = addr) ∧
    ∀ k m, (ks.zip ms).lookup k = some m ↔ C39.PageHolds b k m := by
  intro b
  have e : b.disk addr = some (.leaf ks ms) := PMap.insert_same _ _ _
  have eo : ∀ a, a ≠ addr → b.disk a = none := fun a ha => PMap.insert_other _ _ ha
  have hp : ∀ a n, b.disk a = some n → a = addr ∧ n = .leaf ks ms := by
    intro a n hn
    by_cases ha : a = addr
    · subst ha; rw [e] at hn; cases hn; exact ⟨rfl, rfl⟩
    · rw [eo a ha] at hn; cases hn
  have hw : b.disk.WF := by
    constructor
    · intro a n hn; obtain ⟨_, rfl⟩ := hp a n hn; exact ⟨h1, h2⟩
    · intro a n hn c hc; obtain ⟨_, rfl⟩ := hp a n hn; cases hc
  have hs : Shows b.disk b.root (.leaf ks ms) := .leaf e
  have hbw : (BNode.leaf ks ms).WF := BNode.wf_leaf.mpr ⟨h1, h2, h3⟩
  have hi : b.Inv := (inv_iff b).mpr ⟨hw, _, hs, hbw⟩
  have hr : ∀ a, Reach b.disk b.root a ↔ a = addr := by
    intro a
    constructor
    · intro h
      cases h with
      | here => rfl
      | down h1 h2 _ => obtain ⟨_, rfl⟩ := hp _ _ h1; cases h2
    · rintro rfl; exact .here
  have hh : ∀ a, b.disk.Has a ↔ a = addr := by
    intro a
    rw [PMap.has_iff]
    exact ⟨fun ⟨n, hn⟩ => (hp a n hn).1, fun h => ⟨_, h ▸ e⟩⟩
  refine ⟨hi, fun a => by rw [hh, hr], hh, fun k m => ?_⟩
  rw [C39.holds_same hs, ← BNode.contents_iff hbw]
  unfold BNode.contents
  rw [BNode.entries]

/-- A branch takes part in one operation on its pages; `us` is what happens to its contents. -/
theorem built_op {g : Geometry} {free : PSet Nat} {tr : List Act} {s s' : AllocBranch} {b b' : Branch Summary}
    {a : Act} {u} (h : Built g free tr s) (hb : s.branch = some b) (hn : s.isSealed = false)
    (ho : C39.Op b u a.page b') (hu : ∀ f : PMap Key Message, u f = f.unionRight fun k => a.entries.lookup k)
    (hb' : s'.branch = some b') (hn' : s'.isSealed = false) (ha : ¬ a.isSeal) (hw : s'.mini.wf g)
    (hh : ∀ au, s'.mini.allocs.Has au ↔ held free (tr ++ [a]) au)
    (hr : ∀ x, s'.mini.pageIsReserved x ↔ s.mini.pageIsReserved x ∨ x ∈ a.page)
    (hf : ∀ x ∈ a.page, ¬ s.mini.pageIsReserved x) (hnd : a.page.Nodup) :
    Built g free (tr ++ [a]) s' := by
  have hi := h.inv b hb
  obtain ⟨o1, o2, _, _, o5, o6⟩ := C39.any_sequence hi (C39.Ops.nil.snoc ho) (h.holds b hb)
  have ht := o6 (h.tight b hb hn)
  have hrr : ∀ x, s'.mini.pageIsReserved x ↔ x ∈ taken (tr ++ [a]) := by
    intro x; rw [hr, h.reserved, taken_snoc, List.mem_append]
  refine ⟨hw, hh, hrr, ?_, ?_, ?_, ?_, ?_, ?_, ?_, ?_⟩
  · rw [taken_snoc, List.nodup_append]
    refine ⟨h.nodup, hnd, fun x hx y hy e => ?_⟩
    subst e
    exact hf x hy ((h.reserved x).mpr hx)
  · exact sealed_snoc h.sealed_iff (by rw [hn, hn']) ha
  · intro e; rw [hb'] at e; cases e
  · intro c hc; rw [hb'] at hc; cases hc; exact o1
  · intro c hc; rw [hb'] at hc; cases hc
    intro x
    rw [ht x, o5, ← h.tight b hb hn x, h.pages b hb, taken_snoc, List.mem_append]
    simp only [List.not_mem_nil, false_or, List.mem_append]
    exact Or.comm
  · intro c hc; rw [hb'] at hc; cases hc
    intro k m
    rw [← o2, written_snoc]
    simp only [List.nil_append, List.foldl_cons, List.foldl_nil, hu]
  · intro c hc; rw [hb'] at hc; cases hc; exact fun _ => ht
  · intro c _ e; rw [hn'] at e; cases e

theorem node_leaf_or {b : Branch Summary} (h : b.Inv) : b.node.IsIndex ∨ ∃ ks ms, b.node = .leaf ks ms := by
  obtain ⟨_, t, hs, _⟩ := (inv_iff b).mp h
  cases t with
  | leaf ks ms => exact .inr ⟨ks, ms, hs.node_leaf⟩
  | index ps ts => exact .inl (hs.isIndex.mpr trivial)

/-- The tree of a branch whose root is a leaf is that page. -/
theorem leaf_reach {b : Branch Summary} {ks ms} (hl : b.node = .leaf ks ms) (a : Address) :
    Reach b.disk b.root a ↔ a = b.root := by
  constructor
  · intro hr
    cases hr with
    | here => rfl
    | @down _ n _ _ e hc _ =>
      have : b.node = n := by unfold Branch.node; rw [e]; rfl
      rw [hl] at this
      subst this
      cases hc
  · rintro rfl; exact .here

theorem built_step {g : Geometry} {w : Prop} {free : PSet Nat} {tr : List Act} {s s' : AllocBranch}
    {a : Act} (h : Built g free tr s) (hs : Next g w s a s') : Built g free (tr ++ [a]) s' := by
  cases hs with
  | @grow b a hw hc =>
    obtain ⟨c1, c2, c3, c4⟩ := hc
    refine built_op (u := id) h c2 c1 (C39.Op.grow c4) (fun f => rfl) rfl c1 (fun h => h)
      (allocate_wf h.wf c3) ?_ ?_ ?_ (by simp [Act.page])
    · intro au
      show (s.mini.allocate g a).allocs.Has au ↔ _
      rw [allocate_has c3, h.held, held_snoc]; exact Iff.rfl
    · intro x
      show (s.mini.allocate g a).pageIsReserved x ↔ _
      rw [allocate_reserved c3]; simp [Act.page]
    · intro x hx
      simp only [Act.page, List.mem_singleton] at hx
      subst hx; exact canAllocate_free c3
  | @build e allocs deallocs _ hb =>
    cases hb with
    | @initLeaf addr ks ms _ _ ha hd hc =>
      obtain ⟨c1, c2, c3, c4, c5, c6⟩ := hc
      have ht : taken tr = [] := by
        rw [List.eq_nil_iff_forall_not_mem]
        intro x hx
        exact c2 x.au ((reservedAus_iff h.wf _).mpr ⟨x, rfl, (h.reserved x).mpr hx⟩)
      have hbn : s.branch = none := by
        cases hbr : s.branch with
        | none => rfl
        | some b =>
          have := (h.pages b hbr b.root).mp ((h.tight b hbr c1 b.root).mpr .here)
          rw [ht] at this; cases this
      obtain ⟨l1, l2, l3, l4⟩ := single_leaf (addr := addr) c4 c5 c6
      have htk : taken (tr ++ [.build (.initLeaf addr ks ms) allocs deallocs]) = [addr] := by
        rw [taken_snoc, ht]; rfl
      refine ⟨allocate_wf h.wf c3, ?_, ?_, ?_, ?_, ?_, ?_, ?_, ?_, ?_, ?_⟩
      · intro au
        show (s.mini.allocate g addr).allocs.Has au ↔ _
        rw [allocate_has c3, h.held, held_noop ha hd]
      · intro x
        show (s.mini.allocate g addr).pageIsReserved x ↔ _
        rw [allocate_reserved c3, h.reserved, ht, htk]; simp
      · rw [htk]; simp
      · exact sealed_snoc h.sealed_iff rfl fun h => h
      · intro e; cases e
      · intro b hb; cases hb; exact l1
      · intro b hb; cases hb
        intro x; rw [htk, List.mem_singleton]; exact l3 x
      · intro b hb; cases hb
        intro k m
        rw [← l4, written_snoc, (h.none hbn).2.1]
        show (PMap.empty.unionRight fun k => (ks.zip ms).lookup k) k = some m ↔ _
        rw [PMap.unionRight_some]
        simp
      · intro b hb; cases hb; exact fun _ => l2
      · intro b _ e; have e : s.isSealed = true := e; rw [c1] at e; cases e
    | @append b ks ms p _ _ ha hd hc =>
      obtain ⟨c1, c2, c3⟩ := hc
      refine built_op h c2 c1 (C39.Op.append c3) (fun f => rfl) rfl c1 (fun h => h) h.wf ?_ ?_ ?_
        (by simp [Act.page])
      · intro au
        rw [held_noop ha hd]; exact h.held au
      · intro x
        simp only [Act.page, List.not_mem_nil, or_false]
        exact Iff.rfl
      · intro x hx; cases hx
    | @split b addr p sa _ _ ha hd hc =>
      obtain ⟨c1, c2, c3, c4⟩ := hc
      refine built_op (u := id) h c2 c1 (C39.Op.split c4) (fun f => rfl) rfl c1 (fun h => h)
        (allocate_wf h.wf c3) ?_ ?_ ?_ (by simp [Act.page])
      · intro au
        show (s.mini.allocate g addr).allocs.Has au ↔ _
        rw [allocate_has c3, held_noop ha hd]; exact h.held au
      · intro x
        show (s.mini.allocate g addr).pageIsReserved x ↔ _
        rw [allocate_reserved c3]; simp [Act.page]
      · intro x hx
        simp only [Act.page, List.mem_singleton] at hx
        subst hx; exact canAllocate_free c3
    | @allocFill _ _ hd hc =>
      obtain ⟨c1, c2⟩ := hc
      have ht : taken (tr ++ [.build .allocFill allocs deallocs]) = taken tr := by
        rw [taken_snoc]; exact List.append_nil _
      have hwr : written (tr ++ [.build .allocFill allocs deallocs]) = written tr :=
        written_snoc_none tr rfl
      refine ⟨fill_wf h.wf _, ?_, ?_, ?_, ?_, ?_, h.inv, ?_, ?_, h.tight, ?_⟩
      · intro au
        show (s.mini.addAus allocs).allocs.Has au ↔ _
        rw [fill_has, h.held, held_snoc]
        show _ ↔ (held free tr au ∨ allocs au) ∧ ¬ deallocs au
        simp [hd au]
      · intro x
        show (s.mini.addAus allocs).pageIsReserved x ↔ _
        rw [fill_reserved, h.reserved, ht]
      · rw [ht]; exact h.nodup
      · exact sealed_snoc h.sealed_iff rfl fun h => h
      · intro e; rw [ht, hwr]; exact h.none e
      · intro b hb; rw [ht]; exact h.pages b hb
      · intro b hb; rw [hwr]; exact h.holds b hb
      · intro b _ e; have e : s.isSealed = true := e; rw [c1] at e; cases e
    | @sealUp b ptr _ _ ha hc =>
      obtain ⟨c1, c2, c3, c4, c5⟩ := hc
      have hi := h.inv b c2
      obtain ⟨hd, t, hsh, hwt⟩ := (inv_iff b).mp hi
      have hrem : ∀ au, deallocs au ↔ s.mini.allocs.Has au ∧ ¬ ∃ a : Address, a.au = au ∧ a ∈ taken tr := by
        intro au
        rw [← c5, canRemove_iff, reservedAus_iff h.wf]
        simp only [h.reserved]
      have hsl : ∃ x ∈ tr ++ [Act.build (.sealUp ptr) allocs deallocs], x.isSeal :=
        ⟨_, List.mem_append_right _ (List.mem_singleton.mpr rfl), trivial⟩
      have hwr : written (tr ++ [.build (.sealUp ptr) allocs deallocs]) = written tr :=
        written_snoc_none tr rfl
      have hheld : ∀ au, held free (tr ++ [.build (.sealUp ptr) allocs deallocs]) au ↔
          s.mini.allocs.Has au ∧ ¬ deallocs au := by
        intro au
        rw [held_snoc]
        show (held free tr au ∨ allocs au) ∧ ¬ deallocs au ↔ _
        rw [h.held]
        simp [ha au]
      cases ptr with
      | none =>
        have ht : taken (tr ++ [.build (.sealUp none) allocs deallocs]) = taken tr := by
          rw [taken_snoc]; exact List.append_nil _
        have hnl : ∃ ks ms, b.node = .leaf ks ms := by
          rcases node_leaf_or hi with h | h
          · exact absurd (c3.mpr h) (by simp)
          · exact h
        obtain ⟨ks, ms, hnl⟩ := hnl
        have htr : ∀ a, a ∈ taken tr ↔ a = b.root := by
          intro a
          rw [← h.pages b c2, h.tight b c2 c1, leaf_reach hnl]
        have hfr : ∀ a, FullRepr b a ↔ a = b.root := by
          intro a
          unfold FullRepr
          rw [leaf_reach hnl, hnl]
          simp
        have hall : ∀ au, (s.mini.prune deallocs).allocs.Has au ↔ au = b.root.au := by
          intro au
          rw [prune_has, hrem]
          constructor
          · rintro ⟨h1, h2⟩
            obtain ⟨a, rfl, ha⟩ := Classical.not_not.mp fun hx => h2 ⟨h1, hx⟩
            rw [(htr a).mp ha]
          · rintro rfl
            obtain ⟨p, hp, _⟩ := (h.reserved b.root).mpr ((htr _).mpr rfl)
            exact ⟨(PMap.has_iff _ _).mpr ⟨p, hp⟩, fun hx => hx.2 ⟨_, rfl, (htr _).mpr rfl⟩⟩
        refine ⟨prune_wf h.wf _, ?_, ?_, ?_, ⟨fun _ => hsl, fun _ => rfl⟩, ?_, h.inv, ?_, ?_, ?_, ?_⟩
        · intro au
          show (s.mini.prune deallocs).allocs.Has au ↔ _
          rw [prune_has, hheld]
        · intro x
          show (s.mini.prune deallocs).pageIsReserved x ↔ _
          rw [prune_reserved, h.reserved, ht]
          exact ⟨fun h => h.1, fun hx => ⟨hx, fun hd => ((hrem _).mp hd).2 ⟨x, rfl, hx⟩⟩⟩
        · rw [ht]; exact h.nodup
        · intro e; have e : s.branch = none := e; rw [c2] at e; cases e
        · intro c hc; rw [ht]; exact h.pages c hc
        · intro c hc; rw [hwr]; exact h.holds c hc
        · intro c _ e; cases e
        · intro c hc _
          have hc : s.branch = some c := hc
          rw [c2] at hc; cases hc
          refine ⟨fun a => ?_, ⟨hi.1.1.2, ?_⟩, fun au => ?_, fun au hau => ?_⟩
          · rw [h.pages b c2, htr, hfr]
          · intro ps cs x e; rw [hnl] at e; cases e
          · show _ ↔ (s.mini.prune deallocs).allocs.Has au
            rw [hall]
            unfold getSummary
            rw [hnl]
          · rw [ht]
            exact ⟨b.root, ((hall au).mp hau).symm, (htr _).mpr rfl⟩
      | some p =>
        obtain ⟨d1, d2⟩ := c4 p rfl
        have hx : b.node.IsIndex := c3.mp rfl
        have hpn : p ∉ taken tr := fun hp => canAllocate_free d1 ((h.reserved p).mpr hp)
        have hfp : b.disk p = none := by
          cases hbp : b.disk p with
          | none => rfl
          | some n => exact absurd ((h.pages b c2 p).mp ((PMap.has_iff _ _).mpr ⟨n, hbp⟩)) hpn
        obtain ⟨s1, s2, s3, s4, s5, s6, s7⟩ := seal_shows (s := reservedAus s.mini) hd hsh hx hfp
        have hi' : (sealWith b p (reservedAus s.mini)).Inv := (inv_iff _).mpr ⟨s1, t, s2, hwt⟩
        have ht : taken (tr ++ [.build (.sealUp (some p)) allocs deallocs]) = taken tr ++ [p] := by
          rw [taken_snoc]; rfl
        obtain ⟨a0, ha0, hra0⟩ : ∃ a : Address, a.au = p.au ∧ a ∈ taken tr := by
          apply Classical.not_not.mp
          intro hx
          obtain ⟨q, hq, _⟩ := d1
          exact d2 ((hrem _).mpr ⟨(PMap.has_iff _ _).mpr ⟨q, hq⟩, hx⟩)
        have hall : ∀ au, ((s.mini.allocate g p).prune deallocs).allocs.Has au ↔
            ∃ a : Address, a.au = au ∧ a ∈ taken tr := by
          intro au
          rw [prune_has, allocate_has d1, hrem]
          constructor
          · rintro ⟨h1, h2⟩
            exact Classical.not_not.mp fun hx => h2 ⟨h1, hx⟩
          · rintro ⟨a, rfl, ha⟩
            obtain ⟨q, hq, _⟩ := (h.reserved a).mpr ha
            exact ⟨(PMap.has_iff _ _).mpr ⟨q, hq⟩, fun hx => hx.2 ⟨_, rfl, ha⟩⟩
        have hpages : ∀ a, (sealWith b p (reservedAus s.mini)).disk.Has a ↔ a ∈ taken tr ++ [p] := by
          intro a
          rw [s7, h.pages b c2, List.mem_append, List.mem_singleton]
        refine ⟨prune_wf (allocate_wf h.wf d1) _, ?_, ?_, ?_, ⟨fun _ => hsl, fun _ => rfl⟩, ?_, ?_,
          ?_, ?_, ?_, ?_⟩
        · intro au
          show ((s.mini.allocate g p).prune deallocs).allocs.Has au ↔ _
          rw [prune_has, allocate_has d1, hheld]
        · intro x
          show ((s.mini.allocate g p).prune deallocs).pageIsReserved x ↔ _
          rw [prune_reserved, allocate_reserved d1, h.reserved, ht, List.mem_append,
            List.mem_singleton]
          refine ⟨fun h => h.1, fun hx => ⟨hx, fun hd => ?_⟩⟩
          rcases hx with hx | rfl
          · exact ((hrem _).mp hd).2 ⟨x, rfl, hx⟩
          · exact d2 hd
        · rw [ht, List.nodup_append]
          refine ⟨h.nodup, by simp, fun x hx y hy e => ?_⟩
          rw [List.mem_singleton] at hy
          subst hy; subst e
          exact hpn hx
        · intro e; cases e
        · intro c hc; cases hc; exact hi'
        · intro c hc; cases hc; rw [ht]; exact hpages
        · intro c hc; cases hc
          intro k m
          rw [hwr, h.holds b c2, C39.holds_same hsh, C39.holds_same (b := sealWith b p _) s2]
        · intro c _ e; cases e
        · intro c hc _; cases hc
          refine ⟨fun a => ?_, ⟨hi'.1.1.2, ?_⟩, fun au => ?_, fun au hau => ?_⟩
          · rw [hpages, List.mem_append, List.mem_singleton, ← h.pages b c2, h.tight b c2 c1]
            unfold FullRepr
            rw [s4]
            show _ ↔ Reach _ b.root a ∨ _
            rw [s3]
            simp [eq_comm]
          · intro ps cs x e
            rw [s4] at e; cases e
            exact ⟨p, _, rfl, s5⟩
          · show _ ↔ ((s.mini.allocate g p).prune deallocs).allocs.Has au
            rw [hall]
            unfold getSummary
            rw [s4]
            dsimp only
            rw [s5]
            dsimp only
            rw [reservedAus_iff h.wf]
            simp only [h.reserved]
          · obtain ⟨a, h1, h2⟩ := (hall au).mp hau
            rw [ht]
            exact ⟨a, h1, List.mem_append_left _ h2⟩

theorem built {g : Geometry} {w : Prop} {free : PSet Nat} {tr : List Act} {s : AllocBranch}
    (h : (machine g w free).Exec tr s) : Built g free tr s := by
  refine Machine.exec_invariant (M := machine g w free) (I := fun tr s => Built g free tr s) ?_ ?_ h
  · intro s hs; cases hs; exact built_new g free
  · intro tr s a s' ih hs; exact built_step ih hs

end Verif.ABr
