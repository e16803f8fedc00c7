import Verif.Alloc.AllocationBranchBetree
/-
A set of sealed branches on one buffer disk, each in units of its own, with a recorded summary.
Proofs only; no code is modelled here.
-/
namespace Verif.ABB
open Verif LinkedBetree ABr LBr

/-! ### One branch on two disks -/

theorem reach_frame {T : Type} {d d' : LBr.Disk T} {a b : Address}
    (hf : ∀ x, LBr.Reach d a x → d' x = d x) (h : LBr.Reach d a b) : LBr.Reach d' a b := by
  induction h with
  | here => exact .here
  | @down a n c b e hc _ ih =>
    exact .down (by rw [hf a .here]; exact e) hc (ih fun x hx => hf x (.down e hc hx))

theorem shows_sub {T : Type} {d d' : LBr.Disk T} {a t} (hs : PMap.Sub d d') (h : Shows d a t) :
    Shows d' a t := by
  induction h with
  | leaf e => exact .leaf (hs _ _ e)
  | index e hl _ ih => exact .index (hs _ _ e) hl ih

/-- On a smaller disk that is closed under children the same trees are shown. -/
theorem shows_restrict {T : Type} {d d' : LBr.Disk T} (hw : d'.WF) (hs : PMap.Sub d' d) {a t}
    (ha : d'.Has a) (h : Shows d a t) : Shows d' a t := by
  induction h with
  | @leaf a ks ms e =>
    obtain ⟨n, hn⟩ := (PMap.has_iff _ _).mp ha
    have := hs _ _ hn
    rw [e] at this; cases this
    exact .leaf hn
  | @index a ps cs x ts e hl _ ih =>
    obtain ⟨n, hn⟩ := (PMap.has_iff _ _).mp ha
    have := hs _ _ hn
    rw [e] at this; cases this
    refine .index hn hl fun i c t hc ht => ih i c t hc ht ?_
    obtain ⟨n', h', _⟩ := hw.2 _ _ hn c (List.mem_of_getElem? hc)
    exact (PMap.has_iff _ _).mpr ⟨n', h'⟩

theorem iBuf_eq {d : BrDisk} {a t} (h : Shows d a t) : iBuf d a = t.contents := by
  have hx : ∃ t, Shows d a t := ⟨t, h⟩
  unfold iBuf
  rw [dif_pos hx, (Classical.choose_spec hx).unique h]

/-- A buffer is the same on a smaller disk that is closed under children. -/
theorem iBuf_sub {d d' : BrDisk} (hw : d'.WF) (hs : PMap.Sub d' d) {a} (ha : d'.Has a) :
    iBuf d' a = iBuf d a := by
  by_cases h : ∃ t, Shows d a t
  · obtain ⟨t, ht⟩ := h
    rw [iBuf_eq ht, iBuf_eq (shows_restrict hw hs ha ht)]
  · unfold iBuf
    rw [dif_neg h, dif_neg]
    rintro ⟨t, ht⟩
    exact h ⟨t, shows_sub hs ht⟩

section
variable {b : Branch Summary}

theorem valid_root (h : ValidSealedBranch b) : getSummary b b.root.au := h.2.2.1 _ (.inl .here)

theorem valid_has (h : ValidSealedBranch b) {a} (ha : FullRepr b a) :
    b.disk.Has a ∧ getSummary b a.au := (h.2.2.2 a).mpr ha

/-- The query of a valid branch asks the buffer it stands for. -/
theorem query_iBuf (h : b.Inv) (k : Key) : b.query k = (iBuf b.disk b.root).query k := by
  obtain ⟨hw, t, ht, hwf⟩ := (inv_iff b).mp h
  rw [query_shows hw ht hwf k, BNode.query_contents hwf, iBuf_eq ht]
  unfold Buffer.query
  cases t.contents k <;> rfl

end

/-- A sealed branch seen on another disk that has the same pages in its units. -/
theorem valid_move {d d' : BrDisk} {a : Address} (h : ValidSealedBranch ⟨a, d⟩) (hw : d'.WF)
    (hf : ∀ x : Address, getSummary ⟨a, d⟩ x.au → d' x = d x) :
    ValidSealedBranch ⟨a, d'⟩ ∧ getSummary ⟨a, d'⟩ = getSummary ⟨a, d⟩ ∧
    ∀ x, FullRepr ⟨a, d'⟩ x ↔ FullRepr ⟨a, d⟩ x := by
  have hin : ∀ x, FullRepr ⟨a, d⟩ x → d' x = d x := fun x hx => hf x (h.2.2.1 x hx)
  have hreach : ∀ x, LBr.Reach d a x → d' x = d x := fun x hx => hin x (.inl hx)
  have hroot : d' a = d a := hreach a .here
  have hnode : (⟨a, d'⟩ : Branch Summary).node = (⟨a, d⟩ : Branch Summary).node := by
    unfold Branch.node; dsimp only; rw [hroot]
  have hr : ∀ x, LBr.Reach d' a x ↔ LBr.Reach d a x := by
    intro x
    constructor
    · intro hx
      have key : ∀ {y}, LBr.Reach d' y x → LBr.Reach d a y → LBr.Reach d a x := by
        intro y hy
        induction hy with
        | here => exact fun h => h
        | @down y n c x e hc _ ih =>
          intro hy
          rw [hreach y hy] at e
          exact ih ‹_› (hy.trans (.single e hc))
      exact key hx .here
    · exact reach_frame hreach
  have hfull : ∀ x, FullRepr ⟨a, d'⟩ x ↔ FullRepr ⟨a, d⟩ x := by
    intro x
    unfold FullRepr
    rw [hnode]
    exact or_congr (hr x) Iff.rfl
  have hsum : getSummary ⟨a, d'⟩ = getSummary ⟨a, d⟩ := by
    unfold getSummary
    rw [hnode]
    cases hn : (⟨a, d⟩ : Branch Summary).node with
    | leaf => rfl
    | auxiliary => rfl
    | index ps cs x =>
      cases x with
      | none => rfl
      | some p =>
        dsimp only
        rw [hin p (.inr ⟨ps, cs, hn⟩)]
  obtain ⟨t, ht, hwf⟩ := ((inv_iff _).mp h.1).2
  have hs : SealedRoot (⟨a, d'⟩ : Branch Summary) := by
    obtain ⟨⟨n, e1, e2⟩, h2⟩ := h.2.1
    refine ⟨⟨n, by show d' a = _; rw [hroot]; exact e1, e2⟩, fun ps cs x e => ?_⟩
    rw [hnode] at e
    obtain ⟨p, s, e3, e4⟩ := h2 ps cs x e
    refine ⟨p, s, e3, ?_⟩
    subst e3
    show d' p = _
    rw [hin p (.inr ⟨ps, cs, e⟩)]; exact e4
  refine ⟨⟨(inv_iff _).mpr ⟨hw, t, ht.frame hreach, hwf⟩, hs, fun x hx => ?_, fun x => ?_⟩, hsum, hfull⟩
  · rw [hsum]; exact h.2.2.1 x ((hfull x).mp hx)
  · rw [hsum, hfull, ← h.2.2.2 x]
    constructor
    · rintro ⟨h1, h2⟩
      refine ⟨?_, h2⟩
      unfold PMap.Has at h1 ⊢
      show d x ≠ none
      rw [← hf x h2]; exact h1
    · rintro ⟨h1, h2⟩
      refine ⟨?_, h2⟩
      unfold PMap.Has at h1 ⊢
      show d' x ≠ none
      rw [hf x h2]; exact h1

/-! ### Many branches -/

/-- The branches rooted at `R`, all valid on `d`, in units of their own; `sm` records their units by
the unit of the root; the disk holds nothing else. -/
structure Br (d : BrDisk) (R : PSet Address) (sm : PMap Nat Summary) : Prop where
  valid : ∀ a, R a → ValidSealedBranch ⟨a, d⟩
  units : ∀ a b : Address, R a → R b → a.au = b.au → a = b
  summary : ∀ u s, sm u = some s ↔ ∃ a : Address, R a ∧ a.au = u ∧ getSummary ⟨a, d⟩ = s
  disjoint : ∀ a b u, R a → R b → getSummary ⟨a, d⟩ u → getSummary ⟨b, d⟩ u → a = b
  closed : ∀ x : Address, d.Has x → summaryAus sm x.au

namespace Br
variable {d : BrDisk} {R : PSet Address} {sm : PMap Nat Summary}

theorem aus (h : Br d R sm) (u : Nat) : summaryAus sm u ↔ ∃ a, R a ∧ getSummary ⟨a, d⟩ u := by
  constructor
  · rintro ⟨k, s, h1, h2⟩
    obtain ⟨a, ha, _, rfl⟩ := (h.summary k s).mp h1
    exact ⟨a, ha, h2⟩
  · rintro ⟨a, ha, hu⟩
    exact ⟨a.au, _, (h.summary _ _).mpr ⟨a, ha, rfl, rfl⟩, hu⟩

theorem has (h : Br d R sm) {a} (ha : R a) : d.Has a := (valid_has (h.valid a ha) (.inl .here)).1

theorem key (h : Br d R sm) (u : Nat) : sm.Has u ↔ ∃ a : Address, R a ∧ a.au = u := by
  rw [PMap.has_iff]
  constructor
  · rintro ⟨s, hs⟩
    obtain ⟨a, h1, h2, _⟩ := (h.summary u s).mp hs
    exact ⟨a, h1, h2⟩
  · rintro ⟨a, h1, h2⟩
    exact ⟨_, (h.summary u _).mpr ⟨a, h1, h2, rfl⟩⟩

/-- The page belongs to the branch whose units it lies in. -/
theorem owner (h : Br d R sm) {x : Address} (hx : d.Has x) : ∃ a, R a ∧ FullRepr ⟨a, d⟩ x := by
  obtain ⟨a, ha, hu⟩ := (h.aus _).mp (h.closed x hx)
  exact ⟨a, ha, ((h.valid a ha).2.2.2 x).mp ⟨hx, hu⟩⟩

theorem wf (h : Br d R sm) : d.WF := by
  by_cases hr : ∃ a, R a
  · obtain ⟨a, ha⟩ := hr
    exact ((inv_iff _).mp (h.valid a ha).1).1
  · have hn : ∀ x n, ¬ d x = some n := by
      intro x n hx
      obtain ⟨a, ha, _⟩ := h.owner ((PMap.has_iff _ _).mpr ⟨n, hx⟩)
      exact hr ⟨a, ha⟩
    exact ⟨fun a n h => absurd h (hn a n), fun a n h => absurd h (hn a n)⟩

theorem congr (h : Br d R sm) {R'} (hr : ∀ a, R' a ↔ R a) : Br d R' sm := by
  have : R' = R := funext fun a => propext (hr a)
  rw [this]; exact h

theorem union_wf {d e : BrDisk} (hd : d.WF) (he : e.WF) (hdis : ∀ x, e.Has x → ¬ d.Has x) :
    LBr.Disk.WF (d.unionRight e) := by
  constructor
  · intro a n hn
    rcases PMap.unionRight_some.mp hn with h | ⟨_, h⟩
    · exact he.1 a n h
    · exact hd.1 a n h
  · intro a n hn c hc
    rcases PMap.unionRight_some.mp hn with h | ⟨_, h⟩
    · obtain ⟨n', h1, h2⟩ := he.2 a n h c hc
      exact ⟨n', PMap.unionRight_some.mpr (.inl h1), h2⟩
    · obtain ⟨n', h1, h2⟩ := hd.2 a n h c hc
      refine ⟨n', PMap.unionRight_some.mpr (.inr ⟨?_, h1⟩), h2⟩
      cases hec : e c with
      | none => rfl
      | some m =>
        exact absurd ((PMap.has_iff _ _).mpr ⟨n', h1⟩) (hdis c ((PMap.has_iff _ _).mpr ⟨m, hec⟩))

/-- Facts about a disk to which the pages of one more branch were added. -/
theorem add (h : Br d R sm) {br : Branch Summary} (hv : ValidSealedBranch br)
    (ht : TightWithSummary br) (hf : ∀ u, getSummary br u → ¬ summaryAus sm u) :
    Br (d.unionRight br.disk) (fun a => R a ∨ a = br.root)
      (sm.insert br.root.au (getSummary br)) ∧
    (∀ x, br.disk.Has x → ¬ d.Has x) ∧ PMap.Sub d (d.unionRight br.disk) ∧
    PMap.Sub br.disk (d.unionRight br.disk) ∧
    (∀ a, R a → getSummary ⟨a, d.unionRight br.disk⟩ = getSummary ⟨a, d⟩) ∧
    getSummary ⟨br.root, d.unionRight br.disk⟩ = getSummary br := by
  obtain ⟨root, e⟩ := br
  have hnew : ∀ x : Address, e.Has x → getSummary ⟨root, e⟩ x.au := fun x hx =>
    hv.2.2.1 x ((ht x).mp hx)
  have hdis : ∀ x, e.Has x → ¬ d.Has x := fun x hx hd => hf _ (hnew x hx) (h.closed x hd)
  have hse : PMap.Sub e (d.unionRight e) := fun k v hk => PMap.unionRight_some.mpr (.inl hk)
  have hsd : PMap.Sub d (d.unionRight e) := by
    intro k v hk
    refine PMap.unionRight_some.mpr (.inr ⟨?_, hk⟩)
    cases hek : e k with
    | none => rfl
    | some m =>
      exact absurd ((PMap.has_iff _ _).mpr ⟨v, hk⟩) (hdis k ((PMap.has_iff _ _).mpr ⟨m, hek⟩))
  have hw : LBr.Disk.WF (d.unionRight e) := union_wf h.wf ((inv_iff _).mp hv.1).1 hdis
  have hold : ∀ a, R a → ∀ x : Address, getSummary ⟨a, d⟩ x.au → (d.unionRight e) x = d x := by
    intro a ha x hx
    unfold PMap.unionRight
    cases hex : e x with
    | none => rfl
    | some m =>
      exact absurd ((h.aus _).mpr ⟨a, ha, hx⟩) (hf _ (hnew x ((PMap.has_iff _ _).mpr ⟨m, hex⟩)))
  have hmold := fun a ha => valid_move (h.valid a ha) hw (hold a ha)
  have hmnew := valid_move hv hw (fun x hx => by
    unfold PMap.unionRight
    cases hex : e x with
    | some m => rfl
    | none =>
      cases hdx : d x with
      | none => rfl
      | some m => exact absurd (h.closed x ((PMap.has_iff _ _).mpr ⟨m, hdx⟩)) (hf _ hx))
  have hrootau : ¬ sm.Has root.au := by
    intro hs
    obtain ⟨a, ha, e⟩ := (h.key _).mp hs
    exact hf _ (valid_root hv) ((h.aus _).mpr ⟨a, ha, by
      have := valid_root (h.valid a ha); rw [← e]; exact this⟩)
  have hsummary : ∀ u s, (sm.insert root.au (getSummary ⟨root, e⟩)) u = some s ↔
      ∃ a : Address, (R a ∨ a = root) ∧ a.au = u ∧ getSummary ⟨a, d.unionRight e⟩ = s := by
    intro u s
    by_cases hu : u = root.au
    · subst hu
      rw [PMap.insert_same]
      constructor
      · intro hs; cases hs; exact ⟨root, .inr rfl, rfl, hmnew.2.1⟩
      · rintro ⟨a, ha | rfl, h1, h2⟩
        · exact absurd ((h.key _).mpr ⟨a, ha, h1⟩) hrootau
        · rw [← h2, hmnew.2.1]
    · rw [PMap.insert_other _ _ hu, h.summary]
      constructor
      · rintro ⟨a, ha, h1, h2⟩
        exact ⟨a, .inl ha, h1, by rw [(hmold a ha).2.1]; exact h2⟩
      · rintro ⟨a, ha | rfl, h1, h2⟩
        · exact ⟨a, ha, h1, by rw [← (hmold a ha).2.1]; exact h2⟩
        · exact absurd h1.symm hu
  refine ⟨⟨?_, ?_, hsummary, ?_, ?_⟩, hdis, hsd, hse, fun a ha => (hmold a ha).2.1, hmnew.2.1⟩
  · rintro a (ha | rfl)
    · exact (hmold a ha).1
    · exact hmnew.1
  · rintro a b (ha | rfl) (hb | rfl) hab
    · exact h.units a b ha hb hab
    · exact absurd ((h.key _).mpr ⟨a, ha, hab⟩) hrootau
    · exact absurd ((h.key _).mpr ⟨b, hb, hab.symm⟩) hrootau
    · rfl
  · rintro a b u (ha | rfl) (hb | rfl) h1 h2
    · rw [(hmold a ha).2.1] at h1; rw [(hmold b hb).2.1] at h2
      exact h.disjoint a b u ha hb h1 h2
    · rw [(hmold a ha).2.1] at h1; rw [hmnew.2.1] at h2
      exact absurd ((h.aus _).mpr ⟨a, ha, h1⟩) (hf _ h2)
    · rw [(hmold b hb).2.1] at h2; rw [hmnew.2.1] at h1
      exact absurd ((h.aus _).mpr ⟨b, hb, h2⟩) (hf _ h1)
    · rfl
  · intro x hx
    obtain ⟨n, hn⟩ := (PMap.has_iff _ _).mp hx
    rcases PMap.unionRight_some.mp hn with he | ⟨_, hd⟩
    · exact ⟨root.au, _, PMap.insert_same _ _ _, hnew x ((PMap.has_iff _ _).mpr ⟨n, he⟩)⟩
    · obtain ⟨k, s, h1, h2⟩ := h.closed x ((PMap.has_iff _ _).mpr ⟨n, hd⟩)
      refine ⟨k, s, ?_, h2⟩
      rw [PMap.insert_other _ _ (by rintro rfl; exact hrootau ((PMap.has_iff _ _).mpr ⟨s, h1⟩))]
      exact h1

/-- Some branches are dropped with their units. -/
theorem drop (h : Br d R sm) {R' : PSet Address} {gone : PSet Nat} {d' : BrDisk}
    (hr : ∀ a, R' a ↔ R a ∧ ¬ gone a.au) (hs : PMap.Sub d' d)
    (hd : ∀ x, d'.Has x ↔ d.Has x ∧ summaryAus (sm.removeKeys gone) x.au) :
    Br d' R' (sm.removeKeys gone) ∧
    ∀ a, R' a → getSummary ⟨a, d'⟩ = getSummary ⟨a, d⟩ := by
  have hsm : ∀ u s, sm.removeKeys gone u = some s ↔
      ∃ a : Address, R' a ∧ a.au = u ∧ getSummary ⟨a, d⟩ = s := by
    intro u s
    rw [PMap.removeKeys_some, h.summary]
    constructor
    · rintro ⟨h1, a, h2, rfl, h4⟩
      exact ⟨a, (hr a).mpr ⟨h2, h1⟩, rfl, h4⟩
    · rintro ⟨a, h2, rfl, h4⟩
      obtain ⟨h5, h6⟩ := (hr a).mp h2
      exact ⟨h6, a, h5, rfl, h4⟩
  have hkeep : ∀ a, R' a → ∀ x : Address, getSummary ⟨a, d⟩ x.au → d' x = d x := by
    intro a ha x hx
    cases hdx : d x with
    | none =>
      cases hdx' : d' x with
      | none => rfl
      | some n => rw [hs _ _ hdx'] at hdx; cases hdx
    | some n =>
      have : d'.Has x := (hd x).mpr ⟨(PMap.has_iff _ _).mpr ⟨n, hdx⟩, a.au, _,
        (hsm _ _).mpr ⟨a, ha, rfl, rfl⟩, hx⟩
      obtain ⟨m, hm⟩ := (PMap.has_iff _ _).mp this
      have := hs _ _ hm
      rw [hdx] at this
      rw [hm, this]
  have hw : d'.WF := by
    constructor
    · intro a n hn; exact h.wf.1 a n (hs _ _ hn)
    · intro x n hn c hc
      have hdx := hs _ _ hn
      obtain ⟨hx1, u, s, h1, h2⟩ := (hd x).mp ((PMap.has_iff _ _).mpr ⟨n, hn⟩)
      obtain ⟨a, ha, _, rfl⟩ := (hsm u s).mp h1
      have hfull := ((h.valid a ((hr a).mp ha).1).2.2.2 x).mp ⟨hx1, h2⟩
      obtain ⟨n', h3, h4⟩ := h.wf.2 x n hdx c hc
      refine ⟨n', ?_, h4⟩
      have hv := h.valid a ((hr a).mp ha).1
      have hcr : FullRepr ⟨a, d⟩ c := by
        rcases hfull with hre | ⟨ps, cs, hnode⟩
        · exact .inl (hre.trans (.single hdx hc))
        · obtain ⟨p, s, e1, e2⟩ := hv.2.1.2 ps cs _ hnode
          cases e1
          have e2 : d x = _ := e2
          rw [hdx] at e2; cases e2
          cases hc
      rw [hkeep a ha c (hv.2.2.1 c hcr)]; exact h3
  have hm := fun a ha => valid_move (h.valid a ((hr a).mp ha).1) hw (hkeep a ha)
  refine ⟨⟨fun a ha => (hm a ha).1, fun a b ha hb => h.units a b ((hr a).mp ha).1 ((hr b).mp hb).1,
    fun u s => ?_, ?_, fun x hx => ((hd x).mp hx).2⟩, fun a ha => (hm a ha).2.1⟩
  · rw [hsm]
    constructor
    · rintro ⟨a, ha, h1, h2⟩; exact ⟨a, ha, h1, by rw [(hm a ha).2.1]; exact h2⟩
    · rintro ⟨a, ha, h1, h2⟩; exact ⟨a, ha, h1, by rw [← (hm a ha).2.1]; exact h2⟩
  · intro a b u ha hb h1 h2
    rw [(hm a ha).2.1] at h1; rw [(hm b hb).2.1] at h2
    exact h.disjoint a b u ((hr a).mp ha).1 ((hr b).mp hb).1 h1 h2

/-- The units of the dropped branches and of the others. -/
theorem drop_aus (h : Br d R sm) {gone : PSet Nat} (u : Nat) :
    (summaryAus (sm.removeKeys gone) u ↔
      summaryAus sm u ∧ ¬ summaryAus (sm.restrict gone) u) := by
  constructor
  · rintro ⟨k, s, h1, h2⟩
    obtain ⟨h3, h4⟩ := PMap.removeKeys_some.mp h1
    refine ⟨⟨k, s, h4, h2⟩, ?_⟩
    rintro ⟨k', s', h5, h6⟩
    obtain ⟨h7, h8⟩ := PMap.restrict_some.mp h5
    obtain ⟨a, ha, rfl, rfl⟩ := (h.summary k s).mp h4
    obtain ⟨b, hb, rfl, rfl⟩ := (h.summary k' s').mp h8
    rw [h.disjoint a b u ha hb h2 h6] at h3
    exact h3 h7
  · rintro ⟨⟨k, s, h1, h2⟩, h3⟩
    refine ⟨k, s, PMap.removeKeys_some.mpr ⟨fun hg => h3 ⟨k, s, ?_, h2⟩, h1⟩, h2⟩
    exact PMap.restrict_some.mpr ⟨hg, h1⟩

end Br
end Verif.ABB
