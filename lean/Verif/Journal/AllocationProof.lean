import Verif.Journal.Allocation
/-
Invariant of the allocating journal and its consequences. No code is modelled here.
-/
namespace Verif.Linked
open Verif

theorem supports_iff {d : DiskView} {a l} :
    d.Supports a l ↔ d.boundary ≤ l ∧ ∃ r, d.entries a = some r ∧ r.msgs.Contains l := by
  unfold DiskView.Supports MsgHistory.Contains
  constructor
  · rintro ⟨r, h1, h2, h3⟩; exact ⟨by omega, r, h1, by omega, h3⟩
  · rintro ⟨h1, r, h2, h3, h4⟩; exact ⟨r, h2, by omega, h4⟩

theorem DiskView.Holds.supports {d : DiskView} {p l a} (h : d.Holds p l a) : d.Supports a l :=
  supports_iff.mpr h.2

/-! ### The unit walk -/

theorem AuWalk.det {d : DiskView} {first p ix ix'} (h : AuWalk d first p ix)
    (h' : AuWalk d first p ix') : ix = ix' := by
  induction h generalizing ix' with
  | nil => cases h'; rfl
  | inFirst h1 h2 =>
    cases h' with
    | inFirst _ h4 => exact h2.det h4
    | jump h3 => exact absurd h1 h3
  | jump h1 h2 h3 _ ih =>
    cases h' with
    | inFirst h4 => exact absurd h4 h1
    | jump _ h5 h6 h7 =>
      rw [h2] at h5; cases h5
      rw [h3] at h6; cases h6
      rw [ih h7]

/-- Outside the first unit a page's LSNs are all above the boundary, so the walk goes on. -/
theorem nonfirst {d : DiskView} {first} (hu : d.UniqueLsns) (hf : d.ValidFirst first) {a r}
    (ha : a.au ≠ first) (he : d.entries a = some r) (hb : d.boundary < r.msgs.seqEnd) :
    d.boundary < r.msgs.seqStart := by
  apply Classical.byContradiction
  intro hn
  obtain ⟨x, hx, hs⟩ := hf
  have := hu _ _ _ (supports_iff.mpr ⟨Nat.le_refl _, r, he, by omega, hb⟩) hs
  rw [this] at ha; exact ha hx

/-- The part of the page walk inside one unit other than the first. -/
theorem unit_walk {d : DiskView} {first} (hw : d.WF) (hpb : d.PointBackward) (hu : d.UniqueLsns)
    (hf : d.ValidFirst first) {rk : Ranking} (hrk : d.ValidRanking rk) :
    ∀ n (a : Address) (r : JRec) ix, a.page = n → a.au ≠ first → d.entries a = some r →
      d.boundary < r.msgs.seqEnd → Builds d Address.au (some a) ix →
      ∃ rb ix', d.entries a.firstPage = some rb ∧ rb.msgs.seqStart ≤ r.msgs.seqStart ∧
        Builds d Address.au (d.next (some a.firstPage)) ix' ∧
        ix = ix'.unionRight (Index.singleton rb.msgs.seqStart r.msgs.seqEnd a.au) ∧
        d.BlockInBounds (d.next (some a.firstPage)) ∧
        ∀ y, d.next (some a.firstPage) = some y → rk y < rk a := by
  intro n
  induction n with
  | zero =>
    intro a r ix hp ha he hb hbd
    have hfp : a.firstPage = a := by cases a; simp_all [Address.firstPage]
    have hlt := nonfirst hu hf ha he hb
    cases hbd with
    | @cons _ r' ix' he' h' =>
      rw [he] at he'; cases he'
      rw [hfp]
      have hn : d.next (some a) = r.croppedPrior d.boundary := by simp only [DiskView.next, he]
      refine ⟨r, ix', he, Nat.le_refl _, by rw [hn]; exact h', ?_, ?_, ?_⟩
      · rw [Nat.max_eq_right (Nat.le_of_lt hlt)]
      · refine next_inBounds hw ⟨fun x hx => by cases hx; exact ⟨r, he⟩, ?_⟩
        intro x q hx hq; cases hx; rw [he] at hq; cases hq; exact hb
      · intro y hy; rw [hn] at hy; exact hrk a r y he hy
  | succ n ih =>
    intro a r ix hp ha he hb hbd
    have hlt := nonfirst hu hf ha he hb
    have hprior := hpb a r (by omega) he
    have hcp : r.croppedPrior d.boundary = some a.previous := by
      unfold JRec.croppedPrior; rw [if_pos hlt]; exact hprior
    obtain ⟨q, hq⟩ := hw.2.1 a r he _ hcp
    have hcat : r.msgs.seqStart = q.msgs.seqEnd := hw.2.2.1 a r _ q he hcp hq
    have hpp : a.previous.page = n := by simp [Address.previous, hp]
    have hpa : a.previous.au = a.au := rfl
    have hpf : a.previous.firstPage = a.firstPage := rfl
    cases hbd with
    | @cons _ r' ix0 he' h' =>
      rw [he] at he'; cases he'
      rw [hcp] at h'
      obtain ⟨rb, ix', h1, h2, h3, h4, h5, h6⟩ := ih a.previous q ix0 hpp (by rw [hpa]; exact ha) hq
        (by omega) h'
      rw [hpf] at h1 h3 h5 h6
      have hqw := (hw.1 _ q hq).1.1
      have hrw := (hw.1 _ r he).1.1
      refine ⟨rb, ix', h1, by omega, h3, ?_, h5, ?_⟩
      · rw [h4, Nat.max_eq_right (Nat.le_of_lt hlt), hpa]
        funext k
        simp only [PMap.unionRight, Index.singleton]
        by_cases c1 : r.msgs.seqStart ≤ k ∧ k < r.msgs.seqEnd
        · have c2 : rb.msgs.seqStart ≤ k ∧ k < r.msgs.seqEnd := by omega
          simp only [if_pos c1, if_pos c2]
        · by_cases c3 : rb.msgs.seqStart ≤ k ∧ k < q.msgs.seqEnd
          · have c2 : rb.msgs.seqStart ≤ k ∧ k < r.msgs.seqEnd := by omega
            simp only [if_neg c1, if_pos c3, if_pos c2]
          · have c2 : ¬ (rb.msgs.seqStart ≤ k ∧ k < r.msgs.seqEnd) := by omega
            simp only [if_neg c1, if_neg c3, if_neg c2]
      · intro y hy
        have := h6 y hy
        have := hrk a r _ he hcp
        omega

/-- `build_lsn_au_index_equiv_page_walk`, AllocationJournal_v.rs 329-371: the unit walk gives the
same index as the page walk. -/
theorem auWalk_of_builds {d : DiskView} {first} (hw : d.WF) (ha : d.Acyclic)
    (hpb : d.PointBackward) (hu : d.UniqueLsns) {p ix} (hb : d.BlockInBounds p)
    (hf : p ≠ none → d.ValidFirst first) (h : Builds d Address.au p ix) : AuWalk d first p ix := by
  obtain ⟨rk, hrk⟩ := ha
  have aux : ∀ n p ix, (∀ a, p = some a → rk a < n) → d.BlockInBounds p →
      (p ≠ none → d.ValidFirst first) → Builds d Address.au p ix → AuWalk d first p ix := by
    intro n
    induction n with
    | zero =>
      intro p ix hn hb hf h
      cases p with
      | none => cases h; exact .nil
      | some a => exact absurd (hn a rfl) (by omega)
    | succ n ih =>
      intro p ix hn hb hf h
      cases p with
      | none => cases h; exact .nil
      | some a =>
        by_cases hfa : a.au = first
        · exact .inFirst hfa h
        · obtain ⟨r, hr⟩ := hb.1 a rfl
          have hf' := hf (by simp)
          obtain ⟨rb, ix', h1, h2, h3, rfl, h5, h6⟩ := unit_walk hw hpb hu hf' hrk _ a r ix rfl hfa hr
            (hb.2 a r rfl hr) h
          refine .jump hfa hr h1 (ih _ _ ?_ h5 (fun _ => hf') h3)
          intro y hy
          have := h6 y hy
          have := hn a rfl
          omega
  cases p with
  | none => exact aux 0 _ _ (by simp) hb hf h
  | some a => exact aux (rk a + 1) _ _ (by intro x hx; cases hx; omega) hb hf h

theorem builds_of_auWalk {d : DiskView} {first} (hw : d.WF) (ha : d.Acyclic)
    (hpb : d.PointBackward) (hu : d.UniqueLsns) {p ix} (hb : d.BlockInBounds p)
    (hf : p ≠ none → d.ValidFirst first) (h : AuWalk d first p ix) : Builds d Address.au p ix := by
  obtain ⟨ix', h'⟩ := builds_exists Address.au hw ha hb.1
  rw [h.det (auWalk_of_builds hw ha hpb hu hb hf h')]; exact h'

/-- The LSNs of one unit are contiguous: between two LSNs found in unit `a.au`, the walk from `a`
finds all LSNs in that unit. -/
theorem unit_contiguous {d : DiskView} (hw : d.WF) (hpb : d.PointBackward) (ho : d.LsnOrder) :
    ∀ n (a : Address) r a1 l1 l2, a.page = n → d.entries a = some r →
      d.Holds (some a) l1 a1 → a1.au = a.au → l1 ≤ l2 → l2 < r.msgs.seqEnd →
      ∃ x, d.Holds (some a) l2 x ∧ x.au = a.au := by
  intro n
  induction n with
  | zero =>
    intro a r a1 l1 l2 hp he h1 hau hle hlt
    have hb1 := h1.2.1
    by_cases hs : r.msgs.seqStart ≤ l2
    · exact ⟨a, (DiskView.holds_cons he).mpr (.inl ⟨rfl, by omega, hs, hlt⟩), rfl⟩
    · exfalso
      rcases (DiskView.holds_cons he).mp h1 with ⟨_, _, h3⟩ | h3
      · have := h3.1; omega
      · obtain ⟨_, _, q, hq, hc⟩ := h3
        by_cases hpg : a1.page = 0
        · have : a1 = a := by ext <;> simp_all
          subst this
          rw [he] at hq; cases hq
          have := hc.1; omega
        · have := ho a a1 r q hau.symm (by omega) he hq
          have := (hw.1 a r he).1.1
          have := hc.1; have := hc.2
          omega
  | succ n ih =>
    intro a r a1 l1 l2 hp he h1 hau hle hlt
    have hb1 := h1.2.1
    by_cases hs : r.msgs.seqStart ≤ l2
    · exact ⟨a, (DiskView.holds_cons he).mpr (.inl ⟨rfl, by omega, hs, hlt⟩), rfl⟩
    · rcases (DiskView.holds_cons he).mp h1 with ⟨_, _, h3⟩ | h3
      · have := h3.1; omega
      · have hcp : r.croppedPrior d.boundary = some a.previous := by
          unfold JRec.croppedPrior
          rw [if_pos (by omega)]
          exact hpb a r (by omega) he
        obtain ⟨q, hq⟩ := hw.2.1 a r he _ hcp
        have hcat : r.msgs.seqStart = q.msgs.seqEnd := hw.2.2.1 a r _ q he hcp hq
        rw [hcp] at h3
        obtain ⟨x, hx, hxa⟩ := ih a.previous q a1 l1 l2 (by simp [Address.previous, hp]) hq h3 hau
          hle (by omega)
        exact ⟨x, (DiskView.holds_cons he).mpr (.inr (by rw [hcp]; exact hx)), hxa⟩

/-- The same along a walk from any pointer: `aus_hold_contiguous_lsns`, AllocationJournal_v.rs
105-124. -/
theorem contiguous {d : DiskView} (hw : d.WF) (hpb : d.PointBackward) (ho : d.LsnOrder) {p l1 l2 l3 a1 a3}
    (h1 : d.Holds p l1 a1) (h3 : d.Holds p l3 a3) (hau : a1.au = a3.au) (h12 : l1 ≤ l2)
    (h23 : l2 ≤ l3) : ∃ x, d.Holds p l2 x ∧ x.au = a1.au := by
  have hr := h3.1
  induction hr with
  | @here a r he =>
    obtain ⟨x, hx, hxa⟩ := unit_contiguous hw hpb ho _ a r a1 l1 l2 rfl he h1 hau h12 (by
      have := h3.2.2.choose_spec
      obtain ⟨_, _, q, hq, hc⟩ := h3
      rw [he] at hq; cases hq
      have := hc.2; omega)
    exact ⟨x, hx, by rw [hxa, hau]⟩
  | @there a r x he hrx ih =>
    have h3' : d.Holds (r.croppedPrior d.boundary) l3 x := ⟨hrx, h3.2⟩
    have hlt := h3'.lt_seqStart hw he
    rcases (DiskView.holds_cons he).mp h1 with ⟨_, _, h4⟩ | h4
    · have := h4.1; omega
    · obtain ⟨y, hy, hya⟩ := ih h4 h3' hau
      exact ⟨y, (DiskView.holds_cons he).mpr (.inr hy), hya⟩

/-! ### Cropping -/

theorem crop_reach {d : DiskView} (hw : d.WF) {p} (hp : d.Nondangling p) {n a}
    (h : d.pointerAfterCrop p n = some a) : d.Reach p a := by
  induction n generalizing p with
  | zero =>
    have h : p = some a := h
    subst h
    obtain ⟨r, hr⟩ := hp a rfl
    exact .here hr
  | succ n ih =>
    have h : d.pointerAfterCrop (d.next p) n = some a := h
    cases p with
    | none =>
      have := ih (p := d.next none) (by intro x hx; simp [DiskView.next] at hx) h
      simp only [DiskView.next] at this
      exact this
    | some y =>
      obtain ⟨r, hr⟩ := hp y rfl
      have hn : d.next (some y) = r.croppedPrior d.boundary := by simp only [DiskView.next, hr]
      rw [hn] at h
      exact .there hr (ih (hw.2.1 y r hr) h)

/-- The walk from a cropped pointer finds the LSNs below its end, at the same places. -/
theorem holds_crop {d : DiskView} (hw : d.WF) (ha : d.Acyclic) {p} (hb : d.BlockInBounds p) {n l x} :
    d.Holds (d.pointerAfterCrop p n) l x ↔
      l < d.seqEnd (d.pointerAfterCrop p n) ∧ d.Holds p l x := by
  have hb' := crop_inBounds hw (n := n) hb
  have hto : ∀ y, d.Holds (d.pointerAfterCrop p n) l y → d.Holds p l y := by
    intro y hy
    cases hc : d.pointerAfterCrop p n with
    | none => rw [hc] at hy; exact absurd hy.1 not_reach_none
    | some a =>
      have h1 := crop_reach hw hb.1 hc
      rw [hc] at hy
      exact ⟨h1.trans hy.1, hy.2⟩
  constructor
  · intro h; exact ⟨h.lt_seqEnd hw, hto x h⟩
  · rintro ⟨h1, h2⟩
    obtain ⟨y, hy⟩ := holds_exists hw ha hb' h2.2.1 h1
    rw [h2.unique hw (hto y hy)]; exact hy

end Verif.Linked

namespace Verif.AllocJ
open Verif Linked

/-- What holds of the blocks, the index and the first unit. -/
structure Shape (g : Geometry) (t : TJ) (ix : PMap LSN Nat) (first : Nat) : Prop where
  dec : t.Decodable
  addrs : t.disk.WFAddrs g
  back : t.disk.PointBackward
  order : t.disk.LsnOrder
  unique : t.disk.UniqueLsns
  firstAu : t.root ≠ none → t.disk.ValidFirst first
  inactive : t.disk.BoundedInactive g ix t.root
  tight : t.disk.DomainTight g ix t.root
  builds : Builds t.disk Address.au t.root ix

namespace Shape
variable {g : Geometry} {t : TJ} {ix : PMap LSN Nat} {first : Nat}

theorem upstream (h : Shape g t ix first) : t.disk.Upstream t.root first := by
  refine ⟨⟨h.dec.1.1, h.dec.1.2.1⟩, h.dec.2, ⟨h.back, h.order⟩, h.unique, h.firstAu, ?_⟩
  intro a ha
  obtain ⟨r, hr⟩ := h.dec.1.2.2.1 a ha
  exact ⟨r, hr, h.dec.1.2.2.2 a r ha hr⟩

theorem auWalk (h : Shape g t ix first) : AuWalk t.disk first t.root ix :=
  auWalk_of_builds h.dec.1.1 h.dec.2 h.back h.unique h.dec.1.2.2 h.firstAu h.builds

theorem valid (h : Shape g t ix first) : Image.Valid g ⟨t, first⟩ :=
  ⟨h.addrs, h.upstream, ix, h.auWalk, h.tight, h.inactive⟩

theorem of_valid {i : Image} (h : i.Valid g) (hd : i.tj.Decodable)
    (hw : AuWalk i.tj.disk i.first i.tj.root ix) : Shape g i.tj ix i.first := by
  obtain ⟨h1, ⟨h2, h3, ⟨h4, h5⟩, h6, h7, h8⟩, ix', h9, h10, h11⟩ := h
  have := hw.det h9; subst this
  exact ⟨hd, h1, h4, h5, h6, h7, h11, h10,
    builds_of_auWalk hd.1.1 hd.2 h4 h6 hd.1.2.2 h7 hw⟩

/-- A valid image is decodable. -/
theorem decodable_of_valid {i : Image} (h : i.Valid g) : i.tj.Decodable := by
  obtain ⟨h1, ⟨h2, h3, _, _, _, h8⟩, _⟩ := h
  refine ⟨⟨h2.1, h2.2, h2.2, ?_⟩, h3⟩
  intro a r ha hr
  obtain ⟨r', hr', hlt⟩ := h8 a ha
  rw [hr] at hr'; cases hr'; exact hlt

/-- Every LSN at or above the boundary held by any block on the disk is found by the walk in that
block: blocks the walk does not reach hold only LSNs below the boundary. -/
theorem covered (h : Shape g t ix first) {x r l} (hx : t.disk.entries x = some r)
    (hl : r.msgs.Contains l) (hb : t.disk.boundary ≤ l) : t.disk.Holds t.root l x := by
  obtain ⟨hv, ha⟩ := h.tight x (by simp [PMap.Has, hx])
  cases hix : ix l with
  | none => have := h.inactive x r l hx hl hv hix ha; omega
  | some au =>
    obtain ⟨y, hy, _⟩ := (h.builds.iff h.dec.1.1 l au).mp hix
    rw [h.unique l x y (supports_iff.mpr ⟨hb, r, hx, hl⟩) hy.supports]; exact hy

theorem index (h : Shape g t ix first) {x r l} (hx : t.disk.entries x = some r)
    (hl : r.msgs.Contains l) (hb : t.disk.boundary ≤ l) : ix l = some x.au :=
  (h.builds.iff h.dec.1.1 l _).mpr ⟨x, h.covered hx hl hb, rfl⟩

theorem end_le (h : Shape g t ix first) {x r} (hx : t.disk.entries x = some r) :
    r.msgs.seqEnd ≤ t.seqEnd := by
  have hw := h.dec.1.1.1 x r hx
  have hle := hw.1.1
  have hne : r.msgs.seqStart ≠ r.msgs.seqEnd := hw.2
  have hse : t.disk.boundary ≤ t.seqEnd := tj_seqStart_le h.dec.1
  by_cases hb : t.disk.boundary ≤ r.msgs.seqEnd - 1
  · have : r.msgs.seqEnd - 1 < t.seqEnd := (h.covered hx (l := r.msgs.seqEnd - 1)
      ⟨by omega, by omega⟩ hb).lt_seqEnd h.dec.1.1
    omega
  · omega

theorem root_last (h : Shape g t ix first) {a} (ha : t.root = some a) :
    t.disk.boundary < t.seqEnd ∧ ix (t.seqEnd - 1) = some a.au ∧
    ∃ r, t.disk.entries a = some r ∧ r.msgs.seqEnd = t.seqEnd := by
  obtain ⟨r, hr⟩ := h.dec.1.2.2.1 a ha
  have h1 := h.dec.1.2.2.2 a r ha hr
  have h2 : t.seqEnd = r.msgs.seqEnd := by
    unfold TJ.seqEnd; rw [ha]; simp only [DiskView.seqEnd, hr]
  have hw := h.dec.1.1.1 a r hr
  have := hw.1.1
  have : r.msgs.seqStart ≠ r.msgs.seqEnd := hw.2
  exact ⟨by omega, h.index hr ⟨by omega, by omega⟩ (by omega), r, hr, h2.symm⟩

theorem domain (h : Shape g t ix first) (l : LSN) :
    ix l ≠ none ↔ t.seqStart ≤ l ∧ l < t.seqEnd := h.builds.domain h.dec.1.1 h.dec.1.2.2 l

theorem holder (h : Shape g t ix first) {l au} (hl : ix l = some au) :
    ∃ x r, x.au = au ∧ t.disk.entries x = some r ∧ r.msgs.Contains l ∧ t.disk.boundary ≤ l ∧
      t.disk.Holds t.root l x := by
  obtain ⟨x, hx, rfl⟩ := (h.builds.iff h.dec.1.1 l au).mp hl
  obtain ⟨_, hb, r, hr, hc⟩ := id hx
  exact ⟨x, r, rfl, hr, hc, hb, hx⟩

end Shape

/-- The invariant, AllocationJournal_v.rs 1447-1458, with: only reserved pages are observed. -/
structure State.Inv (g : Geometry) (s : State) : Prop where
  jinv : s.j.Inv
  shape : Shape g s.j.tj s.ix s.first
  mwf : s.mini.wf g
  notFree : ∀ a, s.j.tj.disk.entries.Has a → ¬ s.mini.canAllocate g a
  follows : ∀ au, s.mini.curr = some au → ∃ a, s.j.tj.root = some a ∧ a.au = au
  observed : ∀ au p, s.mini.allocs au = some p → ∀ a, p.observed a → p.reserved a

theorem Image.index_det {g : Geometry} {i : Image} {s s'} (h : Init g i s) (h' : Init g i s') : s = s' := by
  obtain ⟨_, ⟨_, hj⟩, hw, hf, hm⟩ := h
  obtain ⟨_, ⟨_, hj'⟩, hw', hf', hm'⟩ := h'
  cases s; cases s'
  simp_all only [State.mk.injEq]
  exact ⟨trivial, hw.det hw', trivial, trivial⟩

theorem init_inv {g : Geometry} {i : Image} {s} (h : Init g i s) : s.Inv g := by
  obtain ⟨hv, ⟨hd, hj⟩, hw, hf, hm⟩ := h
  refine ⟨?_, ?_, ?_, ?_, ?_, ?_⟩
  · rw [hj]
    exact ⟨⟨hd.1, MsgHistory.wf_emptyAt _, tj_seqStart_le hd.1, rfl⟩, hd⟩
  · rw [hf, hj]; exact Shape.of_valid hv hd hw
  · rw [hm]
    refine ⟨?_, ?_⟩
    · intro au p hp; cases hp
    · intro au hc; cases hc
  · rintro a _ ⟨p, hp, _⟩; rw [hm] at hp; cases hp
  · intro au hc; rw [hm] at hc; cases hc
  · intro au p hp; rw [hm] at hp; cases hp

/-! ### Truncation -/

theorem PMap.has_some {K V : Type} {m : PMap K V} {k v} (h : m k = some v) : m.Has k := by
  simp [PMap.Has, h]

theorem discard_shape {g : Geometry} {t new : TJ} {ix first l f} (h : Shape g t ix first)
    (hl : t.CanDiscardTo l) (hnf : NewFirst t ix l f)
    (hd : DiscardOldTight t l
      (fun a => t.disk.entries.Has a ∧ (Index.discardUpTo ix l).HasValue a.au) new) :
    Shape g new (Index.discardUpTo ix l) f := by
  obtain ⟨hc, hkeep⟩ := hd
  have hsub := hc.sub
  have hb := hc.builds h.dec hl h.builds
  obtain ⟨h1, h2, h3, h4, h5⟩ := hc
  have hac : new.disk.Acyclic := subDisk_acyclic hsub (discardOld_acyclic h.dec.2 hl.1)
  have hbl : t.disk.boundary ≤ l := hl.1
  have hsup : ∀ a k, new.disk.Supports a k → t.disk.Supports a k := by
    intro a k hs
    obtain ⟨q1, r, q2, q3⟩ := supports_iff.mp hs
    exact supports_iff.mpr ⟨by omega, r, h3 a r q2, q3⟩
  have hold : ∀ a, new.disk.entries.Has a → t.disk.entries.Has a := by
    intro a ha
    obtain ⟨r, hr⟩ := (PMap.has_iff _ _).mp ha
    exact PMap.has_some (h3 a r hr)
  have hroot : ∀ a, new.root = some a → t.root = some a ∧ t.seqEnd ≠ l := by
    intro a ha
    rw [h5] at ha
    split at ha
    · cases ha
    · exact ⟨ha, by assumption⟩
  refine ⟨⟨h1, hac⟩, fun a ha => h.addrs a (hold a ha), ?_, ?_, ?_, ?_, ?_, ?_, hb⟩
  · intro a r ha hr; exact h.back a r ha (h3 a r hr)
  · intro lo hi rlo rhi e1 e2 e3 e4; exact h.order lo hi rlo rhi e1 e2 (h3 _ _ e3) (h3 _ _ e4)
  · intro k a b ha hb; exact h.unique k a b (hsup a k ha) (hsup b k hb)
  · intro hne
    obtain ⟨a, ha⟩ := Option.ne_none_iff_exists'.mp hne
    obtain ⟨hra, hrl⟩ := hroot a ha
    have hll : l < t.seqEnd := by have := hl.2; omega
    have hix : ix l ≠ none := (h.domain l).mpr ⟨hl.1, hll⟩
    obtain ⟨au, hau⟩ := Option.ne_none_iff_exists'.mp hix
    obtain ⟨x, r, hxa, hxr, hxc, hxb, hxh⟩ := h.holder hau
    have hxk : new.disk.entries.Has x := (hkeep x).mp ⟨PMap.has_some hxr, l,
      Index.discardUpTo_some.mpr ⟨Nat.le_refl _, by rw [hxa]; exact hau⟩⟩
    obtain ⟨r', hr'⟩ := (PMap.has_iff _ _).mp hxk
    have := h3 x r' hr'; rw [hxr] at this; cases this
    refine ⟨x, ?_, supports_iff.mpr ⟨Nat.le_refl _, r, hr', by rw [h2]; exact hxc⟩⟩
    rw [hxa, hnf hrl (by rw [hra]; simp) au hau]
  · intro a r k ha hk hv hix _
    apply Classical.byContradiction
    intro hge
    have hge : l ≤ k := by omega
    have := h.index (h3 a r ha) hk (by omega)
    rw [Index.discardUpTo_some.mpr ⟨hge, this⟩] at hix
    cases hix
  · intro a ha
    refine ⟨((hkeep a).mpr ha).2, ?_⟩
    intro x hx
    exact (h.tight a (hold a ha)).2 x (hroot x hx).1

/-- A truncation to any point of the journal is possible. -/
theorem can_discard {g : Geometry} {t : TJ} {ix first} (h : Shape g t ix first) {l}
    (hl : t.CanDiscardTo l) : ∃ new, DiscardOldTight t l
      (fun a => t.disk.entries.Has a ∧ (Index.discardUpTo ix l).HasValue a.au) new := by
  let keep : PSet Address := fun a => t.disk.entries.Has a ∧ (Index.discardUpTo ix l).HasValue a.au
  let new : TJ := { root := if t.seqEnd = l then none else t.root
                    disk := { boundary := l, entries := t.disk.entries.restrict keep } }
  have hbl : t.disk.boundary ≤ l := hl.1
  have hent : ∀ a r, new.disk.entries a = some r ↔ keep a ∧ t.disk.entries a = some r :=
    fun a r => PMap.restrict_some
  have hw := discardOld_wf h.dec.1.1 (l := l) hl.1
  have hdang : ∀ y q k, t.disk.entries y = some q → q.msgs.Contains k → l ≤ k →
      new.disk.entries y = some q := by
    intro y q k hy hk hlk
    refine (hent y q).mpr ⟨⟨PMap.has_some hy, k, ?_⟩, hy⟩
    exact Index.discardUpTo_some.mpr ⟨hlk, h.index hy hk (by omega)⟩
  have hnw : new.disk.WF := by
    refine ⟨?_, ?_, ?_, ?_⟩
    · intro a r hr; exact hw.1 a r ((hent a r).mp hr).2
    · intro a r hr y hy
      have hr' := ((hent a r).mp hr).2
      obtain ⟨q, hq⟩ := hw.2.1 a r hr' y hy
      have hcat : r.msgs.seqStart = q.msgs.seqEnd := hw.2.2.1 a r y q hr' hy hq
      have hlt : l < r.msgs.seqStart := (croppedPrior_some (b := l) hy).1
      have hqw := h.dec.1.1.1 y q hq
      have := hqw.1.1
      have : q.msgs.seqStart ≠ q.msgs.seqEnd := hqw.2
      exact ⟨q, hdang y q (q.msgs.seqEnd - 1) hq ⟨by omega, by omega⟩ (by omega)⟩
    · intro a r p q hr hp hq
      exact hw.2.2.1 a r p q ((hent a r).mp hr).2 hp ((hent p q).mp hq).2
    · intro a r hr; exact hw.2.2.2 a r ((hent a r).mp hr).2
  have hroot : new.disk.BlockInBounds new.root := by
    show new.disk.BlockInBounds (if t.seqEnd = l then none else t.root)
    split
    · constructor <;> simp [DiskView.Nondangling]
    · rename_i hne
      have hle := hl.2
      have key : ∀ a, t.root = some a → ∃ r, new.disk.entries a = some r ∧ l < r.msgs.seqEnd := by
        intro a ha
        obtain ⟨h1, h2, r, h3, h4⟩ := h.root_last ha
        have hqw := h.dec.1.1.1 a r h3
        have := hqw.1.1
        have : r.msgs.seqStart ≠ r.msgs.seqEnd := hqw.2
        exact ⟨r, hdang a r (r.msgs.seqEnd - 1) h3 ⟨by omega, by omega⟩ (by omega), by omega⟩
      refine ⟨fun a ha => (key a ha).imp fun r h => h.1, ?_⟩
      intro a r ha hr
      obtain ⟨r', hr', hlt⟩ := key a ha
      rw [hr] at hr'; cases hr'; exact hlt
  refine ⟨new, ⟨⟨hnw, hroot.1, hroot⟩, rfl, fun a r hr => ((hent a r).mp hr).2, ?_, rfl⟩, ?_⟩
  · intro a ha
    obtain ⟨r, hr⟩ := (PMap.has_iff _ _).mp ha.1
    exact PMap.has_some ((hent a r).mpr ⟨ha, hr⟩)
  · intro a
    constructor
    · intro ha
      obtain ⟨r, hr⟩ := (PMap.has_iff _ _).mp ha.1
      exact PMap.has_some ((hent a r).mpr ⟨ha, hr⟩)
    · intro ha
      obtain ⟨r, hr⟩ := (PMap.has_iff _ _).mp ha
      exact ((hent a r).mp hr).1

/-! ### Freezing -/

section Freeze
variable {g : Geometry} {t : TJ} {ix : PMap LSN Nat} {first : Nat}

theorem crop_decodable (hd : t.Decodable) (n : Nat) : (t.crop n).Decodable := by
  have hb := crop_inBounds hd.1.1 (n := n) hd.1.2.2
  exact ⟨⟨hd.1.1, hb.1, hb⟩, hd.2⟩

theorem discardOld_seqEnd {t : TJ} {l : LSN} (h : t.CanDiscardTo l) :
    (t.discardOld l).seqEnd = t.seqEnd := by
  have hle := h.2
  have hb : t.disk.boundary ≤ l := h.1
  unfold TJ.discardOld TJ.seqEnd
  dsimp only
  split
  · rename_i he; exact he.symm
  · rename_i hne
    have hne : t.disk.seqEnd t.root ≠ l := hne
    have hle : l ≤ t.disk.seqEnd t.root := hle
    cases hr : t.root with
    | none => rw [hr] at hne hle; simp only [DiskView.seqEnd] at *; omega
    | some a =>
      simp only [DiskView.seqEnd, DiskView.discardOld]
      cases he : t.disk.entries a with
      | some r => rfl
      | none => rw [hr] at hne hle; simp only [DiskView.seqEnd, he] at hne hle; omega

theorem crop_seqEnd_le (h : Shape g t ix first) (n : Nat) : (t.crop n).seqEnd ≤ t.seqEnd := by
  cases hr : (t.crop n).root with
  | none =>
    have : (t.crop n).seqEnd = t.seqStart := by unfold TJ.seqEnd; rw [hr]; rfl
    rw [this]; exact tj_seqStart_le h.dec.1
  | some a =>
    obtain ⟨r, hr'⟩ := (crop_decodable h.dec n).1.2.1 a hr
    have : (t.crop n).seqEnd = r.msgs.seqEnd := by
      unfold TJ.seqEnd; rw [hr]; simp only [DiskView.seqEnd, hr']
    rw [this]; exact h.end_le hr'

/-- facts about the newest block of a cropped journal -/
theorem crop_root (h : Shape g t ix first) {n a} (ha : (t.crop n).root = some a) :
    t.disk.boundary < (t.crop n).seqEnd ∧ ix ((t.crop n).seqEnd - 1) = some a.au ∧
    ∃ r, t.disk.entries a = some r ∧ r.msgs.seqEnd = (t.crop n).seqEnd := by
  have hd := crop_decodable h.dec n
  obtain ⟨r, hr⟩ := hd.1.2.2.1 a ha
  have hr' : t.disk.entries a = some r := hr
  have h1 : t.disk.boundary < r.msgs.seqEnd := hd.1.2.2.2 a r ha hr
  have h2 : (t.crop n).seqEnd = r.msgs.seqEnd := by
    unfold TJ.seqEnd; rw [ha]; simp only [DiskView.seqEnd, hr]
  have hw := h.dec.1.1.1 a r hr'
  have := hw.1.1
  have : r.msgs.seqStart ≠ r.msgs.seqEnd := hw.2
  exact ⟨by omega, h.index hr' ⟨by omega, by omega⟩ (by omega), r, hr', h2.symm⟩

/-- A block in a unit used below the end of the cropped journal and not after the newest page of the
cropped journal holds no LSN at or above that end. -/
theorem frozen_below (h : Shape g t ix first) {n a x r k m}
    (ha : (t.crop n).root = some a) (hx : t.disk.entries x = some r) (hk : r.msgs.Contains k)
    (hm : ix m = some x.au)
    (hme : m < (t.crop n).seqEnd) (hna : ¬ a.afterPage g x) : k < (t.crop n).seqEnd := by
  apply Classical.byContradiction
  intro hge
  obtain ⟨_, hlast, ra, hra, hend⟩ := crop_root h ha
  obtain ⟨y, ry, hya, hry, hyc, hyb, hyh⟩ := h.holder hm
  have hxh := h.covered hx hk (by omega)
  obtain ⟨z, hz, hza⟩ := contiguous h.dec.1.1 h.back h.order hyh hxh hya
    (l2 := (t.crop n).seqEnd - 1) (by omega) (by omega)
  have hzau : ix ((t.crop n).seqEnd - 1) = some z.au :=
    (h.builds.iff h.dec.1.1 _ _).mpr ⟨z, hz, rfl⟩
  rw [hlast] at hzau
  have hau : a.au = x.au := by
    have : a.au = z.au := by simpa using hzau
    rw [this, hza, hya]
  have hxw := h.addrs x (PMap.has_some hx)
  have hpage : ¬ a.page < x.page := fun hc => hna ⟨hxw, hau.symm, hc⟩
  have hkc := hk.2
  by_cases heq : x = a
  · subst heq; rw [hx] at hra; cases hra; omega
  · have hlt : x.page < a.page := by
      have : x.page ≠ a.page := by
        intro hc; apply heq; ext
        · exact hau.symm
        · exact hc
      omega
    have := h.order x a r ra hau.symm hlt hx hra
    have := (h.dec.1.1.1 a ra hra).1.1
    omega

/-- The frozen image is a valid image, and its index is the part of the index frozen. -/
theorem freeze_shape (h : Shape g t ix first) {n} {z : Image}
    (hcd : (t.crop n).CanDiscardTo z.tj.seqStart)
    (hv : DiscardOldTight (t.crop n) z.tj.seqStart
      ((t.crop n).disk.TightDomain g
        (frozenIndex ix z.tj.seqStart ((t.crop n).discardOld z.tj.seqStart).seqEnd) z.tj.root) z.tj)
    (hnf : NewFirst z.tj ix z.tj.seqStart z.first) :
    Shape g z.tj (frozenIndex ix z.tj.seqStart (t.crop n).seqEnd) z.first := by
  rw [discardOld_seqEnd hcd] at hv
  generalize hl0 : z.tj.seqStart = l0 at *
  generalize hE : (t.crop n).seqEnd = e at *
  have hcdec := crop_decodable h.dec n
  obtain ⟨hc, hkeep⟩ := hv
  have hsub := hc.sub
  -- index of the cropped journal
  have hcb : Builds (t.crop n).disk Address.au (t.crop n).root (ix.restrict (fun k => k < e)) := by
    obtain ⟨ix', hix'⟩ := builds_exists Address.au hcdec.1.1 hcdec.2 hcdec.1.2.1
    have : ix' = ix.restrict (fun k => k < e) := by
      funext k
      have key : ∀ v, ix' k = some v ↔ ix.restrict (fun k => k < e) k = some v := by
        intro v
        rw [hix'.iff hcdec.1.1, PMap.restrict_some, h.builds.iff h.dec.1.1]
        have hk : ∀ a, (t.crop n).disk.Holds (t.crop n).root k a ↔ k < e ∧ t.disk.Holds t.root k a := by
          intro a
          rw [← hE]
          exact holds_crop h.dec.1.1 h.dec.2 h.dec.1.2.2
        simp only [hk]
        constructor
        · rintro ⟨a, ⟨h6, h7⟩, h8⟩; exact ⟨h6, a, h7, h8⟩
        · rintro ⟨h6, a, h7, h8⟩; exact ⟨a, ⟨h6, h7⟩, h8⟩
      cases h9 : ix.restrict (fun k => k < e) k with
      | none =>
        cases h10 : ix' k with
        | none => rfl
        | some v => rw [(key v).mp h10] at h9; cases h9
      | some v => exact (key v).mpr h9
    rw [← this]; exact hix'
  have hzb := hc.builds hcdec hcd hcb
  have hfi : Index.discardUpTo (ix.restrict (fun k => k < e)) l0 = frozenIndex ix l0 e := by
    funext k
    unfold Index.discardUpTo frozenIndex PMap.restrict
    by_cases h1 : l0 ≤ k <;> by_cases h2 : k < e <;> simp [h1, h2]
  rw [hfi] at hzb
  have hfs : ∀ k v, frozenIndex ix l0 e k = some v ↔ (l0 ≤ k ∧ k < e) ∧ ix k = some v :=
    fun k v => PMap.restrict_some
  obtain ⟨h1, h2, h3, h4, h5⟩ := hc
  have h3 : ∀ a r, z.tj.disk.entries a = some r → t.disk.entries a = some r := h3
  have hac : z.tj.disk.Acyclic := subDisk_acyclic hsub (discardOld_acyclic hcdec.2 hcd.1)
  have hbl : t.disk.boundary ≤ l0 := hcd.1
  have hle : l0 ≤ e := by rw [← hE]; exact hcd.2
  have hsup : ∀ a k, z.tj.disk.Supports a k → t.disk.Supports a k := by
    intro a k hs
    obtain ⟨q1, r, q2, q3⟩ := supports_iff.mp hs
    exact supports_iff.mpr ⟨by omega, r, h3 a r q2, q3⟩
  have hold : ∀ a, z.tj.disk.entries.Has a → t.disk.entries.Has a := by
    intro a ha
    obtain ⟨r, hr⟩ := (PMap.has_iff _ _).mp ha
    exact PMap.has_some (h3 a r hr)
  have hroot : ∀ a, z.tj.root = some a → (t.crop n).root = some a ∧ e ≠ l0 := by
    intro a ha
    rw [h5] at ha
    split at ha
    · cases ha
    · rw [← hE]; exact ⟨ha, by assumption⟩
  have hzend : ∀ a, z.tj.root = some a → z.tj.seqEnd = e := by
    intro a ha
    obtain ⟨hra, _⟩ := hroot a ha
    obtain ⟨_, _, r, hr, hre⟩ := crop_root h hra
    obtain ⟨r', hr'⟩ := h1.2.1 a ha
    have := h3 a r' hr'
    rw [hr] at this; cases this
    unfold TJ.seqEnd; rw [ha]; simp only [DiskView.seqEnd, hr']
    rw [hre, hE]
  refine ⟨⟨h1, hac⟩, fun a ha => h.addrs a (hold a ha), ?_, ?_, ?_, ?_, ?_, ?_, hzb⟩
  · intro a r ha hr; exact h.back a r ha (h3 a r hr)
  · intro lo hi rlo rhi e1 e2 e3 e4; exact h.order lo hi rlo rhi e1 e2 (h3 _ _ e3) (h3 _ _ e4)
  · intro k a b ha hb; exact h.unique k a b (hsup a k ha) (hsup b k hb)
  · intro hne
    obtain ⟨a, ha⟩ := Option.ne_none_iff_exists'.mp hne
    obtain ⟨hra, hrl⟩ := hroot a ha
    obtain ⟨_, _, ra, hra', hre⟩ := crop_root h hra
    have hcle := crop_seqEnd_le h n
    have hix : ix l0 ≠ none := (h.domain l0).mpr ⟨hbl, by omega⟩
    obtain ⟨au, hau⟩ := Option.ne_none_iff_exists'.mp hix
    obtain ⟨x, r, hxa, hxr, hxc, hxb, hxh⟩ := h.holder hau
    have hxk : z.tj.disk.entries.Has x := by
      refine (hkeep x).mp ⟨PMap.has_some hxr, ⟨l0, (hfs _ _).mpr ⟨⟨Nat.le_refl _, by omega⟩, by rw [hxa]; exact hau⟩⟩, ?_⟩
      intro y hy
      rw [ha] at hy; cases hy
      rintro ⟨_, hyau, hyp⟩
      have := h.order a x ra r hyau.symm hyp hra' hxr
      have := hxc.1
      omega
    obtain ⟨r', hr'⟩ := (PMap.has_iff _ _).mp hxk
    have := h3 x r' hr'; rw [hxr] at this; cases this
    have h2 : z.tj.disk.boundary = l0 := h2
    refine ⟨x, ?_, supports_iff.mpr ⟨Nat.le_refl _, r, hr', by rw [h2]; exact hxc⟩⟩
    rw [hxa, hnf (by rw [hzend a ha]; exact hrl) hne au hau]
  · intro a r k ha hk hv hix hna
    apply Classical.byContradiction
    intro hge
    have h2 : z.tj.disk.boundary = l0 := h2
    rw [h2] at hge
    have hge : l0 ≤ k := by omega
    have hka := h.index (h3 a r ha) hk (by omega)
    have hke : ¬ k < e := by
      intro hc
      rw [(hfs k _).mpr ⟨⟨hge, hc⟩, hka⟩] at hix; cases hix
    obtain ⟨m, hm⟩ := hv
    obtain ⟨⟨hm1, hm2⟩, hm3⟩ := (hfs m _).mp hm
    -- the frozen journal is not empty
    have hne : e ≠ l0 := by omega
    have hcr : (t.crop n).root ≠ none := by
      intro hc
      have : (t.crop n).seqEnd = t.seqStart := by unfold TJ.seqEnd; rw [hc]; rfl
      have hb : t.seqStart ≤ l0 := hbl
      omega
    obtain ⟨b, hb⟩ := Option.ne_none_iff_exists'.mp hcr
    have hzr : z.tj.root = some b := by rw [h5, if_neg (by rw [hE]; exact hne)]; exact hb
    have := frozen_below h hb (h3 a r ha) hk hm3 (by omega) (hna b hzr)
    omega
  · intro a ha
    exact ((hkeep a).mpr ha).2

/-- Freezing any prefix from any boundary in it is possible. -/
theorem can_freeze (h : Shape g t ix first) {n l0} (hcd : (t.crop n).CanDiscardTo l0) :
    ∃ z : Image, z.tj.seqStart = l0 ∧
      DiscardOldTight (t.crop n) l0 ((t.crop n).disk.TightDomain g
        (frozenIndex ix l0 ((t.crop n).discardOld l0).seqEnd) z.tj.root) z.tj ∧
      NewFirst z.tj ix l0 z.first := by
  rw [discardOld_seqEnd hcd]
  generalize hE : (t.crop n).seqEnd = e at *
  let rt : Pointer := if e = l0 then none else (t.crop n).root
  let keep := (t.crop n).disk.TightDomain g (frozenIndex ix l0 e) rt
  let new : TJ := { root := rt, disk := { boundary := l0, entries := t.disk.entries.restrict keep } }
  have hbl : t.disk.boundary ≤ l0 := hcd.1
  have hle : l0 ≤ e := by rw [← hE]; exact hcd.2
  have hfs : ∀ k v, frozenIndex ix l0 e k = some v ↔ (l0 ≤ k ∧ k < e) ∧ ix k = some v :=
    fun k v => PMap.restrict_some
  have hent : ∀ a r, new.disk.entries a = some r ↔ keep a ∧ t.disk.entries a = some r :=
    fun a r => PMap.restrict_some
  have hw := discardOld_wf h.dec.1.1 (l := l0) hcd.1
  have hrt : ∀ a, rt = some a → e ≠ l0 ∧ (t.crop n).root = some a := by
    intro a ha
    simp only [rt] at ha
    split at ha
    · cases ha
    · exact ⟨by assumption, ha⟩
  -- a block holding a frozen LSN is kept
  have hdang : ∀ y q k, t.disk.entries y = some q → q.msgs.Contains k → l0 ≤ k → k < e →
      new.disk.entries y = some q := by
    intro y q k hy hk hlk hke
    refine (hent y q).mpr ⟨⟨PMap.has_some hy, ⟨k, (hfs _ _).mpr ⟨⟨hlk, hke⟩, h.index hy hk (by omega)⟩⟩, ?_⟩, hy⟩
    rintro a ha ⟨_, hau, hp⟩
    obtain ⟨_, _, ra, hra, hre⟩ := crop_root h (hrt a ha).2
    have := h.order a y ra q hau.symm hp hra hy
    have := hk.1
    omega
  have hcr : e ≠ l0 → ∃ b, (t.crop n).root = some b := by
    intro hne
    apply Option.ne_none_iff_exists'.mp
    intro hc
    have : (t.crop n).seqEnd = t.seqStart := by unfold TJ.seqEnd; rw [hc]; rfl
    have hb : t.seqStart ≤ l0 := hbl
    omega
  have hnw : new.disk.WF := by
    refine ⟨?_, ?_, ?_, ?_⟩
    · intro a r hr; exact hw.1 a r ((hent a r).mp hr).2
    · intro a r hr y hy
      obtain ⟨⟨_, ⟨m, hm⟩, hna⟩, hr'⟩ := (hent a r).mp hr
      obtain ⟨⟨hm1, hm2⟩, hm3⟩ := (hfs m _).mp hm
      obtain ⟨q, hq⟩ := hw.2.1 a r hr' y hy
      have hcat : r.msgs.seqStart = q.msgs.seqEnd := hw.2.2.1 a r y q hr' hy hq
      have hlt : l0 < r.msgs.seqStart := (croppedPrior_some (b := l0) hy).1
      have hqw := h.dec.1.1.1 y q hq
      have := hqw.1.1
      have : q.msgs.seqStart ≠ q.msgs.seqEnd := hqw.2
      have hrw := h.dec.1.1.1 a r hr'
      have := hrw.1.1
      have : r.msgs.seqStart ≠ r.msgs.seqEnd := hrw.2
      have hne : e ≠ l0 := by omega
      obtain ⟨b, hb⟩ := hcr hne
      have hrtb : rt = some b := by simp only [rt]; rw [if_neg hne]; exact hb
      have := frozen_below h hb hr' (k := r.msgs.seqStart) ⟨Nat.le_refl _, by omega⟩ hm3
        (by omega) (hna b hrtb)
      exact ⟨q, hdang y q (q.msgs.seqEnd - 1) hq ⟨by omega, by omega⟩ (by omega) (by omega)⟩
    · intro a r p q hr hp hq
      exact hw.2.2.1 a r p q ((hent a r).mp hr).2 hp ((hent p q).mp hq).2
    · intro a r hr; exact hw.2.2.2 a r ((hent a r).mp hr).2
  have hroot : new.disk.BlockInBounds new.root := by
    have key : ∀ a, rt = some a → ∃ r, new.disk.entries a = some r ∧ l0 < r.msgs.seqEnd := by
      intro a ha
      obtain ⟨hne, hc⟩ := hrt a ha
      obtain ⟨h1, h2, r, h3, h4⟩ := crop_root h hc
      have hqw := h.dec.1.1.1 a r h3
      have := hqw.1.1
      have : r.msgs.seqStart ≠ r.msgs.seqEnd := hqw.2
      exact ⟨r, hdang a r (r.msgs.seqEnd - 1) h3 ⟨by omega, by omega⟩ (by omega) (by omega), by omega⟩
    refine ⟨fun a ha => (key a ha).imp fun r h => h.1, ?_⟩
    intro a r ha hr
    obtain ⟨r', hr', hlt⟩ := key a ha
    rw [hr] at hr'; cases hr'; exact hlt
  have hkeep1 : ∀ a, keep a → new.disk.entries.Has a := by
    intro a ha
    obtain ⟨r, hr⟩ := (PMap.has_iff _ _).mp ha.1
    exact PMap.has_some ((hent a r).mpr ⟨ha, hr⟩)
  refine ⟨⟨new, (ix l0).getD 0⟩, rfl,
    ⟨⟨⟨hnw, hroot.1, hroot⟩, rfl, fun a r hr => ((hent a r).mp hr).2, hkeep1, ?_⟩, ?_⟩, ?_⟩
  · show rt = if (t.crop n).seqEnd = l0 then none else (t.crop n).root
    rw [hE]
  · intro a
    refine ⟨hkeep1 a, ?_⟩
    intro ha
    obtain ⟨r, hr⟩ := (PMap.has_iff _ _).mp ha
    exact ((hent a r).mp hr).1
  · intro _ _ au hau
    show (ix l0).getD 0 = au
    rw [hau]; rfl

end Freeze

/-! ### The allocator -/

section Mini
variable {g : Geometry} {m : MiniAlloc}

theorem mini_take {a : Address} {p} (hp : m.allocs a.au = some p) :
    ((m.allocate g a).observe a).allocs =
      m.allocs.insert a.au ((p.reserve (fun x => x = a)).observe (fun x => x = a)) := by
  funext k
  simp only [MiniAlloc.observe, MiniAlloc.allocate, hp, Option.getD_some, PMap.insert_same]
  by_cases hk : k = a.au
  · subst hk; simp
  · rw [PMap.insert_other _ _ hk, PMap.insert_other _ _ hk, PMap.insert_other _ _ hk]

theorem mini_take_curr {a : Address} {au} (h : ((m.allocate g a).observe a).curr = some au) :
    au = a.au := by
  have h : (m.allocate g a).curr = some au := h
  simp only [MiniAlloc.allocate] at h
  split at h
  · cases h
  · cases h; rfl

theorem canAllocate_take {a x : Address} {p} (hp : m.allocs a.au = some p)
    (h : ((m.allocate g a).observe a).canAllocate g x) : m.canAllocate g x ∧ x ≠ a := by
  obtain ⟨q, hq, hf⟩ := h
  rw [mini_take hp] at hq
  by_cases hx : x.au = a.au
  · rw [hx] at hq
    rw [PMap.insert_same] at hq; cases hq
    obtain ⟨h1, h2, h3⟩ := hf
    refine ⟨⟨p, by rw [hx]; exact hp, h1, h2, ?_⟩, ?_⟩
    · rintro (h4 | h4)
      · exact h3 (.inl (.inl h4))
      · exact h3 (.inr (.inl h4))
    · intro he; exact h3 (.inl (.inr he))
  · rw [PMap.insert_other _ _ hx] at hq
    exact ⟨⟨q, hq, hf⟩, by rintro rfl; exact hx rfl⟩

theorem canAllocate_prune {aus : PSet Nat} {x : Address} (h : (m.prune aus).canAllocate g x) :
    m.canAllocate g x := by
  obtain ⟨q, hq, hf⟩ := h
  exact ⟨q, (PMap.removeKeys_some.mp hq).2, hf⟩

theorem prune_curr {aus : PSet Nat} {au} (h : (m.prune aus).curr = some au) :
    m.curr = some au ∧ ¬ aus au := by
  simp only [MiniAlloc.prune] at h
  split at h
  · cases h
  · rename_i hn
    exact ⟨h, fun hc => hn ⟨au, h, hc⟩⟩

theorem wf_prune {aus : PSet Nat} (h : m.wf g) : (m.prune aus).wf g := by
  refine ⟨?_, ?_⟩
  · intro au p hp
    exact h.1 au p (PMap.removeKeys_some.mp hp).2
  · intro au hc
    obtain ⟨h1, h2⟩ := prune_curr hc
    obtain ⟨p, hp⟩ := (PMap.has_iff _ _).mp (h.2 au h1)
    exact PMap.has_some (PMap.removeKeys_some.mpr ⟨h2, hp⟩)

theorem addAus_some {aus : PSet Nat} {au p} (h : (m.addAus aus).allocs au = some p) :
    m.allocs au = some p ∨ (m.allocs au = none ∧ aus au ∧ p = PageAlloc.new au) := by
  simp only [MiniAlloc.addAus] at h
  split at h
  · cases h; exact .inl (by assumption)
  · split at h
    · cases h; exact .inr ⟨by assumption, by assumption, rfl⟩
    · cases h

theorem addAus_has {aus : PSet Nat} {au} :
    (m.addAus aus).allocs.Has au ↔ m.allocs.Has au ∨ aus au := by
  unfold PMap.Has
  simp only [MiniAlloc.addAus]
  cases h : m.allocs au with
  | some p => simp
  | none =>
    by_cases h' : aus au <;> simp [h']

theorem wf_take {a : Address} {p} (h : m.wf g) (hp : m.allocs a.au = some p) (ha : a.wf g) :
    ((m.allocate g a).observe a).wf g := by
  obtain ⟨⟨hw1, hw2⟩, hau⟩ := h.1 _ p hp
  refine ⟨?_, ?_⟩
  · intro au q hq
    rw [mini_take hp] at hq
    by_cases hx : au = a.au
    · subst hx
      rw [PMap.insert_same] at hq; cases hq
      refine ⟨⟨?_, ?_⟩, hau⟩
      · rintro x (hx | rfl)
        · exact hw1 x hx
        · exact ⟨ha, hau.symm⟩
      · rintro x (hx | rfl)
        · exact hw2 x hx
        · exact ⟨ha, hau.symm⟩
    · rw [PMap.insert_other _ _ hx] at hq; exact h.1 au q hq
  · intro au hc
    rw [mini_take_curr hc, mini_take hp]
    simp [PMap.Has]

end Mini

/-! ### Writing a block -/

/-- Facts about the address a block is written at. -/
theorem next_addr {g : Geometry} {s : State} (h : s.Inv g) {a} (hn : TightNext g s.mini s.j.tj.root a) :
    s.j.tj.disk.entries a = none ∧ a.wf g ∧
    (∀ x, s.j.tj.disk.entries.Has x → x.au = a.au → x.page < a.page) ∧
    (a.page ≠ 0 → ∃ t, s.j.tj.root = some t ∧ a = t.next) := by
  obtain ⟨hca, h0, h1⟩ := hn
  obtain ⟨p, hp, haw, hpa, hpf⟩ := id hca
  refine ⟨?_, haw, ?_, ?_⟩
  · cases he : s.j.tj.disk.entries a with
    | none => rfl
    | some r => exact absurd hca (h.notFree a (PMap.has_some he))
  · intro x hx hxa
    have hxw := h.shape.addrs x hx
    cases hc : s.mini.curr with
    | none =>
      obtain ⟨hf, _⟩ := h0 hc
      obtain ⟨f1, f2⟩ := hf p hp
      exfalso
      refine h.notFree x hx ⟨p, by rw [hxa]; exact hp, hxw, by rw [hxa]; exact hpa, ?_⟩
      rintro (h3 | h3)
      · exact f1 x h3
      · exact f2 x h3
    | some au =>
      obtain ⟨t, ht, hta⟩ := h.follows au hc
      have hat := h1 (by rw [hc]; simp) t ht
      have := (h.shape.tight x hx).2 t ht
      have h3 : ¬ t.page < x.page := by
        intro hlt
        apply this
        refine ⟨hxw, ?_, hlt⟩
        rw [hxa, hat]; rfl
      rw [hat]
      show x.page < t.page + 1
      omega
  · intro hpg
    cases hc : s.mini.curr with
    | none => exact absurd (h0 hc).2 hpg
    | some au =>
      obtain ⟨t, ht, _⟩ := h.follows au hc
      exact ⟨t, ht, h1 (by rw [hc]; simp) t ht⟩

theorem marshal_shape {g : Geometry} {s : State} (h : s.Inv g) {a cut}
    (hn : TightNext g s.mini s.j.tj.root a) (h1 : s.j.tail.seqStart < cut)
    (h2 : s.j.tail.CanDiscardTo cut)
    (hinv : (State.j { s with j := { tj := s.j.tj.appendRecord a (s.j.tail.discardRecent cut), tail := s.j.tail.discardOld cut } }).Inv) :
    Shape g (s.j.tj.appendRecord a (s.j.tail.discardRecent cut))
      (Index.append s.ix (s.j.tail.discardRecent cut) a.au)
      (if s.j.tj.root = none then a.au else s.first) := by
  obtain ⟨hea, haw, hpages, hprev⟩ := next_addr h hn
  have hb := append_builds (cut := cut) h.jinv hea h.shape.builds
  have hstitch : s.j.tj.seqEnd = s.j.tail.seqStart := h.jinv.1.2.2.2
  have hsb : s.j.tj.disk.boundary ≤ s.j.tail.seqStart := by
    rw [← hstitch]; exact h.jinv.1.2.2.1
  generalize hm : s.j.tail.discardRecent cut = msgs at *
  have hms : msgs.seqStart = s.j.tail.seqStart := by rw [← hm]; rfl
  have hme : msgs.seqEnd = cut := by rw [← hm]; rfl
  generalize ht : s.j.tj.appendRecord a msgs = t at *
  have hroot : t.root = some a := by rw [← ht]; rfl
  have hbd : t.disk.boundary = s.j.tj.disk.boundary := by rw [← ht]; rfl
  have hnew : t.disk.entries a = some { msgs := msgs, prior := s.j.tj.root } := by
    rw [← ht]; simp [TJ.appendRecord]
  have holds : ∀ x r, s.j.tj.disk.entries x = some r → t.disk.entries x = some r := by
    intro x r hr
    rw [← ht]
    simp only [TJ.appendRecord]
    rw [PMap.insert_other _ _ (by rintro rfl; rw [hea] at hr; cases hr)]; exact hr
  have hcase : ∀ x r, t.disk.entries x = some r →
      (x = a ∧ r = { msgs := msgs, prior := s.j.tj.root }) ∨ s.j.tj.disk.entries x = some r := by
    intro x r hr
    by_cases hx : x = a
    · subst hx; rw [hnew] at hr; cases hr; exact .inl ⟨rfl, rfl⟩
    · rw [← ht] at hr
      simp only [TJ.appendRecord] at hr
      rw [PMap.insert_other _ _ hx] at hr; exact .inr hr
  have hixold : ∀ l v, s.ix l = some v → Index.append s.ix msgs a.au l = some v := by
    intro l v hl
    have hd := (h.shape.domain l).mp (by rw [hl]; simp)
    refine Index.append_some.mpr (.inr ⟨?_, hl⟩)
    rintro ⟨hc, _⟩; rw [hms] at hc; omega
  have hixnew : Index.append s.ix msgs a.au s.j.tail.seqStart = some a.au :=
    Index.append_some.mpr (.inl ⟨⟨by omega, by omega⟩, rfl⟩)
  refine ⟨hinv.2, ?_, ?_, ?_, ?_, ?_, ?_, ?_, ?_⟩
  · intro x hx
    obtain ⟨r, hr⟩ := (PMap.has_iff _ _).mp hx
    rcases hcase x r hr with ⟨rfl, _⟩ | h3
    · exact haw
    · exact h.shape.addrs x (PMap.has_some h3)
  · intro x r hpg hr
    rcases hcase x r hr with ⟨rfl, rfl⟩ | h3
    · obtain ⟨t0, h4, h5⟩ := hprev hpg
      show s.j.tj.root = _
      rw [h4, h5]
      simp [Address.next, Address.previous]
    · exact h.shape.back x r hpg h3
  · intro lo hi rlo rhi hau hlt h3 h4
    rcases hcase lo rlo h3 with ⟨rfl, rfl⟩ | h5
    · rcases hcase hi rhi h4 with ⟨rfl, rfl⟩ | h6
      · omega
      · have := hpages hi (PMap.has_some h6) hau.symm
        omega
    · rcases hcase hi rhi h4 with ⟨rfl, rfl⟩ | h6
      · have := h.shape.end_le h5
        show _ ≤ msgs.seqStart
        omega
      · exact h.shape.order lo hi rlo rhi hau hlt h5 h6
  · have hlow : ∀ x r l, s.j.tj.disk.entries x = some r → r.msgs.Contains l → l < msgs.seqStart := by
      intro x r l hx hl
      have := h.shape.end_le hx
      have := hl.2
      omega
    intro l x y hx hy
    obtain ⟨b1, r1, e1, c1⟩ := supports_iff.mp hx
    obtain ⟨b2, r2, e2, c2⟩ := supports_iff.mp hy
    rcases hcase x r1 e1 with ⟨rfl, rfl⟩ | e1'
    · rcases hcase y r2 e2 with ⟨rfl, rfl⟩ | e2'
      · rfl
      · have := hlow y r2 l e2' c2; have := c1.1; simp only at this; omega
    · rcases hcase y r2 e2 with ⟨rfl, rfl⟩ | e2'
      · have := hlow x r1 l e1' c1; have := c2.1; simp only at this; omega
      · exact h.shape.unique l x y (supports_iff.mpr ⟨by omega, r1, e1', c1⟩)
          (supports_iff.mpr ⟨by omega, r2, e2', c2⟩)
  · intro _
    split
    · rename_i hn
      refine ⟨a, rfl, supports_iff.mpr ⟨Nat.le_refl _, _, hnew, ?_⟩⟩
      have : s.j.tj.seqEnd = s.j.tj.disk.boundary := by unfold TJ.seqEnd; rw [hn]; rfl
      show msgs.seqStart ≤ _ ∧ _ < msgs.seqEnd
      omega
    · rename_i hn
      obtain ⟨x, hx, hsx⟩ := h.shape.firstAu hn
      obtain ⟨b1, r1, e1, c1⟩ := supports_iff.mp hsx
      exact ⟨x, hx, supports_iff.mpr ⟨Nat.le_refl _, r1, holds x r1 e1, by rw [hbd]; exact c1⟩⟩
  · intro x r l hx hl _ hix _
    have hnone : s.ix l = none ∧ ¬ msgs.Contains l := by
      constructor
      · cases h3 : s.ix l with
        | none => rfl
        | some v => rw [hixold l v h3] at hix; cases hix
      · intro hc
        rw [Index.append_some.mpr (.inl ⟨hc, rfl⟩)] at hix; cases hix
    rcases hcase x r hx with ⟨rfl, rfl⟩ | h3
    · exact absurd hl hnone.2
    · rw [hbd]
      obtain ⟨h4, h5⟩ := h.shape.tight x (PMap.has_some h3)
      exact h.shape.inactive x r l h3 hl h4 hnone.1 h5
  · intro x hx
    obtain ⟨r, hr⟩ := (PMap.has_iff _ _).mp hx
    rcases hcase x r hr with ⟨rfl, rfl⟩ | h3
    · refine ⟨⟨_, hixnew⟩, ?_⟩
      intro y hy
      rw [hroot] at hy; cases hy
      rintro ⟨_, _, h5⟩; omega
    · obtain ⟨⟨l, hl⟩, _⟩ := h.shape.tight x (PMap.has_some h3)
      refine ⟨⟨l, hixold l _ hl⟩, ?_⟩
      intro y hy
      rw [hroot] at hy; cases hy
      rintro ⟨_, h4, h5⟩
      have := hpages x (PMap.has_some h3) h4
      omega
  · rw [hroot]; exact hb

/-! ### Every step -/

/-- Each step of the allocating journal is one of the linked journal. -/
theorem step_linked {g : Geometry} {s s' : State} {l} (h : s.Inv g) (hs : Next g s l s') :
    Linked.Next s.j l.linked s'.j := by
  cases hs with
  | readForRecovery hn => exact hn
  | @freezeForCommit z n hc hcd hv hnf =>
    have hz := freeze_shape h.shape hcd hv hnf
    exact .freezeForCommit h.jinv.1 hz.dec h.jinv.2 hc hcd.1 hcd (hv.1.valid h.jinv.2.2 hcd)
  | queryEndLsn hn => exact hn
  | put hn => exact hn
  | discardOld hcd hnf hv => exact .discardOld h.jinv.1 hcd (hv.1.valid h.jinv.2.2 hcd)
  | marshal hn h1 h2 => exact .marshal (next_addr h hn).1 h.jinv.1 h1 h2
  | fill => exact .noop h.jinv.1
  | prune => exact .noop h.jinv.1
  | noop => exact .noop h.jinv.1

theorem step_inv {g : Geometry} {s s' : State} {l} (h : s.Inv g) (hs : Next g s l s') : s'.Inv g := by
  have hj := LikesJ.linked_inv_step h.jinv (step_linked h hs)
  cases hs with
  | readForRecovery hn => exact h
  | freezeForCommit => exact h
  | queryEndLsn hn => exact h
  | @put j' m hn =>
    cases hn with
    | put h1 h2 h3 => exact ⟨hj, h.shape, h.mwf, h.notFree, h.follows, h.observed⟩
  | @discardOld l new f hcd hnf hv =>
    have hsh := discard_shape h.shape hcd hnf hv
    refine ⟨hj, hsh, wf_prune h.mwf, ?_, ?_, ?_⟩
    · intro a ha hc
      obtain ⟨r, hr⟩ := (PMap.has_iff _ _).mp ha
      exact h.notFree a (PMap.has_some (hv.1.2.2.1 a r hr)) (canAllocate_prune hc)
    · intro au hc
      obtain ⟨hc1, hc2⟩ := prune_curr hc
      obtain ⟨a, ha, hau⟩ := h.follows au hc1
      refine ⟨a, ?_, hau⟩
      have hroot : new.root = _ := hv.1.2.2.2.2
      show new.root = some a
      rw [hroot]
      split
      · rename_i he
        exfalso
        apply hc2
        obtain ⟨_, hlast, _⟩ := h.shape.root_last ha
        refine ⟨⟨_, by rw [← hau]; exact hlast⟩, ?_⟩
        rintro ⟨k, hk⟩
        obtain ⟨hk1, hk2⟩ := Index.discardUpTo_some.mp hk
        have := (h.shape.domain k).mp (by rw [hk2]; simp)
        omega
      · exact ha
    · intro au p hp
      exact h.observed au p (PMap.removeKeys_some.mp hp).2
  | @marshal cut a hn h1 h2 =>
    obtain ⟨p, hp, haw, hpa, hpf⟩ := hn.1
    refine ⟨hj, marshal_shape h hn h1 h2 hj, wf_take h.mwf hp haw, ?_, ?_, ?_⟩
    · intro x hx hc
      obtain ⟨hc1, hc2⟩ := canAllocate_take hp hc
      obtain ⟨r, hr⟩ := (PMap.has_iff _ _).mp hx
      simp only [TJ.appendRecord] at hr
      rw [PMap.insert_other _ _ hc2] at hr
      exact h.notFree x (PMap.has_some hr) hc1
    · intro au hc
      exact ⟨a, rfl, (mini_take_curr hc).symm⟩
    · intro au q hq x hx
      simp only at hq
      rw [mini_take hp] at hq
      by_cases hxa : au = a.au
      · subst hxa
        rw [PMap.insert_same] at hq; cases hq
        rcases hx with hx | hx
        · exact .inl (h.observed _ p hp x hx)
        · exact .inr hx
      · rw [PMap.insert_other _ _ hxa] at hq; exact h.observed au q hq x hx
  | @fill allocs h1 h2 =>
    refine ⟨hj, h.shape, ⟨?_, ?_⟩, ?_, h.follows, ?_⟩
    · intro au p hp
      rcases addAus_some hp with h3 | ⟨_, _, rfl⟩
      · exact h.mwf.1 au p h3
      · exact ⟨⟨fun _ hf => hf.elim, fun _ hf => hf.elim⟩, rfl⟩
    · intro au hc; exact addAus_has.mpr (.inl (h.mwf.2 au hc))
    · rintro a ha ⟨p, hp, hf⟩
      rcases addAus_some hp with h3 | ⟨_, h4, _⟩
      · exact h.notFree a ha ⟨p, h3, hf⟩
      · exact h2 _ h4 (h.shape.tight a ha).1
    · intro au p hp
      rcases addAus_some hp with h3 | ⟨_, _, rfl⟩
      · exact h.observed au p h3
      · exact fun _ hf => hf.elim
  | prune h1 =>
    refine ⟨hj, h.shape, wf_prune h.mwf, fun a ha hc => h.notFree a ha (canAllocate_prune hc), ?_, ?_⟩
    · intro au hc; exact h.follows au (prune_curr hc).1
    · intro au p hp; exact h.observed au p (PMap.removeKeys_some.mp hp).2
  | noop => exact h

theorem reachable_inv {g : Geometry} {i : Image} {s} (h : (machine g i).Reachable s) : s.Inv g :=
  Machine.reachable_invariant (M := machine g i) (I := fun s => s.Inv g) (fun _ h => init_inv h)
    (fun _ _ _ h hs => step_inv h hs) h

end Verif.AllocJ
