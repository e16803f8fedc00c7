import Verif.Filesys.Demo
import Verif.Kv.KeyOrder

/-!
C87.  Listing a directory (`ReadDir`) shows entries of that directory that exist, each once, in order; a listing that says it is done has all
entries from the start on, and one that is not done has all entries from the start to its last one. So listing
piece by piece, each from the last entry of the one before, until done, shows every entry.

This is false for the code: in `ReadDir` the words `done ==> …` stand among the conditions of the last
`forall` (FileSystem.s.dfy:371-378), where they make it say nothing when `done` holds. A listing that says it is done may leave out
anything (`done_says_nothing`). The rest is proved (`listing_partial`), and the whole for the rule with `done` put where it belongs
(`pieces_partial`).

Specification: `Entry`: the entries a directory has; the order of names is that of bytes.
-/

namespace Verif.C87
open Verif.Filesys Verif.Kv.MapSpec

/-- There is something with this path in the directory. -/
def Entry (s : State) (dir p : Path) : Prop := (∃ x, p = dir ++ [x]) ∧ PathExists s p

theorem isDirEntry_iff {dir p : Path} : IsDirEntry dir p ↔ ∃ x, p = dir ++ [x] := by
  constructor
  · rintro ⟨hb, hl⟩
    obtain ⟨t, ht, rfl⟩ := beneath_iff.mp hb
    match t, ht, hl with
    | [x], _, _ => exact ⟨x, rfl⟩
    | _ :: _ :: _, _, hl => simp at hl
  · rintro ⟨x, rfl⟩
    exact ⟨beneath_iff.mpr ⟨[x], by simp, rfl⟩, by simp⟩

/-- The name in the directory. -/
def name (p : Path) : PathElement := p.getLast?.getD []

/-- What is listed: entries of the directory with their types, each once, in order, none before the start. -/
theorem shown {s : State} {dir : Path} {start : Option Path} {res : List DirEntry} (hg : Listed s dir start res) :
    (∀ e ∈ res, Entry s dir e.path ∧ e.id = s.pathMap e.path ∧ (∃ d, look s e.path = some (e.ftype, d)) ∧
      ∀ st, start = some st → lte (name st) (name e.path) = true) ∧
    res.Pairwise fun a b => lt (name a.path) (name b.path) := by
  obtain ⟨_, _, _, h1, h2, h3, h4⟩ := hg
  constructor
  · intro e he
    obtain ⟨hx, hid, m, hm, ht⟩ := h2 e he
    refine ⟨⟨isDirEntry_iff.mp (h1 e he), hx⟩, hid, ⟨s.dataMap (s.pathMap e.path), ?_⟩, ?_⟩
    · rw [hid] at hm; simp [look, hx, hm, ht]
    · intro st hst
      cases res with
      | nil => simp at he
      | cons e0 res =>
        have hh := h3 st e0 hst rfl
        rcases List.mem_cons.mp he with rfl | he
        · exact hh
        · exact lte_trans hh ((List.pairwise_cons.mp h4).1 e he).1
  · refine List.Pairwise.imp_of_mem ?_ h4
    intro a b ha hb ⟨hl, hne⟩
    refine ⟨hl, fun e => hne ?_⟩
    obtain ⟨_, hia, ma, hma, hta⟩ := h2 a ha
    obtain ⟨_, hib, mb, hmb, htb⟩ := h2 b hb
    obtain ⟨x, hx⟩ := isDirEntry_iff.mp (h1 a ha)
    obtain ⟨y, hy⟩ := isDirEntry_iff.mp (h1 b hb)
    have hxy : x = y := by simpa [name, hx, hy] using e
    have hp : a.path = b.path := by rw [hx, hy, hxy]
    have hid : a.id = b.id := by rw [hia, hib, hp]
    have hm : ma = mb := by rw [hid, hmb] at hma; exact (Option.some.inj hma).symm
    cases a; cases b
    simp_all

/-- What a listing shows, whether done or not; and if it says that it is not done, all entries from the start to the last one that it
shows, or that there are none if it shows none. Missing: that a listing that says it is done shows all entries; the code does
not ask for it. -/
theorem listing_partial {s : State} {dir : Path} {start : Option Path} {res : List DirEntry} {done : Bool}
    (hg : Guard s (.readDir dir start res done)) :
    ((∀ e ∈ res, Entry s dir e.path ∧ e.id = s.pathMap e.path ∧ (∃ d, look s e.path = some (e.ftype, d)) ∧
      ∀ st, start = some st → lte (name st) (name e.path) = true) ∧
    res.Pairwise fun a b => lt (name a.path) (name b.path)) ∧
    (done = false → ∀ p, Entry s dir p → (∀ st, start = some st → lte (name st) (name p) = true) →
      (∀ l, res.getLast? = some l → lte (name p) (name l.path) = true) → ∃ e ∈ res, e.path = p) := by
  refine ⟨shown hg.1, ?_⟩
  rintro rfl p ⟨hp, hx⟩ hst hl
  exact hg.2 p (isDirEntry_iff.mpr hp) hx hst nofun fun _ => hl

/-- Of any directory an empty listing may be given that says it is done. -/
theorem done_says_nothing {s : State} {dir : Path} {d : Data} (h : look s dir = some (.directory, d)) :
    Guard s (.readDir dir none [] true) := by
  refine ⟨⟨Demo.exists_of h, (Demo.type_of h).1, nofun, nofun, nofun, nofun, .nil⟩, ?_⟩
  intro p _ _ _ hd _
  exact hd rfl

/-- The claim is false: `/` is listed as done and empty, though there is `/a` in it. -/
theorem not_complete : machine.Reachable Demo.s4 ∧ Guard Demo.s4 (.readDir [] none [] true) ∧ Entry Demo.s4 [] Demo.a := by
  have h0 : look Demo.s4 [] = some (.directory, []) := by simp [Demo.look4, Demo.a, Demo.f, Demo.g]
  have ha : look Demo.s4 Demo.a = some (.directory, []) := by simp [Demo.look4, Demo.a, Demo.f, Demo.g]
  exact ⟨Demo.reachable, done_says_nothing h0, ⟨[97], rfl⟩, Demo.exists_of ha⟩

/-- The last condition of `ReadDir` with `done` where it belongs: all entries from the start on, and if not done, up to the last. -/
def AllShown (s : State) (dir : Path) (start : Option Path) (res : List DirEntry) (done : Bool) : Prop :=
  ∀ p, IsDirEntry dir p → PathExists s p → (∀ st, start = some st → DirEntryLte st p) →
    (done = false → ∀ l, res.getLast? = some l → DirEntryLte p l.path) → ∃ e ∈ res, e.path = p

/-- The repaired rule allows no listing that the code does not. -/
theorem repaired_allowed {s : State} {dir start res done} (h : Listed s dir start res) (ha : AllShown s dir start res done) :
    Guard s (.readDir dir start res done) := ⟨h, fun p h1 h2 h3 _ h5 => ha p h1 h2 h3 h5⟩

/-- Listing piece by piece with the repaired rule. -/
inductive Pieces (s : State) (dir : Path) : Option Path → List (List DirEntry) → Prop
  | last {start res} : Listed s dir start res → AllShown s dir start res true → Pieces s dir start [res]
  | more {start res l rest} : Listed s dir start res → AllShown s dir start res false → res.getLast? = some l →
      Pieces s dir (some l.path) rest → Pieces s dir start (res :: rest)

/-- With the repaired rule, pieces show just the entries from the start on. Missing: the same for the rule as it is written, for which
it is false. -/
theorem pieces_partial {s : State} {dir : Path} {start : Option Path} {ps : List (List DirEntry)} (h : Pieces s dir start ps)
    (p : Path) : (∃ r ∈ ps, ∃ e ∈ r, e.path = p) ↔ Entry s dir p ∧ ∀ st, start = some st → lte (name st) (name p) = true := by
  induction h with
  | @last start res hl ha =>
    constructor
    · rintro ⟨r, hr, e, he, rfl⟩
      rw [List.mem_singleton] at hr; subst hr
      obtain ⟨h1, _, _, h2⟩ := (shown hl).1 e he
      exact ⟨h1, h2⟩
    · rintro ⟨⟨hp, hx⟩, hst⟩
      obtain ⟨e, he⟩ := ha p (isDirEntry_iff.mpr hp) hx hst nofun
      exact ⟨res, by simp, e, he⟩
  | @more start res l rest hl ha hlast _ ih =>
    constructor
    · rintro ⟨r, hr, e, he, rfl⟩
      rcases List.mem_cons.mp hr with rfl | hr
      · obtain ⟨h1, _, _, h2⟩ := (shown hl).1 e he
        exact ⟨h1, h2⟩
      · obtain ⟨h1, h2⟩ := ih.mp ⟨r, hr, e, he, rfl⟩
        refine ⟨h1, fun st hst => ?_⟩
        exact lte_trans (((shown hl).1 l (List.mem_of_getLast? hlast)).2.2.2 st hst) (h2 _ rfl)
    · rintro ⟨⟨hp, hx⟩, hst⟩
      rcases lte_total (name p) (name l.path) with hle | hle
      · obtain ⟨e, he⟩ := ha p (isDirEntry_iff.mpr hp) hx hst fun _ l' hl' => by
          rw [hlast] at hl'; cases hl'; exact hle
        exact ⟨res, by simp, e, he⟩
      · obtain ⟨r, hr, he⟩ := ih.mpr ⟨⟨hp, hx⟩, fun st hst => by cases hst; exact hle⟩
        exact ⟨r, by simp [hr], he⟩

/-- The cases are met: `/` is listed in two pieces, `/a`, and then from `/a` on, `/a` and `/g`. -/
theorem demo : machine.Reachable Demo.s4 ∧ ∃ i j, Pieces Demo.s4 [] none
    [[⟨i, Demo.a, .directory⟩], [⟨i, Demo.a, .directory⟩, ⟨j, Demo.g, .file⟩]] := by
  have h0 : look Demo.s4 [] = some (.directory, []) := by simp [Demo.look4, Demo.a, Demo.f, Demo.g]
  have ha : look Demo.s4 Demo.a = some (.directory, []) := by simp [Demo.look4, Demo.a, Demo.f, Demo.g]
  have hg : look Demo.s4 Demo.g = some (.file, [104, 105]) := by simp [Demo.look4]
  have va : ValidDirEntry Demo.s4 ⟨Demo.s4.pathMap Demo.a, Demo.a, .directory⟩ := by
    obtain ⟨m, hm, ht⟩ := (Demo.type_of ha).1
    exact ⟨Demo.exists_of ha, rfl, m, hm, ht.symm⟩
  have vg : ValidDirEntry Demo.s4 ⟨Demo.s4.pathMap Demo.g, Demo.g, .file⟩ := by
    obtain ⟨m, hm, ht⟩ := (Demo.type_of hg).1
    exact ⟨Demo.exists_of hg, rfl, m, hm, ht.symm⟩
  have ea : IsDirEntry [] Demo.a := isDirEntry_iff.mpr ⟨[97], rfl⟩
  have eg : IsDirEntry [] Demo.g := isDirEntry_iff.mpr ⟨[103], rfl⟩
  have all : ∀ p, IsDirEntry [] p → PathExists Demo.s4 p → p = Demo.a ∨ p = Demo.g := by
    intro p hp hx
    obtain ⟨x, rfl⟩ := isDirEntry_iff.mp hp
    have hl := look_some.mpr hx
    rw [Demo.look4] at hl
    by_contra hn
    rw [not_or, List.nil_append] at hn
    simp [Demo.f, hn.1, hn.2] at hl
  have hx0 := Demo.exists_of h0
  have hd0 := (Demo.type_of h0).1
  refine ⟨Demo.reachable, Demo.s4.pathMap Demo.a, Demo.s4.pathMap Demo.g, .more (l := ⟨_, Demo.a, .directory⟩) ?_ ?_ rfl (.last ?_ ?_)⟩
  · refine ⟨hx0, hd0, nofun, ?_, ?_, nofun, by simp⟩
    · simpa using ea
    · simpa using va
  · intro p hp hx _ hl
    rcases all p hp hx with rfl | rfl
    · simp
    · have := hl rfl _ rfl
      simp [DirEntryLte, Demo.a, Demo.g, lte] at this
  · refine ⟨hx0, hd0, ?_, ?_, ?_, ?_, ?_⟩
    · intro st h; cases h; exact ea
    · simp [ea, eg]
    · simp [va, vg]
    · intro st e h h'; cases h; cases h'; simp [DirEntryLte, Demo.a, lte]
    · simp [DirEntryLte, Demo.a, Demo.g, lte]
  · intro p hp hx _ _
    rcases all p hp hx with rfl | rfl <;> simp

end Verif.C87
