import Verif.Kv.JournalistRun
/-
C59. What the journalist writes out is what was appended, and it reads it back.

Specification: `Ideal` below, lists of entries with no ring, no weights and no buffer of bytes; and
`Stands`, which says that some bytes are whole journal blocks with good checksums that the journal's
format reads as given entries.
-/
namespace Verif.C59
open Verif.Kv Verif.Kv.Journalist Verif.Kv.JournalBytes
variable {crc : List UInt8 → List UInt8}

/-- Bytes that are `k` whole blocks with good checksums and that read as the entries `es`. -/
def Stands (crc : List UInt8 → List UInt8) (bytes : List UInt8) (k : Nat) (es : List Entry) : Prop :=
  bytes.length = 4096 * k ∧ ∃ bs, rangeOfBytes crc bytes = some bs ∧ bs.length = k ∧
    parseRange bs = some es

/-- An ideal journalist: what is frozen, what is not, how many blocks on disk are in use; what has been
read from disk; and what is still to be replayed. -/
structure Ideal where
  frozen : List Entry
  mem : List Entry
  used : Nat
  front : Option (List Block)
  back : Option (List Block)
  replay : List Entry

/-- What an ideal journalist does: packages hold the frozen entries, or else the others, all of them, and
never more than the disk has room for; reading fails only for what the format cannot read, or for more
blocks than the journal has. -/
inductive Ideal.Step (crc : List UInt8 → List UInt8) : Ideal → Op → Ideal → Prop
  | append {i e} : Step crc i (.append e) { i with mem := i.mem ++ [e] }
  | freeze {i} : Step crc i .freeze { i with frozen := i.frozen ++ i.mem, mem := [] }
  | outFrozen {i b k} : i.frozen ≠ [] → Stands crc b k i.frozen → i.used + k ≤ numJournalBlocks →
      Step crc i (.out b) { i with frozen := [], used := i.used + k }
  | outMem {i b k} : i.frozen = [] → i.mem ≠ [] → Stands crc b k i.mem → i.used + k ≤ numJournalBlocks →
      Step crc i (.out b) { i with mem := [], used := i.used + k }
  | trim {i n} : n ≤ i.used → Step crc i (.trim n) { i with used := n }
  | reset {i n} : n ≤ numJournalBlocks → Step crc i (.reset n) { i with used := n }
  | front {i jr} : Step crc i (.front jr) { i with front := some jr }
  | back {i jr} : Step crc i (.back jr) { i with back := some jr }
  | parseOk {i es} : parseRange (i.front.getD [] ++ i.back.getD []) = some es →
      Step crc i (.parse true) { i with front := none, back := none, replay := es }
  | parseFail {i} : parseRange (i.front.getD [] ++ i.back.getD []) = none ∨
      numJournalBlocks < (i.front.getD [] ++ i.back.getD []).length → Step crc i (.parse false) i
  | pop {i e rest} : i.replay = e :: rest → Step crc i (.pop e) { i with replay := rest }

def ideal (crc : List UInt8 → List UInt8) : Machine Ideal Op :=
  ⟨fun i => i = ⟨[], [], 0, none, none, []⟩, Ideal.Step crc⟩

/-- The journalist seen as an ideal one -/
def view (s : State) : Ideal := ⟨s.frozen, s.mem, s.written, s.front, s.back, s.replay⟩

theorem sizes_getD {o : Option (List Block)} (h : ∀ jr, o = some jr → Sizes jr) :
    ∀ b ∈ o.getD [], b.length = 4064 := by
  cases o with
  | none => simp
  | some jr => exact (h jr rfl).2

theorem step_view (hcrc : ∀ x, (crc x).length = 32) {s s' : State} {o : Op} (h : s.Inv)
    (hn : Next crc s o s') : s'.Inv ∧ Ideal.Step crc (view s) o (view s') := by
  cases hn with
  | append hc ho =>
    rename_i e
    obtain ⟨h1, h2, h3⟩ := append_spec h ho hc
    refine ⟨h1, ?_⟩
    have : view (s.append e) = { view s with mem := (view s).mem ++ [e] } := by
      simp only [view, h2, h3, Ideal.mk.injEq, true_and]
      by_cases hh : s.len1 + s.len2 < s.entries.length <;> simp [State.append, hh, State.replay]
    rw [this]; exact .append
  | freeze =>
    obtain ⟨h1, h2, h3⟩ := freeze_spec h
    refine ⟨h1, ?_⟩
    have : view s.freeze = { view s with frozen := (view s).frozen ++ (view s).mem, mem := [] } := by
      simp only [view, h2, h3]; rfl
    rw [this]; exact .freeze
  | outFrozen hf =>
    have hne := (hasFrozen_iff h).mp hf
    obtain ⟨h1, h2, h3, h4, bs, h5, h6, h7, h8, h9⟩ := packageFrozen_spec hcrc h hne
    refine ⟨h1, ?_⟩
    have : view (s.packageFrozen crc).2 =
        { view s with frozen := [], used := (view s).used + bs.length } := by
      simp only [view, h2, h3, h9]; rfl
    rw [this]
    exact .outFrozen hne ⟨h7, bs, h5, rfl, h6⟩ (by rw [h9] at h4; exact h4)
  | outMem hf hm =>
    have hf' : s.frozen = [] := by
      apply Classical.byContradiction
      intro hh; rw [(hasFrozen_iff h).mpr hh] at hf; cases hf
    have hne := (hasMem_iff h).mp hm
    obtain ⟨h1, h2, h3, h4, bs, h5, h6, h7, h8, h9⟩ := packageMem_spec hcrc h hf' hne
    refine ⟨h1, ?_⟩
    have : view (s.packageMem crc).2 = { view s with mem := [], used := (view s).used + bs.length } := by
      simp only [view, h2, h3, h9, hf']; rfl
    rw [this]
    exact .outMem hf' hne ⟨h7, bs, h5, rfl, h6⟩ (by rw [h9] at h4; exact h4)
  | trim hn => exact ⟨updateWritten_spec h hn, .trim hn⟩
  | reset hf hm hn =>
    have hf' : s.frozen = [] := by
      apply Classical.byContradiction
      intro hh; rw [(hasFrozen_iff h).mpr hh] at hf; cases hf
    have hm' : s.mem = [] := by
      apply Classical.byContradiction
      intro hh; rw [(hasMem_iff h).mpr hh] at hm; cases hm
    exact ⟨setWritten_spec h hf' hm' hn, .reset hn⟩
  | front hj => exact ⟨setFront_spec h hj, .front⟩
  | back hj => exact ⟨setBack_spec h hj, .back⟩
  | parseOk hp =>
    obtain ⟨h1, h2, h3, h4, h5, h6, h7⟩ := parse_spec h hp
    refine ⟨h1, ?_⟩
    have : view s' = { view s with front := none, back := none, replay := s'.replay } := by
      simp only [view, h2, h3, h4, h5, h6]
    rw [this]; exact .parseOk h7
  | parseFail hp =>
    refine ⟨h, .parseFail ?_⟩
    show parseRange (s.front.getD [] ++ s.back.getD []) = none ∨
      numJournalBlocks < (s.front.getD [] ++ s.back.getD []).length
    unfold State.parse at hp
    cases e : parseRange (s.front.getD [] ++ s.back.getD []) with
    | none => exact .inl rfl
    | some es =>
      right
      rw [e] at hp
      simp only at hp
      by_cases hle : es.length ≤ maxEntries
      · rw [if_pos hle] at hp; cases hp
      · have := parseRange_len _ rfl (by
          intro b hb
          rcases List.mem_append.mp hb with hb | hb
          · exact sizes_getD h.front b hb
          · exact sizes_getD h.back b hb) e
        have hN : numJournalBlocks = 65536 := rfl
        have hM : maxEntries = 33554432 := rfl
        omega
  | pop hr he =>
    rename_i e
    have hne : s.replay ≠ [] := fun e => by rw [(replayEmpty_iff h).mpr e] at hr; cases hr
    obtain ⟨h1, e', h2, h3⟩ := replayPop_spec h hne
    rw [he] at h2; cases h2
    exact ⟨h1, .pop h3⟩

theorem exec_view (hcrc : ∀ x, (crc x).length = 32) {tr : List Op} {s : State}
    (h : (machine crc).Exec tr s) : s.Inv ∧ (ideal crc).Exec tr (view s) := by
  refine Machine.exec_invariant (M := machine crc)
    (I := fun tr s => s.Inv ∧ (ideal crc).Exec tr (view s)) ?_ ?_ h
  · rintro s rfl
    refine ⟨init_inv, _, ?_, .nil _⟩
    obtain ⟨h1, h2, h3⟩ := init_parts
    show view init = _
    simp only [view, h1, h2, h3]; rfl
  · rintro tr s o s' ⟨h1, h2⟩ hs
    obtain ⟨h3, h4⟩ := step_view hcrc h1 hs
    exact ⟨h3, h2.snoc h4⟩

/-- **Behaves like the ideal journalist**, whatever calls are made in whatever order, with the ring
wrapped around or grown any number of times: each package is whole blocks with good checksums that read
as exactly the frozen entries in order (or, with none frozen, the others), and fits in what is free
of the journal on disk; replay hands back exactly what was read, in order. -/
theorem acts_as_ideal (hcrc : ∀ x, (crc x).length = 32) {tr : List Op} {s : State}
    (h : (machine crc).Exec tr s) : (ideal crc).Exec tr (view s) := (exec_view hcrc h).2

/-- All entries appended in a trace, in order -/
def appended : List Op → List Entry
  | [] => []
  | .append e :: tr => e :: appended tr
  | _ :: tr => appended tr

/-- All bytes handed out in a trace, in order -/
def bytes : List Op → List UInt8
  | [] => []
  | .out b :: tr => b ++ bytes tr
  | _ :: tr => bytes tr

theorem appended_snoc (tr : List Op) (o : Op) : appended (tr ++ [o]) = appended tr ++ appended [o] := by
  induction tr with
  | nil => rfl
  | cons p tr ih => cases p <;> simp [appended, ih]

theorem bytes_snoc (tr : List Op) (o : Op) : bytes (tr ++ [o]) = bytes tr ++ bytes [o] := by
  induction tr with
  | nil => rfl
  | cons p tr ih => cases p <;> simp [bytes, ih]

/-- **Nothing lost, nothing twice, nothing out of order.** At any time the bytes handed out so far, one
package after the other, are whole blocks with good checksums; they read as a list of entries; and that
list, then the frozen entries, then the others, is exactly all that was ever appended. -/
theorem written_out (hcrc : ∀ x, (crc x).length = 32) {tr : List Op} {s : State}
    (h : (machine crc).Exec tr s) :
    ∃ bs done, rangeOfBytes crc (bytes tr) = some bs ∧ parseRange bs = some done ∧
      appended tr = done ++ s.frozen ++ s.mem := by
  have key : ∀ {tr : List Op} {i : Ideal}, (ideal crc).Exec tr i →
      ∃ bs done, rangeOfBytes crc (bytes tr) = some bs ∧ parseRange bs = some done ∧
        appended tr = done ++ i.frozen ++ i.mem := by
    intro tr i h
    refine Machine.exec_invariant (M := ideal crc) (I := fun tr i =>
      ∃ bs done, rangeOfBytes crc (bytes tr) = some bs ∧ parseRange bs = some done ∧
        appended tr = done ++ i.frozen ++ i.mem) ?_ ?_ h
    · rintro i rfl
      exact ⟨[], [], rangeOfBytes_nil _, parse_nil, rfl⟩
    · rintro tr i o i' ⟨bs, done, h1, h2, h3⟩ hs
      rw [appended_snoc, bytes_snoc, h3]
      cases hs with
      | append => exact ⟨bs, done, by simpa [bytes] using h1, h2, by simp [appended]⟩
      | freeze => exact ⟨bs, done, by simpa [bytes] using h1, h2, by simp [appended]⟩
      | outFrozen hne hst _ =>
        obtain ⟨_, bs', g1, _, g2⟩ := hst
        exact ⟨bs ++ bs', done ++ i.frozen, by simpa [bytes] using rangeOfBytes_append g1 _ rfl h1,
          parse_append h2 g2, by simp [appended]⟩
      | outMem h0 hne hst _ =>
        obtain ⟨_, bs', g1, _, g2⟩ := hst
        exact ⟨bs ++ bs', done ++ i.mem, by simpa [bytes] using rangeOfBytes_append g1 _ rfl h1,
          parse_append h2 g2, by simp [appended, h0]⟩
      | trim | reset | front | back | parseOk | parseFail | pop =>
        exact ⟨bs, done, by simpa [bytes] using h1, h2, by simp [appended]⟩
  exact key (acts_as_ideal hcrc h)

/-- **Read back.** What one journalist has handed out, at most as many blocks as the journal has, cut in
two anywhere: another journalist that gets the two parts reads without failing, and is then about
to replay exactly the entries the first one handed out. -/
theorem read_back (hcrc : ∀ x, (crc x).length = 32) {tr : List Op} {s : State}
    (h : (machine crc).Exec tr s) : ∃ a done, rangeOfBytes crc (bytes tr) = some a ∧
      appended tr = done ++ s.frozen ++ s.mem ∧
      (a.length ≤ numJournalBlocks → ∀ k, ∃ s',
        (machine crc).Exec [.front (a.take k), .back (a.drop k), .parse true] s' ∧ s'.replay = done) := by
  obtain ⟨a, done, h1, h2, h3⟩ := written_out hcrc h
  refine ⟨a, done, h1, h3, fun hlen k => ?_⟩
  have hsz := rangeOfBytes_sizes _ rfl h1
  have z1 : Sizes (a.take k) :=
    ⟨by rw [List.length_take]; omega, fun b hb => hsz b (List.mem_of_mem_take hb)⟩
  have z2 : Sizes (a.drop k) :=
    ⟨by rw [List.length_drop]; omega, fun b hb => hsz b (List.mem_of_mem_drop hb)⟩
  have e0 : (machine crc).Exec [] init := ⟨_, rfl, .nil _⟩
  have e1 := e0.snoc (Next.front z1)
  have e2 := e1.snoc (Next.back z2)
  cases hp : ((init.setFront (a.take k)).setBack (a.drop k)).parse with
  | none =>
    exfalso
    unfold State.parse at hp
    simp only [State.setFront, State.setBack, Option.getD_some, List.take_append_drop, h2] at hp
    have := parseRange_len _ rfl hsz h2
    have hN : numJournalBlocks = 65536 := rfl
    have hM : maxEntries = 33554432 := rfl
    rw [if_pos (by omega)] at hp; cases hp
  | some s' =>
    refine ⟨s', e2.snoc (Next.parseOk hp), ?_⟩
    have := (parse_spec (exec_view hcrc e2).1 hp).2.2.2.2.2.2
    simp only [State.setFront, State.setBack, Option.getD_some, List.take_append_drop, h2] at this
    exact (Option.some.inj this).symm

/-- **Accepts whatever fits.** An entry is accepted exactly when the blocks in use on disk, those set
aside for the frozen entries, and those needed for the others with the new one, are no more than the
journal has. -/
theorem accepts_iff (hcrc : ∀ x, (crc x).length = 32) {tr : List Op} {s : State}
    (h : (machine crc).Exec tr s) (e : Entry) :
    s.canAppend e = true ↔
      s.written + s.frozenBlocks + (weights (s.mem ++ [e]) + 4063) / 4064 ≤ numJournalBlocks := by
  have hi := (exec_view hcrc h).1
  rw [weights_snoc, hi.mem, length_mem hi]
  have hN : numJournalBlocks = 65536 := rfl
  rw [State.canAppend, decide_eq_true_iff, hN]
  generalize (if s.len2 = 0 then 8 else 0) = x
  omega

/-- **The arithmetic is exact.** Every number the journalist computes stays below 2^32, so that its
64-bit arithmetic never wraps around and the 32-bit numbers in headers are not cut. -/
theorem no_overflow (hcrc : ∀ x, (crc x).length = 32) {tr : List Op} {s : State}
    (h : (machine crc).Exec tr s) (e : Entry) (ho : Ok e) :
    2 * s.entries.length < 2 ^ 32 ∧ s.start + s.len1 + s.len2 < 2 ^ 32 ∧
    4064 * (s.written + s.frozenBlocks) + s.memWeight + weight e + 8 < 2 ^ 32 ∧
    4096 * (s.frozenBlocks + (s.memWeight + 4064 - 1) / 4064) < 2 ^ 32 ∧
    s.replayIdx < 2 ^ 32 := by
  have hi := (exec_view hcrc h).1
  have hN : numJournalBlocks = 65536 := rfl
  have hM : maxEntries = 33554432 := rfl
  have h1 := hi.ring
  have h2 := hi.start
  have h3 := hi.lens
  have h4 := hi.space
  have h5 := hi.idx
  have h6 := hi.replay
  have hw : weight e ≤ 2056 := by
    cases e <;> simp only [weight, Ok, maxLen] at ho ⊢ <;> omega
  rw [hN] at h4
  refine ⟨by omega, by omega, by omega, by omega, by omega⟩

/-! ### Concrete case -/

/-- A checksum for the example: 32 bytes, all equal to the first of the data -/
def crc0 (x : List UInt8) : List UInt8 := List.replicate 32 (x.headD 0)

theorem crc0_length (x) : (crc0 x).length = 32 := List.length_replicate

def e1 : Entry := .insert [1, 2] [3]
def e2 : Entry := .clone [1, 2] [4]
def e3 : Entry := .insert [5] []

/-- A put is appended and frozen, a clone and another put are appended, the frozen part is handed out.
The trace is one of the ideal journalist; what was handed out reads as the first put; the
other two are still in memory. -/
theorem demo : ∃ b s bs, (machine crc0).Exec [.append e1, .freeze, .append e2, .append e3, .out b] s ∧
    (ideal crc0).Exec [.append e1, .freeze, .append e2, .append e3, .out b] (view s) ∧
    s.frozen = [] ∧ s.mem = [e2, e3] ∧ rangeOfBytes crc0 b = some bs ∧ bs.length = 1 ∧
    parseRange bs = some [e1] ∧ s.written = 1 := by
  have x0 : (machine crc0).Exec [] init := ⟨_, rfl, .nil _⟩
  have c1 : init.canAppend e1 = true := by decide
  obtain ⟨i1, m1, f1⟩ := append_spec init_inv (e := e1) (by decide) c1
  rw [init_parts.1] at f1
  rw [init_parts.2.1] at m1
  have x1 := x0.snoc (Next.append c1 (by decide))
  obtain ⟨i2, f2, m2⟩ := freeze_spec i1
  rw [f1, m1] at f2
  have x2 := x1.snoc (Next.freeze)
  have keep : ∀ (s : State) (e : Entry), (s.append e).written = s.written ∧
      (s.append e).frozenBlocks = s.frozenBlocks ∧ (s.append e).len2 = s.len2 + 1 ∧
      (s.append e).memWeight = s.memWeight + weight e + (if s.len2 = 0 then 8 else 0) := by
    intro s e
    by_cases hh : s.len1 + s.len2 < s.entries.length <;> simp [State.append, hh]
  have v1 : (init.append e1).written = 0 ∧ (init.append e1).frozenBlocks = 0 ∧
      (init.append e1).memWeight = 19 :=
    ⟨(keep init e1).1, (keep init e1).2.1, (keep init e1).2.2.2.trans rfl⟩
  generalize hs1 : init.append e1 = s1 at *
  have v2 : s1.freeze.written = 0 ∧ s1.freeze.frozenBlocks = 1 ∧ s1.freeze.memWeight = 0 ∧
      s1.freeze.len2 = 0 := by
    refine ⟨v1.1, ?_, rfl, rfl⟩
    simp only [State.freeze, State.memBlocks, v1.2.1, v1.2.2]
  generalize hs2 : s1.freeze = s2 at *
  have c2 : s2.canAppend e2 = true := by
    simp only [State.canAppend, v2.1, v2.2.1, v2.2.2.1, v2.2.2.2]; decide
  obtain ⟨i3, m3, f3⟩ := append_spec i2 (e := e2) (by decide) c2
  rw [f2] at f3
  rw [m2] at m3
  have x3 := x2.snoc (Next.append c2 (by decide))
  obtain ⟨k1, k2, k3, k4⟩ := keep s2 e2
  rw [v2.1] at k1
  rw [v2.2.1] at k2
  rw [v2.2.2.2] at k3 k4
  rw [v2.2.2.1] at k4
  generalize s2.append e2 = s3 at *
  have c3 : s3.canAppend e3 = true := by
    simp only [State.canAppend, k1, k2, k3, k4]; decide
  obtain ⟨i4, m4, f4⟩ := append_spec i3 (e := e3) (by decide) c3
  rw [f3] at f4
  rw [m3] at m4
  have x4 := x3.snoc (Next.append c3 (by decide))
  obtain ⟨l1, l2, _, _⟩ := keep s3 e3
  rw [k1] at l1
  rw [k2] at l2
  generalize s3.append e3 = s4 at *
  have hne : s4.frozen ≠ [] := by rw [f4]; simp
  obtain ⟨_, p2, p3, _, bs, p5, p6, _, _, p9⟩ := packageFrozen_spec crc0_length i4 hne
  have x5 := x4.snoc (Next.outFrozen (crc := crc0) ((hasFrozen_iff i4).mpr hne))
  have hw : (s4.packageFrozen crc0).2.written = 1 := by
    simp only [State.packageFrozen, l1, l2]
  refine ⟨_, _, bs, x5, acts_as_ideal crc0_length x5, p2, by rw [p3, m4]; rfl, p5, ?_, by rw [p6, f4]; rfl, hw⟩
  rw [hw, l1] at p9; omega

end Verif.C59
