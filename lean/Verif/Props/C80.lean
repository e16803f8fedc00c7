import Verif.Kv.AppSucc

/-!
C80.  `Application::Succ`, by which programs get the next keys from VeriBetrKV, gives the first so many keys with a
value, from the given bound on, in order and with their values; and it never writes outside of its vector of results.

The loop is in C++, outside of what is verified in the source: it writes each result that it gets into a vector of
`targetCount` cells without a check, and nothing in the contract of `handleSucc` (MapSpec.s.dfy:91-104) says that there are
no more results than asked for. It also counts on each answer to be for a range that goes on from its start.

Specification: `First`, on a plain function from keys to values.
-/

namespace Verif.C80
open Verif.Kv Verif.Kv.AppSucc Verif.Kv.TreeImpl Verif.Kv.FullImpl
open Verif.Kv.Pivot (Node Bucket PrefixSet)
open Verif.Kv.ByteSystem (ui still)
open Verif.Kv.Mkfs (mkfs WrittenIn)
open Verif.Kv.BlockSystem (Label)

/-- The key is not below the bound. -/
def From (lower : Key) (inclusive : Bool) (k : Key) : Prop := if inclusive then lower ≤ k else lower < k

/-- `out` is the first `target` keys with a value from the bound on, or all if there are fewer. -/
structure First (m : Key → Value) (lower : Key) (inclusive : Bool) (target : Nat) (out : List (Key × Value)) : Prop where
  few : out.length ≤ target
  sorted : (out.map Prod.fst).Pairwise (· < ·)
  right : ∀ k v, (k, v) ∈ out → v = m k ∧ v ≠ [] ∧ From lower inclusive k
  all : ∀ k, m k ≠ [] → From lower inclusive k → (k, m k) ∈ out ∨ (out.length = target ∧ ∀ x ∈ out, x.1 < k)

/-! ### How many results there are -/

theorem process_length (max : Nat) (upTo : Elem) (g : Bucket) : ∀ rs : List (Key × Value), rs.length < max →
    (process max upTo rs g).1.length ≤ max := by
  induction g with
  | nil => intro rs h; simp only [process]; omega
  | cons y g ih =>
    obtain ⟨k, m⟩ := y
    intro rs h
    unfold process
    split
    · split
      · split
        · split
          · rename_i h'; exact ih _ h'
          · simp; omega
        · exact ih _ h
      · exact ih _ h
    · simp only; omega

theorem pageInReq_vop (s : S) (io : BlockImpl.Env Node) (ref : Ref) (u : UIOp) (b : Bool) :
    (s.pageInReq io ref).vop ≠ .advance u b := by
  unfold BlockImpl.Ready.pageInReq
  repeat' split
  all_goals (intro h; cases h)

theorem succFrom_length (io : BlockImpl.Env Node) (start : RangeStart) (max : Nat) (hm : 0 < max) (s : S) : ∀ (fuel : Nat)
    (key : Key) (pset : Option PrefixSet) (upTo : Elem) (g : Option Bucket) (ref : Ref) (l : List Pivot.Layer)
    (st : RangeStart) (rs : List (Key × Value)) (stop : RangeEnd) (replay : Bool),
    (succFrom io start max fuel s key pset upTo g ref l).vop = .advance (.succ st rs stop) replay → rs.length ≤ max := by
  intro fuel
  induction fuel with
  | zero =>
    intro key pset upTo g ref l st rs stop replay h
    unfold succFrom at h
    split at h
    · split at h
      · exact absurd h (pageInReq_vop _ _ _ _ _)
      · cases h
    · split at h
      · dsimp only at h
        split at h
        · cases h
        · cases h; exact process_length _ _ _ _ hm
      · cases h
  | succ fuel ih =>
    intro key pset upTo g ref l st rs stop replay h
    unfold succFrom at h
    split at h
    · split at h
      · exact absurd h (pageInReq_vop _ _ _ _ _)
      · cases h
    · split at h
      · dsimp only at h
        split at h
        · split at h
          · rename_i e _; cases e; exact ih _ _ _ _ _ _ _ _ _ _ h
          · cases h
        · cases h; exact process_length _ _ _ _ hm
      · cases h

/-- **No answer has more results than were asked for**, in whatever state the store is. -/
theorem no_more_than_asked (s : S) (io : BlockImpl.Env Node) {start st : RangeStart} {max : Nat} (hm : 0 < max)
    {rs : List (Key × Value)} {stop : RangeEnd} {replay : Bool}
    (h : (FullImpl.run s io (.succ start max)).vop = .advance (.succ st rs stop) replay) : rs.length ≤ max :=
  succFrom_length io start max hm s _ _ _ _ _ _ _ _ _ _ _ h

/-! ### The order of bounds -/

theorem lt_key {a b : Key} : a < b ↔ Elem.key a < Elem.key b := ((Composite.lt_iff a b).symm).trans Elem.lt_iff.symm
theorem le_key {a b : Key} : a ≤ b ↔ Elem.key a ≤ Elem.key b := ((Composite.lte_iff a b).symm).trans Elem.le_iff.symm

/-- The key is not below the start … -/
def Above (start : RangeStart) (k : Key) : Prop := match start with
  | .incl a => a ≤ k
  | .excl a => a < k
  | .negInf => True
/-- … and not above the end. -/
def Below (k : Key) (stop : RangeEnd) : Prop := match stop with
  | .incl b => k ≤ b
  | .excl b => k < b
  | .posInf => True

theorem inBounds_iff {start : RangeStart} {k : Key} {stop : RangeEnd} : InBounds start k stop ↔ Above start k ∧ Below k stop :=
  Iff.rfl

theorem after_above {stop : RangeEnd} {start' : RangeStart} (h : after stop = some start') (k : Key) :
    Above start' k ↔ ¬ Below k stop := by
  cases stop <;> cases h <;> simp only [Above, Below, lt_key, le_key, not_le, not_lt]

theorem ahead_above {start : RangeStart} {stop : RangeEnd} (h : Ahead start stop) {k : Key} (hk : ¬ Below k stop) :
    Above start k := by
  cases start <;> cases stop <;> simp only [Ahead, Above, Below, lt_key, le_key, not_le, not_lt, not_true_eq_false] at h hk ⊢ <;>
    first | exact h.trans hk.le | exact (h.trans hk).le | exact h.le.trans hk | exact h.trans_le hk | exact h.trans hk

theorem above_lt {start : RangeStart} {k k' : Key} (h' : ¬ Above start k') (h : Above start k) : k' < k := by
  cases start <;> simp only [Above, lt_key, le_key, not_le, not_lt, not_true_eq_false] at h h' ⊢
  · exact h'.trans_le h
  · exact h'.trans_lt h

theorem below_lt {stop : RangeEnd} {k k' : Key} (h' : Below k' stop) (h : ¬ Below k stop) : k' < k := by
  cases stop <;> simp only [Below, lt_key, le_key, not_le, not_lt, not_true_eq_false] at h h' ⊢
  · exact h'.trans_lt h
  · exact h'.trans_le h

/-! ### The vector -/

theorem store_spec {rs : List (Key × Value)} : ∀ {cells : List (Key × Value)} {found : Nat}, found + rs.length ≤ cells.length →
    ∃ cells', store cells found rs = some (cells', found + rs.length) ∧ cells'.length = cells.length ∧
      cells'.take (found + rs.length) = cells.take found ++ rs := by
  induction rs with
  | nil => intro cells found h; exact ⟨cells, rfl, rfl, by simp⟩
  | cons r rs ih =>
    intro cells found h
    simp only [List.length_cons] at h
    obtain ⟨c', h1, h2, h3⟩ := ih (cells := cells.set found r) (found := found + 1) (by simp; omega)
    refine ⟨c', ?_, by simpa using h2, ?_⟩
    · rw [store, if_pos (by omega), h1]; simp; omega
    · have e : found + (r :: rs).length = found + 1 + rs.length := by simp; omega
      rw [e, h3, List.take_add_one, List.take_set_of_le (Nat.le_refl _), List.getElem?_set_self (by omega)]
      simp

/-! ### The loop -/

/-- What has been found when the loop comes to `start`. -/
structure Found (m : Key → Value) (start0 start : RangeStart) (acc : List (Key × Value)) : Prop where
  sorted : (acc.map Prod.fst).Pairwise (· < ·)
  mem : ∀ k v, (k, v) ∈ acc ↔ (Above start0 k ∧ ¬ Above start k) ∧ v = m k ∧ v ≠ []
  up : ∀ k, Above start k → Above start0 k

theorem Found.pairs {m : Key → Value} {start0 start : RangeStart} {acc rs : List (Key × Value)} {stop : RangeEnd}
    (h : Found m start0 start acc) (hs : (rs.map Prod.fst).Pairwise (· < ·))
    (hm : ∀ k v, (k, v) ∈ rs ↔ InBounds start k stop ∧ v = m k ∧ v ≠ []) :
    ((acc ++ rs).map Prod.fst).Pairwise (· < ·) := by
  rw [List.map_append, List.pairwise_append]
  refine ⟨h.sorted, hs, ?_⟩
  intro a ha b hb
  obtain ⟨⟨a, x⟩, ha', rfl⟩ := List.mem_map.1 ha
  obtain ⟨⟨b, y⟩, hb', rfl⟩ := List.mem_map.1 hb
  exact above_lt ((h.mem _ _).1 ha').1.2 (inBounds_iff.1 ((hm _ _).1 hb').1).1

theorem Found.next {m : Key → Value} {start0 start start' : RangeStart} {acc rs : List (Key × Value)} {stop : RangeEnd}
    (h : Found m start0 start acc) (ha : Ahead start stop) (hs : (rs.map Prod.fst).Pairwise (· < ·))
    (hm : ∀ k v, (k, v) ∈ rs ↔ InBounds start k stop ∧ v = m k ∧ v ≠ []) (he : after stop = some start') :
    Found m start0 start' (acc ++ rs) := by
  refine ⟨h.pairs hs hm, ?_, fun k hk => h.up _ (ahead_above ha ((after_above he k).1 hk))⟩
  intro k v
  rw [List.mem_append, h.mem, hm, inBounds_iff, after_above he]
  have h1 := h.up k
  have h2 := fun hk => ahead_above ha (k := k) hk
  grind

/-- What the loop returns. -/
structure Ends (m : Key → Value) (start0 : RangeStart) (target : Nat) (out : List (Key × Value)) : Prop where
  few : out.length ≤ target
  sorted : (out.map Prod.fst).Pairwise (· < ·)
  right : ∀ k v, (k, v) ∈ out → v = m k ∧ v ≠ [] ∧ Above start0 k
  all : ∀ k, m k ≠ [] → Above start0 k → (k, m k) ∈ out ∨ (out.length = target ∧ ∀ x ∈ out, x.1 < k)

theorem Found.ends {m : Key → Value} {start0 start : RangeStart} {acc rs : List (Key × Value)} {stop : RangeEnd} {target : Nat}
    (h : Found m start0 start acc) (hs : (rs.map Prod.fst).Pairwise (· < ·))
    (hm : ∀ k v, (k, v) ∈ rs ↔ InBounds start k stop ∧ v = m k ∧ v ≠ [])
    (hl : (acc ++ rs).length ≤ target) (he : (acc ++ rs).length = target ∨ after stop = none) :
    Ends m start0 target (acc ++ rs) := by
  refine ⟨hl, h.pairs hs hm, ?_, ?_⟩
  · intro k v hk
    rcases List.mem_append.1 hk with hk | hk
    · obtain ⟨⟨a, -⟩, b, c⟩ := (h.mem _ _).1 hk; exact ⟨b, c, a⟩
    · obtain ⟨a, b, c⟩ := (hm _ _).1 hk; exact ⟨b, c, h.up _ (inBounds_iff.1 a).1⟩
  · intro k hk ha
    by_cases h1 : Above start k
    · by_cases h2 : Below k stop
      · exact .inl (List.mem_append_right _ ((hm _ _).2 ⟨inBounds_iff.2 ⟨h1, h2⟩, rfl, hk⟩))
      · rcases he with he | he
        · refine .inr ⟨he, ?_⟩
          rintro ⟨k', v⟩ hx
          rcases List.mem_append.1 hx with hx | hx
          · exact above_lt ((h.mem _ _).1 hx).1.2 h1
          · exact below_lt (inBounds_iff.1 ((hm _ _).1 hx).1).2 h2
        · cases stop
          · cases he
          · cases he
          · exact absurd trivial h2
    · exact .inl (List.mem_append_left _ ((h.mem _ _).2 ⟨⟨ha, h1⟩, rfl, hk⟩))

/-- Events that a program does not see leave the changes as they are. -/
theorem quiet {us : List UIOp} {c c' : Client} (h : Client.machine.Run c us c') (hq : ∀ u ∈ us, u = .noop) : c'.log = c.log := by
  induction h with
  | nil => rfl
  | cons hs _ ih =>
    have e := hq _ List.mem_cons_self
    subst e
    rw [ih fun u hu => hq u (List.mem_cons_of_mem _ hu)]
    cases hs; rfl

/-- What one call gives. -/
theorem once_spec {kind : ByteDisk.Kind} {s s' : State} {start : RangeStart} {max : Nat} {tr : List (Option (Label Node))}
    {rs : List (Key × Value)} {stop : RangeEnd} (h : Once kind s start max tr rs stop s') (hm : 0 < max) {c c' : Client}
    (hc : Client.machine.Run c (tr.map ui) c') : c'.log = c.log ∧ rs.length ≤ max ∧ Ahead start stop ∧
      (rs.map Prod.fst).Pairwise (· < ·) ∧ ∀ k v, (k, v) ∈ rs ↔ InBounds start k stop ∧ v = contents c.log k ∧ v ≠ [] := by
  obtain ⟨pre, l, mid, r, io, replay, rfl, hq, hu, -, -, -, hv⟩ := h.split
  rw [List.map_append] at hc
  obtain ⟨c1, h1, h2⟩ := Machine.Run.split _ hc
  have e := quiet h1 (by simpa using hq)
  refine ⟨?_, no_more_than_asked r io hm hv, ?_⟩
  all_goals
    simp only [List.map_cons, List.map_nil, hu] at h2
    cases h2 with
    | cons hs hn =>
      cases hn
      cases hs with
      | succ a b d => first | exact e | (rw [e] at d; exact ⟨a, b, d⟩)

theorem loop_spec {kind : ByteDisk.Kind} {target : Nat} {s s' : State} {start : RangeStart} {cells : List (Key × Value)} {found : Nat}
    {tr : List (Option (Label Node))} {out : Option (List (Key × Value))}
    (h : Loop kind target s start cells found tr s' out) : ∀ {start0 : RangeStart} {acc : List (Key × Value)} {c c' : Client},
    Client.machine.Run c (tr.map ui) c' → cells.length = target → found < target ∨ target = 0 → found = acc.length →
    cells.take found = acc → Found (contents c.log) start0 start acc →
    ∃ o, out = some o ∧ Ends (contents c.log) start0 target o := by
  induction h with
  | @full s start cells found hf =>
    intro start0 acc c c' hc hl ht ha hk hi
    have h0 : target = 0 := by omega
    subst h0
    have : cells = [] := List.length_eq_zero_iff.1 hl
    subst this
    exact ⟨[], rfl, by simp, by simp, by simp, fun k _ _ => .inr ⟨rfl, by simp⟩⟩
  | @outside s start cells found tr rs stop s' hf ho hs =>
    intro start0 acc c c' hc hl ht ha hk hi
    obtain ⟨-, h1, -⟩ := once_spec ho (by omega) hc
    obtain ⟨c', h2, -⟩ := store_spec (rs := rs) (cells := cells) (found := found) (by omega)
    rw [h2] at hs; cases hs
  | @done s start cells found tr rs stop s' cells' found' hf ho hs he =>
    intro start0 acc c c' hc hl ht ha hk hi
    obtain ⟨-, h1, ha', hso, hme⟩ := once_spec ho (by omega) hc
    obtain ⟨c'', h2, h3, h4⟩ := store_spec (rs := rs) (cells := cells) (found := found) (by omega)
    rw [h2] at hs
    simp only [Option.some.injEq, Prod.mk.injEq] at hs
    obtain ⟨rfl, rfl⟩ := hs
    refine ⟨_, rfl, ?_⟩
    have e : c'' = acc ++ rs := by
      rw [hk] at h4; rw [← h4, List.take_of_length_le (by omega)]
    rw [e]
    exact hi.ends hso hme (by simp; omega) (.inl (by simp; omega))
  | @over s start cells found tr rs stop s' cells' found' hf ho hs he hn =>
    intro start0 acc c c' hc hl ht ha hk hi
    obtain ⟨-, h1, ha', hso, hme⟩ := once_spec ho (by omega) hc
    obtain ⟨c'', h2, h3, h4⟩ := store_spec (rs := rs) (cells := cells) (found := found) (by omega)
    rw [h2] at hs
    simp only [Option.some.injEq, Prod.mk.injEq] at hs
    obtain ⟨rfl, rfl⟩ := hs
    refine ⟨_, rfl, ?_⟩
    rw [h4, hk]
    exact hi.ends hso hme (by simp; omega) (.inr hn)
  | @more s start cells found tr rs stop s1 cells' found' start' tr' s' out hf ho hs he hn _ ih =>
    intro start0 acc c c' hc hl ht ha hk hi
    rw [List.map_append] at hc
    obtain ⟨c1, hc1, hc2⟩ := Machine.Run.split _ hc
    obtain ⟨e, h1, ha', hso, hme⟩ := once_spec ho (by omega) hc1
    obtain ⟨c'', h2, h3, h4⟩ := store_spec (rs := rs) (cells := cells) (found := found) (by omega)
    rw [h2] at hs
    simp only [Option.some.injEq, Prod.mk.injEq] at hs
    obtain ⟨rfl, rfl⟩ := hs
    rw [← e]
    refine ih hc2 (by omega) (.inl (by omega)) (acc := acc ++ rs) (by simp; omega) (by rw [h4, hk]) ?_
    rw [e]
    exact hi.next ha' hso hme hn

/-- The loop is a run of the store. -/
theorem loop_run {kind : ByteDisk.Kind} {target : Nat} {s s' : State} {start : RangeStart} {cells : List (Key × Value)} {found : Nat}
    {tr : List (Option (Label Node))} {out : Option (List (Key × Value))}
    (h : Loop kind target s start cells found tr s' out) : (C67.store kind).Run s tr s' := by
  induction h with
  | full => exact .nil _
  | outside _ ho => exact ho.run
  | done _ ho => exact ho.run
  | over _ ho => exact ho.run
  | more _ ho _ _ _ _ ih => exact ho.run.append ih

/-- **`Succ` gives the first keys**, and does not write outside of its vector: on a file as mkfs writes it, after whatever
came before, when it returns. -/
theorem succ_gives_first {contents' : List UInt8} (h : WrittenIn mkfs contents') {kind : ByteDisk.Kind} {pre tr : List (Option (Label Node))}
    {s s' : State} (hr : (C67.store kind).Run ⟨.unready, Committer.init, still contents'⟩ pre s) {lower : Key} {inclusive : Bool}
    {target : Nat} {out : Option (List (Key × Value))} (hs : Succ kind s lower inclusive target tr s' out) :
    ∃ cl o, Client.machine.Exec (pre.map ui) cl ∧ out = some o ∧ First (contents cl.log) lower inclusive target o := by
  obtain ⟨cl', c0, h0, hc⟩ := C67.acts_as_durable_map h (hr.append (loop_run hs))
  rw [List.map_append] at hc
  obtain ⟨cl, h1, h2⟩ := Machine.Run.split _ hc
  obtain ⟨o, e, ho⟩ := loop_spec hs (start0 := if inclusive then .incl lower else .excl lower) (acc := []) h2 (by simp) (by omega)
    (by simp) (by simp) ⟨by simp, fun k v => by simp, fun k hk => hk⟩
  have hf : ∀ k, Above (if inclusive then .incl lower else .excl lower) k ↔ From lower inclusive k := by
    intro k; cases inclusive <;> exact Iff.rfl
  refine ⟨cl, o, ⟨c0, h0, h1⟩, e, ho.few, ho.sorted, fun k v hk => ?_, fun k hk hk' => ho.all k hk ((hf k).2 hk')⟩
  obtain ⟨a, b, c⟩ := ho.right k v hk
  exact ⟨a, b, (hf k).1 c⟩

/-! ### A run -/

/-- What the code answers in the demo of C67, after its put. -/
theorem look_out (b : IndTable.Bitmap) : FullImpl.run ((FullImplDemo.s2 b).writeSame 0 MkfsDemo.n1) FullImplDemo.io (.succ (.incl [0]) 3) =
    ⟨.none, .advance (.succ (.incl [0]) [([1], [2])] .posInf) false, .transaction [(0, MkfsDemo.n1)] [],
      (FullImplDemo.s2 b).writeSame 0 MkfsDemo.n1⟩ := rfl

/-- On a fresh file, after a put, `Succ` is asked for three keys from `[0]` on, and gives the one there is. -/
theorem demo : ∃ pre s tr s', (C67.store true).Run ⟨.unready, Committer.init, still Mkfs.image⟩ pre s ∧
    UIOp.put [1] [2] ∈ pre.map ui ∧ Succ true s [0] true 3 tr s' (some [([1], [2])]) := by
  obtain ⟨tr, bm, s', _, ⟨h1, h2⟩, h3⟩ := FullImplDemo.run_ready Mkfs.image_written
  have hs := FullImplDemo.step_run (cs := Mkfs.image) (b := .ready ((FullImplDemo.s2 bm).writeSame 0 MkfsDemo.n1))
    (b1 := .ready ((FullImplDemo.s2 bm).writeSame 0 MkfsDemo.n1)) (s := s') (s1 := s')
    (v := .advance (.succ (.incl [0]) [([1], [2])] .posInf) false) (x := .transaction [(0, MkfsDemo.n1)] [])
    (by
      have := BlockNext.call (s := (FullImplDemo.s2 bm).writeSame 0 MkfsDemo.n1) (.succ (.incl [0]) 3) FullImplDemo.io_ok
      rw [look_out] at this
      exact this)
    (.look h1 h2 rfl)
  refine ⟨_, _, _, _, h3, ?_, .over (rs := [([1], [2])]) (stop := .posInf) (cells' := [([1], [2]), ([], []), ([], [])]) (found' := 1)
    (by decide) ⟨hs, [], _, _, _, FullImplDemo.io, false, rfl, by simp, rfl, .nil _, rfl, FullImplDemo.io_ok, ?_⟩ rfl (by decide) rfl⟩
  · rw [List.map_append]
    exact List.mem_append_right _ (List.mem_singleton.mpr rfl)
  · show (FullImpl.run _ _ (.succ (.incl [0]) 3)).vop = _
    rw [look_out]; rfl

end Verif.C80
