import Verif.Kv.Composite
import Verif.Kv.LedgerProof
import Verif.Kv.Client
/-
The composite system behaves like the client's specification. No code is modelled here.
-/
namespace Verif.Kv.Composite
variable {S : Type}

/-! ### The order of keys -/

theorem lte_iff (a b : List UInt8) : MapSpec.lte a b = true ↔ a ≤ b := by
  induction a generalizing b with
  | nil => simp [MapSpec.lte]
  | cons x xs ih =>
    cases b with
    | nil => simp [MapSpec.lte]
    | cons y ys =>
      rw [List.cons_le_cons_iff, ← ih, show MapSpec.lte (x :: xs) (y :: ys) =
        if x < y then true else if y < x then false else MapSpec.lte xs ys from rfl]
      by_cases h1 : x < y
      · simp [h1]
      · by_cases h2 : y < x
        · simp only [h1, h2, if_true, if_false, false_or]
          constructor
          · intro h; cases h
          · rintro ⟨rfl, _⟩; exact absurd h2 h1
        · have e : x = y := UInt8.le_antisymm (UInt8.not_lt.mp h2) (UInt8.not_lt.mp h1)
          subst e
          simp only [h1, if_false, true_and, false_or]

theorem lt_iff (a b : List UInt8) : MapSpec.lt a b ↔ a < b := by
  unfold MapSpec.lt
  rw [lte_iff]
  constructor
  · rintro ⟨h1, h2⟩
    by_cases h : a < b
    · exact h
    · exact absurd (List.le_antisymm h1 h) h2
  · intro h
    refine ⟨List.le_of_lt h, ?_⟩
    rintro rfl
    exact List.lt_irrefl _ h

theorem inRange_iff (start : RangeStart) (k : Key) (stop : RangeEnd) :
    MapSpec.InRange start k stop ↔ InBounds start k stop := by
  unfold MapSpec.InRange InBounds
  cases start <;> cases stop <;>
    simp [MapSpec.LowerBound, MapSpec.UpperBound, lte_iff, lt_iff]

/-! ### What an operation does to the map -/

theorem contents_append (a b : List Entry) :
    contents (a ++ b) = b.foldl Entry.apply (contents a) := by
  simp [contents]

theorem next_contents {m m' : MapSpec.View} {u : UIOp} {log : List Entry} (hm : m = contents log)
    (h : MapSpec.Next m u m') : m' = contents (log ++ u.entries) := by
  subst hm
  rw [contents_append]
  cases h with
  | query h => rfl
  | succ => rfl
  | write => funext x; rfl
  | clone =>
    funext x
    simp only [UIOp.entries, List.foldl_cons, List.foldl_nil, Entry.apply, MapSpec.cloneView,
      MapSpec.cloneMap, MapSpec.KeyHasPrefix]
    rename_i a b
    by_cases hp : b <+: x
    · have h1 : b.length ≤ x.length ∧ x.take b.length = b :=
        ⟨hp.length_le, (List.prefix_iff_eq_take.mp hp).symm⟩
      simp [hp, h1]
    · have h1 : ¬ (b.length ≤ x.length ∧ x.take b.length = b) := fun hc =>
        hp (List.prefix_iff_eq_take.mpr hc.2.symm)
      simp [hp, h1]
  | stutter => rfl

/-- A user operation of the map is one of the client's. -/
theorem next_client {c : Client} {u : UIOp} {m' : MapSpec.View}
    (h : MapSpec.Next (contents c.log) u m') (hd : c.durable ≤ c.log.length) :
    Client.Next c u { c with log := c.log ++ u.entries } := by
  cases h with
  | query h => simpa [UIOp.entries] using Client.Next.get h
  | @succ start stop rs h0 h1 h2 h3 h4 h5 =>
    have e : { c with log := c.log ++ (UIOp.succ start rs stop).entries } = c := by
      simp [UIOp.entries]
    rw [e]
    refine .succ ?_ ?_ fun k v => ?_
    · cases start <;> cases stop <;> first | trivial | exact (lt_iff _ _).mp h0 | exact (lte_iff _ _).mp h0
    · rw [List.pairwise_map, List.pairwise_iff_getElem]
      intro i j hi hj hij
      exact (lt_iff _ _).mp (h4 i j hi hj hij)
    · constructor
      · intro hm
        obtain ⟨i, hi, he⟩ := List.getElem_of_mem hm
        have a1 := h1 i hi; have a2 := h2 i hi; have a3 := h3 i hi
        rw [he] at a1 a2 a3
        exact ⟨(inRange_iff _ _ _).mp a3, a1.symm, a2⟩
      · rintro ⟨a1, rfl, a3⟩
        obtain ⟨i, hi, he⟩ := h5 k ((inRange_iff _ _ _).mpr a1) a3
        have a4 := h1 i hi
        have : rs[i] = (k, contents c.log k) := by
          rw [← he, a4]
        rw [← this]
        exact List.getElem_mem hi
  | write => exact .put
  | clone => exact .clone
  | stutter => simpa [UIOp.entries] using Client.Next.noop (Nat.le_refl c.durable) hd

/-! ### The two sides together -/

/-- A machine whose states stand for maps. -/
structure IsMap (M : SM S) (Abs : S → MapSpec.View → Prop) : Prop where
  init : ∀ g, M.Init g → Abs g (fun _ => [])
  next : ∀ g m u g', Abs g m → M.Next g u g' → ∃ m', MapSpec.Next m u m' ∧ Abs g' m'

/-- How the states side relates to the ideal journal. -/
structure Rel (Abs : S → MapSpec.View → Prop) (v : StatesView.State S) (c : Ledger) : Prop where
  floc : ∀ l, c.frozenLoc = some l → v.frozenLoc = some l
  ploc : ∀ l, v.persistentLoc = some l → c.loc = l ∨ c.frozenLoc = some c.loc
  fdisk : ∀ l, v.frozenLoc = some l → ∃ g, v.disk l = some g ∧ v.frozen = some g
  feph : v.frozen ≠ none → v.ephemeral ≠ none
  peph : v.ephemeral ≠ none → v.persistentLoc ≠ none
  one : ∃ g, v.disk c.loc = some g ∧ Abs g (contents (c.log.take c.start))
  two : ∀ g, v.frozen = some g → Abs g (contents (c.log.take c.frozen))
  three : ∀ g, v.ephemeral = some g → Abs g (contents (c.log.take c.cursor))
  off : v.ephemeral = none → c.cursor = c.start
  le : c.start ≤ c.durable ∧ c.durable ≤ c.log.length ∧ c.frozen ≤ c.log.length ∧
    c.cursor ≤ c.log.length

/-- What the client sees of the ideal journal. -/
def client (c : Ledger) : Client := ⟨c.log, c.durable, c.syncs⟩

theorem Rel.kept {Abs} {v : StatesView.State S} {c : Ledger} (h : Rel Abs v c) {disk}
    (hk : StatesView.DiskKept v { v with disk := disk }) :
    ∃ g, disk c.loc = some g ∧ Abs g (contents (c.log.take c.start)) := by
  obtain ⟨g, h1, h2⟩ := h.one
  cases hp : v.persistentLoc with
  | none => exact ⟨g, hk.all hp _ _ h1, h2⟩
  | some l =>
    rcases h.ploc l hp with e | e
    · obtain ⟨g', h3, h4⟩ := hk.persistent l hp
      rw [← e] at h3 h4
      rw [h1] at h3; cases h3
      exact ⟨g, h4, h2⟩
    · obtain ⟨g', h3, h4⟩ := hk.frozen _ (h.floc _ e)
      rw [h1] at h3; cases h3
      exact ⟨g, h4, h2⟩

theorem step_rel {M : SM S} {Abs} (hM : IsMap M Abs) {v v' : StatesView.State S} {c c' : Ledger}
    {vop : VOp} (h : Rel Abs v c) (hs : StatesView.Next M v vop v') (hj : Ledger.Next c vop c') :
    Rel Abs v' c' ∧ Client.Next (client c) vop.ui (client c') := by
  have hle := h.le
  have hidle : Client.Next (client c) .noop (client c) :=
    .noop (Nat.le_refl _) hle.2.1
  cases hs with
  | @obtain_ l g hp hg =>
    cases hj
    have he : v.ephemeral = none := by
      cases hx : v.ephemeral with
      | none => rfl
      | some x => exact absurd hp (h.peph (by rw [hx]; simp))
    have hf : v.frozen = none := by
      cases hx : v.frozen with
      | none => rfl
      | some x => exact absurd he (h.feph (by rw [hx]; simp))
    refine ⟨⟨h.floc, ?_, h.fdisk, fun hx => absurd hf hx, fun _ => by simp, h.one, h.two, ?_,
      fun hx => (by cases hx), hle⟩, hidle⟩
    · intro x hx; cases hx; exact .inl rfl
    · intro x hx
      cases hx
      obtain ⟨g', h1, h2⟩ := h.one
      rw [hg] at h1; cases h1
      rw [h.off he]; exact h2
  | @advance u b g g' he hn =>
    cases hj with
    | append hc =>
      obtain ⟨m', h1, h2⟩ := hM.next g _ u g' (h.three g he) hn
      have ht : c.log.take c.cursor = c.log := by rw [hc]; simp
      rw [ht] at h1
      have hm := next_contents rfl h1
      have tk : ∀ n, n ≤ c.log.length → (c.log ++ u.entries).take n = c.log.take n := fun n hn =>
        List.take_append_of_le_length hn
      refine ⟨⟨h.floc, h.ploc, h.fdisk, fun _ => by simp, fun _ => h.peph (by rw [he]; simp), ?_, ?_, ?_,
        fun hx => (by cases hx), ?_⟩, next_client (c := client c) h1 hle.2.1⟩
      · show ∃ g, v.disk c.loc = some g ∧ Abs g (contents ((c.log ++ u.entries).take c.start))
        rw [tk _ (by omega)]; exact h.one
      · intro x hx
        show Abs x (contents ((c.log ++ u.entries).take c.frozen))
        rw [tk _ (by omega)]; exact h.two x hx
      · intro x hx
        cases hx
        show Abs g' (contents ((c.log ++ u.entries).take (c.cursor + u.entries.length)))
        rw [hc, ← List.length_append, List.take_length, ← hm]
        exact h2
      · show _ ∧ _ ∧ _ ∧ _
        simp only [List.length_append]
        omega
    | @replay _ rest hc =>
      obtain ⟨m', h1, h2⟩ := hM.next g _ u g' (h.three g he) hn
      have hm := next_contents rfl h1
      have hl : c.log.take (c.cursor + u.entries.length) = c.log.take c.cursor ++ u.entries := by
        rw [List.take_add, hc]; simp
      have hln : u.entries.length + rest.length = c.log.length - c.cursor := by
        have := congrArg List.length hc; simpa using this.symm
      refine ⟨⟨h.floc, h.ploc, h.fdisk, fun _ => by simp, fun _ => h.peph (by rw [he]; simp), h.one,
        h.two, ?_, fun hx => (by cases hx), hle.1, hle.2.1, hle.2.2.1, ?_⟩, hidle⟩
      · intro x hx
        cases hx
        show Abs g' (contents (c.log.take (c.cursor + u.entries.length)))
        rw [hl, ← hm]; exact h2
      · show c.cursor + u.entries.length ≤ c.log.length
        omega
  | crash hk =>
    cases hj
    obtain ⟨g, h1, h2⟩ := h.kept hk
    have e : (c.log.take c.durable).take c.start = c.log.take c.start := by
      rw [List.take_take, Nat.min_eq_left hle.1]
    refine ⟨⟨fun l hl => (by cases hl), fun l hl => (by cases hl), fun l hl => (by cases hl),
      fun hx => absurd rfl hx, fun hx => absurd rfl hx, ⟨g, h1, by simpa only [e] using h2⟩,
      fun x hx => (by cases hx), fun x hx => (by cases hx), fun _ => rfl, ?_⟩, .crash⟩
    show _ ∧ _ ∧ _ ∧ _
    simp only [List.length_take]
    omega
  | freeze =>
    cases hj with
    | freeze hf =>
      refine ⟨⟨fun l hl => (by cases hl), ?_, fun l hl => (by cases hl), fun hx => hx, h.peph, h.one, h.three,
        h.three, h.off, hle.1, hle.2.1, hle.2.2.2, hle.2.2.2⟩, hidle⟩
      intro l hl
      rcases h.ploc l hl with e | e
      · exact .inl e
      · exact absurd e hf
  | diskChange hk =>
    cases hj
    refine ⟨⟨h.floc, h.ploc, ?_, h.feph, h.peph, h.kept hk, h.two, h.three, h.off, hle⟩, hidle⟩
    intro l hl
    obtain ⟨g, h1, h2⟩ := h.fdisk l hl
    obtain ⟨g', h3, h4⟩ := hk.frozen l hl
    rw [h1] at h3; cases h3
    exact ⟨g, h4, h2⟩
  | @provideFrozen l g h1 h2 h3 =>
    cases hj
    refine ⟨⟨fun x hx => hx, ?_, ?_, h.feph, h.peph, h.one, h.two, h.three, h.off, hle⟩, hidle⟩
    · intro x hx
      rcases h.ploc x hx with e | e
      · exact .inl e
      · have := h.floc _ e; rw [h1] at this; cases this
    · intro x hx; cases hx; exact ⟨g, h3, h2⟩
  | forgetOld =>
    cases hj with
    | cleanUp hf =>
      have hv := h.floc _ hf
      refine ⟨⟨fun l hl => (by cases hl), ?_, fun l hl => (by cases hl), fun hx => absurd rfl hx, ?_, h.one,
        fun x hx => (by cases hx), h.three, h.off, hle⟩, hidle⟩
      · intro l hl
        change v.frozenLoc = some l at hl
        rw [hv] at hl; cases hl; exact .inl rfl
      · intro _
        show v.frozenLoc ≠ none
        rw [hv]; simp
  | stutterJ =>
    cases hj with
    | @adopt l n h1 h2 h3 h4 =>
      obtain ⟨g, h5, h6⟩ := h.fdisk l (h.floc l h1)
      refine ⟨⟨h.floc, fun _ _ => .inr h1, h.fdisk, h.feph, h.peph, ⟨g, h5, h.two g h6⟩, h.two, h.three,
        ?_, h2, h4, hle.2.2⟩, .noop h3 h4⟩
      intro hx
      exact absurd hx (h.feph (by rw [h6]; simp))
    | harden h1 h2 =>
      exact ⟨⟨h.floc, h.ploc, h.fdisk, h.feph, h.peph, h.one, h.two, h.three, h.off,
        Nat.le_trans hle.1 h1, h2, hle.2.2⟩, .noop h1 h2⟩
  | stutterS => cases hj; exact ⟨h, hidle⟩
  | stutterPush =>
    cases hj with
    | push hq =>
      exact ⟨⟨h.floc, h.ploc, h.fdisk, h.feph, h.peph, h.one, h.two, h.three, h.off, hle⟩, .pushSync hq⟩
  | stutterPop =>
    cases hj with
    | pop hq hn =>
      exact ⟨⟨h.floc, h.ploc, h.fdisk, h.feph, h.peph, h.one, h.two, h.three, h.off, hle⟩,
        .popSync hq hn⟩

/-- Two runs with the same labels, of the states side and of the ideal journal. -/
theorem init_rel {M : SM S} {Abs} (hM : IsMap M Abs) {v : StatesView.State S} {loc : Loc}
    (h : StatesView.Init M v loc) : Rel Abs v (Ledger.initial loc) := by
  obtain ⟨⟨g, h1, h2⟩, h3, h4, h5, h6⟩ := h
  refine ⟨fun l hl => (by cases hl), ?_, ?_, ?_, ?_, ⟨g, h1, hM.init g h2⟩, ?_, ?_, fun _ => rfl,
    by simp [Ledger.initial]⟩
  · intro l hl; rw [h3] at hl; cases hl
  · intro l hl; rw [h4] at hl; cases hl
  · intro hx; exact absurd h5 hx
  · intro hx; exact absurd h6 hx
  · intro x hx; rw [h5] at hx; cases hx
  · intro x hx; rw [h6] at hx; cases hx

/-- Every execution of the composite system is, from outside, one of the client's. -/
theorem exec_client {M : SM S} {Abs} (hM : IsMap M Abs) {loc : Loc} {tr : List VOp} {s : State S}
    (h : (machine M loc).Exec tr s) :
    ∃ c p1 p2 p3 rest, (Ledger.machine loc).Exec tr c ∧ Rel Abs s.tsm c ∧
      Ledger.ViewRel s.jc c p1 p2 p3 rest ∧ Client.machine.Exec (tr.map VOp.ui) (client c) := by
  refine Machine.exec_invariant (M := machine M loc)
    (I := fun tr s => ∃ c p1 p2 p3 rest, (Ledger.machine loc).Exec tr c ∧ Rel Abs s.tsm c ∧
      Ledger.ViewRel s.jc c p1 p2 p3 rest ∧ Client.machine.Exec (tr.map VOp.ui) (client c)) ?_ ?_ h
  · rintro ⟨v, j⟩ ⟨h1, h2⟩
    change j = _ at h2
    subst h2
    exact ⟨Ledger.initial loc, [], [], [], [], ⟨_, rfl, .nil _⟩, init_rel hM h1, ⟨rfl, rfl, rfl, rfl,
      rfl, rfl, rfl, rfl, rfl, rfl, fun id => .inl ⟨rfl, rfl⟩⟩, ⟨_, rfl, .nil _⟩⟩
  · rintro tr s l s' ⟨c, p1, p2, p3, rest, h1, h2, h3, h4⟩ ⟨hs, hj⟩
    obtain ⟨c', q1, q2, q3, r', hn, hr⟩ := Ledger.Next.view hj h3
    obtain ⟨h5, h6⟩ := step_rel hM h2 hs hn
    refine ⟨c', q1, q2, q3, r', h1.snoc hn, h5, hr, ?_⟩
    rw [List.map_append]
    exact h4.snoc h6

end Verif.Kv.Composite
