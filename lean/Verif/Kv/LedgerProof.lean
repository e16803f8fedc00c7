import Verif.Kv.Ledger
/-
`JournalView` behaves like the ideal journal. No code is modelled here.
-/
namespace Verif.Kv.Ledger

/-- What a status says about the position `n` at which the request was made: `a` is durable, `b` is
on its way, `e` is all. -/
def SyncOk (a b e : Nat) : SyncStatus → Nat → Prop
  | .s1, n => n ≤ a
  | .s2, n => n ≤ b
  | .s3, n => n ≤ e

/-- The two tables of requests agree. -/
def SyncRel (q : PMap Nat SyncStatus) (p : PMap Nat Nat) (a b e : Nat) : Prop :=
  ∀ id, (q id = none ∧ p id = none) ∨ ∃ x n, q id = some x ∧ p id = some n ∧ SyncOk a b e x n

/-- How the view relates to the ideal journal: `p1`, `p2`, `p3` are what the three images reflect. -/
structure ViewRel (v : JournalView.State) (c : Ledger) (p1 p2 p3 rest : List Entry) : Prop where
  gamma : v.gamma = v.j1 ++ rest
  two : p1 ++ v.gamma = p2 ++ v.j2
  log : c.log = p1 ++ (v.gamma ++ v.delta)
  three : c.log = p3 ++ v.j3
  start : c.start = p1.length
  frozen : c.frozen = p2.length
  cursor : c.cursor = p3.length
  durable : c.durable = p1.length + v.j1.length
  loc : c.loc = v.persistentLoc
  frozenLoc : c.frozenLoc = v.frozenLoc
  sync : SyncRel v.syncReqs c.syncs c.durable (p1.length + v.gamma.length) c.log.length

theorem SyncRel.mono {q p a b e a' b' e'} (h : SyncRel q p a b e) (ha : a ≤ a') (hb : b ≤ b')
    (he : e ≤ e') : SyncRel q p a' b' e' := by
  intro id
  rcases h id with h1 | ⟨x, n, h1, h2, h3⟩
  · exact .inl h1
  · refine .inr ⟨x, n, h1, h2, ?_⟩
    cases x <;> exact Nat.le_trans h3 ‹_›

theorem SyncRel.to1 {q p a b e} (h : SyncRel q p a b e) (ha : a ≤ b) :
    SyncRel (q.mapVal .to1) p b b e := by
  intro id
  rcases h id with ⟨h1, h2⟩ | ⟨x, n, h1, h2, h3⟩
  · exact .inl ⟨by simp [PMap.mapVal, h1], h2⟩
  · refine .inr ⟨x.to1, n, by simp [PMap.mapVal, h1], h2, ?_⟩
    cases x
    · exact Nat.le_trans h3 ha
    · exact h3
    · exact h3

theorem SyncRel.to2 {q p a b e} (h : SyncRel q p a b e) (hb : b ≤ e) :
    SyncRel (q.mapVal .to2) p a e e := by
  intro id
  rcases h id with ⟨h1, h2⟩ | ⟨x, n, h1, h2, h3⟩
  · exact .inl ⟨by simp [PMap.mapVal, h1], h2⟩
  · refine .inr ⟨x.to2, n, by simp [PMap.mapVal, h1], h2, ?_⟩
    cases x
    · exact h3
    · exact Nat.le_trans h3 hb
    · exact h3

theorem SyncRel.none_iff {q p a b e id} (h : SyncRel q p a b e) : q id = none ↔ p id = none := by
  rcases h id with ⟨h1, h2⟩ | ⟨x, n, h1, h2, h3⟩
  · simp [h1, h2]
  · simp [h1, h2]

theorem SyncRel.insert {q p a b e id} (h : SyncRel q p a b e) :
    SyncRel (q.insert id .s3) (p.insert id e) a b e := by
  intro x
  by_cases hx : x = id
  · subst hx
    exact .inr ⟨.s3, e, by simp, by simp, Nat.le_refl _⟩
  · simpa [PMap.insert, hx] using h x

theorem SyncRel.remove {q p a b e id} (h : SyncRel q p a b e) :
    SyncRel (q.remove id) (p.remove id) a b e := by
  intro x
  by_cases hx : x = id
  · subst hx
    exact .inl ⟨by simp, by simp⟩
  · simpa [PMap.remove, hx] using h x

theorem ViewRel.le {v c p1 p2 p3 rest} (h : ViewRel v c p1 p2 p3 rest) :
    c.durable ≤ p1.length + v.gamma.length ∧ p1.length + v.gamma.length ≤ c.log.length := by
  rw [h.durable, h.log, h.gamma]; simp

theorem Next.view {v v' : JournalView.State} {vop : VOp} (hn : JournalView.Next v vop v')
    {c : Ledger} {p1 p2 p3 rest : List Entry} (h : ViewRel v c p1 p2 p3 rest) :
    ∃ c' q1 q2 q3 rest', Next c vop c' ∧ ViewRel v' c' q1 q2 q3 rest' := by
  have hle := h.le
  cases hn with
  | present => exact ⟨c, p1, p2, p3, rest, h.loc ▸ .tell, h⟩
  | obtainFrozen =>
    exact ⟨_, p1, p2, p3, rest, .learn, ⟨h.gamma, h.two, h.log, h.three, h.start, h.frozen, h.cursor,
      h.durable, h.loc, rfl, h.sync⟩⟩
  | cleanUp hf =>
    exact ⟨_, p1, p2, p3, rest, .cleanUp (by rw [h.frozenLoc, h.loc, hf]), ⟨h.gamma, h.two, h.log, h.three, h.start, h.frozen, h.cursor,
      h.durable, h.loc, rfl, h.sync⟩⟩
  | crash =>
    have ht : c.log.take c.durable = p1 ++ v.j1 := by
      rw [h.log, h.durable, h.gamma]
      rw [show p1 ++ (v.j1 ++ rest ++ v.delta) = (p1 ++ v.j1) ++ (rest ++ v.delta) by simp,
        ← List.length_append]
      exact List.take_left
    refine ⟨_, p1, p1, p1, [], .crash, ⟨by simp, rfl, by simpa using ht, ht, h.start, h.start, h.start,
      h.durable, h.loc, rfl, ?_⟩⟩
    intro id; exact .inl ⟨rfl, rfl⟩
  | @move1to2 l hf =>
    have he : p2.length + v.j2.length = p1.length + v.gamma.length := by
      have := congrArg List.length h.two; simp at this; omega
    refine ⟨_, p2, p2, p3, [], .adopt (n := p2.length + v.j2.length) (h.frozenLoc.trans hf)
      (by rw [h.frozen]; omega) (by omega) (by omega), ⟨by simp, rfl, ?_, h.three, h.frozen, h.frozen,
      h.cursor, rfl, rfl, h.frozenLoc, ?_⟩⟩
    · show c.log = _
      rw [h.log, ← List.append_assoc, h.two, List.append_assoc]
    · show SyncRel _ _ (p2.length + v.j2.length) (p2.length + v.j2.length) _
      rw [he]
      exact h.sync.to1 hle.1
  | move2to3 hf =>
    refine ⟨_, p1, p3, p3, rest ++ v.delta, .freeze (by rw [h.frozenLoc, h.loc]; exact hf),
      ⟨?_, ?_, ?_, h.three, h.start, h.cursor, h.cursor, h.durable, h.loc, rfl, ?_⟩⟩
    · show v.gamma ++ v.delta = _; rw [h.gamma]; simp
    · show p1 ++ (v.gamma ++ v.delta) = _; rw [← h.log, h.three]
    · show c.log = _; rw [h.log]; simp
    · have : p1.length + (v.gamma ++ v.delta).length = c.log.length := by rw [h.log]; simp
      show SyncRel _ _ _ (p1.length + (v.gamma ++ v.delta).length) _
      rw [this]
      exact h.sync.to2 hle.2
  | extendLog1 =>
    refine ⟨_, p1, p2, p3, [], .harden (n := p1.length + v.gamma.length) hle.1 hle.2,
      ⟨by simp, h.two, h.log, h.three, h.start, h.frozen, h.cursor, rfl, h.loc, h.frozenLoc, ?_⟩⟩
    exact h.sync.to1 hle.1
  | extendLog2 =>
    refine ⟨_, p1, p2, p3, rest ++ v.delta, .harden (n := c.durable) (Nat.le_refl _) (by omega),
      ⟨?_, ?_, ?_, h.three, h.start, h.frozen, h.cursor, h.durable, h.loc, h.frozenLoc, ?_⟩⟩
    · show v.gamma ++ v.delta = _; rw [h.gamma]; simp
    · show p1 ++ (v.gamma ++ v.delta) = _; rw [← List.append_assoc, h.two]; simp
    · show c.log = _; rw [h.log]; simp
    · have : p1.length + (v.gamma ++ v.delta).length = c.log.length := by rw [h.log]; simp
      show SyncRel _ _ _ (p1.length + (v.gamma ++ v.delta).length) _
      rw [this]
      exact h.sync.to2 hle.2
  | @move3 u hj =>
    have hp : p3 = c.log := by rw [h.three, hj]; simp
    refine ⟨_, p1, p2, p3 ++ u.entries, rest, .append (by rw [h.cursor, hp]),
      ⟨h.gamma, h.two, ?_, ?_, h.start, h.frozen, ?_, h.durable, h.loc, h.frozenLoc, ?_⟩⟩
    · show c.log ++ _ = _; rw [h.log]; simp
    · show c.log ++ _ = _ ++ v.j3; rw [hp, hj]; simp
    · show c.cursor + _ = _; rw [h.cursor]; simp
    · exact h.sync.mono (Nat.le_refl _) (Nat.le_refl _) (by simp)
  | @replay u r hj =>
    refine ⟨_, p1, p2, p3 ++ u.entries, rest, .replay (rest := r) ?_,
      ⟨h.gamma, h.two, h.log, ?_, h.start, h.frozen, ?_, h.durable, h.loc, h.frozenLoc, h.sync⟩⟩
    · rw [h.three, h.cursor, hj]; simp
    · show c.log = _ ++ r; rw [h.three, hj]; simp
    · show c.cursor + _ = _; rw [h.cursor]; simp
  | pushSync hq =>
    exact ⟨_, p1, p2, p3, rest, .push (h.sync.none_iff.mp hq), ⟨h.gamma, h.two, h.log, h.three, h.start,
      h.frozen, h.cursor, h.durable, h.loc, h.frozenLoc, h.sync.insert⟩⟩
  | @popSync id hq =>
    rcases h.sync id with ⟨h1, _⟩ | ⟨x, n, h1, h2, h3⟩
    · rw [hq] at h1; cases h1
    · rw [hq] at h1; cases h1
      exact ⟨_, p1, p2, p3, rest, .pop h2 h3, ⟨h.gamma, h.two, h.log, h.three, h.start,
        h.frozen, h.cursor, h.durable, h.loc, h.frozenLoc, h.sync.remove⟩⟩
  | stutterJ => exact ⟨c, p1, p2, p3, rest, .harden (Nat.le_refl _) (by omega), h⟩
  | stutterS => exact ⟨c, p1, p2, p3, rest, .idle, h⟩

theorem exec_view {loc : Loc} {tr : List VOp} {v : JournalView.State}
    (h : (JournalView.machine loc).Exec tr v) :
    ∃ c p1 p2 p3 rest, (machine loc).Exec tr c ∧ ViewRel v c p1 p2 p3 rest := by
  refine Machine.exec_invariant (M := JournalView.machine loc)
    (I := fun tr v => ∃ c p1 p2 p3 rest, (machine loc).Exec tr c ∧ ViewRel v c p1 p2 p3 rest)
    ?_ ?_ h
  · rintro s rfl
    exact ⟨_, [], [], [], [], ⟨_, rfl, .nil _⟩, ⟨rfl, rfl, rfl, rfl, rfl, rfl, rfl, rfl, rfl, rfl,
      fun id => .inl ⟨rfl, rfl⟩⟩⟩
  · rintro tr s l s' ⟨c, p1, p2, p3, rest, he, hr⟩ hs
    obtain ⟨c', q1, q2, q3, r', hn, hr'⟩ := Next.view hs hr
    exact ⟨c', q1, q2, q3, r', he.snoc hn, hr'⟩

end Verif.Kv.Ledger
