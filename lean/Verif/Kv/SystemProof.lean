import Verif.Kv.System
import Verif.Kv.BlockRefine
import Verif.Kv.JournalRecover
import Verif.Kv.CompositeProof
/-
The whole system behaves like the client's specification, for every application whose graphs stand for
maps. No code is modelled here.
-/
namespace Verif.Kv.KvSystem
open BlockSystem (Label view GraphNext Inv)
open BlockCache (Ops)
variable {Node : Type} {A : App Node}

/-- The graphs as a user-level machine: a transaction, or the removal of an unused node. -/
def graphs (A : App Node) (ok : Node → Prop) : SM (Graph Node) where
  Init g := ∃ n, g = PMap.insert .empty rootRef n ∧ ok n ∧ ∀ x, ¬ A.succs n x
  Next g u g' :=
    (∃ reads ops, A.valid u reads ops ∧ (∀ x n, (x, n) ∈ reads → g x = some n) ∧
      Ops (BlockSystem.GStep A) g ops g') ∨
    (u = .noop ∧ ∃ ref, g ref ≠ none ∧ ref ≠ rootRef ∧
      (∀ x n, g x = some n → ¬ A.succs n ref) ∧ g' = g.remove ref)

theorem states_next {ok : Node → Prop} {v v' : StatesView.State (Graph Node)} {l : Label Node}
    (h : GraphNext A v l v') : StatesView.Next (graphs A ok) v l.vop v' := by
  cases h with
  | txn h1 h2 h3 h4 => exact .advance h1 (.inl ⟨_, _, h2, h3, h4⟩)
  | free h1 h2 h3 h4 => exact .advance h1 (.inr ⟨rfl, _, h2, h3, h4, rfl⟩)
  | other h hc =>
    obtain ⟨vop, step⟩ := l
    change StatesView.Next _ v vop v' at h
    show StatesView.Next _ v vop v'
    cases h with
    | obtain_ h1 h2 => exact .obtain_ h1 h2
    | advance _ h => exact h.elim
    | crash h => exact .crash h
    | freeze => exact .freeze
    | diskChange h => exact .diskChange h
    | provideFrozen h1 h2 h3 => exact .provideFrozen h1 h2 h3
    | forgetOld => exact .forgetOld
    | stutterJ => exact .stutterJ
    | stutterS => exact .stutterS
    | stutterPush => exact .stutterPush
    | stutterPop => exact .stutterPop

/-- Invariant of the whole system. -/
structure Ok (A : App Node) (Abs : Graph Node → MapSpec.View → Prop) (s : State Node)
    (c : Ledger) (v : JournalView.State) (p1 p2 p3 rest : List Entry) : Prop where
  block : Inv A s.b
  journal : JournalSystem.Rel s.j v
  ledger : Ledger.ViewRel v c p1 p2 p3 rest
  states : Composite.Rel Abs (view A s.b) c

theorem step_ok {ok : Node → Prop} {Abs} (hM : Composite.IsMap (graphs A ok) Abs) {s s' : State Node}
    {l : Label Node} (hn : Next A s l s') {c v p1 p2 p3 rest} (h : Ok A Abs s c v p1 p2 p3 rest) :
    ∃ c' v' q1 q2 q3 r', Ok A Abs s' c' v' q1 q2 q3 r' ∧ Ledger.Next c l.vop c' ∧
      Client.Next (Composite.client c) l.vop.ui (Composite.client c') := by
  have hj : JournalSystem.Next s.j l.vop s'.j := by
    cases hn with
    | machine _ _ h3 h4 => exact .machine h3 h4
    | disk h => exact .disk h
    | crash _ h => exact .crash h
  obtain ⟨v', h1, h2⟩ := JournalSystem.Next.rel h.journal hj
  obtain ⟨c', q1, q2, q3, r', h3, h4⟩ := Ledger.Next.view h1 h.ledger
  have hb : Inv A s'.b ∧ StatesView.Next (graphs A ok) (view A s.b) l.vop (view A s'.b) := by
    cases hn with
    | machine k1 k2 _ _ =>
      have : BlockSystem.Next A s.b ⟨_, some _⟩ _ := .machine k1 k2 (by
        intro x hx
        subst hx
        cases h3 with
        | tell =>
          obtain ⟨g, hg, _⟩ := h.states.one
          rw [show BlockSystem.diskMap A s.b.d c.loc = some g from hg]
          simp)
      obtain ⟨k3, k4⟩ := BlockSystem.Next.sound h.block this
      exact ⟨k3, states_next k4⟩
    | disk _ => exact ⟨h.block, .stutterJ⟩
    | crash k1 _ =>
      obtain ⟨k3, k4⟩ := BlockSystem.Next.sound h.block (.crash k1)
      exact ⟨k3, states_next k4⟩
  obtain ⟨k5, k6⟩ := Composite.step_rel hM h.states hb.2 h3
  exact ⟨c', v', q1, q2, q3, r', ⟨hb.1, h2, h4, k5⟩, h3, k6⟩

theorem init_states {ok : Node → Prop} {loc : Loc} {s : BlockSystem.State Node}
    (h : BlockSystem.Init A ok loc s) : StatesView.Init (graphs A ok) (view A s) loc := by
  obtain ⟨hm, _, n, hi, hn⟩ := h
  obtain ⟨m, d⟩ := s
  change m = _ at hm
  subst hm
  exact ⟨⟨_, BlockSystem.diskMap_some.mpr hi, n, rfl, hn⟩, rfl, rfl, rfl, rfl⟩

/-- Every execution of the whole system is, from outside, one of the client's. -/
theorem exec_ok {ok : Node → Prop} {Abs} (hM : Composite.IsMap (graphs A ok) Abs) {loc : Loc}
    {tr : List (Label Node)} {s : State Node} (h : (machine A ok loc).Exec tr s) :
    ∃ c v p1 p2 p3 rest, Ok A Abs s c v p1 p2 p3 rest ∧
      Client.machine.Exec (tr.map (fun l => l.vop.ui)) (Composite.client c) := by
  refine Machine.exec_invariant (M := machine A ok loc)
    (I := fun tr s => ∃ c v p1 p2 p3 rest, Ok A Abs s c v p1 p2 p3 rest ∧
      Client.machine.Exec (tr.map (fun l => l.vop.ui)) (Composite.client c)) ?_ ?_ h
  · rintro ⟨b, j⟩ ⟨h1, h2⟩
    have hr := JournalSystem.Init.rel h2
    exact ⟨Ledger.initial loc, _, [], [], [], [], ⟨BlockSystem.Init.inv h1, hr, ⟨rfl, rfl, rfl, rfl,
      rfl, rfl, rfl, rfl, rfl, rfl, fun id => .inl ⟨rfl, rfl⟩⟩, Composite.init_rel hM (init_states h1)⟩,
      ⟨_, rfl, .nil _⟩⟩
  · rintro tr s l s' ⟨c, v, p1, p2, p3, rest, h1, h2⟩ hs
    obtain ⟨c', v', q1, q2, q3, r', h3, _, h5⟩ := step_ok hM hs h1
    refine ⟨c', v', q1, q2, q3, r', h3, ?_⟩
    rw [List.map_append]
    exact h2.snoc h5

/-- A run of the journal side alone is a run of the whole system. -/
theorem lift_journal {ok : Node → Prop} {loc loc' : Loc} {b : BlockSystem.State Node} {n : Nat}
    {j j' : JournalSystem.State}
    (h : (JournalSystem.machine loc').Run j (List.replicate n .journalInternal) j') :
    ∃ tr, tr.map (fun l => l.vop) = List.replicate n VOp.journalInternal ∧
      (machine A ok loc).Run ⟨b, j⟩ tr ⟨b, j'⟩ := by
  induction n generalizing j with
  | zero => cases h; exact ⟨[], rfl, .nil _⟩
  | succ n ih =>
    rw [List.replicate_succ] at h
    cases h with
    | @cons _ _ x _ _ hs hr =>
      obtain ⟨tr, h1, h2⟩ := ih hr
      have : ∃ st, Next A ⟨b, j⟩ ⟨.journalInternal, st⟩ ⟨b, x⟩ := by
        cases hs with
        | machine h3 h4 =>
          exact ⟨some .noop, .machine (.noop (.inr (.inl rfl)) (.inl rfl)) .stutter h3 h4⟩
        | disk h3 => exact ⟨none, .disk h3⟩
      obtain ⟨st, hst⟩ := this
      exact ⟨⟨.journalInternal, st⟩ :: tr, by rw [List.map_cons, h1, List.replicate_succ], .cons hst h2⟩

/-- Recovery of the whole system after a crash. -/
theorem recover {ok : Node → Prop} {Abs} {loc : Loc} {s : State Node} {c v p1 p2 p3 rest}
    (h : Ok A Abs s c v p1 p2 p3 rest) (hb : s.b.m = .unready) (hj : s.j.m = JournalCache.start) :
    ∃ tr s' rb rj g, (machine A ok loc).Run s tr s' ∧ (∀ l ∈ tr, l.vop.ui = .noop) ∧
      s'.b.m = .ready rb ∧ s'.j.m = .ready rj ∧ BlockSystem.ephGraph A s'.b = some g ∧
      Abs g (contents (c.log.take c.start)) ∧ rj.replay = c.log.drop c.start ∧
      rb.cache = .empty ∧ rb.reads = .empty ∧ rb.frozen = none ∧ s'.b.d.readN = s.b.d.readN := by
  obtain ⟨⟨bm, bd⟩, ⟨jm, jd⟩⟩ := s
  change bm = _ at hb
  change jm = _ at hj
  subst hb hj
  obtain ⟨n, j', rj, hrun, hrj, hrep, _, _⟩ := JournalSystem.recover (loc := loc) h.journal rfl 0
  obtain ⟨j1, hr1, hr2⟩ := Machine.Run.split _ hrun
  obtain ⟨f, hcom, hld, hdn⟩ := h.journal
  cases hr2 with
  | @cons _ _ j2 _ _ hs hr3 =>
    obtain ⟨t1, a1, b1⟩ := lift_journal (A := A) (ok := ok) (loc := loc) (b := ⟨.unready, bd⟩) hr1
    obtain ⟨g, hg, ha⟩ := h.states.one
    have hdl : BlockSystem.diskMap A bd c.loc = some g := hg
    obtain ⟨hv, tb, htb, hwf, hdist, rfl, hsa⟩ := BlockSystem.diskMap_some.mp hdl
    have hl : c.loc = v.persistentLoc := h.ledger.loc
    obtain ⟨t2, a2, b2⟩ := lift_journal (A := A) (ok := ok) (loc := loc)
      (b := ⟨.loading c.loc none, bd⟩) hr3
    obtain ⟨k1, k2, k3, k4⟩ := h.block
    change bd.readT = _ at k1
    have hstep : Next A ⟨⟨.unready, bd⟩, j1⟩ ⟨.sendPersistentLoc v.persistentLoc, some .receiveLoc⟩
        ⟨⟨.loading c.loc none, bd⟩, j2⟩ := by
      rw [← hl] at hs ⊢
      cases hs with
      | machine h3 h4 => exact .machine (.receiveLoc hv) .stutter h3 h4
    have l1 : Next A ⟨⟨.loading c.loc none, bd⟩, j'⟩ ⟨.statesInternal, some .pageInTableReq⟩
        ⟨⟨.loading c.loc (some 0), { bd with readT := bd.readT.insert 0 c.loc }⟩, j'⟩ :=
      .machine (bdop := .reqReadTable 0 c.loc) .pageInTableReq (.recvReadTable (by rw [k1]; rfl))
        (.noop (.inr rfl) (.inl rfl)) .stutter
    have l2 : Next A ⟨⟨.loading c.loc (some 0), { bd with readT := bd.readT.insert 0 c.loc }⟩, j'⟩
        ⟨.statesInternal, some .pageInTableResp⟩
        ⟨⟨.ready ⟨tb, none, tb, c.loc, none, none, .empty, .empty, .empty⟩,
          { bd with readT := (bd.readT.insert 0 c.loc).remove 0 }⟩, j'⟩ :=
      .machine (bdop := .respReadTable 0 (some tb)) (.pageInTableResp hwf hdist)
        (.ackReadTable (loc := c.loc) (by simp) (by intro x hx; cases hx; exact htb))
        (.noop (.inr rfl) (.inl rfl)) .stutter
    have run : (machine A ok loc).Run ⟨⟨.unready, bd⟩, ⟨JournalCache.start, jd⟩⟩ _ _ :=
      (b1.append (.cons hstep b2)).append (.cons l1 (.cons l2 (.nil _)))
    refine ⟨_, _, _, rj, _, run, ?_, rfl, hrj, rfl, ha, ?_, rfl, rfl, rfl, rfl⟩
    · have all : ∀ (t : List (Label Node)) m, t.map (fun l => l.vop) =
          List.replicate m VOp.journalInternal → ∀ l ∈ t, l.vop.ui = .noop := by
        intro t m ht l hl
        have : l.vop ∈ List.replicate m VOp.journalInternal := ht ▸ List.mem_map_of_mem hl
        rw [(List.mem_replicate.mp this).2]; rfl
      intro l hl
      rcases List.mem_append.mp hl with hl | hl
      · rcases List.mem_append.mp hl with hl | hl
        · exact all _ _ a1 l hl
        · rcases List.mem_cons.mp hl with rfl | hl
          · rfl
          · exact all _ _ a2 l hl
      · rcases List.mem_cons.mp hl with rfl | hl
        · rfl
        · rcases List.mem_cons.mp hl with rfl | hl
          · rfl
          · cases hl
    · rw [hrep, h.ledger.log, h.ledger.start, hdn.gamma, hdn.delta]
      simp

end Verif.Kv.KvSystem
