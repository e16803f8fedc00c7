import Verif.Kv.SystemDemo
import Verif.Kv.ClientProof
/-
C56. The whole store is a crash-tolerant map, and can always be reopened.

Specification: the client's view in Verif/Kv/Client.lean, one history of changes of which a prefix is
durable.
-/
namespace Verif.C56
open Verif.Kv Verif.Kv.KvSystem
open Verif.Kv.JournalCache (select)
variable {Node : Type}

/-- **The store acts as a map that survives crashes.** Take any application whose transactions, on the
graph of nodes, act on a map. Put it on the block cache and its disk, with the journal and its disk
beside it; let requests to the disks be served in any order, let superblocks be written at any time, and
let the system crash at any time, with blocks in flight left as anything. Then every execution is, from
outside, one of the client's specification. -/
theorem acts_as_durable_map {A : App Node} {ok : Node → Prop} {Abs : Graph Node → MapSpec.View → Prop}
    (hM : Composite.IsMap (graphs A ok) Abs) {loc : Loc} {tr : List (BlockSystem.Label Node)}
    {s : State Node} (h : (machine A ok loc).Exec tr s) :
    ∃ c, Client.machine.Exec (tr.map (fun l => l.vop.ui)) c := by
  obtain ⟨c, _, _, _, _, _, _, h2⟩ := exec_ok hM h
  exact ⟨_, h2⟩

/-- **Synchronised changes are in the store's history for good.** If a client asks the store to
synchronise, gets the answer with no crash in between, and anything happens after that, then all
changes from before the request are still there, at the same place. -/
theorem synced_is_kept {A : App Node} {ok : Node → Prop} {Abs : Graph Node → MapSpec.View → Prop}
    (hM : Composite.IsMap (graphs A ok) Abs) {loc : Loc} {pre mid post : List (BlockSystem.Label Node)}
    {s : State Node} {id : Nat} {l1 l2 : BlockSystem.Label Node}
    (h1 : l1.vop.ui = .pushSync id) (h2 : l2.vop.ui = .popSync id)
    (hm : ∀ l ∈ mid, l.vop.ui ≠ .crash)
    (h : (machine A ok loc).Exec (pre ++ (l1 :: mid ++ l2 :: post)) s) :
    ∃ c c', Client.machine.Exec (pre.map (fun l => l.vop.ui)) c ∧
      Client.machine.Exec ((pre ++ (l1 :: mid ++ l2 :: post)).map (fun l => l.vop.ui)) c' ∧
      c.log <+: c'.log := by
  obtain ⟨c', ⟨c0, hi, hr⟩⟩ := acts_as_durable_map hM h
  have hr' := hr
  rw [List.map_append] at hr'
  obtain ⟨c, ha, hb⟩ := Machine.Run.split _ hr'
  refine ⟨c, c', ⟨c0, hi, ha⟩, ⟨c0, hi, hr⟩, ?_⟩
  have hb' : Client.machine.Run c (.pushSync id :: mid.map (fun l => l.vop.ui) ++
      .popSync id :: post.map (fun l => l.vop.ui)) c' := by
    simpa [h1, h2] using hb
  refine Client.synced hb' ?_
  intro hx
  obtain ⟨l, hl, e⟩ := List.mem_map.mp hx
  exact hm l hl e

/-- **The store can be reopened after any crash.** Whatever the execution, if it ends in a crash then
there is a way, invisible from outside, to have both sides running again: a state in memory that stands
for a prefix of the client's history, and a journal about to replay exactly the rest of it. -/
theorem recoverable {A : App Node} {ok : Node → Prop} {Abs : Graph Node → MapSpec.View → Prop}
    (hM : Composite.IsMap (graphs A ok) Abs) {loc : Loc} {tr : List (BlockSystem.Label Node)}
    {s : State Node} (h : (machine A ok loc).Exec (tr ++ [⟨.crash, none⟩]) s) :
    ∃ c, Client.machine.Exec ((tr ++ [(⟨.crash, none⟩ : BlockSystem.Label Node)]).map (fun l => l.vop.ui)) c ∧
      ∃ tr' s' rb rj g done todo, (machine A ok loc).Run s tr' s' ∧ (∀ l ∈ tr', l.vop.ui = .noop) ∧
        s'.b.m = .ready rb ∧ s'.j.m = .ready rj ∧ BlockSystem.ephGraph A s'.b = some g ∧
        c.log = done ++ todo ∧ Abs g (contents done) ∧ rj.replay = todo := by
  obtain ⟨c, v, p1, p2, p3, rest, h1, h2⟩ := exec_ok hM h
  obtain ⟨hb, hj⟩ : s.b.m = .unready ∧ s.j.m = JournalCache.start := by
    obtain ⟨s0, hi, hr⟩ := h
    obtain ⟨s1, _, hr2⟩ := Machine.Run.split _ hr
    cases hr2 with
    | @cons _ _ x _ _ hs hr3 =>
      cases hr3
      cases hs with
      | crash h1 h2 => exact ⟨rfl, rfl⟩
  obtain ⟨tr', s', rb, rj, g, k1, k2, k3, k4, k5, k6, k7, _⟩ := recover (ok := ok) (loc := loc) h1 hb hj
  exact ⟨Composite.client c, h2, tr', s', rb, rj, g, _, _, k1, k2, k3, k4, k5,
    (List.take_append_drop c.start c.log).symm, k6, k7⟩

/-! ### Concrete case -/

/-- A client's history holds only what the client did, in that order. -/
theorem run_sublist {c c' : Client} {tr : List UIOp} (h : Client.machine.Run c tr c') :
    c'.log.Sublist (c.log ++ tr.flatMap UIOp.entries) := by
  induction h with
  | nil _ => simp
  | @cons s l s' _ _ hs _ ih =>
    have : s'.log.Sublist (s.log ++ l.entries) := by
      cases hs <;> simp [UIOp.entries, List.take_sublist]
    refine ih.trans ?_
    rw [List.flatMap_cons, ← List.append_assoc]
    exact this.append_right _

open SystemDemo in
/-- The run of Verif/Kv/SystemDemo.lean: the store is opened, a put is made and synchronised through the
journal, a second put is made and read back, and the system crashes. The client's history then is the
first put alone, and the store can be reopened with just that put to replay. -/
theorem demo : ∃ s c, SystemDemo.M.Exec SystemDemo.trace s ∧
    Client.machine.Exec (SystemDemo.trace.map (fun l => l.vop.ui)) c ∧ c.log = [.insert [] []] ∧
    ∃ tr' s' rb rj, SystemDemo.M.Run s tr' s' ∧ s'.b.m = .ready rb ∧ s'.j.m = .ready rj ∧
      rj.replay = [.insert [] []] := by
  obtain ⟨s, hs, hb, hm, hsb, hj⟩ := run0
  obtain ⟨c, v, p1, p2, p3, rest, h1, h2⟩ := exec_ok isMap hs
  obtain ⟨tr', s', rb, rj, g, k1, k2, k3, k4, _, k6, k7, _⟩ := recover (ok := fun n => n = [])
    (loc := StoreDemo.T1) h1 hb hm
  have hdrop : c.log.drop c.start = [.insert [] []] := by
    obtain ⟨⟨bm, bd⟩, ⟨jm, jd⟩⟩ := s
    change jm = _ at hm
    subst hm
    obtain ⟨f, hc, _, hdn⟩ := h1.journal
    have hf : f = setAt JournalDemo.f0 false ⟨2, 0, 1, StoreDemo.T1⟩ := by
      funext w
      have := (hc.holds w).1
      rw [show jd.sb = _ from hsb] at this
      cases w <;> simpa [setAt] using this.symm
    have hsel : select f = false := by
      rw [hf]; simp [select, setAt, JournalDemo.f0, JournalCache.incr]
    have hj1 : v.j1 = [.insert [] []] := by
      have := hc.j1
      rw [hsel, hf] at this
      simp only [setAt, if_true, journalAt, blocksAt] at this
      rw [show jd.journal 0 = _ from hj] at this
      simp only [Option.bind_some] at this
      rw [JournalDemo.parse1] at this
      exact (Option.some.inj this).symm
    rw [h1.ledger.log, h1.ledger.start, hdn.gamma, hdn.delta, hj1]
    simp
  refine ⟨s, _, hs, h2, ?_, tr', s', rb, rj, k1, k3, k4, k7.trans hdrop⟩
  show c.log = _
  obtain ⟨c0, hi, hr⟩ := h2
  have hsub := run_sublist hr
  rw [show c0 = _ from hi] at hsub
  have e : c.log = c.log.take c.start ++ [.insert [] []] := by
    rw [← hdrop, List.take_append_drop]
  have hlen : c.log.Sublist [SystemDemo.e1, SystemDemo.e2] := hsub
  rw [e] at hlen ⊢
  have key : ∀ l : List Entry, (l ++ [SystemDemo.e1]).Sublist [SystemDemo.e1, SystemDemo.e2] → l = [] := by
    intro l h
    rcases l with _ | ⟨a, _ | ⟨b, l⟩⟩
    · rfl
    · have := h.eq_of_length rfl
      simp [SystemDemo.e1, SystemDemo.e2] at this
    · have := h.length_le
      simp at this
  rw [key _ hlen]; rfl

end Verif.C56
