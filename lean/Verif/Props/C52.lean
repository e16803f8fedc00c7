import Verif.Props.C51
/-
C52. The auditor's promises (KVStoreTrait_t.rs 41-66) hold.
The two proof functions `open_system_invariant_*` are assumed in /repo (`assume(false)`): whoever holds
the program's model token together with disk response tokens, or with a request token, may conclude that
some state of the system model satisfies the invariant of the refinement proof and agrees with the tokens.
Specification: `Obligation` below (what RefinementObligation_t.rs 80-98 asks of `inv`), `sysMachine`.
-/
namespace Verif.C52
open Verif Tok

/-- RefinementObligation_t.rs 80-98, the part about `inv`: true initially, kept by every step -/
structure Obligation {P : Type} (prog : Program P) (g : Geometry) (inv : SysState P → Prop) : Prop where
  init : ∀ s, SysInit prog s → inv s
  next : ∀ s l s', inv s → SysNext prog g s l s' → inv s'

theorem Obligation.reachable {P : Type} {prog : Program P} {g} {inv : SysState P → Prop}
    (h : Obligation prog g inv) {s : SysState P} (hs : (sysMachine prog g).Reachable s) : inv s :=
  Machine.reachable_invariant (M := sysMachine prog g) (I := inv) h.init (fun s l s' hi hn => h.next s l s' hi hn) hs

variable {P : Type} {prog : Program P} {g : Geometry} {inv : SysState P → Prop} {restart : Nat → Nat}
  {tr : List Event} {w : World P}

/-- `open_system_invariant_disk_response` -/
theorem response_promise (hob : Obligation prog g inv) (h : (machine prog g restart).Exec tr w)
    (hf : Forward restart tr) :
    ∃ s, inv s ∧ s.program = w.tok.model ∧
      ∀ id r, w.tok.diskResponses.Has (id, r) → s.disk.responses id = some r := by
  obtain ⟨s, hs, hc⟩ := core_reachable h hf none (fun _ h => by cases h)
  refine ⟨s, hob.reachable hs, hc.program, ?_⟩
  intro id r hr
  have := MSet.toMap_of_has (ids h).dresp hr
  rw [hc.disk]
  simp only [view, PMap.unionRight]
  have hno := ((ids h).drespOut _ hr).2
  have : w.disk.responses id = none := by
    cases hd : w.disk.responses id with
    | none => rfl
    | some v => exact absurd (by simp [PMap.Has, hd]) hno
  simp [this, *]

/-- `open_system_invariant_user_request`: whatever the request is -/
theorem request_promise (hob : Obligation prog g inv) (h : (machine prog g restart).Exec tr w)
    (hf : Forward restart tr) {q : TRequest} (hq : w.tok.requests.Has q) :
    ∃ s, inv s ∧ s.program = w.tok.model ∧ s.syncRequests.Has q.id := by
  obtain ⟨s, hs, hc⟩ := core_reachable h hf (some q.id) (fun id he => by cases he; exact ⟨q, rfl, hq⟩)
  refine ⟨s, hob.reachable hs, hc.program, ?_⟩
  unfold MSet.Has
  rw [hc.syncs]; simp

/-- The state that really belongs to the tokens also satisfies the invariant: it has the program, the
responses, the requests and the sync requests for which there are tokens. -/
theorem actual_state (hob : Obligation prog g inv) (h : (machine prog g restart).Exec tr w)
    (hf : Forward restart tr) :
    ∃ s, inv s ∧ s.program = w.tok.model ∧
      (∀ q : TRequest, q.input ≠ .sync → s.requests q.mapspec = w.tok.requests q) ∧
      (∀ id, s.syncRequests id = w.tok.requests ⟨.sync, id⟩) ∧
      (∀ id r, w.tok.diskResponses.Has (id, r) → s.disk.responses id = some r) ∧
      s.disk.content = w.disk.content := by
  obtain ⟨s, hs, hc⟩ := core_reachable h hf none (fun _ h => by cases h)
  refine ⟨s, hob.reachable hs, hc.program, ?_, ?_, ?_, by rw [hc.disk]; rfl⟩
  · intro q hq; rw [hc.reqs, lift_eq.mpr ⟨hq, rfl⟩]; simp
  · intro id; rw [hc.syncs]; simp
  · intro id r hr
    have := MSet.toMap_of_has (ids h).dresp hr
    rw [hc.disk]
    simp only [view, PMap.unionRight]
    have hno := ((ids h).drespOut _ hr).2
    have : w.disk.responses id = none := by
      cases hd : w.disk.responses id with
      | none => rfl
      | some v => exact absurd (by simp [PMap.Has, hd]) hno
    simp [this, *]

/-- The state promised for a request that is no sync request is never the state that belongs to the
tokens: no reachable state of the system model has the id among both kinds of requests. -/
theorem promise_other_world {q : TRequest} {s : SysState P} (hs : (sysMachine prog g).Reachable s)
    (hq : s.requests.Has q.mapspec) : ¬ s.syncRequests.Has q.id := ids_apart hs _ hq

/-! ### Concrete cases -/

/-- Reachability is an invariant in the sense of the obligation, the strongest one. -/
theorem reachable_obligation (prog : Program P) (g : Geometry) :
    Obligation prog g (sysMachine prog g).Reachable :=
  ⟨fun s hs => ⟨[], s, hs, .nil _⟩, fun _ _ _ ⟨_, hi⟩ hn => ⟨_, hi.snoc hn⟩⟩

/-- At the start of the demo run a no-op and a sync request are received: both tokens are held, both
promises hold, in one lifetime of the code as written. -/
theorem demo (c : Codec) (g : Geometry) :
    ∃ (tr : List Event) (w : World AtomicState), (machine (concrete c) g asWritten).Exec tr w ∧
      Forward asWritten tr ∧ w.tok.requests.Has ⟨.noop, 0⟩ ∧ w.tok.requests.Has ⟨.sync, 1⟩ ∧
      (∃ s, (sysMachine (concrete c) g).Reachable s ∧ s.program = w.tok.model ∧ s.syncRequests.Has 0) ∧
      (∃ s, (sysMachine (concrete c) g).Reachable s ∧ s.program = w.tok.model ∧
        s.requests.Has (⟨.noop, 0⟩ : TRequest).mapspec ∧ ¬ s.syncRequests.Has 0 ∧ s.syncRequests.Has 1) := by
  have he : (machine (concrete c) g asWritten).Exec
      ([] ++ [.receive ⟨.noop, 0⟩] ++ [.receive ⟨.sync, 1⟩]) _ :=
    asked_exec ⟨start c, start_init c,
      (Machine.Run.nil (M := askedMachine c g asWritten) (start c)).append
        (run_receive (m := _) ⟨.noop, 0⟩ (by decide)) |>.append (run_receive ⟨.sync, 1⟩ (by decide))⟩
  have hf : Forward asWritten ([] ++ [.receive ⟨.noop, 0⟩] ++ [.receive ⟨.sync, 1⟩]) := .inr (by simp)
  refine ⟨_, _, he, hf, MSet.has_insert.mpr (.inr (MSet.has_insert.mpr (.inl rfl))),
    MSet.has_insert.mpr (.inl rfl), ?_, ?_⟩
  · exact request_promise (q := ⟨.noop, 0⟩) (reachable_obligation _ _) he hf
      (MSet.has_insert.mpr (.inr (MSet.has_insert.mpr (.inl rfl))))
  · obtain ⟨s, hi, hp, hr, hsy, _, _⟩ := actual_state (reachable_obligation _ _) he hf
    have hn : s.requests.Has (⟨.noop, 0⟩ : TRequest).mapspec := by
      unfold MSet.Has; rw [hr ⟨.noop, 0⟩ (by simp)]
      simp [idle, MSet.insert, MSet.empty]
    refine ⟨s, hi, hp, hn, promise_other_world (q := ⟨.noop, 0⟩) hi hn, ?_⟩
    unfold MSet.Has; rw [hsy]; simp [idle, MSet.insert, MSet.empty]

/-- The same for the full demo run, across its crash, with ids that are not given out again. -/
theorem demo_run (c : Codec) (g : Geometry) (hg : sbAddr.wf g) {inv : SysState AtomicState → Prop}
    (hob : Obligation (concrete c) g inv) : ∃ s, inv s ∧ s.program = ready1 :=
  let ⟨s, h1, h2, _⟩ := response_promise hob (asked_exec (demo_exec c g hg)) (.inl fun n => Nat.le_refl n)
  ⟨s, h1, h2⟩

end Verif.C52
