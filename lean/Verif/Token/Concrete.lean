import Verif.Token.Refine
import Verif.Impl.SystemProof
/-
The program model of /repo as an instance, and the link to the system of `Impl/System.lean`.
Models Splinter/src/implementation/ConcreteProgramModel_v.rs 27-66 on top of `AtomicState`.
-/
namespace Verif.Tok
open AsyncDisk (Req Resp)

/-- ConcreteProgramModel_v.rs 40-66 `next` with AtomicState_v.rs 95-220. The multisets of a disk step
are singletons or empty in the source; `AtomicState.DiskTransition` has the maps they stand for, and
a multiset with unique keys is given by its map. -/
def concreteNext (c : Codec) (p : AtomicState) : PLabel → AtomicState → Prop
  | .user (.execute req reply), p' => AtomicState.MapTransition p req reply p'
  | .user (.acceptSync id), p' => AtomicState.AcceptSync p id p'
  | .user (.deliverSync id), p' => AtomicState.DeliverSync p id p'
  | .disk rq rs, p' => rq.UniqueKeys ∧ rs.UniqueKeys ∧ AtomicState.DiskTransition c p rq.toMap rs.toMap p'
  | .internal, p' => p.clientReady ∧ p' = p

/-- ConcreteProgramModel_v.rs 26-66 -/
def concrete (c : Codec) : Program AtomicState where
  mkfs d := d.content sbAddr = some (c.marshall ⟨TotalKMMap.empty, 0⟩) ∧
    d.requests = PMap.empty ∧ d.responses = PMap.empty
  init p := p.Init
  next := concreteNext c

/-- the same state in the vocabulary of `Impl/System.lean` -/
def toOld (s : SysState AtomicState) : Sys.State :=
  { program := s.program
    disk := s.disk
    requests := s.requests
    replies := s.replies
    syncRequests := s.syncRequests
    syncReplies := s.syncReplies
    idHistory := s.idHistory }

/-- the same event in the vocabulary of `Impl/System.lean` -/
noncomputable def toOldLabel : SysLabel → Sys.Label
  | .acceptRequest req => .acceptRequest req
  | .deliverReply reply => .deliverReply reply
  | .acceptSync id => .acceptSync id
  | .deliverSync id => .deliverSync id
  | .user (.execute req reply) => .execute req reply
  | .user (.acceptSync id) => .programAcceptSync id
  | .user (.deliverSync id) => .programDeliverSync id
  | .programDisk rq rs => .programDisk rq.toMap rs.toMap
  | .programInternal => .programInternal
  | .diskRead id a d => .diskRead id a d
  | .diskWrite id a d => .diskWrite id a d
  | .crash => .crash
  | .noop => .noop

theorem old_init {c s} (h : SysInit (concrete c) s) : Sys.Init c (toOld s) :=
  ⟨h.mkfs.1, h.mkfs.2.1, h.mkfs.2.2, h.program, h.requests, h.replies, h.syncRequests, h.syncReplies,
    h.idHistory⟩

theorem old_step {c g s l s'} (h : SysNext (concrete c) g s l s') :
    Sys.Next c g (toOld s) (toOldLabel l) (toOld s') := by
  cases h with
  | acceptRequest hf => exact .acceptRequest (s := toOld s) hf
  | deliverReply h => exact .deliverReply (s := toOld s) h
  | execute h hp => exact .execute (s := toOld s) h hp
  | acceptSync hf => exact .acceptSync (s := toOld s) hf
  | programAcceptSync hp => exact .programAcceptSync (s := toOld s) hp
  | programDeliverSync hp => exact .programDeliverSync (s := toOld s) hp
  | deliverSync h => exact .deliverSync (s := toOld s) h
  | programDisk hp hd => exact .programDisk (s := toOld s) hp.2.2 hd
  | programInternal hp => obtain ⟨h1, rfl⟩ := hp; exact .programInternal (s := toOld s) h1
  | diskRead hd => exact .diskRead (s := toOld s) hd
  | diskWrite hd => exact .diskWrite (s := toOld s) hd
  | crash hp hd => exact .crash (s := toOld s) hp hd
  | noop => exact .noop

/-- an event in the vocabulary of `Impl/System.lean` -/
noncomputable def toSystem (e : Event) : Sys.Label := toOldLabel (toSys e)

theorem sys_exec {c g restart tr} {w : World AtomicState}
    (h : (machine (concrete c) g restart).Exec tr w) (hf : Forward restart tr) (hpl : ∀ e ∈ tr, Plain e) :
    ∃ s, (Sys.machine c g).Exec (tr.map toSystem) s := by
  obtain ⟨s, hs, _⟩ := core_exec h hf hpl
  obtain ⟨t, ht, _⟩ := Machine.refine (M := sysMachine (concrete c) g) (N := Sys.machine c g) toOldLabel
    (fun s t => t = toOld s) (fun s hs => ⟨_, old_init hs, rfl⟩)
    (fun s l s' t hr hs => ⟨_, hr ▸ old_step hs, rfl⟩) hs
  refine ⟨t, ?_⟩
  rw [List.map_map] at ht; exact ht

/-- The program answers only sync requests it has taken and not answered yet (the executable code takes
them from its buffer, Implementation_v.rs 565-594). KVStoreTokenized_t.rs 106-114 does not ask this. -/
def Asked (w : World AtomicState) : Event → Prop
  | .prog (.replySync id) => w.tok.model.syncReqs.Has id
  | _ => True

def askedMachine (c : Codec) (g : Geometry) (restart : Nat → Nat) : Machine (World AtomicState) Event :=
  ⟨WorldInit (concrete c), fun w e w' => Step (concrete c) g restart w e w' ∧ Asked w e⟩

theorem asked_run {c g restart} {w w' : World AtomicState} {tr}
    (h : (askedMachine c g restart).Run w tr w') : (machine (concrete c) g restart).Run w tr w' := by
  induction h with
  | nil => exact .nil _
  | cons hs _ ih => exact .cons hs.1 ih

theorem asked_exec {c g restart} {w : World AtomicState} {tr}
    (h : (askedMachine c g restart).Exec tr w) : (machine (concrete c) g restart).Exec tr w := by
  obtain ⟨w0, hi, hr⟩ := h; exact ⟨w0, hi, asked_run hr⟩

theorem guard_of {c g restart} {w w' : World AtomicState} {e s} (hc : Core none w s)
    (hs : Step (concrete c) g restart w e w') (ha : Asked w e) : Sys.Guard (toOld s) (toSystem e) := by
  cases hs with
  | @receive req _ _ => obtain ⟨i, id⟩ := req; cases i <;> trivial
  | @send reply _ => obtain ⟨i, id⟩ := reply; cases i <;> trivial
  | prog hp ht =>
    cases ht with
    | requestSync hh hn =>
      show s.syncRequests.Has _
      unfold MSet.Has; rw [hc.syncs]; exact hh
    | replySync hn =>
      show s.program.syncReqs.Has _
      rw [hc.program]; exact ha
    | _ => trivial
  | _ => trivial

theorem strict_sys_exec {c g restart tr} {w : World AtomicState}
    (h : (askedMachine c g restart).Exec tr w) (hf : Forward restart tr) (hpl : ∀ e ∈ tr, Plain e) :
    ∃ s, (Sys.strictMachine c g).Exec (tr.map toSystem) s := by
  have := Machine.exec_invariant (M := askedMachine c g restart)
    (I := fun tr w => Ids w ∧ (Forward restart tr → (∀ e ∈ tr, Plain e) →
      ∃ s, (Sys.strictMachine c g).Exec (tr.map toSystem) (toOld s) ∧ Core none w s ∧ Ans w s))
    ?_ ?_ h
  · obtain ⟨s, hs, _⟩ := this.2 hf hpl; exact ⟨_, hs⟩
  · intro w hw
    refine ⟨ids_clear hw.tok hw.idle.1 hw.idle.2, ?_⟩
    intro _ _
    obtain ⟨s, hi, hc, ha⟩ := core_init hw
    exact ⟨s, ⟨toOld s, old_init hi, .nil _⟩, hc, ha⟩
  · intro tr w e w' ⟨hids, hI⟩ ⟨hs, hask⟩
    refine ⟨hids.step hs, ?_⟩
    intro hf hpl
    obtain ⟨s, hex', hc, ha⟩ := hI hf.of_snoc (fun e he => hpl e (by simp [he]))
    obtain ⟨s', hs', h1, h2⟩ := core_step hids hc ha hs (hpl e (by simp)) (hf.last _)
    rw [List.map_append]
    exact ⟨s', hex'.snoc ⟨old_step hs', guard_of hc hs hask⟩, h1, h2⟩

end Verif.Tok
