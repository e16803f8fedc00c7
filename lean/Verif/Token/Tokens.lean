import Verif.Impl.System
/-
What an executable program may do with the tokens its trusted wrapper hands it, for any program
model. Models Splinter/src/trusted/{ReqReply_t,ProgramModelTrait_t,SystemModel_t,KVStoreTokenized_t,
ClientAPI_t}.rs and the functions of Splinter/src/implementation/MultisetMapRelation_v.rs.

`Impl/System.lean` has SystemModel for the one program model of /repo, with the disk labels already
turned into maps; here the program model is a parameter, as in the source.
-/
namespace Verif

namespace MSet
variable {α : Type}

/-- vstd `m.add(n)` -/
def add (m n : MSet α) : MSet α := fun x => m x + n x

/-- vstd `m.sub(n)` -/
def sub (m n : MSet α) : MSet α := fun x => m x - n x

/-- vstd `m.subset_of(n)` -/
def Le (m n : MSet α) : Prop := ∀ x, m x ≤ n x

/-- vstd `Multiset::singleton(x)`; MultisetMapRelation_v.rs 131-134 `multiset_map_singleton` -/
def single [DecidableEq α] (x : α) : MSet α := (empty : MSet α).insert x

variable {K V : Type}

/-- MultisetMapRelation_v.rs 24-28 `unique_keys` -/
def UniqueKeys (m : MSet (K × V)) : Prop :=
  m.Single ∧ ∀ p q : K × V, m.Has p → m.Has q → p.1 = q.1 → p = q

open Classical in
/-- MultisetMapRelation_v.rs 14-20 `multiset_to_map`: of several pairs with one key some pair is
picked -/
noncomputable def toMap (m : MSet (K × V)) : PMap K V :=
  fun k => if h : ∃ v, m.Has (k, v) then some (Classical.choose h) else none

end MSet

namespace Tok
open AsyncDisk (Req Resp)

/-! ### Requests and replies of the client -/

/-- ReqReply_t.rs 15-20 `Input`: those of the map, and sync -/
inductive TInput
  | query (key : Key)
  | put (key : Key) (value : Value)
  | sync
  | noop
  deriving DecidableEq

/-- ReqReply_t.rs 25-31 `Output` -/
inductive TOutput
  | query (value : Value)
  | put
  | sync
  | noop
  deriving DecidableEq

/-- ReqReply_t.rs 34-37 `Request` -/
structure TRequest where
  input : TInput
  id : ReqId
  deriving DecidableEq

/-- ReqReply_t.rs 52-55 `Reply` -/
structure TReply where
  output : TOutput
  id : ReqId
  deriving DecidableEq

/-- ReqReply_t.rs 40-48 `Request::mapspec_req`: a sync becomes a no-op -/
def TRequest.mapspec (r : TRequest) : Request :=
  { id := r.id
    input := match r.input with
      | .query k => .query k
      | .put k v => .put k v
      | _ => .noop }

/-- ReqReply_t.rs 58-66 `Reply::mapspec_reply`: likewise -/
def TReply.mapspec (r : TReply) : Reply :=
  { id := r.id
    output := match r.output with
      | .query v => .query v
      | .put => .put
      | _ => .noop }

/-! ### Program models and the system they run in -/

/-- ProgramModelTrait_t.rs 23-35 `ProgramUserOp` -/
inductive UserOp
  | execute (req : Request) (reply : Reply)
  | acceptSync (id : SyncReqId)
  | deliverSync (id : SyncReqId)

/-- ProgramModelTrait_t.rs 37-53 `ProgramLabel`, with `ProgramDiskInfo` -/
inductive PLabel
  | user (op : UserOp)
  | disk (reqs : MSet (Nat × Req)) (resps : MSet (Nat × Resp))
  | internal

/-- ProgramModelTrait_t.rs 55-59 `ProgramModelTrait` -/
structure Program (P : Type) where
  mkfs : AsyncDisk.State → Prop
  init : P → Prop
  next : P → PLabel → P → Prop

/-- SystemModel_t.rs 24-40, for any program -/
structure SysState (P : Type) where
  program : P
  disk : AsyncDisk.State
  requests : MSet Request
  replies : MSet Reply
  syncRequests : MSet SyncReqId
  syncReplies : MSet SyncReqId
  idHistory : MSet ReqId

/-- SystemModel_t.rs 44-69. `DiskInternal` is split as in `AsyncDisk.Event`. -/
inductive SysLabel
  | acceptRequest (req : Request)
  | deliverReply (reply : Reply)
  | acceptSync (id : SyncReqId)
  | deliverSync (id : SyncReqId)
  | user (op : UserOp)
  | programDisk (reqs : MSet (Nat × Req)) (resps : MSet (Nat × Resp))
  | programInternal
  | diskRead (id : Nat) (a : Address) (d : RawPage)
  | diskWrite (id : Nat) (a : Address) (d : RawPage)
  | crash
  | noop

/-- SystemModel_t.rs 70-81 `initialize` -/
structure SysInit {P : Type} (prog : Program P) (s : SysState P) : Prop where
  mkfs : prog.mkfs s.disk
  program : prog.init s.program
  requests : s.requests = MSet.empty
  replies : s.replies = MSet.empty
  syncRequests : s.syncRequests = MSet.empty
  syncReplies : s.syncReplies = MSet.empty
  idHistory : s.idHistory = MSet.empty

/-- SystemModel_t.rs 92-197 -/
inductive SysNext {P : Type} (prog : Program P) (g : Geometry) :
    SysState P → SysLabel → SysState P → Prop
  /-- 92-97 -/
  | acceptRequest {s : SysState P} {req} (hf : ¬ s.idHistory.Has req.id) :
      SysNext prog g s (.acceptRequest req)
        { s with requests := s.requests.insert req, idHistory := s.idHistory.insert req.id }
  /-- 100-104 -/
  | deliverReply {s : SysState P} {reply} (h : s.replies.Has reply) :
      SysNext prog g s (.deliverReply reply) { s with replies := s.replies.remove reply }
  /-- 106-116 -/
  | execute {s : SysState P} {req reply p'} (h : s.requests.Has req)
      (hp : prog.next s.program (.user (.execute req reply)) p') :
      SysNext prog g s (.user (.execute req reply))
        { s with
          program := p'
          requests := s.requests.remove req
          replies := s.replies.insert reply }
  /-- 124-129 -/
  | acceptSync {s : SysState P} {id} (hf : ¬ s.idHistory.Has id) :
      SysNext prog g s (.acceptSync id)
        { s with syncRequests := s.syncRequests.insert id, idHistory := s.idHistory.insert id }
  /-- 131-138 -/
  | programAcceptSync {s : SysState P} {id p'} (hp : prog.next s.program (.user (.acceptSync id)) p') :
      SysNext prog g s (.user (.acceptSync id))
        { s with program := p', syncRequests := s.syncRequests.remove id }
  /-- 140-147 -/
  | programDeliverSync {s : SysState P} {id p'}
      (hp : prog.next s.program (.user (.deliverSync id)) p') :
      SysNext prog g s (.user (.deliverSync id))
        { s with program := p', syncReplies := s.syncReplies.insert id }
  /-- 150-154 -/
  | deliverSync {s : SysState P} {id} (h : s.syncReplies.Has id) :
      SysNext prog g s (.deliverSync id) { s with syncReplies := s.syncReplies.remove id }
  /-- 156-169 -/
  | programDisk {s : SysState P} {rq rs p' d'} (hp : prog.next s.program (.disk rq rs) p')
      (hd : AsyncDisk.Next g s.disk (.ops rq.toMap rs.toMap) d') :
      SysNext prog g s (.programDisk rq rs) { s with program := p', disk := d' }
  /-- 171-175 -/
  | programInternal {s : SysState P} {p'} (hp : prog.next s.program .internal p') :
      SysNext prog g s .programInternal { s with program := p' }
  /-- 177-181, processing a read -/
  | diskRead {s : SysState P} {id a d d'} (hd : AsyncDisk.Next g s.disk (.didRead id a d) d') :
      SysNext prog g s (.diskRead id a d) { s with disk := d' }
  /-- 177-181, processing a write -/
  | diskWrite {s : SysState P} {id a d d'} (hd : AsyncDisk.Next g s.disk (.didWrite id a d) d') :
      SysNext prog g s (.diskWrite id a d) { s with disk := d' }
  /-- 183-193 -/
  | crash {s : SysState P} {p' d'} (hp : prog.init p') (hd : AsyncDisk.Next g s.disk .crash d') :
      SysNext prog g s .crash
        { s with
          program := p'
          disk := d'
          requests := MSet.empty
          replies := MSet.empty
          syncRequests := MSet.empty }
  /-- 195-197 -/
  | noop {s : SysState P} : SysNext prog g s .noop s

def sysMachine {P : Type} (prog : Program P) (g : Geometry) : Machine (SysState P) SysLabel :=
  ⟨SysInit prog, SysNext prog g⟩

/-! ### The token machine -/

/-- KVStoreTokenized_t.rs 14-35: the shards -/
structure Tokens (P : Type) where
  model : P
  requests : MSet TRequest
  replies : MSet TReply
  diskRequests : MSet (Nat × Req)
  diskResponses : MSet (Nat × Resp)

/-- KVStoreTokenized_t.rs 37-46 -/
inductive TLabel
  | execute (req : TRequest) (reply : TReply)
  | internal
  | requestSync (id : SyncReqId)
  | replySync (id : SyncReqId)
  | disk (reqs : MSet (Nat × Req)) (resps : MSet (Nat × Resp))

/-- KVStoreTokenized_t.rs 48-57 `initialize` -/
structure TokInit {P : Type} (prog : Program P) (t : Tokens P) : Prop where
  model : prog.init t.model
  requests : t.requests = MSet.empty
  replies : t.replies = MSet.empty
  diskRequests : t.diskRequests = MSet.empty
  diskResponses : t.diskResponses = MSet.empty

/-- KVStoreTokenized_t.rs 61-114: the transitions, each of which the program may take when it holds
the tokens removed -/
inductive TokNext {P : Type} (prog : Program P) : Tokens P → TLabel → Tokens P → Prop
  /-- 61-65 -/
  | internal {t : Tokens P} {p'} (hp : prog.next t.model .internal p') :
      TokNext prog t .internal { t with model := p' }
  /-- 67-78 -/
  | execute {t : Tokens P} {req reply p'} (hi : req.input ≠ .sync) (h : t.requests.Has req)
      (hp : prog.next t.model (.user (.execute req.mapspec reply.mapspec)) p') :
      TokNext prog t (.execute req reply)
        { t with
          model := p'
          requests := t.requests.remove req
          replies := t.replies.insert reply }
  /-- 79-92 -/
  | disk {t : Tokens P} {rq rs p'} (h : rs.Le t.diskResponses)
      (hp : prog.next t.model (.disk rq rs) p') :
      TokNext prog t (.disk rq rs)
        { t with
          model := p'
          diskRequests := t.diskRequests.add rq
          diskResponses := t.diskResponses.sub rs }
  /-- 94-104 -/
  | requestSync {t : Tokens P} {id p'} (h : t.requests.Has ⟨.sync, id⟩)
      (hp : prog.next t.model (.user (.acceptSync id)) p') :
      TokNext prog t (.requestSync id)
        { t with model := p', requests := t.requests.remove ⟨.sync, id⟩ }
  /-- 106-114 -/
  | replySync {t : Tokens P} {id p'} (hp : prog.next t.model (.user (.deliverSync id)) p') :
      TokNext prog t (.replySync id)
        { t with model := p', replies := t.replies.insert ⟨.sync, id⟩ }

/-! ### The program between its client and its disk -/

/-- The tokens, the disk, and the counter of the client API (ClientAPI_t.rs 28-32) from which both the
ids of requests and the ids of disk requests are taken. -/
structure World (P : Type) where
  tok : Tokens P
  disk : AsyncDisk.State
  next : Nat

/-- What happens at the client API, in the program, in the disk. -/
inductive Event
  | receive (req : TRequest)
  | send (reply : TReply)
  | sendDisk (id : Nat) (req : Req)
  | receiveDisk (id : Nat) (resp : Resp)
  | prog (l : TLabel)
  | didRead (id : Nat) (a : Address) (d : RawPage)
  | didWrite (id : Nat) (a : Address) (d : RawPage)
  | crash

/-- ClientAPI_t.rs 111-116 `send_disk_request_predict_id` with 118-129 `send_disk_request`: the ids of
request tokens are predictions of the counter at the moment they are sent. The source states no
relation between the prediction and anything else, but promises (125) that it comes true; so
predictions name ids not handed out yet, no id twice. -/
def Predicted {P : Type} (w : World P) : TLabel → Prop
  | .disk rq _ => (∀ x, rq.Has x → w.next ≤ x.1) ∧ (w.tok.diskRequests.add rq).UniqueKeys
  | _ => True

/-- The composition. `restart` says where the counter starts after a crash: ClientAPI_t.rs 54 starts
it at 0. -/
inductive Step {P : Type} (prog : Program P) (g : Geometry) (restart : Nat → Nat) :
    World P → Event → World P → Prop
  /-- ClientAPI_t.rs 64-81 `receive_request` (83-95 `receive_noop_request` is the case of a no-op):
  the id is the counter, as long as it does not wrap. `hp`: a prediction that this id goes to a disk
  request would become false. -/
  | receive {w : World P} {req} (hid : req.id.toNat = w.next)
      (hp : ∀ x, w.tok.diskRequests.Has x → x.1 ≠ w.next) :
      Step prog g restart w (.receive req)
        { w with
          tok := { w.tok with requests := w.tok.requests.insert req }
          next := w.next + 1 }
  /-- ClientAPI_t.rs 98-109 `send_reply` -/
  | send {w : World P} {reply} (h : w.tok.replies.Has reply) :
      Step prog g restart w (.send reply)
        { w with tok := { w.tok with replies := w.tok.replies.remove reply } }
  /-- ClientAPI_t.rs 118-129 `send_disk_request` -/
  | sendDisk {w : World P} {r d'} (h : w.tok.diskRequests.Has (w.next, r))
      (hd : AsyncDisk.Next g w.disk (.ops (one w.next r) PMap.empty) d') :
      Step prog g restart w (.sendDisk w.next r)
        { tok := { w.tok with diskRequests := w.tok.diskRequests.remove (w.next, r) }
          disk := d'
          next := w.next + 1 }
  /-- ClientAPI_t.rs 131-142 `receive_disk_response`, whose body is a stub: here it hands out a response
  of the disk -/
  | receiveDisk {w : World P} {id r d'}
      (hd : AsyncDisk.Next g w.disk (.ops PMap.empty (one id r)) d') :
      Step prog g restart w (.receiveDisk id r)
        { w with
          tok := { w.tok with diskResponses := w.tok.diskResponses.insert (id, r) }
          disk := d' }
  | prog {w : World P} {l t'} (hp : Predicted w l) (h : TokNext prog w.tok l t') :
      Step prog g restart w (.prog l) { w with tok := t' }
  | didRead {w : World P} {id a d d'} (hd : AsyncDisk.Next g w.disk (.didRead id a d) d') :
      Step prog g restart w (.didRead id a d) { w with disk := d' }
  | didWrite {w : World P} {id a d d'} (hd : AsyncDisk.Next g w.disk (.didWrite id a d) d') :
      Step prog g restart w (.didWrite id a d) { w with disk := d' }
  /-- a restart makes a new instance of the token machine, none of the tokens survive -/
  | crash {w : World P} {t' d'} (ht : TokInit prog t') (hd : AsyncDisk.Next g w.disk .crash d') :
      Step prog g restart w .crash { tok := t', disk := d', next := restart w.next }

structure WorldInit {P : Type} (prog : Program P) (w : World P) : Prop where
  mkfs : prog.mkfs w.disk
  idle : w.disk.requests = PMap.empty ∧ w.disk.responses = PMap.empty
  tok : TokInit prog w.tok
  next : w.next = 0

def machine {P : Type} (prog : Program P) (g : Geometry) (restart : Nat → Nat) :
    Machine (World P) Event :=
  ⟨WorldInit prog, Step prog g restart⟩

/-- ClientAPI_t.rs 54 -/
def asWritten : Nat → Nat := fun _ => 0

/-- the counter goes on where it was -/
def keepOn : Nat → Nat := fun n => n

/-! ### Translation of events to the system model's -/

def toSys : Event → SysLabel
  | .receive ⟨.sync, id⟩ => .acceptSync id
  | .receive r => .acceptRequest r.mapspec
  | .send ⟨.sync, id⟩ => .deliverSync id
  | .send r => .deliverReply r.mapspec
  | .sendDisk _ _ => .noop
  | .receiveDisk _ _ => .noop
  | .prog (.execute req reply) => .user (.execute req.mapspec reply.mapspec)
  | .prog .internal => .programInternal
  | .prog (.requestSync id) => .user (.acceptSync id)
  | .prog (.replySync id) => .user (.deliverSync id)
  | .prog (.disk rq rs) => .programDisk rq rs
  | .didRead id a d => .diskRead id a d
  | .didWrite id a d => .diskWrite id a d
  | .crash => .crash

end Tok
end Verif
