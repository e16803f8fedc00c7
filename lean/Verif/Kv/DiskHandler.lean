import Verif.Kv.ByteDisk
import Verif.Base.AList
/-
`DiskIOHandler` (framework/Framework.cpp:54-445), the code between the program and the operating system: writes
go out asynchronously, at most eight at a time, in whole sectors; reads are made at once. It is not verified in
the repository, which trusts that it acts as `AsyncDisk`.
Simplifications: `uint64` and `int` are natural numbers. A call of the operating system that fails ends the
program (`fail`), and so is no step. The file is opened with `O_DSYNC`: what is written is on the disk.
`LOG_QUERY_STATS` and the accounting of memory are left out.
-/
namespace Verif.Kv.DiskHandler
open ByteDisk (Data Op padLen AllCheck Covers)

/-- `MAX_WRITE_REQS_OUT`, Framework.cpp:54 -/
def maxOut : Nat := 8

/-- The size of a file cannot exceed the largest `off_t`: writes beyond fail with `EFBIG` or `EINVAL`. -/
def maxFile : Nat := 2 ^ 63

/-- `WriteTask`, Framework.cpp:82-171. `aligned_bytes` is the bytes of `data` and then `pad`, which
`aligned_copy` (:69-76) left as `malloc` gave them. `finished` is the operating system's: `aio_error` gives 0. -/
structure Task where
  data : Data
  pad : List UInt8
  madeReq : Bool
  done : Bool
  finished : Bool

/-- What is written. -/
def Task.full (t : Task) : Data := ⟨t.data.addr, t.data.bytes ++ t.pad⟩

/-- `DiskIOHandler`, Framework.h:139-175, with the globals `nWriteReqsOut` and `nWriteReqsWaiting`
(Framework.cpp:79-80) and the file. The two `std::map`s are in the order of their keys, which are the ids given
out, so that a new entry is the last. -/
structure State where
  curId : ReqId
  writes : AList ReqId Task
  reads : AList ReqId Data
  nOut : Nat
  nWaiting : Nat
  file : List UInt8

/-- The constructor, Framework.cpp:237-252, in a new process -/
def opened (file : List UInt8) : State := ⟨0, [], [], 0, 0, file⟩

/-- `DiskIOHandler::write`, Framework.cpp:269-289, with the constructor of `WriteTask` (:97-119) and `start`
(:121-136) -/
def write (s : State) (w : Data) (p : List UInt8) : State :=
  if s.nOut < maxOut then
    { s with curId := s.curId + 1, writes := s.writes ++ [(s.curId, ⟨w, p, true, false, false⟩)], nOut := s.nOut + 1 }
  else
    { s with curId := s.curId + 1, writes := s.writes ++ [(s.curId, ⟨w, p, false, false, false⟩)],
             nWaiting := s.nWaiting + 1 }

/-- `check_if_complete`, Framework.cpp:154-168, and `nWriteReqsOut` -/
def check (t : Task) (n : Nat) : Task × Nat :=
  if t.done = false ∧ t.madeReq = true ∧ t.finished = true then ({ t with done := true }, n - 1) else (t, n)

/-- The loop of `maybeStartWriteReq`, Framework.cpp:363-372 -/
def startAll : AList ReqId Task → Nat → Nat → AList ReqId Task × Nat × Nat
  | [], out, waiting => ([], out, waiting)
  | (id, t) :: rest, out, waiting =>
    if 0 < waiting ∧ out < maxOut then
      if t.madeReq = true then
        let r := startAll rest out waiting
        ((id, t) :: r.1, r.2)
      else
        let r := startAll rest (out + 1) (waiting - 1)
        ((id, { t with madeReq := true }) :: r.1, r.2)
    else ((id, t) :: rest, out, waiting)

/-- `maybeStartWriteReq`, Framework.cpp:363-372 -/
def maybeStart (s : State) : State :=
  let r := startAll s.writes s.nOut s.nWaiting
  { s with writes := r.1, nOut := r.2.1, nWaiting := r.2.2 }

/-- The loop of `prepareWriteResponse`, Framework.cpp:374-389: the write that is answered, and the others. -/
def findDone : AList ReqId Task → Nat → Option ((ReqId × Task) × AList ReqId Task × Nat)
  | [], _ => none
  | (id, t) :: rest, n =>
    let c := check t n
    if c.1.done = true then some ((id, c.1), rest, c.2)
    else (findDone rest c.2).map fun r => (r.1, (id, c.1) :: r.2.1, r.2.2)

/-- `prepareWriteResponse`, Framework.cpp:374-389 -/
def prepareWrite (s : State) : Option (ReqId × Loc × State) :=
  (findDone s.writes s.nOut).map fun r =>
    (r.1.1, r.1.2.data.loc, maybeStart { s with writes := r.2.1, nOut := r.2.2 })

/-- The loop of `completeWriteTasks`, Framework.cpp:397-407, as far as it changes anything -/
def checkAll : AList ReqId Task → Nat → AList ReqId Task × Nat
  | [], n => ([], n)
  | (id, t) :: rest, n =>
    let c := check t n
    let r := checkAll rest c.2
    ((id, c.1) :: r.1, r.2)

/-- A write of which the outcome is not known. -/
def Task.out (t : Task) : Bool := t.madeReq && !t.done

/-- `i` of `completeWriteTasks` and `waitForOne`, Framework.cpp:395, 425 -/
def outs (ws : AList ReqId Task) : Nat := ws.countP fun x => x.2.out

/-- `any_not_started` is set, Framework.cpp:405 -/
def notStarted (ws : AList ReqId Task) : Prop := ∃ x ∈ ws, x.2.done = false ∧ x.2.madeReq = false

/-- The file filled up to a length. -/
def fill (file : List UInt8) (n : Nat) : List UInt8 := file ++ List.replicate (n - file.length) 0

/-- Bytes are written in a file, which may grow. -/
def pwrite (file : List UInt8) (addr : Nat) (bytes : List UInt8) : List UInt8 :=
  (fill file addr).take addr ++ bytes ++ file.drop (addr + bytes.length)

/-- What the operating system does with the writes it was given. -/
inductive Os : State → State → Prop
  /-- A write is finished. -/
  | finish {s : State} {l1 l2 id t} : s.writes = l1 ++ (id, t) :: l2 → t.madeReq = true → t.finished = false →
      t.data.addr + t.full.bytes.length ≤ maxFile →
      Os s { s with writes := l1 ++ (id, { t with finished := true }) :: l2
                    file := pwrite s.file t.data.addr t.full.bytes }
  /-- Something of a write of more than a sector is in the file. -/
  | part {s : State} {l1 l2 id t f} : s.writes = l1 ++ (id, t) :: l2 → t.madeReq = true → t.finished = false →
      t.data.addr + t.full.bytes.length ≤ maxFile → 4096 < t.data.bytes.length →
      s.file.length ≤ f.length → f.length ≤ max s.file.length (t.data.addr + t.full.bytes.length) →
      (∀ i, ¬ Covers t.full i → f[i]?.getD 0 = s.file[i]?.getD 0) →
      Os s { s with file := f }

/-- The operating system goes on for a while. -/
inductive OsRun : State → State → Prop
  | nil {s} : OsRun s s
  | cons {s s' s''} : Os s s' → OsRun s' s'' → OsRun s s''

/-- The calls of the program, with what they ask or answer. -/
inductive Call (crc : List UInt8 → List UInt8) : State → Op → State → Prop
  /-- `write` -/
  | write {s w p} : p.length = padLen w.bytes.length → Call crc s (.reqWrite s.curId w) (write s w p)
  /-- `write2`, Framework.cpp:260-267 -/
  | write2 {s w1 w2 p1 p2} : p1.length = padLen w1.bytes.length → p2.length = padLen w2.bytes.length →
      Call crc s (.reqWrite2 s.curId (s.curId + 1) w1 w2)
        (DiskHandler.write (DiskHandler.write s w1 p1) w2 p2)
  /-- `read`, Framework.cpp:291-332, with `readSync` (:230-235). What the disk gives back may be damaged, as the
  repository assumes it may (AsyncDiskModel.s.dfy:178-191). -/
  | read {s l bytes} : l.addr + l.len ≤ s.file.length →
      (bytes = ByteDisk.read s.file l ∨
        bytes.length = l.len ∧ AllCheck crc (ByteDisk.read s.file l) bytes) →
      Call crc s (.reqRead s.curId l)
        { s with curId := s.curId + 1, reads := s.reads ++ [(s.curId, ⟨l.addr, bytes⟩)] }
  /-- `prepareReadResponse`, Framework.cpp:350-361, and `getReadResult` (:344-348) -/
  | readResponse {s id r rest} : s.reads = (id, r) :: rest →
      Call crc s (.respRead id r) { s with reads := rest }
  /-- `prepareWriteResponse` and `getWriteResult` (:338-342) -/
  | writeResponse {s id l s'} : prepareWrite s = some (id, l, s') → Call crc s (.respWrite id l) s'
  /-- The program asks nothing, and no answer is taken. -/
  | none {s} : Call crc s .none s

/-- `completeWriteTasks`, Framework.cpp:391-419; with no state after it, it ends the program. While it waits in
`aio_suspend` the operating system goes on. -/
inductive Complete : State → Option State → Prop
  | fails {s : State} : outs (checkAll s.writes s.nOut).1 = 0 → notStarted (checkAll s.writes s.nOut).1 →
      Complete s Option.none
  | ends {s : State} : outs (checkAll s.writes s.nOut).1 = 0 → ¬ notStarted (checkAll s.writes s.nOut).1 →
      Complete s (some { s with writes := (checkAll s.writes s.nOut).1, nOut := (checkAll s.writes s.nOut).2 })
  | again {s s1 r} : outs (checkAll s.writes s.nOut).1 ≠ 0 →
      OsRun { s with writes := (checkAll s.writes s.nOut).1, nOut := (checkAll s.writes s.nOut).2 } s1 →
      Complete (maybeStart s1) r → Complete s r

/-- `waitForOne`, Framework.cpp:420-442 -/
inductive WaitForOne : State → Option State → Prop
  | done {s : State} : (∃ x ∈ s.writes, x.2.done = true) → WaitForOne s (some s)
  | fails {s : State} : (∀ x ∈ s.writes, x.2.done = false) → outs s.writes = 0 → WaitForOne s Option.none
  | waits {s s1 : State} : (∀ x ∈ s.writes, x.2.done = false) → outs s.writes ≠ 0 → OsRun s s1 →
      WaitForOne s (some (maybeStart s1))

/-- Everything that happens at the handler in a process that does not end. -/
inductive Step (crc : List UInt8 → List UInt8) : State → Op → State → Prop
  | call {s dop s'} : Call crc s dop s' → Step crc s dop s'
  | os {s s'} : Os s s' → Step crc s .none s'
  | complete {s s'} : Complete s (some s') → Step crc s .none s'
  | waitForOne {s s'} : WaitForOne s (some s') → Step crc s .none s'

/-- The machine: a process on a file. -/
def machine (crc : List UInt8 → List UInt8) : Machine State Op :=
  ⟨fun s => ∃ file, file.length ≤ maxFile ∧ s = opened file, Step crc⟩

end Verif.Kv.DiskHandler
