import Verif.Kv.BlockDisk
/-
`AsyncDisk` (ByteBlockCacheSystem/AsyncDiskModel.s.dfy:18-260): the disk as a sequence of bytes with
requests in flight. This is the part of the system the repository trusts.
Simplification: `uint64` addresses and lengths are natural numbers. Every request the system makes is to
a valid location, which fits.

The same definitions also give the disk as the program meets it (`Kind.real`), which is weaker than the
repository's: framework/Framework.cpp writes whole sectors, with rubbish after the bytes it was given, and a
write of several sectors may be half done when the machine stops.
-/
namespace Verif.Kv.ByteDisk

/-- `ReqWrite` and `RespRead`, AsyncDiskModel.s.dfy:26-27. `ReqRead` and `RespWrite` (:25, :28) are
locations. -/
structure Data where
  addr : Nat
  bytes : List UInt8

/-- `LocOfReqWrite`, `LocOfRespRead`, InterpretationDiskOps.i.dfy:121-131 -/
def Data.loc (w : Data) : Loc := ⟨w.addr, w.bytes.length⟩

/-- Which disk. The disk as written in the repository is `⟨false, false⟩`. -/
structure Kind where
  /-- Reads may succeed: the step `ProcessRead`, which is commented out in the repository
  (AsyncDiskModel.s.dfy:140-147), is a step of the disk. -/
  good : Bool
  /-- Not in AsyncDiskModel.s.dfy: writes are filled up to whole sectors with rubbish, as
  `aligned_copy` (framework/Framework.cpp:57-77) does, and writes longer than a sector can be torn. -/
  real : Bool

instance : Coe Bool Kind := ⟨fun g => ⟨g, false⟩⟩

/-- How many bytes `aligned_copy` adds: `aligned_len - len`, framework/Framework.cpp:60, 70 -/
def padLen (n : Nat) : Nat := (4096 - n % 4096) % 4096

/-- What may be written after the bytes of a write. -/
def PadOk (kind : Kind) (w : Data) (p : List UInt8) : Prop :=
  p = [] ∨ (kind.real = true ∧ p.length = padLen w.bytes.length)

/-- `DiskOp`, AsyncDiskModel.s.dfy:30-37 -/
inductive Op
  | reqRead (id : ReqId) (l : Loc)
  | reqWrite (id : ReqId) (w : Data)
  | reqWrite2 (id1 id2 : ReqId) (w1 w2 : Data)
  | respRead (id : ReqId) (r : Data)
  | respWrite (id : ReqId) (l : Loc)
  | none

/-- `Variables`, AsyncDiskModel.s.dfy:39-48. Not there: `pads`, what is written after the bytes of each
write requested; nothing, on the disk as written. -/
structure State where
  reqReads : PMap ReqId Loc
  reqWrites : PMap ReqId Data
  respReads : PMap ReqId Data
  respWrites : PMap ReqId Loc
  contents : List UInt8
  pads : ReqId → List UInt8

/-- No rubbish. -/
def noPads : ReqId → List UInt8 := fun _ => []

/-- The rubbish of one more write. -/
def setPad (f : ReqId → List UInt8) (id : ReqId) (p : List UInt8) : ReqId → List UInt8 :=
  fun x => if x = id then p else f x

/-- What the write `id` puts on the disk. -/
def State.full (d : State) (id : ReqId) (w : Data) : Data := ⟨w.addr, w.bytes ++ d.pads id⟩

/-- `Init`, AsyncDiskModel.s.dfy:50-56 -/
structure Init (d : State) : Prop where
  reqReads : d.reqReads = .empty
  reqWrites : d.reqWrites = .empty
  respReads : d.respReads = .empty
  respWrites : d.respWrites = .empty

/-- `Next`, AsyncDiskModel.s.dfy:66-131, one constructor per step -/
inductive Next (kind : Kind) : State → Op → State → Prop
  /-- `RecvRead`, :66-72 -/
  | recvRead {d : State} {id l} : d.reqReads id = Option.none → d.respReads id = Option.none →
      Next kind d (.reqRead id l) { d with reqReads := d.reqReads.insert id l }
  /-- `RecvWrite`, :74-80 -/
  | recvWrite {d : State} {id w p} : d.reqWrites id = Option.none → d.respWrites id = Option.none →
      PadOk kind w p →
      Next kind d (.reqWrite id w)
        { d with reqWrites := d.reqWrites.insert id w, pads := setPad d.pads id p }
  /-- `RecvWrite2`, :82-94 -/
  | recvWrite2 {d : State} {id1 id2 w1 w2 p1 p2} :
      d.reqWrites id1 = Option.none → d.respWrites id1 = Option.none →
      d.reqWrites id2 = Option.none → d.respWrites id2 = Option.none → id1 ≠ id2 →
      PadOk kind w1 p1 → PadOk kind w2 p2 →
      Next kind d (.reqWrite2 id1 id2 w1 w2)
        { d with
          reqWrites := (d.reqWrites.insert id1 w1).insert id2 w2
          pads := setPad (setPad d.pads id1 p1) id2 p2 }
  /-- `AckRead`, :96-102 -/
  | ackRead {d : State} {id r} : d.respReads id = some r →
      Next kind d (.respRead id r) { d with respReads := d.respReads.remove id }
  /-- `AckWrite`, :104-110 -/
  | ackWrite {d : State} {id l} : d.respWrites id = some l →
      Next kind d (.respWrite id l) { d with respWrites := d.respWrites.remove id }
  /-- `Stutter`, :112-116 -/
  | stutter {d : State} : Next kind d .none d

/-- `s.contents[req.addr .. req.addr + req.len]` -/
def read (contents : List UInt8) (l : Loc) : List UInt8 := (contents.drop l.addr).take l.len

/-- `ChecksumChecksOut`, AsyncDiskModel.s.dfy:149-152 -/
def Checks (crc : List UInt8 → List UInt8) (s : List UInt8) : Prop :=
  32 ≤ s.length ∧ s.take 32 = crc (s.drop 32)

instance (crc : List UInt8 → List UInt8) (s : List UInt8) : Decidable (Checks crc s) :=
  inferInstanceAs (Decidable (_ ∧ _))

/-- `AllChecksumsCheckOut`, AsyncDiskModel.s.dfy:171-176, over `ChecksumsCheckOutForSlice` (:154-169):
the disk does not fail from one slice with a good checksum to another. -/
def AllCheck (crc : List UInt8 → List UInt8) (real fake : List UInt8) : Prop :=
  ∀ i j, i ≤ j → j ≤ real.length →
    Checks crc ((real.take j).drop i) → Checks crc ((fake.take j).drop i) →
    (real.take j).drop i = (fake.take j).drop i

/-- `splice`, AsyncDiskModel.s.dfy:193-198 -/
def splice (bytes : List UInt8) (start : Nat) (ins : List UInt8) : List UInt8 :=
  bytes.take start ++ ins ++ bytes.drop (start + ins.length)

/-- The position is one a write covers. -/
def Covers (w : Data) (i : Nat) : Prop := w.addr ≤ i ∧ i < w.addr + w.bytes.length

instance (w : Data) (i : Nat) : Decidable (Covers w i) := inferInstanceAs (Decidable (_ ∧ _))

/-- `NextInternal`, AsyncDiskModel.s.dfy:133-254, one constructor per step, and `tear`. -/
inductive Internal (crc : List UInt8 → List UInt8) (kind : Kind) : State → State → Prop
  /-- `ProcessRead`, :140-147, commented out in the repository -/
  | processRead {d : State} {id l} : kind.good = true → d.reqReads id = some l →
      l.addr + l.len ≤ d.contents.length →
      Internal crc kind d { d with
        reqReads := d.reqReads.remove id
        respReads := d.respReads.insert id ⟨l.addr, read d.contents l⟩ }
  /-- `ProcessReadFailure`, :178-191 -/
  | processReadFailure {d : State} {id l fake} : d.reqReads id = some l →
      l.addr + l.len ≤ d.contents.length → fake.length = (read d.contents l).length →
      fake ≠ read d.contents l → AllCheck crc (read d.contents l) fake →
      Internal crc kind d { d with
        reqReads := d.reqReads.remove id
        respReads := d.respReads.insert id ⟨l.addr, fake⟩ }
  /-- `ProcessWrite`, :200-210 -/
  | processWrite {d : State} {id w} : d.reqWrites id = some w →
      w.addr + (d.full id w).bytes.length ≤ d.contents.length →
      Internal crc kind d { d with
        reqWrites := d.reqWrites.remove id
        respWrites := d.respWrites.insert id w.loc
        contents := splice d.contents w.addr (d.full id w).bytes }
  /-- Not in AsyncDiskModel.s.dfy: a write of more than a sector is under way, and something of it has
  reached the disk. -/
  | tear {d : State} {id w cs} : kind.real = true → d.reqWrites id = some w → 4096 < w.bytes.length →
      cs.length = d.contents.length → (∀ i, ¬ Covers (d.full id w) i → cs[i]? = d.contents[i]?) →
      Internal crc kind d { d with contents := cs }
  /-- `HavocConflictingWrites`, :221-229: the disk may do anything -/
  | havocWrites {d d' : State} {id id' w w'} : id ≠ id' → d.reqWrites id = some w →
      d.reqWrites id' = some w' → overlap w.loc w'.loc → Internal crc kind d d'
  /-- `HavocConflictingWriteRead`, :231-238: the disk may do anything -/
  | havocWriteRead {d d' : State} {id id' w l} : d.reqWrites id = some w →
      d.reqReads id' = some l → overlap w.loc l → Internal crc kind d d'

/-- `Crash`, AsyncDiskModel.s.dfy:256-259 -/
def crash (d : State) : State := ⟨.empty, .empty, .empty, .empty, d.contents, noPads⟩

theorem setPad_noPads (id : ReqId) : setPad noPads id [] = noPads := by
  funext x; unfold setPad noPads; split <;> rfl

/-- A write with nothing added, as in the repository. -/
theorem plainWrite {kind : Kind} {r1 : PMap ReqId Loc} {w1 : PMap ReqId Data} {r2 : PMap ReqId Data}
    {w2 : PMap ReqId Loc} {cs : List UInt8} {id : ReqId} {w : Data} (h1 : w1 id = Option.none)
    (h2 : w2 id = Option.none) : Next kind ⟨r1, w1, r2, w2, cs, noPads⟩ (.reqWrite id w)
      ⟨r1, w1.insert id w, r2, w2, cs, noPads⟩ := by
  have := Next.recvWrite (kind := kind) (d := ⟨r1, w1, r2, w2, cs, noPads⟩) (w := w) (p := []) h1 h2 (.inl rfl)
  rw [setPad_noPads] at this
  exact this

theorem plainProcess {crc : List UInt8 → List UInt8} {kind : Kind} {r1 : PMap ReqId Loc}
    {w1 : PMap ReqId Data} {r2 : PMap ReqId Data}
    {w2 : PMap ReqId Loc} {cs : List UInt8} {id : ReqId} {w : Data} (h1 : w1 id = some w)
    (h2 : w.addr + w.bytes.length ≤ cs.length) : Internal crc kind ⟨r1, w1, r2, w2, cs, noPads⟩
      ⟨r1, w1.remove id, r2, w2.insert id w.loc, splice cs w.addr w.bytes, noPads⟩ := by
  have := Internal.processWrite (crc := crc) (kind := kind) (d := ⟨r1, w1, r2, w2, cs, noPads⟩) h1
    (by simpa [State.full, noPads] using h2)
  simpa [State.full, noPads] using this

end Verif.Kv.ByteDisk
