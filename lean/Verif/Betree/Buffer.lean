import Verif.Abs.MsgHistory
/-
Model of Splinter/src/betree/Buffer_v.rs (`SimpleBuffer`) and Memtable_v.rs.
The `Buffer` trait (Buffer_v.rs 12-24) is modelled by its `SimpleBuffer` instance only.
-/
namespace Verif
open Classical

/-- Buffer_v.rs 27-30 `SimpleBuffer` (wrapper struct dropped) -/
abbrev Buffer := PMap Key Message

namespace Buffer

/-- Buffer_v.rs 46-56 `query`, `query_internal` -/
def query (b : Buffer) (k : Key) : Message :=
  match b k with
  | some m => m
  | none => .nop

/-- Buffer_v.rs 58-60 -/
def Contains (b : Buffer) (k : Key) : Prop := b.Has k

/-- Buffer_v.rs 62-64 -/
noncomputable def applyFilter (b : Buffer) (accept : PSet Key) : Buffer :=
  fun k => if accept k then b k else none

/-- Buffer_v.rs 66-77: `self` is older, `new` is newer -/
def merge (b new : Buffer) : Buffer := fun k =>
  match b k, new k with
  | some m, some n => some (m.merge n)
  | none, some n => some n
  | some m, none => some m
  | none, none => none

/-- Buffer_v.rs 80-82 -/
def empty : Buffer := PMap.empty

/-- Buffer_v.rs 84-86 -/
def insert (b : Buffer) (k : Key) (m : Message) : Buffer := PMap.insert b k m

@[simp] theorem query_empty (k : Key) : empty.query k = .nop := rfl

@[simp] theorem query_merge (b n : Buffer) (k : Key) :
    (b.merge n).query k = (b.query k).merge (n.query k) := by
  unfold query merge
  cases b k <;> cases n k <;> simp

theorem query_applyFilter (b : Buffer) (f : PSet Key) (k : Key) :
    (b.applyFilter f).query k = if f k then b.query k else .nop := by
  unfold query applyFilter
  split <;> simp_all

theorem query_insert (b : Buffer) (k : Key) (m : Message) (x : Key) :
    (b.insert k m).query x = if x = k then m else b.query x := by
  unfold query insert PMap.insert
  by_cases h : x = k <;> simp [h]

end Buffer

/-- Memtable_v.rs 19-23 -/
@[ext] structure Memtable where
  buffer : Buffer
  seqEnd : LSN

namespace Memtable

/-- Memtable_v.rs 26-31 `empty_memtable` -/
def emptyAt (lsn : LSN) : Memtable := { buffer := Buffer.empty, seqEnd := lsn }

/-- Memtable_v.rs 33-35 -/
def drain (t : Memtable) : Memtable := emptyAt t.seqEnd

/-- Memtable_v.rs 37-40 -/
def query (t : Memtable) (k : Key) : Message := t.buffer.query k

/-- Memtable_v.rs 42-45 -/
def Contains (t : Memtable) (k : Key) : Prop := t.buffer.Contains k

/-- Memtable_v.rs 47-50 -/
def IsEmpty (t : Memtable) : Prop := t.buffer = Buffer.empty

/-- Memtable_v.rs 52-58 -/
def applyPut (t : Memtable) (km : KeyedMessage) : Memtable :=
  { buffer := t.buffer.insert km.key ((t.query km.key).merge km.message), seqEnd := t.seqEnd + 1 }

/-- Apply the messages at `start, ..., start+n-1` in order; missing messages (impossible in a
well-formed history) are skipped. -/
def applyRange (msgs : PMap LSN KeyedMessage) (start : LSN) : Nat → Memtable → Memtable
  | 0, t => t
  | n + 1, t =>
    match msgs (start + n) with
    | some km => (applyRange msgs start n t).applyPut km
    | none => applyRange msgs start n t

/-- Memtable_v.rs 60-70. The code peels the last LSN with `discard_recent`; the model recurses
over the length (`applyPuts_rec` below recovers the code's equation). -/
def applyPuts (t : Memtable) (puts : MsgHistory) : Memtable :=
  applyRange puts.msgs puts.seqStart puts.len t

theorem applyRange_congr {f g : PMap LSN KeyedMessage} {start n : Nat}
    (h : ∀ k, start ≤ k → k < start + n → f k = g k) (t : Memtable) :
    applyRange f start n t = applyRange g start n t := by
  induction n with
  | zero => rfl
  | succ n ih =>
    simp only [applyRange]
    rw [h (start + n) (by omega) (by omega), ih (fun k h1 h2 => h k h1 (by omega))]

/-- The code's own recursion, Memtable_v.rs 60-70. -/
theorem applyPuts_rec {h : MsgHistory} (hw : h.WF) (t : Memtable) :
    t.applyPuts h =
      if h.seqStart = h.seqEnd then t
      else match h.msgs (h.seqEnd - 1) with
        | some km => (t.applyPuts (h.discardRecent (h.seqEnd - 1))).applyPut km
        | none => t.applyPuts (h.discardRecent (h.seqEnd - 1)) := by
  have hse := hw.1
  split
  · rename_i he; simp [applyPuts, MsgHistory.len, he, applyRange]
  · rename_i he
    have e1 : t.applyPuts h = applyRange h.msgs h.seqStart (h.seqEnd - 1 - h.seqStart + 1) t := by
      unfold applyPuts MsgHistory.len; congr 1; omega
    have e2 : t.applyPuts (h.discardRecent (h.seqEnd - 1)) =
        applyRange h.msgs h.seqStart (h.seqEnd - 1 - h.seqStart) t := by
      unfold applyPuts MsgHistory.len
      simp only [MsgHistory.discardRecent]
      apply applyRange_congr
      intro k h1 h2
      rw [if_pos (by omega)]
    rw [e1, e2]
    simp only [applyRange]
    have : h.seqStart + (h.seqEnd - 1 - h.seqStart) = h.seqEnd - 1 := by omega
    rw [this]

/-- Reading a map through a write buffer. -/
def over (t : Memtable) (base : TotalKMMap) : StampedMap :=
  { value := fun k => (base k).merge (t.query k), seqEnd := t.seqEnd }

theorem over_emptyAt (base : TotalKMMap) (l : LSN) :
    (emptyAt l).over base = { value := base, seqEnd := l } := by
  ext1
  · funext k; simp [over, emptyAt, query]
  · rfl

theorem over_applyPut (t : Memtable) (km : KeyedMessage) (base : TotalKMMap) :
    (t.applyPut km).over base = (t.over base).applyMsg km := by
  ext1
  · funext k
    simp only [over, applyPut, StampedMap.applyMsg, query, TotalKMMap.insert, Buffer.query_insert]
    split
    · rename_i h; subst h; rw [Message.merge_assoc]
    · rfl
  · rfl

theorem over_applyRange (f : PMap LSN KeyedMessage) (start n : Nat) (t : Memtable)
    (base : TotalKMMap) :
    (applyRange f start n t).over base = MsgHistory.applyRange f start n (t.over base) := by
  induction n with
  | zero => rfl
  | succ n ih =>
    simp only [applyRange, MsgHistory.applyRange]
    cases f (start + n) with
    | none => exact ih
    | some km => simp only [over_applyPut, ih]

theorem over_applyPuts (t : Memtable) (puts : MsgHistory) (base : TotalKMMap) :
    (t.applyPuts puts).over base = MsgHistory.mapPlusHistory (t.over base) puts :=
  over_applyRange _ _ _ _ _

end Memtable

end Verif
