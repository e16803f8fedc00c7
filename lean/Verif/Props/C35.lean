import Verif.Betree.Buffer
import Verif.Props.C07
/-
C35. Write buffer equals replay.
Specification: the messages of a history in order (`C07.messages`), applied one after the other to
a plain map (`C07.applyOne`). Batching: any list of histories that follow each other.
-/
namespace Verif.C35
open Verif

/-- Histories that follow each other, starting at `l`. -/
def Batches : LSN → List MsgHistory → Prop
  | _, [] => True
  | l, b :: bs => b.WF ∧ b.seqStart = l ∧ Batches b.seqEnd bs

/-- The LSN after the last batch. -/
def endOf : LSN → List MsgHistory → LSN
  | l, [] => l
  | _, b :: bs => endOf b.seqEnd bs

/-- All messages, oldest first. -/
def allMessages (bs : List MsgHistory) : List KeyedMessage := bs.flatMap C07.messages

/-- Reading a map through a write buffer that took the history in any batching is the map after
all messages, in order. -/
theorem write_buffer_is_replay (base : TotalKMMap) (bs : List MsgHistory) (l : LSN)
    (h : Batches l bs) (k : Key) :
    let t := bs.foldl Memtable.applyPuts (Memtable.emptyAt l)
    (base k).merge (t.query k) = (allMessages bs).foldl C07.applyOne base k ∧
      t.seqEnd = endOf l bs := by
  have key : ∀ (bs : List MsgHistory) (t : Memtable), Batches t.seqEnd bs →
      (bs.foldl Memtable.applyPuts t).over base =
        { value := (allMessages bs).foldl C07.applyOne (t.over base).value
          seqEnd := endOf t.seqEnd bs } := by
    intro bs
    induction bs with
    | nil => intro t _; rfl
    | cons b bs ih =>
      rintro t ⟨hw, hs, hb⟩
      have hr := C07.replay_eq_fold hw (m := t.over base) hs
      have ho := t.over_applyPuts b base
      have he : (t.applyPuts b).seqEnd = b.seqEnd := by
        have : ((t.applyPuts b).over base).seqEnd = b.seqEnd := by rw [ho]; exact hr.2
        exact this
      rw [List.foldl_cons, ih _ (by rw [he]; exact hb), ho, hr.1, he]
      simp only [allMessages, List.flatMap_cons, List.foldl_append, endOf]
  have := key bs (Memtable.emptyAt l) h
  rw [Memtable.over_emptyAt] at this
  exact ⟨congrFun (congrArg StampedMap.value this) k, congrArg StampedMap.seqEnd this⟩

/-- Batching does not matter: two batchings with the same messages leave buffers that read the
same over every map. -/
theorem batching_irrelevant (base : TotalKMMap) {bs cs : List MsgHistory} {l : LSN}
    (hb : Batches l bs) (hc : Batches l cs) (hm : allMessages bs = allMessages cs) (k : Key) :
    (base k).merge ((bs.foldl Memtable.applyPuts (Memtable.emptyAt l)).query k) =
    (base k).merge ((cs.foldl Memtable.applyPuts (Memtable.emptyAt l)).query k) := by
  rw [(write_buffer_is_replay base bs l hb k).1, (write_buffer_is_replay base cs l hc k).1, hm]

/-- Two successive batches are one concatenated batch, exactly (Memtable_v.rs 83-101). -/
theorem batches_concat (t : Memtable) {a b : MsgHistory} (ha : a.WF) (hb : b.WF)
    (hc : b.seqStart = a.seqEnd) : (t.applyPuts a).applyPuts b = t.applyPuts (a.concat b) := by
  have h1 := ha.1; have h2 := hb.1
  have add : ∀ (f : PMap LSN KeyedMessage) (start m n : Nat) (t : Memtable),
      Memtable.applyRange f start (m + n) t =
        Memtable.applyRange f (start + m) n (Memtable.applyRange f start m t) := by
    intro f start m n t
    induction n with
    | zero => rfl
    | succ n ih => rw [Nat.add_succ]; simp only [Memtable.applyRange, ih, Nat.add_assoc]
  have hl : (a.concat b).len = a.len + b.len := by
    simp only [MsgHistory.len, MsgHistory.concat]; omega
  have e1 : Memtable.applyRange (a.concat b).msgs a.seqStart a.len t =
      Memtable.applyRange a.msgs a.seqStart a.len t :=
    Memtable.applyRange_congr (fun k _ h => MsgHistory.concat_msgs_left hb hc
      (by unfold MsgHistory.len at h; omega)) t
  have e2 : a.seqStart + a.len = b.seqStart := by unfold MsgHistory.len; omega
  unfold Memtable.applyPuts
  rw [hl, show (a.concat b).seqStart = a.seqStart from rfl, add, e1, e2]
  exact (Memtable.applyRange_congr (fun k h3 h4 => MsgHistory.concat_msgs_right hb
    ⟨h3, by unfold MsgHistory.len at h4; omega⟩) _).symm

/-- A write buffer only answers for keys that were put; other keys read through to the map. -/
theorem untouched_key (base : TotalKMMap) (bs : List MsgHistory) (l : LSN) (h : Batches l bs)
    (k : Key) (hk : ∀ km ∈ allMessages bs, km.key ≠ k) :
    (base k).merge ((bs.foldl Memtable.applyPuts (Memtable.emptyAt l)).query k) = base k := by
  rw [(write_buffer_is_replay base bs l h k).1]
  generalize allMessages bs = ms at hk
  induction ms generalizing base with
  | nil => rfl
  | cons km ms ih =>
    rw [List.foldl_cons, ih (base := C07.applyOne base km) (fun x hx => hk x (by simp [hx]))]
    have := hk km (by simp)
    simp [C07.applyOne, Ne.symm this]

/-- Two batches, one put overwritten by the other; the hypotheses hold and the answer is the last
value. -/
def demo : List MsgHistory :=
  [(MsgHistory.singletonAt 3 ⟨1, .define 10⟩).concat (MsgHistory.singletonAt 4 ⟨2, .define 20⟩),
   MsgHistory.singletonAt 5 ⟨1, .define 11⟩]

example : Batches 3 demo ∧ allMessages demo = [⟨1, .define 10⟩, ⟨2, .define 20⟩, ⟨1, .define 11⟩] ∧
    (Message.define 7).merge
      ((demo.foldl Memtable.applyPuts (Memtable.emptyAt 3)).query 1) = .define 11 := by
  refine ⟨⟨?_, rfl, MsgHistory.wf_singletonAt _ _, rfl, trivial⟩, rfl, rfl⟩
  exact MsgHistory.wf_concat (MsgHistory.wf_singletonAt _ _) (MsgHistory.wf_singletonAt _ _) rfl

end Verif.C35
