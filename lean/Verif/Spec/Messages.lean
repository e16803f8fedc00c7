import Verif.Base.PMap
/-
Model of Splinter/src/spec/Messages_t.rs, TotalKMMap_t.rs and the key type of KeyType_t.rs.
-/
namespace Verif

/-- KeyType_t.rs 18 `pub struct Key(pub u64)` (wrapper struct dropped) -/
abbrev Key := UInt64
/-- Messages_t.rs 14 `pub struct Value(pub u64)` (wrapper struct dropped) -/
abbrev Value := UInt64
/-- Messages_t.rs 16 `pub struct Delta(pub u64)` (wrapper struct dropped) -/
abbrev Delta := UInt64

/-- Messages_t.rs 20-22 -/
def defaultValue : Value := 0
/-- Messages_t.rs 25-27 -/
def nopDelta : Delta := 0

/-- Messages_t.rs 33-38 -/
inductive Message where
  | define (value : Value)
  | update (delta : Delta)
  deriving DecidableEq, Repr

namespace Message

/-- Messages_t.rs 42-51 -/
def combineDeltas (new old : Delta) : Delta :=
  if new = nopDelta then old
  else if old = nopDelta then new
  else new

/-- Messages_t.rs 54-56: the code's placeholder ignores the delta. -/
def applyDelta (_delta : Delta) (value : Value) : Value := value

/-- Messages_t.rs 58-68 -/
def merge (self new : Message) : Message :=
  match self, new with
  | _, .define nv => .define nv
  | .update od, .update nd => .update (combineDeltas nd od)
  | .define v, .update d => .define (applyDelta d v)

/-- Messages_t.rs 70-71 -/
def empty : Message := .define defaultValue

/-- The no-op update `Message::Update{delta: nop_delta()}` used all over betree/Buffer_v.rs -/
def nop : Message := .update nopDelta

/-- Whether the message is a `Define` (Verus `m is Define`). -/
def IsDefine (m : Message) : Prop := ∃ v, m = .define v

theorem merge_assoc (a b c : Message) : (a.merge b).merge c = a.merge (b.merge c) := by
  cases a <;> cases b <;> cases c <;> simp only [merge, applyDelta]
  simp only [combineDeltas, nopDelta]
  grind

@[simp] theorem merge_nop (a : Message) : a.merge nop = a := by
  cases a <;> simp [merge, nop, applyDelta, combineDeltas]

@[simp] theorem nop_merge (a : Message) : nop.merge a = a := by
  cases a <;> simp [merge, nop, combineDeltas]
  intro h; simp_all

@[simp] theorem merge_define (a : Message) (v : Value) : a.merge (.define v) = .define v := by
  cases a <;> rfl

theorem isDefine_merge {a : Message} (b : Message) (h : a.IsDefine) : (a.merge b).IsDefine := by
  obtain ⟨v, rfl⟩ := h
  cases b <;> exact ⟨_, rfl⟩

end Message

/-- TotalKMMap_t.rs 15: `Map<Key, Message>` whose domain is all keys (`wf`, 53-55).
The model builds totality into the type, so `wf` always holds. -/
abbrev TotalKMMap := Key → Message

namespace TotalKMMap
/-- TotalKMMap_t.rs 22-26 -/
def empty : TotalKMMap := fun _ => Message.empty
/-- TotalKMMap_t.rs 38-45 -/
def insert (m : TotalKMMap) (k : Key) (v : Message) : TotalKMMap :=
  fun x => if x = k then v else m x

@[simp] theorem insert_same (m : TotalKMMap) (k : Key) (v : Message) : m.insert k v k = v := by
  simp [insert]
theorem insert_other (m : TotalKMMap) {k x : Key} (v : Message) (h : x ≠ k) :
    m.insert k v x = m x := by simp [insert, h]
end TotalKMMap

end Verif
