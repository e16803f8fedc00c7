import Verif.Spec.Messages
/-
C06. Messages may be combined in any grouping.
-/
namespace Verif.C06
open Verif

/-- A way of bracketing a non-empty list of messages, oldest on the left. -/
inductive Grouping where
  | one (m : Message)
  | join (older newer : Grouping)

/-- The messages in order, oldest first. -/
def Grouping.messages : Grouping → List Message
  | .one m => [m]
  | .join a b => a.messages ++ b.messages

/-- Merge according to the grouping. -/
def Grouping.eval : Grouping → Message
  | .one m => m
  | .join a b => a.eval.merge b.eval

/-- Apply messages one at a time, oldest first, to a starting message. -/
def applyAll (start : Message) (ms : List Message) : Message := ms.foldl Message.merge start

theorem applyAll_merge (a b : Message) (ms : List Message) :
    applyAll (a.merge b) ms = a.merge (applyAll b ms) := by
  unfold applyAll
  induction ms generalizing b with
  | nil => rfl
  | cons m ms ih => simp only [List.foldl_cons, Message.merge_assoc, ih]

theorem merge_eval (a : Message) (g : Grouping) : a.merge g.eval = applyAll a g.messages := by
  induction g generalizing a with
  | one m => rfl
  | join g1 g2 ih1 ih2 =>
    simp only [Grouping.eval, Grouping.messages, applyAll, List.foldl_append]
    rw [← Message.merge_assoc, ih1, ih2]; rfl

/-- Any two groupings of the same messages give the same message. -/
theorem grouping_irrelevant (g g' : Grouping) (h : g.messages = g'.messages) : g.eval = g'.eval := by
  rw [← Message.nop_merge g.eval, ← Message.nop_merge g'.eval, merge_eval, merge_eval, h]

/-- Applying messages one at a time or first merging them in any grouping is the same. -/
theorem apply_eq_merge (start : Message) (g : Grouping) :
    applyAll start g.messages = start.merge g.eval := (merge_eval start g).symm

/-- Laws. -/
theorem merge_assoc (a b c : Message) : (a.merge b).merge c = a.merge (b.merge c) :=
  Message.merge_assoc a b c
theorem nop_right (a : Message) : a.merge (.update 0) = a := Message.merge_nop a
theorem nop_left (a : Message) : (Message.update 0).merge a = a := Message.nop_merge a
theorem define_absorbs (a : Message) (v : Value) : a.merge (.define v) = .define v :=
  Message.merge_define a v
theorem onto_define (v : Value) (ms : List Message) :
    ∃ w, applyAll (.define v) ms = .define w := by
  induction ms generalizing v with
  | nil => exact ⟨v, rfl⟩
  | cons m ms ih =>
    obtain ⟨w, hw⟩ := Message.isDefine_merge (a := .define v) m ⟨v, rfl⟩
    simp only [applyAll, List.foldl_cons, hw]
    exact ih w
/-- The value after a list of messages: the newest define decides; older messages are
irrelevant. -/
theorem newest_define_wins (a : Message) (older newer : List Message) (v : Value) :
    applyAll a (older ++ .define v :: newer) = applyAll (.define v) newer := by
  simp [applyAll, List.foldl_append]

/-- Two groupings of three messages, one of them an update, agree, and the result is not
trivial. -/
example :
    (Grouping.join (.one (.define 3)) (.join (.one (.update 4)) (.one (.update 0)))).eval =
      (Grouping.join (.join (.one (.define 3)) (.one (.update 4))) (.one (.update 0))).eval ∧
    (Grouping.join (.one (.update 4)) (.one (.update 5))).eval = .update 5 :=
  ⟨grouping_irrelevant _ _ rfl, by decide⟩

end Verif.C06
