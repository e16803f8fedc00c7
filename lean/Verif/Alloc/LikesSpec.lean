import Verif.Betree.Linked
/-
What counting references means, independent of how the counts are kept: used by C38 and C42.
-/
namespace Verif

/-- Exactly `k` things satisfy `P`. -/
def CountIs {α : Type} (P : α → Prop) (k : Nat) : Prop :=
  ∃ L : List α, L.Nodup ∧ (∀ x, x ∈ L ↔ P x) ∧ L.length = k

namespace CountRefs
open LinkedBetree

/-- A reference to node page `b` that counts: the root pointer (`none`), or child slot `i` of a
page `a` that is reached from the root (`some (a, i)`). -/
def NodeRef (l : Linked) (b : Address) : Option (Address × Nat) → Prop
  | none => l.root = some b
  | some (a, i) => Reach l.dv l.root a ∧ ∃ n, l.dv a = some n ∧ n.children[i]? = some (some b)

/-- A reference to buffer page `b` that counts: position `j` in the buffer list of a page `a` that
is reached from the root. -/
def BufRef (l : Linked) (b : Address) (x : Address × Nat) : Prop :=
  Reach l.dv l.root x.1 ∧ ∃ n, l.dv x.1 = some n ∧ n.buffers[x.2]? = some b

end CountRefs
end Verif
