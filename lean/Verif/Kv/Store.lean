import Verif.Kv.BlockSystem
/-
Specification for the block store: an ideal store of graphs. It has a current graph, perhaps a
frozen copy, and the images a crash may be recovered from. Nothing here knows about caches,
indirection tables, allocation or requests in flight.
-/
namespace Verif.Kv

/-- Which locations hold an image that survives a crash, as an observer of the VOps keeps book. -/
structure Book where
  base : Option Loc
  pending : Option Loc
  ok : Loc → Prop

namespace Book

/-- At the start there is one image. -/
def start (loc : Loc) : Book := ⟨none, none, fun l => l = loc⟩

/-- Loading fixes the image the running system is based on. Freezing gives up the image written
before and not yet adopted. The location of a new image becomes good when it is announced; it
replaces the old one at the clean-up. A crash takes nothing away. -/
def step (b : Book) : VOp → Book
  | .sendPersistentLoc l => ⟨some l, none, fun x => x = l⟩
  | .freeze => ⟨b.base, none, fun x => b.base = some x⟩
  | .sendFrozenLoc l => ⟨b.base, some l, fun x => b.base = some x ∨ x = l⟩
  | .cleanUp => ⟨b.pending, none, fun x => b.pending = some x⟩
  | .crash => ⟨none, none, b.ok⟩
  | _ => b

/-- Everyone who loads asks for an image the book calls good. -/
def Disciplined : Book → List VOp → Prop
  | _, [] => True
  | b, v :: vs => (∀ l, v = .sendPersistentLoc l → b.ok l) ∧ Disciplined (b.step v) vs

/-- The book after a trace. -/
def after (b : Book) (vs : List VOp) : Book := vs.foldl step b

end Book

/-- The ideal store. -/
structure Store (Node : Type) where
  cur : Option (Graph Node)
  frozen : Option (Graph Node)
  book : Book
  image : Loc → Option (Graph Node)

namespace Store
variable {Node : Type}

/-- One operation of a transaction. -/
def apply (g : Graph Node) : GOp Node → Graph Node
  | .alloc r n => g.insert r n
  | .write r n => g.insert r n

/-- The operations make sense one after the other: an allocated reference is new, an overwritten one
exists, and neither gets pointers to nodes that do not exist. -/
def Legal (A : App Node) : Graph Node → List (GOp Node) → Prop
  | _, [] => True
  | g, .alloc r n :: ops => g r = none ∧ (∀ x, A.succs n x → g x ≠ none) ∧
      Legal A (g.insert r n) ops
  | g, .write r n :: ops => g r ≠ none ∧ (∀ x, A.succs n x → g x ≠ none) ∧
      Legal A (g.insert r n) ops

/-- One step. Transactions read from and write to the current graph, collecting a node needs that
nothing points to it; the frozen copy does not change until the next freeze; what is announced as an
image is the frozen copy; loading an image gives exactly that graph. -/
inductive Next (A : App Node) : Store Node → BlockSystem.Label Node → Store Node → Prop
  | load {s : Store Node} {l g step} : s.cur = none → s.book.ok l → s.image l = some g →
      Next A s ⟨.sendPersistentLoc l, step⟩
        { s with cur := some g, book := s.book.step (.sendPersistentLoc l) }
  | txn {s : Store Node} {u b reads ops g} : s.cur = some g → A.valid u reads ops →
      (∀ x n, (x, n) ∈ reads → g x = some n) → Legal A g ops →
      Next A s ⟨.advance u b, some (.transaction reads ops)⟩ { s with cur := some (ops.foldl apply g) }
  | collect {s : Store Node} {b ref} {g : Graph Node} : s.cur = some g → g ref ≠ none → ref ≠ rootRef →
      (∀ x n, g x = some n → ¬ A.succs n ref) →
      Next A s ⟨.advance .noop b, some (.unalloc ref)⟩ { s with cur := some (g.remove ref) }
  | freeze {s : Store Node} {step} :
      Next A s ⟨.freeze, step⟩ { s with frozen := s.cur, book := s.book.step .freeze }
  | announce {s : Store Node} {l g step} : s.frozen = some g →
      Next A s ⟨.sendFrozenLoc l, step⟩ { s with
        book := s.book.step (.sendFrozenLoc l)
        image := fun x => if x = l then some g else s.image x }
  | adopt {s : Store Node} {step} :
      Next A s ⟨.cleanUp, step⟩ { s with frozen := none, book := s.book.step .cleanUp }
  | crash {s : Store Node} :
      Next A s ⟨.crash, none⟩ { s with cur := none, frozen := none, book := s.book.step .crash }
  | other {s : Store Node} {vop step} : (vop = .statesInternal ∨ vop = .journalInternal ∨
      (∃ i, vop = .pushSync i) ∨ (∃ i, vop = .popSync i)) → Next A s ⟨vop, step⟩ s

/-- The ideal store, started with one image at `loc`: a root that points nowhere. -/
def machine (A : App Node) (ok : Node → Prop) (loc : Loc) :
    Machine (Store Node) (BlockSystem.Label Node) where
  Init s := s.cur = none ∧ s.frozen = none ∧ s.book = Book.start loc ∧
    ∃ n, s.image loc = some (PMap.insert .empty rootRef n) ∧ ok n ∧ ∀ x, ¬ A.succs n x
  Step := Next A

end Store
end Verif.Kv
