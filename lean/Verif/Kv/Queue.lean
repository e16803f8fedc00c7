import Verif.Kv.HashMap

/-
The queues of VeriBetrKV: a doubly linked list in an array of nodes
(/repo/lib/DataStructures/LinearDList.i.dfy), and on it and a hash map the queue of least recently
used nodes (LinearLru.i.dfy) and the queue without repetitions that holds the nodes to be freed
(LinearUSeq.i.dfy).

Pointers and lengths are natural numbers; the code's are of 64 bits, and the array of nodes is not
longer than those count.  Reading or writing outside the array, or taking the value of a node that
has none, is `none`.
-/

namespace Verif.Queue

/-- LinearDList.i.dfy:38 `Node`. -/
structure Node (A : Type) where
  data : Option A
  next : Nat
  prev : Nat

/-- LinearDList.i.dfy:70-76 `DList`, without its ghost fields: node 0 is the sentinel of the
ring, `freeStack` the top of a stack of unused nodes, linked by `next` and ended by 0. -/
structure DList (A : Type) where
  nodes : List (Node A)
  freeStack : Nat

variable {A : Type}

/-- LinearDList.i.dfy:145-161 `BuildFreeStack`: from slot `k` on every node is free and points to
the one before it.  `l` are the nodes from slot `k` on. -/
def buildFreeStack : List (Node A) → Nat → List (Node A)
  | [], _ => []
  | _ :: l, k => { data := none, next := k - 1, prev := 0 } :: buildFreeStack l (k + 1)

/-- `BuildFreeStack(inout a, k)`. -/
def buildFree (a : List (Node A)) (k : Nat) : List (Node A) :=
  a.take k ++ buildFreeStack (a.drop k) k

/-- LinearDList.i.dfy:165-173 `Alloc`. -/
def alloc (initialLen : Nat) : DList A :=
  { nodes := buildFree (List.replicate initialLen { data := none, next := 0, prev := 0 }) 1
    freeStack := initialLen - 1 }

/-- LinearDList.i.dfy:189-206 `Expand`: twice as many nodes. -/
def expand (d : DList A) : DList A :=
  let len := d.nodes.length
  let len' := if len < 0x7fffffffffffffff then len + len else len + 1
  let nodes := d.nodes ++ List.replicate (len' - len) { data := none, next := d.freeStack, prev := 0 }
  { nodes := buildFree nodes (len + 1), freeStack := len' - 1 }

/-- LinearDList.i.dfy:113-119 `Get`. -/
def DList.get (d : DList A) (p : Nat) : Option A := d.nodes[p]?.bind (·.data)

/-- LinearDList.i.dfy:121-131 `Next`. -/
def DList.next (d : DList A) (p : Nat) : Option Nat := d.nodes[p]?.map (·.next)

/-- LinearDList.i.dfy:133-143 `Prev`. -/
def DList.prev (d : DList A) (p : Nat) : Option Nat := d.nodes[p]?.map (·.prev)

/-- `mut_seq_set(inout nodes, p, node.(next := q))` with `node` the node at `p`. -/
def setNext (nodes : List (Node A)) (p q : Nat) : Option (List (Node A)) :=
  nodes[p]?.map (fun n => nodes.set p { n with next := q })

/-- `mut_seq_set(inout nodes, p, node.(prev := q))` with `node` the node at `p`. -/
def setPrev (nodes : List (Node A)) (p q : Nat) : Option (List (Node A)) :=
  nodes[p]?.map (fun n => nodes.set p { n with prev := q })

/-- `mut_seq_set(inout nodes, p, n)`. -/
def setNode (nodes : List (Node A)) (p : Nat) (n : Node A) : Option (List (Node A)) :=
  if p < nodes.length then some (nodes.set p n) else none

/-- LinearDList.i.dfy:208-239 `Remove`. -/
def DList.remove (d : DList A) (p : Nat) : Option (DList A) := do
  let node ← d.nodes[p]?
  let nodes ← setNext d.nodes node.prev node.next
  let nodes ← setPrev nodes node.next node.prev
  let nodes ← setNode nodes p { data := none, next := d.freeStack, prev := 0 }
  return { nodes := nodes, freeStack := p }

/-- LinearDList.i.dfy:250-256 and 289-295: a free node, and the list it is in; the array is enlarged
when the stack is empty or what is on it is not free. -/
def freeNode (d : DList A) : Option (DList A × Nat × Node A) := do
  let p := d.freeStack
  let n ← d.nodes[p]?
  if p = 0 ∨ n.data.isSome then
    let d := expand d
    let p := d.freeStack
    let n ← d.nodes[p]?
    return (d, p, n)
  else
    return (d, p, n)

/-- LinearDList.i.dfy:241-277 `InsertAfter`: the list and the pointer to the new node. -/
def DList.insertAfter (d : DList A) (p : Nat) (a : A) : Option (DList A × Nat) := do
  let (d, p', free) ← freeNode d
  let node ← d.nodes[p]?
  let nodes ← setNext d.nodes p p'
  let nodes ← setPrev nodes node.next p'
  let nodes ← setNode nodes p' { data := some a, next := node.next, prev := p }
  return ({ nodes := nodes, freeStack := free.next }, p')

/-- LinearDList.i.dfy:279-315 `InsertBefore`. -/
def DList.insertBefore (d : DList A) (p : Nat) (a : A) : Option (DList A × Nat) := do
  let (d, p', free) ← freeNode d
  let node ← d.nodes[p]?
  let nodes ← setPrev d.nodes p p'
  let nodes ← setNext nodes node.prev p'
  let nodes ← setNode nodes p' { data := some a, next := p, prev := node.prev }
  return ({ nodes := nodes, freeStack := free.next }, p')

/-- LinearLru.i.dfy:24-27 `LinearLru` and LinearUSeq.i.dfy:30-33 `USeq`: the list of values, and
for every value the pointer to its node. -/
structure Queue where
  dlist : DList UInt64
  ptrMap : Hash.Map Nat

/-- LinearLru.i.dfy:50-60 and LinearUSeq.i.dfy:55-65 `Alloc`. -/
def Queue.empty : Queue := { dlist := alloc (128 + 1), ptrMap := Hash.new 128 }

/-- LinearLru.i.dfy:69-82 and LinearUSeq.i.dfy:90-104 `Remove`. -/
def Queue.remove (q : Queue) (x : UInt64) : Option Queue := do
  let (m, removed) ← Hash.remove q.ptrMap x
  match removed with
  | some p =>
    let d ← q.dlist.remove p
    return { dlist := d, ptrMap := m }
  | none => return { q with ptrMap := m }

/-- Both queues add a value at the end: `InsertBefore(0, x)` and the pointer into the map. -/
def Queue.push (q : Queue) (x : UInt64) : Option Queue := do
  let (d, p) ← q.dlist.insertBefore 0 x
  let (m, _) ← Hash.insert q.ptrMap x p
  return { dlist := d, ptrMap := m }

/-- LinearLru.i.dfy:84-97 `Use`: the value goes to the end of the queue. -/
def Queue.use (q : Queue) (x : UInt64) : Option Queue := do
  let q ← q.remove x
  q.push x

/-- LinearUSeq.i.dfy:74-88 `Add`: the value goes to the end unless it is in the queue. -/
def Queue.add (q : Queue) (x : UInt64) : Option Queue := do
  let found ← Hash.get q.ptrMap x
  if found.isSome then return q else q.push x

/-- LinearLru.i.dfy:109-121 `NextOpt` and LinearUSeq.i.dfy:114-122 `FirstOpt`. -/
def Queue.first (q : Queue) : Option (Option UInt64) := do
  let p ← q.dlist.next 0
  if p = 0 then return none
  let x ← q.dlist.get p
  return some x

end Verif.Queue
