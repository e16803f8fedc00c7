import Verif.Kv.BetreeProof
/-
A run of the betree: put, grow, clone, read through the clone, overwrite in the clone, flush, redirect,
read both, range query. No code is modelled here.
-/
namespace Verif.Kv.BetreeDemo
open Betree BlockSystem BlockCache

/-- The tree as a machine. -/
def M : Machine (Graph Node) UIOp :=
  ⟨(KvSystem.graphs app (fun n => n = emptyNode)).Init, (KvSystem.graphs app (fun n => n = emptyNode)).Next⟩

def n1 : Node := addMessage emptyNode [1] (.define [2])
/-- The root after the clone. -/
def n2 : Node := ⟨fun k => match MapSpec.cloneMap [1] [5] k with
  | some x => some ⟨x, 1⟩
  | none => some ⟨k, 1⟩, fun _ => some .update⟩
def n3 : Node := addMessage n2 [5] (.define [9])
/-- The child with everything flushed into it. -/
def n4 : Node := ⟨.empty, fun k => if k = [5] then some (.define [9]) else
  match MapSpec.cloneMap [1] [5] k with
  | some x => n1.buffer x
  | none => n1.buffer k⟩

theorem n1_buffer (k : Key) : n1.buffer k = some (.define (if k = [1] then [2] else [])) := by
  by_cases h : k = [1]
  · subst h; simp [n1, addMessage, Message.merge]
  · simp [n1, addMessage, emptyNode, PMap.insert, h]

theorem wf1 : WFNode n1 := ⟨fun k => by simp [n1_buffer], fun k _ => ⟨_, n1_buffer k⟩⟩

theorem n2_children (k : Key) : ∃ x, n2.children k = some ⟨x, 1⟩ ∧
    x = (MapSpec.cloneMap [1] [5] k).getD k := by
  cases h : MapSpec.cloneMap [1] [5] k <;> simp [n2, h]

theorem wf2 : WFNode n2 := ⟨fun k => by simp [n2], fun k h => by
  obtain ⟨x, hx, _⟩ := n2_children k; rw [hx] at h; cases h⟩

theorem wf3 : WFNode n3 := addMessage_wf wf2

theorem n4_buffer (k : Key) : n4.buffer k =
    some (.define (if k = [5] then [9] else if k = [1] then [2] else [])) := by
  by_cases h : k = [5]
  · subst h; simp [n4]
  · by_cases h1 : k = [1]
    · subst h1
      have : MapSpec.cloneMap [1] [5] [1] = none := by decide
      simp [n4, this, n1_buffer]
    · simp only [n4, if_neg h, if_neg h1]
      cases hc : MapSpec.cloneMap [1] [5] k with
      | none => simp [n1_buffer, h1]
      | some x =>
        have hx : x ≠ [1] := by
          rintro rfl
          simp only [MapSpec.cloneMap] at hc
          split at hc
          · rename_i hp
            simp [MapSpec.KeyHasPrefix] at hp hc
            rcases k with _ | ⟨a, _ | ⟨b, k⟩⟩
            · simp at hp
            · simp at hp; exact h (by rw [hp])
            · simp at hc
          · cases hc
        simp [n1_buffer, hx]

theorem wf4 : WFNode n4 := ⟨fun k => by simp [n4_buffer], fun k _ => ⟨_, n4_buffer k⟩⟩

theorem wfg (c : Ref) : WFNode (grownRoot c) := ⟨fun k h => (by cases h), fun k h => (by cases h)⟩

def g0 : Graph Node := PMap.insert .empty rootRef emptyNode
def g1 : Graph Node := g0.insert rootRef n1
def g2 : Graph Node := (g1.insert 1 n1).insert rootRef (grownRoot 1)
def g3 : Graph Node := g2.insert rootRef n2
def g4 : Graph Node := g3.insert rootRef n3
def g5 : Graph Node := (g4.insert 2 n4).insert rootRef (grownRoot 2)
def g6 : Graph Node := (g5.insert 3 n4).insert rootRef (grownRoot 3)

theorem r1 : (1 : Ref) ≠ rootRef := by decide
theorem r2 : (2 : Ref) ≠ rootRef := by decide
theorem r3 : (3 : Ref) ≠ rootRef := by decide

def trace : List UIOp := [.put [1] [2], .noop, .clone [1] [5], .get [5] [2], .put [5] [9], .noop, .noop,
  .get [5] [9], .get [1] [2], .succ (.incl [1]) [([1], [2]), ([5], [9])] .posInf]

/-- A transaction that reads only the root. -/
theorem root_txn {g : Graph Node} {n n' : Node} {u} (hg : g rootRef = some n)
    (hv : Valid u [(rootRef, n)] [.write rootRef n']) (hs : ∀ x, Succs n' x → g x ≠ none) :
    M.Step g u (g.insert rootRef n') :=
  .inl ⟨_, _, hv, (by intro x m hx; cases List.mem_singleton.mp hx; exact hg),
    .cons (.write hs (by rw [hg]; simp)) .nil⟩

theorem path6 (k : Key) : WFLookup [⟨rootRef, grownRoot 3, k⟩, ⟨3, n4, k⟩] k ∧
    interpret [⟨rootRef, grownRoot 3, k⟩, ⟨3, n4, k⟩] =
      .define (if k = [5] then [9] else if k = [1] then [2] else []) := by
  refine ⟨⟨⟨_, _, rfl, rfl, rfl⟩, ?_, ?_⟩, ?_⟩
  · intro i hi
    have : i = 0 := by simp at hi; omega
    subst this; rfl
  · intro x hx
    simp at hx
    rcases hx with rfl | rfl
    · exact wfg 3
    · exact wf4
  · simp [interpret, grownRoot, Message.merge, n4_buffer]

theorem g6_reads (k : Key) (x : Ref) (n : Node)
    (h : (x, n) ∈ lookupReads [⟨rootRef, grownRoot 3, k⟩, ⟨3, n4, k⟩]) : g6 x = some n := by
  simp [lookupReads] at h
  rcases h with ⟨rfl, rfl⟩ | ⟨rfl, rfl⟩
  · simp [g6]
  · rw [g6, PMap.insert_other _ _ r3]; simp

def theFlush : Flush := ⟨rootRef, n3, grownRoot 2, 1, n1, 2, n4, fun _ => True, fun _ => True⟩

theorem n3_children (k : Key) : n3.children k = n2.children k := rfl

theorem flush_valid : theFlush.Valid where
  wfParent := wf3
  wfChild := wf1
  wfNewParent := wfg 2
  wfNewChild := wf4
  sub := fun _ h => h
  edge := fun k _ => by obtain ⟨x, hx, _⟩ := n2_children k; exact ⟨x, hx⟩
  emptied := fun _ _ => rfl
  kept := fun _ h => absurd trivial h
  moved := fun _ _ => rfl
  stays := fun _ h => absurd trivial h
  merged := by
    intro k e mp mc _ he hp hc
    obtain ⟨x, hx, hxe⟩ := n2_children k
    have he' : n2.children k = some e := he
    rw [hx] at he'; cases he'
    have hc' : n1.buffer x = some mc := hc
    show n4.buffer k = _
    by_cases h : k = [5]
    · subst h
      have : mp = .define [9] := by
        have hp' : n3.buffer [5] = some mp := hp
        simp [n3, addMessage, Message.merge] at hp'
        exact hp'.symm
      subst this
      simp [n4, Message.merge]
    · have : mp = .update := by
        have hp' : n3.buffer k = some mp := hp
        simp [n3, addMessage, PMap.insert, h, n2] at hp'
        exact hp'.symm
      subst this
      simp only [n4, if_neg h, Message.merge]
      rw [← hc', hxe]
      cases MapSpec.cloneMap [1] [5] k <;> rfl
  carried := fun _ _ _ h => absurd trivial h
  below := fun _ _ _ _ => rfl
  only := fun _ h => absurd trivial h

def theRedirect : Redirect := ⟨rootRef, grownRoot 2, [2], PMap.insert .empty 2 n4, grownRoot 3, [3],
  PMap.insert .empty 3 n4, fun _ => True⟩

theorem ins1 {a x : Ref} {n m : Node} (h : (PMap.insert .empty a n : PMap Ref Node) x = some m) :
    x = a ∧ m = n := by
  by_cases e : x = a
  · subst e; rw [PMap.insert_same] at h; cases h; exact ⟨rfl, rfl⟩
  · rw [PMap.insert_other _ _ e] at h; cases h

theorem redirect_valid : theRedirect.Valid where
  wfOld := wfg 2
  wfOlds := fun x n h => (ins1 h).2 ▸ wf4
  wfNew := wfg 3
  wfNews := fun x n h => (ins1 h).2 ▸ wf4
  dom := fun k _ => ⟨fun h => (by cases h), fun h => (by cases h)⟩
  oldRefs := by
    intro x
    constructor
    · rintro ⟨k, e, _, he, rfl⟩; cases he; simp [theRedirect]
    · intro h
      have : x = 2 := by simpa [theRedirect] using h
      subst this; exact ⟨[], _, trivial, rfl, rfl⟩
  olds := by
    intro x
    constructor
    · intro h
      obtain ⟨n, hn⟩ := Option.ne_none_iff_exists'.mp h
      obtain ⟨rfl, _⟩ := ins1 hn
      exact ⟨[], _, trivial, rfl, rfl⟩
    · rintro ⟨k, e, _, he, rfl⟩; cases he; simp [theRedirect]
  newRefs := by rintro x ⟨k, e, _, he, rfl⟩; cases he; simp [theRedirect]
  news := by
    intro x
    constructor
    · intro h
      obtain ⟨n, hn⟩ := Option.ne_none_iff_exists'.mp h
      obtain ⟨rfl, _⟩ := ins1 hn
      simp [theRedirect]
    · intro h
      have : x = 3 := by simpa [theRedirect] using h
      subst this; simp [theRedirect]
  buffer := rfl
  edges := by intro k e _ he; cases he; rfl
  stays := fun _ h => absurd trivial h
  same := by
    intro k e e' n n' _ he he' hn hn'
    cases he; cases he'
    obtain ⟨_, rfl⟩ := ins1 (a := 2) (x := 2) (n := n4) hn
    obtain ⟨_, rfl⟩ := ins1 (a := 3) (x := 3) (n := n4) hn'
    exact ⟨rfl, rfl⟩
  grand := by
    intro x n k e hx hk
    obtain ⟨_, rfl⟩ := ins1 hx
    cases hk

theorem clone_valid : ValidClone (grownRoot 1) n2 (MapSpec.cloneMap [1] [5]) where
  wfOld := wfg 1
  wfNew := wf2
  empty := fun _ _ _ => rfl
  child := fun _ _ _ h => by cases h
  newBuffer := fun _ _ _ => rfl
  sameBuffer := fun _ _ => rfl
  newChild := fun k x h => by simp [n2, h, grownRoot]
  sameChild := fun k h => by simp [n2, h, grownRoot]

theorem run0 : M.Exec trace g6 := by
  have p0 : g0 rootRef = some emptyNode := PMap.insert_same _ _ _
  have p1 : g1 rootRef = some n1 := PMap.insert_same _ _ _
  have p2 : g2 rootRef = some (grownRoot 1) := PMap.insert_same _ _ _
  have p3 : g3 rootRef = some n2 := PMap.insert_same _ _ _
  have p4 : g4 rootRef = some n3 := PMap.insert_same _ _ _
  have p5 : g5 rootRef = some (grownRoot 2) := PMap.insert_same _ _ _
  have c2 : g2 1 = some n1 := by rw [g2, PMap.insert_other _ _ r1]; exact PMap.insert_same _ _ _
  have c3 : g3 1 = some n1 := by rw [g3, PMap.insert_other _ _ r1]; exact c2
  have c4 : g4 1 = some n1 := by rw [g4, PMap.insert_other _ _ r1]; exact c3
  have c5 : g5 2 = some n4 := by rw [g5, PMap.insert_other _ _ r2]; exact PMap.insert_same _ _ _
  refine ⟨g0, ⟨emptyNode, rfl, rfl, by rintro x ⟨k, e, hk, _⟩; cases hk⟩, ?_⟩
  refine .cons (s' := g1) (root_txn p0 (.insert ⟨fun _ h => (by cases h), fun _ _ => ⟨_, rfl⟩⟩)
    (by rintro x ⟨k, e, hk, _⟩; cases hk)) ?_
  refine .cons (s' := g2) (.inl ⟨_, _, .grow (old := n1) (child := 1), ?_, ?_⟩) ?_
  · intro x m hx; cases List.mem_singleton.mp hx; exact p1
  · refine .cons (.alloc (by rintro x ⟨k, e, hk, _⟩; cases hk) ?_) (.cons (.write ?_ ?_) .nil)
    · simp [g1, g0, PMap.insert, PMap.empty, rootRef]
    · rintro x ⟨k, e, hk, rfl⟩; cases hk; simp
    · rw [PMap.insert_other _ _ r1.symm, p1]; simp
  refine .cons (s' := g3) (root_txn p2 (.clone clone_valid) ?_) ?_
  · rintro x ⟨k, e, hk, rfl⟩
    obtain ⟨y, hy, _⟩ := n2_children k
    rw [hy] at hk; cases hk
    show g2 1 ≠ none
    rw [c2]; simp
  refine .cons (s' := g3) (.inl ⟨_, _, .query (l := [⟨rootRef, n2, [5]⟩, ⟨1, n1, [1]⟩])
    ⟨⟨_, _, rfl, rfl, rfl⟩, ?_, ?_⟩ ?_, ?_, .nil⟩) ?_
  · intro i hi
    have : i = 0 := by simp at hi; omega
    subst this; rfl
  · intro x hx
    simp at hx
    rcases hx with rfl | rfl
    · exact wf2
    · exact wf1
  · simp [interpret, n2, Message.merge, n1_buffer]
  · intro x n h
    simp [lookupReads] at h
    rcases h with ⟨rfl, rfl⟩ | ⟨rfl, rfl⟩
    · exact p3
    · exact c3
  refine .cons (s' := g4) (root_txn p3 (.insert wf2) ?_) ?_
  · rintro x ⟨k, e, hk, rfl⟩
    obtain ⟨y, hy, _⟩ := n2_children k
    have hk' : n2.children k = some e := hk
    rw [hy] at hk'; cases hk'
    show g3 1 ≠ none
    rw [c3]; simp
  refine .cons (s' := g5) (.inl ⟨_, _, .flush flush_valid, ?_, ?_⟩) ?_
  · intro x n h
    simp [theFlush] at h
    rcases h with ⟨rfl, rfl⟩ | ⟨rfl, rfl⟩
    · exact p4
    · exact c4
  · refine .cons (.alloc (by rintro x ⟨k, e, hk, _⟩; cases hk) ?_) (.cons (.write ?_ ?_) .nil)
    · simp [theFlush, g4, g3, g2, g1, g0, PMap.insert, PMap.empty, rootRef]
    · rintro x ⟨k, e, hk, rfl⟩; cases hk; simp [theFlush]
    · show (PMap.insert g4 2 n4) rootRef ≠ none
      rw [PMap.insert_other _ _ r2.symm, p4]; simp
  refine .cons (s' := g6) (.inl ⟨_, _, .redirect redirect_valid, ?_, ?_⟩) ?_
  · intro x n h
    simp [theRedirect, Redirect.reads] at h
    rcases h with ⟨rfl, rfl⟩ | ⟨rfl, rfl⟩
    · exact p5
    · exact c5
  · have : theRedirect.ops = [.alloc 3 n4, .write rootRef (grownRoot 3)] := by
      simp [Redirect.ops, theRedirect]
    rw [this]
    refine .cons (.alloc (by rintro x ⟨k, e, hk, _⟩; cases hk) ?_) (.cons (.write ?_ ?_) .nil)
    · simp [g5, g4, g3, g2, g1, g0, PMap.insert, PMap.empty, rootRef]
    · rintro x ⟨k, e, hk, rfl⟩; cases hk; simp
    · rw [PMap.insert_other _ _ r3.symm, p5]; simp
  refine .cons (s' := g6) (.inl ⟨_, _, .query (path6 [5]).1 (by rw [(path6 [5]).2]; simp),
    g6_reads [5], .nil⟩) ?_
  refine .cons (s' := g6) (.inl ⟨_, _, .query (path6 [1]).1 (by rw [(path6 [1]).2]; simp),
    g6_reads [1], .nil⟩) ?_
  refine .cons (s' := g6) (.inl ⟨_, _, .succ (l := [⟨rootRef, grownRoot 3, [1]⟩, ⟨3, n4, [1]⟩])
    ⟨trivial, ?_, ?_, ?_, ?_, ?_⟩, g6_reads [1], .nil⟩) (.nil _)
  · intro k v h
    refine ⟨[⟨rootRef, grownRoot 3, k⟩, ⟨3, n4, k⟩], rfl, (path6 k).1, ?_⟩
    rw [(path6 k).2]
    simp at h
    rcases h with ⟨rfl, rfl⟩ | ⟨rfl, rfl⟩ <;> simp
  · intro i hi
    match i, hi with
    | 0, _ => exact ⟨(rfl : MapSpec.lte [1] [1] = true), trivial⟩
    | 1, _ => exact ⟨(rfl : MapSpec.lte [1] [5] = true), trivial⟩
  · intro i hi
    match i, hi with
    | 0, _ => simp
    | 1, _ => simp
  · intro i j hi hj hij
    obtain ⟨rfl, rfl⟩ : i = 0 ∧ j = 1 := by simp at hi hj; omega
    exact ⟨(rfl : MapSpec.lte [1] [5] = true), by simp⟩
  · intro k _ hno
    have h1 := hno 0 (by simp)
    have h5 := hno 1 (by simp)
    refine ⟨[⟨rootRef, grownRoot 3, k⟩, ⟨3, n4, k⟩], rfl, (path6 k).1, ?_⟩
    rw [(path6 k).2, if_neg (fun e => h5 e.symm), if_neg (fun e => h1 e.symm)]

end Verif.Kv.BetreeDemo
