import Verif.Kv.StoreProof
/-
A run of the block store: load, change, freeze, write the image out, adopt it, crash, load the new
image and read the change back. No code is modelled here.
-/
namespace Verif.Kv.StoreDemo
open BlockSystem BlockCache

/-- Nodes of the demo application: a number and pointers. -/
structure Nd where
  v : Nat
  ps : List Ref

/-- The demo application allows every transaction. -/
def app : App Nd := ⟨fun n x => x ∈ n.ps, fun _ => True, fun _ _ _ => True⟩

def T1 : Loc := ⟨table1Addr, 4096⟩
def T2 : Loc := ⟨table2Addr, 8192⟩
def base : Nat := nodeBlockSize * minNodeBlockIndex
def N0 : Loc := ⟨base, 4096⟩
def N1 : Loc := ⟨base + nodeBlockSize, 4096⟩
def N2 : Loc := ⟨base + 2 * nodeBlockSize, 4096⟩

def n0 : Nd := ⟨0, []⟩
def n1 : Nd := ⟨1, [7]⟩
def leaf : Nd := ⟨42, []⟩
def t0 : Table := ⟨PMap.insert .empty 0 N0, PMap.insert .empty 0 []⟩

theorem vN0 : ValidNodeLoc N0 := by unfold ValidNodeLoc ValidNodeAddr N0 base; decide
theorem vN1 : ValidNodeLoc N1 := by unfold ValidNodeLoc ValidNodeAddr N1 base; decide
theorem vN2 : ValidNodeLoc N2 := by unfold ValidNodeLoc ValidNodeAddr N2 base; decide
theorem vT1 : ValidTableLoc T1 := by unfold ValidTableLoc ValidTableAddr T1; decide
theorem vT2 : ValidTableLoc T2 := by unfold ValidTableLoc ValidTableAddr T2; decide

theorem ins {K V : Type} [DecidableEq K] {m : PMap K V} {k x : K} {v w : V}
    (h : m.insert k v x = some w) : (x = k ∧ w = v) ∨ m x = some w := by
  unfold PMap.insert at h
  split at h
  · next he => cases h; exact .inl ⟨he, rfl⟩
  · exact .inr h

theorem ins0 {K V : Type} [DecidableEq K] {k x : K} {v w : V}
    (h : PMap.insert .empty k v x = some w) : x = k ∧ w = v := by
  rcases ins h with h | h
  · exact h
  · cases h

def d0 : BlockDisk.State Nd :=
  ⟨.empty, .empty, .empty, .empty, PMap.insert .empty T1 t0, PMap.insert .empty N0 n0⟩

theorem t0_wf : WFComplete t0 := by
  refine ⟨⟨?_, ?_, by simp [t0, rootRef], ?_⟩, ?_⟩
  · intro r l h; obtain ⟨_, rfl⟩ := ins0 h; exact vN0
  · intro r l h; obtain ⟨rfl, _⟩ := ins0 h; simp [t0]
  · intro r ss h x hx; obtain ⟨_, rfl⟩ := ins0 h; cases hx
  · intro r h
    obtain ⟨ss, hs⟩ := Option.ne_none_iff_exists'.mp h
    obtain ⟨rfl, _⟩ := ins0 hs; simp [t0]

theorem t0_dist : Distinct t0 := by
  intro r r' l l' h h' _
  obtain ⟨rfl, _⟩ := ins0 h; obtain ⟨rfl, _⟩ := ins0 h'; rfl

theorem t0_graph : PMap.insert .empty rootRef n0 = dcGraph t0 d0.nodes .empty := by
  funext x
  by_cases h : x = 0
  · subst h; simp [dcGraph, t0, d0, rootRef]
  · simp [dcGraph, t0, PMap.insert, rootRef, h]

theorem t0_agree : SuccAgree app t0.graph (PMap.insert .empty rootRef n0) := by
  constructor
  · intro r
    by_cases h : r = 0
    · subst h; simp [t0, rootRef]
    · simp [t0, PMap.insert, rootRef, h]
  · intro r ss n h1 h2 x
    obtain ⟨_, rfl⟩ := ins0 h1
    obtain ⟨_, rfl⟩ := ins0 h2
    simp [app, n0]

theorem image0 : Image app d0 T1 (PMap.insert .empty rootRef n0) :=
  ⟨vT1, t0, by simp [d0], t0_wf, t0_dist, t0_graph, t0_agree⟩

abbrev M := machine app (fun n => n = n0) T1

theorem init0 : M.Init ⟨.unready, d0⟩ :=
  ⟨rfl, ⟨rfl, rfl, rfl, rfl⟩, n0, image0, rfl, by simp [app, n0]⟩

/-- The table with the changed root and the new leaf. -/
def t1 (locs : PMap Ref Loc) : Table := ⟨locs, ((t0.graph.insert 7 []).insert 0 [7])⟩

/-- Both nodes of the new image have a location. -/
def newLocs : PMap Ref Loc := (PMap.insert .empty 0 N1).insert 7 N2

/-- The trace up to the crash and the reload. -/
def before : List (Label Nd) :=
  [⟨.sendPersistentLoc T1, some .receiveLoc⟩,
   ⟨.statesInternal, some .pageInTableReq⟩,
   ⟨.statesInternal, some .pageInTableResp⟩,
   ⟨.statesInternal, some (.pageInNodeReq 0)⟩,
   ⟨.statesInternal, some .pageInNodeResp⟩,
   ⟨.advance (.put [1] [42]) false, some (.transaction [(0, n0)] [.alloc 7 leaf, .write 0 n1])⟩,
   ⟨.freeze, some .freeze⟩,
   ⟨.statesInternal, some (.writeBackNodeReq 0)⟩,
   ⟨.statesInternal, some (.writeBackNodeReq 7)⟩,
   ⟨.statesInternal, some .writeBackNodeResp⟩,
   ⟨.statesInternal, some .writeBackNodeResp⟩,
   ⟨.statesInternal, some .writeBackTableReq⟩,
   ⟨.sendFrozenLoc T2, some .writeBackTableResp⟩,
   ⟨.cleanUp, some .cleanUp⟩]

/-- In memory after loading the first image. -/
def r0 : Ready Nd := ⟨t0, none, t0, T1, none, none, .empty, .empty, .empty⟩
/-- After paging in the root. -/
def r1 : Ready Nd := { r0 with cache := PMap.insert .empty 0 n0 }
/-- After the transaction. -/
def r2 : Ready Nd := { r0 with
  cache := ((PMap.insert .empty 0 n0).insert 7 leaf).insert 0 n1, eph := t1 .empty }
/-- After the freeze and the write back of both nodes. -/
def r3 : Ready Nd := { r2 with eph := t1 newLocs, frozen := some (t1 newLocs) }
/-- After the clean-up. -/
def r4 : Ready Nd := { r3 with
  persistent := t1 newLocs, persistentLoc := T2, frozen := none, frozenLoc := none }

/-- The disk after all that. -/
def d4 : BlockDisk.State Nd :=
  ⟨.empty, .empty, .empty, .empty, (PMap.insert .empty T1 t0).insert T2 (t1 newLocs),
    ((PMap.insert .empty N0 n0).insert N1 n1).insert N2 leaf⟩

theorem clear {V : Type} (v : V) : (PMap.insert (.empty : PMap Nat V) 0 v).remove 0 = .empty := by
  funext x; by_cases h : x = 0 <;> simp [PMap.remove, PMap.insert, h]

theorem clear2 {V : Type} (v w : V) :
    (((PMap.insert (.empty : PMap Nat V) 0 v).insert 1 w).remove 0).remove 1 = .empty := by
  funext x
  by_cases h : x = 0
  · subst h; simp [PMap.remove]
  · by_cases h1 : x = 1
    · subst h1; simp
    · simp [PMap.remove, PMap.insert, h, h1]

theorem upd {T : Type} {m : PMap Loc T} {l : Loc} {t : T} (hl : 0 < l.len) :
    BlockDisk.MapUpdate m (m.insert l t) l t := by
  refine ⟨by simp, fun x y hx ho => ?_⟩
  by_cases h : x = l
  · subst h
    exact absurd ⟨by omega, by omega⟩ ho
  · simpa [PMap.insert, h] using hx

theorem no_load {A : App Nd} {d : BlockDisk.State Nd} {v : VOp} (h : ∀ l, v ≠ .sendPersistentLoc l) :
    ∀ l, v = .sendPersistentLoc l → diskMap A d l ≠ none := fun l e => absurd e (h l)

/-- Load the first image. -/
theorem run1 : M.Run ⟨.unready, d0⟩ (before.take 3) ⟨.ready r0, d0⟩ := by
  have h : M.Run ⟨.unready, d0⟩ (before.take 3)
      ⟨.ready r0, { d0 with readT := (PMap.insert .empty 0 T1).remove 0 }⟩ :=
    .cons (.machine (.receiveLoc vT1) .stutter
      (by intro l hl; cases hl; show diskMap app d0 T1 ≠ none; rw [diskMap_some.mpr image0]; simp))
    (.cons (.machine (dop := .reqReadTable 0 T1) .pageInTableReq (.recvReadTable rfl)
      (no_load (by simp)))
    (.cons (.machine (dop := .respReadTable 0 (some t0)) (.pageInTableResp t0_wf t0_dist)
      (.ackReadTable (loc := T1) rfl (by intro x hx; cases hx; rfl)) (no_load (by simp))) (.nil _)))
  rw [clear] at h
  exact h

/-- Page in the root. -/
theorem run2 : M.Run ⟨.ready r0, d0⟩ ((before.drop 3).take 2) ⟨.ready r1, d0⟩ := by
  have h : M.Run ⟨.ready r0, d0⟩ ((before.drop 3).take 2)
      ⟨.ready { r1 with reads := (PMap.insert .empty 0 0).remove 0 },
        { d0 with readN := (PMap.insert .empty 0 N0).remove 0 }⟩ :=
    .cons (.machine (dop := .reqReadNode 0 N0) (.pageInNodeReq (by simp [r0, t0]) rfl rfl
      (by intro i x hx; cases hx)) (.recvReadNode rfl) (no_load (by simp)))
    (.cons (.machine (dop := .respReadNode 0 (some n0)) (.pageInNodeResp (ref := 0) (ss := []) rfl rfl rfl
      (by intro x; simp [app, n0]) trivial)
      (.ackReadNode (loc := N0) rfl (by intro x hx; cases hx; rfl)) (no_load (by simp))) (.nil _))
  rw [clear, clear] at h
  exact h

/-- Change the root and add a leaf. -/
theorem run3 : M.Run ⟨.ready r1, d0⟩ ((before.drop 5).take 1) ⟨.ready r2, d0⟩ := by
  have hl : t0.locs.remove 0 = .empty := clear N0
  have h1 : OpStep app r1 (.alloc 7 leaf) { r1 with
        cache := r1.cache.insert 7 leaf
        eph := ⟨r1.eph.locs, r1.eph.graph.insert 7 []⟩ } :=
    .alloc rfl rfl (by intro x hx; cases hx) (by intro x; simp [app, leaf])
  have h2 : OpStep app { r1 with
        cache := r1.cache.insert 7 leaf
        eph := ⟨r1.eph.locs, r1.eph.graph.insert 7 []⟩ } (.write 0 n1) { r1 with
        cache := (r1.cache.insert 7 leaf).insert 0 n1
        eph := ⟨r1.eph.locs.remove 0, (r1.eph.graph.insert 7 []).insert 0 [7]⟩ } :=
    .dirty (by simp [r1, PMap.insert]) (by simp [r1, r0, t0, PMap.insert])
      (by
        intro x hx
        have : x = 7 := by simpa [app, n1] using hx
        subst this; simp)
      (by intro t ht; cases ht) (by intro x; simp [app, n1])
  have h3 : Ops (OpStep app) r1 [.alloc 7 leaf, .write 0 n1] _ := .cons h1 (.cons h2 .nil)
  rw [show r1.eph.locs.remove 0 = .empty from hl] at h3
  exact .cons (.machine (dop := .none) (.transaction trivial (by
    intro x n hx
    have : x = 0 ∧ n = n0 := by simpa using hx
    obtain ⟨rfl, rfl⟩ := this
    exact ⟨by simp [r1, r0, t0], rfl⟩) h3) .stutter (no_load (by simp))) (.nil _)

/-- Both nodes written, both acknowledgements outstanding. -/
def rw : Ready Nd := { r3 with writes := (PMap.insert .empty 0 (0, N1)).insert 1 (7, N2) }
def dw : BlockDisk.State Nd := { d0 with
  writeN := (PMap.insert .empty 0 N1).insert 1 N2
  nodes := ((PMap.insert .empty N0 n0).insert N1 n1).insert N2 leaf }

theorem va {r : Ready Nd} {l : Loc} (hp : r.persistent = t0) (hl : N0.addr ≠ l.addr)
    (he : ∀ x y, r.eph.locs x = some y → y.addr ≠ l.addr)
    (hf : r.frozen = some r.eph)
    (hw : ∀ i x y, r.writes i = some (x, y) → y.addr ≠ l.addr) : ValidAllocation r l := by
  refine ⟨?_, he, ?_, hw⟩
  · intro x y h; rw [hp] at h; obtain ⟨_, rfl⟩ := ins0 h; exact hl
  · intro t ht; rw [hf] at ht; cases ht; exact he

/-- Freeze and write both nodes back. -/
theorem run4 : M.Run ⟨.ready r2, d0⟩ ((before.drop 6).take 3) ⟨.ready rw, dw⟩ := by
  have h1 : BlockCache.Next app (.ready r2) .none .freeze .freeze
      (.ready { r2 with frozen := some (t1 .empty) }) := .freeze rfl
  have a1 : assign (t1 .empty) 0 N1 = t1 (PMap.insert .empty 0 N1) := by
    simp [assign, t1]
  have a2 : assign (t1 (PMap.insert .empty 0 N1)) 7 N2 = t1 newLocs := by
    simp [assign, t1, newLocs, PMap.insert, t0]
  have h2 := Next.writeBackNodeReq (A := app) (r := { r2 with frozen := some (t1 .empty) }) (id := 0)
    (loc := N1) (n := n1) (ref := 0) rfl vN1 rfl
    (va rfl (by decide) (by intro x y h; cases h) rfl (by intro i x y h; cases h))
  have h3 := Next.writeBackNodeReq (A := app) (r := { r2 with
      frozen := some (t1 (PMap.insert .empty 0 N1)), eph := t1 (PMap.insert .empty 0 N1),
      writes := PMap.insert .empty 0 (0, N1) }) (id := 1)
    (loc := N2) (n := leaf) (ref := 7) (by simp [r2, PMap.insert]) vN2 rfl
    (va rfl (by decide) (by intro x y h; obtain ⟨_, rfl⟩ := ins0 h; decide) rfl
      (by intro i x y h; obtain ⟨_, e⟩ := ins0 h; cases e; decide))
  simp only [show r2.eph = t1 .empty from rfl, show r2.writes = .empty from rfl, Option.map_some, a1]
    at h2
  simp only [Option.map_some, a2] at h3
  exact .cons (.machine h1 .stutter (no_load (by simp)))
    (.cons (.machine h2 (.recvWriteNode rfl (upd (by decide))) (no_load (by simp)))
    (.cons (.machine h3 (.recvWriteNode rfl (upd (by decide))) (no_load (by simp))) (.nil _)))

/-- The acknowledgements. -/
theorem run5 : M.Run ⟨.ready rw, dw⟩ ((before.drop 9).take 2)
    ⟨.ready r3, { dw with writeN := .empty }⟩ := by
  have h : M.Run ⟨.ready rw, dw⟩ ((before.drop 9).take 2)
      ⟨.ready { rw with writes := (rw.writes.remove 0).remove 1 },
        { dw with writeN := (dw.writeN.remove 0).remove 1 }⟩ :=
    .cons (.machine (dop := .respWriteNode 0) (.writeBackNodeResp (by simp [rw, PMap.insert]))
      (.ackWriteNode (loc := N1) rfl) (no_load (by simp)))
    (.cons (.machine (dop := .respWriteNode 1)
      (.writeBackNodeResp (by simp [rw, PMap.insert, PMap.remove]))
      (.ackWriteNode (loc := N2) rfl) (no_load (by simp))) (.nil _))
  rw [show (rw.writes.remove 0).remove 1 = .empty from clear2 _ _,
    show (dw.writeN.remove 0).remove 1 = .empty from clear2 _ _] at h
  exact h

/-- Write the table, announce and adopt it. -/
theorem run6 : M.Run ⟨.ready r3, { dw with writeN := .empty }⟩ (before.drop 11) ⟨.ready r4, d4⟩ := by
  have h : M.Run ⟨.ready r3, { dw with writeN := .empty }⟩ (before.drop 11)
      ⟨.ready r4, { d4 with writeT := (PMap.insert .empty 0 T2).remove 0 }⟩ :=
    .cons (.machine (dop := .reqWriteTable 0 T2 (t1 newLocs)) (.writeBackTableReq rfl vT2 (by
        intro x hx
        by_cases h0 : x = 0
        · subst h0; simp [t1, newLocs, PMap.insert]
        · by_cases h7 : x = 7
          · subst h7; simp [t1, newLocs]
          · simp [t1, t0, PMap.insert, h0, h7] at hx) rfl rfl (by decide))
      (.recvWriteTable rfl (upd (by decide))) (no_load (by simp)))
    (.cons (.machine (dop := .respWriteTable 0) (.writeBackTableResp rfl rfl)
      (.ackWriteTable (loc := T2) rfl) (no_load (by simp)))
    (.cons (.machine (dop := .none) (.cleanUp (l := T2) (t := t1 newLocs) rfl rfl rfl) .stutter
      (no_load (by simp))) (.nil _)))
  rw [clear] at h
  exact h

theorem exec_before : M.Exec before ⟨.ready r4, d4⟩ :=
  ⟨_, init0, ((((run1.append run2).append run3).append run4).append run5).append run6⟩

/-- The old root's place is free by now: another copy of the root is being written there when the system
crashes, and what was there is scrambled. -/
def dc : BlockDisk.State Nd := ⟨.empty, .empty, .empty, .empty, d4.tables,
  (PMap.insert .empty N1 n1).insert N2 leaf⟩

/-- The whole trace. -/
def trace : List (Label Nd) :=
  before ++ [⟨.statesInternal, some (.writeBackNodeReq 0)⟩] ++ [⟨.crash, none⟩]

theorem exec_crash : M.Exec trace ⟨.unready, dc⟩ := by
  have h1 := Next.writeBackNodeReq (A := app) (r := r4) (id := 5) (loc := N0) (n := n1) (ref := 0) rfl
    vN0 rfl ⟨(by
      intro x y h; rcases ins h with ⟨_, rfl⟩ | h
      · decide
      · obtain ⟨_, rfl⟩ := ins0 h; decide), (by
      intro x y h; rcases ins h with ⟨_, rfl⟩ | h
      · decide
      · obtain ⟨_, rfl⟩ := ins0 h; decide), (by intro t ht; cases ht), (by intro i x y h; cases h)⟩
  refine (exec_before.snoc (.machine h1 (.recvWriteNode rfl (upd (by decide)))
    (no_load (by simp)))).snoc (.crash ⟨rfl, rfl, rfl, rfl, fun _ _ h _ => h, ?_⟩)
  intro l x h hn
  have hl : l ≠ N0 := by
    rintro rfl
    exact hn 5 N0 (by simp) (by decide)
  have h' : d4.nodes l = some x := by
    change d4.nodes.insert N0 n1 l = some x at h
    simpa [PMap.insert, hl] using h
  show ((PMap.insert .empty N1 n1).insert N2 leaf) l = some x
  simp only [d4, PMap.insert, hl, if_false] at h' ⊢
  exact h'

theorem disciplined : (Book.start T1).Disciplined (trace.map (·.vop)) := by
  simp [trace, before, Book.Disciplined, Book.start]

theorem book : ((Book.start T1).after (trace.map (·.vop))).ok T2 := by
  simp [trace, before, Book.after, Book.start, Book.step]

/-- What is stored at the new location: the changed root and the leaf. -/
theorem image_T2 {g : Graph Nd} (hg : diskMap app dc T2 = some g) :
    g 0 = some n1 ∧ g 7 = some leaf := by
  obtain ⟨t, ht, _, _, rfl⟩ := (diskMap_some.mp hg).toTable
  have : some (t1 newLocs) = some t := ht
  cases this
  constructor <;> rfl

/-- After a load nothing is cached and no node is being read. -/
theorem reload_empty {l : Loc} {s' : BlockSystem.State Nd} {r : Ready Nd} (h : M.Run ⟨.unready, dc⟩
      [⟨.sendPersistentLoc l, some .receiveLoc⟩, ⟨.statesInternal, some .pageInTableReq⟩,
        ⟨.statesInternal, some .pageInTableResp⟩] s') (hr : s'.m = .ready r) :
    r.cache = .empty ∧ r.reads = .empty ∧ s'.d.readN = .empty := by
  cases h with
  | cons h1 h =>
  cases h with
  | cons h2 h =>
  cases h with
  | cons h3 h =>
  cases h
  cases h1 with
  | machine a1 b1 _ =>
  cases a1
  cases b1
  cases h2 with
  | machine a2 b2 _ =>
  cases a2
  cases b2
  cases h3 with
  | machine a3 b3 _ =>
  cases a3
  cases b3
  cases hr
  exact ⟨rfl, rfl, rfl⟩

end Verif.Kv.StoreDemo
