import Verif.Kv.SystemProof
import Verif.Kv.JournalDemo
/-
A small application on the whole system, and a run of it: one node that holds everything. No code is
modelled here.
-/
namespace Verif.Kv.SystemDemo
open BlockSystem BlockCache KvSystem
open StoreDemo (T1 T2 N0 vT1 t0 t0_wf t0_dist clear ins0)
open JournalDemo (f0 wf0 sel0 blk1 parse1)

/-- What a transaction may do: read the root and append to it. -/
inductive Valid : UIOp → List (Ref × List Entry) → List (GOp (List Entry)) → Prop
  | put {n k v} : Valid (.put k v) [(0, n)] [.write 0 (n ++ [.insert k v])]
  | clone {n a b} : Valid (.clone a b) [(0, n)] [.write 0 (n ++ [.clone a b])]
  | get {n k v} : v = contents n k → Valid (.get k v) [(0, n)] []
  | noop {reads} : Valid .noop reads []

/-- The application: a node is a history of changes. -/
def flat : App (List Entry) := ⟨fun _ _ => False, fun _ => True, Valid⟩

/-- The graph is just the root, and the map is what its history gives. -/
def Abs (g : Graph (List Entry)) (m : MapSpec.View) : Prop :=
  ∃ n, g = PMap.insert .empty rootRef n ∧ m = contents n

theorem isMap : Composite.IsMap (graphs flat (fun n => n = [])) Abs := by
  constructor
  · rintro g ⟨n, rfl, rfl, _⟩
    exact ⟨[], rfl, rfl⟩
  · rintro g m u g' ⟨n, rfl, rfl⟩ (⟨reads, ops, hv, hr, ho⟩ | ⟨_, ref, h1, h2, _⟩)
    · have wr : ∀ {x : List Entry} {g'}, Ops (GStep flat) (PMap.insert .empty rootRef n)
          [.write 0 x] g' → g' = PMap.insert .empty rootRef x := by
        intro x g' h
        cases h with
        | cons h1 h2 =>
          cases h2
          cases h1
          funext y
          by_cases e : y = 0
          · subst e; simp [rootRef]
          · simp [PMap.insert, rootRef, e]
      cases hv with
      | @put x k v =>
        have := hr 0 x (by simp)
        have e : n = x := by simpa [rootRef] using this
        subst e
        exact ⟨_, .write, _, wr ho, Composite.next_contents rfl .write⟩
      | @clone x a b =>
        have := hr 0 x (by simp)
        have e : n = x := by simpa [rootRef] using this
        subst e
        exact ⟨_, .clone, _, wr ho, Composite.next_contents rfl .clone⟩
      | @get x k v hv =>
        have := hr 0 x (by simp)
        have e : n = x := by simpa [rootRef] using this
        subst e
        cases ho
        exact ⟨_, .query hv, n, rfl, rfl⟩
      | noop => cases ho; exact ⟨_, .stutter, n, rfl, rfl⟩
    · exact absurd (by simp [PMap.insert, PMap.empty, h2]) h1

/-- The block disk at first. -/
def bd0 : BlockDisk.State (List Entry) :=
  ⟨.empty, .empty, .empty, .empty, PMap.insert .empty T1 t0, PMap.insert .empty N0 []⟩

theorem image0 : Image flat bd0 T1 (PMap.insert .empty rootRef []) := by
  refine ⟨vT1, t0, by simp [bd0], t0_wf, t0_dist, ?_, ?_⟩
  · funext x
    by_cases h : x = 0
    · subst h; simp [dcGraph, t0, bd0, rootRef]
    · simp [dcGraph, t0, PMap.insert, rootRef, h]
  · constructor
    · intro r
      by_cases h : r = 0
      · subst h; simp [t0, rootRef]
      · simp [t0, PMap.insert, rootRef, h]
    · intro r ss n h1 h2 x
      obtain ⟨_, rfl⟩ := ins0 h1
      simp [flat]

/-- The machine. -/
abbrev M := KvSystem.machine flat (fun n => n = []) T1

theorem init0 : M.Init ⟨⟨.unready, bd0⟩, ⟨JournalCache.start, JournalDemo.d0⟩⟩ :=
  ⟨⟨rfl, ⟨rfl, rfl, rfl, rfl⟩, [], image0, rfl, fun _ h => h⟩, JournalDemo.init0⟩

def e1 : Entry := .insert [] []
def e2 : Entry := .insert [1] [2]

/-- In memory after the table was loaded. -/
def r0 : Ready (List Entry) := ⟨t0, none, t0, T1, none, none, .empty, .empty, .empty⟩
/-- With the root in the cache. -/
def r1 : Ready (List Entry) := { r0 with cache := PMap.insert .empty 0 [] }
/-- After the first put. -/
def r2 : Ready (List Entry) := { r0 with
  cache := r1.cache.insert 0 ([] ++ [e1])
  eph := ⟨t0.locs.remove 0, t0.graph.insert 0 []⟩ }
/-- After the second put. -/
def r3 : Ready (List Entry) := { r0 with
  cache := r2.cache.insert 0 ([e1] ++ [e2])
  eph := ⟨(t0.locs.remove 0).remove 0, (t0.graph.insert 0 []).insert 0 []⟩ }

theorem dirty1 : OpStep flat r1 (.write 0 ([] ++ [e1])) r2 :=
  .dirty (by simp [r1]) (by simp [r1, r0, t0]) (fun _ h => h.elim) (by intro t ht; cases ht)
    (by intro x; simp [flat])

theorem dirty2 : OpStep flat r2 (.write 0 ([e1] ++ [e2])) r3 :=
  .dirty (by simp [r2]) (by simp [r2]) (fun _ h => h.elim) (by intro t ht; cases ht)
    (by intro x; simp [flat])

/-- The labels of the run. -/
def trace : List (Label (List Entry)) :=
  [⟨.journalInternal, some .noop⟩, ⟨.journalInternal, some .noop⟩, ⟨.journalInternal, some .noop⟩,
   ⟨.journalInternal, some .noop⟩, ⟨.sendPersistentLoc T1, some .receiveLoc⟩,
   ⟨.journalInternal, some .noop⟩, ⟨.statesInternal, some .pageInTableReq⟩,
   ⟨.statesInternal, some .pageInTableResp⟩, ⟨.statesInternal, some (.pageInNodeReq 0)⟩,
   ⟨.statesInternal, some .pageInNodeResp⟩,
   ⟨.advance (.put [] []) false, some (.transaction [(0, [])] [.write 0 ([] ++ [e1])])⟩,
   ⟨.pushSync 7, some .noop⟩, ⟨.journalInternal, some .noop⟩, ⟨.journalInternal, some .noop⟩,
   ⟨.journalInternal, some .noop⟩, ⟨.journalInternal, none⟩, ⟨.journalInternal, some .noop⟩,
   ⟨.popSync 7, some .noop⟩,
   ⟨.advance (.put [1] [2]) false, some (.transaction [(0, [e1])] [.write 0 ([e1] ++ [e2])])⟩,
   ⟨.advance (.get [1] [2]) false, some (.transaction [(0, [e1] ++ [e2])] [])⟩,
   ⟨.crash, none⟩]

theorem finish0 {l : JournalCache.Loading} {d : JournalDisk.State}
    (h : ∀ w, l.got w = .success (f0 w)) :
    KvSystem.Next flat ⟨⟨.unready, bd0⟩, ⟨.loading l, d⟩⟩ ⟨.sendPersistentLoc T1, some .receiveLoc⟩
      ⟨⟨.loading T1 none, bd0⟩,
        ⟨.other ⟨f0 true, true, fun _ => none, fun _ => none, l.syncReqs⟩, d⟩⟩ := by
  have hj := JournalCache.Next.finishSb (f := f0) h
  rw [sel0] at hj
  exact .machine (.receiveLoc vT1) .stutter hj .stutter

theorem run0 : ∃ s, M.Exec trace s ∧ s.b.m = .unready ∧ s.j.m = JournalCache.start ∧
    s.j.d.sb = setAt (fun w => some (f0 w)) false (some ⟨2, 0, 1, T1⟩) ∧
    s.j.d.journal 0 = some blk1 := by
  have idle : ∀ {m : BlockCache.State (List Entry)} {v}, v = .statesInternal ∨ v = .journalInternal ∨
      (∃ i, v = .pushSync i) ∨ (∃ i, v = .popSync i) →
      BlockCache.Next flat m .none v .noop m := fun h => .noop h (.inl rfl)
  have jd : ∀ {m : BlockCache.State (List Entry)},
      BlockCache.Next flat m .none .journalInternal .noop m := idle (.inr (.inl rfl))
  have sd : ∀ {m}, JournalCache.Next m .none .statesInternal m := .noop (.inr rfl) (.inl rfl)
  have r : M.Run ⟨⟨.unready, bd0⟩, ⟨JournalCache.start, JournalDemo.d0⟩⟩ trace
      ⟨⟨.unready, { bd0 with readT := .empty }⟩, ⟨JournalCache.start, {
        readSb := fun _ _ => False
        readJ := .empty
        writeSb := fun _ => none
        writeJ := .empty
        sb := setAt (fun w => some (f0 w)) false (some ⟨2, 0, 1, T1⟩)
        journal := splice (fun _ => none) 0 [blk1] }⟩⟩ := by
    unfold trace
    refine .cons (.machine jd .stutter (jdop := .reqReadSb 0 false) (.pageSb rfl rfl)
      (.recvReadSb (fun x h => h))) ?_
    refine .cons (.machine jd .stutter (jdop := .respReadSb 0 false (some (f0 false)))
      (.pageSbOk (by simp [setAt]) (wf0 _))
      (.ackReadSb (by simp [setAt]) (by intro x hx; cases hx; rfl))) ?_
    refine .cons (.machine jd .stutter (jdop := .reqReadSb 0 true) (.pageSb rfl rfl)
      (.recvReadSb (by intro x; cases x <;> simp [setAt, JournalDemo.d0]))) ?_
    refine .cons (.machine jd .stutter (jdop := .respReadSb 0 true (some (f0 true)))
      (.pageSbOk (by simp [setAt]) (wf0 _))
      (.ackReadSb (by simp [setAt]) (by intro x hx; cases hx; rfl))) ?_
    refine .cons (finish0 (by intro w; cases w <;> rfl)) ?_
    refine .cons (.machine jd .stutter (.finishOther (p := 0) (replay := [])
      (by simp [f0, numJournalBlocks]) (by simp [f0])
      (by intro w; cases w <;> simp [JournalCache.part, f0])
      (by simp [JournalCache.fullRange, JournalCache.part, f0, parse_nil])) .stutter) ?_
    refine .cons (.machine (bdop := .reqReadTable 0 T1) .pageInTableReq (.recvReadTable rfl)
      sd .stutter) ?_
    refine .cons (.machine (bdop := .respReadTable 0 (some t0)) (.pageInTableResp t0_wf t0_dist)
      (.ackReadTable (loc := T1) rfl (by intro x hx; cases hx; rfl)) sd .stutter) ?_
    refine .cons (.machine (bdop := .reqReadNode 0 N0) (.pageInNodeReq (by simp [t0]) rfl rfl
      (by intro i x hx; cases hx)) (.recvReadNode rfl) sd .stutter) ?_
    refine .cons (.machine (bdop := .respReadNode 0 (some [])) (.pageInNodeResp (ref := 0) (ss := [])
      rfl rfl rfl (by intro x; simp [flat]) trivial)
      (.ackReadNode (loc := N0) rfl (by intro x hx; cases hx; rfl)) sd .stutter) ?_
    simp only [clear]
    refine .cons (.machine (.transaction (r := r1) (r' := r2) .put (by
        intro x n hx
        obtain ⟨rfl, rfl⟩ := Prod.mk.inj (List.mem_singleton.mp hx)
        exact ⟨by simp [r1, r0, t0], by simp [r1]⟩) (.cons dirty1 .nil)) .stutter
      (.advance rfl) .stutter) ?_
    refine .cons (.machine (idle (.inr (.inr (.inl ⟨_, rfl⟩)))) .stutter
      (.pushSync (by simp [JournalCache.State.syncReqs, PMap.empty])) .stutter) ?_
    refine .cons (.machine jd .stutter (jdop := .reqWriteJ 1 none 0 [blk1])
      (.writeJournal (jr := [blk1]) rfl parse1 (by simp [f0, numJournalBlocks]) (by simp) rfl
        (by simp [f0, numJournalBlocks]) (by simp [f0]))
      (.recvWriteJ1 rfl (by simp [numJournalBlocks]) (by simp [numJournalBlocks]))) ?_
    refine .cons (.machine jd .stutter (jdop := .respWriteJ 1)
      (.writeJournalResp (by simp [JournalCache.ids])) (.ackWriteJ (by simp; rfl))) ?_
    refine .cons (.machine jd .stutter (jdop := .reqWriteSb 2 false ⟨2, 0, 1, T1⟩)
      (.advanceLog rfl (by simp [JournalCache.ids]) rfl (by simp [f0, numJournalBlocks])
        (by simp [f0, JournalCache.incr]))
      (.recvWriteSb (by intro x i b h; cases h))) ?_
    refine .cons (.disk (.process (w := false) (id := 2) (sb := ⟨2, 0, 1, T1⟩) rfl)) ?_
    refine .cons (.machine jd .stutter (jdop := .respWriteSb 2 false) (.logResp rfl rfl rfl)
      (.ackWriteSb (sb := ⟨2, 0, 1, T1⟩) rfl rfl)) ?_
    refine .cons (.machine (idle (.inr (.inr (.inr ⟨_, rfl⟩)))) .stutter (.popSync rfl) .stutter) ?_
    refine .cons (.machine (.transaction (r := r2) (r' := r3) .put (by
        intro x n hx
        obtain ⟨rfl, rfl⟩ := Prod.mk.inj (List.mem_singleton.mp hx)
        exact ⟨by simp [r2], by simp [r2]⟩) (.cons dirty2 .nil)) .stutter
      (.advance rfl) .stutter) ?_
    refine .cons (.machine (.transaction (r := r3) (.get (by simp [contents, Entry.apply, e1, e2])) (by
        intro x n hx
        obtain ⟨rfl, rfl⟩ := Prod.mk.inj (List.mem_singleton.mp hx)
        exact ⟨by simp [r3], by simp [r3]⟩) .nil) .stutter (.advance rfl) .stutter) ?_
    refine .cons (KvSystem.Next.crash ?_ ?_) (.nil _)
    · exact ⟨rfl, rfl, rfl, rfl, fun _ _ h _ => h, fun _ _ h _ => h⟩
    · exact ⟨⟨fun _ _ h => h, rfl, fun _ => rfl, rfl⟩, rfl, fun _ _ _ => rfl⟩
  exact ⟨_, ⟨_, init0, r⟩, rfl, rfl, rfl, rfl⟩

end Verif.Kv.SystemDemo
