import Verif.Kv.CompositeProof
import Verif.Kv.ClientProof
import Verif.Kv.StoreDemo
/-
C55. Images and journal together are a crash-tolerant map.

Specification: the client's view in Verif/Kv/Client.lean. It is one history of changes, of which a
prefix is durable; it knows nothing of images, journals or replay.
-/
namespace Verif.C55
open Verif.Kv Verif.Kv.Composite
variable {S : Type}

/-- **Acts as a map that survives crashes.** Take any states side that meets its promise over states
that stand for maps, and any journal side that meets its promise, and let them move on the same labels.
Then every execution is, from outside, one of the client's specification: queries and range queries are
answered from the history of puts and clones; a crash cuts the history at a point no earlier than
anything reported synchronised; a synchronisation is reported only when all that came before the request
is durable; and nothing is answered before the durable history has been replayed. -/
theorem acts_as_durable_map {M : SM S} {Abs : S → MapSpec.View → Prop} (hM : IsMap M Abs) {loc : Loc}
    {tr : List VOp} {s : State S} (h : (machine M loc).Exec tr s) :
    ∃ c, Client.machine.Exec (tr.map VOp.ui) c := by
  obtain ⟨c, _, _, _, _, _, _, _, h4⟩ := exec_client hM h
  exact ⟨client c, h4⟩

/-- The same for the states side over the map itself, as in the code. -/
theorem composite_map {loc : Loc} {tr : List VOp} {s : State MapSpec.View}
    (h : (machine MapSpec.sm loc).Exec tr s) : ∃ c, Client.machine.Exec (tr.map VOp.ui) c :=
  acts_as_durable_map (Abs := fun g m => g = m)
    ⟨fun _ h => h, fun _ m u g' h hn => ⟨g', h ▸ hn, rfl⟩⟩ h

/-- **The running state is the history.** Once the replay is over, the state in memory stands for the
map that the client's history gives. -/
theorem current {M : SM S} {Abs : S → MapSpec.View → Prop} (hM : IsMap M Abs) {loc : Loc}
    {tr : List VOp} {s : State S} (h : (machine M loc).Exec tr s) {g : S}
    (hg : s.tsm.ephemeral = some g) (hr : s.jc.j3 = []) :
    ∃ c, Client.machine.Exec (tr.map VOp.ui) c ∧ Abs g (contents c.log) := by
  obtain ⟨c, _, _, p3, _, _, h2, h3, h4⟩ := exec_client hM h
  refine ⟨client c, h4, ?_⟩
  have := h2.three g hg
  have e : c.log.take c.cursor = c.log := by
    have h5 := h3.three
    rw [hr, List.append_nil] at h5
    rw [h3.cursor, ← h5, List.take_length]
  rwa [e] at this

/-- **Synchronised changes are kept for good.** In the client's specification, all changes from before a
synchronisation request are still there, at the same place in the history, at any time after the
request was answered, whatever crashes come after. -/
theorem synced_is_kept {c c' : Client} {id : Nat} {mid post : List UIOp}
    (h : Client.machine.Run c (.pushSync id :: mid ++ .popSync id :: post) c')
    (hm : UIOp.crash ∉ mid) : c.log <+: c'.log :=
  Client.synced h hm

/-! ### Concrete case -/

open StoreDemo (T1 T2)

/-- The map after one put. -/
def one : MapSpec.View := fun x => if x = [1] then [2] else []
/-- The map after two puts. -/
def two : MapSpec.View := fun x => if x = [1] then [3] else one x

/-- The labels of the run. -/
def trace : List VOp :=
  [.sendPersistentLoc T1, .advance (.put [1] [2]) false, .pushSync 5, .freeze, .statesInternal,
   .sendFrozenLoc T2, .journalInternal, .popSync 5, .cleanUp, .advance (.put [1] [3]) false,
   .advance (.get [1] [3]) false, .crash, .sendPersistentLoc T2, .advance (.get [1] [2]) false,
   .advance (.succ .negInf [([1], [2])] .posInf) false]

/-- Put, synchronise by writing an image, put again, crash, load: the first put is back and the second
is gone, and the client's specification has this history. -/
theorem demo : (∃ s, (machine MapSpec.sm T1).Exec trace s) ∧
    ∃ c, Client.machine.Exec (trace.map VOp.ui) c ∧ contents c.log [1] = [2] := by
  have he : ∃ s, (machine MapSpec.sm T1).Exec trace s ∧ s.tsm.ephemeral = some one ∧ s.jc.j3 = [] := by
    have hne : T1 ≠ T2 := by decide
    let D0 : PMap Loc MapSpec.View := PMap.insert .empty T1 (fun _ => [])
    let D1 : PMap Loc MapSpec.View := D0.insert T2 one
    let D2 : PMap Loc MapSpec.View := PMap.insert .empty T2 one
    let e1 : Entry := .insert [1] [2]
    let e2 : Entry := .insert [1] [3]
    let Q : PMap Nat SyncStatus := PMap.insert .empty 5 .s3
    have hD0 : D0 T1 = some (fun _ => []) := PMap.insert_same _ _ _
    have hD1 : D1 T1 = some (fun _ => []) := (PMap.insert_other _ _ hne).trans hD0
    have hD1' : D1 T2 = some one := PMap.insert_same _ _ _
    have hD2 : D2 T2 = some one := PMap.insert_same _ _ _
    have k1 : StatesView.DiskKept (S := MapSpec.View) ⟨D0, some T1, none, some one, some one⟩
        ⟨D1, some T1, none, some one, some one⟩ := by
      refine ⟨fun h => (by cases h), fun l hl => ?_, fun l hl => (by cases hl)⟩
      cases hl
      exact ⟨fun _ => [], hD0, hD1⟩
    have k2 : StatesView.DiskKept (S := MapSpec.View) ⟨D1, some T2, none, none, some two⟩
        ⟨D2, some T2, none, none, some two⟩ := by
      refine ⟨fun h => (by cases h), fun l hl => ?_, fun l hl => (by cases hl)⟩
      cases hl
      exact ⟨one, hD1', hD2⟩
    refine ⟨⟨⟨D2, some T2, none, none, some one⟩, ⟨[], [], [], [], [], T2, none, .empty⟩⟩,
      ⟨⟨⟨D0, none, none, none, none⟩, ⟨[], [], [], [], [], T1, none, .empty⟩⟩, ?_, ?_⟩, rfl, rfl⟩
    · exact ⟨⟨⟨_, hD0, rfl⟩, rfl, rfl, rfl, rfl⟩, rfl⟩
    · refine .cons (s' := ⟨⟨D0, some T1, none, none, some (fun _ => [])⟩,
        ⟨[], [], [], [], [], T1, none, .empty⟩⟩) ⟨.obtain_ rfl hD0, .present⟩ ?_
      refine .cons (s' := ⟨⟨D0, some T1, none, none, some one⟩,
        ⟨[], [], [], [], [e1], T1, none, .empty⟩⟩)
        ⟨.advance rfl MapSpec.Next.write, JournalView.Next.move3 (u := .put [1] [2]) rfl⟩ ?_
      refine .cons (s' := ⟨⟨D0, some T1, none, none, some one⟩,
        ⟨[], [], [], [], [e1], T1, none, Q⟩⟩) ⟨.stutterPush, .pushSync rfl⟩ ?_
      refine .cons (s' := ⟨⟨D0, some T1, none, some one, some one⟩,
        ⟨[], [], [], [e1], [], T1, none, Q.mapVal .to2⟩⟩) ⟨.freeze, .move2to3 (by simp)⟩ ?_
      refine .cons (s' := ⟨⟨D1, some T1, none, some one, some one⟩,
        ⟨[], [], [], [e1], [], T1, none, Q.mapVal .to2⟩⟩) ⟨.diskChange k1, .stutterS⟩ ?_
      refine .cons (s' := ⟨⟨D1, some T1, some T2, some one, some one⟩,
        ⟨[], [], [], [e1], [], T1, some T2, Q.mapVal .to2⟩⟩)
        ⟨.provideFrozen rfl rfl hD1', .obtainFrozen⟩ ?_
      refine .cons (s' := ⟨⟨D1, some T1, some T2, some one, some one⟩,
        ⟨[], [], [], [], [], T2, some T2, (Q.mapVal .to2).mapVal .to1⟩⟩)
        ⟨.stutterJ, .move1to2 rfl⟩ ?_
      refine .cons (s' := ⟨⟨D1, some T1, some T2, some one, some one⟩,
        ⟨[], [], [], [], [], T2, some T2, ((Q.mapVal .to2).mapVal .to1).remove 5⟩⟩)
        ⟨.stutterPop, .popSync rfl⟩ ?_
      refine .cons (s' := ⟨⟨D1, some T2, none, none, some one⟩,
        ⟨[], [], [], [], [], T2, none, ((Q.mapVal .to2).mapVal .to1).remove 5⟩⟩)
        ⟨.forgetOld, .cleanUp rfl⟩ ?_
      refine .cons (s' := ⟨⟨D1, some T2, none, none, some two⟩,
        ⟨[], [], [], [], [e2], T2, none, ((Q.mapVal .to2).mapVal .to1).remove 5⟩⟩)
        ⟨.advance rfl MapSpec.Next.write, JournalView.Next.move3 (u := .put [1] [3]) rfl⟩ ?_
      refine .cons (s' := ⟨⟨D1, some T2, none, none, some two⟩,
        ⟨[], [], [], [], [e2], T2, none, ((Q.mapVal .to2).mapVal .to1).remove 5⟩⟩)
        ⟨.advance rfl (MapSpec.Next.query (by simp [two])),
          JournalView.Next.move3 (u := .get [1] [3]) rfl⟩ ?_
      refine .cons (s' := ⟨⟨D2, none, none, none, none⟩, ⟨[], [], [], [], [], T2, none, .empty⟩⟩)
        ⟨.crash k2, .crash⟩ ?_
      refine .cons (s' := ⟨⟨D2, some T2, none, none, some one⟩,
        ⟨[], [], [], [], [], T2, none, .empty⟩⟩) ⟨.obtain_ rfl hD2, .present⟩ ?_
      refine .cons (s' := ⟨⟨D2, some T2, none, none, some one⟩,
        ⟨[], [], [], [], [], T2, none, .empty⟩⟩) ⟨.advance rfl (MapSpec.Next.query (by simp [one])),
          JournalView.Next.move3 (u := .get [1] [2]) rfl⟩ ?_
      refine .cons (s' := ⟨⟨D2, some T2, none, none, some one⟩,
        ⟨[], [], [], [], [], T2, none, .empty⟩⟩)
        ⟨.advance rfl (MapSpec.Next.succ (start := .negInf) (stop := .posInf) trivial ?_ ?_ ?_ ?_ ?_), JournalView.Next.move3
          (u := .succ .negInf [([1], [2])] .posInf) rfl⟩ (.nil _)
      · intro i h; simp at h; subst h; simp [one]
      · intro i h; simp at h; subst h; simp
      · intro i h; exact ⟨trivial, trivial⟩
      · intro i j hi hj hij; simp at hi hj; omega
      · intro k _ hk
        refine ⟨0, by simp, ?_⟩
        by_cases e : k = [1]
        · simp [e]
        · simp [one, e] at hk
  obtain ⟨s, h1, h2, h3⟩ := he
  obtain ⟨c, h4, h5⟩ := current (Abs := fun g m => g = m)
    ⟨fun _ h => h, fun _ m u g' h hn => ⟨g', h ▸ hn, rfl⟩⟩ h1 h2 h3
  exact ⟨⟨s, h1⟩, c, h4, by rw [← h5]; simp [one]⟩

end Verif.C55
