import Verif.Kv.ByteReopen
import Verif.Kv.ByteDemo
/-
C61. A store on a disk of bytes can be opened again after any crash.

Specification: the client's view in Verif/Kv/Client.lean. With the disk as the repository specifies it the
claim is false: a read never succeeds on it, so no store is ever opened (`never_opens`). With the one step
of the disk that is commented out there it is true (`recoverable_partial`).
-/
namespace Verif.C61
open Verif.Kv Verif.Kv.ByteSystem
open Verif.Kv.BlockSystem (Label)
variable {Node : Type}

/-- **With the disk as written, no store ever opens.** In no execution does a client get an answer: all it
can do is ask for synchronisations that are never answered, and see crashes. -/
theorem never_opens {A : App Node} {ok : Node → Prop} {Abs : Graph Node → MapSpec.View → Prop}
    (hM : Composite.IsMap (KvSystem.graphs A ok) Abs) {c : Codec Node} {loc : Loc}
    {tr : List (Option (Label Node))} {s : State Node} (h : (machine A c ok loc false).Exec tr s) :
    (∀ l ∈ tr, ui l = .noop ∨ ui l = .crash ∨ ∃ id, ui l = .pushSync id) ∧
    (∀ r, s.j ≠ .ready r) ∧ ∀ o, s.j ≠ .other o := by
  obtain ⟨⟨l, hl, _⟩, _, h3⟩ := shut hM h
  exact ⟨h3, (fun r e => by rw [hl] at e; cases e), (fun o e => by rw [hl] at e; cases e)⟩

/-- **A store can be opened again after any crash, if reads can succeed.** Whatever the execution, if it ends
in a crash then there is a way, invisible from outside, to have both sides running again on the bytes left
on the disk: a state in memory that stands for a prefix of the client's history, and a journal about to
replay exactly the rest of it. What is missing from the claim: the disk as specified has no such reads. The
disk must be at least as long as its fixed areas. -/
theorem recoverable_partial {A : App Node} {ok : Node → Prop} {Abs : Graph Node → MapSpec.View → Prop}
    (hM : Composite.IsMap (KvSystem.graphs A ok) Abs) {c : Codec Node} {loc : Loc}
    {tr : List (Option (Label Node))} {s : State Node}
    (h : (machine A c ok loc true).Exec (tr ++ [some ⟨.crash, none⟩]) s)
    (hlen : table2Addr + tableMaxLength ≤ s.d.contents.length) :
    ∃ cl, Client.machine.Exec ((tr ++ [some (⟨.crash, none⟩ : Label Node)]).map ui) cl ∧
      ∃ tr' s' rb rj g done todo, (machine A c ok loc true).Run s tr' s' ∧ (∀ l ∈ tr', ui l = .noop) ∧
        s'.b = .ready rb ∧ s'.j = .ready rj ∧ s'.d.contents = s.d.contents ∧
        BlockSystem.ephGraph A ⟨s'.b, blockDisk c (byteOf s'.d.contents)⟩ = some g ∧
        cl.log = done ++ todo ∧ Abs g (contents done) ∧ rj.replay = todo := by
  have e := after_crash h
  generalize s.d.contents = cs at *
  subst e
  obtain ⟨cl, hcl, tr', rb, rj, g, done, todo, k1, k2, k3, k4, k5, k6⟩ := reopen hM h hlen
  exact ⟨cl, hcl, tr', _, rb, rj, g, done, todo, k1, k2, rfl, rfl, rfl, k3, k4, k5, k6⟩

/-! ### Concrete cases -/

/-- The run of Verif/Kv/ByteDemo.lean: a put is made and synchronised, and the system crashes. The disk is
long enough, and the store can be opened again with just that put to replay. -/
theorem demo : ∃ t0 s, ByteDemo.M.Exec (t0 ++ ByteDemo.trace) s ∧
    (∃ t, ByteDemo.trace = t ++ [some ⟨.crash, none⟩]) ∧
    table2Addr + tableMaxLength ≤ s.d.contents.length ∧
    ∃ tr' s' rb rj, ByteDemo.M.Run s tr' s' ∧ (∀ l ∈ tr', ui l = .noop) ∧
      s'.b = .ready rb ∧ s'.j = .ready rj ∧ rj.replay = [.insert [] []] := by
  obtain ⟨t0, _, h⟩ := ByteDemo.run0
  obtain ⟨tr, rb, rj, k1, k2, k3⟩ := ByteDemo.reopen2
  exact ⟨t0, _, h, ⟨ByteDemo.trace.take 12, rfl⟩, ByteDemo.length2, tr, _, rb, rj, k1, k2, rfl, rfl, k3⟩

/-- The same store on the disk as written: a superblock is read, other bytes come back, and the request to
synchronise stays open. -/
theorem demo_never : ∃ tr s, ByteDemo.M'.Exec tr s ∧ (∃ l ∈ tr, ui l = .pushSync 7) ∧
    ∃ l, s.j = .loading l ∧ l.got false = .corruption ∧ l.syncReqs 7 = some .s3 := by
  obtain ⟨s, h, k⟩ := ByteDemo.run1
  exact ⟨_, s, h, ⟨some ⟨.pushSync 7, some .noop⟩, by simp, rfl⟩, k⟩

end Verif.C61
