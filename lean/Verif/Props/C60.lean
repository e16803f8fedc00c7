import Verif.Kv.ByteReopen
import Verif.Kv.ByteDemo
import Verif.Props.C56
/-
C60. The store is a crash-tolerant map on a disk of bytes, and its requests never collide on that disk.

Specification: the client's view in Verif/Kv/Client.lean. The disk is the one of
ByteBlockCacheSystem/AsyncDiskModel.s.dfy (Verif/Kv/ByteDisk.lean): bytes, requests in flight served in any
order, reads that may fail in ways a checksum shows, and anything at all once two requests collide.
-/
namespace Verif.C60
open Verif.Kv Verif.Kv.ByteSystem
open Verif.Kv.BlockSystem (Label)
variable {Node : Type}

/-- **On a disk of bytes, the store acts as a map that survives crashes.** Whatever the checksum and the
parser of sectors are, whether reads can succeed or not, and however the disk serves requests, every
execution is from outside one of the client's specification. -/
theorem acts_as_durable_map {A : App Node} {ok : Node → Prop} {Abs : Graph Node → MapSpec.View → Prop}
    (hM : Composite.IsMap (KvSystem.graphs A ok) Abs) {c : Codec Node} {loc : Loc} {kind : ByteDisk.Kind}
    {tr : List (Option (Label Node))} {s : State Node} (h : (machine A c ok loc kind).Exec tr s) :
    ∃ cl, Client.machine.Exec (tr.map ui) cl := by
  obtain ⟨t, bd, jd, E, h1, _, h3⟩ := exec_sim hM h
  obtain ⟨cl, hcl⟩ := C56.acts_as_durable_map hM h1
  exact ⟨cl, by rw [← map_ui h3]; exact hcl⟩

/-- **Synchronised changes stay.** As C56, on bytes. -/
theorem synced_is_kept {A : App Node} {ok : Node → Prop} {Abs : Graph Node → MapSpec.View → Prop}
    (hM : Composite.IsMap (KvSystem.graphs A ok) Abs) {c : Codec Node} {loc : Loc} {kind : ByteDisk.Kind}
    {pre mid post : List (Option (Label Node))} {s : State Node} {id : Nat} {l1 l2 : Option (Label Node)}
    (h1 : ui l1 = .pushSync id) (h2 : ui l2 = .popSync id) (hm : ∀ l ∈ mid, ui l ≠ .crash)
    (h : (machine A c ok loc kind).Exec (pre ++ (l1 :: mid ++ l2 :: post)) s) :
    ∃ cl cl', Client.machine.Exec (pre.map ui) cl ∧
      Client.machine.Exec ((pre ++ (l1 :: mid ++ l2 :: post)).map ui) cl' ∧ cl.log <+: cl'.log := by
  obtain ⟨c', ⟨c0, hi, hr⟩⟩ := acts_as_durable_map hM h
  have hr' := hr
  rw [List.map_append] at hr'
  obtain ⟨cl, ha, hb⟩ := Machine.Run.split _ hr'
  refine ⟨cl, c', ⟨c0, hi, ha⟩, ⟨c0, hi, hr⟩, ?_⟩
  have hb' : Client.machine.Run cl (.pushSync id :: mid.map ui ++ .popSync id :: post.map ui) c' := by
    simpa [h1, h2] using hb
  refine Client.synced hb' ?_
  intro hx
  obtain ⟨l, hl, e⟩ := List.mem_map.mp hx
  exact hm l hl e

/-- **Requests never collide.** At no time are two writes in flight to bytes they share, nor a read and a
write; so the steps of the disk after which anything may be on it never happen. -/
theorem no_conflict {A : App Node} {ok : Node → Prop} {Abs : Graph Node → MapSpec.View → Prop}
    (hM : Composite.IsMap (KvSystem.graphs A ok) Abs) {c : Codec Node} {loc : Loc} {kind : ByteDisk.Kind}
    {tr : List (Option (Label Node))} {s : State Node} (h : (machine A c ok loc kind).Exec tr s) :
    (∀ i j w w', s.d.reqWrites i = some w → s.d.reqWrites j = some w' → i ≠ j →
      ∀ a, ¬ (w.addr ≤ a ∧ a < w.addr + w.bytes.length ∧ w'.addr ≤ a ∧ a < w'.addr + w'.bytes.length)) ∧
    (∀ i j w l, s.d.reqWrites i = some w → s.d.reqReads j = some l →
      ∀ a, ¬ (w.addr ≤ a ∧ a < w.addr + w.bytes.length ∧ l.addr ≤ a ∧ a < l.addr + l.len)) := by
  obtain ⟨_, h2, h3, _, _⟩ := exec_sane hM h
  constructor
  · intro i j w w' hi hj hne a ha
    apply h2 i j w w' hi hj hne
    unfold overlap ByteDisk.Data.loc
    dsimp only
    omega
  · intro i j w l hi hj a ha
    apply h3 j i l w hj hi
    unfold overlap ByteDisk.Data.loc
    dsimp only
    omega

/-! ### Concrete case -/

theorem invisible_entries {t : List (Option (Label Node))} (h : Invisible t) :
    (t.map ui).flatMap UIOp.entries = [] := by
  induction t with
  | nil => rfl
  | cons x t ih =>
    rw [List.map_cons, List.flatMap_cons, h x List.mem_cons_self,
      ih fun l hl => h l (List.mem_cons_of_mem _ hl)]
    rfl

/-- The run of Verif/Kv/ByteDemo.lean, on a disk of bytes: the store is opened, a put is made and
synchronised through a journal block and a superblock, and the system crashes. The client's history then is
that put. -/
theorem demo : ∃ t0 s cl, ByteDemo.M.Exec (t0 ++ ByteDemo.trace) s ∧
    Client.machine.Exec ((t0 ++ ByteDemo.trace).map ui) cl ∧ cl.log = [.insert [] []] := by
  obtain ⟨t0, hi, h⟩ := ByteDemo.run0
  have e : t0 ++ ByteDemo.trace = (t0 ++ ByteDemo.trace.take 4) ++ (some ⟨.pushSync 7, some .noop⟩ ::
      (ByteDemo.trace.drop 5).take 6 ++ some ⟨.popSync 7, some .noop⟩ :: [some ⟨.crash, none⟩]) := by
    rw [List.append_assoc]; rfl
  have h' := h
  rw [e] at h'
  obtain ⟨c1, c2, k1, k2, k3⟩ := synced_is_kept SystemDemo.isMap rfl rfl (by
    intro l hl
    simp only [ByteDemo.trace, List.drop, List.take, List.mem_cons, List.not_mem_nil, or_false] at hl
    rcases hl with rfl | rfl | rfl | rfl | rfl | rfl <;> (intro hc; cases hc)) h'
  rw [← e] at k2
  refine ⟨t0, _, c2, h, k2, ?_⟩
  have hne : c1.log ≠ [] := by
    obtain ⟨c0, _, hr⟩ := k1
    have : (t0 ++ ByteDemo.trace.take 4).map ui =
        (t0 ++ ByteDemo.trace.take 3).map ui ++ [.put [] []] := by
      rw [List.map_append, List.map_append, List.append_assoc]; rfl
    rw [this] at hr
    obtain ⟨_, _, hr2⟩ := Machine.Run.split _ hr
    cases hr2 with
    | cons hs hr3 =>
      cases hr3
      cases hs
      simp
  obtain ⟨c0, hc0, hr⟩ := k2
  have hsub := C56.run_sublist hr
  rw [show c0 = _ from hc0, List.map_append, List.flatMap_append, invisible_entries hi] at hsub
  have hsub : c2.log.Sublist [SystemDemo.e1] := hsub
  have hne2 : c2.log ≠ [] := fun hc => by
    rw [hc] at k3
    exact hne (List.prefix_nil.mp k3)
  match hl : c2.log, hne2 with
  | a :: r, _ =>
    rw [hl] at hsub
    exact hsub.eq_of_length_le (by simp)

end Verif.C60
