import Verif.Kv.FullDemo
import Verif.Props.C60
/-
C62. The store with its real committer is a crash-tolerant map.

Specification: the client's view in Verif/Kv/Client.lean and the disk of bytes in Verif/Kv/ByteDisk.lean.
The journal, the superblocks and the decision when to write them are the code of the committer
(Verif/Kv/Committer.lean) with the journalist's ring buffer and bytes; a superblock is read by
`SuperblockBytes.ofBytes`. The block side is its specification.
-/
namespace Verif.C62
open Verif.Kv Verif.Kv.Full
open Verif.Kv.BlockSystem (Label)
open Verif.Kv.ByteSystem (ui)
variable {Node : Type}

/-- **The store with the code of the committer acts as a map that survives crashes.** For every checksum
of 32 bytes and every codec that reads superblocks in their format, every execution is from outside one
of the client's specification. -/
theorem acts_as_durable_map {A : App Node} {ok : Node → Prop} {Abs : Graph Node → MapSpec.View → Prop}
    (hM : Composite.IsMap (KvSystem.graphs A ok) Abs) {c : Codec Node} {loc : Loc} {kind : ByteDisk.Kind}
    (hcrc : ∀ x, (c.crc x).length = 32) (hsb : ∀ x, c.superblock x = SuperblockBytes.ofBytes c.crc x)
    {tr : List (Option (Label Node))} {s : State Node} (h : (machine A c ok loc kind).Exec tr s) :
    ∃ cl, Client.machine.Exec (tr.map ui) cl :=
  C60.acts_as_durable_map hM (exec_refines hcrc hsb h).1

/-- **Synchronised changes stay.** Once `popSync` reports an id as done, what was there when `pushSync`
gave that id out is there for good. -/
theorem synced_is_kept {A : App Node} {ok : Node → Prop} {Abs : Graph Node → MapSpec.View → Prop}
    (hM : Composite.IsMap (KvSystem.graphs A ok) Abs) {c : Codec Node} {loc : Loc} {kind : ByteDisk.Kind}
    (hcrc : ∀ x, (c.crc x).length = 32) (hsb : ∀ x, c.superblock x = SuperblockBytes.ofBytes c.crc x)
    {pre mid post : List (Option (Label Node))} {s : State Node} {id : Nat} {l1 l2 : Option (Label Node)}
    (h1 : ui l1 = .pushSync id) (h2 : ui l2 = .popSync id) (hm : ∀ l ∈ mid, ui l ≠ .crash)
    (h : (machine A c ok loc kind).Exec (pre ++ (l1 :: mid ++ l2 :: post)) s) :
    ∃ cl cl', Client.machine.Exec (pre.map ui) cl ∧
      Client.machine.Exec ((pre ++ (l1 :: mid ++ l2 :: post)).map ui) cl' ∧ cl.log <+: cl'.log :=
  C60.synced_is_kept hM h1 h2 hm (exec_refines hcrc hsb h).1

/-- **Requests never collide.** -/
theorem no_conflict {A : App Node} {ok : Node → Prop} {Abs : Graph Node → MapSpec.View → Prop}
    (hM : Composite.IsMap (KvSystem.graphs A ok) Abs) {c : Codec Node} {loc : Loc} {kind : ByteDisk.Kind}
    (hcrc : ∀ x, (c.crc x).length = 32) (hsb : ∀ x, c.superblock x = SuperblockBytes.ofBytes c.crc x)
    {tr : List (Option (Label Node))} {s : State Node} (h : (machine A c ok loc kind).Exec tr s) :
    (∀ i j w w', s.d.reqWrites i = some w → s.d.reqWrites j = some w' → i ≠ j →
      ∀ a, ¬ (w.addr ≤ a ∧ a < w.addr + w.bytes.length ∧ w'.addr ≤ a ∧ a < w'.addr + w'.bytes.length)) ∧
    (∀ i j w l, s.d.reqWrites i = some w → s.d.reqReads j = some l →
      ∀ a, ¬ (w.addr ≤ a ∧ a < w.addr + w.bytes.length ∧ l.addr ≤ a ∧ a < l.addr + l.len)) :=
  C60.no_conflict hM (s := view s) (exec_refines hcrc hsb h).1

/-- **Superblocks are never torn or malformed.** At all times the 4096 bytes at 0 and those at 4096 are
each a superblock, and whatever is on its way to either place is one. -/
theorem superblocks_good {A : App Node} {ok : Node → Prop} {Abs : Graph Node → MapSpec.View → Prop}
    (hM : Composite.IsMap (KvSystem.graphs A ok) Abs) {c : Codec Node} {loc : Loc} {kind : ByteDisk.Kind}
    (hcrc : ∀ x, (c.crc x).length = 32) (hsb : ∀ x, c.superblock x = SuperblockBytes.ofBytes c.crc x)
    {tr : List (Option (Label Node))} {s : State Node} (h : (machine A c ok loc kind).Exec tr s) :
    (∀ a, a = 0 ∨ a = 4096 → ∃ sb, SuperblockBytes.SbOk sb ∧
      SuperblockBytes.ofBytes c.crc ((s.d.contents.drop a).take 4096) = some sb) ∧
    (∀ i w, s.d.reqWrites i = some w → w.addr < 8192 → ∃ sb, SuperblockBytes.SbOk sb ∧
      SuperblockBytes.ofBytes c.crc w.bytes = some sb) := by
  have hb := (exec_refines hcrc hsb h).1
  obtain ⟨k1, _⟩ := ByteSystem.exec_sane hM hb
  obtain ⟨t, bd, jd, E, _, hd, _⟩ := ByteSystem.exec_sim hM hb
  constructor
  · intro a ha
    have : ∀ w, (sbLoc w).addr = a → ∃ sb, SuperblockBytes.SbOk sb ∧
        SuperblockBytes.ofBytes c.crc ((s.d.contents.drop a).take 4096) = some sb := by
      intro w hw
      have q := k1 w
      unfold ByteSystem.superblockAt at q
      split at q
      · rw [hsb] at q
        unfold ByteDisk.read at q
        rw [hw, (sb_bounds w).1] at q
        cases e : SuperblockBytes.ofBytes c.crc ((s.d.contents.drop a).take 4096) with
        | none => exact absurd e q
        | some sb => exact ⟨sb, SuperblockBytes.ofBytes_ok e, rfl⟩
      · exact absurd rfl q
    rcases ha with rfl | rfl
    · exact this false rfl
    · exact this true rfl
  · intro i w hw ha
    have hv := hd.sane.wv i w.loc (ByteSystem.wl_req hw)
    have q := hd.sane.wsb i w hw
    have ha' : w.loc.addr < 8192 := ha
    have hT : 8192 ≤ table1Addr := by unfold table1Addr; omega
    have key : ∀ x, w.loc = sbLoc x → ∃ sb, SuperblockBytes.SbOk sb ∧
        SuperblockBytes.ofBytes c.crc w.bytes = some sb := by
      intro x hx
      have k := q x hx
      rw [hsb] at k
      cases e : SuperblockBytes.ofBytes c.crc w.bytes with
      | none => exact absurd e k
      | some sb => exact ⟨sb, SuperblockBytes.ofBytes_ok e, rfl⟩
    rcases hv with hv | hv | hv | hv | hv
    · exact key false hv
    · exact key true hv
    · have := (journal_bounds hv).1; omega
    · have := (table_bounds hv).1
      exact absurd ha' (Nat.not_lt.mpr (Nat.le_trans hT this))
    · have := node_bounds hv
      have h2 : table1Addr ≤ table2Addr + tableMaxLength := by
        unfold table2Addr; exact Nat.le_trans (Nat.le_add_right _ _) (Nat.le_add_right _ _)
      exact absurd ha' (Nat.not_lt.mpr (Nat.le_trans hT (Nat.le_trans h2 this)))

/-- **A new table is taken into use on both sides at once.** Whenever the committer has a superblock with a
new table in flight, the block side is ready to give up the old table, and the new one is where both say. -/
theorem cleanUp_enabled {A : App Node} {ok : Node → Prop} {c : Codec Node} {loc : Loc} {kind : ByteDisk.Kind}
    (hcrc : ∀ x, (c.crc x).length = 32) (hsb : ∀ x, c.superblock x = SuperblockBytes.ofBytes c.crc x)
    {tr : List (Option (Label Node))} {s : State Node} (h : (machine A c ok loc kind).Exec tr s)
    (hr : s.s.status = .ready) (hc : s.s.commit = .location) :
    ∃ r b', s.b = .ready r ∧ r.frozenLoc ≠ none ∧ s.s.frozenLoc = r.frozenLoc ∧
      BlockCache.Next A s.b .none .cleanUp .cleanUp b' := by
  obtain ⟨_, h1, h2⟩ := exec_refines hcrc hsb h
  obtain ⟨r, l, t, k1, k2, k3, k4, k5⟩ := Full.cleanUp_enabled h1 h2 hr hc
  exact ⟨r, _, k1, by rw [k3]; simp, by rw [k3, k5], by rw [k1]; exact .cleanUp k2 k3 k4⟩

/-- **What is written for a superblock is read as that superblock**, for every superblock and every checksum
of 32 bytes. -/
theorem superblock_reads_back {crc : List UInt8 → List UInt8} (hcrc : ∀ x, (crc x).length = 32)
    {sb : Superblock} (h : SuperblockBytes.SbOk sb) :
    (SuperblockBytes.marshal crc sb).length = 4096 ∧
      SuperblockBytes.ofBytes crc (SuperblockBytes.marshal crc sb) = some sb :=
  ⟨SuperblockBytes.marshal_length hcrc sb, SuperblockBytes.ofBytes_marshal hcrc h⟩

/-! ### Concrete cases -/

/-- A superblock with something in every field. -/
def sb0 : Superblock := ⟨2 ^ 64 - 1, 65535, 65536, ⟨table2Addr, 4096⟩⟩

theorem demo_superblock : SuperblockBytes.SbOk sb0 :=
  ⟨⟨by decide, by decide, .inr rfl, by decide, by decide⟩, by decide⟩

/-- The run of Verif/Kv/FullDemo.lean: the store is opened from a disk with two superblocks in their format,
a put is made and synchronised through a block of the journal and a superblock, and the system crashes. The
client's history then is that put. -/
theorem demo : ∃ t0 s cl, FullDemo.M.Exec (t0 ++ FullDemo.trace) s ∧
    Client.machine.Exec ((t0 ++ FullDemo.trace).map ui) cl ∧ cl.log = [.insert [] []] := by
  obtain ⟨t0, s, hi, h⟩ := FullDemo.run0
  have e : t0 ++ FullDemo.trace = (t0 ++ FullDemo.trace.take 4) ++ (some ⟨.pushSync 1, some .noop⟩ ::
      (FullDemo.trace.drop 5).take 6 ++ some ⟨.popSync 1, some .noop⟩ :: [some ⟨.crash, none⟩]) := by
    rw [List.append_assoc]; rfl
  have h' := h
  rw [e] at h'
  obtain ⟨c1, c2, k1, k2, k3⟩ := synced_is_kept SystemDemo.isMap FullDemo.hcrc FullDemo.hsb rfl rfl (by
    intro l hl
    simp only [FullDemo.trace, List.drop, List.take, List.mem_cons, List.not_mem_nil, or_false] at hl
    rcases hl with rfl | rfl | rfl | rfl | rfl | rfl <;> (intro hc; cases hc)) h'
  rw [← e] at k2
  refine ⟨t0, _, c2, h, k2, ?_⟩
  have hne : c1.log ≠ [] := by
    obtain ⟨c0, _, hr⟩ := k1
    have : (t0 ++ FullDemo.trace.take 4).map ui =
        (t0 ++ FullDemo.trace.take 3).map ui ++ [.put [] []] := by
      rw [List.map_append, List.map_append, List.append_assoc]; rfl
    rw [this] at hr
    obtain ⟨_, _, hr2⟩ := Machine.Run.split _ hr
    cases hr2 with
    | cons hs hr3 =>
      cases hr3
      cases hs
      simp
  obtain ⟨c0, hc0, hr⟩ := k2
  have hsub := C56.run_sublist hr
  rw [show c0 = _ from hc0, List.map_append, List.flatMap_append, C60.invisible_entries hi] at hsub
  have hsub : c2.log.Sublist [SystemDemo.e1] := hsub
  have hne2 : c2.log ≠ [] := fun hc => by
    rw [hc] at k3
    exact hne (List.prefix_nil.mp k3)
  match hl : c2.log, hne2 with
  | a :: r, _ =>
    rw [hl] at hsub
    exact hsub.eq_of_length_le (by simp)

/-- A run in which a superblock with a new table is on its way: both sides say where the table is. -/
theorem demo_cleanUp : ∃ tr s, FullDemo.M.Exec tr s ∧ s.s.status = .ready ∧ s.s.commit = .location ∧
    s.s.frozenLoc = some StoreDemo.T2 := by
  obtain ⟨tr, s, r, h, h1, _, h2, h3, h4⟩ := FullDemo.run1
  obtain ⟨r', b', k1, _, k2, _⟩ := cleanUp_enabled FullDemo.hcrc FullDemo.hsb h h3 h4
  rw [h1] at k1
  cases k1
  exact ⟨tr, s, h, h3, h4, by rw [k2, h2]⟩

end Verif.C62
