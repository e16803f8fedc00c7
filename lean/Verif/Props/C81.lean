import Verif.Kv.DrivenDemo
import Verif.Props.C67
/-
C81. VeriBetrKV on its own disk driver and a file is a map that survives crashes, though the driver is not the
disk the repository trusts.

Specification: the client's view in Verif/Kv/Client.lean, and the two disks of Verif/Kv/ByteDisk.lean: that of
AsyncDiskModel.s.dfy (`real = false`), and the weaker one (`real = true`) that writes whole sectors with rubbish
at the end and may tear a write of more than a sector.
-/
namespace Verif.C81
open Verif.Kv Verif.Kv.Driven
open Verif.Kv.BlockSystem (Label)
open Verif.Kv.ByteSystem (ui still)
open Verif.Kv.Pivot (Node)
open Verif.Kv.Mkfs (mkfs WrittenIn tableLoc)
open Verif.Kv.SectorBytes (codec)
open Verif.Kv.ByteDisk (Op Data Covers)
open Verif.Kv.DiskHandler (maxFile opened fill Rel Inv Internals)

/-- The program on its driver. -/
noncomputable abbrev store := Driven.machine codec (WrittenIn mkfs)

/-- What has been seen so far is a run of the client's specification that has come to `cl`. -/
def Shown (tr : List (Option (Label Node))) (cl : Client) : Prop :=
  ∃ us, Client.machine.Exec us cl ∧ us.filter (· ≠ .noop) = (tr.map ui).filter (· ≠ .noop)

theorem written_fill {file : List UInt8} (h : WrittenIn mkfs file) : WrittenIn mkfs (fill file maxFile) := by
  intro x hx
  obtain ⟨h1, h2⟩ := h x hx
  refine ⟨by unfold fill; rw [List.length_append]; omega, ?_⟩
  unfold fill
  rw [List.drop_append_of_le_length (by omega), List.take_append_of_le_length (by rw [List.length_drop]; omega), h2]

/-- **The program with its driver acts as a map that survives crashes**, at first empty. -/
theorem acts_as_durable_map {file : List UInt8} (h : WrittenIn mkfs file) (hl : file.length ≤ maxFile)
    {tr : List (Option (Label Node))} {s : State}
    (hr : store.Run ⟨.unready, Committer.init, opened file⟩ tr s) : ∃ cl, Shown tr cl := by
  obtain ⟨_, d, tr', k1, _, k3, _⟩ := run_sim tableLoc hr (.opened hl) (.opened file)
  obtain ⟨cl, hc⟩ := C67.acts_as_durable_map (written_fill h) k1
  exact ⟨cl, _, hc, k3⟩

theorem seen_last {pre pre' : List (Option (Label Node))} (h : seen pre' = seen pre) {us : List UIOp}
    {cl : Client} (hc : Client.machine.Exec us cl) (e : us = pre'.map ui) : Shown pre cl :=
  ⟨us, hc, by rw [e]; exact h⟩

/-- **Synchronised changes stay.** When a `sync` has been answered, what was done before it was asked for is kept
by every later crash, of the program or of the machine, whatever the driver had under way. -/
theorem synced_is_kept {file : List UInt8} (h : WrittenIn mkfs file) (hl : file.length ≤ maxFile)
    {pre mid post : List (Option (Label Node))} {s : State} {id : Nat} {l1 l2 : Option (Label Node)}
    (h1 : ui l1 = .pushSync id) (h2 : ui l2 = .popSync id) (hm : ∀ l ∈ mid, ui l ≠ .crash)
    (hr : store.Run ⟨.unready, Committer.init, opened file⟩ (pre ++ (l1 :: mid ++ l2 :: post)) s) :
    ∃ cl cl', Shown pre cl ∧ Shown (pre ++ (l1 :: mid ++ l2 :: post)) cl' ∧ cl.log <+: cl'.log := by
  obtain ⟨sa, ra, rb⟩ := hr.split pre
  obtain ⟨sb, rb, rc⟩ := rb.split (l1 :: mid)
  have not_none : ∀ {l : Option (Label Node)} {u : UIOp}, ui l = u → u ≠ .noop → l ≠ none := by
    intro l u h hu e
    rw [e] at h
    exact hu h.symm
  obtain ⟨ia, da, ta, ka, qa, ea, _⟩ := run_sim tableLoc ra (.opened hl) (.opened file)
  cases rb with
  | cons x1 rb =>
    obtain ⟨i1, d1, t1, k1, q1, e1⟩ := step_sim tableLoc ia qa x1
    obtain ⟨ib, db, tb, kb, qb, eb, mb⟩ := run_sim tableLoc rb i1 q1
    cases rc with
    | cons x2 rc =>
      obtain ⟨i2, d2, t2, k2, q2, e2⟩ := step_sim tableLoc ib qb x2
      obtain ⟨_, dc, tc, kc, _, ec, _⟩ := run_sim tableLoc rc i2 q2
      obtain ⟨n1, e1⟩ := e1.resolve_left fun x => not_none h1 (by simp) x.1
      obtain ⟨n2, e2⟩ := e2.resolve_left fun x => not_none h2 (by simp) x.1
      subst e1 e2
      have whole := ka.append ((k1.append kb).append (k2.append kc))
      have e : ta ++ (l1 :: List.replicate n1 none ++ tb ++ (l2 :: List.replicate n2 none ++ tc)) =
          ta ++ (l1 :: (List.replicate n1 none ++ tb) ++ l2 :: (List.replicate n2 none ++ tc)) := by simp
      rw [e] at whole
      obtain ⟨cl, cl', c1, c2, c3⟩ := C67.synced_is_kept (written_fill h) h1 h2 (by
        intro l hl
        rcases List.mem_append.mp hl with hl | hl
        · rw [List.eq_of_mem_replicate hl]; exact nofun
        · rcases mb l hl with e | hl
          · rw [e]; exact nofun
          · exact hm l hl) whole
      refine ⟨cl, cl', seen_last ea c1 rfl, seen_last (pre' := _) ?_ c2 rfl, c3⟩
      have f1 : ∀ (a b m : List (Option (Label Node))), seen (a ++ (l1 :: b ++ l2 :: m)) =
          seen a ++ (seen [l1] ++ seen b ++ (seen [l2] ++ seen m)) := by
        intro a b m
        rw [seen_append, seen_append, seen_cons l1 b, seen_cons l2 m]
      rw [f1, f1, seen_append, seen_append, seen_none, seen_none, ea, eb, ec]
      rfl

/-! ### The driver and the two disks -/

/-- A disk by itself: what it is asked and answers, and what it does. -/
def disk (crc : List UInt8 → List UInt8) (kind : ByteDisk.Kind) : Machine ByteDisk.State Op :=
  ⟨ByteDisk.Init, fun d op d' => ByteDisk.Next kind d op d' ∨ op = .none ∧ ByteDisk.Internal crc kind d d'⟩

/-- Something is asked or answered. -/
def shows : Op → Bool
  | .none => false
  | _ => true

theorem internals_disk {crc : List UInt8 → List UInt8} {d d' : ByteDisk.State} (h : Internals crc d d') :
    ∃ n, (disk crc ⟨true, true⟩).Run d (List.replicate n .none) d' := by
  induction h with
  | nil => exact ⟨0, .nil _⟩
  | cons h1 _ ih =>
    obtain ⟨n, hn⟩ := ih
    exact ⟨n + 1, .cons (.inr ⟨rfl, h1⟩) hn⟩

theorem shows_none (n : Nat) : (List.replicate n Op.none).filter shows = [] := by
  induction n with
  | zero => rfl
  | succ n ih => exact ih

/-- **The driver is the weaker disk**: whatever is asked of it and answered, and what is then in the file, is so
in a run of that disk. -/
theorem driver_acts_as_real_disk {crc : List UInt8 → List UInt8} {file : List UInt8} (hl : file.length ≤ maxFile)
    {tr : List Op} {s : DiskHandler.State} (hr : (DiskHandler.machine crc).Run (opened file) tr s) :
    ∃ tr' d, (disk crc ⟨true, true⟩).Run (still (fill file maxFile)) tr' d ∧
      tr'.filter shows = tr.filter shows ∧ d.contents = fill s.file maxFile := by
  have aux : ∀ {s0 tr s}, (DiskHandler.machine crc).Run s0 tr s → ∀ {d}, Inv s0 → DiskHandler.Busy s0 → Rel s0 d →
      ∃ tr' d', (disk crc ⟨true, true⟩).Run d tr' d' ∧ tr'.filter shows = tr.filter shows ∧ Rel s d' := by
    intro s0 tr s hr
    induction hr with
    | nil => intro d _ _ hd; exact ⟨[], d, .nil _, rfl, hd⟩
    | @cons s0 l s1 ls s2 h1 _ ih =>
      intro d hi hb hd
      obtain ⟨hi', hb'⟩ := hi.step hb h1
      have skip : ∀ {s1}, (∃ d1, Internals crc d d1 ∧ Rel s1 d1) → ∃ n d1,
          (disk crc ⟨true, true⟩).Run d (List.replicate n .none) d1 ∧ Rel s1 d1 := by
        rintro s1 ⟨d1, k1, k2⟩
        obtain ⟨n, hn⟩ := internals_disk k1
        exact ⟨n, d1, hn, k2⟩
      have rest : ∀ {t1 d1}, (disk crc ⟨true, true⟩).Run d t1 d1 → t1.filter shows = [l].filter shows →
          Rel s1 d1 → ∃ tr' d', (disk crc ⟨true, true⟩).Run d tr' d' ∧
            tr'.filter shows = (l :: ls).filter shows ∧ Rel s2 d' := by
        intro t1 d1 r1 e1 q1
        obtain ⟨t2, d2, r2, e2, q2⟩ := ih hi' hb' q1
        refine ⟨t1 ++ t2, d2, r1.append r2, ?_, q2⟩
        rw [List.filter_append, e1, e2, ← List.filter_append]
        rfl
      cases h1 with
      | call hc =>
        obtain ⟨d1, d2, k1, k2, k3⟩ := DiskHandler.call_sim hi hd hc
        obtain ⟨n, hn⟩ := internals_disk k2
        refine rest (.cons (.inl k1) hn) ?_ k3
        rw [List.filter_cons, shows_none, List.filter_cons]
        rfl
      | os ho =>
        obtain ⟨d1, k1, k2⟩ := DiskHandler.os_sim crc hi hd ho
        exact rest (.cons (.inr ⟨rfl, k1⟩) (.nil _)) rfl k2
      | complete hc =>
        obtain ⟨n, d1, k1, k2⟩ := skip (DiskHandler.complete_sim crc hc hi hd rfl)
        exact rest k1 (shows_none n) k2
      | waitForOne hw =>
        obtain ⟨n, d1, k1, k2⟩ := skip (DiskHandler.wait_sim crc hi hd hw)
        exact rest k1 (shows_none n) k2
  obtain ⟨tr', d, h1, h2, P, h3, _⟩ := aux hr (.opened hl) (fun h => absurd h (by simp [opened])) (.opened file)
  exact ⟨tr', d, h1, h2, by rw [h3]; rfl⟩

/-- Nothing is asked. -/
def NoRequest : Op → Prop
  | .reqRead _ _ | .reqWrite _ _ | .reqWrite2 _ _ _ _ => False
  | _ => True

/-- **The disk the repository trusts writes only what it is given**: after one request, to write, every byte
outside of it is as it was. -/
theorem trusted_writes_only_that {crc : List UInt8 → List UInt8} {kind : ByteDisk.Kind} (hk : kind.real = false)
    {cs : List UInt8} {id : ReqId} {w : Data} {tr : List Op} (ht : ∀ op ∈ tr, NoRequest op) {d : ByteDisk.State}
    (hr : (disk crc kind).Run (still cs) (.reqWrite id w :: tr) d) (i : Nat) (hi : ¬ Covers w i) :
    d.contents[i]? = cs[i]? := by
  have aux : ∀ {d0 tr d}, (disk crc kind).Run d0 tr d → (∀ op ∈ tr, NoRequest op) → d0.reqReads = .empty →
      (∀ x y, d0.reqWrites x = some y → x = id ∧ y = w ∧ d0.pads x = []) → d0.contents[i]? = cs[i]? →
      d.contents[i]? = cs[i]? := by
    intro d0 tr d hr
    induction hr with
    | nil => intro _ _ _ h; exact h
    | @cons e0 _ _ _ _ h1 _ ih =>
      intro ht h2 h3 h4
      have hn := ht _ (List.mem_cons_self ..)
      have ht' : ∀ op ∈ _, NoRequest op := fun op ho => ht op (List.mem_cons_of_mem _ ho)
      rcases h1 with h1 | ⟨rfl, h1⟩
      · cases h1 with
        | recvRead _ _ => exact hn.elim
        | recvWrite _ _ _ => exact hn.elim
        | recvWrite2 _ _ _ _ _ _ _ => exact hn.elim
        | ackRead _ => exact ih ht' h2 h3 h4
        | ackWrite _ => exact ih ht' h2 h3 h4
        | stutter => exact ih ht' h2 h3 h4
      · cases h1 with
        | processRead _ h => rw [h2] at h; cases h
        | processReadFailure h _ _ _ _ => rw [h2] at h; cases h
        | @processWrite j w' h hlen =>
          obtain ⟨ej, ew, hp⟩ := h3 _ _ h
          subst ew
          refine ih ht' h2 ?_ ?_
          · intro x y hx
            dsimp only at hx
            by_cases e : x = j
            · rw [e, PMap.remove_same] at hx; cases hx
            · rw [PMap.remove_other _ e] at hx; exact h3 x y hx
          · rw [← h4]
            have hf : (e0.full j w').bytes = w'.bytes := by
              unfold ByteDisk.State.full; rw [hp, List.append_nil]
            dsimp only
            rw [hf] at hlen ⊢
            rw [DiskHandler.splice_get hlen]
            exact if_neg hi
        | tear h _ _ _ _ => rw [hk] at h; cases h
        | havocWrites h1 h2 h3' _ => exact absurd ((h3 _ _ h2).1.trans (h3 _ _ h3').1.symm) h1
        | havocWriteRead _ h _ => rw [h2] at h; cases h
  cases hr with
  | cons h1 hr =>
    rcases h1 with h1 | ⟨e, _⟩
    · cases h1 with
      | recvWrite _ _ hp =>
        refine aux hr ht rfl ?_ rfl
        intro x y hx
        dsimp only at hx
        by_cases e : x = id
        · subst e
          rw [PMap.insert_same] at hx
          cases hx
          rcases hp with hp | hp
          · exact ⟨rfl, rfl, by simp [ByteDisk.setPad, hp]⟩
          · rw [hk] at hp; cases hp.1
        · rw [PMap.insert_other _ _ e] at hx; cases hx
    · cases e

/-- **The driver is not the disk the repository trusts**: it writes a byte, and the byte after it changes. -/
theorem not_the_trusted_disk (crc : List UInt8 → List UInt8) : ∃ (file : List UInt8) (w : Data) (s : DiskHandler.State),
    (DiskHandler.machine crc).Run (opened file) [.reqWrite 0 w, .none, .respWrite 0 w.loc] s ∧
    file.length = 4096 ∧ s.file.length = 4096 ∧ ¬ Covers w 1 ∧ s.file[1]? = some 7 ∧ file[1]? = some 0 ∧
    ∀ (kind : ByteDisk.Kind) (d : ByteDisk.State), kind.real = false →
      (disk crc kind).Run (still file) [.reqWrite 0 w, .none, .respWrite 0 w.loc] d → d.contents ≠ s.file := by
  obtain ⟨file, hf, h0⟩ : ∃ file : List UInt8, file.length = 4096 ∧ file[1]? = some 0 :=
    ⟨List.replicate 4096 0, List.length_replicate .., by rw [List.getElem?_replicate, if_pos (by omega)]⟩
  obtain ⟨p, hp, hp0⟩ : ∃ p : List UInt8, p.length = 4095 ∧ p[0]? = some 7 :=
    ⟨List.replicate 4095 7, List.length_replicate .., by rw [List.getElem?_replicate, if_pos (by omega)]⟩
  obtain ⟨w, hw⟩ : ∃ w : Data, w = ⟨0, [5]⟩ := ⟨_, rfl⟩
  have hc : ¬ Covers w 1 := by unfold Covers; simp [hw]
  have h7 : (DiskHandler.pwrite file 0 ([5] ++ p))[1]? = some 7 := by
    rw [DiskHandler.pwrite, List.take_zero, List.nil_append, List.getElem?_append_left (by simp [hp])]
    exact hp0
  have hfull : w.bytes ++ p = [5] ++ p := by rw [hw]
  have hlen : w.addr + (w.bytes ++ p).length ≤ maxFile := by
    rw [hfull, List.length_append, hp, hw]; decide
  refine ⟨file, w, ⟨1, [], [], 0, 0, DiskHandler.pwrite file w.addr (w.bytes ++ p)⟩, ?_, hf, ?_, hc, ?_, h0, ?_⟩
  · have a1 : DiskHandler.Step crc (opened file) (.reqWrite 0 w)
        ⟨1, [(0, ⟨w, p, true, false, false⟩)], [], 1, 0, file⟩ :=
      .call (.write (s := opened file) (w := w) (p := p) (by rw [hp, hw]; rfl))
    have a2 : DiskHandler.Step crc ⟨1, [(0, ⟨w, p, true, false, false⟩)], [], 1, 0, file⟩ .none
        ⟨1, [(0, ⟨w, p, true, false, true⟩)], [], 1, 0, DiskHandler.pwrite file w.addr (w.bytes ++ p)⟩ :=
      .os (.finish (s := ⟨1, [(0, ⟨w, p, true, false, false⟩)], [], 1, 0, file⟩) (l1 := []) (l2 := []) (id := 0)
        (t := ⟨w, p, true, false, false⟩) rfl rfl rfl hlen)
    have a3 : DiskHandler.Step crc
        ⟨1, [(0, ⟨w, p, true, false, true⟩)], [], 1, 0, DiskHandler.pwrite file w.addr (w.bytes ++ p)⟩
        (.respWrite 0 w.loc)
        ⟨1, [], [], 0, 0, DiskHandler.pwrite file w.addr (w.bytes ++ p)⟩ := .call (.writeResponse rfl)
    exact .cons a1 (.cons a2 (.cons a3 (.nil _)))
  · have e : (w.bytes ++ p).length = 4096 := by rw [hfull, List.length_append, hp]; rfl
    show (DiskHandler.pwrite file w.addr (w.bytes ++ p)).length = 4096
    unfold DiskHandler.pwrite
    rw [List.length_append, List.length_append, List.length_drop, e, hf, hw]
    simp
  · show (DiskHandler.pwrite file w.addr (w.bytes ++ p))[1]? = some 7
    rw [hfull, hw]
    exact h7
  · intro kind d hk hr e
    have := trusted_writes_only_that hk (tr := [.none, .respWrite 0 w.loc]) (by
      intro op ho
      simp only [List.mem_cons, List.not_mem_nil, or_false] at ho
      rcases ho with rfl | rfl <;> trivial) hr 1 hc
    rw [e, hfull, hw] at this
    rw [h7, h0] at this
    cases this

/-! ### Concrete cases -/

theorem demo_on {file : List UInt8} (hw : WrittenIn mkfs file) (hl : file.length ≤ maxFile) :
    ∃ pre mid s cl cl', store.Run ⟨.unready, Committer.init, opened file⟩ (pre ++ (some ⟨.pushSync 1, some .noop⟩ ::
        mid ++ some ⟨.popSync 1, some .noop⟩ :: [some ⟨.crash, none⟩])) s ∧ UIOp.put [1] [2] ∈ pre.map ui ∧
      Shown pre cl ∧ Shown (pre ++ (some ⟨.pushSync 1, some .noop⟩ :: mid ++ some ⟨.popSync 1, some .noop⟩ ::
        [some ⟨.crash, none⟩])) cl' ∧ cl.log <+: cl'.log := by
  obtain ⟨tr, s, mid, hi, hp, h⟩ := DrivenDemo.run_sync hw
  obtain ⟨cl, cl', k1, k2, k3⟩ := synced_is_kept hw hl (id := 1) rfl rfl
    (fun l hm e => by rw [hi l hm] at e; cases e) h
  exact ⟨tr, mid, s, cl, cl', h, hp, k1, k2, k3⟩

theorem image_fits : Mkfs.image.length ≤ maxFile := by
  have e : Mkfs.image.length = Mkfs.nodeLoc.addr + Mkfs.nodePart.length := by simp [Mkfs.image]
  have h0 : Mkfs.nodeLoc.len = Mkfs.nodePart.length := by unfold Mkfs.nodeLoc; rfl
  have h1 : Mkfs.nodeLoc.len ≤ nodeBlockSize := Mkfs.nodeLoc_valid.2
  have h2 : nodeBlockSize * minNodeBlockIndex + nodeBlockSize ≤ maxFile := by decide
  have h3 : Mkfs.nodeLoc.addr = nodeBlockSize * minNodeBlockIndex := by unfold Mkfs.nodeLoc; rfl
  omega

/-- The program opens the store on a fresh file; a put is tried until it is done, and synchronised: the driver
writes the journal and then a superblock. Then the machine stops; what was put before the synchronisation was
asked for is kept. -/
theorem demo : ∃ pre mid s cl cl', store.Run ⟨.unready, Committer.init, opened Mkfs.image⟩
        (pre ++ (some ⟨.pushSync 1, some .noop⟩ :: mid ++ some ⟨.popSync 1, some .noop⟩ :: [some ⟨.crash, none⟩])) s ∧
      UIOp.put [1] [2] ∈ pre.map ui ∧ Shown pre cl ∧
      Shown (pre ++ (some ⟨.pushSync 1, some .noop⟩ :: mid ++ some ⟨.popSync 1, some .noop⟩ ::
        [some ⟨.crash, none⟩])) cl' ∧ cl.log <+: cl'.log :=
  demo_on Mkfs.image_written image_fits

end Verif.C81
