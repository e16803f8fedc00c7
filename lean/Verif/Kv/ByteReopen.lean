import Verif.Kv.ByteRecover
/-
After a crash a store on bytes can be opened, if reads can succeed; if they cannot, it never opens. No code
is modelled here.
-/
namespace Verif.Kv.ByteSystem
open ByteDisk (Op Data AllCheck Checks)
open BlockSystem (Label Inv)
open JournalCache (select WFSb)
open KvSystem (graphs)
variable {Node : Type} {A : App Node} {c : Codec Node}

theorem still_bytes {cs : List UInt8} {E : Nat → UInt8} (h : Over (still cs) E) : E = byteOf cs := by
  funext i
  exact h.miss i fun id w hw => by cases hw

/-- The state after a crash. -/
theorem after_crash {ok : Node → Prop} {loc : Loc} {kind : ByteDisk.Kind} {tr : List (Option (Label Node))}
    {s : State Node} (h : (machine A c ok loc kind).Exec (tr ++ [some ⟨.crash, none⟩]) s) :
    s = ⟨.unready, JournalCache.start, still s.d.contents⟩ := by
  obtain ⟨s0, _, hr⟩ := h
  obtain ⟨s1, _, hr2⟩ := Machine.Run.split _ hr
  cases hr2 with
  | cons hs hr3 =>
    cases hr3
    cases hs with
    | crash => rfl

theorem map_ui {tr : List (Option (Label Node))} {tr' : List (Label Node)}
    (h : tr'.map (·.vop) = tr.map up) : tr'.map (fun l => l.vop.ui) = tr.map ui := by
  have : ∀ l : Option (Label Node), (up l).ui = ui l := by intro l; cases l <;> rfl
  calc tr'.map (fun l => l.vop.ui) = (tr'.map (·.vop)).map (·.ui) := by rw [List.map_map]; rfl
    _ = (tr.map up).map (·.ui) := by rw [h]
    _ = tr.map ui := by rw [List.map_map]; exact List.map_congr_left fun l _ => this l

/-- A store at rest is opened. -/
theorem reopen {ok : Node → Prop} {Abs} (hM : Composite.IsMap (graphs A ok) Abs) {loc : Loc}
    {tr : List (Option (Label Node))} {cs : List UInt8}
    (h : (machine A c ok loc true).Exec tr ⟨.unready, JournalCache.start, still cs⟩)
    (hcs : table2Addr + tableMaxLength ≤ cs.length) :
    ∃ cl, Client.machine.Exec (tr.map ui) cl ∧
      ∃ tr' rb rj g done todo,
        (machine A c ok loc true).Run ⟨.unready, JournalCache.start, still cs⟩ tr'
          ⟨.ready rb, .ready rj, still cs⟩ ∧
        Invisible tr' ∧ BlockSystem.ephGraph A ⟨.ready rb, blockDisk c (byteOf cs)⟩ = some g ∧
        cl.log = done ++ todo ∧ Abs g (contents done) ∧ rj.replay = todo := by
  obtain ⟨t, bd, jd, E, h1, h2, h3⟩ := exec_sim hM h
  obtain ⟨l, v, p1, p2, p3, rest, hok, hcl⟩ := KvSystem.exec_ok hM h1
  rw [map_ui h3] at hcl
  refine ⟨_, hcl, ?_⟩
  have hE : E = byteOf cs := still_bytes h2.over
  subst hE
  obtain ⟨f, hcom, hld, hdn⟩ := hok.journal
  obtain ⟨z, hz, hp⟩ := Option.bind_eq_some_iff.mp hcom.j1
  have hwf := hcom.holds (select f)
  have hsb : ∀ w, superblockAt c cs w = some (f w) := fun w => by
    have := (hcom.holds w).1
    rw [show jd.sb = _ from h2.journal.sb] at this
    exact this
  have hz' : blocksAt (journalDisk c cs).journal (f (select f)).start (f (select f)).len = some z := by
    rw [← hz, journalDisk_journal]
    refine blocksAt_congr hwf.2.1 hwf.2.2.1 fun k hk => ?_
    exact (h2.journal.journal _ (posAdd_lt hwf.2.1 (by have := hwf.2.2.1; omega))).symm
  obtain ⟨g, hg, ha⟩ := hok.states.one
  have hdl : BlockSystem.diskMap A bd l.loc = some g := hg
  obtain ⟨hv, tb, htb, htw, htd, hgr, hsa⟩ := BlockSystem.diskMap_some.mp hdl
  have hl : l.loc = (f (select f)).loc := hok.ledger.loc.trans hcom.loc
  have hbd : bd.tables l.loc = c.table (bytesAt (byteOf cs) l.loc) := by
    rw [h2.block]
    show (if ValidTableLoc l.loc then _ else none) = _
    rw [if_pos hv]
  obtain ⟨tr', hr, hi⟩ := open_run (A := A) (ok := ok) (loc := loc) hcs hsb (fun w => (hcom.holds w).2) hz' hp
    (tb := tb) (by rw [← hl, ← hbd]; exact htb) htw htd
  refine ⟨tr', _, _, g, l.log.take l.start, _, hr, hi, ?_, (List.take_append_drop _ _).symm, ha, ?_⟩
  · show some (BlockSystem.dcGraph tb (blockDisk c (byteOf cs)).nodes .empty) = some g
    rw [hgr, h2.block]; rfl
  · show v.j1 = l.log.drop l.start
    rw [hok.ledger.log, hok.ledger.start, hdn.gamma, hdn.delta]
    simp

/-- The superblocks are always there, requests in flight do not collide, and answers make sense. -/
theorem exec_sane {ok : Node → Prop} {Abs} (hM : Composite.IsMap (graphs A ok) Abs) {loc : Loc} {kind : ByteDisk.Kind}
    {tr : List (Option (Label Node))} {s : State Node} (h : (machine A c ok loc kind).Exec tr s) :
    (∀ w, superblockAt c s.d.contents w ≠ none) ∧
    (∀ i j w w', s.d.reqWrites i = some w → s.d.reqWrites j = some w' → i ≠ j → ¬ overlap w.loc w'.loc) ∧
    (∀ i j l w, s.d.reqReads i = some l → s.d.reqWrites j = some w → ¬ overlap l w.loc) ∧
    (∀ i r, s.d.respReads i = some r → ValidLoc r.loc) ∧
    (∀ i l, s.d.respWrites i = some l → ValidLoc l) := by
  obtain ⟨t, bd, jd, E, h1, h2, h3⟩ := exec_sim hM h
  obtain ⟨l, v, p1, p2, p3, rest, hok, _⟩ := KvSystem.exec_ok hM h1
  have hs : Safe bd jd := safe hok.block hok.journal
  refine ⟨fun w => ?_, fun i j w w' hi hj hne => h2.noWW hs (wl_req hi) (wl_req hj) hne,
    fun i j l w hi hj => h2.noRW hs (rl_req hi) (wl_req hj),
    fun i r hr => h2.sane.rv _ _ (h2.sane.rl_resp hr).2, fun i l hl => h2.sane.wv i l ?_⟩
  · have := hs.sbs w
    rw [h2.journal.sb] at this
    exact this
  · exact (h2.sane.wl_resp hl).2

/-- An answer the disk of the repository gives to a read of a superblock is never a superblock. -/
theorem fake_bad {cs fake : List UInt8} {w : Bool} (hsb : superblockAt c cs w ≠ none)
    (hlen : fake.length = (ByteDisk.read cs (sbLoc w)).length) (hne : fake ≠ ByteDisk.read cs (sbLoc w))
    (hall : AllCheck c.crc (ByteDisk.read cs (sbLoc w)) fake) : c.superblock fake = none := by
  have real : Checks c.crc (ByteDisk.read cs (sbLoc w)) := by
    unfold superblockAt at hsb
    split at hsb
    · unfold Codec.superblock Codec.sector at hsb
      split at hsb
      · rename_i hx
        split at hx
        · assumption
        · cases hx
      · exact absurd rfl hsb
    · exact absurd rfl hsb
  unfold Codec.superblock Codec.sector
  by_cases hf : Checks c.crc fake
  · have := hall 0 (ByteDisk.read cs (sbLoc w)).length (Nat.zero_le _) (Nat.le_refl _)
      (by rw [List.take_length]; exact real) (by rw [← hlen, List.take_length]; exact hf)
    rw [← hlen, List.take_length, hlen, List.take_length] at this
    exact absurd this.symm hne
  · rw [if_neg hf]

/-- What is so for ever if reads cannot succeed. -/
structure Shut (c : Codec Node) (tr : List (Option (Label Node))) (s : State Node) : Prop where
  loading : ∃ l, s.j = .loading l ∧ (∀ w sb, l.got w ≠ .success sb) ∧ ∀ i x, l.syncReqs i = some x → x = .s3
  bad : ∀ id r w, s.d.respReads id = some r → r.loc = sbLoc w → c.superblock r.bytes = none
  quiet : ∀ l ∈ tr, ui l = .noop ∨ ui l = .crash ∨ ∃ id, ui l = .pushSync id

theorem journal_shut {l : JournalCache.Loading} {op : JournalDisk.Op} {vop : VOp} {j' : JournalCache.State}
    (hg : ∀ w sb, l.got w ≠ .success sb) (hq : ∀ i x, l.syncReqs i = some x → x = .s3)
    (hop : ∀ id w sb, op ≠ .respReadSb id w (some sb)) (h : JournalCache.Next (.loading l) op vop j') :
    (∃ l', j' = .loading l' ∧ (∀ w sb, l'.got w ≠ .success sb) ∧ ∀ i x, l'.syncReqs i = some x → x = .s3) ∧
    (vop.ui = .noop ∨ vop.ui = .crash ∨ ∃ id, vop.ui = .pushSync id) := by
  cases h with
  | pageSb _ _ => exact ⟨⟨_, rfl, hg, hq⟩, .inl rfl⟩
  | pageSbOk _ _ => exact absurd rfl (hop _ _ _)
  | @pageSbBad _ w _ _ _ _ =>
    refine ⟨⟨_, rfl, ?_, hq⟩, .inl rfl⟩
    intro x sb
    dsimp only
    unfold setAt
    split
    · simp
    · exact hg x sb
  | @finishSb _ f h => exact absurd (h true) (hg _ _)
  | @pushSync _ id h =>
    refine ⟨⟨_, rfl, hg, ?_⟩, .inr (.inr ⟨_, rfl⟩)⟩
    intro i x hx
    change PMap.insert l.syncReqs id .s3 i = some x at hx
    by_cases e : i = id
    · subst e; rw [PMap.insert_same] at hx; exact (Option.some.inj hx).symm
    · rw [PMap.insert_other _ _ e] at hx; exact hq i x hx
  | @popSync _ id h => exact absurd (hq _ _ h) (by simp)
  | noop hv _ => rcases hv with rfl | rfl <;> exact ⟨⟨_, rfl, hg, hq⟩, .inl rfl⟩

/-- With the disk as it is in the repository the store never opens. -/
theorem shut {ok : Node → Prop} {Abs} (hM : Composite.IsMap (graphs A ok) Abs) {loc : Loc}
    {tr : List (Option (Label Node))} {s : State Node} (h : (machine A c ok loc false).Exec tr s) :
    Shut c tr s := by
  suffices (machine A c ok loc false).Exec tr s ∧ Shut c tr s from this.2
  refine Machine.exec_invariant (M := machine A c ok loc false)
    (I := fun tr s => (machine A c ok loc false).Exec tr s ∧ Shut c tr s) ?_ ?_ h
  · rintro s hi
    refine ⟨⟨_, hi, .nil _⟩, ⟨_, hi.2.2.1, ?_, ?_⟩, ?_, ?_⟩
    · intro w sb; simp
    · intro i x hx; cases hx
    · intro id r w hr; rw [hi.1.respReads] at hr; cases hr
    · intro l hl; cases hl
  · rintro tr s l s' ⟨hex, ⟨ld, hl, hg, hq⟩, hbad, hquiet⟩ hs
    obtain ⟨s1, s2, s3, s4, s5⟩ := exec_sane hM hex
    refine ⟨hex.snoc hs, ?_⟩
    have app : ∀ {x : Option (Label Node)}, (ui x = .noop ∨ ui x = .crash ∨ ∃ id, ui x = .pushSync id) →
        ∀ l ∈ tr ++ [x], ui l = .noop ∨ ui l = .crash ∨ ∃ id, ui l = .pushSync id := by
      intro x hx l hl
      rcases List.mem_append.mp hl with hl | hl
      · exact hquiet l hl
      · rw [List.mem_singleton.mp hl]; exact hx
    cases hs with
    | @machine dop vop step b' j' d' hc hd =>
      have hbad' : ∀ id r w, d'.respReads id = some r → r.loc = sbLoc w → c.superblock r.bytes = none := by
        cases hd with
        | ackRead h =>
          rename_i i r
          intro id r' w hr
          dsimp only at hr
          by_cases e : id = i
          · subst e; rw [PMap.remove_same] at hr; cases hr
          · rw [PMap.remove_other _ e] at hr; exact hbad id r' w hr
        | _ => exact hbad
      cases hc with
      | valid hv h1 h2 =>
        rw [hl] at h2
        have hop : ∀ id w sb, journalOp c dop ≠ .respReadSb id w (some sb) := by
          intro id w sb
          cases hd with
          | @ackRead i r hr =>
            intro e
            simp only [journalOp] at e
            split at e
            · rename_i k
              rw [hbad i r false hr k] at e
              cases e
            · split at e
              · rename_i k
                rw [hbad i r true hr k] at e
                cases e
              · split at e <;> cases e
          | recvRead => simp only [journalOp]; (repeat' split) <;> simp
          | recvWrite => simp only [journalOp]; (repeat' split) <;> simp
          | recvWrite2 => simp only [journalOp]; split <;> simp
          | ackWrite => simp only [journalOp]; (repeat' split) <;> simp
          | stutter => simp [journalOp]
        obtain ⟨k1, k2⟩ := journal_shut hg hq hop h2
        exact ⟨k1, hbad', app k2⟩
      | invalid hr hv =>
        exfalso
        cases hd with
        | recvRead => exact hr trivial
        | recvWrite => exact hr trivial
        | recvWrite2 => exact hr trivial
        | ackRead h => exact hv (s4 _ _ h)
        | ackWrite h => exact hv (s5 _ _ h)
        | stutter => exact hv trivial
    | disk hd =>
      refine ⟨⟨ld, hl, hg, hq⟩, ?_, app (.inl rfl)⟩
      cases hd with
      | processRead h => cases h
      | @processReadFailure id l fake h1 h2 h3 h4 h5 =>
        intro i r w hr hloc
        dsimp only at hr
        by_cases e : i = id
        · subst e
          rw [PMap.insert_same] at hr
          cases hr
          have el : l = sbLoc w := by
            rw [← hloc]
            unfold Data.loc
            dsimp only
            rw [h3, read_length h2]
          subst el
          exact fake_bad (s1 w) h3 h4 h5
        · rw [PMap.insert_other _ _ e] at hr
          exact hbad i r w hr hloc
      | processWrite => exact hbad
      | tear => exact hbad
      | havocWrites h1 h2 h3 h4 => exact absurd h4 (s2 _ _ _ _ h2 h3 h1)
      | havocWriteRead h1 h2 h3 => exact absurd (overlap_symm h3) (s3 _ _ _ _ h2 h1)
    | crash =>
      refine ⟨⟨_, rfl, ?_, ?_⟩, ?_, app (.inr (.inl rfl))⟩
      · intro w sb; simp
      · intro i x hx; cases hx
      · intro id r w hr; cases hr

end Verif.Kv.ByteSystem
