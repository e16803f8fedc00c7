import Verif.Kv.ByteStep
import Verif.Kv.SystemProof
/-
Every execution on the disk of bytes is one on the block disk and the journal disk. No code is modelled
here.
-/
namespace Verif.Kv.ByteSystem
open ByteDisk (Op Data AllCheck Checks)
open BlockSystem (Label Inv)
open KvSystem (graphs)
variable {Node : Type} {A : App Node}

/-- Requests in flight do not collide, and what is read is there: the block side. -/
theorem safe_block {s : BlockSystem.State Node} (h : Inv A s) :
    (∀ i j l l', s.d.writeN i = some l → s.d.writeN j = some l' → overlap l l' → i = j) ∧
    (∀ i j l l', s.d.readN i = some l → s.d.writeN j = some l' → ¬ overlap l l') ∧
    (∀ i j l l', s.d.writeT i = some l → s.d.writeT j = some l' → i = j) ∧
    (∀ i j l l', s.d.readT i = some l → s.d.writeT j = some l' → ¬ overlap l l') ∧
    (∀ i l, s.d.readN i = some l → s.d.nodes l ≠ none) ∧
    (∀ i l, s.d.readT i = some l → s.d.tables l ≠ none) := by
  obtain ⟨m, d⟩ := s
  cases m with
  | unready =>
    obtain ⟨h1, h2, h3, h4⟩ := h
    refine ⟨?_, ?_, ?_, ?_, ?_, ?_⟩
    · intro i j l l' hi; rw [h3] at hi; cases hi
    · intro i j l l' hi; rw [h2] at hi; cases hi
    · intro i j l l' hi; rw [h4] at hi; cases hi
    · intro i j l l' hi; rw [h1] at hi; cases hi
    · intro i l hi; rw [h2] at hi; cases hi
    · intro i l hi; rw [h1] at hi; cases hi
  | loading x rd =>
    obtain ⟨⟨g, hg⟩, h1, h2, h3, h4⟩ := h
    refine ⟨?_, ?_, ?_, ?_, ?_, ?_⟩
    · intro i j l l' hi; rw [h3] at hi; cases hi
    · intro i j l l' hi; rw [h2] at hi; cases hi
    · intro i j l l' hi; rw [h4] at hi; cases hi
    · intro i j l l' _ hi; rw [h4] at hi; cases hi
    · intro i l hi; rw [h2] at hi; cases hi
    · intro i l hi
      obtain ⟨_, t, ht, _⟩ := hg
      rw [(h1 i l hi).1, ht]; simp
  | ready r =>
    change BlockSystem.InvReady A r d at h
    refine ⟨?_, ?_, ?_, ?_, ?_, ?_⟩
    · intro i j l l' hi hj ho
      obtain ⟨x, hx⟩ := h.wrec _ _ hi
      obtain ⟨y, hy⟩ := h.wrec _ _ hj
      exact h.wuniq _ _ _ _ _ _ hx hy
        (node_overlap_addr (h.wvalid _ _ _ hx) (h.wvalid _ _ _ hy) ho)
    · intro i j l l' hi hj ho
      obtain ⟨x, hx, hl⟩ := h.rrec _ _ hi
      obtain ⟨y, hy⟩ := h.wrec _ _ hj
      obtain ⟨e, _, hc⟩ := h.weph _ _ _ hy _ _ hl
        (node_overlap_addr (h.eph.wf.valid _ _ hl) (h.wvalid _ _ _ hy) ho)
      subst e
      exact hc (h.reads _ _ hx).1
    · intro i j l l' hi hj
      exact Option.some.inj ((h.twrec _ _ hi).1.symm.trans (h.twrec _ _ hj).1)
    · intro i j l l' hi
      rw [show d.readT i = none from h.readT i] at hi; cases hi
    · intro i l hi
      obtain ⟨x, _, hl⟩ := h.rrec _ _ hi
      obtain ⟨n, hn⟩ := h.eph.node hl
      rw [show d.nodes l = some n from hn]; simp
    · intro i l hi
      rw [show d.readT i = none from h.readT i] at hi; cases hi

/-- The journal side. -/
theorem safe_journal {s : JournalSystem.State} {v : JournalView.State} (h : JournalSystem.Rel s v) :
    (∀ i j v v' p, s.d.writeJ i = some v → s.d.writeJ j = some v' → i ≠ j → p < numJournalBlocks →
      InCyclic p v → ¬ InCyclic p v') ∧
    ((∃ w, s.d.writeSb w ≠ none) ∨ (∃ i, s.d.writeJ i ≠ none) →
      (∀ i, s.d.readJ i = none) ∧ ∀ w i, ¬ s.d.readSb w i) ∧
    (∀ w, s.d.sb w ≠ none) ∧
    (∀ i v, s.d.readJ i = some v → v.start + v.len ≤ numJournalBlocks ∧
      blocksAt s.d.journal v.start v.len ≠ none) := by
  obtain ⟨m, d⟩ := s
  obtain ⟨f, hc, hm⟩ := h
  have hsb : ∀ w, d.sb w ≠ none := fun w => by rw [(hc.holds w).1]; simp
  cases m with
  | loading l =>
    have hi := hm.1
    refine ⟨?_, ?_, hsb, ?_⟩
    · intro i j v v' p h; rw [show d.writeJ = .empty from hi.writeJ] at h; cases h
    · rintro (⟨w, hw⟩ | ⟨i, h⟩)
      · exact absurd (hi.writeSb w) hw
      · rw [show d.writeJ = .empty from hi.writeJ] at h; exact absurd rfl h
    · intro i v h; rw [show d.readJ = .empty from hi.readJ] at h; cases h
  | other o =>
    have hi := hm.1
    refine ⟨?_, ?_, hsb, ?_⟩
    · intro i j v v' p h; rw [show d.writeJ = .empty from hi.writeJ] at h; cases h
    · rintro (⟨w, hw⟩ | ⟨i, h⟩)
      · exact absurd (hi.writeSb w) hw
      · rw [show d.writeJ = .empty from hi.writeJ] at h; exact absurd rfl h
    · intro i v h
      obtain ⟨w, _, hp⟩ := hi.rec_ i v h
      rw [hi.sb] at hp
      obtain ⟨z, hz, _⟩ := Option.bind_eq_some_iff.mp hc.j1
      have hwf := (hc.holds (JournalCache.select f)).2
      obtain ⟨_, h2, bs, h3⟩ := JournalSystem.part_readable hwf.1 hwf.2.1 hz w v hp
      exact ⟨h2, by rw [show blocksAt d.journal v.start v.len = some bs from h3]; simp⟩
  | ready r =>
    obtain ⟨u, W, F, hr⟩ := hm
    refine ⟨hr.wdisj, fun _ => ⟨fun i => ?_, hr.readSb⟩, hsb, ?_⟩
    · rw [show d.readJ = .empty from hr.readJ]; rfl
    · intro i v h; rw [show d.readJ = .empty from hr.readJ] at h; cases h

theorem safe {s : KvSystem.State Node} {v : JournalView.State} (hb : Inv A s.b)
    (hj : JournalSystem.Rel s.j v) : Safe s.b.d s.j.d := by
  obtain ⟨h1, h2, h3, h4, h5, h6⟩ := safe_block hb
  obtain ⟨k1, k2, k3, k4⟩ := safe_journal hj
  exact ⟨h1, h2, h3, h4, k1, k2, h5, h6, k3, k4⟩

variable {c : Codec Node} {d : ByteDisk.State} {E : Nat → UInt8} {bd : BlockDisk.State Node}
  {jd : JournalDisk.State}

/-- What the journal cache writes to the journal is not empty. -/
theorem write_pos {j j' : JournalCache.State} {vop : VOp} {id : ReqId} {w : Data} (hv : ValidWrite c w)
    (hn : JournalCache.Next j (journalOp c (.reqWrite id w)) vop j') (hj : ValidJournalLoc w.loc) :
    0 < w.loc.len := by
  have hsb : ∀ x, w.loc ≠ sbLoc x := fun x e => (sb_not e).1 hj
  obtain ⟨bs, hbs⟩ := Option.ne_none_iff_exists'.mp (hv.journal hj)
  simp only [journalOp, if_neg (sb_first hsb).1, if_neg (sb_first hsb).2, if_pos hj, hbs] at hn
  have hpos : 0 < bs.length := by
    generalize (intervalOf w.loc).start = a at hn
    cases hn with
    | writeJournal _ _ _ h => exact h
    | writeFrozen _ _ _ h => exact h
    | noop _ h =>
      rcases h with h | ⟨_, _, _, h⟩ | ⟨_, _, h⟩ | ⟨_, _, h, _⟩ | ⟨_, h, _⟩ <;> cases h
  have := (range_length _ rfl hbs).1
  have e : w.loc.len = w.bytes.length := rfl
  omega

/-- A superblock is written only when no other is being written. -/
theorem write_idle {j j' : JournalCache.State} {vop : VOp} {id : ReqId} {w : Data} (hv : ValidWrite c w)
    (hn : JournalCache.Next j (journalOp c (.reqWrite id w)) vop j') {v : JournalView.State}
    (hr : JournalSystem.Rel ⟨j, jd⟩ v) (x : Bool) (hx : w.loc = sbLoc x) (y : Bool) :
    jd.writeSb y = none := by
  obtain ⟨sb, hsb⟩ := Option.ne_none_iff_exists'.mp (hv.superblock x hx)
  have e : journalOp c (.reqWrite id w) = .reqWriteSb id x sb := by
    have h12 : superblock2Loc ≠ superblock1Loc := by decide
    cases x with
    | false => simp only [journalOp]; rw [if_pos (show w.loc = superblock1Loc from hx), hsb]
    | true =>
      simp only [journalOp]
      rw [if_neg (by rw [show w.loc = superblock2Loc from hx]; exact h12),
        if_pos (show w.loc = superblock2Loc from hx), hsb]
  rw [e] at hn
  obtain ⟨f, hc, hm⟩ := hr
  cases hn with
  | advanceLog h1 _ =>
    obtain ⟨u, W, F, hr⟩ := hm
    exact (hr.idle h1).2.2 y
  | advanceLocation _ h1 =>
    obtain ⟨u, W, F, hr⟩ := hm
    exact (hr.idle h1).2.2 y
  | noop _ h =>
    rcases h with h | ⟨_, _, _, h⟩ | ⟨_, _, h⟩ | ⟨_, _, h, _⟩ | ⟨_, h, _⟩ <;> cases h

/-- A step the disk takes by itself. -/
theorem step_internal {kind : ByteDisk.Kind} (h : DSim c d E bd jd) (hs : Safe bd jd) {d' : ByteDisk.State}
    (hn : ByteDisk.Internal c.crc kind d d') :
    ∃ jd', (jd' = jd ∨ JournalDisk.Internal jd jd') ∧ DSim c d' E bd jd' := by
  cases hn with
  | @processRead id l _ h1 h2 =>
    have e : ByteDisk.read d.contents l = bytesAt E l := by
      rw [h.quiet hs (rl_req h1), read_eq h2]
    exact ⟨jd, .inl rfl, step_read h h1 (read_length h2) (by rw [e]; intro i j _ _ _ _; rfl)⟩
  | @processReadFailure id l fake h1 h2 h3 _ h5 =>
    have e : ByteDisk.read d.contents l = bytesAt E l := by
      rw [h.quiet hs (rl_req h1), read_eq h2]
    exact ⟨jd, .inl rfl, step_read h h1 (by rw [h3, read_length h2]) (by rw [← e]; exact h5)⟩
  | processWrite h1 h2 => exact step_write h hs h1 h2
  | tear _ h1 h2 h3 h4 => exact ⟨jd, .inl rfl, step_tear h h1 h2 h3 h4⟩
  | havocWrites h1 h2 h3 h4 => exact absurd h4 (h.noWW hs (wl_req h2) (wl_req h3) h1)
  | havocWriteRead h1 h2 h3 =>
    exact absurd (overlap_symm h3) (h.noRW hs (rl_req h2) (wl_req h1))

/-- The label of the step of the two disks for a step of the disk of bytes. -/
def up : Option (Label Node) → VOp
  | some l => l.vop
  | none => .journalInternal

/-- Every execution on bytes is one on the block disk and the journal disk. -/
theorem exec_sim {ok : Node → Prop} {Abs} (hM : Composite.IsMap (graphs A ok) Abs) {loc : Loc}
    {kind : ByteDisk.Kind} {tr : List (Option (Label Node))} {s : State Node}
    (h : (machine A c ok loc kind).Exec tr s) :
    ∃ tr' bd jd E, (KvSystem.machine A ok loc).Exec tr' ⟨⟨s.b, bd⟩, ⟨s.j, jd⟩⟩ ∧ DSim c s.d E bd jd ∧
      tr'.map (·.vop) = tr.map up := by
  refine Machine.exec_invariant (M := machine A c ok loc kind)
    (I := fun tr s => ∃ tr' bd jd E, (KvSystem.machine A ok loc).Exec tr' ⟨⟨s.b, bd⟩, ⟨s.j, jd⟩⟩ ∧
      DSim c s.d E bd jd ∧ tr'.map (·.vop) = tr.map up) ?_ ?_ h
  · rintro s ⟨h1, h2⟩
    exact ⟨[], _, _, _, ⟨_, h2, .nil _⟩, quiet_sim c h1, rfl⟩
  · rintro tr s l s' ⟨tr', bd, jd, E, h1, h2, h3⟩ hs
    obtain ⟨_, v, _, _, _, _, hok, _⟩ := KvSystem.exec_ok hM h1
    have hsafe : Safe bd jd := safe hok.block hok.journal
    cases hs with
    | machine hc hd =>
      cases hc with
      | valid k1 k2 k3 =>
        obtain ⟨bd', jd', E', g1, g2, g3⟩ := step_op h2 hsafe k1
          (fun id w e => by subst e; exact write_pos k1 k3)
          (fun id w x e hx y => by subst e; exact write_idle k1 k3 hok.journal x hx y) hd
        have hex := h1.snoc (KvSystem.Next.machine (s := ⟨⟨s.b, bd⟩, ⟨s.j, jd⟩⟩) k2 g1 k3 g2)
        obtain ⟨_, v', _, _, _, _, hok', _⟩ := KvSystem.exec_ok hM hex
        exact ⟨_, bd', jd', E', hex, g3 (safe hok'.block hok'.journal),
          by rw [List.map_append, List.map_append, h3]; rfl⟩
      | invalid k1 k2 =>
        exfalso
        cases hd with
        | ackRead e => exact k2 (h2.sane.rv _ _ (h2.sane.rl_resp e).2)
        | ackWrite e => exact k2 (h2.sane.wv _ _ (h2.sane.wl_resp e).2)
        | stutter => exact k2 trivial
        | _ => exact k1 trivial
    | disk hd =>
      obtain ⟨jd', g1, g2⟩ := step_internal h2 hsafe hd
      rcases g1 with rfl | g1
      · have hex := h1.snoc (KvSystem.Next.machine (s := ⟨⟨s.b, bd⟩, ⟨s.j, jd'⟩⟩)
          (.noop (.inr (.inl rfl)) (.inl rfl)) .stutter (.noop (.inl rfl) (.inl rfl)) .stutter
          (vop := .journalInternal))
        exact ⟨_, bd, jd', E, hex, g2, by rw [List.map_append, List.map_append, h3]; rfl⟩
      · have hex := h1.snoc (KvSystem.Next.disk (s := ⟨⟨s.b, bd⟩, ⟨s.j, jd⟩⟩) g1)
        exact ⟨_, bd, jd', E, hex, g2, by rw [List.map_append, List.map_append, h3]; rfl⟩
    | crash =>
      obtain ⟨g1, g2, g3⟩ := step_crash h2
      have hex := h1.snoc (KvSystem.Next.crash (s := ⟨⟨s.b, bd⟩, ⟨s.j, jd⟩⟩) g1 g2)
      exact ⟨_, _, _, _, hex, g3, by rw [List.map_append, List.map_append, h3]; rfl⟩

end Verif.Kv.ByteSystem
