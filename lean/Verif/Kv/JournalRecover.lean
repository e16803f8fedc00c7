import Verif.Kv.JournalProof
import Verif.Kv.LedgerProof
/-
The journal can always be recovered: after a crash there is a run of the journal system that ends with
the durable part of the log ready for replay. No code is modelled here.
-/
namespace Verif.Kv.JournalSystem
open JournalCache (select WFSb incr part Ready Other Loading)

theorem blocksAt_split {j : Nat → Option Block} {a m n : Nat} {z : List Block}
    (ha : a < numJournalBlocks) (hn : m + n ≤ numJournalBlocks) (h : blocksAt j a (m + n) = some z) :
    ∃ x y, blocksAt j a m = some x ∧ blocksAt j (posAdd a m) n = some y := by
  induction m generalizing a z with
  | zero => exact ⟨[], z, rfl, by rw [posAdd_zero ha]; simpa using h⟩
  | succ m ih =>
    rw [show m + 1 + n = (m + n) + 1 by omega] at h
    unfold blocksAt at h
    split at h
    · rename_i b bs hb hbs
      obtain ⟨x, y, hx, hy⟩ := ih (posAdd_lt ha (by omega)) (by omega) hbs
      refine ⟨b :: x, y, ?_, ?_⟩
      · show (match j a, blocksAt j (posAdd a 1) m with
          | some b, some bs => some (b :: bs)
          | _, _ => none) = _
        rw [hb, hx]
      · rw [posAdd_add ha (by omega), Nat.add_comm 1 m] at hy
        exact hy
    · cases h

/-- Both parts of the journal are readable if the whole is. -/
theorem part_readable {d : JournalDisk.State} {sb : Superblock} {z : List Block}
    (hs : sb.start < numJournalBlocks) (hl : sb.len ≤ numJournalBlocks)
    (h : blocksAt d.journal sb.start sb.len = some z) (w : Bool) (v : Interval)
    (hv : part sb w = some v) : v.start < numJournalBlocks ∧ v.start + v.len ≤ numJournalBlocks ∧
      ∃ bs, blocksAt d.journal v.start v.len = some bs := by
  by_cases h1 : sb.len ≤ numJournalBlocks - sb.start
  · cases w with
    | false =>
      simp only [part] at hv
      split at hv
      · cases hv
      · cases hv
        simp only [if_pos h1]
        exact ⟨hs, by omega, z, h⟩
    | true =>
      simp only [part, if_pos h1] at hv
      split at hv <;> cases hv
  · have e : sb.len = (numJournalBlocks - sb.start) + (sb.len - (numJournalBlocks - sb.start)) := by
      omega
    rw [e] at h
    obtain ⟨x, y, hx, hy⟩ := blocksAt_split hs (by omega) h
    have hp : posAdd sb.start (numJournalBlocks - sb.start) = 0 := by
      unfold posAdd; split <;> omega
    rw [hp] at hy
    cases w with
    | false =>
      simp only [part, if_neg h1] at hv
      split at hv
      · cases hv
      · cases hv
        exact ⟨hs, by simp only; omega, x, hx⟩
    | true =>
      simp only [part, if_neg h1] at hv
      split at hv
      · cases hv
      · cases hv
        exact ⟨by simp only; unfold numJournalBlocks; omega, by simp only; omega, y, hy⟩

/-- Reading one part of the journal. -/
theorem read_part {loc : Loc} {o : Other} {d : JournalDisk.State} {z : List Block} {id : ReqId}
    (hs : o.sb.start < numJournalBlocks) (hl : o.sb.len ≤ numJournalBlocks)
    (h : blocksAt d.journal o.sb.start o.sb.len = some z) (hr : ∀ w, o.read w = none)
    (hd : d.readJ = .empty) (w : Bool) (hg : o.got w = none) :
    ∃ n bs, (machine loc).Run ⟨.other o, d⟩ (List.replicate n .journalInternal)
      ⟨.other { o with got := setAt o.got w bs }, d⟩ ∧
      (part o.sb w ≠ none → bs ≠ none) ∧
      (∀ x, bs = some x → ∃ v, part o.sb w = some v ∧ blocksAt d.journal v.start v.len = some x) := by
  cases hp : part o.sb w with
  | none =>
    refine ⟨0, none, ?_, fun hc => absurd rfl hc, fun x hx => by cases hx⟩
    have : setAt o.got w none = o.got := by
      funext x; unfold setAt; split
      · rename_i e; rw [e, hg]
      · rfl
    rw [this]
    exact .nil _
  | some v =>
    obtain ⟨h1, h2, bs, hbs⟩ := part_readable hs hl h w v hp
    refine ⟨2, some bs, ?_, fun _ => by simp, fun x hx => by cases hx; exact ⟨v, rfl, hbs⟩⟩
    refine .cons (.machine (dop := .reqReadJ id v) (.pageJournal hs hl hp (hr w) hg)
      (.recvReadJ (by rw [hd]; rfl) h1 h2)) ?_
    have hrun := (Machine.Run.cons (M := machine loc)
      (Next.machine (s := ⟨.other { o with
            read := (fun x =>
              if x = w then some id else if o.read x = some id then none else o.read x) },
          { d with readJ := d.readJ.insert id v }⟩) (dop := .respReadJ id (some bs))
        (.pageJournalResp (w := w) (by simp))
        (.ackReadJ (v := v) (by simp) (by intro x hx; cases hx; exact hbs))) (.nil _))
    have e1 : setAt (fun x => if x = w then some id else if o.read x = some id then none else o.read x)
        w none = o.read := by
      funext x; unfold setAt
      by_cases e : x = w
      · rw [if_pos e, hr]
      · simp [if_neg e, hr]
    have e2 : (d.readJ.insert id v).remove id = d.readJ := by
      rw [hd]; funext x; simp [PMap.insert, PMap.remove, PMap.empty]
    simp only [e1, e2] at hrun
    exact hrun

/-- Recovery from the start. -/
theorem recover {loc : Loc} {s : State} {v : JournalView.State} (h : Rel s v)
    (hm : s.m = JournalCache.start) (id : ReqId) :
    ∃ n s' r, (machine loc).Run s (List.replicate 4 .journalInternal ++
        .sendPersistentLoc v.persistentLoc :: List.replicate n .journalInternal) s' ∧
      s'.m = .ready r ∧ r.replay = v.j1 ∧ s'.d.journal = s.d.journal ∧ s'.d.sb = s.d.sb := by
  obtain ⟨m, d⟩ := s
  change m = _ at hm
  subst hm
  obtain ⟨f, hc, hi, hdn⟩ := h
  change InvLoading _ d f at hi
  have hno : ∀ w i, ¬ d.readSb w i := fun w i hr => by have := hi.rec_ w i hr; cases this
  have hwf := (hc.holds (select f)).2
  obtain ⟨z, hz, hpz⟩ := Option.bind_eq_some_iff.mp hc.j1
  -- the two superblocks
  have e1 : ∀ (g : Bool → ReqId → Prop) (w : Bool), (∀ w i, ¬ g w i) →
      setAt (setAt g w (fun i => g w i ∨ i = id)) w
        (fun i => setAt g w (fun i => g w i ∨ i = id) w i ∧ i ≠ id) = g := by
    intro g w hg
    funext x i
    unfold setAt
    by_cases e : x = w
    · simp only [if_pos e, if_true, eq_iff_iff]
      constructor
      · rintro ⟨h1 | h1, h2⟩
        · exact absurd h1 (hg _ _)
        · exact absurd h1 h2
      · intro h1; exact absurd h1 (hg _ _)
    · simp only [if_neg e]
  have e2 : ∀ (g : Bool → Option ReqId) (w : Bool), g w = none →
      setAt (setAt g w (some id)) w none = g := by
    intro g w hg
    funext x; unfold setAt
    by_cases e : x = w
    · subst e; simp only [if_true, hg]
    · simp only [if_neg e]
  have rd : ∀ (l : Loading) (w : Bool), l.read w = none → l.got w = .unfinished →
      (machine loc).Run ⟨.loading l, d⟩ (List.replicate 2 .journalInternal)
        ⟨.loading { l with got := setAt l.got w (.success (f w)) }, d⟩ := by
    intro l w h1 h2
    refine .cons (.machine (dop := .reqReadSb id w) (.pageSb h1 h2) (.recvReadSb (fun x => hno x id))) ?_
    have hrun := Machine.Run.cons (M := machine loc)
      (Next.machine (s := ⟨.loading { l with read := setAt l.read w (some id) },
          { d with readSb := setAt d.readSb w (fun i => d.readSb w i ∨ i = id) }⟩)
        (dop := .respReadSb id w (some (f w))) (.pageSbOk (w := w) (by simp) (hc.holds w).2)
        (.ackReadSb (by simp) (by intro x hx; cases hx; exact (hc.holds w).1))) (.nil _)
    simp only [e1 d.readSb w hno, e2 l.read w h1] at hrun
    exact hrun
  have r1 := rd ⟨fun _ => none, fun _ => .unfinished, .empty⟩ false rfl rfl
  have r2 := rd ⟨fun _ => none, setAt (fun _ => .unfinished) false (.success (f false)), .empty⟩ true
    rfl rfl
  have r3 : (machine loc).Run ⟨.loading ⟨fun _ => none, setAt (setAt (fun _ => .unfinished) false
      (.success (f false))) true (.success (f true)), .empty⟩, d⟩
      [.sendPersistentLoc (f (select f)).loc]
      ⟨.other ⟨f (select f), select f, fun _ => none, fun _ => none, .empty⟩, d⟩ :=
    .cons (.machine (.finishSb (f := f) (by intro w; cases w <;> rfl)) .stutter) (.nil _)
  -- the journal
  obtain ⟨n1, b1, r4, a1, a2⟩ := read_part (loc := loc) (id := id)
    (o := ⟨f (select f), select f, fun _ => none, fun _ => none, .empty⟩) hwf.1 hwf.2.1 hz
    (fun _ => rfl) hi.readJ false rfl
  obtain ⟨n2, b2, r5, a3, a4⟩ := read_part (loc := loc) (id := id)
    (o := ⟨f (select f), select f, fun _ => none, setAt (fun _ => none) false b1, .empty⟩)
    hwf.1 hwf.2.1 hz (fun _ => rfl) hi.readJ true rfl
  have hgot : ∀ w, part (f (select f)) w ≠ none →
      setAt (setAt (fun _ => none) false b1) true b2 w ≠ none := by
    intro w hw
    cases w
    · exact a1 hw
    · exact a3 hw
  have hinv : InvOther ⟨f (select f), select f, fun _ => none,
      setAt (setAt (fun _ => none) false b1) true b2, .empty⟩ d f := by
    refine ⟨rfl, rfl, hno, hi.writeSb, hi.writeJ, ?_, ?_, ?_, ?_⟩
    · intro i x hx; rw [hi.readJ] at hx; cases hx
    · intro w w' i hx; cases hx
    · intro w i hx; cases hx
    · intro w x hx
      cases w
      · exact a2 x hx
      · exact a4 x hx
  have hfr := full_range hinv hwf.1 hwf.2.1 hgot
  have hz' : blocksAt d.journal (f (select f)).start (f (select f)).len = some z := hz
  rw [show blocksAt d.journal (f (select f)).start (f (select f)).len = _ from hfr] at hz'
  have r6 : (machine loc).Run ⟨.other ⟨f (select f), select f, fun _ => none,
      setAt (setAt (fun _ => none) false b1) true b2, .empty⟩, d⟩ [.journalInternal] _ :=
    .cons (.machine (.finishOther (p := 0) (replay := v.j1) hwf.1 hwf.2.1 hgot
      (by rw [Option.some.inj hz']; exact hpz)) .stutter) (.nil _)
  have hrun := ((r1.append r2).append r3).append ((r4.append r5).append r6)
  have e : List.replicate 2 VOp.journalInternal ++ List.replicate 2 VOp.journalInternal ++
      [VOp.sendPersistentLoc (f (select f)).loc] ++ (List.replicate n1 VOp.journalInternal ++
        List.replicate n2 VOp.journalInternal ++ [VOp.journalInternal]) =
      List.replicate 4 VOp.journalInternal ++ VOp.sendPersistentLoc v.persistentLoc ::
        List.replicate (n1 + n2 + 1) VOp.journalInternal := by
    rw [hc.loc]
    rw [show [VOp.journalInternal] = List.replicate 1 VOp.journalInternal from rfl,
      List.replicate_append_replicate, List.replicate_append_replicate,
      List.replicate_append_replicate, List.append_assoc]
    rfl
  rw [e] at hrun
  exact ⟨n1 + n2 + 1, _, _, hrun, rfl, rfl, rfl, rfl⟩

end Verif.Kv.JournalSystem
