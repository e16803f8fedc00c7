import Verif.Kv.DiskHandlerProof
/-
What the disk driver was asked, what it answered, and what is then in the file. No code is modelled here.
-/
namespace Verif.Kv.DiskHandler
open ByteDisk (Data Op padLen Covers)

/-- The write is asked for in this step. -/
def Asks : Op → ReqId → Data → Prop
  | .reqWrite i w, id, w' => i = id ∧ w = w'
  | .reqWrite2 i1 i2 w1 w2, id, w' => (i1 = id ∧ w1 = w') ∨ (i2 = id ∧ w2 = w')
  | _, _, _ => False

/-- The write has been asked for. -/
def Asked (tr : List Op) (id : ReqId) (w : Data) : Prop := ∃ op ∈ tr, Asks op id w

/-- The id of the write that is answered. -/
def answer : Op → Option ReqId
  | .respWrite id _ => some id
  | _ => none

/-- The two writes touch no common sector of 4096 bytes. -/
def Apart (w w' : Data) : Prop :=
  w.addr + w.bytes.length + padLen w.bytes.length ≤ w'.addr ∨
  w'.addr + w'.bytes.length + padLen w'.bytes.length ≤ w.addr

/-- The bytes of the write are in the file. -/
def Holds (file : List UInt8) (w : Data) : Prop := ∀ i, i < w.bytes.length → file[w.addr + i]? = w.bytes[i]?

theorem pwrite_len (f : List UInt8) (a : Nat) (bs : List UInt8) :
    (pwrite f a bs).length = max f.length (a + bs.length) := by
  unfold pwrite fill
  simp only [List.length_append, List.length_take, List.length_replicate, List.length_drop]
  omega

theorem get_of_getD {f g : List UInt8} {i j : Nat} (hi : i < f.length) (hj : j < g.length)
    (h : f[i]?.getD 0 = g[j]?.getD 0) : f[i]? = g[j]? := by
  rw [List.getElem?_eq_getElem hi, List.getElem?_eq_getElem hj] at h ⊢
  exact congrArg some h

theorem holds_pwrite {f : List UInt8} {w : Data} {p : List UInt8} : Holds (pwrite f w.addr (w.bytes ++ p)) w := by
  intro i hi
  refine get_of_getD (by rw [pwrite_len, List.length_append]; omega) hi ?_
  rw [pwrite_get, if_pos (by rw [List.length_append]; omega), Nat.add_sub_cancel_left, List.getElem?_append_left hi]

theorem Holds.lt {f : List UInt8} {w : Data} (h : Holds f w) {i : Nat} (hi : i < w.bytes.length) :
    w.addr + i < f.length := by
  apply Classical.byContradiction
  intro k
  have := h i hi
  rw [List.getElem?_eq_none (by omega), List.getElem?_eq_getElem hi] at this
  cases this

theorem Holds.pwrite {f : List UInt8} {w : Data} (h : Holds f w) {a : Nat} {bs : List UInt8}
    (hd : w.addr + w.bytes.length ≤ a ∨ a + bs.length ≤ w.addr) : Holds (pwrite f a bs) w := by
  intro i hi
  have hl := h.lt hi
  rw [← h i hi]
  refine get_of_getD (by rw [pwrite_len]; omega) hl ?_
  rw [pwrite_get, if_neg (by omega)]

/-- What is asked for is under way or in the file. -/
structure Kept (Req : ReqId → Data → Prop) (s : State) : Prop where
  uniq : ∀ id w w', Req id w → Req id w' → w = w'
  task : ∀ x ∈ cores s.writes, Req x.1 x.2.1
  kept : ∀ id w, Req id w → (∀ id' w', Req id' w' → id' ≠ id → Apart w w') →
    (∃ p, (id, w, p, false) ∈ cores s.writes) ∨ Holds s.file w

theorem Kept.same {Req : ReqId → Data → Prop} {s s' : State} (h : Kept Req s) (h1 : cores s'.writes = cores s.writes)
    (h2 : s'.file = s.file) : Kept Req s' :=
  ⟨h.uniq, by rw [h1]; exact h.task, by rw [h1, h2]; exact h.kept⟩

theorem cores_append (a b : AList ReqId Task) : cores (a ++ b) = cores a ++ cores b := List.map_append ..
theorem cores_cons (id : ReqId) (t : Task) (b : AList ReqId Task) : cores ((id, t) :: b) = (id, core t) :: cores b := rfl

theorem Kept.os {Req : ReqId → Data → Prop} {s s' : State} (hi : Inv s) (h : Kept Req s) (ho : Os s s') :
    Kept Req s' := by
  cases ho with
  | @finish l1 l2 id t e hm hf hb =>
    have hmem : (id, core t) ∈ cores s.writes := by rw [e, cores_append, cores_cons]; simp
    have hpad : t.pad.length = padLen t.data.bytes.length := (hi.ok (id, t) (by rw [e]; simp)).pad
    have hreq : Req id t.data := h.task _ hmem
    refine ⟨h.uniq, ?_, ?_⟩
    · intro x hx
      dsimp only at hx
      rw [cores_append, cores_cons] at hx
      rcases List.mem_append.mp hx with hx | hx
      · exact h.task x (by rw [e, cores_append]; exact List.mem_append_left _ hx)
      · rcases List.mem_cons.mp hx with rfl | hx
        · exact hreq
        · exact h.task x (by rw [e, cores_append, cores_cons]; exact List.mem_append_right _ (List.mem_cons_of_mem _ hx))
    · intro id' w hw hap
      by_cases ei : id' = id
      · subst ei
        right
        have ew : w = t.data := h.uniq _ _ _ hw hreq
        subst ew
        exact holds_pwrite
      · rcases h.kept _ w hw hap with ⟨p, hp⟩ | hh
        · left
          refine ⟨p, ?_⟩
          dsimp only
          rw [cores_append, cores_cons]
          rw [e, cores_append, cores_cons] at hp
          rcases List.mem_append.mp hp with hp | hp
          · exact List.mem_append_left _ hp
          · rcases List.mem_cons.mp hp with hp | hp
            · exact absurd (Prod.mk.inj hp).1 ei
            · exact List.mem_append_right _ (List.mem_cons_of_mem _ hp)
        · right
          refine hh.pwrite ?_
          have := hap id t.data hreq (Ne.symm ei)
          unfold Apart at this
          show _ ∨ t.data.addr + (t.data.bytes ++ t.pad).length ≤ _
          rw [List.length_append, hpad]
          omega
  | @part l1 l2 id t f e hm hf hb hl h1 h2 h3 =>
    have hmem : (id, core t) ∈ cores s.writes := by rw [e, cores_append, cores_cons]; simp
    have hpad : t.pad.length = padLen t.data.bytes.length := (hi.ok (id, t) (by rw [e]; simp)).pad
    have hreq : Req id t.data := h.task _ hmem
    refine ⟨h.uniq, h.task, fun id' w hw hap => ?_⟩
    by_cases ei : id' = id
    · subst ei
      left
      have ew : w = t.data := h.uniq _ _ _ hw hreq
      subst ew
      exact ⟨t.pad, by have := hmem; unfold core at this; rw [hf] at this; exact this⟩
    · rcases h.kept _ w hw hap with hp | hh
      · exact .inl hp
      · right
        intro i hi'
        have hlt := hh.lt hi'
        rw [← hh i hi']
        refine get_of_getD (by dsimp only; omega) hlt (h3 _ ?_)
        have := hap id t.data hreq (Ne.symm ei)
        unfold Apart at this
        unfold Covers
        show ¬ (t.data.addr ≤ _ ∧ _ < t.data.addr + (t.data.bytes ++ t.pad).length)
        rw [List.length_append, hpad]
        omega

theorem Kept.osRun {Req : ReqId → Data → Prop} {s s' : State} (ho : OsRun s s') : Inv s → Kept Req s → Kept Req s' := by
  induction ho with
  | nil => exact fun _ h => h
  | cons h1 _ ih => exact fun hi h => ih (hi.os h1).1 (h.os hi h1)

theorem Kept.complete {Req : ReqId → Data → Prop} {s : State} {r : Option State} (hc : Complete s r) : Inv s →
    Kept Req s → ∀ s', r = some s' → Kept Req s' := by
  induction hc with
  | fails => intro _ _ s' e; cases e
  | ends =>
    intro hi h s' e
    cases e
    exact h.same (s' := DiskHandler.checked _) hi.checked.2 rfl
  | again _ h2 _ ih =>
    intro hi h s' e
    have k := Kept.osRun h2 hi.checked.1 (h.same (s' := DiskHandler.checked _) hi.checked.2 rfl)
    have hm := (hi.checked.1.osRun h2).1.maybeStart
    exact ih hm.1 (k.same (s' := DiskHandler.maybeStart _) hm.2.2 rfl) s' e

theorem cores_write (s : State) (w : Data) (p : List UInt8) :
    cores (DiskHandler.write s w p).writes = cores s.writes ++ [(s.curId, w, p, false)] ∧
      (DiskHandler.write s w p).file = s.file := by
  unfold DiskHandler.write
  split <;> exact ⟨cores_append .., rfl⟩

/-- One more write. -/
theorem Kept.write {Req : ReqId → Data → Prop} {s : State} (h : Kept Req s)
    (hnew : ∀ id w, Req id w → id < s.curId) (w : Data) (p : List UInt8) :
    Kept (fun id w' => Req id w' ∨ s.curId = id ∧ w = w') (DiskHandler.write s w p) := by
  obtain ⟨e1, e2⟩ := cores_write s w p
  refine ⟨?_, ?_, ?_⟩
  · rintro id x y (hx | ⟨rfl, rfl⟩) (hy | ⟨e, rfl⟩)
    · exact h.uniq _ _ _ hx hy
    · exact absurd (hnew _ _ hx) (e ▸ Nat.lt_irrefl _)
    · exact absurd (hnew _ _ hy) (Nat.lt_irrefl _)
    · rfl
  · rw [e1]
    intro x hx
    rcases List.mem_append.mp hx with hx | hx
    · exact .inl (h.task x hx)
    · rw [List.mem_singleton.mp hx]; exact .inr ⟨rfl, rfl⟩
  · rw [e1, e2]
    rintro id x (hx | ⟨rfl, rfl⟩) hap
    · rcases h.kept id x hx (fun i y hy hn => hap i y (.inl hy) hn) with ⟨q, hq⟩ | hh
      · exact .inl ⟨q, List.mem_append_left _ hq⟩
      · exact .inr hh
    · exact .inl ⟨p, List.mem_append_right _ (List.mem_singleton.mpr rfl)⟩

theorem Kept.iff {R R' : ReqId → Data → Prop} {s : State} (h : Kept R s) (e : ∀ id w, R' id w ↔ R id w) : Kept R' s := by
  have : R' = R := by funext id w; exact propext (e id w)
  rw [this]; exact h

/-- What holds along a run. -/
structure Hist (tr : List Op) (s : State) : Prop where
  inv : Inv s
  busy : Busy s
  new : ∀ id w, Asked tr id w → id < s.curId
  kept : Kept (Asked tr) s
  once : (tr.filterMap answer).Nodup
  answered : ∀ id l, Op.respWrite id l ∈ tr → (∃ w, Asked tr id w ∧ w.loc = l) ∧ ∀ x ∈ cores s.writes, x.1 ≠ id

theorem asked_snoc (tr : List Op) (op : Op) (id : ReqId) (w : Data) :
    Asked (tr ++ [op]) id w ↔ Asked tr id w ∨ Asks op id w := by
  unfold Asked
  constructor
  · rintro ⟨o, ho, h⟩
    rcases List.mem_append.mp ho with ho | ho
    · exact .inl ⟨o, ho, h⟩
    · rw [List.mem_singleton.mp ho] at h; exact .inr h
  · rintro (⟨o, ho, h⟩ | h)
    · exact ⟨o, List.mem_append_left _ ho, h⟩
    · exact ⟨op, List.mem_append_right _ (List.mem_singleton.mpr rfl), h⟩

/-- A step that asks and answers no write. -/
theorem Hist.quiet {tr : List Op} {s s' : State} (h : Hist tr s) {op : Op} (hi : Inv s') (hb : Busy s')
    (hc : s.curId ≤ s'.curId) (hk : Kept (Asked tr) s') (hw : cores s'.writes ⊆ cores s.writes ∨
      ∀ x ∈ cores s'.writes, ∃ y ∈ cores s.writes, y.1 = x.1)
    (hn : ∀ id w, ¬ Asks op id w) (ha : answer op = none) : Hist (tr ++ [op]) s' := by
  have e : ∀ id w, Asked (tr ++ [op]) id w ↔ Asked tr id w := by
    intro id w; rw [asked_snoc]; exact ⟨fun x => x.resolve_right (hn id w), .inl⟩
  refine ⟨hi, hb, fun id w k => Nat.lt_of_lt_of_le (h.new id w ((e id w).mp k)) hc, hk.iff e, ?_, ?_⟩
  · rw [List.filterMap_append]
    simp only [List.filterMap_cons, ha, List.filterMap_nil, List.append_nil]
    exact h.once
  · intro id l hl
    rcases List.mem_append.mp hl with hl | hl
    · obtain ⟨⟨w, k1, k2⟩, k3⟩ := h.answered id l hl
      refine ⟨⟨w, (e id w).mpr k1, k2⟩, fun x hx ex => ?_⟩
      rcases hw with hw | hw
      · exact k3 x (hw hx) ex
      · obtain ⟨y, hy, ey⟩ := hw x hx
        exact k3 y hy (ey.trans ex)
    · rw [← List.mem_singleton.mp hl] at ha; cases ha

theorem keys_same {s s' : State} (h : s'.writes.map (·.1) = s.writes.map (·.1)) :
    ∀ x ∈ cores s'.writes, ∃ y ∈ cores s.writes, y.1 = x.1 := by
  intro x hx
  have : x.1 ∈ (cores s.writes).map (·.1) := by
    rw [← cores_keys, ← h, cores_keys]; exact List.mem_map_of_mem hx
  obtain ⟨y, hy, e⟩ := List.mem_map.mp this
  exact ⟨y, hy, e⟩

theorem os_keys {s s' : State} (h : Os s s') : s'.writes.map (·.1) = s.writes.map (·.1) ∧ s'.curId = s.curId := by
  cases h with
  | finish e => exact ⟨by dsimp only; rw [e]; simp, rfl⟩
  | part => exact ⟨rfl, rfl⟩

theorem osRun_keys {s s' : State} (h : OsRun s s') : s'.writes.map (·.1) = s.writes.map (·.1) ∧ s'.curId = s.curId := by
  induction h with
  | nil => exact ⟨rfl, rfl⟩
  | cons h1 _ ih => exact ⟨ih.1.trans (os_keys h1).1, ih.2.trans (os_keys h1).2⟩

theorem complete_keys {s : State} {r : Option State} (hc : Complete s r) : Inv s → ∀ s', r = some s' →
    s'.writes.map (·.1) = s.writes.map (·.1) ∧ s'.curId = s.curId := by
  induction hc with
  | fails => intro _ s' e; cases e
  | @ends s _ _ =>
    intro hi s' e
    cases e
    refine ⟨?_, rfl⟩
    have := hi.checked.2
    rw [cores_keys, cores_keys s.writes, ← this]
    rfl
  | @again s s1 r _ h2 _ ih =>
    intro hi s' e
    have hm := (hi.checked.1.osRun h2).1.maybeStart
    obtain ⟨k1, k2⟩ := ih hm.1 s' e
    obtain ⟨q1, q2⟩ := osRun_keys h2
    refine ⟨k1.trans ?_, k2.trans q2⟩
    rw [cores_keys, hm.2.2, ← cores_keys, q1]
    have := hi.checked.2
    rw [cores_keys, cores_keys s.writes, ← this]
    rfl

/-- After one more write. -/
theorem Hist.ask {tr : List Op} {s : State} (h : Hist tr s) (w : Data) {p : List UInt8}
    (hp : p.length = padLen w.bytes.length) : Hist (tr ++ [.reqWrite s.curId w]) (DiskHandler.write s w p) := by
  refine ⟨h.inv.write hp, h.busy.write h.inv, ?_, ?_, ?_, ?_⟩
  · intro id x hx
    rw [write_cur]
    rcases (asked_snoc ..).mp hx with hx | ⟨rfl, rfl⟩
    · exact Nat.lt_succ_of_lt (h.new id x hx)
    · exact Nat.lt_succ_self _
  · exact (h.kept.write h.new w p).iff fun id x => asked_snoc ..
  · rw [List.filterMap_append, show [Op.reqWrite s.curId w].filterMap answer = [] from rfl, List.append_nil]
    exact h.once
  · intro id l hl
    rcases List.mem_append.mp hl with hl | hl
    · obtain ⟨⟨x, k1, k2⟩, k3⟩ := h.answered id l hl
      refine ⟨⟨x, (asked_snoc ..).mpr (.inl k1), k2⟩, ?_⟩
      rw [(cores_write s w p).1]
      intro y hy
      rcases List.mem_append.mp hy with hy | hy
      · exact k3 y hy
      · rw [List.mem_singleton.mp hy]
        have := h.new id x k1
        exact fun e => absurd (show s.curId = id from e) (Nat.ne_of_gt this)
    · cases List.mem_singleton.mp hl

/-- The two writes of `write2` are as two calls of `write`. -/
theorem Hist.merge {tr : List Op} {s : State} {i1 i2 : ReqId} {w1 w2 : Data}
    (h : Hist (tr ++ [.reqWrite i1 w1] ++ [.reqWrite i2 w2]) s) : Hist (tr ++ [.reqWrite2 i1 i2 w1 w2]) s := by
  have e : ∀ id w, Asked (tr ++ [.reqWrite2 i1 i2 w1 w2]) id w ↔ Asked (tr ++ [.reqWrite i1 w1] ++ [.reqWrite i2 w2]) id w := by
    intro id w
    rw [asked_snoc, asked_snoc, asked_snoc, or_assoc]
    exact Iff.rfl
  refine ⟨h.inv, h.busy, fun id w k => h.new id w ((e id w).mp k), h.kept.iff e, ?_, ?_⟩
  · have := h.once
    rw [List.filterMap_append, List.filterMap_append, show [Op.reqWrite i1 w1].filterMap answer = [] from rfl,
      show [Op.reqWrite i2 w2].filterMap answer = [] from rfl, List.append_nil, List.append_nil] at this
    rw [List.filterMap_append, show [Op.reqWrite2 i1 i2 w1 w2].filterMap answer = [] from rfl, List.append_nil]
    exact this
  · intro id l hl
    have : Op.respWrite id l ∈ tr ++ [.reqWrite i1 w1] ++ [.reqWrite i2 w2] := by
      rcases List.mem_append.mp hl with hl | hl
      · exact List.mem_append_left _ (List.mem_append_left _ hl)
      · cases List.mem_singleton.mp hl
    obtain ⟨⟨w, k1, k2⟩, k3⟩ := h.answered id l this
    exact ⟨⟨w, (e id w).mpr k1, k2⟩, k3⟩

theorem Hist.step {crc : List UInt8 → List UInt8} {tr : List Op} {s s' : State} {op : Op} (h : Hist tr s)
    (hs : Step crc s op s') : Hist (tr ++ [op]) s' := by
  obtain ⟨hi, hb⟩ := h.inv.step h.busy hs
  cases hs with
  | call hc =>
    cases hc with
    | write hp => exact h.ask _ hp
    | @write2 w1 w2 p1 p2 hp hq =>
      have := (h.ask w1 hp).ask w2 hq
      rw [write_cur] at this
      exact this.merge
    | read _ _ =>
      exact h.quiet hi hb (Nat.le_succ _) (h.kept.same rfl rfl) (.inl fun _ k => k) (fun _ _ k => k) rfl
    | readResponse _ =>
      exact h.quiet hi hb (Nat.le_refl _) (h.kept.same rfl rfl) (.inl fun _ k => k) (fun _ _ k => k) rfl
    | @writeResponse id l _ hp =>
      obtain ⟨l1, t, l2, k1, k2, k3, k4, _, _, _, k5, k6⟩ := prepare_spec h.inv hp
      have hmem : (id, core t) ∈ cores s.writes := by rw [k1, cores_append, cores_cons]; simp
      have hreq : Asked tr id t.data := h.kept.task _ hmem
      have hn : ∀ x ∈ cores (l1 ++ l2), x.1 ≠ id ∧ x ∈ cores s.writes := by
        have hd := h.inv.nodup
        rw [cores_keys, k1, cores_append, cores_cons, List.map_append, List.map_cons, List.nodup_append,
          List.nodup_cons] at hd
        intro x hx
        rw [cores_append] at hx
        rw [k1, cores_append, cores_cons]
        rcases List.mem_append.mp hx with hx | hx
        · exact ⟨fun e => hd.2.2 _ (List.mem_map_of_mem hx) _ (List.mem_cons_self ..) e, List.mem_append_left _ hx⟩
        · exact ⟨fun e => hd.2.1.1 (e ▸ List.mem_map_of_mem (f := (·.1)) hx),
            List.mem_append_right _ (List.mem_cons_of_mem _ hx)⟩
      have e : ∀ i w, Asked (tr ++ [.respWrite id l]) i w ↔ Asked tr i w := by
        intro i w; rw [asked_snoc]; exact ⟨fun x => x.resolve_right fun k => k, .inl⟩
      refine ⟨hi, hb, fun i w k => by rw [k6]; exact h.new i w ((e i w).mp k), ?_, ?_, ?_⟩
      · refine Kept.iff ?_ e
        refine ⟨h.kept.uniq, fun x hx => h.kept.task x (hn x (k2 ▸ hx)).2, fun i w hw hap => ?_⟩
        rw [k2, k5]
        rcases h.kept.kept i w hw hap with ⟨p, hp⟩ | hh
        · left
          refine ⟨p, ?_⟩
          rw [k1, cores_append, cores_cons] at hp
          rw [cores_append]
          rcases List.mem_append.mp hp with hp | hp
          · exact List.mem_append_left _ hp
          · rcases List.mem_cons.mp hp with hp | hp
            · have := (Prod.mk.inj hp).2
              unfold core at this
              rw [k4] at this
              cases this
            · exact List.mem_append_right _ hp
        · exact .inr hh
      · rw [List.filterMap_append, List.nodup_append]
        refine ⟨h.once, by simp [answer], ?_⟩
        intro a ha b hb' eab
        simp only [List.filterMap_cons, answer, List.filterMap_nil, List.mem_singleton] at hb'
        subst eab hb'
        obtain ⟨o, ho, eo⟩ := List.mem_filterMap.mp ha
        cases o with
        | respWrite i l' =>
          cases eo
          exact (h.answered _ l' ho).2 _ hmem rfl
        | _ => cases eo
      · intro i l' hl
        rw [k2]
        rcases List.mem_append.mp hl with hl | hl
        · obtain ⟨⟨w, q1, q2⟩, q3⟩ := h.answered i l' hl
          exact ⟨⟨w, (e i w).mpr q1, q2⟩, fun x hx => q3 x (hn x hx).2⟩
        · cases List.mem_singleton.mp hl
          exact ⟨⟨t.data, (e _ _).mpr hreq, k3⟩, fun x hx => (hn x hx).1⟩
    | none => exact h.quiet hi hb (Nat.le_refl _) h.kept (.inl fun _ k => k) (fun _ _ k => k) rfl
  | os ho =>
    exact h.quiet hi hb (Nat.le_of_eq (os_keys ho).2.symm) (h.kept.os h.inv ho) (.inr (keys_same (os_keys ho).1))
      (fun _ _ k => k) rfl
  | complete hc =>
    obtain ⟨q1, q2⟩ := complete_keys hc h.inv _ rfl
    exact h.quiet hi hb (Nat.le_of_eq q2.symm) (Kept.complete hc h.inv h.kept _ rfl) (.inr (keys_same q1))
      (fun _ _ k => k) rfl
  | waitForOne hw =>
    cases hw with
    | done => exact h.quiet hi hb (Nat.le_refl _) h.kept (.inl fun _ k => k) (fun _ _ k => k) rfl
    | @waits s1 _ _ hr =>
      have hm := (h.inv.osRun hr).1.maybeStart
      obtain ⟨q1, q2⟩ := osRun_keys hr
      refine h.quiet hi hb (Nat.le_of_eq q2.symm) ((Kept.osRun hr h.inv h.kept).same hm.2.2 rfl) (.inr (keys_same ?_))
        (fun _ _ k => k) rfl
      rw [cores_keys, hm.2.2, ← cores_keys, q1]

theorem Hist.exec {crc : List UInt8 → List UInt8} {tr : List Op} {s : State} (h : (machine crc).Exec tr s) :
    Hist tr s := by
  refine Machine.exec_invariant (I := Hist) ?_ (fun tr s l s' hh hs => hh.step hs) h
  rintro s ⟨file, hf, rfl⟩
  refine ⟨.opened hf, (fun h => by cases h), ?_, ⟨?_, (fun _ h => nomatch h), ?_⟩, List.nodup_nil, fun _ _ h => nomatch h⟩
  · rintro _ _ ⟨_, h, _⟩; cases h
  · rintro _ _ _ ⟨_, h, _⟩; cases h
  · rintro _ _ ⟨_, h, _⟩; cases h

end Verif.Kv.DiskHandler
