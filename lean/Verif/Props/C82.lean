import Verif.Kv.DiskHandlerKept
/-
C82. The disk driver keeps to eight writes at a time, loses none, and answers each once, when it is in the file;
but finishing all writes can end the program though no write failed.

Specification: `Asked`, `Apart` and `Holds` in Verif/Kv/DiskHandlerKept.lean, of what the program asks and is
answered, and of the file. A run of `DiskHandler.machine` is a process that uses the driver in any way, on an
operating system that finishes writes in any order.
-/
namespace Verif.C82
open Verif.Kv Verif.Kv.DiskHandler
open Verif.Kv.ByteDisk (Data Op padLen)

variable {crc : List UInt8 → List UInt8}

/-! ### What is asked and answered -/

/-- **Every write is answered at most once.** -/
theorem answered_once {tr : List Op} {s : State} (h : (machine crc).Exec tr s) : (tr.filterMap answer).Nodup :=
  (Hist.exec h).once

/-- **Every id is given to one write.** -/
theorem ids_differ {tr : List Op} {s : State} (h : (machine crc).Exec tr s) {id : ReqId} {w w' : Data}
    (h1 : Asked tr id w) (h2 : Asked tr id w') : w = w' :=
  (Hist.exec h).kept.uniq id w w' h1 h2

/-- **What is answered is in the file**: an answer has the id and the place of a write that was asked for, and if
no other write was asked for in the same sectors, its bytes are in the file, now and ever after. -/
theorem answered_in_file {tr : List Op} {s : State} (h : (machine crc).Exec tr s) {id : ReqId} {l : Loc}
    (ha : Op.respWrite id l ∈ tr) : ∃ w, Asked tr id w ∧ w.loc = l ∧
      ((∀ id' w', Asked tr id' w' → id' ≠ id → Apart w w') → Holds s.file w) := by
  have hh := Hist.exec h
  obtain ⟨⟨w, h1, h2⟩, h3⟩ := hh.answered id l ha
  refine ⟨w, h1, h2, fun hap => ?_⟩
  rcases hh.kept.kept id w h1 hap with ⟨p, hp⟩ | hf
  · exact absurd rfl (h3 _ hp)
  · exact hf

/-- **Nothing is lost**: a write that was asked for is under way, or its bytes are in the file, if no other write
was asked for in the same sectors. -/
theorem nothing_lost {tr : List Op} {s : State} (h : (machine crc).Exec tr s) {id : ReqId} {w : Data}
    (ha : Asked tr id w) (hap : ∀ id' w', Asked tr id' w' → id' ≠ id → Apart w w') :
    (∃ t, (id, t) ∈ s.writes ∧ t.data = w ∧ t.finished = false) ∨ Holds s.file w := by
  rcases (Hist.exec h).kept.kept id w ha hap with ⟨p, hp⟩ | hf
  · obtain ⟨⟨i, t⟩, hx, e⟩ := List.mem_map.mp hp
    have e1 := (Prod.mk.inj e).1
    have e2 := (Prod.mk.inj (Prod.mk.inj e).2).1
    have e3 := (Prod.mk.inj (Prod.mk.inj (Prod.mk.inj e).2).2).2
    dsimp only at e1 e2 e3
    subst e1
    exact .inl ⟨t, hx, e2, e3⟩
  · exact .inr hf

/-! ### The queue -/

/-- **At most eight writes are with the operating system**, and one waits only when they are eight. -/
theorem at_most_eight {s : State} (h : (machine crc).Reachable s) :
    (s.writes.countP fun x => x.2.madeReq && !x.2.done) ≤ 8 ∧
      ((∃ x ∈ s.writes, x.2.madeReq = false) → (s.writes.countP fun x => x.2.madeReq && !x.2.done) = 8) := by
  obtain ⟨hi, hb⟩ := Inv.reachable h
  have ho := hi.out
  have hm := hi.max
  refine ⟨by show outs s.writes ≤ maxOut; omega, ?_⟩
  rintro ⟨x, hx, hn⟩
  have : 0 < s.nWaiting := by
    rw [hi.waiting]
    exact List.countP_pos_iff.mpr ⟨x, hx, by rw [hn]; rfl⟩
  have := hb this
  show outs s.writes = maxOut
  omega

/-- **`waitForOne` never ends the program while a write is not answered.** (At
Framework.cpp:564-569 it is called in no other case; at :522-529 the program has said to wait.) -/
theorem wait_ok {s : State} (h : (machine crc).Reachable s) (hw : s.writes ≠ []) : ¬ WaitForOne s none := by
  obtain ⟨hi, hb⟩ := Inv.reachable h
  intro k
  cases k with
  | fails h1 h2 =>
    have hout := hi.out
    by_cases hn : 0 < s.nWaiting
    · have := hb hn
      unfold maxOut at this
      omega
    · have hz : waits s.writes = 0 := by have := hi.waiting; omega
      obtain ⟨x, hx⟩ := List.exists_mem_of_ne_nil _ hw
      have hm : x.2.madeReq = true := by
        have := List.countP_eq_zero.mp hz x hx
        simpa using this
      have := List.countP_eq_zero.mp h2 x hx
      exact this (by unfold Task.out; rw [hm, h1 x hx]; rfl)

theorem waits_le {s : State} (hi : Inv s) (hb : Busy s) (hl : s.writes.length ≤ 8) : s.nWaiting = 0 := by
  apply Classical.byContradiction
  intro hn
  have h8 := hb (by omega)
  have ho := hi.out
  have hw := hi.waiting
  have key : ∀ ws : AList ReqId Task, outs ws + waits ws ≤ ws.length := by
    intro ws
    induction ws with
    | nil => exact Nat.le_refl _
    | cons x ws ih =>
      obtain ⟨i, t⟩ := x
      rw [outs_cons, waits_cons, List.length_cons]
      unfold Task.out
      cases t.madeReq <;> cases t.done <;> simp <;> omega
  have := key s.writes
  unfold maxOut at h8
  omega

/-- What is missing is the case of more than eight unanswered writes (`complete_can_fail`): **with at most eight,
`completeWriteTasks` does not end the program**, and when it returns every write is done. -/
theorem complete_ok_partial {s : State} (h : (machine crc).Reachable s) (hl : s.writes.length ≤ 8) :
    ¬ Complete s none ∧ ∀ s', Complete s (some s') → ∀ x ∈ s'.writes, x.2.done = true := by
  obtain ⟨hi, hb⟩ := Inv.reachable h
  have hz := waits_le hi hb hl
  have none_waits : ∀ {s : State}, Inv s → s.nWaiting = 0 → ¬ notStarted (checkAll s.writes s.nOut).1 := by
    intro s hi hz
    rintro ⟨x, hx, _, hm⟩
    have hw := hi.checked.1.waiting
    have : 0 < waits (checkAll s.writes s.nOut).1 := List.countP_pos_iff.mpr ⟨x, hx, by rw [hm]; rfl⟩
    have e : (checked s).nWaiting = s.nWaiting := rfl
    have e2 : (checked s).writes = (checkAll s.writes s.nOut).1 := rfl
    rw [e, e2] at hw
    omega
  have start_zero : ∀ {s : State}, Inv s → s.nWaiting = 0 → (maybeStart s).nWaiting = 0 := by
    intro s hi hz
    have e := hi.maybeStart.1.waiting
    have same : ∀ ws o, startAll ws o 0 = (ws, o, 0) := by
      intro ws o
      cases ws with
      | nil => rfl
      | cons x ws => obtain ⟨i, t⟩ := x; unfold startAll; rw [if_neg (by omega)]
    unfold DiskHandler.maybeStart
    dsimp only
    rw [hz, same]
  have aux : ∀ {s : State} {r : Option State}, Complete s r → Inv s → s.nWaiting = 0 →
      r ≠ none ∧ ∀ s', r = some s' → ∀ x ∈ s'.writes, x.2.done = true := by
    intro s r hc
    induction hc with
    | fails h1 h2 => exact fun hi hz => absurd h2 (none_waits hi hz)
    | ends h1 h2 =>
      intro hi hz
      refine ⟨nofun, fun s' e x hx => ?_⟩
      cases e
      have hm : x.2.madeReq = true := by
        cases hm : x.2.madeReq with
        | true => rfl
        | false =>
          have := (hi.checked.1.ok x hx).waiting hm
          exact absurd ⟨x, hx, this.1, hm⟩ h2
      have := List.countP_eq_zero.mp h1 x hx
      unfold Task.out at this
      rw [hm] at this
      simpa using this
    | again h1 h2 _ ih =>
      intro hi hz
      obtain ⟨k1, _, k3, _⟩ := hi.checked.1.osRun h2
      have hz' : (_ : State).nWaiting = 0 := k3.trans hz
      exact ih k1.maybeStart.1 (start_zero k1 hz')
  exact ⟨fun k => (aux k hi hz).1 rfl, fun s' k => (aux k hi hz).2 s' rfl⟩

/-! ### Nine writes -/

/-- A write is finished. -/
def fin (x : ReqId × Task) : ReqId × Task := (x.1, { x.2 with finished := true })

theorem finish_all : ∀ (ws l1 tail : AList ReqId Task) (s : State), s.writes = l1 ++ ws ++ tail →
    (∀ x ∈ ws, x.2.madeReq = true ∧ x.2.finished = false ∧ x.2.data.addr + x.2.full.bytes.length ≤ maxFile) →
    ∃ file' tr, (machine crc).Run s tr { s with writes := l1 ++ ws.map fin ++ tail, file := file' } := by
  intro ws
  induction ws with
  | nil =>
    intro l1 tail s e _
    refine ⟨s.file, [], ?_⟩
    have : ({ s with writes := l1 ++ List.map fin [] ++ tail, file := s.file } : State) = s := by
      obtain ⟨a, b, c, d, f, g⟩ := s
      cases e
      rfl
    rw [this]
    exact .nil _
  | cons x ws ih =>
    intro l1 tail s e hx
    obtain ⟨id, t⟩ := x
    obtain ⟨h1, h2, h3⟩ := hx (id, t) (List.mem_cons_self ..)
    have st : Os s { s with writes := l1 ++ (id, { t with finished := true }) :: (ws ++ tail)
                            file := pwrite s.file t.data.addr t.full.bytes } :=
      .finish (by rw [e]; simp) h1 h2 h3
    obtain ⟨f', tr, hr⟩ := ih (l1 ++ [fin (id, t)]) tail { s with
        writes := l1 ++ (id, { t with finished := true }) :: (ws ++ tail)
        file := pwrite s.file t.data.addr t.full.bytes } (by simp [fin]) fun y hy => hx y (List.mem_cons_of_mem _ hy)
    refine ⟨f', .none :: tr, .cons (.os st) ?_⟩
    have e2 : l1 ++ [fin (id, t)] ++ List.map fin ws ++ tail = l1 ++ List.map fin ((id, t) :: ws) ++ tail := by simp
    rw [e2] at hr
    exact hr

/-- Some writes are asked for. -/
def ask (w : Data) (s : State) : Nat → State
  | 0 => s
  | n + 1 => DiskHandler.write (ask w s n) w []

theorem ask_run (w : Data) (hw : padLen w.bytes.length = 0) (s : State) :
    ∀ n, ∃ tr, (machine crc).Run s tr (ask w s n)
  | 0 => ⟨[], .nil _⟩
  | n + 1 => by
    obtain ⟨tr, h⟩ := ask_run w hw s n
    exact ⟨_, h.snoc (.call (.write (p := []) hw.symm))⟩

/-- The tasks of eight writes, and a ninth. -/
def eight (w : Data) : AList ReqId Task :=
  [(0, ⟨w, [], true, false, false⟩), (1, ⟨w, [], true, false, false⟩), (2, ⟨w, [], true, false, false⟩),
   (3, ⟨w, [], true, false, false⟩), (4, ⟨w, [], true, false, false⟩), (5, ⟨w, [], true, false, false⟩),
   (6, ⟨w, [], true, false, false⟩), (7, ⟨w, [], true, false, false⟩)]
def ninth (w : Data) : AList ReqId Task := [(8, ⟨w, [], false, false, false⟩)]

theorem ask_nine (w : Data) (file : List UInt8) :
    ask w (opened file) 9 = ⟨9, eight w ++ ninth w, [], 8, 1, file⟩ := by
  simp [ask, DiskHandler.write, opened, maxOut, eight, ninth]

theorem check_nine (w : Data) : checkAll ((eight w).map fin ++ ninth w) 8 =
    ((eight w).map (fun x => (x.1, { x.2 with finished := true, done := true })) ++ ninth w, 0) := by
  simp [eight, ninth, fin, checkAll, check]

theorem fails_nine (w : Data) (f : List UInt8) :
    Complete ⟨9, (eight w).map fin ++ ninth w, [], 8, 1, f⟩ none := by
  refine .fails ?_ ⟨(8, ⟨w, [], false, false, false⟩), ?_, rfl, rfl⟩
  · dsimp only
    rw [check_nine]
    simp [outs, eight, ninth, Task.out]
  · dsimp only
    rw [check_nine]
    exact List.mem_append_right _ (List.mem_singleton.mpr rfl)

/-- Nine writes are asked for; the operating system finishes the eight it was given. -/
theorem nine {w : Data} (hw : padLen w.bytes.length = 0) (hb : w.addr + w.bytes.length ≤ maxFile) {file : List UInt8}
    (hf : file.length ≤ maxFile) : ∃ file',
    (machine crc).Reachable ⟨9, (eight w).map fin ++ ninth w, [], 8, 1, file'⟩ := by
  obtain ⟨t1, r1⟩ := ask_run (crc := crc) w hw (opened file) 9
  rw [ask_nine] at r1
  obtain ⟨f', t2, r2⟩ := finish_all (crc := crc) (eight w) [] (ninth w) ⟨9, eight w ++ ninth w, [], 8, 1, file⟩ rfl (by
    have one : ∀ i : ReqId, (fun x : ReqId × Task => x.2.madeReq = true ∧ x.2.finished = false ∧
        x.2.data.addr + x.2.full.bytes.length ≤ maxFile) (i, ⟨w, [], true, false, false⟩) := by
      intro i
      refine ⟨rfl, rfl, ?_⟩
      show w.addr + (w.bytes ++ []).length ≤ maxFile
      rw [List.append_nil]; exact hb
    intro x hx
    unfold eight at hx
    simp only [List.mem_cons, List.not_mem_nil, or_false] at hx
    rcases hx with rfl | rfl | rfl | rfl | rfl | rfl | rfl | rfl <;> exact one _)
  exact ⟨f', _, _, ⟨file, hf, rfl⟩, r1.append r2⟩

/-- **`completeWriteTasks` can end the program though every write that was begun has succeeded**: nine writes are
asked for, the operating system finishes the eight it was given, and the check finds nothing out and a write not
begun. -/
theorem complete_can_fail {w : Data} (hw : padLen w.bytes.length = 0) (hb : w.addr + w.bytes.length ≤ maxFile) :
    ∃ s, (machine crc).Reachable s ∧ (∀ x ∈ s.writes, x.2.madeReq = true → x.2.finished = true) ∧ Complete s none := by
  obtain ⟨f, h⟩ := nine (crc := crc) hw hb (file := []) (Nat.zero_le _)
  refine ⟨_, h, ?_, fails_nine w f⟩
  · intro x hx hm
    dsimp only at hx
    rcases List.mem_append.mp hx with hx | hx
    · obtain ⟨y, _, rfl⟩ := List.mem_map.mp hx
      rfl
    · rw [List.mem_singleton.mp hx] at hm; cases hm

/-! ### Concrete cases -/

/-- A sector. -/
def sector : Data := ⟨4096, List.replicate 4096 1⟩

theorem sector_ok : padLen sector.bytes.length = 0 ∧ sector.addr + sector.bytes.length ≤ maxFile := by
  unfold sector
  dsimp only
  rw [List.length_replicate]
  decide

/-- Nine writes of a sector are asked for, eight of them are finished and one waits. -/
theorem demo_nine : ∃ s, (machine crc).Reachable s ∧ s.writes.length = 9 ∧ s.writes ≠ [] ∧
    (∃ x ∈ s.writes, x.2.madeReq = false) ∧ Complete s none ∧ ¬ WaitForOne s none := by
  obtain ⟨f, h⟩ := nine (crc := crc) sector_ok.1 sector_ok.2 (file := []) (Nat.zero_le _)
  have hm : (8, (⟨sector, [], false, false, false⟩ : Task)) ∈ (eight sector).map fin ++ ninth sector :=
    List.mem_append_right _ (List.mem_singleton.mpr rfl)
  have hne : (eight sector).map fin ++ ninth sector ≠ [] := fun e => by rw [e] at hm; cases hm
  exact ⟨_, h, by simp [eight, ninth], hne, ⟨_, hm, rfl⟩, fails_nine _ f, wait_ok h hne⟩

/-- A write of one byte is asked for, finished and answered; it is in the file. -/
theorem demo_one : ∃ tr s, (machine crc).Exec tr s ∧ Op.respWrite 0 ⟨3, 1⟩ ∈ tr ∧ Asked tr 0 ⟨3, [5]⟩ ∧
    Holds s.file ⟨3, [5]⟩ := by
  obtain ⟨p, hp⟩ : ∃ p : List UInt8, p.length = padLen 1 := ⟨List.replicate (padLen 1) 7, List.length_replicate ..⟩
  have hlen : 3 + ([5] ++ p).length ≤ maxFile := by rw [List.length_append, hp]; decide
  have a1 : Step crc (opened []) (.reqWrite 0 ⟨3, [5]⟩) ⟨1, [(0, ⟨⟨3, [5]⟩, p, true, false, false⟩)], [], 1, 0, []⟩ :=
    .call (.write (s := opened []) (w := ⟨3, [5]⟩) (p := p) hp)
  have a2 : Step crc ⟨1, [(0, ⟨⟨3, [5]⟩, p, true, false, false⟩)], [], 1, 0, []⟩ .none
      ⟨1, [(0, ⟨⟨3, [5]⟩, p, true, false, true⟩)], [], 1, 0, pwrite [] 3 ([5] ++ p)⟩ :=
    .os (.finish (s := ⟨1, [(0, ⟨⟨3, [5]⟩, p, true, false, false⟩)], [], 1, 0, []⟩) (l1 := []) (l2 := []) (id := 0)
      (t := ⟨⟨3, [5]⟩, p, true, false, false⟩) rfl rfl rfl hlen)
  have a3 : Step crc ⟨1, [(0, ⟨⟨3, [5]⟩, p, true, false, true⟩)], [], 1, 0, pwrite [] 3 ([5] ++ p)⟩
      (.respWrite 0 ⟨3, 1⟩) ⟨1, [], [], 0, 0, pwrite [] 3 ([5] ++ p)⟩ := .call (.writeResponse rfl)
  have hx : (machine crc).Exec [.reqWrite 0 ⟨3, [5]⟩, .none, .respWrite 0 ⟨3, 1⟩]
      ⟨1, [], [], 0, 0, pwrite [] 3 ([5] ++ p)⟩ :=
    ⟨_, ⟨[], Nat.zero_le _, rfl⟩, .cons a1 (.cons a2 (.cons a3 (.nil _)))⟩
  have only : ∀ id w, Asked [.reqWrite 0 ⟨3, [5]⟩, .none, .respWrite 0 ⟨3, 1⟩] id w → id = 0 := by
    rintro id w ⟨op, ho, hk⟩
    simp only [List.mem_cons, List.not_mem_nil, or_false] at ho
    rcases ho with rfl | rfl | rfl
    · exact hk.1.symm
    · exact hk.elim
    · exact hk.elim
  have hA : Asked [.reqWrite 0 ⟨3, [5]⟩, .none, .respWrite 0 ⟨3, 1⟩] 0 ⟨3, [5]⟩ :=
    ⟨_, List.mem_cons_self .., rfl, rfl⟩
  obtain ⟨w, h1, h2, h3⟩ := answered_in_file hx (id := 0) (l := ⟨3, 1⟩) (by simp)
  have e := ids_differ hx h1 hA
  subst e
  exact ⟨_, _, hx, by simp, hA, h3 fun id' w' hk hn => absurd (only id' w' hk) hn⟩

/-- One write, finished: `completeWriteTasks` returns. -/
theorem complete_one {w : Data} (hw : padLen w.bytes.length = 0) (hb : w.addr + w.bytes.length ≤ maxFile) :
    ∃ s s', (machine crc).Reachable s ∧ s.writes.length = 1 ∧ Complete s (some s') ∧
      ∀ x ∈ s'.writes, x.2.done = true := by
  have a1 : Step crc (opened []) (.reqWrite 0 w) ⟨1, [(0, ⟨w, [], true, false, false⟩)], [], 1, 0, []⟩ :=
    .call (.write (s := opened []) (w := w) (p := []) hw.symm)
  have hlen : w.addr + (w.bytes ++ []).length ≤ maxFile := by rw [List.append_nil]; exact hb
  have a2 : Step crc ⟨1, [(0, ⟨w, [], true, false, false⟩)], [], 1, 0, []⟩ .none
      ⟨1, [(0, ⟨w, [], true, false, true⟩)], [], 1, 0, pwrite [] w.addr (w.bytes ++ [])⟩ :=
    .os (.finish (s := ⟨1, [(0, ⟨w, [], true, false, false⟩)], [], 1, 0, []⟩) (l1 := []) (l2 := []) (id := 0)
      (t := ⟨w, [], true, false, false⟩) rfl rfl rfl hlen)
  have hr : (machine crc).Reachable
      ⟨1, [(0, ⟨w, [], true, false, true⟩)], [], 1, 0, pwrite [] w.addr (w.bytes ++ [])⟩ :=
    ⟨_, _, ⟨[], Nat.zero_le _, rfl⟩, .cons a1 (.cons a2 (.nil _))⟩
  have hc := Complete.ends (s := ⟨1, [(0, ⟨w, [], true, false, true⟩)], [], 1, 0,
    pwrite [] w.addr (w.bytes ++ [])⟩) (by simp [checkAll, check, outs, Task.out])
    (by rintro ⟨x, hx, hd, _⟩; simp [checkAll, check] at hx; rw [hx] at hd; cases hd)
  exact ⟨_, _, hr, rfl, hc, (complete_ok_partial hr (by simp)).2 _ hc⟩

/-- One write of a sector. -/
theorem demo_complete : ∃ s s', (machine crc).Reachable s ∧ s.writes.length = 1 ∧ Complete s (some s') ∧
    ∀ x ∈ s'.writes, x.2.done = true := complete_one sector_ok.1 sector_ok.2

end Verif.C82
