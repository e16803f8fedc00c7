import Verif.Kv.DiskHandler
import Verif.Kv.ByteLemmas
/-
The disk driver acts as the disk `⟨true, true⟩` of Verif/Kv/ByteDisk.lean, and its counters count.
-/
namespace Verif.Kv.DiskHandler
open ByteDisk (Data Op padLen AllCheck Covers Internal)

/-! ### The file -/

theorem fill_length {f : List UInt8} {n : Nat} (h : f.length ≤ n) : (fill f n).length = n := by
  unfold fill; rw [List.length_append, List.length_replicate]; omega

theorem fill_get {f : List UInt8} {n : Nat} (h : f.length ≤ n) (i : Nat) :
    (fill f n)[i]? = if i < n then some (f[i]?.getD 0) else none := by
  unfold fill
  by_cases h1 : i < f.length
  · rw [List.getElem?_append_left h1, if_pos (by omega), List.getElem?_eq_getElem h1]; rfl
  · rw [List.getElem?_append_right (by omega), List.getElem?_replicate, List.getElem?_eq_none (by omega)]
    by_cases h2 : i < n
    · rw [if_pos (by omega), if_pos h2]; rfl
    · rw [if_neg (by omega), if_neg h2]

theorem pwrite_get (f : List UInt8) (a : Nat) (bs : List UInt8) (i : Nat) :
    (pwrite f a bs)[i]?.getD 0 =
      if a ≤ i ∧ i < a + bs.length then bs[i - a]?.getD 0 else f[i]?.getD 0 := by
  have hl : ((fill f a).take a).length = a := by
    rw [List.length_take]; unfold fill; rw [List.length_append, List.length_replicate]; omega
  unfold pwrite
  by_cases h1 : i < a
  · rw [if_neg (by omega), List.getElem?_append_left (by rw [List.length_append, hl]; omega),
      List.getElem?_append_left (by omega), List.getElem?_take_of_lt h1]
    unfold fill
    by_cases h2 : i < f.length
    · rw [List.getElem?_append_left h2]
    · rw [List.getElem?_append_right (by omega), List.getElem?_replicate, if_pos (by omega),
        List.getElem?_eq_none (by omega)]; rfl
  · by_cases h2 : i < a + bs.length
    · rw [if_pos (by omega), List.getElem?_append_left (by rw [List.length_append, hl]; omega),
        List.getElem?_append_right (by omega), hl]
    · rw [if_neg (by omega), List.getElem?_append_right (by rw [List.length_append, hl]; omega),
        List.length_append, hl, List.getElem?_drop]
      congr 2; omega

theorem pwrite_length {f : List UInt8} {a : Nat} {bs : List UInt8} {n : Nat} (h1 : f.length ≤ n)
    (h2 : a + bs.length ≤ n) : (pwrite f a bs).length ≤ n := by
  unfold pwrite fill
  simp only [List.length_append, List.length_take, List.length_replicate, List.length_drop]
  omega

theorem splice_get {f : List UInt8} {a : Nat} {bs : List UInt8} (h : a + bs.length ≤ f.length) (i : Nat) :
    (ByteDisk.splice f a bs)[i]? = if a ≤ i ∧ i < a + bs.length then bs[i - a]? else f[i]? := by
  have hl : (f.take a).length = a := by rw [List.length_take]; omega
  unfold ByteDisk.splice
  by_cases h1 : i < a
  · rw [if_neg (by omega), List.getElem?_append_left (by rw [List.length_append, hl]; omega),
      List.getElem?_append_left (by omega), List.getElem?_take_of_lt h1]
  · by_cases h2 : i < a + bs.length
    · rw [if_pos (by omega), List.getElem?_append_left (by rw [List.length_append, hl]; omega),
        List.getElem?_append_right (by omega), hl]
    · rw [if_neg (by omega), List.getElem?_append_right (by rw [List.length_append, hl]; omega),
        List.length_append, hl, List.getElem?_drop]
      congr 1; omega

theorem fill_pwrite {f : List UInt8} {a : Nat} {bs : List UInt8} {n : Nat} (h1 : f.length ≤ n)
    (h2 : a + bs.length ≤ n) : fill (pwrite f a bs) n = ByteDisk.splice (fill f n) a bs := by
  apply List.ext_getElem?
  intro i
  rw [fill_get (pwrite_length h1 h2), splice_get (by rw [fill_length h1]; exact h2), pwrite_get, fill_get h1]
  by_cases h : a ≤ i ∧ i < a + bs.length
  · rw [if_pos h, if_pos h, if_pos (by omega), List.getElem?_eq_getElem (by omega)]; rfl
  · rw [if_neg h, if_neg h]

theorem fill_read {f : List UInt8} {n : Nat} {l : Loc} (h : l.addr + l.len ≤ f.length) :
    ByteDisk.read (fill f n) l = ByteDisk.read f l := by
  unfold ByteDisk.read fill
  rw [List.drop_append_of_le_length (by omega), List.take_append_of_le_length (by rw [List.length_drop]; omega)]

/-! ### Lists with keys -/

theorem get_new {α : Type} {m : AList ReqId α} {k : ReqId} {v : α} (h : ∀ x ∈ m, x.1 ≠ k) (x : ReqId) :
    (m ++ [(k, v)]).get x = if x = k then some v else m.get x := by
  induction m with
  | nil => simp [AList.get]
  | cons a m ih =>
    obtain ⟨a, u⟩ := a
    have ha : a ≠ k := h _ (List.mem_cons_self ..)
    rw [List.cons_append, AList.get_cons, AList.get_cons, ih fun y hy => h y (List.mem_cons_of_mem _ hy)]
    by_cases e : x = a
    · subst e; rw [if_pos rfl, if_neg ha, if_pos rfl]
    · rw [if_neg e, if_neg e]

theorem get_mid {α : Type} {l1 l2 : AList ReqId α} {k : ReqId} {v : α}
    (h : ((l1 ++ (k, v) :: l2).map (·.1)).Nodup) (x : ReqId) :
    (l1 ++ (k, v) :: l2).get x = if x = k then some v else (l1 ++ l2).get x := by
  induction l1 with
  | nil => rfl
  | cons a m ih =>
    obtain ⟨a, u⟩ := a
    rw [List.cons_append, List.map_cons, List.nodup_cons] at h
    have ha : a ≠ k := fun e => h.1 (by subst e; simp)
    rw [List.cons_append, List.cons_append, AList.get_cons, AList.get_cons, ih h.2]
    by_cases e : x = a
    · subst e; rw [if_pos rfl, if_neg ha, if_pos rfl]
    · rw [if_neg e, if_neg e]

theorem get_none {α : Type} {m : AList ReqId α} {k : ReqId} (h : ∀ x ∈ m, x.1 ≠ k) : m.get k = none := by
  induction m with
  | nil => rfl
  | cons a m ih =>
    obtain ⟨a, u⟩ := a
    rw [AList.get_cons, if_neg (Ne.symm (h _ (List.mem_cons_self ..)))]
    exact ih fun y hy => h y (List.mem_cons_of_mem _ hy)

theorem get_mid_none {α : Type} {l1 l2 : AList ReqId α} {k : ReqId} {v : α}
    (h : ((l1 ++ (k, v) :: l2).map (·.1)).Nodup) : (l1 ++ l2).get k = none := by
  apply get_none
  intro x hx e
  rw [List.map_append, List.map_cons, List.nodup_append] at h
  obtain ⟨_, h2, h3⟩ := h
  rcases List.mem_append.mp hx with hx | hx
  · exact h3 _ (List.mem_map_of_mem hx) _ (List.mem_cons_self ..) e
  · exact (List.nodup_cons.mp h2).1 (List.mem_map.mpr ⟨x, hx, e⟩)

/-! ### The parts of the tasks -/

/-- What the disk sees of a task. -/
def core (t : Task) : Data × List UInt8 × Bool := (t.data, t.pad, t.finished)

def cores (ws : AList ReqId Task) : AList ReqId (Data × List UInt8 × Bool) := ws.map fun x => (x.1, core x.2)

theorem cores_get (ws : AList ReqId Task) (k : ReqId) : (cores ws).get k = (ws.get k).map core := by
  induction ws with
  | nil => rfl
  | cons a m ih =>
    obtain ⟨a, u⟩ := a
    show AList.get ((a, core u) :: cores m) k = _
    rw [AList.get_cons, AList.get_cons, ih]
    split <;> rfl

theorem cores_keys (ws : AList ReqId Task) : ws.map (·.1) = (cores ws).map (·.1) := by
  unfold cores; rw [List.map_map]; rfl

/-- A task in order. -/
structure TaskOk (t : Task) : Prop where
  done : t.done = true → t.finished = true
  finished : t.finished = true → t.madeReq = true
  pad : t.pad.length = padLen t.data.bytes.length

def waits (ws : AList ReqId Task) : Nat := ws.countP fun x => !x.2.madeReq

theorem outs_cons (id : ReqId) (t : Task) (ws : AList ReqId Task) :
    outs ((id, t) :: ws) = outs ws + if t.out then 1 else 0 := by
  unfold outs; rw [List.countP_cons]

theorem waits_cons (id : ReqId) (t : Task) (ws : AList ReqId Task) :
    waits ((id, t) :: ws) = waits ws + if t.madeReq then 0 else 1 := by
  unfold waits; rw [List.countP_cons]; cases t.madeReq <;> rfl

theorem TaskOk.waiting {t : Task} (h : TaskOk t) (hm : t.madeReq = false) :
    t.done = false ∧ t.finished = false := by
  have hf : t.finished = false := by
    cases e : t.finished with
    | false => rfl
    | true => rw [h.finished e] at hm; cases hm
  refine ⟨?_, hf⟩
  cases e : t.done with
  | false => rfl
  | true => rw [h.done e] at hf; cases hf

theorem startAll_spec : ∀ (ws : AList ReqId Task) (o w : Nat), (∀ x ∈ ws, TaskOk x.2) → w = waits ws →
    o ≤ maxOut →
    let r := startAll ws o w
    cores r.1 = cores ws ∧ (∀ x ∈ r.1, TaskOk x.2) ∧ r.2.1 + outs ws = o + outs r.1 ∧ r.2.2 = waits r.1 ∧
      r.2.1 ≤ maxOut ∧ (0 < r.2.2 → r.2.1 = maxOut) := by
  intro ws
  induction ws with
  | nil =>
    intro o w _ hw ho
    refine ⟨rfl, (fun _ h => nomatch h), rfl, hw, ho, ?_⟩
    show 0 < w → _
    rw [hw]; intro h; cases h
  | cons a rest ih =>
    obtain ⟨id, t⟩ := a
    intro o w hok hw ho
    have hokt : TaskOk t := hok (id, t) (List.mem_cons_self ..)
    have hokr : ∀ x ∈ rest, TaskOk x.2 := fun x hx => hok x (List.mem_cons_of_mem _ hx)
    rw [waits_cons] at hw
    unfold startAll
    by_cases hc : 0 < w ∧ o < maxOut
    · rw [if_pos hc]
      by_cases hm : t.madeReq = true
      · rw [if_pos hm]
        rw [if_pos hm] at hw
        obtain ⟨h1, h2, h3, h4, h5, h6⟩ := ih o w hokr hw ho
        refine ⟨?_, ?_, ?_, ?_, h5, h6⟩
        · show (id, core t) :: cores _ = (id, core t) :: cores _
          rw [h1]
        · intro x hx
          rcases List.mem_cons.mp hx with e | hx
          · subst e; exact hokt
          · exact h2 x hx
        · rw [outs_cons, outs_cons]; dsimp only at h3 ⊢; omega
        · rw [waits_cons, if_pos hm]; exact h4
      · rw [if_neg hm]
        rw [if_neg hm] at hw
        obtain ⟨h1, h2, h3, h4, h5, h6⟩ := ih (o + 1) (w - 1) hokr (by omega) (by omega)
        have hm' : t.madeReq = false := by simpa using hm
        have hd := (hokt.waiting hm')
        refine ⟨?_, ?_, ?_, ?_, h5, h6⟩
        · show (id, core t) :: cores _ = (id, core t) :: cores _
          rw [h1]
        · intro x hx
          rcases List.mem_cons.mp hx with e | hx
          · subst e; exact ⟨hokt.done, fun _ => rfl, hokt.pad⟩
          · exact h2 x hx
        · rw [outs_cons, outs_cons, show t.out = false by unfold Task.out; rw [hm']; rfl,
            show ({ t with madeReq := true } : Task).out = true by unfold Task.out; dsimp only; rw [hd.1]; rfl]
          dsimp only at h3 ⊢
          simp only [if_true, Bool.false_eq_true, if_false]
          omega
        · rw [waits_cons, if_pos rfl]; exact h4
    · rw [if_neg hc]
      refine ⟨rfl, hok, rfl, by rw [waits_cons]; exact hw, ho, fun h => ?_⟩
      dsimp only at h ⊢
      omega

theorem check_spec {t : Task} {n : Nat} (h : TaskOk t) (hn : (if t.out then 1 else 0) ≤ n) :
    core (check t n).1 = core t ∧ TaskOk (check t n).1 ∧ (check t n).1.madeReq = t.madeReq ∧
      (check t n).2 + (if t.out then 1 else 0) = n + (if (check t n).1.out then 1 else 0) := by
  unfold check
  by_cases hc : t.done = false ∧ t.madeReq = true ∧ t.finished = true
  · rw [if_pos hc]
    refine ⟨rfl, ⟨fun _ => hc.2.2, h.finished, h.pad⟩, rfl, ?_⟩
    have e1 : t.out = true := by unfold Task.out; rw [hc.1, hc.2.1]; rfl
    have e2 : ({ t with done := true } : Task).out = false := by unfold Task.out; simp
    rw [e1] at hn ⊢
    simp only [e2, if_true, Bool.false_eq_true, if_false] at hn ⊢
    omega
  · rw [if_neg hc]; exact ⟨rfl, h, rfl, rfl⟩

theorem checkAll_spec : ∀ (ws : AList ReqId Task) (n : Nat), (∀ x ∈ ws, TaskOk x.2) → outs ws ≤ n →
    let r := checkAll ws n
    cores r.1 = cores ws ∧ (∀ x ∈ r.1, TaskOk x.2) ∧ r.2 + outs ws = n + outs r.1 ∧ waits r.1 = waits ws ∧
      outs r.1 ≤ r.2 ∧ r.2 ≤ n := by
  intro ws
  induction ws with
  | nil => intro n _ h; exact ⟨rfl, (fun _ h => nomatch h), rfl, rfl, h, Nat.le_refl _⟩
  | cons a rest ih =>
    obtain ⟨id, t⟩ := a
    intro n hok hn
    have hokt : TaskOk t := hok (id, t) (List.mem_cons_self ..)
    have hokr : ∀ x ∈ rest, TaskOk x.2 := fun x hx => hok x (List.mem_cons_of_mem _ hx)
    rw [outs_cons] at hn
    obtain ⟨c1, c2, c3, c4⟩ := check_spec (n := n) hokt (by omega)
    obtain ⟨h1, h2, h3, h4, h5, h6⟩ := ih (check t n).2 hokr (by omega)
    have c5 : (check t n).2 ≤ n := by unfold check; split <;> dsimp only <;> omega
    unfold checkAll
    dsimp only
    refine ⟨?_, ?_, ?_, ?_, ?_, ?_⟩
    · show (id, core _) :: cores _ = (id, core t) :: cores _
      rw [h1, c1]
    · intro x hx
      rcases List.mem_cons.mp hx with e | hx
      · subst e; exact c2
      · exact h2 x hx
    · rw [outs_cons, outs_cons]; omega
    · rw [waits_cons, waits_cons, h4, c3]
    · rw [outs_cons]; omega
    · omega

theorem findDone_spec : ∀ (ws : AList ReqId Task) (n : Nat) {x ws' n'}, (∀ x ∈ ws, TaskOk x.2) →
    findDone ws n = some (x, ws', n') →
    ∃ l1 t l2, ws = l1 ++ (x.1, t) :: l2 ∧ ws' = l1 ++ l2 ∧ x.2.data = t.data ∧ t.finished = true ∧
      n' = n - if t.out then 1 else 0 := by
  intro ws
  induction ws with
  | nil => intro n x ws' n' _ h; cases h
  | cons a rest ih =>
    obtain ⟨id, t⟩ := a
    intro n x ws' n' hok h
    have hokt : TaskOk t := hok (id, t) (List.mem_cons_self ..)
    have hokr : ∀ x ∈ rest, TaskOk x.2 := fun x hx => hok x (List.mem_cons_of_mem _ hx)
    unfold findDone at h
    dsimp only at h
    split at h
    · rename_i hd
      cases h
      refine ⟨[], t, rest, rfl, rfl, ?_, ?_, ?_⟩
      · show (check t n).1.data = t.data
        unfold check; split <;> rfl
      · unfold check at hd
        split at hd
        · rename_i hc; exact hc.2.2
        · exact hokt.done hd
      · unfold check at hd ⊢
        split
        · rename_i hc
          rw [show t.out = true by unfold Task.out; rw [hc.1, hc.2.1]; rfl]; rfl
        · rename_i hc
          rw [if_neg hc] at hd
          rw [show t.out = false by unfold Task.out; rw [hd]; simp]; rfl
    · rename_i hd
      have hc : check t n = (t, n) := by
        unfold check at hd ⊢
        split
        · rename_i hc; rw [if_pos hc] at hd; exact absurd rfl hd
        · rfl
      rw [hc] at h
      cases hf : findDone rest n with
      | none => rw [hf] at h; cases h
      | some r =>
        rw [hf] at h
        obtain ⟨r1, r2, r3⟩ := r
        cases h
        obtain ⟨l1, t', l2, h1, h2, h3⟩ := ih n hokr hf
        exact ⟨(id, t) :: l1, t', l2, by rw [h1]; rfl, by dsimp only; rw [h2]; rfl, h3⟩

/-! ### What always holds -/

/-- Ids are new, tasks are in order, the counters count. -/
structure Inv (s : State) : Prop where
  nodup : (s.writes.map (·.1)).Nodup
  new : ∀ x ∈ s.writes, x.1 < s.curId
  rnodup : (s.reads.map (·.1)).Nodup
  rnew : ∀ x ∈ s.reads, x.1 < s.curId
  ok : ∀ x ∈ s.writes, TaskOk x.2
  file : s.file.length ≤ maxFile
  out : s.nOut = outs s.writes
  waiting : s.nWaiting = waits s.writes
  max : s.nOut ≤ maxOut

/-- No write waits without need. -/
def Busy (s : State) : Prop := 0 < s.nWaiting → s.nOut = maxOut

theorem Inv.opened {file : List UInt8} (h : file.length ≤ maxFile) : Inv (opened file) :=
  ⟨List.nodup_nil, (fun _ h => nomatch h), List.nodup_nil, (fun _ h => nomatch h), (fun _ h => nomatch h), h, rfl,
    rfl, Nat.zero_le _⟩

theorem keys_lt {ws : AList ReqId Task} {n : Nat} (h : ∀ x ∈ ws, x.1 < n) : ∀ k ∈ ws.map (·.1), k < n := by
  intro k hk
  obtain ⟨x, hx, e⟩ := List.mem_map.mp hk
  subst e; exact h x hx

theorem nodup_new {α : Type} {m : AList ReqId α} {n : Nat} {v : α} (h1 : (m.map (·.1)).Nodup)
    (h2 : ∀ x ∈ m, x.1 < n) : ((m ++ [(n, v)]).map (·.1)).Nodup := by
  rw [List.map_append, List.nodup_append]
  refine ⟨h1, by simp, ?_⟩
  intro a ha b hb e
  simp only [List.map_cons, List.map_nil, List.mem_singleton] at hb
  obtain ⟨x, hx, ex⟩ := List.mem_map.mp ha
  have := h2 x hx
  rw [ex, e, hb] at this
  exact Nat.lt_irrefl _ this

theorem outs_append (a b : AList ReqId Task) : outs (a ++ b) = outs a + outs b := List.countP_append ..
theorem waits_append (a b : AList ReqId Task) : waits (a ++ b) = waits a + waits b := List.countP_append ..

theorem Inv.write {s : State} (h : Inv s) {w : Data} {p : List UInt8} (hp : p.length = padLen w.bytes.length) :
    Inv (write s w p) := by
  unfold DiskHandler.write
  have hn : ∀ x ∈ s.writes, x.1 < s.curId + 1 := fun x hx => Nat.lt_succ_of_lt (h.new x hx)
  have hr : ∀ x ∈ s.reads, x.1 < s.curId + 1 := fun x hx => Nat.lt_succ_of_lt (h.rnew x hx)
  split
  · refine ⟨nodup_new h.nodup h.new, ?_, h.rnodup, hr, ?_, h.file, ?_, ?_, by dsimp only; omega⟩
    · intro x hx
      rcases List.mem_append.mp hx with hx | hx
      · exact hn x hx
      · rw [List.mem_singleton.mp hx]; exact Nat.lt_succ_self _
    · intro x hx
      rcases List.mem_append.mp hx with hx | hx
      · exact h.ok x hx
      · rw [List.mem_singleton.mp hx]; exact ⟨(fun h => nomatch h), fun _ => rfl, hp⟩
    · dsimp only; rw [outs_append, ← h.out]; rfl
    · dsimp only; rw [waits_append, ← h.waiting]; rfl
  · refine ⟨nodup_new h.nodup h.new, ?_, h.rnodup, hr, ?_, h.file, ?_, ?_, h.max⟩
    · intro x hx
      rcases List.mem_append.mp hx with hx | hx
      · exact hn x hx
      · rw [List.mem_singleton.mp hx]; exact Nat.lt_succ_self _
    · intro x hx
      rcases List.mem_append.mp hx with hx | hx
      · exact h.ok x hx
      · rw [List.mem_singleton.mp hx]; exact ⟨(fun h => nomatch h), (fun h => nomatch h), hp⟩
    · dsimp only; rw [outs_append, ← h.out]; rfl
    · dsimp only; rw [waits_append, ← h.waiting]; rfl

theorem Busy.write {s : State} (h : Inv s) (hb : Busy s) {w : Data} {p : List UInt8} : Busy (write s w p) := by
  unfold DiskHandler.write Busy
  unfold Busy at hb
  have := h.max
  split
  · dsimp only; intro h; have := hb h; omega
  · dsimp only; intro _; omega

theorem cores_mem {ws ws' : AList ReqId Task} (h : cores ws' = cores ws) {P : ReqId → Prop}
    (hp : ∀ x ∈ ws, P x.1) : ∀ x ∈ ws', P x.1 := by
  intro x hx
  have : x.1 ∈ ws.map (·.1) := by
    rw [cores_keys, ← h, ← cores_keys]; exact List.mem_map_of_mem hx
  obtain ⟨y, hy, e⟩ := List.mem_map.mp this
  rw [← e]; exact hp y hy

theorem Inv.maybeStart {s : State} (h : Inv s) : Inv (maybeStart s) ∧ Busy (maybeStart s) ∧
    cores (maybeStart s).writes = cores s.writes := by
  obtain ⟨h1, h2, h3, h4, h5, h6⟩ := startAll_spec s.writes s.nOut s.nWaiting h.ok h.waiting h.max
  refine ⟨⟨?_, cores_mem (P := (· < s.curId)) h1 h.new, h.rnodup, h.rnew, h2, h.file, ?_, h4, h5⟩, h6, h1⟩
  · show ((startAll s.writes s.nOut s.nWaiting).1.map (·.1)).Nodup
    rw [cores_keys, h1, ← cores_keys]; exact h.nodup
  · have := h.out
    show (startAll s.writes s.nOut s.nWaiting).2.1 = outs (startAll s.writes s.nOut s.nWaiting).1
    omega

theorem Inv.os {s s' : State} (h : Inv s) (hs : Os s s') : Inv s' ∧ s'.nOut = s.nOut ∧ s'.nWaiting = s.nWaiting ∧
    s'.writes.length = s.writes.length := by
  cases hs with
  | @finish l1 l2 id t e hm hf hb =>
    have hok := h.ok (id, t) (by rw [e]; simp)
    refine ⟨⟨?_, ?_, h.rnodup, h.rnew, ?_, pwrite_length h.file hb, ?_, ?_, h.max⟩, rfl, rfl, ?_⟩
    · have := h.nodup; rw [e] at this; simpa using this
    · have := h.new; rw [e] at this
      intro x hx
      rcases List.mem_append.mp hx with hx | hx
      · exact this x (List.mem_append_left _ hx)
      · rcases List.mem_cons.mp hx with e | hx
        · subst e; exact this (id, t) (by simp)
        · exact this x (List.mem_append_right _ (List.mem_cons_of_mem _ hx))
    · have := h.ok; rw [e] at this
      intro x hx
      rcases List.mem_append.mp hx with hx | hx
      · exact this x (List.mem_append_left _ hx)
      · rcases List.mem_cons.mp hx with e | hx
        · subst e; exact ⟨fun _ => rfl, fun _ => hm, hok.pad⟩
        · exact this x (List.mem_append_right _ (List.mem_cons_of_mem _ hx))
    · have := h.out; rw [e] at this
      dsimp only
      rw [this, outs_append, outs_append, outs_cons, outs_cons]; rfl
    · have := h.waiting; rw [e] at this
      dsimp only
      rw [this, waits_append, waits_append, waits_cons, waits_cons]
    · dsimp only; rw [e]; simp
  | part e hm hf hb hl h1 h2 h3 =>
    exact ⟨⟨h.nodup, h.new, h.rnodup, h.rnew, h.ok, by dsimp only; have := h.file; omega, h.out, h.waiting, h.max⟩,
      rfl, rfl, rfl⟩

theorem Inv.osRun {s s' : State} (h : Inv s) (hs : OsRun s s') : Inv s' ∧ s'.nOut = s.nOut ∧
    s'.nWaiting = s.nWaiting ∧ s'.writes.length = s.writes.length := by
  induction hs with
  | nil => exact ⟨h, rfl, rfl, rfl⟩
  | cons h1 _ ih =>
    obtain ⟨a1, a2, a3, a4⟩ := h.os h1
    obtain ⟨b1, b2, b3, b4⟩ := ih a1
    exact ⟨b1, b2.trans a2, b3.trans a3, b4.trans a4⟩

/-- The state after the loop of `completeWriteTasks`. -/
def checked (s : State) : State :=
  { s with writes := (checkAll s.writes s.nOut).1, nOut := (checkAll s.writes s.nOut).2 }

theorem Inv.checked {s : State} (h : Inv s) : Inv (checked s) ∧ cores (checked s).writes = cores s.writes := by
  obtain ⟨h1, h2, h3, h4, h5, h6⟩ := checkAll_spec s.writes s.nOut h.ok (Nat.le_of_eq h.out.symm)
  refine ⟨⟨?_, cores_mem (P := (· < s.curId)) h1 h.new, h.rnodup, h.rnew, h2, h.file, ?_, ?_, Nat.le_trans h6 h.max⟩, h1⟩
  · show ((checkAll s.writes s.nOut).1.map (·.1)).Nodup
    rw [cores_keys, h1, ← cores_keys]; exact h.nodup
  · have := h.out
    show (checkAll s.writes s.nOut).2 = outs (checkAll s.writes s.nOut).1
    omega
  · exact h.waiting.trans h4.symm

theorem waits_zero {ws : AList ReqId Task} (hok : ∀ x ∈ ws, TaskOk x.2) (h : ¬ notStarted ws) : waits ws = 0 := by
  unfold waits
  rw [List.countP_eq_zero]
  intro x hx hm
  exact h ⟨x, hx, ((hok x hx).waiting (by simpa using hm)).1, by simpa using hm⟩

theorem Inv.complete {s : State} {r : Option State} (hc : Complete s r) (h : Inv s) : ∀ s', r = some s' →
    Inv s' ∧ Busy s' := by
  induction hc with
  | fails => intro s' e; cases e
  | @ends s h1 h2 =>
    intro s' e
    cases e
    refine ⟨h.checked.1, fun hw => ?_⟩
    have h3 := h.checked.1.waiting
    have h4 := waits_zero h.checked.1.ok h2
    have : (DiskHandler.checked s).nWaiting = 0 := h3.trans h4
    exact absurd hw (by show ¬ 0 < (DiskHandler.checked s).nWaiting; omega)
  | again h1 h2 _ ih =>
    have hc := (h.checked.1.osRun h2).1
    exact ih hc.maybeStart.1

theorem prepare_spec {s s' : State} {id : ReqId} {l : Loc} (h : Inv s) (hp : prepareWrite s = some (id, l, s')) :
    ∃ l1 t l2, s.writes = l1 ++ (id, t) :: l2 ∧ cores s'.writes = cores (l1 ++ l2) ∧ t.data.loc = l ∧
      t.finished = true ∧ Inv s' ∧ Busy s' ∧ s'.reads = s.reads ∧ s'.file = s.file ∧ s'.curId = s.curId := by
  unfold prepareWrite at hp
  cases hf : findDone s.writes s.nOut with
  | none => rw [hf] at hp; cases hp
  | some r =>
    rw [hf] at hp
    obtain ⟨x, ws', n'⟩ := r
    cases hp
    obtain ⟨l1, t, l2, h1, h2, h3, h4, h5⟩ := findDone_spec _ _ h.ok hf
    subst h2
    have hout := h.out
    have hwait := h.waiting
    have hmem : (x.1, t) ∈ s.writes := by rw [h1]; simp
    have hsub : ∀ y ∈ l1 ++ l2, y ∈ s.writes := by
      intro y hy; rw [h1]
      rcases List.mem_append.mp hy with hy | hy
      · exact List.mem_append_left _ hy
      · exact List.mem_append_right _ (List.mem_cons_of_mem _ hy)
    rw [h1, outs_append, outs_cons] at hout
    rw [h1, waits_append, waits_cons, if_pos ((h.ok _ hmem).finished h4)] at hwait
    have hi : Inv { s with writes := l1 ++ l2, nOut := n' } := by
      refine ⟨?_, fun y hy => h.new y (hsub y hy), h.rnodup, h.rnew, fun y hy => h.ok y (hsub y hy), h.file, ?_, ?_,
        ?_⟩
      · have := h.nodup
        rw [h1] at this
        exact this.sublist (List.Sublist.map _ (List.Sublist.append (List.Sublist.refl _) (List.sublist_cons_self ..)))
      · dsimp only; rw [outs_append, h5]; omega
      · dsimp only; rw [waits_append]; omega
      · dsimp only; have := h.max; omega
    obtain ⟨k1, k2, k3⟩ := hi.maybeStart
    exact ⟨l1, t, l2, h1, k3, by rw [h3], h4, k1, k2, rfl, rfl, rfl⟩

theorem Inv.call {crc : List UInt8 → List UInt8} {s s' : State} {dop : Op} (h : Inv s) (hc : Call crc s dop s') :
    Inv s' ∧ (Busy s → Busy s') := by
  cases hc with
  | write hp => exact ⟨h.write hp, fun b => b.write h⟩
  | write2 hp hq => exact ⟨(h.write hp).write hq, fun b => (b.write h).write (h.write hp)⟩
  | read hl hb =>
    refine ⟨⟨h.nodup, fun x hx => Nat.lt_succ_of_lt (h.new x hx), nodup_new h.rnodup h.rnew, ?_, h.ok, h.file, h.out,
      h.waiting, h.max⟩, fun b => b⟩
    intro x hx
    rcases List.mem_append.mp hx with hx | hx
    · exact Nat.lt_succ_of_lt (h.rnew x hx)
    · rw [List.mem_singleton.mp hx]; exact Nat.lt_succ_self _
  | readResponse e =>
    refine ⟨⟨h.nodup, h.new, ?_, fun x hx => h.rnew x (by rw [e]; exact List.mem_cons_of_mem _ hx), h.ok, h.file, h.out,
      h.waiting, h.max⟩, fun b => b⟩
    have := h.rnodup
    rw [e, List.map_cons, List.nodup_cons] at this
    exact this.2
  | writeResponse e =>
    obtain ⟨_, _, _, _, _, _, _, k1, k2, _⟩ := prepare_spec h e
    exact ⟨k1, fun _ => k2⟩
  | none => exact ⟨h, fun b => b⟩

theorem Inv.wait {s s' : State} (h : Inv s) (hw : WaitForOne s (some s')) : Inv s' ∧ (Busy s → Busy s') := by
  cases hw with
  | done => exact ⟨h, fun b => b⟩
  | waits _ _ hr =>
    have := (h.osRun hr).1.maybeStart
    exact ⟨this.1, fun _ => this.2.1⟩

theorem Inv.step {crc : List UInt8 → List UInt8} {s s' : State} {dop : Op} (h : Inv s) (b : Busy s)
    (hs : Step crc s dop s') : Inv s' ∧ Busy s' := by
  cases hs with
  | call hc => exact ⟨(h.call hc).1, (h.call hc).2 b⟩
  | os ho =>
    obtain ⟨a1, a2, a3, _⟩ := h.os ho
    refine ⟨a1, ?_⟩
    unfold Busy at b ⊢
    rw [a2, a3]; exact b
  | complete hc => exact h.complete hc _ rfl
  | waitForOne hw => exact ⟨(h.wait hw).1, (h.wait hw).2 b⟩

theorem Inv.reachable {crc : List UInt8 → List UInt8} {s : State} (h : (machine crc).Reachable s) :
    Inv s ∧ Busy s := by
  obtain ⟨tr, s0, ⟨file, hf, rfl⟩, hr⟩ := h
  have h0 : Inv (DiskHandler.opened file) ∧ Busy (DiskHandler.opened file) := ⟨Inv.opened hf, fun h => by cases h⟩
  generalize DiskHandler.opened file = s0 at hr h0
  induction hr with
  | nil => exact h0
  | cons hs _ ih => exact ih (h0.1.step h0.2 hs)

/-! ### The disk -/

/-- The disk the program sees. -/
def disk (s : State) (P : ReqId → List UInt8) : ByteDisk.State where
  reqReads := .empty
  reqWrites := fun id => ((cores s.writes).get id).bind fun x => if x.2.2 then none else some x.1
  respReads := fun id => s.reads.get id
  respWrites := fun id => ((cores s.writes).get id).bind fun x => if x.2.2 then some x.1.loc else none
  contents := fill s.file maxFile
  pads := P

/-- The driver acts as the disk. -/
def Rel (s : State) (d : ByteDisk.State) : Prop :=
  ∃ P, d = disk s P ∧ ∀ id x, (cores s.writes).get id = some x → P id = x.2.1

/-- The disk goes on for a while. -/
inductive Internals (crc : List UInt8 → List UInt8) : ByteDisk.State → ByteDisk.State → Prop
  | nil {d} : Internals crc d d
  | cons {d d' d''} : Internal crc ⟨true, true⟩ d d' → Internals crc d' d'' → Internals crc d d''

theorem Internals.append {crc : List UInt8 → List UInt8} {d d' d'' : ByteDisk.State} (h : Internals crc d d')
    (h' : Internals crc d' d'') : Internals crc d d'' := by
  induction h with
  | nil => exact h'
  | cons h1 _ ih => exact .cons h1 (ih h')

theorem st_ext {d d' : ByteDisk.State} (h1 : ∀ x, d.reqReads x = d'.reqReads x)
    (h2 : ∀ x, d.reqWrites x = d'.reqWrites x) (h3 : ∀ x, d.respReads x = d'.respReads x)
    (h4 : ∀ x, d.respWrites x = d'.respWrites x) (h5 : d.contents = d'.contents) (h6 : d.pads = d'.pads) : d = d' := by
  obtain ⟨a1, a2, a3, a4, a5, a6⟩ := d
  obtain ⟨b1, b2, b3, b4, b5, b6⟩ := d'
  cases funext h1; cases funext h2; cases funext h3; cases funext h4; cases h5; cases h6
  rfl

theorem Rel.cores {s s' : State} {d : ByteDisk.State} (h : Rel s d) (h1 : cores s'.writes = cores s.writes)
    (h2 : s'.reads = s.reads) (h3 : s'.file = s.file) : Rel s' d := by
  obtain ⟨P, e, hp⟩ := h
  refine ⟨P, ?_, by rw [h1]; exact hp⟩
  rw [e]; unfold disk; rw [h1, h2, h3]

theorem cores_new {s : State} (h : Inv s) (t : Task) (x : ReqId) :
    (cores (s.writes ++ [(s.curId, t)])).get x = if x = s.curId then some (core t) else (cores s.writes).get x := by
  unfold DiskHandler.cores
  rw [List.map_append]
  refine get_new (fun y hy => ?_) x
  obtain ⟨z, hz, e⟩ := List.mem_map.mp hy
  subst e
  exact Nat.ne_of_lt (h.new z hz)

theorem cores_cur {s : State} (h : Inv s) : (cores s.writes).get s.curId = none := by
  refine get_none fun y hy => ?_
  obtain ⟨z, hz, e⟩ := List.mem_map.mp hy
  subst e
  exact Nat.ne_of_lt (h.new z hz)

theorem write_next {s : State} {d : ByteDisk.State} (hi : Inv s) (h : Rel s d) (w : Data) {p : List UInt8} :
    d.reqWrites s.curId = none ∧ d.respWrites s.curId = none ∧
      Rel (write s w p) { d with reqWrites := d.reqWrites.insert s.curId w, pads := ByteDisk.setPad d.pads s.curId p } := by
  obtain ⟨P, e, hp⟩ := h
  subst e
  have hn := cores_cur hi
  refine ⟨by simp [disk, hn], by simp [disk, hn], ByteDisk.setPad P s.curId p, ?_, ?_⟩
  · have key : ∀ t : Task, t.data = w → t.finished = false → ∀ s' : State, s'.writes = s.writes ++ [(s.curId, t)] →
        s'.reads = s.reads → s'.file = s.file →
        { disk s P with reqWrites := (disk s P).reqWrites.insert s.curId w
                        pads := ByteDisk.setPad P s.curId p } = disk s' (ByteDisk.setPad P s.curId p) := by
      intro t h1 h2 s' h3 h4 h5
      refine st_ext (fun _ => rfl) (fun x => ?_) (fun _ => by simp only [disk, h4]) (fun x => ?_)
        (by simp only [disk, h5]) rfl
      · simp only [disk, h3, PMap.insert]
        rw [cores_new hi]
        split
        · simp [core, h1, h2]
        · rfl
      · simp only [disk, h3]
        rw [cores_new hi]
        split
        · rename_i hx; subst hx; simp [core, h2, hn]
        · rfl
    unfold DiskHandler.write
    split
    · exact key ⟨w, p, true, false, false⟩ rfl rfl _ rfl rfl rfl
    · exact key ⟨w, p, false, false, false⟩ rfl rfl _ rfl rfl rfl
  · have key : ∀ t : Task, t.pad = p → ∀ id x, (DiskHandler.cores (s.writes ++ [(s.curId, t)])).get id = some x →
        ByteDisk.setPad P s.curId p id = x.2.1 := by
      intro t h1 id x hx
      rw [cores_new hi] at hx
      unfold ByteDisk.setPad
      split at hx
      · rename_i e; rw [if_pos e]; cases hx; exact h1.symm
      · rename_i e; rw [if_neg e]; exact hp _ _ hx
    unfold DiskHandler.write
    split
    · exact key _ rfl
    · exact key _ rfl

theorem write_cur (s : State) (w : Data) (p : List UInt8) : (write s w p).curId = s.curId + 1 := by
  unfold DiskHandler.write; split <;> rfl

/-- A call is a step of the disk, and maybe it answers at once. -/
theorem call_sim {crc : List UInt8 → List UInt8} {s s' : State} {d : ByteDisk.State} {dop : Op} (hi : Inv s)
    (h : Rel s d) (hc : Call crc s dop s') :
    ∃ d1 d', ByteDisk.Next ⟨true, true⟩ d dop d1 ∧ Internals crc d1 d' ∧ Rel s' d' := by
  cases hc with
  | write hp =>
    obtain ⟨h1, h2, h3⟩ := write_next hi h _
    exact ⟨_, _, .recvWrite h1 h2 (.inr ⟨rfl, hp⟩), .nil, h3⟩
  | @write2 w1 w2 p1 p2 hp hq =>
    obtain ⟨h1, h2, h3⟩ := write_next hi h w1 (p := p1)
    obtain ⟨k1, k2, k3⟩ := write_next (hi.write hp) h3 w2 (p := p2)
    rw [write_cur] at k1 k2 k3
    refine ⟨_, _, .recvWrite2 h1 h2 ?_ k2 (Nat.ne_of_lt (Nat.lt_succ_self _)) (.inr ⟨rfl, hp⟩) (.inr ⟨rfl, hq⟩), .nil, k3⟩
    dsimp only at k1
    rw [PMap.insert_other _ _ (Nat.ne_of_gt (Nat.lt_succ_self _))] at k1
    exact k1
  | @read l bytes hl hb =>
    obtain ⟨P, e, hp⟩ := h
    subst e
    have hn : s.reads.get s.curId = none := get_none fun y hy => Nat.ne_of_lt (hi.rnew y hy)
    have hlen : l.addr + l.len ≤ (fill s.file maxFile).length := by
      rw [fill_length hi.file]; exact Nat.le_trans hl hi.file
    have hread : ByteDisk.read (fill s.file maxFile) l = ByteDisk.read s.file l := fill_read hl
    have hr : Rel { s with curId := s.curId + 1, reads := s.reads ++ [(s.curId, ⟨l.addr, bytes⟩)] }
        { disk s P with
          reqReads := (PMap.insert .empty s.curId l).remove s.curId
          respReads := PMap.insert (fun id => s.reads.get id) s.curId ⟨l.addr, bytes⟩ } := by
      refine ⟨P, ?_, hp⟩
      refine st_ext (fun x => ?_) (fun _ => rfl) (fun x => ?_) (fun _ => rfl) rfl rfl
      · simp [disk, PMap.insert, PMap.remove, PMap.empty]
      · simp only [disk]
        rw [get_new (fun y hy => Nat.ne_of_lt (hi.rnew y hy))]; rfl
    refine ⟨_, _, .recvRead (d := disk s P) rfl hn, .cons ?_ .nil, hr⟩
    by_cases hb' : bytes = ByteDisk.read s.file l
    · subst hb'
      rw [← hread]
      exact Internal.processRead (d := { disk s P with reqReads := PMap.insert .empty s.curId l }) rfl
        (PMap.insert_same _ _ _) hlen
    · obtain ⟨b1, b2⟩ := hb.resolve_left hb'
      refine Internal.processReadFailure (d := { disk s P with reqReads := PMap.insert .empty s.curId l })
        (PMap.insert_same _ _ _) hlen ?_ ?_ ?_
      · show bytes.length = (ByteDisk.read (fill s.file maxFile) l).length
        rw [read_length hlen, b1]
      · show bytes ≠ ByteDisk.read (fill s.file maxFile) l
        rw [hread]; exact hb'
      · show AllCheck crc (ByteDisk.read (fill s.file maxFile) l) bytes
        rw [hread]; exact b2
  | @readResponse id r rest e =>
    obtain ⟨P, e', hp⟩ := h
    subst e'
    refine ⟨_, _, .ackRead (d := disk s P) (id := id) (r := r) (by unfold disk; dsimp only; rw [e]; exact if_pos rfl), .nil, P, ?_, hp⟩
    refine st_ext (fun _ => rfl) (fun _ => rfl) (fun x => ?_) (fun _ => rfl) rfl rfl
    have hnd := hi.rnodup
    rw [e] at hnd
    simp only [disk, PMap.remove]
    rw [e, AList.get_cons]
    split
    · rename_i hx
      subst hx
      exact (get_mid_none (l1 := []) hnd).symm
    · rfl
  | @writeResponse id l s' e =>
    obtain ⟨l1, t, l2, h1, h2, h3, h4, h5, h6, h7, h8, h9⟩ := prepare_spec hi e
    obtain ⟨P, e', hp⟩ := h
    subst e'
    have hc : DiskHandler.cores s.writes = DiskHandler.cores l1 ++ (id, core t) :: DiskHandler.cores l2 := by
      rw [h1]; unfold DiskHandler.cores; rw [List.map_append, List.map_cons]
    have hc' : DiskHandler.cores s'.writes = DiskHandler.cores l1 ++ DiskHandler.cores l2 := by
      rw [h2]; unfold DiskHandler.cores; rw [List.map_append]
    have hnd := hi.nodup
    rw [cores_keys, hc] at hnd
    have hg := get_mid hnd
    have hgn := get_mid_none hnd
    refine ⟨_, _, .ackWrite (d := disk s P) (id := id) (l := l) ?_, .nil, P, ?_, ?_⟩
    · unfold disk; dsimp only; rw [hc, hg, if_pos rfl]; simp [core, h4, h3]
    · refine st_ext (fun _ => rfl) (fun x => ?_) (fun _ => by simp only [disk, h7]) (fun x => ?_)
        (by simp only [disk, h8]) rfl
      · simp only [disk]
        rw [hc, hc', hg]
        split
        · rename_i hx; subst hx; rw [hgn]; simp [core, h4]
        · rfl
      · simp only [disk, PMap.remove]
        rw [hc, hc', hg]
        split
        · rename_i hx; subst hx; rw [hgn]; rfl
        · rfl
    · intro i x hx
      refine hp i x ?_
      rw [hc'] at hx
      rw [hc, hg]
      split
      · rename_i e; subst e; rw [hgn] at hx; cases hx
      · exact hx
  | none => exact ⟨d, d, .stutter, .nil, h⟩

/-- What the operating system does is what the disk does. -/
theorem os_sim (crc : List UInt8 → List UInt8) {s s' : State} {d : ByteDisk.State} (hi : Inv s)
    (h : Rel s d) (hs : Os s s') : ∃ d', Internal crc ⟨true, true⟩ d d' ∧ Rel s' d' := by
  obtain ⟨P, e', hp⟩ := h
  subst e'
  have split : ∀ {l1 l2 id t}, s.writes = l1 ++ (id, t) :: l2 →
      DiskHandler.cores s.writes = DiskHandler.cores l1 ++ (id, core t) :: DiskHandler.cores l2 := by
    intro l1 l2 id t h1
    rw [h1]; unfold DiskHandler.cores; rw [List.map_append, List.map_cons]
  have full : ∀ {l1 l2 id t}, s.writes = l1 ++ (id, t) :: l2 → t.finished = false →
      (disk s P).reqWrites id = some t.data ∧ (disk s P).full id t.data = t.full := by
    intro l1 l2 id t h1 hf
    have hc := split h1
    have hnd := hi.nodup
    rw [cores_keys, hc] at hnd
    have hg := get_mid hnd id
    rw [if_pos rfl, ← hc] at hg
    refine ⟨?_, ?_⟩
    · unfold disk; dsimp only; rw [hg]; simp [core, hf]
    · unfold ByteDisk.State.full Task.full
      rw [show (disk s P).pads id = t.pad from hp id _ hg]
  cases hs with
  | @finish l1 l2 id t e hm hf hb =>
    have hc := split e
    obtain ⟨h1, h2⟩ := full e hf
    have hnd := hi.nodup
    rw [cores_keys, hc] at hnd
    have hg := get_mid hnd
    have hgn := get_mid_none hnd
    have hc' : DiskHandler.cores (l1 ++ (id, { t with finished := true }) :: l2) =
        DiskHandler.cores l1 ++ (id, (t.data, t.pad, true)) :: DiskHandler.cores l2 := by
      unfold DiskHandler.cores; rw [List.map_append, List.map_cons]; rfl
    have hg' := get_mid (l1 := DiskHandler.cores l1) (l2 := DiskHandler.cores l2) (k := id) (v := (t.data, t.pad, true))
      (by simpa using hnd)
    have hb' : t.data.addr + t.full.bytes.length ≤ (disk s P).contents.length := by
      show _ ≤ (fill s.file maxFile).length
      rw [fill_length hi.file]; exact hb
    refine ⟨_, .processWrite h1 (by rw [h2]; exact hb'), P, ?_, ?_⟩
    · rw [h2]
      refine st_ext (fun _ => rfl) (fun x => ?_) (fun _ => rfl) (fun x => ?_) (fill_pwrite hi.file hb).symm rfl
      · simp only [disk, PMap.remove]
        rw [hc, hc', hg, hg']
        split <;> rfl
      · simp only [disk, PMap.insert]
        rw [hc, hc', hg, hg']
        split <;> rfl
    · intro i x hx
      dsimp only at hx
      rw [hc', hg'] at hx
      split at hx
      · rename_i e'
        subst e'
        cases hx
        refine hp i (core t) ?_
        rw [hc, hg, if_pos rfl]
      · rename_i e'
        refine hp i x ?_
        rw [hc, hg, if_neg e']; exact hx
  | @part l1 l2 id t f e hm hf hb hl k1 k2 k3 =>
    obtain ⟨h1, h2⟩ := full e hf
    have hfl : f.length ≤ maxFile := by have := hi.file; omega
    refine ⟨_, .tear (cs := fill f maxFile) rfl h1 hl ?_ ?_, P, rfl, hp⟩
    · show _ = (fill s.file maxFile).length
      rw [fill_length hfl, fill_length hi.file]
    · intro i hci
      rw [h2] at hci
      show _ = (fill s.file maxFile)[i]?
      rw [fill_get hfl, fill_get hi.file, k3 i hci]

theorem osRun_sim (crc : List UInt8 → List UInt8) {s s' : State} (hs : OsRun s s') : ∀ {d : ByteDisk.State}, Inv s →
    Rel s d → ∃ d', Internals crc d d' ∧ Rel s' d' := by
  induction hs with
  | nil => intro d _ h; exact ⟨d, .nil, h⟩
  | cons h1 _ ih =>
    intro d hi h
    obtain ⟨d1, k1, k2⟩ := os_sim crc hi h h1
    obtain ⟨d2, k3, k4⟩ := ih (hi.os h1).1 k2
    exact ⟨d2, .cons k1 k3, k4⟩

theorem complete_sim (crc : List UInt8 → List UInt8) {s : State} {r : Option State} (hs : Complete s r) :
    ∀ {d : ByteDisk.State} {s' : State}, Inv s → Rel s d → r = some s' → ∃ d', Internals crc d d' ∧ Rel s' d' := by
  induction hs with
  | fails => intro d s' _ _ e; cases e
  | @ends s _ _ =>
    intro d s' hi h e
    cases e
    exact ⟨d, .nil, h.cores (s' := checked s) hi.checked.2 rfl rfl⟩
  | @again s s1 r _ h2 _ ih =>
    intro d s' hi h e
    obtain ⟨d1, k1, k2⟩ := osRun_sim crc h2 hi.checked.1 (h.cores (s' := checked s) hi.checked.2 rfl rfl)
    have i1 := (hi.checked.1.osRun h2).1
    have := i1.maybeStart
    obtain ⟨d2, k3, k4⟩ := ih this.1 (k2.cores (s' := maybeStart s1) this.2.2 rfl rfl) e
    exact ⟨d2, k1.append k3, k4⟩

theorem wait_sim (crc : List UInt8 → List UInt8) {s s' : State} {d : ByteDisk.State} (hi : Inv s) (h : Rel s d)
    (hs : WaitForOne s (some s')) : ∃ d', Internals crc d d' ∧ Rel s' d' := by
  cases hs with
  | done => exact ⟨d, .nil, h⟩
  | @waits s1 _ _ hr =>
    obtain ⟨d1, k1, k2⟩ := osRun_sim crc hr hi h
    have := (hi.osRun hr).1.maybeStart
    exact ⟨d1, k1, k2.cores (s' := maybeStart s1) this.2.2 rfl rfl⟩

theorem Rel.opened (file : List UInt8) :
    Rel (opened file) ⟨.empty, .empty, .empty, .empty, fill file maxFile, ByteDisk.noPads⟩ :=
  ⟨ByteDisk.noPads, rfl, fun _ _ h => by cases h⟩

end Verif.Kv.DiskHandler
