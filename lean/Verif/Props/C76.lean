import Verif.Scache.Proof

/-!
C76.  The concurrent page cache (concurrency/scache) gives every page of the disk one contents: whatever 24
threads, each with up to 255 pages at once, do in any interleaving of their atomic accesses, and whatever
writes back and evictions happen, a client that reads a page it holds gets what was last written to it, or
what the disk had at the start.  While a page is held its buffer is not changed and not given to another page;
while a client may write a page, no other holds it.  A page that is in no slot is on the disk with what was
last written.  The byte that counts a thread's readers of a slot never wraps around.  A client that waits,
waits for another client or for the disk.

That the cache learns of the end of a write back is what the empty `disk_writeback_callback` (CacheIO.i.dfy:86-97) is for; the
model calls `release_writeback` there. With the empty callback (`asWritten`) all else holds too, as it only has fewer
steps (`asWritten_reachable`, `asWritten_run`), but who waits for a write back waits for ever (`writer_waits_for_ever`) and the page
can never be evicted (`never_evictable`).

Specification: `lastWrite` on the list of reads and writes that clients make.
-/

namespace Verif.C76
open Verif.Scache
variable {Data : Type}

/-- What was last written to page `d`. -/
def lastWrite (d : Page) : List (Label Data) → Option Data
  | [] => none
  | .write _ d' x :: ls => (lastWrite d ls).or (if d' = d then some x else none)
  | _ :: ls => lastWrite d ls

theorem lastWrite_append (d : Page) (a b : List (Label Data)) :
    lastWrite d (a ++ b) = (lastWrite d b).or (lastWrite d a) := by
  induction a with
  | nil => cases h : lastWrite d b <;> simp [lastWrite, h]
  | cons l a ih =>
    cases l <;> simp [lastWrite, ih]
    cases h : lastWrite d b <;> simp

/-- The invariant along a run: pages are what was last written. -/
theorem inv_run {s0 s : State Data} {ls : List (Label Data)} (h0 : Init s0) (h : (machine Data).Run s0 ls s) :
    Inv s fun d => (lastWrite d ls).getD (s0.disk d) := by
  have gen : ∀ {s1 s2 : State Data} {ls : List (Label Data)} {v : Page → Data}, Inv s1 v → (machine Data).Run s1 ls s2 →
      Inv s2 fun d => (lastWrite d ls).getD (v d) := by
    intro s1 s2 ls v hi hr
    induction hr generalizing v with
    | nil => exact hi
    | cons hs _ ih =>
      obtain ⟨v', he, hi'⟩ := hi.step hs
      have := ih hi'
      cases he with
      | tau => exact this
      | read _ => exact this
      | @write i d x =>
        have e : (fun p => (lastWrite p (Label.write i d x :: ‹List (Label Data)›)).getD (v p)) =
            fun p => (lastWrite p ‹List (Label Data)›).getD (Function.update v d x p) := by
          funext p
          simp only [lastWrite]
          cases lastWrite p ‹List (Label Data)› with
          | some y => rfl
          | none =>
            by_cases hp : d = p
            · subst hp; simp
            · simp [hp, Function.update_of_ne (Ne.symm hp)]
        rw [e]; exact this
  exact gen (Inv.init h0) h

/-- A read gives what was last written to the page, or what the disk had at the start. -/
theorem reads_last_write {s0 s : State Data} {before after : List (Label Data)} {i : Client} {d : Page} {x : Data}
    (h0 : Init s0) (h : (machine Data).Run s0 (before ++ .read i d x :: after) s) :
    x = (lastWrite d before).getD (s0.disk d) := by
  obtain ⟨m, h1, h2⟩ := Machine.Run.split before h
  have hi := inv_run h0 h1
  cases h2 with
  | cons hs _ =>
    obtain ⟨v', he, -⟩ := hi.step hs
    cases he with
    | read e => exact e.symm

theorem reachable_inv {s : State Data} (h : (machine Data).Reachable s) : ∃ v, Inv s v := by
  obtain ⟨ls, s0, h0, hr⟩ := h
  exact ⟨_, inv_run h0 hr⟩

/-- Client `i` has page `d` in slot `c`, to read or to write. -/
def Has (s : State Data) (i : Client) (d : Page) (c : Slot) : Prop := s.pc i = .hold d c ∨ s.pc i = .write d c

/-- A page that two clients have is in the same slot. -/
theorem one_slot {s : State Data} (h : (machine Data).Reachable s) {i j : Client} {d : Page} {c c' : Slot}
    (hi : Has s i d c) (hj : Has s j d c') : c = c' := by
  obtain ⟨v, o, q, hI⟩ := reachable_inv h
  have h1 := (hI.maps c d).2 (hI.sees hi).1
  have h2 := (hI.maps c' d).2 (hI.sees hj).1
  rw [h1] at h2; cases h2; rfl

/-- A client that may write a page is the only one that has it. -/
theorem alone {s : State Data} (h : (machine Data).Reachable s) {i j : Client} {d : Page} {c c' : Slot}
    (hi : s.pc i = .write d c) (hj : Has s j d c') : j = i := by
  have hc := one_slot h (Or.inr hi) hj
  subst hc
  obtain ⟨v, o, q, hI⟩ := reachable_inv h
  have ho := hI.owner hi rfl rfl
  rcases hj with e | e
  · have h4 := (hI.slots c).beside i j ho (by rw [role_eq e rfl]; rfl)
    rw [role_eq hi rfl] at h4; exact h4.elim
  · have := hI.owner e rfl rfl
    rw [ho] at this; cases this; rfl

/-- While a client holds a page, its buffer has the contents of the page, and neither is changed by any step. -/
theorem held_stays {s s' : State Data} {l : Label Data} (h : (machine Data).Reachable s) (hs : Step s l s')
    {i : Client} {d : Page} {c : Slot} (hi : s.pc i = .hold d c) (hi' : s'.pc i = .hold d c) :
    s'.data c = s.data c ∧ s'.idx c = d ∧ s.idx c = d := by
  have hreach := h
  obtain ⟨v, hI⟩ := reachable_inv h
  obtain ⟨v', he, hI'⟩ := hI.step hs
  obtain ⟨o, q, hG⟩ := hI
  obtain ⟨o', q', hG'⟩ := hI'
  have h1 := (hG.sees (Or.inl hi)).2
  have h2 := (hG'.sees (Or.inl hi')).2
  have k1 := hG.pcs i
  have k2 := hG'.pcs i
  rw [hi] at k1
  rw [hi'] at k2
  refine ⟨?_, k2, k1⟩
  rw [← h1, ← h2]
  cases he with
  | tau => rfl
  | read _ => rfl
  | @write j d' x =>
    cases hs with
    | write _ hp =>
      have hne : d ≠ d' := by
        rintro rfl
        have := alone hreach hp (Or.inl hi)
        subst this
        rw [hp] at hi; cases hi
      exact Function.update_of_ne hne _ _

/-- A page that is in no slot is on the disk, with what was last written to it. -/
theorem on_disk {s0 s : State Data} {ls : List (Label Data)} (h0 : Init s0) (h : (machine Data).Run s0 ls s) {d : Page}
    (hd : s.lookup d = none) : s.disk d = (lastWrite d ls).getD (s0.disk d) := by
  obtain ⟨o, q, hG⟩ := inv_run h0 h
  exact (hG.miss d hd).symm

/-- A slot that is clean, and that no client may write, has what is on the disk. -/
theorem clean_on_disk {s0 s : State Data} {ls : List (Label Data)} (h0 : Init s0) (h : (machine Data).Run s0 ls s)
    {i : Client} {d : Page} {c : Slot} (hi : s.pc i = .hold d c) (hc : s.status c &&& flagClean ≠ 0) :
    s.disk d = (lastWrite d ls).getD (s0.disk d) ∧ s.data c = s.disk d := by
  obtain ⟨o, q, hG⟩ := inv_run h0 h
  obtain ⟨h1, h2⟩ := hG.sees (Or.inl hi)
  have hcl : cln (s.status c) = true := by
    obtain ⟨k, hk, a, b⟩ := bit_of_and_ne hc
    have : ∀ k, k < 8 → bit flagClean k = true → k = 5 := by decide
    rw [this k hk b] at a; exact a
  have hg := hG.held hi rfl rfl
  have hri : roles s c i = .shared := role_eq hi rfl
  have key : loadsOf (ownerPc s o c) = false ∧ writesOf (ownerPc s o c) = false := by
    cases ho : o c with
    | none => simp [ownerPc, ho, loadsOf, writesOf]
    | some j =>
      have h4 := (hG.slots c).beside j i ho (by rw [hri]; rfl)
      have h3 := (hG.slots c).reading j ho
      rw [hri] at h4
      rw [show rdg (s.status c) = false from hg] at h3
      have hj := ((hG.slots c).own j).2 ho
      unfold roles roleAt at h3 h4 hj
      simp only [ownerPc, ho, Option.map_some]
      split at hj
      · rename_i hsl
        rw [if_pos hsl] at h3 h4
        cases hpj : s.pc j <;> rw [hpj] at h3 h4 <;>
          first
            | exact ⟨rfl, rfl⟩
            | (simp [Pc.role, Role.hasReading] at h3; done)
            | (simp [Pc.role, Beside] at h4)
      · cases hj
  have h5 := (hG.datas c).clean d h1 key.1 key.2 hcl
  exact ⟨h5.trans h2.symm, h5.symm⟩

/-- The places in the code between the increment of a count for slot `c` and its decrement. -/
def counts (c : Slot) : Pc → Bool
  | .check _ c' | .decPending c' | .mark _ c' | .wait _ c' | .verify _ c' | .hold _ c' | .decObtained c'
  | .clearExc _ c' | .load _ c' | .setIdx _ c' | .fin _ c' | .await _ c' | .visitExc _ c' _ | .write _ c' => c' = c
  | _ => false

theorem counts_eq (c : Slot) (p : Pc) : counts c p = (roleAt c p).counted := by
  cases p <;> simp only [counts, roleAt, Pc.slot, Pc.role, Option.some.injEq] <;> first | rfl | (split <;> simp_all [Role.counted])

/-- The count of thread `t` for slot `c` is the number of its clients there; it never wraps around. -/
theorem count_exact {s : State Data} (h : (machine Data).Reachable s) (t : Fin numThreads) (c : Slot) :
    (s.rc t c).toNat = (Finset.univ.filter fun k : Fin numClients => counts c (s.pc (t, k))).card := by
  obtain ⟨v, o, q, hI⟩ := reachable_inv h
  have := (hI.counts c).nat t
  rw [this]
  simp only [cnt, roles, counts_eq]
  congr

/-- An increment does not wrap around, nor does a decrement. -/
theorem count_no_wrap {s : State Data} (h : (machine Data).Reachable s) (i : Client) (d : Page) (c : Slot) :
    (s.pc i = .inc d c ∨ s.pc i = .incReading d c → (s.rc i.1 c).toNat < 255) ∧
    (s.pc i = .decPending c ∨ s.pc i = .decObtained c → 0 < (s.rc i.1 c).toNat) := by
  rw [count_exact h]
  constructor
  · intro hp
    have : (Finset.univ.filter fun k : Fin numClients => counts c (s.pc (i.1, k))) ⊂ Finset.univ := by
      refine Finset.ssubset_univ_iff.2 fun e => ?_
      have hm : i.2 ∈ (Finset.univ.filter fun k : Fin numClients => counts c (s.pc (i.1, k))) := by rw [e]; simp
      simp only [Finset.mem_filter, Finset.mem_univ, true_and] at hm
      rcases hp with e | e <;> rw [e] at hm <;> cases hm
    simpa using Finset.card_lt_card this
  · intro hp
    refine Finset.card_pos.2 ⟨i.2, ?_⟩
    simp only [Finset.mem_filter, Finset.mem_univ, true_and]
    rcases hp with e | e <;> rw [e] <;> simp [counts]

/-- A client that waits for a page to be read waits for one that reads it. -/
theorem waits_for_load {s : State Data} (h : (machine Data).Reachable s) {i : Client} {d : Page} {c : Slot}
    (hi : s.pc i = .wait d c) (hb : s.status c &&& flagReading ≠ 0) :
    ∃ j d', s.pc j = .load d' c ∨ s.pc j = .setIdx d' c ∨ s.pc j = .fin d' c := by
  obtain ⟨v, o, q, hI⟩ := reachable_inv h
  have hg : rdg (s.status c) = true := by
    obtain ⟨k, hk, a, b⟩ := bit_of_and_ne hb
    have : ∀ k, k < 8 → bit flagReading k = true → k = 4 := by decide
    rw [this k hk b] at a; exact a
  have hri : roles s c i = .wait := role_eq hi rfl
  cases ho : o c with
  | none => have := ((hI.slots c).idle ho).2; rw [hg] at this; cases this
  | some j =>
    have h4 := (hI.slots c).beside j i ho (by rw [hri]; rfl)
    have h3 := (hI.slots c).reading j ho
    rw [hri] at h4
    rw [hg] at h3
    unfold roles roleAt at h3 h4
    split at h3
    · rename_i hsl
      rw [if_pos hsl] at h4
      cases hpj : s.pc j <;> rw [hpj] at h3 h4 hsl <;>
        first
          | (simp [Pc.role, Role.hasReading] at h3; done)
          | (simp [Pc.role, Beside] at h4; done)
          | skip
      all_goals
        simp only [Pc.slot, Option.some.injEq] at hsl
        subst hsl
      · exact ⟨j, _, .inl hpj⟩
      · exact ⟨j, _, .inr (.inl hpj)⟩
      · exact ⟨j, _, .inr (.inr hpj)⟩
    · cases h3

/-- A client that waits for a write back to end waits for the disk, or for one that is about to start it. Missing:
that this wait ends with the answer of the disk; in the source it does not (`writer_waits_for_ever`). -/
theorem waits_for_disk_partial {s : State Data} (h : (machine Data).Reachable s) {c : Slot}
    (hb : s.status c &&& flagWriteback ≠ 0) : s.flight c ≠ .none ∨ ∃ j d', s.pc j = .issue d' c := by
  obtain ⟨v, o, q, hI⟩ := reachable_inv h
  have hw : wb (s.status c) = true := by
    obtain ⟨k, hk, a, b⟩ := bit_of_and_ne hb
    have : ∀ k, k < 8 → bit flagWriteback k = true → k = 0 := by decide
    rw [this k hk b] at a; exact a
  cases hq : q c with
  | none =>
    have := (hI.slots c).wbF hq
    rw [hw] at this; exact .inl (by simpa using this.symm)
  | some j =>
    have := ((hI.slots c).iss j).2 hq
    unfold roles roleAt at this
    split at this
    · rename_i hsl
      cases hpj : s.pc j <;> rw [hpj] at this hsl <;> cases this
      simp only [Pc.slot, Option.some.injEq] at hsl
      subst hsl
      exact .inr ⟨j, _, hpj⟩
    · cases this

/-- A client that waits for the counts waits for another client that is counted. -/
theorem waits_for_reader {s : State Data} (h : (machine Data).Reachable s) {i : Client} {d : Page} {c : Slot} {n : Nat}
    (hi : s.pc i = .visitExc d c n) (hn : n < numThreads) (hb : s.rc ⟨n, hn⟩ c ≠ (if i.1.val = n then 1 else 0)) :
    ∃ j, j ≠ i ∧ j.1.val = n ∧ counts c (s.pc j) = true := by
  have hc := count_exact h ⟨n, hn⟩ c
  by_cases hex : ∃ j : Client, j ≠ i ∧ j.1.val = n ∧ counts c (s.pc j) = true
  · exact hex
  · refine absurd (UInt8.toNat_inj.1 ?_) hb
    rw [hc]
    by_cases hin : i.1.val = n
    · rw [if_pos hin]
      refine Finset.card_eq_one.2 ⟨i.2, ?_⟩
      have hi1 : (⟨n, hn⟩ : Fin numThreads) = i.1 := Fin.ext hin.symm
      ext k
      simp only [Finset.mem_filter, Finset.mem_univ, true_and, Finset.mem_singleton]
      constructor
      · intro hk
        by_cases e : k = i.2
        · exact e
        · exact absurd ⟨(⟨n, hn⟩, k), fun e' => e (by rw [← e']), rfl, hk⟩ hex
      · rintro rfl
        rw [hi1]; simp [hi, counts]
    · rw [if_neg hin]
      refine Finset.card_eq_zero.2 (Finset.filter_eq_empty_iff.2 fun k _ hk => hex ⟨(⟨n, hn⟩, k), ?_, rfl, hk⟩)
      rintro rfl; exact hin rfl

/-! ### A run: a page is loaded, written, read by another client, written back, evicted and loaded again -/

theorem go_go (s : State Data) (i : Client) (p p' : Pc) : (s.go i p).go i p' = s.go i p' := by
  simp [State.go]

/-- All counts are visited, to evict. -/
theorem visits {s : State Data} {i : Client} {d : Page} {c : Slot} (n : Nat) (hn : n ≤ numThreads)
    (hr : ∀ t, s.rc t c = 0) (hp : s.pc i = .visit d c 0) :
    (machine Data).Run s (List.replicate n .tau) (s.go i (.visit d c n)) := by
  induction n with
  | zero => rw [← hp]; rw [go_self]; exact .nil _
  | succ n ih =>
    rw [List.replicate_succ']
    have := (ih (by omega)).snoc (Step.visit (s := s.go i (.visit d c n)) (i := i) (d := d) (c := c) (n := n) (by omega)
      (by simp [State.go]) (hr _))
    rw [go_go] at this; exact this

/-- All counts are visited, to write. -/
theorem visitsExc {s : State Data} {i : Client} {d : Page} {c : Slot} (n : Nat) (hn : n ≤ numThreads)
    (hr : ∀ t : Fin numThreads, s.rc t c = if i.1.val = t.val then 1 else 0) (hp : s.pc i = .visitExc d c 0) :
    (machine Data).Run s (List.replicate n .tau) (s.go i (.visitExc d c n)) := by
  induction n with
  | zero => rw [← hp]; rw [go_self]; exact .nil _
  | succ n ih =>
    rw [List.replicate_succ']
    have := (ih (by omega)).snoc (Step.visitExc (s := s.go i (.visitExc d c n)) (i := i) (d := d) (c := c) (n := n)
      (by omega) (by simp [State.go]) (hr _))
    rw [go_go] at this; exact this

/-- The first client of the first thread. -/
def ca : Client := (0, 0)
/-- The first client of the second thread. -/
def cb : Client := (1, 0)

/-- All slots unmapped; page `p` has `10 * p`. -/
def start : State Nat where
  status := fun _ => flagUnmapped
  rc := fun _ _ => 0
  lookup := fun _ => none
  idx := fun _ => 0
  data := fun _ => 0
  flight := fun _ => .none
  disk := fun p => 10 * p
  pc := fun _ => .idle

/-- The reads and writes of a run. -/
def seen : List (Label Data) → List (Label Data)
  | [] => []
  | .tau :: ls => seen ls
  | l :: ls => l :: seen ls

theorem seen_append (a b : List (Label Data)) : seen (a ++ b) = seen a ++ seen b := by
  induction a with
  | nil => rfl
  | cons l a ih => cases l <;> simp [seen, ih]

theorem seen_replicate (n : Nat) : seen (List.replicate n (.tau : Label Data)) = [] := by
  induction n with
  | zero => rfl
  | succ n ih => rw [List.replicate_succ]; exact ih

/-- From `s` there is a run with reads and writes `ls`. -/
def Can (s : State Data) (ls : List (Label Data)) : Prop := ∃ tr s', (machine Data).Run s tr s' ∧ seen tr = ls

theorem Can.tau {s s' : State Data} {ls : List (Label Data)} (h : Step s .tau s') (k : Can s' ls) : Can s ls := by
  obtain ⟨tr, s'', hr, e⟩ := k
  exact ⟨.tau :: tr, s'', .cons h hr, e⟩

theorem Can.see {s s' : State Data} {l : Label Data} {ls : List (Label Data)} (h : Step s l s') (hl : l ≠ .tau)
    (k : Can s' ls) : Can s (l :: ls) := by
  obtain ⟨tr, s'', hr, e⟩ := k
  refine ⟨l :: tr, s'', .cons h hr, ?_⟩
  cases l with
  | tau => exact absurd rfl hl
  | read _ _ _ => simp [seen, e]
  | write _ _ _ => simp [seen, e]

theorem Can.visits {s : State Data} {ls : List (Label Data)} {i : Client} {d : Page} {c : Slot}
    (hr : ∀ t, s.rc t c = 0) (hp : s.pc i = .visit d c 0) (k : Can (s.go i (.readIdx d c)) ls) : Can s ls := by
  have h1 := C76.visits numThreads (Nat.le_refl _) hr hp
  have h2 := h1.snoc (Step.visited (s := s.go i (.visit d c numThreads)) (i := i) (d := d) (c := c) (by simp [State.go]))
  rw [go_go] at h2
  obtain ⟨tr, s'', h3, e⟩ := k
  exact ⟨_, s'', h2.append h3, by rw [seen_append, seen_append, seen_replicate]; exact e⟩

theorem Can.visitsExc {s : State Data} {ls : List (Label Data)} {i : Client} {d : Page} {c : Slot}
    (hr : ∀ t : Fin numThreads, s.rc t c = if i.1.val = t.val then 1 else 0) (hp : s.pc i = .visitExc d c 0)
    (k : Can (s.go i (.write d c)) ls) : Can s ls := by
  have h1 := C76.visitsExc numThreads (Nat.le_refl _) hr hp
  have h2 := h1.snoc (Step.visitedExc (s := s.go i (.visitExc d c numThreads)) (i := i) (d := d) (c := c) (by simp [State.go]))
  rw [go_go] at h2
  obtain ⟨tr, s'', h3, e⟩ := k
  exact ⟨_, s'', h2.append h3, by rw [seen_append, seen_append, seen_replicate]; exact e⟩

theorem start_init : Init start := ⟨fun _ => rfl, fun _ _ => rfl, fun _ => rfl, fun _ => rfl, fun _ => rfl⟩

/-- `ca` loads page 7 into slot 3, reads it and writes 5; `cb` reads that; it is written back and evicted for
page 8; `ca` loads page 7 again, into slot 4, and reads 5. -/
theorem demo : Can start
    [.read ca 7 70, .write ca 7 5, .read ca 7 5, .read cb 7 5, .read cb 8 80, .read ca 7 5] := by
  refine .tau (Step.call (i := ca) 7 rfl) ?_
  refine .tau (Step.lookMiss (i := ca) (d := 7) rfl rfl) ?_
  refine .tau (Step.alloc (i := ca) (d := 7) 3 rfl rfl) ?_
  refine .tau (Step.map (i := ca) (d := 7) (c := 3) rfl rfl) ?_
  refine .tau (Step.incReading (i := ca) (d := 7) (c := 3) rfl) ?_
  refine .tau (Step.clearExc (i := ca) (d := 7) (c := 3) rfl) ?_
  refine .tau (Step.loading (i := ca) (d := 7) (c := 3) 99 rfl) ?_
  refine .tau (Step.load (i := ca) (d := 7) (c := 3) rfl) ?_
  refine .tau (Step.setIdx (i := ca) (d := 7) (c := 3) rfl) ?_
  refine .tau (Step.fin (i := ca) (d := 7) (c := 3) rfl) ?_
  refine .see (Step.read (i := ca) (d := 7) (c := 3) rfl) (fun e => nomatch e) ?_
  refine .tau (Step.upgrade (i := ca) (d := 7) (c := 3) rfl rfl) ?_
  refine .tau (Step.await (i := ca) (d := 7) (c := 3) rfl rfl) ?_
  refine .visitsExc (i := ca) (d := 7) (c := 3) (by decide) rfl ?_
  refine .see (Step.write (i := ca) (d := 7) (c := 3) 5 rfl) (fun e => nomatch e) ?_
  refine .tau (Step.downgrade (i := ca) (d := 7) (c := 3) rfl) ?_
  refine .see (Step.read (i := ca) (d := 7) (c := 3) rfl) (fun e => nomatch e) ?_
  refine .tau (Step.release (i := ca) (d := 7) (c := 3) rfl) ?_
  refine .tau (Step.decObtained (i := ca) (c := 3) rfl) ?_
  refine .tau (Step.call (i := cb) 7 rfl) ?_
  refine .tau (Step.lookHit (i := cb) (d := 7) (c := 3) rfl rfl) ?_
  refine .tau (Step.quick (i := cb) (d := 7) (c := 3) rfl rfl) ?_
  refine .tau (Step.inc (i := cb) (d := 7) (c := 3) rfl) ?_
  refine .tau (Step.check (i := cb) (d := 7) (c := 3) rfl rfl) ?_
  refine .tau (Step.waited (i := cb) (d := 7) (c := 3) rfl rfl) ?_
  refine .tau (Step.verify (i := cb) (d := 7) (c := 3) rfl rfl) ?_
  refine .see (Step.read (i := cb) (d := 7) (c := 3) rfl) (fun e => nomatch e) ?_
  refine .tau (Step.release (i := cb) (d := 7) (c := 3) rfl) ?_
  refine .tau (Step.decObtained (i := cb) (c := 3) rfl) ?_
  refine .tau (Step.call (i := cb) 8 rfl) ?_
  refine .tau (Step.lookMiss (i := cb) (d := 8) rfl rfl) ?_
  refine .tau (Step.evict (i := cb) (d := 8) 3 rfl) ?_
  refine .tau (Step.evClear (i := cb) (d := 8) (c := 3) (f := 4) rfl) ?_
  refine .tau (Step.writeback (i := cb) (d := 8) 3 rfl rfl) ?_
  refine .tau (Step.issue (i := cb) (d := 8) (c := 3) rfl) ?_
  refine .tau (Step.tearing (c := 3) (p := 7) 1 rfl) ?_
  refine .tau (Step.written (c := 3) (p := 7) rfl) ?_
  refine .tau (Step.released (c := 3) rfl) ?_
  refine .tau (Step.evict (i := cb) (d := 8) 3 rfl) ?_
  refine .tau (Step.evClear (i := cb) (d := 8) (c := 3) (f := 32) rfl) ?_
  refine .tau (Step.evTake (i := cb) (d := 8) (c := 3) rfl rfl) ?_
  refine .visits (i := cb) (d := 8) (c := 3) (by decide) rfl ?_
  refine .tau (Step.readIdx (i := cb) (d := 8) (c := 3) rfl) ?_
  refine .tau (Step.unmap (i := cb) (d := 8) (c := 3) (p := 7) rfl) ?_
  refine .tau (Step.free (i := cb) (d := 8) (c := 3) rfl) ?_
  refine .tau (Step.alloc (i := cb) (d := 8) 3 rfl rfl) ?_
  refine .tau (Step.map (i := cb) (d := 8) (c := 3) rfl rfl) ?_
  refine .tau (Step.incReading (i := cb) (d := 8) (c := 3) rfl) ?_
  refine .tau (Step.clearExc (i := cb) (d := 8) (c := 3) rfl) ?_
  refine .tau (Step.load (i := cb) (d := 8) (c := 3) rfl) ?_
  refine .tau (Step.setIdx (i := cb) (d := 8) (c := 3) rfl) ?_
  refine .tau (Step.fin (i := cb) (d := 8) (c := 3) rfl) ?_
  refine .see (Step.read (i := cb) (d := 8) (c := 3) rfl) (fun e => nomatch e) ?_
  refine .tau (Step.call (i := ca) 7 rfl) ?_
  refine .tau (Step.lookMiss (i := ca) (d := 7) rfl rfl) ?_
  refine .tau (Step.alloc (i := ca) (d := 7) 4 rfl rfl) ?_
  refine .tau (Step.map (i := ca) (d := 7) (c := 4) rfl rfl) ?_
  refine .tau (Step.incReading (i := ca) (d := 7) (c := 4) rfl) ?_
  refine .tau (Step.clearExc (i := ca) (d := 7) (c := 4) rfl) ?_
  refine .tau (Step.load (i := ca) (d := 7) (c := 4) rfl) ?_
  refine .tau (Step.setIdx (i := ca) (d := 7) (c := 4) rfl) ?_
  refine .tau (Step.fin (i := ca) (d := 7) (c := 4) rfl) ?_
  refine .see (Step.read (i := ca) (d := 7) (c := 4) rfl) (fun e => nomatch e) ?_
  exact ⟨[], _, .nil _, rfl⟩

theorem reach_step {s s' : State Data} {l : Label Data} (h : (machine Data).Reachable s) (hs : Step s l s') :
    (machine Data).Reachable s' := by
  obtain ⟨ls, s0, h0, hr⟩ := h
  exact ⟨_, s0, h0, hr.snoc hs⟩

/-- `cb` finds page 7 while `ca` reads it from the disk, and waits; later it holds it too, and `ca`, which asked to
write, waits for `cb`; the page is clean, and page 8 is on the disk only. -/
theorem demo_waits : (∃ s, (machine Nat).Reachable s ∧ s.pc cb = .wait 7 3 ∧ s.status 3 &&& flagReading ≠ 0) ∧
    ∃ s, (machine Nat).Reachable s ∧ s.pc ca = .visitExc 7 3 1 ∧ s.pc cb = .hold 7 3 ∧ s.rc 1 3 ≠ 0 ∧
      s.status 3 &&& flagClean ≠ 0 ∧ s.lookup 8 = none := by
  have h : (machine Nat).Reachable start := ⟨[], start, start_init, .nil _⟩
  replace h := reach_step h (Step.call (i := ca) 7 rfl)
  replace h := reach_step h (Step.lookMiss (i := ca) (d := 7) rfl rfl)
  replace h := reach_step h (Step.alloc (i := ca) (d := 7) 3 rfl rfl)
  replace h := reach_step h (Step.map (i := ca) (d := 7) (c := 3) rfl rfl)
  replace h := reach_step h (Step.incReading (i := ca) (d := 7) (c := 3) rfl)
  replace h := reach_step h (Step.clearExc (i := ca) (d := 7) (c := 3) rfl)
  replace h := reach_step h (Step.call (i := cb) 7 rfl)
  replace h := reach_step h (Step.lookHit (i := cb) (d := 7) (c := 3) rfl rfl)
  replace h := reach_step h (Step.quick (i := cb) (d := 7) (c := 3) rfl rfl)
  replace h := reach_step h (Step.inc (i := cb) (d := 7) (c := 3) rfl)
  replace h := reach_step h (Step.check (i := cb) (d := 7) (c := 3) rfl rfl)
  refine ⟨⟨_, h, rfl, by decide⟩, ?_⟩
  replace h := reach_step h (Step.load (i := ca) (d := 7) (c := 3) rfl)
  replace h := reach_step h (Step.setIdx (i := ca) (d := 7) (c := 3) rfl)
  replace h := reach_step h (Step.fin (i := ca) (d := 7) (c := 3) rfl)
  replace h := reach_step h (Step.waited (i := cb) (d := 7) (c := 3) rfl rfl)
  replace h := reach_step h (Step.verify (i := cb) (d := 7) (c := 3) rfl rfl)
  replace h := reach_step h (Step.upgrade (i := ca) (d := 7) (c := 3) rfl rfl)
  replace h := reach_step h (Step.await (i := ca) (d := 7) (c := 3) rfl rfl)
  replace h := reach_step h (Step.visitExc (i := ca) (d := 7) (c := 3) (n := 0) (by decide) rfl rfl)
  exact ⟨_, h, rfl, rfl, by decide, by decide, rfl⟩

/-- A client waits for a write back that is on. -/
theorem demo_waits_disk : ∃ s, (machine Nat).Reachable s ∧ s.pc cb = .await 7 3 ∧ s.status 3 &&& flagWriteback ≠ 0 := by
  have h : (machine Nat).Reachable start := ⟨[], start, start_init, .nil _⟩
  replace h := reach_step h (Step.call (i := ca) 7 rfl)
  replace h := reach_step h (Step.lookMiss (i := ca) (d := 7) rfl rfl)
  replace h := reach_step h (Step.alloc (i := ca) (d := 7) 3 rfl rfl)
  replace h := reach_step h (Step.map (i := ca) (d := 7) (c := 3) rfl rfl)
  replace h := reach_step h (Step.incReading (i := ca) (d := 7) (c := 3) rfl)
  replace h := reach_step h (Step.clearExc (i := ca) (d := 7) (c := 3) rfl)
  replace h := reach_step h (Step.load (i := ca) (d := 7) (c := 3) rfl)
  replace h := reach_step h (Step.setIdx (i := ca) (d := 7) (c := 3) rfl)
  replace h := reach_step h (Step.fin (i := ca) (d := 7) (c := 3) rfl)
  replace h := reach_step h (Step.upgrade (i := ca) (d := 7) (c := 3) rfl rfl)
  replace h := reach_step h (Step.await (i := ca) (d := 7) (c := 3) rfl rfl)
  obtain ⟨ls, s0, h0, hr⟩ := h
  have h1 := visitsExc (i := ca) (d := 7) (c := 3) numThreads (Nat.le_refl _) (by decide) rfl |> hr.append
  have h : (machine Nat).Reachable _ := ⟨_, s0, h0, h1⟩
  replace h := reach_step h (Step.visitedExc (i := ca) (d := 7) (c := 3) rfl)
  replace h := reach_step h (Step.downgrade (i := ca) (d := 7) (c := 3) rfl)
  replace h := reach_step h (Step.call (i := cb) 7 rfl)
  replace h := reach_step h (Step.lookHit (i := cb) (d := 7) (c := 3) rfl rfl)
  replace h := reach_step h (Step.quick (i := cb) (d := 7) (c := 3) rfl rfl)
  replace h := reach_step h (Step.inc (i := cb) (d := 7) (c := 3) rfl)
  replace h := reach_step h (Step.check (i := cb) (d := 7) (c := 3) rfl rfl)
  replace h := reach_step h (Step.waited (i := cb) (d := 7) (c := 3) rfl rfl)
  replace h := reach_step h (Step.verify (i := cb) (d := 7) (c := 3) rfl rfl)
  replace h := reach_step h (Step.release (i := ca) (d := 7) (c := 3) rfl)
  replace h := reach_step h (Step.decObtained (i := ca) (c := 3) rfl)
  replace h := reach_step h (Step.call (i := ca) 8 rfl)
  replace h := reach_step h (Step.lookMiss (i := ca) (d := 8) rfl rfl)
  replace h := reach_step h (Step.writebackAccessed (i := ca) (d := 8) 3 rfl rfl)
  replace h := reach_step h (Step.issue (i := ca) (d := 8) (c := 3) rfl)
  replace h := reach_step h (Step.upgrade (i := cb) (d := 7) (c := 3) rfl rfl)
  exact ⟨_, h, rfl, by decide⟩

/-! ### With the callback of the source, which does nothing -/

/-- The cache with the empty `disk_writeback_callback` of CacheIO.i.dfy:86-97: the answer of the disk changes nothing. -/
def asWritten (Data : Type) : Machine (State Data) (Label Data) :=
  ⟨Init, fun s l s' => Step s l s' ∧ ∀ c, s.flight c = .done → s'.flight c = .done⟩

theorem asWritten_run {s s' : State Data} {ls : List (Label Data)} (h : (asWritten Data).Run s ls s') :
    (machine Data).Run s ls s' := by
  induction h with
  | nil => exact .nil _
  | cons hs _ ih => exact .cons hs.1 ih

/-- What it can do, the cache with the callback can do, so what holds of all runs of that holds of all of this. -/
theorem asWritten_reachable {s : State Data} (h : (asWritten Data).Reachable s) : (machine Data).Reachable s := by
  obtain ⟨ls, s0, h0, hr⟩ := h
  exact ⟨ls, s0, h0, asWritten_run hr⟩

/-- While a write back has not been released, its bit is set. -/
theorem bit_of_done {s : State Data} (h : (machine Data).Reachable s) {c : Slot} (hf : s.flight c = .done) :
    s.status c &&& flagWriteback ≠ 0 := by
  obtain ⟨v, o, q, hI⟩ := reachable_inv h
  have hw : wb (s.status c) = true := by
    cases hq : q c with
    | none => rw [(hI.slots c).wbF hq, hf]; rfl
    | some j => exact ((hI.slots c).wb j hq).2
  intro e
  have := bit_of_and_eq e 0 (by decide)
  rw [show bit (s.status c) 0 = true from hw] at this; cases this

theorem await_step {s s' : State Data} {l : Label Data} (hs : Step s l s') {i : Client} {d : Page} {c : Slot}
    (hi : s.pc i = .await d c) (hb : s.status c &&& flagWriteback ≠ 0) : s'.pc i = .await d c := by
  have key : ∀ (u : State Data) (j : Client) (x : Pc), u.pc = s.pc → s.pc j ≠ .await d c →
      (u.go j x).pc i = .await d c := by
    intro u j x hu hne
    have : i ≠ j := by rintro rfl; exact hne hi
    simp [State.go, Function.update_of_ne this, hu, hi]
  cases hs
  case await j d' c' hp hz =>
    refine key s j _ rfl fun e => ?_
    rw [hp] at e; cases e; exact hb hz
  case evClear => exact key _ _ _ (by split <;> rfl) (by simp [*])
  all_goals first
    | exact hi
    | exact key _ _ _ rfl (by simp [*])

/-- A client that waits for a write back that the disk has done still waits, whatever happens. -/
theorem writer_waits_for_ever {s s' : State Data} {ls : List (Label Data)} (h : (asWritten Data).Reachable s)
    (hr : (asWritten Data).Run s ls s') {i : Client} {d : Page} {c : Slot} (hi : s.pc i = .await d c)
    (hf : s.flight c = .done) : s'.pc i = .await d c ∧ s'.flight c = .done := by
  induction hr with
  | nil => exact ⟨hi, hf⟩
  | @cons s l s1 ls s2 hs _ ih =>
    have hb := bit_of_done (asWritten_reachable h) hf
    have h1 : (asWritten Data).Reachable s1 := by
      obtain ⟨tr, s0, h0, hr⟩ := h
      exact ⟨_, s0, h0, hr.snoc hs⟩
    exact ih h1 (await_step hs.1 hi hb) (hs.2 c hf)

/-- A page that was written back is never seen to be clean, so `take_exc_if_eq_clean` never takes it to evict it. -/
theorem never_evictable {s s' : State Data} {ls : List (Label Data)} (h : (asWritten Data).Reachable s)
    (hr : (asWritten Data).Run s ls s') {c : Slot} (hf : s.flight c = .done) : s'.status c ≠ flagClean := by
  have hf' : s'.flight c = .done := by
    clear h
    induction hr with
    | nil => exact hf
    | cons hs _ ih => exact ih (hs.2 c hf)
  have hr' : (asWritten Data).Reachable s' := by
    obtain ⟨tr, s0, h0, hr0⟩ := h
    exact ⟨_, s0, h0, hr0.append hr⟩
  intro e
  have := bit_of_done (asWritten_reachable hr') hf'
  rw [e] at this
  exact this rfl

theorem go_flight (s : State Data) (i : Client) (p : Pc) : (s.go i p).flight = s.flight := rfl
theorem setStatus_flight (s : State Data) (c : Slot) (v : UInt8) : (s.setStatus c v).flight = s.flight := rfl
theorem setRc_flight (s : State Data) (t : Fin numThreads) (c : Slot) (v : UInt8) : (s.setRc t c v).flight = s.flight := rfl
theorem setLookup_flight (s : State Data) (p : Page) (v : Option Slot) : (s.setLookup p v).flight = s.flight := rfl
theorem setIdx_flight (s : State Data) (c : Slot) (p : Page) : (s.setIdx c p).flight = s.flight := rfl
theorem setData_flight (s : State Data) (c : Slot) (x : Data) : (s.setData c x).flight = s.flight := rfl

macro "same_flight" : tactic => `(tactic| simp only [go_flight, setStatus_flight, setRc_flight, setLookup_flight,
  setIdx_flight, setData_flight, apply_ite State.flight, ite_self])

theorem asWritten_step {s s' : State Data} {l : Label Data} (h : (asWritten Data).Reachable s) (hs : Step s l s')
    (hf : s'.flight = s.flight) : (asWritten Data).Reachable s' := by
  obtain ⟨ls, s0, h0, hr⟩ := h
  exact ⟨_, s0, h0, hr.snoc ⟨hs, fun c e => by rw [hf]; exact e⟩⟩

theorem asWritten_visits {s : State Data} (h : (asWritten Data).Reachable s) {i : Client} {d : Page} {c : Slot}
    (n : Nat) (hn : n ≤ numThreads) (hr : ∀ t : Fin numThreads, s.rc t c = if i.1.val = t.val then 1 else 0)
    (hp : s.pc i = .visitExc d c 0) : (asWritten Data).Reachable (s.go i (.visitExc d c n)) := by
  induction n with
  | zero => rw [← hp]; rw [go_self]; exact h
  | succ n ih =>
    have := asWritten_step (ih (by omega)) (Step.visitExc (s := s.go i (.visitExc d c n)) (i := i) (d := d) (c := c)
      (n := n) (by omega) (by simp [State.go]) (hr _)) (by same_flight)
    rw [go_go] at this; exact this

/-- This happens: `cb` asks to write page 7 while it is written back, and the disk has done its part. -/
theorem demo_for_ever : ∃ s, (asWritten Nat).Reachable s ∧ s.pc cb = .await 7 3 ∧ s.flight 3 = .done := by
  have h : (asWritten Nat).Reachable start := ⟨[], start, start_init, .nil _⟩
  replace h := asWritten_step h (Step.call (i := ca) 7 rfl) (by same_flight)
  replace h := asWritten_step h (Step.lookMiss (i := ca) (d := 7) rfl rfl) (by same_flight)
  replace h := asWritten_step h (Step.alloc (i := ca) (d := 7) 3 rfl rfl) (by same_flight)
  replace h := asWritten_step h (Step.map (i := ca) (d := 7) (c := 3) rfl rfl) (by same_flight)
  replace h := asWritten_step h (Step.incReading (i := ca) (d := 7) (c := 3) rfl) (by same_flight)
  replace h := asWritten_step h (Step.clearExc (i := ca) (d := 7) (c := 3) rfl) (by same_flight)
  replace h := asWritten_step h (Step.load (i := ca) (d := 7) (c := 3) rfl) (by same_flight)
  replace h := asWritten_step h (Step.setIdx (i := ca) (d := 7) (c := 3) rfl) (by same_flight)
  replace h := asWritten_step h (Step.fin (i := ca) (d := 7) (c := 3) rfl) (by same_flight)
  replace h := asWritten_step h (Step.upgrade (i := ca) (d := 7) (c := 3) rfl rfl) (by same_flight)
  replace h := asWritten_step h (Step.await (i := ca) (d := 7) (c := 3) rfl rfl) (by same_flight)
  replace h := asWritten_visits h (i := ca) (d := 7) (c := 3) numThreads (Nat.le_refl _) (by decide) rfl
  replace h := asWritten_step h (Step.visitedExc (i := ca) (d := 7) (c := 3) rfl) (by same_flight)
  replace h := asWritten_step h (Step.downgrade (i := ca) (d := 7) (c := 3) rfl) (by same_flight)
  replace h := asWritten_step h (Step.call (i := cb) 7 rfl) (by same_flight)
  replace h := asWritten_step h (Step.lookHit (i := cb) (d := 7) (c := 3) rfl rfl) (by same_flight)
  replace h := asWritten_step h (Step.quick (i := cb) (d := 7) (c := 3) rfl rfl) (by same_flight)
  replace h := asWritten_step h (Step.inc (i := cb) (d := 7) (c := 3) rfl) (by same_flight)
  replace h := asWritten_step h (Step.check (i := cb) (d := 7) (c := 3) rfl rfl) (by same_flight)
  replace h := asWritten_step h (Step.waited (i := cb) (d := 7) (c := 3) rfl rfl) (by same_flight)
  replace h := asWritten_step h (Step.verify (i := cb) (d := 7) (c := 3) rfl rfl) (by same_flight)
  replace h := asWritten_step h (Step.release (i := ca) (d := 7) (c := 3) rfl) (by same_flight)
  replace h := asWritten_step h (Step.decObtained (i := ca) (c := 3) rfl) (by same_flight)
  replace h := asWritten_step h (Step.call (i := ca) 8 rfl) (by same_flight)
  replace h := asWritten_step h (Step.lookMiss (i := ca) (d := 8) rfl rfl) (by same_flight)
  replace h := asWritten_step h (Step.evict (i := ca) (d := 8) 3 rfl) (by same_flight)
  replace h := asWritten_step h (Step.evClear (i := ca) (d := 8) (c := 3) (f := 4) rfl) (by same_flight)
  replace h := asWritten_step h (Step.writeback (i := ca) (d := 8) 3 rfl rfl) (by same_flight)
  obtain ⟨ls, s0, h0, hr⟩ := h
  have h1 := hr.snoc ⟨Step.issue (i := ca) (d := 8) (c := 3) rfl, fun c e => absurd (show Flight.none = Flight.done from e) (by decide)⟩
  replace h := (⟨_, s0, h0, h1⟩ : (asWritten Nat).Reachable _)
  replace h := asWritten_step h (Step.upgrade (i := cb) (d := 7) (c := 3) rfl rfl) (by same_flight)
  obtain ⟨ls, s0, h0, hr⟩ := h
  have h1 := hr.snoc ⟨Step.written (c := 3) (p := 7) rfl, fun c e => ?_⟩
  · exact ⟨_, ⟨_, s0, h0, h1⟩, rfl, rfl⟩
  · by_cases hc : c = 3
    · subst hc; rfl
    · simp_all [State.setFlight, State.setDisk]

end Verif.C76
