import Verif.Props.C32
import Verif.Props.C33
import Verif.Impl.Codec
/-
C41. The executable program satisfies the client contract end to end. Specification: `CTAM.machine`
(MapSpec_t.rs), and `ClientSpec.Good`, which is about event sequences only. Proved for the program with
the two unfinished handlers finished; refuted for the code as written.
-/
namespace Verif.C41
open Verif Impl

variable {c : Codec} {ic : ICodec c} {w : Variant} {g : Geometry}

/-- Event for event, the program with its disk and clients is an execution of the map specification.
Missing for the full claim: `hw` (recovery adopts the journal it read), which the code as written does
not satisfy (`unrestored_not_good`, `as_written_forgets`). -/
theorem refines_partial (hw : ∀ own read, w.restore own read = read) {tr s}
    (h : (machine c ic w g).Exec tr s) : ∃ t, CTAM.machine.Exec (tr.map Sys.toSpec) t := by
  obtain ⟨t, ht, _⟩ := Machine.refine (M := machine c ic w g) (N := Sys.strictMachine c g) id (Rel c)
    (fun _ => rel_init) (fun s l s' t hr hs => rel_step hw hr hs) h
  rw [List.map_id] at ht
  exact C32.refines_partial ht

/-- Queries see the last put, crashes drop only a suffix of the puts, acknowledged syncs make puts
permanent, replies answer requests. -/
theorem good_partial (hw : ∀ own read, w.restore own read = read) {tr s}
    (h : (machine c ic w g).Exec tr s) : ClientSpec.Good (tr.map Sys.toSpec) := by
  obtain ⟨t, ht⟩ := refines_partial hw h
  exact ClientSpec.ctam_good ht

/-- Durability as the client sees it (see `C32.client_sync_durable_partial`). -/
theorem client_sync_durable_partial (hw : ∀ own read, w.restore own read = read) {tr s}
    (h : (machine c ic w g).Exec tr s) :
    ∃ H, ClientSpec.Explains (tr.map Sys.toSpec) H ∧
      ∀ (i j : Nat) (id : SyncReqId), tr[i]? = some (.acceptSync id) → tr[j]? = some (.deliverSync id) →
        i < j ∧ ∀ n, j ≤ n → n ≤ tr.length → H i <+: H n := by
  obtain ⟨t, ht, _⟩ := Machine.refine (M := machine c ic w g) (N := Sys.strictMachine c g) id (Rel c)
    (fun _ => rel_init) (fun s l s' t hr hs => rel_step hw hr hs) h
  rw [List.map_id] at ht
  exact C32.client_sync_durable_partial ht

/-! ### Requests can always be executed -/

theorem mapAfter_define (l : List KeyedMessage) (k : Key) : ∃ v, (mapAfter l).value k = .define v := by
  have aux : ∀ (l : List KeyedMessage) (m : StampedMap), (∀ k, (m.value k).IsDefine) →
      ∀ k, ((l.foldl StampedMap.applyMsg m).value k).IsDefine := by
    intro l
    induction l with
    | nil => intro m h; exact h
    | cons km l ih =>
      intro m h
      refine ih _ ?_
      intro k
      simp only [StampedMap.applyMsg, TotalKMMap.insert]
      split
      · exact Message.isDefine_merge _ (h _)
      · exact h k
  exact aux l StampedMap.empty (fun k => ⟨0, rfl⟩) k

/-- The program gets back to its main loop without a crash, without touching the queue of requests. -/
theorem settle (hg : sbAddr.wf g) {s : State} (h : (machine c ic w g).Reachable s) :
    ∃ u s', (machine c ic w g).Run s u s' ∧ .crash ∉ u ∧ s'.recovery = .complete ∧ s'.pc = .idle ∧
      s'.requests = s.requests := by
  have ext : ∀ {s u s'}, (machine c ic w g).Reachable s → (machine c ic w g).Run s u s' →
      (machine c ic w g).Reachable s' := by
    rintro s u s' ⟨tr, h⟩ hr; exact ⟨_, h.append hr⟩
  -- after recovery, about to launch
  have launch : ∀ {s : State}, (machine c ic w g).Reachable s → s.recovery = .complete → s.pc = .launch →
      ∃ u s', (machine c ic w g).Run s u s' ∧ .crash ∉ u ∧ s'.recovery = .complete ∧ s'.pc = .idle ∧
        s'.requests = s.requests := by
    intro s h hr hpc
    by_cases h1 : s.deferred = []
    · exact ⟨[.noop], _, .single (.launchSkip hr hpc (.inl h1)), by simp, hr, rfl, rfl⟩
    by_cases h2 : s.satisfied = []
    · have hph := (inv_reachable h).phase
      cases hph with
      | begin hp => rw [hr] at hp; cases hp
      | reading hp => rw [hr] at hp; cases hp
      | read hp => rw [hr] at hp; cases hp
      | idle _ h' hq hrs =>
        have hd := AsyncDisk.Next.ops (g := g) (s := s.disk)
          (rq := one 0 (.write sbAddr (c.marshall s.journal.superblock))) (rs := PMap.empty)
          (by rw [hq]; simp [PMap.Has]) (by rw [hrs]; simp [PMap.Has]) (by simp)
        exact ⟨_, _, .single (.launchWrite hr hpc h1 h2 hd), by simp, hr, rfl, rfl⟩
      | writing _ h' => exact absurd h2 h'
      | written _ h' => exact absurd h2 h'
    · exact ⟨[.noop], _, .single (.launchSkip hr hpc (.inr h2)), by simp, hr, rfl, rfl⟩
  -- delivering
  have deliver : ∀ (n : Nat) (l : List SyncReqId) {s : State}, l.length = n →
      (machine c ic w g).Reachable s → s.recovery = .complete → s.pc = .delivering l →
      ∃ u s', (machine c ic w g).Run s u s' ∧ .crash ∉ u ∧ s'.recovery = .complete ∧ s'.pc = .idle ∧
        s'.requests = s.requests := by
    intro n
    induction n with
    | zero =>
      intro l s hl h hr hpc
      have : l = [] := List.length_eq_zero_iff.mp hl
      subst this
      have hst : (machine c ic w g).Run s [.noop] _ := .single (.repliesDone hr hpc)
      obtain ⟨u, s', h1, h2, h3⟩ := launch (ext h hst) hr rfl
      exact ⟨_, s', hst.append h1, by simp [h2], h3⟩
    | succ n ih =>
      intro l s hl h hr hpc
      rcases List.eq_nil_or_concat l with rfl | ⟨l', id, rfl⟩
      · simp at hl
      · rw [List.concat_eq_append] at *
        have hst : (machine c ic w g).Run s [.programDeliverSync id] _ := .single (.reply hr hpc)
        obtain ⟨u, s', h1, h2, h3⟩ := ih l' (by simpa using hl) (ext h hst) hr rfl
        exact ⟨_, s', hst.append h1, by simp [h2], h3⟩
  have running : ∀ {s : State}, (machine c ic w g).Reachable s → s.recovery = .complete →
      ∃ u s', (machine c ic w g).Run s u s' ∧ .crash ∉ u ∧ s'.recovery = .complete ∧ s'.pc = .idle ∧
        s'.requests = s.requests := by
    intro s h hr
    cases hpc : s.pc with
    | idle => exact ⟨[], s, .nil s, by simp, hr, hpc, rfl⟩
    | launch => exact launch h hr hpc
    | delivering l => exact deliver _ l rfl h hr hpc
  -- recovery
  have got : ∀ {s : State} {id d}, (machine c ic w g).Reachable s → s.recovery = .awaitingSuperblock →
      s.disk.requests = PMap.empty → s.disk.responses = one id (.read d) →
      ∃ u s', (machine c ic w g).Run s u s' ∧ .crash ∉ u ∧ s'.recovery = .complete ∧ s'.pc = .idle ∧
        s'.requests = s.requests := by
    intro s id d h hr hq hrs
    have hd := AsyncDisk.Next.ops (g := g) (s := s.disk) (rq := PMap.empty) (rs := one id (.read d))
      (by simp [PMap.Has]) (by simp [PMap.Has]) (by rw [hrs]; exact fun _ _ h => h)
    have hst : (machine c ic w g).Run s [_] _ := .single (.recoverEnd hr hd)
    obtain ⟨u, s', h1, h2, h3⟩ := running (ext h hst) rfl
    exact ⟨_, s', hst.append h1, by simp [h2], h3⟩
  have asked : ∀ {s : State} {id}, (machine c ic w g).Reachable s → s.recovery = .awaitingSuperblock →
      s.disk.requests = one id (.read sbAddr) → s.disk.responses = PMap.empty →
      ∃ u s', (machine c ic w g).Run s u s' ∧ .crash ∉ u ∧ s'.recovery = .complete ∧ s'.pc = .idle ∧
        s'.requests = s.requests := by
    intro s id h hr hq hrs
    have hex : ∃ d, ∀ x, s.disk.content sbAddr = some x → d = x := by
      cases hc : s.disk.content sbAddr with
      | none => exact ⟨c.marshall ⟨TotalKMMap.empty, 0⟩, by simp⟩
      | some x => exact ⟨x, by simp⟩
    obtain ⟨d, hdd⟩ := hex
    have hd := AsyncDisk.Next.read (g := g) (s := s.disk) (id := id) (a := sbAddr) (d := d)
      (by rw [hq]; simp) hg hdd
    have hst : (machine c ic w g).Run s [_] _ := .single (.diskRead hd)
    obtain ⟨u, s', h1, h2, h3⟩ := got (id := id) (d := d) (ext h hst) hr
      (by simp only [hq, Sys.remove_one]) (by simp only [hrs]; rfl)
    exact ⟨_, s', hst.append h1, by simp [h2], h3⟩
  have hph := (inv_reachable h).phase
  cases hph with
  | begin hp hq hrs =>
    have hd := AsyncDisk.Next.ops (g := g) (s := s.disk)
      (rq := one 0 (.read sbAddr)) (rs := PMap.empty)
      (by rw [hq]; simp [PMap.Has]) (by rw [hrs]; simp [PMap.Has]) (by simp)
    have hst : (machine c ic w g).Run s [_] _ := .single (.recoverBegin hp hd)
    obtain ⟨u, s', h1, h2, h3⟩ := asked (id := 0) (ext h hst) rfl
      (by simp only [hq, Sys.union_one]) (by simp only [hrs, Sys.take_empty])
    exact ⟨_, s', hst.append h1, by simp [h2], h3⟩
  | reading hp hq hrs => exact asked h hp hq hrs
  | read hp hq hrs => exact got h hp hq hrs
  | idle hp => exact running h hp
  | writing hp => exact running h hp
  | written hp => exact running h hp

/-- A request a client has submitted can be executed from every reachable state, without a crash.
For queries this needs the handler finished (`as_written_never_answers_query`). -/
theorem can_always_execute (hg : sbAddr.wf g) {s : State} (h : (machine c ic w g).Reachable s)
    {req : Request} (hreq : s.requests.Has req)
    (hq : ∀ k, req.input = .query k → w.answersQueries = true) :
    ∃ u s' reply, (machine c ic w g).Run s (u ++ [.execute req reply]) s' ∧ .crash ∉ u := by
  obtain ⟨u, s1, h1, h2, h3, h4, h5⟩ := settle hg h
  have hreq' : s1.requests.Has req := by rw [h5]; exact hreq
  obtain ⟨inp, id⟩ := req
  cases inp with
  | noop => exact ⟨u, _, _, h1.append (.single (.noop h3 h4 hreq')), h2⟩
  | put k v => exact ⟨u, _, _, h1.append (.single (.put h3 h4 hreq')), h2⟩
  | query k =>
    have hv : ∃ v, s1.journal.toStampedMap.value k = .define v := by
      rw [C33.toStampedMap_any]; exact mapAfter_define _ k
    obtain ⟨v, hv⟩ := hv
    exact ⟨u, _, _, h1.append (.single (.query (hq k rfl) h3 h4 hreq' hv)), h2⟩

/-! ### A concrete execution of the finished program -/

/-- Two puts, two overlapping syncs, a crash, recovery, a query answered 7. -/
example (c : Codec) (ic : ICodec c) (g : Geometry) (hg : sbAddr.wf g) :
    ClientSpec.Good ((demoQueryTrace c 7).map Sys.toSpec) := by
  obtain ⟨s, h⟩ := demo_query_finished c ic g hg
  exact good_partial (fun _ _ => rfl) h

/-- A codec pair as required exists. -/
example : ∃ c : Codec, Nonempty (ICodec c) := by
  obtain ⟨c, _⟩ := Codec.exists_codec
  exact ⟨c, exists_icodec c⟩

/-- A request in the queue while recovery has not begun. -/
example (c : Codec) (ic : ICodec c) (g : Geometry) (hg : sbAddr.wf g) :
    ∃ s, (machine c ic finished g).Reachable s ∧ s.recovery = .begin ∧ s.requests.Has ⟨.query 1, 5⟩ ∧
    ∃ u s' reply, (machine c ic finished g).Run s (u ++ [.execute ⟨.query 1, 5⟩ reply]) s' ∧ .crash ∉ u := by
  have h1 : (machine c ic finished g).Run (fresh c) [_] _ :=
    .single (.acceptRequest (req := ⟨.query 1, 5⟩) (by simp [fresh]))
  have hr : (machine c ic finished g).Reachable _ := ⟨_, fresh c, fresh_init c, h1⟩
  exact ⟨_, hr, rfl, MSet.has_insert.mpr (.inl rfl),
    can_always_execute hg hr (MSet.has_insert.mpr (.inl rfl)) (fun _ _ => rfl)⟩

/-! ### The code as written -/

/-- With queries answered but, as in the code, nothing restored by recovery, the contract fails: two
puts, both covered by acknowledged syncs, are gone after a crash. -/
theorem unrestored_not_good (c : Codec) (ic : ICodec c) (g : Geometry) (hg : sbAddr.wf g) :
    ∃ tr s, (machine c ic ⟨asWritten.restore, true⟩ g).Exec tr s ∧ ¬ ClientSpec.Good (tr.map Sys.toSpec) := by
  obtain ⟨s, h⟩ := demo_query_unrestored c ic g hg
  refine ⟨_, s, h, ?_⟩
  rintro ⟨⟨H, hE⟩, _⟩
  have len : (demoQueryTrace c 0).length = 32 := by simp [demoQueryTrace, demoTrace, Sys.recoverTrace]
  have at_ : ∀ (i : Nat) (l : Sys.Label), (demoQueryTrace c 0)[i]? = some l →
      ((demoQueryTrace c 0).map Sys.toSpec)[i]? = some (Sys.toSpec l) := by
    intro i l hl; rw [List.getElem?_map, hl]; rfl
  have nc : ∀ (m : Nat) (l : Sys.Label), (demoQueryTrace c 0)[m]? = some l → m ≠ 25 → l ≠ .crash := by
    intro m l hm hne he
    subst he
    by_cases h : m < 25
    · have : (demoTrace c)[m]? = some .crash := by
        rw [← hm]; unfold demoQueryTrace
        rw [List.getElem?_append_left, List.getElem?_append_left, List.getElem?_append_left]
        all_goals simp [demoTrace, Sys.recoverTrace] <;> omega
      have := List.mem_of_getElem? this
      simp [demoTrace, Sys.recoverTrace] at this
    · have hlt := (List.getElem?_eq_some_iff.mp hm).1
      rw [len] at hlt
      have : m = 26 ∨ m = 27 ∨ m = 28 ∨ m = 29 ∨ m = 30 ∨ m = 31 := by omega
      rcases this with rfl | rfl | rfl | rfl | rfl | rfl <;>
        simp [demoQueryTrace, demoTrace, Sys.recoverTrace] at hm
  have range : ∀ n a, a + n ≤ 32 → (a + n ≤ 25 ∨ 26 ≤ a) →
      H (a + n) = H a ++ (((demoQueryTrace c 0).drop a).take n).flatMap (fun l => ClientSpec.putsOf (Sys.toSpec l)) := by
    intro n a
    induction n with
    | zero => simp
    | succ n ih =>
      intro h1 h2
      have hlt : a + n < (demoQueryTrace c 0).length := by rw [len]; omega
      have hl := List.getElem?_eq_getElem hlt
      have hs := hE.step (a + n) _ (at_ _ _ hl) (by
        have := nc _ _ hl (by omega)
        intro hc
        cases hx : (demoQueryTrace c 0)[a + n] with
        | crash => exact this hx
        | _ => rw [hx] at hc; cases hc)
      rw [← Nat.add_assoc, hs, ih (by omega) (by omega), List.append_assoc]
      congr 1
      have hd : ((demoQueryTrace c 0).drop a)[n]? = some (demoQueryTrace c 0)[a + n] := by
        rw [List.getElem?_drop]; exact hl
      have hlt' : n < ((demoQueryTrace c 0).drop a).length := (List.getElem?_eq_some_iff.mp hd).1
      rw [List.take_succ_eq_append_getElem hlt', List.flatMap_append]
      have := (List.getElem?_eq_some_iff.mp hd).2
      rw [this]; simp
  have e13 : H 13 = [(1, 7), (2, 8)] := by
    have := range 13 0 (by omega) (by omega)
    rw [hE.start] at this
    simpa [demoQueryTrace, demoTrace, Sys.recoverTrace, Sys.toSpec, ClientSpec.putsOf] using this
  have e25 : H 25 = [(1, 7), (2, 8)] := by
    have := range 25 0 (by omega) (by omega)
    rw [hE.start] at this
    simpa [demoQueryTrace, demoTrace, Sys.recoverTrace, Sys.toSpec, ClientSpec.putsOf] using this
  have e30 : H 30 = H 26 := by
    have := range 4 26 (by omega) (by omega)
    simpa [demoQueryTrace, demoTrace, Sys.recoverTrace, Sys.toSpec, ClientSpec.putsOf] using this
  have b26 := hE.crash 25 (at_ 25 .crash (by simp [demoQueryTrace, demoTrace, Sys.recoverTrace]))
  have hd : H 13 <+: H 30 := by
    refine hE.durable 13 22 13 (by omega) (at_ 13 (.programAcceptSync 13) (by simp [demoQueryTrace, demoTrace, Sys.recoverTrace]))
      (at_ 22 (.programDeliverSync 13) (by simp [demoQueryTrace, demoTrace, Sys.recoverTrace])) ?_ 30 (by omega) (by rw [List.length_map, len]; omega)
    intro m h1 h2 hm
    rw [List.getElem?_map] at hm
    cases hx : (demoQueryTrace c 0)[m]? with
    | none => rw [hx] at hm; cases hm
    | some l =>
      have := nc m l hx (by omega)
      rw [hx] at hm
      cases l with
      | crash => exact this rfl
      | _ => cases hm
  have e : H 30 = [(1, 7), (2, 8)] := by
    rw [e13] at hd; rw [e25] at b26; rw [e30] at hd ⊢
    exact b26.eq_of_length (Nat.le_antisymm b26.length_le hd.length_le)
  have hq := hE.query 30 ⟨.query 1, 20⟩ ⟨.query 0, 20⟩ 1
    (at_ 30 (.execute ⟨.query 1, 20⟩ ⟨.query 0, 20⟩) (by simp [demoQueryTrace, demoTrace, Sys.recoverTrace])) rfl
  rw [e] at hq
  revert hq
  decide

/-- The code as written, exactly: after a put of (1, 7) acknowledged to the client and covered by an acknowledged
sync, a crash, a recovery and one more sync, the only copy on the disk says that key 1 was never put. -/
theorem as_written_forgets (c : Codec) (ic : ICodec c) (g : Geometry) (hg : sbAddr.wf g) :
    ∃ tr s page, (machine c ic asWritten g).Exec tr s ∧
      tr[5]? = some (.deliverReply ⟨.put, 10⟩) ∧ tr[4]? = some (.execute ⟨.put 1 7, 10⟩ ⟨.put, 10⟩) ∧
      tr[7]? = some (.programAcceptSync 11) ∧ tr[17]? = some (.programDeliverSync 11) ∧
      (∀ m, 7 ≤ m → m ≤ 17 → tr[m]? ≠ some .crash) ∧
      s.recovery = .complete ∧ s.disk.requests = PMap.empty ∧
      s.disk.content sbAddr = some page ∧ (c.unmarshall page).store 1 = .define 0 := by
  obtain ⟨s, h, hr, hq, hp⟩ := demo_overwrite c ic g hg
  refine ⟨_, s, _, h, by simp [demoTrace, Sys.recoverTrace], by simp [demoTrace, Sys.recoverTrace],
    by simp [demoTrace, Sys.recoverTrace], by simp [demoTrace, Sys.recoverTrace], ?_, hr, hq, hp, ?_⟩
  · intro m h1 h2 hm
    have : m = 7 ∨ m = 8 ∨ m = 9 ∨ m = 10 ∨ m = 11 ∨ m = 12 ∨ m = 13 ∨ m = 14 ∨ m = 15 ∨ m = 16 ∨ m = 17 := by omega
    rcases this with rfl | rfl | rfl | rfl | rfl | rfl | rfl | rfl | rfl | rfl | rfl <;>
      simp [demoTrace, Sys.recoverTrace] at hm
  · rw [c.roundTrip]; rfl

/-- The code as written never executes a query. -/
theorem as_written_never_answers_query {tr s} (h : (machine c ic asWritten g).Exec tr s) (k : Key)
    (id : ReqId) (reply : Reply) : Sys.Label.execute ⟨.query k, id⟩ reply ∉ tr := by
  intro hm
  obtain ⟨j, hj⟩ := List.getElem?_of_mem hm
  obtain ⟨s1, s2, _, hs⟩ := h.at_index hj
  cases hs with
  | query hw => cases hw

/-- Implementation_v.rs 204: the conjunct `self.i().history == self.view_as_floating_versions()` of the
program's stated invariant. It fails once a superblock write for a non-empty journal has completed, in a state
where the program is back in its main loop: the recorded history starts at the persistent version, the
computed one at 0. -/
theorem source_inv_broken (c : Codec) (ic : ICodec c) (g : Geometry) (hg : sbAddr.wf g) :
    ∃ tr s t, (machine c ic finished g).Exec tr s ∧ (Sys.strictMachine c g).Exec tr t ∧ Rel c s t ∧
      s.recovery = .complete ∧ s.pc = .idle ∧ t.program.history ≠ s.journal.floatingVersions := by
  have h := demo_exec c ic finished g hg rfl
  obtain ⟨t, ht, hr⟩ := Machine.refine (M := machine c ic finished g) (N := Sys.strictMachine c g) id (Rel c)
    (fun _ => rel_init) (fun s l s' t hr hs => rel_step (fun _ _ => rfl) hr hs) h
  rw [List.map_id] at ht
  refine ⟨_, _, t, h, ht, hr, rfl, rfl, ?_⟩
  intro he
  have hst : t.program.history.start = 0 := by rw [he]; rfl
  obtain ⟨v, hv⟩ := hr.drel
  have hrec := hr.recovery
  cases hv with
  | begin hp => rw [hp] at hrec; cases hrec
  | reading hp => rw [hp] at hrec; cases hrec
  | read hp => rw [hp] at hrec; cases hrec
  | idle hp hper hf hc hv hm =>
    rw [hr.disk] at hc
    have : (demoEnd c).disk.content sbAddr = some (c.marshall demoJ2.superblock) := by simp [demoEnd]
    rw [this] at hc; injection hc with hc
    rw [← hc, c.roundTrip, hst, superblock_eq rfl] at hv
    cases hv
  | @writing page i m hp hper hf hi hc hv hm hq =>
    rw [hr.disk] at hq
    have := congrFun hq i.reqId
    simp [demoEnd] at this
  | @written i m hp hper hf hi hc hq hrs =>
    rw [hr.disk] at hrs
    have := congrFun hrs i.reqId
    simp [demoEnd] at this

end Verif.C41
