import Verif.Token.Concrete
import Verif.Impl.SystemDemo
/-
Concrete runs of the program model of /repo between client and disk: witnesses for C51 and C52. No code
is modelled here.
-/
namespace Verif.Tok
open AsyncDisk (Req Resp)

/-- the tokens of a program that holds none but the model, and requests and replies -/
def idle (m : AtomicState) (rq : MSet TRequest) (rp : MSet TReply) : Tokens AtomicState :=
  ⟨m, rq, rp, MSet.empty, MSet.empty⟩

/-- the disk between operations -/
def quiet (ct : PMap Address RawPage) : AsyncDisk.State := ⟨PMap.empty, PMap.empty, ct⟩

def recoverTrace (n : Nat) (page : RawPage) : List Event :=
  [.prog (.disk (MSet.single (n, .read sbAddr)) MSet.empty), .sendDisk n (.read sbAddr),
   .didRead n sbAddr page, .receiveDisk n (.read page),
   .prog (.disk MSet.empty (MSet.single (n, .read page)))]

def commitTrace (n : Nat) (page : RawPage) : List Event :=
  [.prog (.disk (MSet.single (n, .write sbAddr page)) MSet.empty), .sendDisk n (.write sbAddr page),
   .didWrite n sbAddr page, .receiveDisk n .write,
   .prog (.disk MSet.empty (MSet.single (n, .write)))]

theorem unique_single {K V : Type} [DecidableEq (K × V)] (k : K) (v : V) :
    (MSet.single (k, v)).UniqueKeys :=
  MSet.uniqueKeys_empty.insert fun _ h => absurd h (MSet.not_has_empty _)

theorem add_remove {α : Type} [DecidableEq α] (x : α) :
    ((MSet.empty : MSet α).add (MSet.single x)).remove x = MSet.empty := by
  funext y; simp only [MSet.add, MSet.single, MSet.insert, MSet.remove, MSet.empty]; split <;> simp_all

theorem insert_sub {α : Type} [DecidableEq α] (x : α) :
    ((MSet.empty : MSet α).insert x).sub (MSet.single x) = MSet.empty := by
  funext y; simp [MSet.sub, MSet.single, MSet.empty]

theorem add_empty {α : Type} (m : MSet α) : m.add MSet.empty = m := by
  funext y; simp [MSet.add, MSet.empty]

theorem sub_empty {α : Type} (m : MSet α) : m.sub MSet.empty = m := by
  funext y; simp [MSet.sub, MSet.empty]

theorem empty_add {α : Type} (m : MSet α) : MSet.empty.add m = m := by
  funext y; simp [MSet.add, MSet.empty]

theorem single_remove_self {α : Type} [DecidableEq α] (x : α) :
    (MSet.single x).remove x = MSet.empty := by
  funext y; simp only [MSet.single, MSet.insert, MSet.remove, MSet.empty]; split <;> simp_all

theorem toMap_single_one {V : Type} [DecidableEq (Nat × V)] (k : Nat) (v : V) :
    (MSet.single (k, v)).toMap = one k v := MSet.toMap_single k v

section
variable {c : Codec} {g : Geometry} {restart : Nat → Nat}

/-- one request and its response -/
theorem run_disk {m m1 m2 : AtomicState} {rq rp} {ct ct' : PMap Address RawPage} {n : Nat} {r : Req} {a : Resp}
    {e : Event}
    (h1 : AtomicState.DiskTransition c m (one n r) PMap.empty m1)
    (h2 : AtomicState.DiskTransition c m1 PMap.empty (one n a) m2)
    (he : ∀ (t : Tokens AtomicState) (k : Nat), (askedMachine c g restart).Step
      ⟨t, ⟨one n r, PMap.empty, ct⟩, k⟩ e ⟨t, ⟨PMap.empty, one n a, ct'⟩, k⟩) :
    (askedMachine c g restart).Run ⟨idle m rq rp, quiet ct, n⟩
      [.prog (.disk (MSet.single (n, r)) MSet.empty), .sendDisk n r, e, .receiveDisk n a,
       .prog (.disk MSet.empty (MSet.single (n, a)))]
      ⟨idle m2 rq rp, quiet ct', n + 1⟩ := by
  have s1 : (askedMachine c g restart).Step ⟨idle m rq rp, quiet ct, n⟩
      (.prog (.disk (MSet.single (n, r)) MSet.empty))
      ⟨⟨m1, rq, rp, MSet.single (n, r), MSet.empty⟩, quiet ct, n⟩ := by
    have := Step.prog (prog := concrete c) (g := g) (restart := restart)
      (w := ⟨idle m rq rp, quiet ct, n⟩) (l := .disk (MSet.single (n, r)) MSet.empty)
      (t' := ⟨m1, rq, rp, MSet.single (n, r), MSet.empty⟩) ?_ ?_
    · exact ⟨this, trivial⟩
    · refine ⟨?_, ?_⟩
      · intro x hx
        rcases MSet.has_insert.mp hx with rfl | hx
        · exact Nat.le_refl _
        · exact absurd hx (MSet.not_has_empty _)
      · simp only [idle, empty_add]; exact unique_single n r
    · have := TokNext.disk (prog := concrete c) (t := idle m rq rp) (rq := MSet.single (n, r))
        (rs := MSet.empty) (p' := m1) (fun _ => Nat.zero_le _) ?_
      · simpa only [idle, empty_add, sub_empty] using this
      · refine ⟨unique_single n r, MSet.uniqueKeys_empty, ?_⟩
        rw [toMap_single_one, MSet.toMap_empty]; exact h1
  have s2 : (askedMachine c g restart).Step ⟨⟨m1, rq, rp, MSet.single (n, r), MSet.empty⟩, quiet ct, n⟩
      (.sendDisk n r) ⟨idle m1 rq rp, ⟨one n r, PMap.empty, ct⟩, n + 1⟩ := by
    have hd : AsyncDisk.Next g (quiet ct) (.ops (one n r) PMap.empty) ⟨one n r, PMap.empty, ct⟩ := by
      have := AsyncDisk.Next.ops (g := g) (s := quiet ct) (rq := one n r) (rs := PMap.empty)
        (by simp [PMap.Has, quiet]) (by simp [PMap.Has, quiet]) (by simp)
      simpa only [quiet, Sys.union_one, Sys.take_empty] using this
    have := Step.sendDisk (prog := concrete c) (g := g) (restart := restart)
      (w := ⟨⟨m1, rq, rp, MSet.single (n, r), MSet.empty⟩, quiet ct, n⟩) (r := r)
      (MSet.has_insert.mpr (.inl rfl)) hd
    refine ⟨?_, trivial⟩
    simp only [single_remove_self] at this; exact this
  have s3 := he (idle m1 rq rp) (n + 1)
  have s4 : (askedMachine c g restart).Step ⟨idle m1 rq rp, ⟨PMap.empty, one n a, ct'⟩, n + 1⟩
      (.receiveDisk n a) ⟨⟨m1, rq, rp, MSet.empty, MSet.single (n, a)⟩, quiet ct', n + 1⟩ := by
    have hd : AsyncDisk.Next g ⟨PMap.empty, one n a, ct'⟩ (.ops PMap.empty (one n a)) (quiet ct') := by
      have := AsyncDisk.Next.ops (g := g) (s := ⟨PMap.empty, one n a, ct'⟩) (rq := PMap.empty) (rs := one n a)
        (by simp [PMap.Has]) (by simp [PMap.Has]) (fun _ _ h => h)
      simpa only [quiet, Sys.union_empty, Sys.take_one] using this
    exact ⟨Step.receiveDisk (prog := concrete c) (restart := restart)
      (w := ⟨idle m1 rq rp, ⟨PMap.empty, one n a, ct'⟩, n + 1⟩) hd, trivial⟩
  have s5 : (askedMachine c g restart).Step ⟨⟨m1, rq, rp, MSet.empty, MSet.single (n, a)⟩, quiet ct', n + 1⟩
      (.prog (.disk MSet.empty (MSet.single (n, a)))) ⟨idle m2 rq rp, quiet ct', n + 1⟩ := by
    have := Step.prog (prog := concrete c) (g := g) (restart := restart)
      (w := ⟨⟨m1, rq, rp, MSet.empty, MSet.single (n, a)⟩, quiet ct', n + 1⟩)
      (l := .disk MSet.empty (MSet.single (n, a))) (t' := idle m2 rq rp) ?_ ?_
    · exact ⟨this, trivial⟩
    · refine ⟨fun x hx => absurd hx (MSet.not_has_empty _), ?_⟩
      simp only [add_empty]; exact MSet.uniqueKeys_empty
    · have := TokNext.disk (prog := concrete c) (t := ⟨m1, rq, rp, MSet.empty, MSet.single (n, a)⟩)
        (rq := MSet.empty) (rs := MSet.single (n, a)) (p' := m2) (fun _ => Nat.le_refl _) ?_
      · simp only [add_empty] at this
        have he : (MSet.single (n, a)).sub (MSet.single (n, a)) = MSet.empty := insert_sub _
        rw [he] at this; exact this
      · refine ⟨MSet.uniqueKeys_empty, unique_single n a, ?_⟩
        rw [toMap_single_one, MSet.toMap_empty]; exact h2
  exact .cons s1 (.cons s2 (.cons s3 (.cons s4 (.cons s5 (.nil _)))))

theorem run_recover (hg : sbAddr.wf g) {m : AtomicState} {rq rp} {ct : PMap Address RawPage} {n : Nat} {page}
    (hp : m.recovery = .begin) (hc : ct sbAddr = some page) :
    (askedMachine c g restart).Run ⟨idle m rq rp, quiet ct, n⟩ (recoverTrace n page)
      ⟨idle { recovery := .complete
              history := singletonSeq (c.unmarshall page).version (c.unmarshall page).store
              persistent := (c.unmarshall page).version
              inFlight := none
              syncReqs := PMap.empty } rq rp, quiet ct, n + 1⟩ := by
  refine run_disk (.initiateRecovery hp) (.completeRecovery rfl) ?_
  intro t k
  refine ⟨.didRead ?_, trivial⟩
  have := AsyncDisk.Next.read (g := g) (s := ⟨one n (.read sbAddr), PMap.empty, ct⟩)
    (id := n) (a := sbAddr) (d := page) (by simp) hg
    (by simp only; intro x hx; rw [hc] at hx; cases hx; rfl)
  simp only [Sys.remove_one] at this; exact this

theorem run_commit (hg : sbAddr.wf g) {p : AtomicState} {rq rp} {ct : PMap Address RawPage} {n : Nat} {m}
    (hp : p.recovery = .complete) (hf : p.inFlight = none) (hm : p.history.last? = some m) :
    (askedMachine c g restart).Run ⟨idle p rq rp, quiet ct, n⟩
      (commitTrace n (c.marshall ⟨m, p.history.len - 1⟩))
      ⟨idle { p with
          recovery := .complete
          history := p.history.getSuffix (p.history.len - 1)
          inFlight := none
          persistent := p.history.len - 1 } rq rp,
        quiet (ct.insert sbAddr (c.marshall ⟨m, p.history.len - 1⟩)), n + 1⟩ := by
  refine run_disk (.syncBegin hp hf hm)
    (.syncEnd (s := { p with inFlight := some ⟨p.history.len - 1, n⟩ }) (i := ⟨p.history.len - 1, n⟩) hp rfl) ?_
  intro t k
  refine ⟨.didWrite ?_, trivial⟩
  have := AsyncDisk.Next.write (g := g)
    (s := ⟨one n (.write sbAddr (c.marshall ⟨m, p.history.len - 1⟩)), PMap.empty, ct⟩)
    (id := n) (a := sbAddr) (d := c.marshall ⟨m, p.history.len - 1⟩) (by simp) hg
  simp only [Sys.remove_one] at this; exact this

theorem run_receive {m : AtomicState} {rq rp d} {n : Nat} (req : TRequest) (h : req.id.toNat = n) :
    (askedMachine c g restart).Run ⟨idle m rq rp, d, n⟩ [.receive req]
      ⟨idle m (rq.insert req) rp, d, n + 1⟩ :=
  .single ⟨.receive (w := ⟨idle m rq rp, d, n⟩) h (fun _ hx => absurd hx (MSet.not_has_empty _)), trivial⟩

theorem run_send {m : AtomicState} {rq rp d} {n : Nat} (reply : TReply) :
    (askedMachine c g restart).Run ⟨idle m rq (rp.insert reply), d, n⟩ [.send reply] ⟨idle m rq rp, d, n⟩ := by
  have := Step.send (prog := concrete c) (g := g) (restart := restart)
    (w := ⟨idle m rq (rp.insert reply), d, n⟩) (reply := reply) (MSet.has_insert.mpr (.inl rfl))
  simp only [idle, Sys.insert_remove] at this
  exact .single ⟨this, trivial⟩

theorem run_execute {m m' : AtomicState} {rq rp d} {n : Nat} (req : TRequest) (reply : TReply)
    (hi : req.input ≠ .sync) (h : AtomicState.MapTransition m req.mapspec reply.mapspec m') :
    (askedMachine c g restart).Run ⟨idle m (rq.insert req) rp, d, n⟩ [.prog (.execute req reply)]
      ⟨idle m' rq (rp.insert reply), d, n⟩ := by
  have := Step.prog (prog := concrete c) (g := g) (restart := restart)
    (w := ⟨idle m (rq.insert req) rp, d, n⟩) (l := .execute req reply) trivial
    (.execute hi (MSet.has_insert.mpr (.inl rfl)) h)
  simp only [idle, Sys.insert_remove] at this
  exact .single ⟨this, trivial⟩

theorem run_requestSync {m m' : AtomicState} {rq rp d} {n : Nat} (id : SyncReqId)
    (h : AtomicState.AcceptSync m id m') :
    (askedMachine c g restart).Run ⟨idle m (rq.insert ⟨.sync, id⟩) rp, d, n⟩ [.prog (.requestSync id)]
      ⟨idle m' rq rp, d, n⟩ := by
  have := Step.prog (prog := concrete c) (g := g) (restart := restart)
    (w := ⟨idle m (rq.insert ⟨.sync, id⟩) rp, d, n⟩) (l := .requestSync id) trivial
    (.requestSync (MSet.has_insert.mpr (.inl rfl)) h)
  simp only [idle, Sys.insert_remove] at this
  exact .single ⟨this, trivial⟩

/-- a freshly formatted disk -/
def disk0 (c : Codec) : PMap Address RawPage := PMap.empty.insert sbAddr (c.marshall ⟨TotalKMMap.empty, 0⟩)

/-- a program that has not started -/
def prog0 : AtomicState := ⟨.begin, ⟨0, []⟩, 0, none, PMap.empty⟩

def start (c : Codec) : World AtomicState := ⟨idle prog0 MSet.empty MSet.empty, quiet (disk0 c), 0⟩

theorem start_init (c : Codec) : WorldInit (concrete c) (start c) := by
  refine ⟨⟨?_, rfl, rfl⟩, ⟨rfl, rfl⟩, ⟨rfl, rfl, rfl, rfl, rfl⟩, rfl⟩
  simp [start, quiet, disk0]

/-- the program after recovering the empty map -/
def ready0 : AtomicState := ⟨.complete, ⟨0, [TotalKMMap.empty]⟩, 0, none, PMap.empty⟩

theorem recovered (c : Codec) (g : Geometry) (hg : sbAddr.wf g) (restart) (rq rp) :
    (askedMachine c g restart).Run ⟨idle prog0 rq rp, quiet (disk0 c), 0⟩
      (recoverTrace 0 (c.marshall ⟨TotalKMMap.empty, 0⟩)) ⟨idle ready0 rq rp, quiet (disk0 c), 1⟩ := by
  have := run_recover (c := c) (g := g) (restart := restart) hg (m := prog0) (rq := rq) (rp := rp)
    (ct := disk0 c) (n := 0) (page := c.marshall ⟨TotalKMMap.empty, 0⟩) rfl (by simp [disk0])
  rw [c.roundTrip, singletonSeq_eq] at this
  exact this

def putReq : TRequest := ⟨.put 1 7, 1⟩
def syncReq : TRequest := ⟨.sync, 2⟩
def queryReq : TRequest := ⟨.query 1, 5⟩
def map1 : Version := TotalKMMap.empty.insert 1 (.define 7)

def demoPage (c : Codec) : RawPage := c.marshall ⟨map1, 1⟩

/-- Recovery, a put, a sync that is answered, a crash, a second recovery, a query that sees the put. -/
def demoTrace (c : Codec) : List Event :=
  recoverTrace 0 (c.marshall ⟨TotalKMMap.empty, 0⟩) ++
  [.receive putReq] ++ [.receive syncReq] ++ [.prog (.execute putReq ⟨.put, 1⟩)] ++ [.send ⟨.put, 1⟩] ++
  [.prog (.requestSync 2)] ++ commitTrace 3 (demoPage c) ++ [.prog (.replySync 2)] ++ [.send ⟨.sync, 2⟩] ++
  [.crash] ++ recoverTrace 4 (demoPage c) ++
  [.receive queryReq] ++ [.prog (.execute queryReq ⟨.query 7, 5⟩)] ++ [.send ⟨.query 7, 5⟩]

def disk1 (c : Codec) : PMap Address RawPage := (disk0 c).insert sbAddr (demoPage c)
def ready1 : AtomicState := ⟨.complete, ⟨1, [map1]⟩, 1, none, PMap.empty⟩

theorem demo_exec (c : Codec) (g : Geometry) (hg : sbAddr.wf g) :
    (askedMachine c g keepOn).Exec (demoTrace c)
      ⟨idle ready1 MSet.empty MSet.empty, quiet (disk1 c), 6⟩ := by
  refine ⟨start c, start_init c, ?_⟩
  have swap : (MSet.empty.insert putReq).insert syncReq = ((MSet.empty.insert syncReq).insert putReq) := by
    funext x; simp only [MSet.insert, MSet.empty, putReq, syncReq]
    by_cases h1 : x = ⟨.put 1 7, 1⟩
    · subst h1; simp
    · by_cases h2 : x = ⟨.sync, 2⟩
      · subst h2; simp
      · simp [h1, h2]
  have r1 := recovered c g hg keepOn MSet.empty MSet.empty
  have r2 := r1.append (run_receive putReq (by simp [putReq]))
  have r3 := r2.append (run_receive syncReq (by simp [syncReq]))
  rw [swap] at r3
  have r4 := r3.append (run_execute (m' := ⟨.complete, ⟨0, [TotalKMMap.empty, map1]⟩, 0, none, PMap.empty⟩)
    putReq ⟨.put, 1⟩ (by simp [putReq]) ?_)
  · have r5 := r4.append (run_send _)
    have r6 := r5.append (run_requestSync (m' := ⟨.complete, ⟨0, [TotalKMMap.empty, map1]⟩, 0, none,
      PMap.empty.insert 2 1⟩) 2 (.mk rfl))
    have r7 := r6.append (run_commit hg (m := map1) rfl rfl rfl)
    have r7 : (askedMachine c g keepOn).Run (start c) _
      ⟨idle ⟨.complete, ⟨1, [map1]⟩, 1, none, PMap.empty.insert 2 1⟩ MSet.empty MSet.empty,
        quiet (disk1 c), 4⟩ := r7
    have s8 : (askedMachine c g keepOn).Step
      ⟨idle ⟨.complete, ⟨1, [map1]⟩, 1, none, PMap.empty.insert 2 1⟩ MSet.empty MSet.empty,
        quiet (disk1 c), 4⟩ (.prog (.replySync 2))
      ⟨idle ⟨.complete, ⟨1, [map1]⟩, 1, none, (PMap.empty.insert 2 1).remove 2⟩ MSet.empty
        (MSet.empty.insert ⟨.sync, 2⟩), quiet (disk1 c), 4⟩ := by
      refine ⟨.prog (t' := idle ⟨.complete, ⟨1, [map1]⟩, 1, none, (PMap.empty.insert 2 1).remove 2⟩ MSet.empty
        (MSet.empty.insert ⟨.sync, 2⟩)) trivial (.replySync (t := idle _ _ _) (.mk rfl ?_)), ?_⟩
      · intro v hv; simp [idle] at hv; subst hv; exact Nat.le_refl 1
      · show PMap.Has _ _; simp [idle, PMap.Has]
    have r8 := (r7.snoc s8).append (run_send _)
    have s9 : (askedMachine c g keepOn).Step
      ⟨idle ⟨.complete, ⟨1, [map1]⟩, 1, none, (PMap.empty.insert 2 1).remove 2⟩ MSet.empty MSet.empty,
        quiet (disk1 c), 4⟩ .crash ⟨idle prog0 MSet.empty MSet.empty, quiet (disk1 c), 4⟩ :=
      ⟨.crash ⟨rfl, rfl, rfl, rfl, rfl⟩ .crash, trivial⟩
    have r9 := r8.snoc s9
    have r10 := run_recover (c := c) (g := g) (restart := keepOn) hg (m := prog0) (rq := MSet.empty)
      (rp := MSet.empty) (ct := disk1 c) (n := 4) (page := demoPage c) rfl (by simp [disk1])
    rw [show c.unmarshall (demoPage c) = ⟨map1, 1⟩ from c.roundTrip _, singletonSeq_eq] at r10
    have r11 := (r9.append r10).append (run_receive queryReq (by simp [queryReq]))
    have r12 := r11.append (run_execute (m' := ready1) queryReq ⟨.query 7, 5⟩ (by simp [queryReq]) ?_)
    · have r13 := r12.append (run_send _)
      exact r13
    · refine .mk (h' := ⟨1, [map1]⟩) (m := map1) (m' := map1) rfl ?_ ?_ ?_ rfl ?_ ?_ (.query ?_)
      · simp [FloatingSeq.len]
      · simp [FloatingSeq.len]
      · simp [FloatingSeq.len, FloatingSeq.getPrefix]
      · simp [FloatingSeq.last?, FloatingSeq.get?, FloatingSeq.len]
      · simp [FloatingSeq.last?, FloatingSeq.get?, FloatingSeq.len]
      · simp [map1]
  · refine .mk (s := ready0) (h' := ⟨0, [TotalKMMap.empty, map1]⟩) (m := TotalKMMap.empty) (m' := map1)
      rfl ?_ ?_ ?_ rfl ?_ ?_ .put
    · simp [FloatingSeq.len, ready0]
    · simp [FloatingSeq.len, ready0]
    · simp [FloatingSeq.len, FloatingSeq.getPrefix, ready0]
    · simp [FloatingSeq.last?, FloatingSeq.get?, FloatingSeq.len, ready0]
    · simp [FloatingSeq.last?, FloatingSeq.get?, FloatingSeq.len]

/-- A no-op answered as if it were a sync. -/
def falseSyncTrace (c : Codec) : List Event :=
  recoverTrace 0 (c.marshall ⟨TotalKMMap.empty, 0⟩) ++
  [.receive ⟨.noop, 1⟩] ++ [.prog (.execute ⟨.noop, 1⟩ ⟨.sync, 1⟩)] ++ [.send ⟨.sync, 1⟩]

theorem falseSync_exec (c : Codec) (g : Geometry) (hg : sbAddr.wf g) (restart) :
    (askedMachine c g restart).Exec (falseSyncTrace c)
      ⟨idle ready0 MSet.empty MSet.empty, quiet (disk0 c), 2⟩ := by
  refine ⟨start c, start_init c, ?_⟩
  have r1 := recovered c g hg restart MSet.empty MSet.empty
  have r2 := r1.append (run_receive ⟨.noop, 1⟩ (by simp))
  have r3 := r2.append (run_execute (m' := ready0) ⟨.noop, 1⟩ ⟨.sync, 1⟩ (by simp) ?_)
  · exact r3.append (run_send _)
  · refine .mk (s := ready0) (h' := ready0.history) (m := TotalKMMap.empty) (m' := TotalKMMap.empty)
      rfl ?_ ?_ ?_ rfl ?_ ?_ .noop
    · exact Nat.le_refl _
    · omega
    · simp [FloatingSeq.len, FloatingSeq.getPrefix, ready0]
    · simp [FloatingSeq.last?, FloatingSeq.get?, FloatingSeq.len, ready0]
    · simp [FloatingSeq.last?, FloatingSeq.get?, FloatingSeq.len, ready0]

/-- A sync answered that nobody asked for, twice. -/
def unaskedTrace (c : Codec) : List Event :=
  recoverTrace 0 (c.marshall ⟨TotalKMMap.empty, 0⟩) ++
  [.prog (.replySync 9)] ++ [.send ⟨.sync, 9⟩] ++ [.prog (.replySync 9)] ++ [.send ⟨.sync, 9⟩]

theorem unasked_exec (c : Codec) (g : Geometry) (hg : sbAddr.wf g) (restart) :
    (machine (concrete c) g restart).Exec (unaskedTrace c)
      ⟨idle ready0 MSet.empty MSet.empty, quiet (disk0 c), 1⟩ := by
  refine ⟨start c, start_init c, ?_⟩
  have r1 := asked_run (recovered c g hg restart MSet.empty MSet.empty)
  have s2 : (machine (concrete c) g restart).Step ⟨idle ready0 MSet.empty MSet.empty, quiet (disk0 c), 1⟩
      (.prog (.replySync 9)) ⟨idle ready0 MSet.empty (MSet.empty.insert ⟨.sync, 9⟩), quiet (disk0 c), 1⟩ := by
    refine .prog (t' := idle ready0 MSet.empty (MSet.empty.insert ⟨.sync, 9⟩)) trivial ?_
    have h : AtomicState.DeliverSync ready0 9 { ready0 with syncReqs := ready0.syncReqs.remove 9 } :=
      .mk rfl (fun v hv => by simp [ready0] at hv)
    have he : { ready0 with syncReqs := ready0.syncReqs.remove 9 } = ready0 := by
      simp only [ready0, AtomicState.mk.injEq, true_and]; funext x; simp [PMap.remove]
    rw [he] at h
    exact .replySync (prog := concrete c) (t := idle ready0 MSet.empty MSet.empty) h
  have r2 := (r1.snoc s2).append (asked_run (run_send _))
  exact (r2.snoc s2).append (asked_run (run_send _))

/-- A restart with the counter at 0 again. -/
def againTrace : List Event := [.receive ⟨.noop, 0⟩, .crash, .receive ⟨.noop, 0⟩]

theorem again_exec (c : Codec) (g : Geometry) :
    (askedMachine c g asWritten).Exec againTrace
      ⟨idle prog0 (MSet.empty.insert ⟨.noop, 0⟩) MSet.empty, quiet (disk0 c), 1⟩ := by
  refine ⟨start c, start_init c, ?_⟩
  have r1 := run_receive (c := c) (g := g) (restart := asWritten) (m := prog0) (rq := MSet.empty)
    (rp := MSet.empty) (d := quiet (disk0 c)) ⟨.noop, 0⟩ (by rfl : _ = 0)
  have s2 : (askedMachine c g asWritten).Step
      ⟨idle prog0 (MSet.empty.insert ⟨.noop, 0⟩) MSet.empty, quiet (disk0 c), 1⟩ .crash
      ⟨idle prog0 MSet.empty MSet.empty, quiet (disk0 c), 0⟩ :=
    ⟨.crash (w := ⟨idle prog0 (MSet.empty.insert ⟨.noop, 0⟩) MSet.empty, quiet (disk0 c), 1⟩)
      ⟨rfl, rfl, rfl, rfl, rfl⟩ .crash, trivial⟩
  exact (r1.snoc s2).append r1

end
end Verif.Tok
