import Verif.Base.Disk
import Verif.Base.Trace
/-
The asynchronous disk. Models Splinter/src/spec/AsyncDisk_t.rs.
-/
namespace Verif

/-- AsyncDisk_t.rs 38-45: `page_count()` and `au_count()`, uninterpreted in the source,
parameters here. -/
structure Geometry where
  pages : Nat
  aus : Nat

/-- AsyncDisk_t.rs 47-53 `Address::wf` -/
def Address.wf (g : Geometry) (a : Address) : Prop := a.au < g.aus ∧ a.page < g.pages

/-- AsyncDisk_t.rs 56 `RawPage = Seq<u8>` -/
abbrev RawPage := List UInt8

namespace AsyncDisk

/-- MapSpec_t.rs: request identifiers (`ID = u64`, only compared for equality) -/
abbrev ID := Nat

/-- AsyncDisk_t.rs 71-86 `GenericDiskRequest` / `DiskRequest` -/
inductive Req
  | read (src : Address)
  | write (dst : Address) (data : RawPage)
  deriving DecidableEq

/-- AsyncDisk_t.rs 88-93 `GenericDiskResponse` / `DiskResponse` -/
inductive Resp
  | read (data : RawPage)
  | write
  deriving DecidableEq

/-- AsyncDisk_t.rs 106-113: the fields of the machine. -/
structure State where
  requests : PMap ID Req
  responses : PMap ID Resp
  content : PMap Address RawPage

/-- AsyncDisk_t.rs 115-122 `Label`. The source uses one label `Internal` for the processing of
a read or a write; here those two steps carry what was processed, so that statements about the
order of events can be made without looking at states. -/
inductive Event
  | ops (requests : PMap ID Req) (responses : PMap ID Resp)
  | didRead (id : ID) (a : Address) (data : RawPage)
  | didWrite (id : ID) (a : Address) (data : RawPage)
  | crash

/-- AsyncDisk_t.rs 124-128 `initialize` -/
def init : State := ⟨PMap.empty, PMap.empty, PMap.empty⟩

/-- AsyncDisk_t.rs 131-223: the transitions. `didRead` of a page that was never written: the
source indexes a map outside its domain, so the data is an unspecified value; here any data. -/
inductive Next (g : Geometry) : State → Event → State → Prop
  /-- AsyncDisk_t.rs 131-149 `disk_ops` -/
  | ops {s : State} {rq : PMap ID Req} {rs : PMap ID Resp}
      (newReq : ∀ id, rq.Has id → ¬ s.requests.Has id)
      (newResp : ∀ id, rq.Has id → ¬ s.responses.Has id)
      (sub : ∀ id r, rs id = some r → s.responses id = some r) :
      Next g s (.ops rq rs)
        { s with
          requests := s.requests.unionRight rq
          responses := fun id => if rs id = none then s.responses id else none }
  /-- AsyncDisk_t.rs 152-169 `process_read` -/
  | read {s : State} {id : ID} {a : Address} {d : RawPage}
      (hreq : s.requests id = some (.read a)) (hwf : a.wf g)
      (hd : ∀ x, s.content a = some x → d = x) :
      Next g s (.didRead id a d)
        { s with
          requests := s.requests.remove id
          responses := s.responses.insert id (.read d) }
  /-- AsyncDisk_t.rs 193-210 `process_write` -/
  | write {s : State} {id : ID} {a : Address} {d : RawPage}
      (hreq : s.requests id = some (.write a d)) (hwf : a.wf g) :
      Next g s (.didWrite id a d)
        { requests := s.requests.remove id
          responses := s.responses.insert id .write
          content := s.content.insert a d }
  /-- AsyncDisk_t.rs 213-218 `crash` -/
  | crash {s : State} :
      Next g s .crash { s with requests := PMap.empty, responses := PMap.empty }

/-- AsyncDisk_t.rs 103: the machine. -/
def machine (g : Geometry) : Machine State Event := ⟨fun s => s = init, Next g⟩

/-! ### Vocabulary about event sequences (no code is modelled here) -/

/-- `P` happened, and no `Q` after that. -/
def Since {α : Type} (P Q : α → Prop) (tr : List α) : Prop :=
  ∃ t1 e t2, tr = t1 ++ e :: t2 ∧ P e ∧ ∀ x ∈ t2, ¬ Q x

theorem Since.new {α : Type} {P Q : α → Prop} {tr e} (h : P e) : Since P Q (tr ++ [e]) :=
  ⟨tr, e, [], rfl, h, by simp⟩

theorem Since.keep {α : Type} {P Q : α → Prop} {tr e} (h : Since P Q tr) (he : ¬ Q e) :
    Since P Q (tr ++ [e]) := by
  obtain ⟨t1, x, t2, rfl, hp, hq⟩ := h
  refine ⟨t1, x, t2 ++ [e], by simp, hp, ?_⟩
  intro y hy
  rcases List.mem_append.mp hy with hy | hy
  · exact hq y hy
  · rw [List.mem_singleton] at hy; exact hy ▸ he

theorem Since.mono {α : Type} {P P' Q Q' : α → Prop} {tr} (h : Since P Q tr)
    (hp : ∀ e, P e → P' e) (hq : ∀ e, Q' e → Q e) : Since P' Q' tr := by
  obtain ⟨t1, x, t2, rfl, h1, h2⟩ := h
  exact ⟨t1, x, t2, rfl, hp _ h1, fun y hy hy' => h2 y hy (hq _ hy')⟩

/-- the event submits request `r` under identifier `id` -/
def Issues (id : ID) (r : Req) (e : Event) : Prop := ∃ rq rs, e = .ops rq rs ∧ rq id = some r

/-- the event hands response `r` for identifier `id` to the host -/
def Delivers (id : ID) (r : Resp) (e : Event) : Prop := ∃ rq rs, e = .ops rq rs ∧ rs id = some r

/-- the event is the disk processing the request with identifier `id` -/
def Serves (id : ID) (e : Event) : Prop :=
  ∃ a d, e = .didRead id a d ∨ e = .didWrite id a d

/-- the processing that produces response `r` for `id` -/
def Produces (id : ID) (r : Resp) (e : Event) : Prop :=
  ∃ a d, (e = .didRead id a d ∧ r = .read d) ∨ (e = .didWrite id a d ∧ r = .write)

/-- data of the last processed write to `a` in a sequence of events -/
def lastWrite (a : Address) : List Event → Option RawPage
  | [] => none
  | e :: tr => match lastWrite a tr with
    | some d => some d
    | none => match e with
      | .didWrite _ b d => if b = a then some d else none
      | _ => none

theorem lastWrite_snoc (a : Address) (tr : List Event) (e : Event) :
    lastWrite a (tr ++ [e]) = match e with
      | .didWrite _ b d => if b = a then some d else lastWrite a tr
      | _ => lastWrite a tr := by
  induction tr with
  | nil => cases e <;> simp [lastWrite]
  | cons x tr ih =>
    simp only [List.cons_append, lastWrite, ih]
    cases e with
    | didWrite i b d =>
      simp only
      by_cases hb : b = a
      · simp [hb]
      · simp [hb]
    | _ => simp

/-- Everything a request, response or content page of a reachable state says about the past. -/
structure Past (tr : List Event) (s : State) : Prop where
  req : ∀ id r, s.requests id = some r →
    Since (Issues id r) (fun e => e = .crash ∨ Serves id e ∨ ∃ r', Issues id r' e) tr
  resp : ∀ id r, s.responses id = some r →
    Since (Produces id r) (fun e => e = .crash ∨ (∃ r', Delivers id r' e) ∨ ∃ r', Issues id r' e) tr
  content : ∀ a, s.content a = lastWrite a tr
  disj : ∀ id, s.requests.Has id → ¬ s.responses.Has id

theorem past_init : Past [] init :=
  ⟨fun _ _ h => by simp [init] at h, fun _ _ h => by simp [init] at h, fun _ => rfl,
   fun _ h => absurd rfl h⟩

theorem past_step {g : Geometry} {tr s e s'} (h : Past tr s) (hs : Next g s e s') :
    Past (tr ++ [e]) s' := by
  cases hs with
  | @ops rq rs newReq newResp sub =>
    constructor
    · intro id r hr
      simp only [PMap.unionRight] at hr
      cases hq : rq id with
      | some q => rw [hq] at hr; cases hr; exact Since.new ⟨rq, rs, rfl, hq⟩
      | none =>
        rw [hq] at hr
        refine (h.req id r hr).keep ?_
        rintro (h1 | ⟨_, _, h1 | h1⟩ | ⟨r', rq', rs', h1, h2⟩) <;> cases h1
        rw [hq] at h2; cases h2
    · intro id r hr
      simp only at hr
      split at hr
      next hn =>
        refine (h.resp id r hr).keep ?_
        rintro (h1 | ⟨r', rq', rs', h1, h2⟩ | ⟨r', rq', rs', h1, h2⟩) <;> cases h1
        · rw [hn] at h2; cases h2
        · exact newResp id (by simp [PMap.Has, h2]) (by simp [PMap.Has, hr])
      next => cases hr
    · intro a; rw [lastWrite_snoc]; exact h.content a
    · intro id hr hp
      simp only [PMap.Has, PMap.unionRight] at hr hp
      cases hq : rq id with
      | some q =>
        refine newResp id (by simp [PMap.Has, hq]) ?_
        intro hn; apply hp; simp [hn]
      | none =>
        rw [hq] at hr
        refine h.disj id hr ?_
        intro hn; apply hp; simp [hn]
  | @read id a d hreq hwf hd =>
    constructor
    · intro id' r hr
      simp only at hr
      by_cases hi : id' = id
      · subst hi; simp at hr
      · rw [PMap.remove_other _ hi] at hr
        refine (h.req id' r hr).keep ?_
        rintro (h1 | ⟨_, _, h1 | h1⟩ | ⟨r', rq', rs', h1, h2⟩) <;> cases h1
        exact hi rfl
    · intro id' r hr
      simp only at hr
      by_cases hi : id' = id
      · subst hi; simp at hr; subst hr; exact Since.new ⟨a, d, .inl ⟨rfl, rfl⟩⟩
      · rw [PMap.insert_other _ _ hi] at hr
        refine (h.resp id' r hr).keep ?_
        rintro (h1 | ⟨r', rq', rs', h1, h2⟩ | ⟨r', rq', rs', h1, h2⟩) <;> cases h1
    · intro b; rw [lastWrite_snoc]; exact h.content b
    · intro id' hr hp
      simp only [PMap.Has] at hr hp
      by_cases hi : id' = id
      · subst hi; simp at hr
      · rw [PMap.remove_other _ hi] at hr
        rw [PMap.insert_other _ _ hi] at hp
        exact h.disj id' hr hp
  | @write id a d hreq hwf =>
    constructor
    · intro id' r hr
      simp only at hr
      by_cases hi : id' = id
      · subst hi; simp at hr
      · rw [PMap.remove_other _ hi] at hr
        refine (h.req id' r hr).keep ?_
        rintro (h1 | ⟨_, _, h1 | h1⟩ | ⟨r', rq', rs', h1, h2⟩) <;> cases h1
        exact hi rfl
    · intro id' r hr
      simp only at hr
      by_cases hi : id' = id
      · subst hi; simp at hr; subst hr; exact Since.new ⟨a, d, .inr ⟨rfl, rfl⟩⟩
      · rw [PMap.insert_other _ _ hi] at hr
        refine (h.resp id' r hr).keep ?_
        rintro (h1 | ⟨r', rq', rs', h1, h2⟩ | ⟨r', rq', rs', h1, h2⟩) <;> cases h1
    · intro b
      rw [lastWrite_snoc]
      simp only [PMap.insert]
      by_cases hb : b = a
      · subst hb; simp
      · rw [if_neg hb, if_neg (fun hc => hb hc.symm)]; exact h.content b
    · intro id' hr hp
      simp only [PMap.Has] at hr hp
      by_cases hi : id' = id
      · subst hi; simp at hr
      · rw [PMap.remove_other _ hi] at hr
        rw [PMap.insert_other _ _ hi] at hp
        exact h.disj id' hr hp
  | crash =>
    refine ⟨fun _ _ hr => by simp at hr, fun _ _ hr => by simp at hr, ?_, fun _ hr => absurd rfl hr⟩
    intro a; rw [lastWrite_snoc]; exact h.content a

theorem past {g : Geometry} {tr s} (h : (machine g).Exec tr s) : Past tr s := by
  apply Machine.exec_invariant (I := Past) _ _ h
  · intro s hs; cases hs; exact past_init
  · intro _ _ _ _ hp hs; exact past_step hp hs

/-- the state just before an event of an execution -/
theorem before {g : Geometry} {t : List Event} {e : Event} {t' : List Event} {s}
    (h : (machine g).Exec (t ++ e :: t') s) :
    ∃ s1 s2, Past t s1 ∧ Next g s1 e s2 := by
  obtain ⟨s1, s2, h1, h2⟩ := h.at_index (i := t.length) (l := e) (by simp)
  simp at h1
  exact ⟨s1, s2, past h1, h2⟩

end AsyncDisk
end Verif
