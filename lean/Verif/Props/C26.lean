import Verif.Disk.AsyncDisk
/-
C26. With an asynchronous disk, a page's content changes only when an issued write to that page
is processed, and then is exactly the data of that write; a read response carries the content of
the page at the moment it was processed; a crash drops pending requests and changes no content;
each request gets at most one response.

Specification: everything is said about the sequence of events (requests and responses crossing
the interface, reads and writes being performed, crashes). `Since P Q t` says that `P` occurred
in `t` and no `Q` occurred after it; `lastWrite a t` is the data of the last write performed on
page `a` in `t`.
-/
namespace Verif.C26
open AsyncDisk

variable {g : Geometry}

/-- The content of the disk is what the performed writes say, whatever crashes happened. -/
theorem content_exact {tr s} (h : (machine g).Exec tr s) (a : Address) :
    s.content a = lastWrite a tr := (past h).content a

/-- A write is performed only for a request with the same identifier, page and data, submitted
earlier; since then the disk did not crash, and this request had not been performed before. -/
theorem write_exact {t id a d t' s} (h : (machine g).Exec (t ++ .didWrite id a d :: t') s) :
    Since (Issues id (.write a d)) (fun e => e = .crash ∨ Serves id e) t ∧ a.wf g := by
  obtain ⟨s1, s2, hp, hn⟩ := before h
  cases hn with
  | write hreq hwf =>
    refine ⟨(hp.req _ _ hreq).mono (fun _ h => h) ?_, hwf⟩
    rintro e (h | h)
    · exact .inl h
    · exact .inr (.inl h)

/-- A read is performed only for a submitted request, and yields the data of the last write
performed on that page. -/
theorem read_exact {t id a d t' s} (h : (machine g).Exec (t ++ .didRead id a d :: t') s) :
    Since (Issues id (.read a)) (fun e => e = .crash ∨ Serves id e) t ∧
      ∀ x, lastWrite a t = some x → d = x := by
  obtain ⟨s1, s2, hp, hn⟩ := before h
  cases hn with
  | read hreq hwf hd =>
    refine ⟨(hp.req _ _ hreq).mono (fun _ h => h) ?_, fun x hx => hd x (by rw [hp.content, hx])⟩
    rintro e (h | h)
    · exact .inl h
    · exact .inr (.inl h)

/-- Where a delivered response comes from: the request it names was submitted, performed and
then answered, in this order, with no crash from submission to delivery. For a read the data
is that of the last write performed on the page before the read was performed. -/
theorem response_exact {t rq rs t' s id r} (h : (machine g).Exec (t ++ .ops rq rs :: t') s)
    (hr : rs id = some r) :
    ∃ t1 t2 t3 q e1 e2, t = t1 ++ e1 :: t2 ++ e2 :: t3 ∧ Issues id q e1 ∧
      (∀ e ∈ t2 ++ e2 :: t3, e ≠ .crash) ∧ (∀ e ∈ t2, ¬ Serves id e) ∧
      (∀ e ∈ t3, ∀ r', ¬ Delivers id r' e) ∧
      match r with
      | .write => ∃ a d, q = .write a d ∧ e2 = .didWrite id a d
      | .read d => ∃ a, q = .read a ∧ e2 = .didRead id a d ∧
          ∀ x, lastWrite a (t1 ++ e1 :: t2) = some x → d = x := by
  obtain ⟨s1, s2, hp, hn⟩ := before h
  cases hn with
  | ops newReq newResp sub =>
    obtain ⟨u, e2, t3, rfl, hprod, hno⟩ := hp.resp id r (sub id r hr)
    have h' : (machine g).Exec (u ++ e2 :: (t3 ++ .ops rq rs :: t')) s := by simpa using h
    obtain ⟨a, d, ⟨rfl, rfl⟩ | ⟨rfl, rfl⟩⟩ := hprod
    · obtain ⟨⟨t1, e1, t2, rfl, hi, hs⟩, hd⟩ := read_exact h'
      refine ⟨t1, t2, t3, _, e1, _, by simp, hi, ?_, fun e he hc => hs e he (.inr hc),
        fun e he r' hc => hno e he (.inr (.inl ⟨r', hc⟩)), a, rfl, rfl, hd⟩
      intro e he hc
      rcases List.mem_append.mp he with he | he
      · exact hs e he (.inl hc)
      · rcases List.mem_cons.mp he with rfl | he
        · cases hc
        · exact hno e he (.inl hc)
    · obtain ⟨⟨t1, e1, t2, rfl, hi, hs⟩, hd⟩ := write_exact h'
      refine ⟨t1, t2, t3, _, e1, _, by simp, hi, ?_, fun e he hc => hs e he (.inr hc),
        fun e he r' hc => hno e he (.inr (.inl ⟨r', hc⟩)), a, d, rfl, rfl⟩
      intro e he hc
      rcases List.mem_append.mp he with he | he
      · exact hs e he (.inl hc)
      · rcases List.mem_cons.mp he with rfl | he
        · cases hc
        · exact hno e he (.inl hc)

/-- At most one response per request: between two responses with the same identifier there is a
new request with this identifier. -/
theorem one_response {t rq rs u rq' rs' v s id}
    (h : (machine g).Exec (t ++ .ops rq rs :: u ++ .ops rq' rs' :: v) s)
    (h1 : rs id ≠ none) (h2 : rs' id ≠ none) : ∃ e ∈ u, ∃ q, Issues id q e := by
  obtain ⟨r1, h1⟩ := Option.ne_none_iff_exists'.mp h1
  obtain ⟨r2, h2⟩ := Option.ne_none_iff_exists'.mp h2
  -- the first delivery
  have hA : (machine g).Exec (t ++ .ops rq rs :: (u ++ .ops rq' rs' :: v)) s := by simpa using h
  obtain ⟨sa, _, hpa, hna⟩ := before hA
  obtain ⟨hrq, p1⟩ : ¬ rq.Has id ∧
      Since (Produces id r1)
        (fun e => e = .crash ∨ (∃ r', Delivers id r' e) ∨ ∃ r', Issues id r' e) t := by
    cases hna with
    | ops newReq newResp sub =>
      have hs := sub id r1 h1
      exact ⟨fun hc => newResp id hc (by simp [PMap.Has, hs]), hpa.resp id r1 hs⟩
  -- the second delivery
  obtain ⟨t1, t2, t3, q, e1, e2, ht, hi, hcr, hsv, hdl, hm⟩ := response_exact h h2
  have hserve2 : Serves id e2 := by
    cases r2 with
    | write => obtain ⟨a, d, _, rfl⟩ := hm; exact ⟨a, d, .inr rfl⟩
    | read d => obtain ⟨a, _, rfl, _⟩ := hm; exact ⟨a, d, .inl rfl⟩
  obtain ⟨w1, e0, w2, ht0, hp0, hno0⟩ := p1
  have hserve0 : Serves id e0 := by
    obtain ⟨a, d, ⟨rfl, _⟩ | ⟨rfl, _⟩⟩ := hp0
    · exact ⟨a, d, .inl rfl⟩
    · exact ⟨a, d, .inr rfl⟩
  have hisvsv : ∀ e q, Issues id q e → Serves id e → False := by
    rintro e q ⟨_, _, rfl, _⟩ ⟨_, _, h | h⟩ <;> cases h
  -- e2 lies in u: nothing after e2 delivers id
  subst ht0
  have key : w1 ++ e0 :: w2 ++ .ops rq rs :: u = (t1 ++ e1 :: t2) ++ e2 :: t3 := by
    simpa using ht
  rcases List.append_eq_append_iff.mp key with ⟨x, hx1, hx2⟩ | ⟨x, hx1, hx2⟩
  · -- the first delivery happened no later than e2
    cases x with
    | nil =>
      simp at hx2
      obtain ⟨rfl, rfl⟩ := hx2
      obtain ⟨_, _, h | h⟩ := hserve2 <;> cases h
    | cons y x =>
      simp at hx2
      obtain ⟨rfl, rfl⟩ := hx2
      -- t1 ++ e1 :: t2 = w1 ++ e0 :: w2 ++ ops :: x
      have key2 : (w1 ++ e0 :: w2) ++ .ops rq rs :: x = t1 ++ e1 :: t2 := by simpa using hx1.symm
      rcases List.append_eq_append_iff.mp key2 with ⟨z, hz1, hz2⟩ | ⟨z, hz1, hz2⟩
      · cases z with
        | nil =>
          simp at hz2
          obtain ⟨rfl, rfl⟩ := hz2
          obtain ⟨_, _, heq, hq⟩ := hi
          cases heq
          exact absurd (by simp [PMap.Has, hq]) hrq
        | cons y z =>
          simp at hz2
          obtain ⟨rfl, rfl⟩ := hz2
          exact ⟨e1, by simp, q, hi⟩
      · -- e1 not after the first delivery
        exfalso
        cases z with
        | nil =>
          simp at hz2
          obtain ⟨rfl, rfl⟩ := hz2
          obtain ⟨_, _, heq, hq⟩ := hi
          cases heq
          exact hrq (by simp [PMap.Has, hq])
        | cons y z =>
          simp at hz2
          obtain ⟨rfl, rfl⟩ := hz2
          -- w1 ++ e0 :: w2 = t1 ++ e1 :: z
          rcases List.append_eq_append_iff.mp hz1 with ⟨k, hk1, hk2⟩ | ⟨k, hk1, hk2⟩
          · cases k with
            | nil => simp at hk2; obtain ⟨rfl, _⟩ := hk2; exact hisvsv _ _ hi hserve0
            | cons y k =>
              simp at hk2
              obtain ⟨rfl, rfl⟩ := hk2
              exact hno0 e1 (by simp) (.inr (.inr ⟨q, hi⟩))
          · cases k with
            | nil => simp at hk2; obtain ⟨rfl, _⟩ := hk2; exact hisvsv _ _ hi hserve0
            | cons y k =>
              simp at hk2
              obtain ⟨rfl, rfl⟩ := hk2
              exact hsv e0 (by simp) hserve0
  · exfalso
    cases x with
    | nil =>
      simp at hx2
      obtain ⟨rfl, rfl⟩ := hx2
      obtain ⟨_, _, h | h⟩ := hserve2 <;> cases h
    | cons y x =>
      simp at hx2
      obtain ⟨rfl, rfl⟩ := hx2
      exact hdl (.ops rq rs) (by simp) r1 ⟨rq, rs, rfl, h1⟩

theorem lastWrite_none_append (a : Address) (t u : List Event)
    (h : ∀ id d, .didWrite id a d ∉ u) : lastWrite a (t ++ u) = lastWrite a t := by
  induction u generalizing t with
  | nil => simp
  | cons e u ih =>
    have := ih (t ++ [e]) (fun id d hm => h id d (by simp [hm]))
    rw [show t ++ e :: u = t ++ [e] ++ u by simp, this, lastWrite_snoc]
    cases e with
    | didWrite i b d =>
      simp only
      rw [if_neg]; rintro rfl; exact h i d (by simp)
    | _ => rfl

/-- An acknowledged write is durable: once the response to a write was delivered, the page holds
its data, through any number of crashes, until a later write to the same page is performed. -/
theorem write_durable {t rq rs t' s id} (h : (machine g).Exec (t ++ .ops rq rs :: t') s)
    (hr : rs id = some .write) :
    ∃ a d, (∃ e ∈ t, Issues id (.write a d) e) ∧
      ∃ t1 t2, t = t1 ++ .didWrite id a d :: t2 ∧
        ((∀ id' d', .didWrite id' a d' ∉ t2 ++ .ops rq rs :: t') → s.content a = some d) := by
  obtain ⟨t1, t2, t3, q, e1, e2, rfl, hi, -, -, -, a, d, rfl, rfl⟩ := response_exact h hr
  refine ⟨a, d, ⟨e1, by simp, hi⟩, t1 ++ e1 :: t2, t3, rfl, ?_⟩
  intro hn
  rw [content_exact h]
  rw [show t1 ++ e1 :: t2 ++ Event.didWrite id a d :: t3 ++ Event.ops rq rs :: t' =
      (t1 ++ e1 :: t2 ++ [Event.didWrite id a d]) ++ (t3 ++ Event.ops rq rs :: t') by simp]
  rw [lastWrite_none_append _ _ _ hn, lastWrite_snoc]
  simp

/-- After a crash no response is delivered to any request submitted before it. -/
theorem crash_drops {t u rq rs v s id} (h : (machine g).Exec (t ++ .crash :: u ++ .ops rq rs :: v) s)
    (hr : rs id ≠ none) : ∃ e ∈ u, ∃ q, Issues id q e := by
  obtain ⟨r, hr⟩ := Option.ne_none_iff_exists'.mp hr
  obtain ⟨t1, t2, t3, q, e1, e2, ht, hi, hc, -⟩ := response_exact h hr
  have key : t ++ .crash :: u = t1 ++ e1 :: (t2 ++ e2 :: t3) := by simpa using ht
  rcases List.append_eq_append_iff.mp key with ⟨x, hx1, hx2⟩ | ⟨x, hx1, hx2⟩
  · cases x with
    | nil => simp at hx2; obtain ⟨rfl, _⟩ := hx2; obtain ⟨_, _, h, _⟩ := hi; cases h
    | cons y x =>
      simp at hx2; obtain ⟨rfl, rfl⟩ := hx2; exact ⟨e1, by simp, q, hi⟩
  · exfalso
    cases x with
    | nil => simp at hx2; obtain ⟨rfl, _⟩ := hx2; obtain ⟨_, _, h, _⟩ := hi; cases h
    | cons y x =>
      simp at hx2; obtain ⟨rfl, hx2⟩ := hx2
      exact hc .crash (by rw [hx2]; simp) rfl

/-- The page a request is about. -/
def page : Req → Address
  | .read a => a
  | .write a _ => a

theorem pending_kept {s t' s2 id q} (h : (machine g).Run s t' s2) (hq : s.requests id = some q)
    (hc : ∀ e ∈ t', e ≠ .crash ∧ ¬ Serves id e) : s2.requests id = some q := by
  induction h with
  | nil => exact hq
  | @cons _ l _ _ _ hs _ ih =>
    refine ih ?_ (fun e he => hc e (List.mem_cons_of_mem _ he))
    have hl := hc l (by simp)
    cases hs with
    | @ops rq rs newReq newResp sub =>
      simp only [PMap.unionRight]
      cases hn : rq id with
      | none => exact hq
      | some x => exact absurd (by simp [PMap.Has, hq]) (newReq id (by simp [PMap.Has, hn]))
    | @read id' a d _ _ _ =>
      have : id ≠ id' := by rintro rfl; exact hl.2 ⟨a, d, .inl rfl⟩
      simp only; rw [PMap.remove_other _ this]; exact hq
    | @write id' a d _ _ =>
      have : id ≠ id' := by rintro rfl; exact hl.2 ⟨a, d, .inr rfl⟩
      simp only; rw [PMap.remove_other _ this]; exact hq
    | crash => exact absurd rfl hl.1

/-- No request is lost without a crash: as long as a submitted request for a page of the disk was
not performed and the disk did not crash, the disk can perform it and hand out its response. -/
theorem request_answerable {t rq rs t' s id q} (h : (machine g).Exec (t ++ .ops rq rs :: t') s)
    (hq : rq id = some q) (hw : (page q).wf g) (hc : ∀ e ∈ t', e ≠ .crash ∧ ¬ Serves id e) :
    ∃ e r s', Produces id r e ∧
      (machine g).Run s [e, .ops PMap.empty (PMap.empty.insert id r)] s' := by
  obtain ⟨s0, h0, hr⟩ := h
  obtain ⟨s1, _, hr⟩ := hr.split
  cases hr with
  | @cons _ _ s2 _ _ hs hr =>
    have hp : s2.requests id = some q := by
      cases hs with
      | ops => simp [PMap.unionRight, hq]
    have hp := pending_kept hr hp hc
    have del : ∀ (s3 : State) (r : Resp), s3.responses id = some r →
        ∃ s4, (machine g).Run s3 [.ops PMap.empty (PMap.empty.insert id r)] s4 := by
      intro s3 r h3
      refine ⟨_, .single (Next.ops (fun _ h => absurd rfl h) (fun _ h => absurd rfl h) ?_)⟩
      intro i x hx
      by_cases hi : i = id
      · subst hi; simp at hx; rw [h3, hx]
      · rw [PMap.insert_other _ _ hi] at hx; cases hx
    cases q with
    | read a =>
      obtain ⟨d, hd⟩ : ∃ d, ∀ x, s.content a = some x → d = x := by
        cases s.content a with
        | none => exact ⟨[], fun _ h => by cases h⟩
        | some x => exact ⟨x, fun _ h => Option.some.inj h⟩
      have hn : Next g s (.didRead id a d) _ := .read hp hw hd
      obtain ⟨s4, h4⟩ := del { s with requests := s.requests.remove id, responses := s.responses.insert id (.read d) }
        (.read d) (PMap.insert_same s.responses id (.read d))
      exact ⟨_, .read d, s4, ⟨a, d, .inl ⟨rfl, rfl⟩⟩, .cons hn h4⟩
    | write a d =>
      have hn : Next g s (.didWrite id a d) _ := .write hp hw
      obtain ⟨s4, h4⟩ := del { requests := s.requests.remove id, responses := s.responses.insert id .write,
                                   content := s.content.insert a d }
        .write (PMap.insert_same s.responses id .write)
      exact ⟨_, .write, s4, ⟨a, d, .inr ⟨rfl, rfl⟩⟩, .cons hn h4⟩

/-! ### A concrete execution -/

def demoG : Geometry := ⟨4, 4⟩
def pg : Address := ⟨1, 2⟩

/-- write `[7]` as request 5, read it as request 6 after the acknowledgement, crash, read again
as request 5 -/
def demoTrace : List Event :=
  [.ops (PMap.empty.insert 5 (.write pg [7])) PMap.empty, .didWrite 5 pg [7],
   .ops (PMap.empty.insert 6 (.read pg)) (PMap.empty.insert 5 .write), .didRead 6 pg [7], .crash,
   .ops (PMap.empty.insert 5 (.read pg)) PMap.empty, .didRead 5 pg [7],
   .ops PMap.empty (PMap.empty.insert 5 (.read [7]))]

theorem demo_exec : ∃ s, (machine demoG).Exec demoTrace s := by
  suffices h : ∃ s, (machine demoG).Run init demoTrace s by
    obtain ⟨s, h⟩ := h; exact ⟨s, _, rfl, h⟩
  have w : pg.wf demoG := ⟨by decide, by decide⟩
  refine Machine.Run.econs (Next.ops ?_ ?_ ?_) <| Machine.Run.econs (Next.write ?_ w) <|
    Machine.Run.econs (Next.ops ?_ ?_ ?_) <| Machine.Run.econs (Next.read ?_ w ?_) <|
    Machine.Run.econs .crash <| Machine.Run.econs (Next.ops ?_ ?_ ?_) <|
    Machine.Run.econs (Next.read ?_ w ?_) <| Machine.Run.econs (Next.ops ?_ ?_ ?_) <|
    Machine.Run.enil
  set_option linter.unusedSimpArgs false in
  all_goals first
    | rfl
    | (intro id r h
       by_cases hi : id = 5
       · subst hi; simp_all [PMap.Has, PMap.insert, PMap.remove, PMap.unionRight, init]
       · simp_all [PMap.Has, PMap.insert, PMap.remove, PMap.unionRight, init])
    | (intro id h
       simp_all [PMap.Has, PMap.insert, PMap.remove, PMap.unionRight, init])

end Verif.C26
