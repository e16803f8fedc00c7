import Verif.Token.MSetMap
/-
Runs of a program between client and disk, seen as runs of the system model.
-/
namespace Verif.Tok
open AsyncDisk (Req Resp)

/-! ### Which ids are where -/

/-- The ids of tokens and of the disk's queues. -/
structure Ids {P : Type} (w : World P) : Prop where
  reqs : w.tok.requests.Single
  reqId : ∀ q r : TRequest, w.tok.requests.Has q → w.tok.requests.Has r → q.id = r.id → q = r
  reqOld : ∀ q, w.tok.requests.Has q → q.id.toNat < w.next
  dreq : w.tok.diskRequests.UniqueKeys
  dreqNew : ∀ x, w.tok.diskRequests.Has x → w.next ≤ x.1
  dresp : w.tok.diskResponses.UniqueKeys
  drespOld : ∀ x, w.tok.diskResponses.Has x → x.1 < w.next
  drespOut : ∀ x, w.tok.diskResponses.Has x → ¬ w.disk.requests.Has x.1 ∧ ¬ w.disk.responses.Has x.1
  diskOld : ∀ id : Nat, w.disk.requests.Has id ∨ w.disk.responses.Has id → id < w.next
  diskDisj : ∀ id : Nat, w.disk.requests.Has id → ¬ w.disk.responses.Has id

theorem not_has_pempty {K V : Type} (k : K) : ¬ (PMap.empty : PMap K V).Has k := fun h => h rfl

theorem ids_clear {P : Type} {prog : Program P} {w : World P} (ht : TokInit prog w.tok)
    (h1 : w.disk.requests = PMap.empty) (h2 : w.disk.responses = PMap.empty) : Ids w := by
  constructor
  · rw [ht.requests]; exact MSet.single_empty
  · rw [ht.requests]; exact fun _ _ h => absurd h (MSet.not_has_empty _)
  · rw [ht.requests]; exact fun _ h => absurd h (MSet.not_has_empty _)
  · rw [ht.diskRequests]; exact MSet.uniqueKeys_empty
  · rw [ht.diskRequests]; exact fun _ h => absurd h (MSet.not_has_empty _)
  · rw [ht.diskResponses]; exact MSet.uniqueKeys_empty
  · rw [ht.diskResponses]; exact fun _ h => absurd h (MSet.not_has_empty _)
  · rw [ht.diskResponses]; exact fun _ h => absurd h (MSet.not_has_empty _)
  · rw [h1, h2]; rintro id (h | h) <;> exact absurd h (not_has_pempty _)
  · rw [h1]; exact fun _ h => absurd h (not_has_pempty _)

theorem has_union_one {V : Type} {m : PMap Nat V} {i j : Nat} {r : V} :
    (m.unionRight (one i r)).Has j ↔ j = i ∨ m.Has j := by
  unfold PMap.Has PMap.unionRight one PMap.insert
  by_cases h : j = i <;> simp [h]

theorem Ids.tok {P : Type} {prog : Program P} {w : World P} {l t'} (h : Ids w) (hp : Predicted w l)
    (hs : TokNext prog w.tok l t') : Ids { w with tok := t' } := by
  cases hs with
  | internal hn => exact ⟨h.1, h.2, h.3, h.4, h.5, h.6, h.7, h.8, h.9, h.10⟩
  | execute hi hh hn =>
    exact ⟨MSet.single_remove h.1, fun q r hq hr => h.2 q r (MSet.has_of_remove hq) (MSet.has_of_remove hr),
      fun q hq => h.3 q (MSet.has_of_remove hq), h.4, h.5, h.6, h.7, h.8, h.9, h.10⟩
  | @disk rq rs p' hle hn =>
    have hr : ∀ x, (w.tok.diskResponses.sub rs).Has x → w.tok.diskResponses.Has x :=
      fun x hx => ((MSet.has_sub h.dresp.1).mp hx).1
    refine ⟨h.1, h.2, h.3, hp.2, ?_, h.6.le (MSet.sub_le _ _), fun x hx => h.7 x (hr x hx),
      fun x hx => h.8 x (hr x hx), h.9, h.10⟩
    intro x hx
    rcases MSet.has_add.mp hx with hx | hx
    · exact h.5 x hx
    · exact hp.1 x hx
  | requestSync hh hn =>
    exact ⟨MSet.single_remove h.1, fun q r hq hr => h.2 q r (MSet.has_of_remove hq) (MSet.has_of_remove hr),
      fun q hq => h.3 q (MSet.has_of_remove hq), h.4, h.5, h.6, h.7, h.8, h.9, h.10⟩
  | replySync hn => exact ⟨h.1, h.2, h.3, h.4, h.5, h.6, h.7, h.8, h.9, h.10⟩

theorem Ids.step {P : Type} {prog : Program P} {g restart} {w w' : World P} {e} (h : Ids w)
    (hs : Step prog g restart w e w') : Ids w' := by
  cases hs with
  | @receive req hid hp =>
    have hno : ∀ q, w.tok.requests.Has q → q.id ≠ req.id := by
      intro q hq he; have := h.3 q hq; rw [he, hid] at this; omega
    refine ⟨MSet.single_insert h.1 (fun hh => hno _ hh rfl), ?_, ?_, h.4, ?_, h.6, ?_, h.8, ?_, h.10⟩
    · intro q r hq hr he
      rcases MSet.has_insert.mp hq with hq | hq <;> rcases MSet.has_insert.mp hr with hr | hr
      · rw [hq, hr]
      · exact absurd (hq ▸ he.symm) (hno r hr)
      · exact absurd (hr ▸ he) (hno q hq)
      · exact h.2 q r hq hr he
    · intro q hq
      rcases MSet.has_insert.mp hq with rfl | hq
      · show q.id.toNat < w.next + 1; omega
      · have := h.3 q hq; show q.id.toNat < w.next + 1; omega
    · intro x hx; have := h.5 x hx; have := hp x hx; show w.next + 1 ≤ x.1; omega
    · intro x hx; have := h.7 x hx; show x.1 < w.next + 1; omega
    · intro x hx; have := h.9 x hx; show x < w.next + 1; omega
  | send hh => exact ⟨h.1, h.2, h.3, h.4, h.5, h.6, h.7, h.8, h.9, h.10⟩
  | @sendDisk r d' hh hd =>
    cases hd with
    | ops hq hr hsub =>
      refine ⟨h.1, h.2, ?_, h.4.remove, ?_, h.6, ?_, ?_, ?_, ?_⟩
      · intro q hq; have := h.3 q hq; show q.id.toNat < w.next + 1; omega
      · intro x hx
        have hx' := (MSet.has_remove h.4.1).mp hx
        have := h.5 x hx'.2
        have : x.1 ≠ w.next := fun he => hx'.1 (h.4.2 _ _ hx'.2 hh he)
        show w.next + 1 ≤ x.1; omega
      · intro x hx; have := h.7 x hx; show x.1 < w.next + 1; omega
      · intro x hx
        have h7 := h.7 x hx
        have h8 := h.8 x hx
        refine ⟨fun hc => ?_, by simpa [PMap.Has, PMap.empty] using h8.2⟩
        rcases has_union_one.mp hc with hc | hc
        · omega
        · exact h8.1 hc
      · rintro id (hc | hc)
        · rcases has_union_one.mp hc with hc | hc
          · show id < w.next + 1; omega
          · have := h.9 id (.inl hc); show id < w.next + 1; omega
        · have := h.9 id (.inr (by simpa [PMap.Has, PMap.empty] using hc)); show id < w.next + 1; omega
      · intro id hc hc'
        have hc' : w.disk.responses.Has id := by simpa [PMap.Has, PMap.empty] using hc'
        rcases has_union_one.mp hc with hc | hc
        · have := h.9 id (.inr hc'); omega
        · exact h.10 id hc hc'
  | @receiveDisk id r d' hd =>
    cases hd with
    | ops hq hr hsub =>
      have hresp : w.disk.responses id = some r := hsub id r (by simp [one])
      have hin : w.disk.responses.Has id := by simp [PMap.Has, hresp]
      have hrest : ∀ i : Nat, PMap.Has (fun j => if one id r j = none then w.disk.responses j else none) i ↔
          i ≠ id ∧ w.disk.responses.Has i := by
        intro i
        unfold PMap.Has one PMap.insert
        by_cases hi : i = id <;> simp [hi]
      have hreq : w.disk.requests.unionRight (PMap.empty : PMap Nat Req) = w.disk.requests := by
        funext i; simp [PMap.unionRight]
      refine ⟨h.1, h.2, h.3, h.4, h.5, h.6.insert ?_, ?_, ?_, ?_, ?_⟩
      · intro p hp he; exact (h.8 p hp).2 (he ▸ hin)
      · intro x hx
        rcases MSet.has_insert.mp hx with rfl | hx
        · exact h.9 id (.inr hin)
        · exact h.7 x hx
      · simp only [hreq]
        intro x hx
        rcases MSet.has_insert.mp hx with rfl | hx
        · exact ⟨fun hc => h.10 id hc hin, fun hc => ((hrest id).mp hc).1 rfl⟩
        · exact ⟨(h.8 x hx).1, fun hc => (h.8 x hx).2 ((hrest _).mp hc).2⟩
      · simp only [hreq]
        rintro i (hc | hc)
        · exact h.9 i (.inl hc)
        · exact h.9 i (.inr ((hrest i).mp hc).2)
      · simp only [hreq]
        exact fun i hc hc' => h.10 i hc ((hrest i).mp hc').2
  | prog hp ht => exact h.tok hp ht
  | @didRead id a d d' hd =>
    cases hd with
    | read hreq hwf hx =>
      have hin : w.disk.requests.Has id := by simp [PMap.Has, hreq]
      refine ⟨h.1, h.2, h.3, h.4, h.5, h.6, h.7, ?_, ?_, ?_⟩
      · intro x hx
        have h8 := h.8 x hx
        have hne : x.1 ≠ id := fun he => h8.1 (he ▸ hin)
        exact ⟨by simpa [PMap.Has, PMap.remove, hne] using h8.1,
          by simpa [PMap.Has, PMap.insert, hne] using h8.2⟩
      · intro i hc
        by_cases hi : i = id
        · subst hi; exact h.9 i (.inl hin)
        · refine h.9 i ?_
          simpa [PMap.Has, PMap.remove, PMap.insert, hi] using hc
      · intro i hc hc'
        by_cases hi : i = id
        · subst hi; simp [PMap.Has] at hc
        · exact h.10 i (by simpa [PMap.Has, PMap.remove, hi] using hc)
            (by simpa [PMap.Has, PMap.insert, hi] using hc')
  | @didWrite id a d d' hd =>
    cases hd with
    | write hreq hwf =>
      have hin : w.disk.requests.Has id := by simp [PMap.Has, hreq]
      refine ⟨h.1, h.2, h.3, h.4, h.5, h.6, h.7, ?_, ?_, ?_⟩
      · intro x hx
        have h8 := h.8 x hx
        have hne : x.1 ≠ id := fun he => h8.1 (he ▸ hin)
        exact ⟨by simpa [PMap.Has, PMap.remove, hne] using h8.1,
          by simpa [PMap.Has, PMap.insert, hne] using h8.2⟩
      · intro i hc
        by_cases hi : i = id
        · subst hi; exact h.9 i (.inl hin)
        · refine h.9 i ?_
          simpa [PMap.Has, PMap.remove, PMap.insert, hi] using hc
      · intro i hc hc'
        by_cases hi : i = id
        · subst hi; simp [PMap.Has] at hc
        · exact h.10 i (by simpa [PMap.Has, PMap.remove, hi] using hc)
            (by simpa [PMap.Has, PMap.insert, hi] using hc')
  | crash ht hd => cases hd; exact ids_clear ht rfl rfl

theorem ids {P : Type} {prog : Program P} {g restart} {tr} {w : World P}
    (h : (machine prog g restart).Exec tr w) : Ids w := by
  apply Machine.exec_invariant (M := machine prog g restart) (I := fun _ w => Ids w) _ _ h
  · intro w hw; exact ids_clear hw.tok hw.idle.1 hw.idle.2
  · intro _ _ _ _ hI hs; exact hI.step hs

end Verif.Tok
