import Verif.Token.Demo
import Verif.Props.C32
/-
What a sent reply says about the past, and that ids of pending requests differ.
-/
namespace Verif.Tok
open AsyncDisk (Since)

/-- the event makes the reply -/
def Makes (r : TReply) (e : Event) : Prop :=
  (∃ req, e = .prog (.execute req r)) ∨ ∃ id, e = .prog (.replySync id) ∧ r = ⟨.sync, id⟩

theorem made {P : Type} {prog : Program P} {g restart tr} {w : World P}
    (h : (machine prog g restart).Exec tr w) :
    ∀ r, w.tok.replies.Has r → Since (Makes r) (· = .crash) tr := by
  apply Machine.exec_invariant (M := machine prog g restart)
    (I := fun tr w => ∀ r, w.tok.replies.Has r → Since (Makes r) (· = .crash) tr) _ _ h
  · intro w hw r hr
    rw [hw.tok.replies] at hr; exact absurd hr (MSet.not_has_empty _)
  · intro tr w e w' hI hs r hr
    cases hs with
    | receive _ _ => exact (hI r hr).keep (by simp)
    | send _ => exact (hI r (MSet.has_of_remove hr)).keep (by simp)
    | sendDisk _ _ => exact (hI r hr).keep (by simp)
    | receiveDisk _ => exact (hI r hr).keep (by simp)
    | prog hp ht =>
      cases ht with
      | internal _ => exact (hI r hr).keep (by simp)
      | disk _ _ => exact (hI r hr).keep (by simp)
      | requestSync _ _ => exact (hI r hr).keep (by simp)
      | execute _ _ _ =>
        rcases MSet.has_insert.mp hr with rfl | hr
        · exact .new (.inl ⟨_, rfl⟩)
        · exact (hI r hr).keep (by simp)
      | replySync _ =>
        rcases MSet.has_insert.mp hr with rfl | hr
        · exact .new (.inr ⟨_, rfl, rfl⟩)
        · exact (hI r hr).keep (by simp)
    | didRead _ => exact (hI r hr).keep (by simp)
    | didWrite _ => exact (hI r hr).keep (by simp)
    | crash ht _ => rw [ht.replies] at hr; exact absurd hr (MSet.not_has_empty _)

/-- pending requests and pending sync requests of the system model have different ids -/
theorem ids_apart {P : Type} {prog : Program P} {g} {s : SysState P} (h : (sysMachine prog g).Reachable s) :
    ∀ q, s.requests.Has q → ¬ s.syncRequests.Has q.id := by
  have : (∀ q, s.requests.Has q → s.idHistory.Has q.id) ∧ (∀ id, s.syncRequests.Has id → s.idHistory.Has id) ∧
      ∀ q, s.requests.Has q → ¬ s.syncRequests.Has q.id := by
    apply Machine.reachable_invariant (M := sysMachine prog g)
      (I := fun s => (∀ q, s.requests.Has q → s.idHistory.Has q.id) ∧
        (∀ id, s.syncRequests.Has id → s.idHistory.Has id) ∧
        ∀ q, s.requests.Has q → ¬ s.syncRequests.Has q.id) _ _ h
    · intro s hs
      rw [hs.requests, hs.syncRequests]
      exact ⟨fun _ h => absurd h (MSet.not_has_empty _), fun _ h => absurd h (MSet.not_has_empty _),
        fun _ h => absurd h (MSet.not_has_empty _)⟩
    · intro s l s' ⟨h1, h2, h3⟩ hs
      cases hs with
      | acceptRequest hf =>
        refine ⟨?_, fun id hid => MSet.has_insert.mpr (.inr (h2 id hid)), ?_⟩
        · intro q hq
          rcases MSet.has_insert.mp hq with rfl | hq
          · exact MSet.has_insert.mpr (.inl rfl)
          · exact MSet.has_insert.mpr (.inr (h1 q hq))
        · intro q hq hc
          rcases MSet.has_insert.mp hq with rfl | hq
          · exact hf (h2 _ hc)
          · exact h3 q hq hc
      | acceptSync hf =>
        refine ⟨fun q hq => MSet.has_insert.mpr (.inr (h1 q hq)), ?_, ?_⟩
        · intro id hid
          rcases MSet.has_insert.mp hid with rfl | hid
          · exact MSet.has_insert.mpr (.inl rfl)
          · exact MSet.has_insert.mpr (.inr (h2 id hid))
        · intro q hq hc
          rcases MSet.has_insert.mp hc with he | hc
          · exact hf (he ▸ h1 q hq)
          · exact h3 q hq hc
      | execute _ _ =>
        exact ⟨fun q hq => h1 q (MSet.has_of_remove hq), h2, fun q hq => h3 q (MSet.has_of_remove hq)⟩
      | programAcceptSync _ =>
        exact ⟨h1, fun id hid => h2 id (MSet.has_of_remove hid), fun q hq hc => h3 q hq (MSet.has_of_remove hc)⟩
      | crash _ _ =>
        exact ⟨fun _ h => absurd h (MSet.not_has_empty _), fun _ h => absurd h (MSet.not_has_empty _),
          fun _ h => absurd h (MSet.not_has_empty _)⟩
      | _ => exact ⟨h1, h2, h3⟩
  exact this.2.2

end Verif.Tok
