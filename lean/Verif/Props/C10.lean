import Verif.Journal.Linked
import Verif.Props.C09
/-
C10. The on-disk linked journal behaves like the paged journal.
-/
namespace Verif.C10
open Verif Paged Linked

/-- The image `q` of the paged journal is what one reads from the linked image `t` by following
pointers from the newest record, not following a pointer out of a record that starts at or below
the boundary. `Walk` is the inductive definition of that reading. -/
def ReadsAs (t : Linked.TJ) (q : Paged.TJ) : Prop :=
  q.boundary = t.disk.boundary ∧ Walk t.disk t.root q.chain

/-- Labels agree: equal except that a frozen image is replaced by what it reads as. -/
inductive SameLabel : Label Linked.TJ → Label Paged.TJ → Prop
  | read (m) : SameLabel (.readForRecovery m) (.readForRecovery m)
  | freeze {t q} : ReadsAs t q → SameLabel (.freezeForCommit t) (.freezeForCommit q)
  | query (l) : SameLabel (.queryEndLsn l) (.queryEndLsn l)
  | put (m) : SameLabel (.put m) (.put m)
  | discard (a b) : SameLabel (.discardOld a b) (.discardOld a b)
  | internal : SameLabel .internal .internal

theorem sameLabel {l l'} (h : LabelRel l l') : SameLabel l l' := by
  cases h with
  | read => exact .read _
  | freeze h => exact .freeze h
  | query => exact .query _
  | put => exact .put _
  | discard => exact .discard _ _
  | internal => exact .internal

/-- An image is readable in one way only. -/
theorem readsAs_unique {t q q'} (h : ReadsAs t q) (h' : ReadsAs t q') : q = q' := TJRel.det h h'

/-- A decodable image is readable: following pointers ends and never dangles. -/
theorem decodable_readable {t : Linked.TJ} (h : t.Decodable) : ∃ q, ReadsAs t q ∧ q.WF := by
  obtain ⟨q, hq⟩ := TJRel.exists h
  exact ⟨q, hq, hq.wf h.1⟩

/-- Refinement, with the invariant. -/
theorem refines_inv {t q tr s} (hq : ReadsAs t q) (h : (Linked.machine t).Exec tr s) :
    ∃ tr' p, (Paged.machine q).Exec tr' p ∧ Forall2 SameLabel tr tr' ∧ Rel s p := by
  refine Machine.exec_invariant (M := Linked.machine t)
    (I := fun tr s => ∃ tr' p, (Paged.machine q).Exec tr' p ∧ Forall2 SameLabel tr tr' ∧ Rel s p)
    ?_ ?_ h
  · intro s hs
    obtain ⟨p, h1, h2⟩ := Linked.init_refines hs hq
    exact ⟨[], p, ⟨p, h1, .nil _⟩, .nil, h2⟩
  · rintro tr s l s' ⟨tr', p, h1, h2, h3⟩ hs
    obtain ⟨l', p', a1, a2, a3⟩ := Linked.step_refines h3 hs
    exact ⟨tr' ++ [l'], p', h1.snoc a2, h2.snoc (sameLabel a1), a3⟩

/-- Refinement: every execution of the linked journal is, label by label, an execution of the
paged journal opened on what the image reads as, and ends in a state that reads as the paged
state. -/
theorem refines {t q tr s} (hq : ReadsAs t q) (h : (Linked.machine t).Exec tr s) :
    ∃ tr' p, (Paged.machine q).Exec tr' p ∧ Forall2 SameLabel tr tr' ∧
      ReadsAs s.tj p.tj ∧ s.tail = p.tail := by
  obtain ⟨tr', p, h1, h2, h3⟩ := refines_inv hq h
  exact ⟨tr', p, h1, h2, h3.2.1, h3.2.2.symm⟩

/-- In every reachable state following pointers terminates and no pointer reachable from the
newest record dangles. -/
theorem walk_terminates {t tr s} (h : (Linked.machine t).Exec tr s) :
    (∃ c, Walk s.tj.disk s.tj.root c) ∧
    (∀ a r x, s.tj.disk.Reach s.tj.root a → s.tj.disk.entries a = some r →
      r.croppedPrior s.tj.disk.boundary = some x → ∃ r', s.tj.disk.entries x = some r') := by
  have ht : t.Decodable := by obtain ⟨_, ⟨hd, _⟩, _⟩ := h; exact hd
  obtain ⟨q, hq, _⟩ := decodable_readable ht
  obtain ⟨tr', p, _, _, h3⟩ := refines_inv hq h
  refine ⟨⟨_, h3.2.1.2⟩, ?_⟩
  intro a r x _ hr hx
  exact h3.1.2.1.1.2.1 a r hr x hx

/-- The messages held by image `t` (what following the pointers visits, at or above the boundary)
and the messages appended by `tr`. -/
def Logged (t : Linked.TJ) (tr : List (Label Linked.TJ)) (l : LSN) (km : KeyedMessage) : Prop :=
  (t.disk.boundary ≤ l ∧ ∃ a r, t.disk.Reach t.root a ∧ t.disk.entries a = some r ∧
    r.msgs.msgs l = some km) ∨
  ∃ m, Label.put m ∈ tr ∧ m.Contains l ∧ m.msgs l = some km

def Truncated (tr : List (Label Linked.TJ)) (l : LSN) : Prop :=
  ∃ a e, Label.discardOld a e ∈ tr ∧ l < a

theorem walk_mem_iff {d : DiskView} {p c} (h : Walk d p c) (m : MsgHistory) :
    m ∈ c ↔ ∃ a r, d.Reach p a ∧ d.entries a = some r ∧ r.msgs = m := by
  induction h with
  | nil =>
    constructor
    · intro h; cases h
    · rintro ⟨a, r, h, _⟩; cases h
  | @cons a r c he hc ih =>
    rw [List.mem_cons, ih]
    constructor
    · rintro (rfl | ⟨x, q, h1, h2, h3⟩)
      · exact ⟨a, r, .here he, he, rfl⟩
      · exact ⟨x, q, .there he h1, h2, h3⟩
    · rintro ⟨x, q, h1, h2, h3⟩
      cases h1 with
      | here =>
        rw [he] at h2; cases h2; exact .inl h3.symm
      | there he' h1 =>
        rw [he] at he'; cases he'
        exact .inr ⟨x, q, h1, h2, h3⟩

/-- What can be read from disk blocks reachable from the newest record plus the in-memory tail is
exactly what was logged and not truncated. -/
theorem journal_exact {t tr s} (h : (Linked.machine t).Exec tr s) (l : LSN) (km : KeyedMessage) :
    (s.tj.disk.boundary ≤ l ∧
      ((∃ a r, s.tj.disk.Reach s.tj.root a ∧ s.tj.disk.entries a = some r ∧
        r.msgs.msgs l = some km) ∨ s.tail.msgs l = some km)) ↔
    Logged t tr l km ∧ ¬ Truncated tr l := by
  have ht : t.Decodable := by obtain ⟨_, ⟨hd, _⟩, _⟩ := h; exact hd
  obtain ⟨q, hq, _⟩ := decodable_readable ht
  obtain ⟨tr', p, h1, hf, h3, h4⟩ := refines hq h
  have key := C09.journal_exact h1 l km
  have hmem : ∀ {t : Linked.TJ} {q : Paged.TJ}, ReadsAs t q →
      ((∃ m ∈ q.chain, m.msgs l = some km) ↔ ∃ a r, t.disk.Reach t.root a ∧
        t.disk.entries a = some r ∧ r.msgs.msgs l = some km) := by
    intro t q hq
    constructor
    · rintro ⟨m, hm, hl⟩
      obtain ⟨a, r, x1, x2, rfl⟩ := (walk_mem_iff hq.2 m).mp hm
      exact ⟨a, r, x1, x2, hl⟩
    · rintro ⟨a, r, x1, x2, hl⟩
      exact ⟨r.msgs, (walk_mem_iff hq.2 _).mpr ⟨a, r, x1, x2, rfl⟩, hl⟩
  have hlog : C09.Logged q tr' l km ↔ Logged t tr l km := by
    unfold C09.Logged Logged
    rw [hmem hq, hq.1]
    refine or_congr Iff.rfl ?_
    constructor
    · rintro ⟨m, hm, hc⟩
      obtain ⟨x, hx, hr⟩ := hf.mem_right hm
      cases hr with
      | put => exact ⟨m, hx, hc⟩
    · rintro ⟨m, hm, hc⟩
      obtain ⟨x, hx, hr⟩ := hf.mem_left hm
      cases hr with
      | put => exact ⟨m, hx, hc⟩
  have htr : C09.Truncated tr' l ↔ Truncated tr l := by
    unfold C09.Truncated Truncated
    constructor
    · rintro ⟨a, e, hm, hl⟩
      obtain ⟨x, hx, hr⟩ := hf.mem_right hm
      cases hr with
      | discard => exact ⟨a, e, hx, hl⟩
    · rintro ⟨a, e, hm, hl⟩
      obtain ⟨x, hx, hr⟩ := hf.mem_left hm
      cases hr with
      | discard => exact ⟨a, e, hx, hl⟩
  rw [← hlog, ← htr, ← key, hmem h3, h3.1, h4]

/-- A recovery read returns, at every LSN of its range, a logged message that was not truncated. -/
theorem read_exact {t tr s s' m} (h : (Linked.machine t).Exec tr s)
    (hr : Linked.Next s (.readForRecovery m) s') :
    s' = s ∧ ∀ l, m.Contains l →
      ∃ km, m.msgs l = some km ∧ Logged t tr l km ∧ ¬ Truncated tr l := by
  cases hr with
  | @readForRecovery _ n a r hw hm hd hcan hp he hmsg =>
    refine ⟨rfl, fun l hl => ?_⟩
    obtain ⟨km, hkm⟩ := MsgHistory.wf_msgs_some hm hl
    refine ⟨km, hkm, (journal_exact h l km).mp ?_⟩
    have hreach : s.tj.disk.Reach s.tj.root a := by
      have aux : ∀ n p, s.tj.disk.CanCrop p n → s.tj.disk.pointerAfterCrop p n = some a →
          s.tj.disk.Nondangling p → s.tj.disk.Reach p a := by
        intro n
        induction n with
        | zero => intro p _ h _; cases h; exact .here he
        | succ n ih =>
          intro p hc h hnd
          cases p with
          | none => exact absurd rfl hc.1
          | some x =>
            obtain ⟨q, hq⟩ := hnd x rfl
            have hn : s.tj.disk.next (some x) = q.croppedPrior s.tj.disk.boundary := by
              simp only [DiskView.next, hq]
            refine .there hq ?_
            rw [← hn]
            exact ih _ hc.2 h (by rw [hn]; exact hd.1.1.2.1 x q hq)
      exact aux n _ hcan hp hd.1.2.1
    have hrw := hd.1.1.1 a r he
    rw [← hmsg] at hkm hl
    by_cases hs : r.msgs.seqStart ≤ s.tj.disk.boundary
    · simp only [MsgHistory.maybeDiscardOld, if_pos hs, MsgHistory.discardOld] at hkm
      simp only [MsgHistory.maybeDiscardOld, if_pos hs, MsgHistory.Contains, MsgHistory.discardOld] at hl
      rw [if_pos hl] at hkm
      exact ⟨hl.1, .inl ⟨a, r, hreach, he, hkm⟩⟩
    · simp only [MsgHistory.maybeDiscardOld, if_neg hs] at hkm hl
      exact ⟨by have := hl.1; omega, .inl ⟨a, r, hreach, he, hkm⟩⟩

/-! ### A concrete run: two records on disk, a truncation inside the first with garbage collection
of nothing, then one with collection of the older block. -/

def a0 : Address := ⟨0, 0⟩
def a1 : Address := ⟨0, 1⟩

def demo : List (Label Linked.TJ) := [.put C09.m3, .internal, .internal, .queryEndLsn 3]

theorem mkfs_decodable : Linked.TJ.mkfs.Decodable := by
  refine ⟨⟨⟨?_, ?_, ?_, ?_⟩, ?_, ?_, ?_⟩, fun _ => 0, ?_⟩ <;>
    simp [DiskView.EntriesWF, DiskView.NondanglingPointers, DiskView.BlocksCanConcat,
      DiskView.BlocksEachHaveLink, DiskView.Nondangling, Linked.TJ.mkfs, DiskView.ValidRanking]

/-- Every reachable state satisfies the invariant. -/
theorem inv_reach {t tr s} (h : (Linked.machine t).Exec tr s) : s.Inv := by
  have ht : t.Decodable := by obtain ⟨_, ⟨hd, _⟩, _⟩ := h; exact hd
  obtain ⟨q, hq, _⟩ := decodable_readable ht
  obtain ⟨_, _, _, _, h3⟩ := refines_inv hq h
  exact h3.1

theorem Exec_step {t tr s l s'} (h : (Linked.machine t).Exec tr s) (hs : Linked.Next s l s') :
    (Linked.machine t).Exec (tr ++ [l]) s' := h.snoc hs

theorem demo_exec : ∃ s, (Linked.machine .mkfs).Exec demo s ∧
    (∃ r, s.tj.disk.entries a1 = some r ∧ r.prior = some a0) ∧ s.tj.root = some a1 := by
  have e0 : (Linked.machine .mkfs).Exec [] ⟨.mkfs, .emptyAt 0⟩ := ⟨_, ⟨mkfs_decodable, rfl⟩, .nil _⟩
  have e1 := Exec_step (l := .put C09.m3) e0 (.put (inv_reach e0).1 C09.m3_wf rfl)
  have e2 := Exec_step (l := .internal) e1
    (.marshal (cut := 2) (a := a0) rfl (inv_reach e1).1 (by decide) ⟨by decide, by decide⟩)
  have e3 := Exec_step (l := .internal) e2
    (.marshal (cut := 3) (a := a1) (by decide) (inv_reach e2).1 (by decide) ⟨by decide, by decide⟩)
  have e4 := Exec_step (l := .queryEndLsn 3) e3 (.queryEndLsn (inv_reach e3).1)
  exact ⟨_, e4, ⟨_, rfl, rfl⟩, rfl⟩

/-- The theorems apply to it. -/
example : ∃ s, (Linked.machine .mkfs).Exec demo s ∧ s.tj.disk.boundary ≤ 0 ∧
    ((∃ a r, s.tj.disk.Reach s.tj.root a ∧ s.tj.disk.entries a = some r ∧
        r.msgs.msgs 0 = some ⟨1, .define 10⟩) ∨ s.tail.msgs 0 = some ⟨1, .define 10⟩) := by
  obtain ⟨s, hs, _⟩ := demo_exec
  refine ⟨s, hs, (journal_exact hs 0 _).mpr ⟨.inr ⟨C09.m3, by simp [demo], ⟨by decide, by decide⟩, rfl⟩, ?_⟩⟩
  rintro ⟨a, e, hm, _⟩
  simp [demo] at hm

end Verif.C10
