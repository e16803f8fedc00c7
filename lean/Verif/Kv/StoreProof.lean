import Verif.Kv.BlockRefine
import Verif.Kv.Store
/-
The block system behaves like the ideal store. No code is modelled here.
-/
namespace Verif.Kv.BlockSystem
open BlockCache
variable {Node : Type} {A : App Node}

theorem ops_apply {g g' : Graph Node} {ops : List (GOp Node)} (h : Ops (GStep A) g ops g') :
    g' = ops.foldl Store.apply g ∧ Store.Legal A g ops := by
  induction h with
  | nil => exact ⟨rfl, trivial⟩
  | cons hs _ ih =>
    cases hs with
    | alloc h1 h2 => exact ⟨ih.1, h2, h1, ih.2⟩
    | write h1 h2 => exact ⟨ih.1, h2, h1, ih.2⟩

/-- How the ideal store relates to the system. -/
structure Agree (v : StatesView.State (Graph Node)) (t : Store Node) : Prop where
  cur : t.cur = v.ephemeral
  frozen : t.frozen = v.frozen
  base : t.book.base = v.persistentLoc
  pending : t.book.pending = v.frozenLoc
  image : ∀ l, t.book.ok l → ∃ g, t.image l = some g ∧ v.disk l = some g
  baseOk : ∀ l, t.book.base = some l → t.book.ok l
  pendOk : ∀ l, t.book.pending = some l → t.book.ok l
  only : ∀ b, t.book.base = some b → ∀ l, t.book.ok l → l = b ∨ t.book.pending = some l
  off : t.book.base = none → t.cur = none ∧ t.frozen = none ∧ t.book.pending = none

theorem Agree.kept {v : StatesView.State (Graph Node)} {t : Store Node} (h : Agree v t)
    {disk : PMap Loc (Graph Node)} (hk : StatesView.DiskKept v { v with disk := disk }) :
    ∀ l, t.book.ok l → ∃ g, t.image l = some g ∧ disk l = some g := by
  intro l hl
  obtain ⟨g, h1, h2⟩ := h.image l hl
  refine ⟨g, h1, ?_⟩
  cases hb : v.persistentLoc with
  | none => exact hk.all hb l g h2
  | some b =>
    rcases h.only b (h.base.trans hb) l hl with rfl | hp
    · obtain ⟨g', h3, h4⟩ := hk.persistent l hb
      rw [h2] at h3; cases h3; exact h4
    · obtain ⟨g', h3, h4⟩ := hk.frozen l (h.pending ▸ hp)
      rw [h2] at h3; cases h3; exact h4

theorem GraphNext.sim {v v' : StatesView.State (Graph Node)} {t : Store Node} {l : Label Node}
    (h : Agree v t) (hn : GraphNext A v l v') (hc : l.vop = .crash → l.step = none)
    (hd : ∀ x, l.vop = .sendPersistentLoc x → t.book.ok x) :
    ∃ t', Store.Next A t l t' ∧ Agree v' t' ∧ t'.book = t.book.step l.vop := by
  cases hn with
  | txn he hv hr ho =>
    obtain ⟨rfl, hl⟩ := ops_apply ho
    exact ⟨_, .txn (h.cur.trans he) hv hr hl,
      ⟨rfl, h.frozen, h.base, h.pending, h.image, h.baseOk, h.pendOk, h.only,
        fun hb => by have := (h.off hb).1; rw [h.cur, he] at this; cases this⟩, rfl⟩
  | free he h1 h2 h3 =>
    exact ⟨_, .collect (h.cur.trans he) h1 h2 h3,
      ⟨rfl, h.frozen, h.base, h.pending, h.image, h.baseOk, h.pendOk, h.only,
        fun hb => by have := (h.off hb).1; rw [h.cur, he] at this; cases this⟩, rfl⟩
  | other hs hcu =>
    obtain ⟨vop, step⟩ := l
    change StatesView.Next still v vop v' at hs
    cases hs with
    | @obtain_ l g hp hg =>
      obtain ⟨g', h1, h2⟩ := h.image l (hd l rfl)
      have : some g' = some g := h2.symm.trans hg
      cases this
      refine ⟨_, .load (h.off (h.base.trans hp)).1 (hd l rfl) h1,
        ⟨rfl, h.frozen, rfl, ?_, ?_, ?_, ?_, ?_, fun hb => (by cases hb)⟩, rfl⟩
      · show none = v.frozenLoc
        rw [← h.pending]; exact (h.off (h.base.trans hp)).2.2.symm
      · rintro x rfl; exact ⟨_, h1, h2⟩
      · intro x hx; cases hx; rfl
      · intro x hx; cases hx
      · intro b hb x hx; cases hb; exact .inl hx
    | advance _ hf => exact hf.elim
    | crash hk =>
      cases hc rfl
      refine ⟨_, .crash, ⟨rfl, rfl, rfl, rfl, h.kept hk, ?_, ?_, ?_, fun _ => ⟨rfl, rfl, rfl⟩⟩, rfl⟩
      · intro x hx; cases hx
      · intro x hx; cases hx
      · intro x hx; cases hx
    | freeze =>
      refine ⟨_, .freeze, ⟨h.cur, h.cur, h.base, rfl, ?_, ?_, ?_, ?_,
        fun hb => ⟨(h.off hb).1, (h.off hb).1, rfl⟩⟩, rfl⟩
      · intro x hx; exact h.image x (h.baseOk x hx)
      · intro x hx; exact hx
      · intro x hx; cases hx
      · intro b hb x hx
        exact .inl (Option.some.inj (hx.symm.trans hb))
    | diskChange hk =>
      exact ⟨t, .other (.inl rfl), ⟨h.cur, h.frozen, h.base, h.pending, h.kept hk, h.baseOk, h.pendOk,
        h.only, h.off⟩, rfl⟩
    | @provideFrozen l g h1 h2 h3 =>
      refine ⟨_, .announce (h.frozen.trans h2), ⟨h.cur, h.frozen, h.base, rfl, ?_, ?_, ?_, ?_,
        fun hb => by have := (h.off hb).2.1; rw [h.frozen, h2] at this; cases this⟩, rfl⟩
      · intro x hx
        by_cases he : x = l
        · exact ⟨g, by simp [he], he ▸ h3⟩
        · rcases hx with hx | hx
          · obtain ⟨g', h4, h5⟩ := h.image x (h.baseOk x hx)
            exact ⟨g', by simpa [he] using h4, h5⟩
          · exact absurd hx he
      · intro x hx; exact .inl hx
      · intro x hx; cases hx; exact .inr rfl
      · intro b hb x hx
        rcases hx with hx | rfl
        · exact .inl (Option.some.inj (hx.symm.trans hb))
        · exact .inr rfl
    | forgetOld =>
      refine ⟨_, .adopt, ⟨h.cur, rfl, h.pending, rfl, ?_, ?_, ?_, ?_,
        fun hb => absurd (h.pending.symm.trans hb) (hcu rfl)⟩, rfl⟩
      · intro x hx; exact h.image x (h.pendOk x hx)
      · intro x hx; exact hx
      · intro x hx; cases hx
      · intro b hb x hx
        exact .inl (Option.some.inj (hx.symm.trans hb))
    | stutterJ => exact ⟨t, .other (.inr (.inl rfl)), h, rfl⟩
    | stutterS => exact ⟨t, .other (.inl rfl), h, rfl⟩
    | stutterPush => exact ⟨t, .other (.inr (.inr (.inl ⟨_, rfl⟩))), h, rfl⟩
    | stutterPop => exact ⟨t, .other (.inr (.inr (.inr ⟨_, rfl⟩))), h, rfl⟩

theorem crash_label {s s' : State Node} {l : Label Node} (hn : Next A s l s') :
    l.vop = .crash → l.step = none := by
  cases hn with
  | crash _ => intro _; rfl
  | machine hm _ _ =>
    intro h
    obtain ⟨m, d⟩ := s
    change BlockCache.Next A m _ _ _ _ at hm
    change _ = VOp.crash at h
    cases hm with
    | noop h1 _ => rcases h1 with rfl | rfl | ⟨_, rfl⟩ | ⟨_, rfl⟩ <;> cases h
    | _ => cases h

theorem Init.agree {ok : Node → Prop} {loc : Loc} {s : State Node} (h : Init A ok loc s) :
    ∃ t, (Store.machine A ok loc).Init t ∧ Agree (view A s) t := by
  obtain ⟨hm, _, n, hi, hn⟩ := h
  have e : view A s = ⟨diskMap A s.d, none, none, none, none⟩ := by
    obtain ⟨m, d⟩ := s
    change m = _ at hm
    subst hm; rfl
  refine ⟨⟨none, none, Book.start loc, fun _ => some (PMap.insert .empty rootRef n)⟩,
    ⟨rfl, rfl, rfl, n, rfl, hn⟩, ?_⟩
  rw [e]
  refine ⟨rfl, rfl, rfl, rfl, ?_, ?_, ?_, ?_, fun _ => ⟨rfl, rfl, rfl⟩⟩
  · rintro l rfl; exact ⟨_, rfl, diskMap_some.mpr hi⟩
  · intro l hl; cases hl
  · intro l hl; cases hl
  · intro l hl; cases hl

theorem run_sim {s s' : State Node} {t : Store Node} {tr : List (Label Node)} (hi : Inv A s)
    (h : Agree (view A s) t) (hr : Machine.Run ⟨fun _ => True, Next A⟩ s tr s')
    (hd : t.book.Disciplined (tr.map (·.vop))) :
    ∃ t', Machine.Run ⟨fun _ => True, Store.Next A⟩ t tr t' ∧ Agree (view A s') t' ∧
      t'.book = t.book.after (tr.map (·.vop)) := by
  induction hr generalizing t with
  | nil => exact ⟨t, .nil _, h, rfl⟩
  | cons hs _ ih =>
    obtain ⟨hi', hg⟩ := Next.sound hi hs
    obtain ⟨t1, h1, h2, h3⟩ := hg.sim h (crash_label hs) hd.1
    obtain ⟨t', h4, h5, h6⟩ := ih hi' h2 (h3 ▸ hd.2)
    exact ⟨t', .cons h1 h4, h5, by rw [h6, h3]; rfl⟩

theorem run_any {σ ℓ : Type} {M N : Machine σ ℓ} (h : M.Step = N.Step) {s tr s'}
    (hr : M.Run s tr s') : N.Run s tr s' := by
  induction hr with
  | nil => exact .nil _
  | cons hs _ ih => exact .cons (h ▸ hs) ih

theorem exec_sim {ok : Node → Prop} {loc : Loc} {s : State Node} {tr : List (Label Node)}
    (h : (machine A ok loc).Exec tr s) (hd : (Book.start loc).Disciplined (tr.map (·.vop))) :
    ∃ t, (Store.machine A ok loc).Exec tr t ∧ Agree (view A s) t ∧
      t.book = (Book.start loc).after (tr.map (·.vop)) := by
  obtain ⟨s0, h0, hr⟩ := h
  obtain ⟨t0, ht, ha⟩ := Init.agree h0
  have hb : t0.book = Book.start loc := ht.2.2.1
  obtain ⟨t, h1, h2, h3⟩ := run_sim (Init.inv h0) ha (run_any (M := machine A ok loc) (N := ⟨fun _ => True, Next A⟩) rfl hr) (hb ▸ hd)
  exact ⟨t, ⟨t0, ht, run_any (M := ⟨fun _ => True, Store.Next A⟩) (N := Store.machine A ok loc) rfl h1⟩, h2, hb ▸ h3⟩

end Verif.Kv.BlockSystem

namespace Verif.Kv.Store
variable {Node : Type} {A : App Node} {ok : Node → Prop} {loc : Loc}

/-- Every node kept anywhere passes the application's check. -/
structure AllWf (A : App Node) (t : Store Node) : Prop where
  cur : ∀ g, t.cur = some g → ∀ x n, g x = some n → A.wf n
  frozen : ∀ g, t.frozen = some g → ∀ x n, g x = some n → A.wf n
  image : ∀ l g, t.image l = some g → t.book.ok l → ∀ x n, g x = some n → A.wf n

theorem foldl_wf {ops : List (GOp Node)} {g : Graph Node} (hg : ∀ x n, g x = some n → A.wf n)
    (ho : ∀ x n, GOp.alloc x n ∈ ops ∨ GOp.write x n ∈ ops → A.wf n) :
    ∀ x n, ops.foldl apply g x = some n → A.wf n := by
  induction ops generalizing g with
  | nil => exact hg
  | cons op ops ih =>
    refine ih ?_ (fun x n h => ho x n (h.imp (List.mem_cons_of_mem _) (List.mem_cons_of_mem _)))
    intro x n hx
    cases op with
    | alloc r m =>
      change g.insert r m x = some n at hx
      unfold PMap.insert at hx
      split at hx
      · cases hx; exact ho r n (.inl (by simp))
      · exact hg _ _ hx
    | write r m =>
      change g.insert r m x = some n at hx
      unfold PMap.insert at hx
      split at hx
      · cases hx; exact ho r n (.inr (by simp))
      · exact hg _ _ hx

/-- The images in the book are base and pending or, when down, everything good. -/
structure BookOk (t : Store Node) : Prop where
  base : ∀ l, t.book.base = some l → t.book.ok l
  pending : ∀ l, t.book.pending = some l → t.book.ok l

theorem all_wf (hok : ∀ n, ok n → A.wf n)
    (hwf : ∀ u reads ops, A.valid u reads ops → ∀ x n, GOp.alloc x n ∈ ops ∨ GOp.write x n ∈ ops →
      A.wf n) {t : Store Node} (h : (machine A ok loc).Reachable t) : AllWf A t := by
  refine (Machine.reachable_invariant (I := fun t => AllWf A t ∧ BookOk t) ?_ ?_ h).1
  · rintro t ⟨h1, h2, h3, n, h4, h5, _⟩
    refine ⟨⟨fun g hg => (by rw [h1] at hg; cases hg), fun g hg => (by rw [h2] at hg; cases hg), ?_⟩, ?_⟩
    · intro l g hg hl x m hx
      rw [h3] at hl
      cases (hl : l = loc)
      rw [h4] at hg; cases hg
      unfold PMap.insert at hx
      split at hx
      · cases hx; exact hok _ h5
      · cases hx
    · refine ⟨fun l hl => ?_, fun l hl => ?_⟩ <;> · rw [h3] at hl; cases hl
  · rintro t l t' ⟨h, hb⟩ hn
    cases hn with
    | load h1 h2 h3 =>
      refine ⟨⟨fun g hg => (by cases hg; exact h.image _ _ h3 h2), h.frozen, ?_⟩, ?_, ?_⟩
      · intro l g hg hl
        cases (hl : l = _)
        exact h.image _ _ hg h2
      · intro l hl; cases hl; rfl
      · intro l hl; cases hl
    | txn h1 h2 h3 h4 =>
      refine ⟨⟨fun g hg => ?_, h.frozen, h.image⟩, hb.base, hb.pending⟩
      cases hg
      exact foldl_wf (h.cur _ h1) (hwf _ _ _ h2)
    | collect h1 h2 h3 h4 =>
      refine ⟨⟨fun g hg => ?_, h.frozen, h.image⟩, hb.base, hb.pending⟩
      cases hg
      intro x n hx
      unfold PMap.remove at hx
      split at hx
      · cases hx
      · exact h.cur _ h1 _ _ hx
    | freeze =>
      refine ⟨⟨h.cur, h.cur, fun l g hg hl => h.image l g hg (hb.base l hl)⟩, fun l hl => hl, ?_⟩
      intro l hl; cases hl
    | @announce l g step h1 =>
      refine ⟨⟨h.cur, h.frozen, fun x g' hg hl => ?_⟩, fun x hx => .inl hx, ?_⟩
      · change (if x = l then some g else t.image x) = some g' at hg
        split at hg
        · cases hg; exact h.frozen _ h1
        · next hne =>
          rcases hl with hl | hl
          · exact h.image x g' hg (hb.base x hl)
          · exact absurd hl hne
      · intro x hx; cases hx; exact .inr rfl
    | adopt =>
      refine ⟨⟨h.cur, fun g hg => (by cases hg), fun l g hg hl => h.image l g hg (hb.pending l hl)⟩,
        fun l hl => hl, ?_⟩
      intro l hl; cases hl
    | crash =>
      refine ⟨⟨fun g hg => (by cases hg), fun g hg => (by cases hg), h.image⟩, ?_, ?_⟩
      · intro l hl; cases hl
      · intro l hl; cases hl
    | other => exact ⟨h, hb⟩

end Verif.Kv.Store
