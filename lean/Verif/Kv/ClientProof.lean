import Verif.Kv.Client
/-
Consequences of the client's specification. No code is modelled here.
-/
namespace Verif.Kv.Client

/-- All positions are in the log, and the first `a` changes are those of `l`. -/
structure Keeps (l : List Entry) (c : Client) : Prop where
  log : l <+: c.log
  durable : l.length ≤ c.durable

/-- Before the answer: the log has grown from `l`, and if the request is open it was made no earlier. -/
structure Waits (l : List Entry) (id : Nat) (c : Client) : Prop where
  log : l <+: c.log
  sync : ∀ n, c.syncs id = some n → l.length ≤ n

theorem Next.le {c c' : Client} {u : UIOp} (h : Next c u c') (hd : c.durable ≤ c.log.length) :
    c'.durable ≤ c'.log.length := by
  cases h with
  | put => show c.durable ≤ (_ ++ _ : List Entry).length; simp; omega
  | clone => show c.durable ≤ (_ ++ _ : List Entry).length; simp; omega
  | noop h1 h2 => exact h2
  | crash => show c.durable ≤ (c.log.take c.durable).length; simp; omega
  | _ => exact hd

theorem run_le {c c' : Client} {tr : List UIOp} (h : machine.Run c tr c')
    (hd : c.durable ≤ c.log.length) : c'.durable ≤ c'.log.length := by
  induction h with
  | nil => exact hd
  | cons hs _ ih => exact ih (Next.le hs hd)

theorem Next.keeps {l : List Entry} {c c' : Client} {u : UIOp} (h : Next c u c') (hk : Keeps l c) :
    Keeps l c' := by
  cases h with
  | put => exact ⟨hk.log.trans (List.prefix_append _ _), hk.durable⟩
  | clone => exact ⟨hk.log.trans (List.prefix_append _ _), hk.durable⟩
  | noop h1 h2 => exact ⟨hk.log, Nat.le_trans hk.durable h1⟩
  | crash =>
    refine ⟨?_, hk.durable⟩
    show l <+: c.log.take c.durable
    rw [List.prefix_take_iff]
    exact ⟨hk.log, hk.durable⟩
  | _ => exact ⟨hk.log, hk.durable⟩

theorem run_keeps {l : List Entry} {c c' : Client} {tr : List UIOp} (h : machine.Run c tr c')
    (hk : Keeps l c) : Keeps l c' := by
  induction h with
  | nil => exact hk
  | cons hs _ ih => exact ih (Next.keeps hs hk)

theorem Next.waits {l : List Entry} {id : Nat} {c c' : Client} {u : UIOp} (h : Next c u c')
    (hu : u ≠ .crash) (hk : Waits l id c) : Waits l id c' := by
  cases h with
  | put => exact ⟨hk.log.trans (List.prefix_append _ _), hk.sync⟩
  | clone => exact ⟨hk.log.trans (List.prefix_append _ _), hk.sync⟩
  | crash => exact absurd rfl hu
  | @pushSync x _ =>
    refine ⟨hk.log, fun n hn => ?_⟩
    change c.syncs.insert x c.log.length id = some n at hn
    by_cases e : id = x
    · subst e
      simp at hn
      rw [← hn]; exact hk.log.length_le
    · rw [PMap.insert_other _ _ e] at hn
      exact hk.sync n hn
  | @popSync x _ _ _ =>
    refine ⟨hk.log, fun n hn => ?_⟩
    change c.syncs.remove x id = some n at hn
    by_cases e : id = x
    · subst e; simp at hn
    · rw [PMap.remove_other _ e] at hn
      exact hk.sync n hn
  | _ => exact ⟨hk.log, hk.sync⟩

theorem run_waits {l : List Entry} {id : Nat} {c c' : Client} {tr : List UIOp}
    (h : machine.Run c tr c') (hu : UIOp.crash ∉ tr) (hk : Waits l id c) : Waits l id c' := by
  induction h with
  | nil => exact hk
  | cons hs _ ih =>
    exact ih (fun hc => hu (List.mem_cons_of_mem _ hc))
      (Next.waits hs (fun e => hu (e ▸ List.mem_cons_self)) hk)

/-- What was there when a synchronisation was asked for stays once it is answered. -/
theorem synced {c c' : Client} {id : Nat} {mid post : List UIOp}
    (h : machine.Run c (.pushSync id :: mid ++ .popSync id :: post) c') (hm : UIOp.crash ∉ mid) :
    c.log <+: c'.log := by
  obtain ⟨c2, h1, h2⟩ := Machine.Run.split _ h
  cases h1 with
  | @cons _ _ x _ _ hs h1 =>
    have w1 : Waits c.log id x := by
      cases hs
      exact ⟨List.prefix_refl _, fun n hn => by simp at hn; omega⟩
    have w2 := run_waits h1 hm w1
    cases h2 with
    | @cons _ _ y _ _ hs h2 =>
      have k : Keeps c.log y := by
        cases hs with
        | popSync hn hd => exact ⟨w2.log, Nat.le_trans (w2.sync _ hn) hd⟩
      exact (run_keeps h2 k).log

end Verif.Kv.Client
