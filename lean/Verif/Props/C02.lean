import Verif.Props.C01
/-
C02. A sync that was acknowledged is never lost.
The statement is about event sequences only: `H n` is the list of puts in effect after `n`
events (`ClientSpec.Explains` says how it evolves: puts append, crashes drop a suffix, queries
answer from it).
-/
namespace Verif.C02
open Verif ClientSpec

/-- For the map specification: if a sync is requested at event `i` and acknowledged at event `j`
without a crash in between, every put in effect at `i` is still in effect after every later
event `n`, whatever crashes occur. -/
theorem spec_acked_sync_never_lost {tr : List CTAM.Label} {s} (h : CTAM.machine.Exec tr s) :
    ∃ H, Explains tr H ∧
      ∀ (i j : Nat) (id : SyncReqId), i < j → tr[i]? = some (.reqSync id) →
        tr[j]? = some (.replySync id) → NoCrashBetween tr i j →
        ∀ n, j ≤ n → n ≤ tr.length → H i <+: H n := by
  obtain ⟨⟨H, hE⟩, _⟩ := ctam_good h
  exact ⟨H, hE, hE.durable⟩

/-- The same for the coordination layer (journal, map, commits, crashes). -/
theorem acked_sync_never_lost {tr : List CTAM.Label} {s} (h : Coord.fixedMachine.Exec tr s) :
    ∃ H, Explains tr H ∧
      ∀ (i j : Nat) (id : SyncReqId), i < j → tr[i]? = some (.reqSync id) →
        tr[j]? = some (.replySync id) → NoCrashBetween tr i j →
        ∀ n, j ≤ n → n ≤ tr.length → H i <+: H n := by
  obtain ⟨t, ht⟩ := C01.fixed_refines h
  exact spec_acked_sync_never_lost ht

/-- What the client observes: an acknowledged put, not overwritten by a later executed put, is
what a query answers, across any number of crashes. -/
theorem acked_put_is_read_back {tr : List CTAM.Label} {s} (h : Coord.fixedMachine.Exec tr s)
    {p i j q : Nat} {req qreq : Request} {rep qrep : Reply} {k : Key} {v : Value} {id : SyncReqId}
    (hp : tr[p]? = some (.operate (.execute req rep))) (hreq : req.input = .put k v)
    (hpi : p < i) (hnc0 : NoCrashBetween tr p i)
    (hi : tr[i]? = some (.reqSync id)) (hij : i < j) (hj : tr[j]? = some (.replySync id))
    (hnc : NoCrashBetween tr i j)
    (hjq : j < q) (hq : tr[q]? = some (.operate (.execute qreq qrep))) (hqk : qreq.input = .query k)
    (hno : ∀ (n : Nat) (r : Request) (r' : Reply) (w : Value), p < n → n < q →
      tr[n]? = some (.operate (.execute r r')) → r.input ≠ .put k w) :
    qrep.output = .query v := by
  obtain ⟨H, hE, hdur⟩ := acked_sync_never_lost h
  have hlen : ∀ {n : Nat} {l}, tr[n]? = some l → n < tr.length := fun h =>
    (List.getElem?_eq_some_iff.mp h).1
  have hp1 : H (p + 1) = H p ++ [(k, v)] := by
    rw [hE.step p _ hp (by simp)]; simp [putsOf, hreq]
  have others : ∀ (n : Nat) (l : CTAM.Label), p < n → n < q → tr[n]? = some l →
      ∀ x ∈ putsOf l, x.1 ≠ k := by
    intro n l h1 h2 hl x hx hxk
    unfold putsOf at hx
    split at hx
    · rename_i r r'
      split at hx
      · rename_i k' w hin
        simp at hx; subst hx
        exact hno n r r' w h1 h2 hl (by rw [hin]; simp at hxk; rw [hxk])
      · simp at hx
    · simp at hx
  -- from p+1 on the history is: H p, the put, then only puts to other keys
  have main : ∀ n, p < n → n ≤ q → ∃ t, H n = H p ++ [(k, v)] ++ t ∧ ∀ x ∈ t, x.1 ≠ k := by
    intro n
    induction n using Nat.strongRecOn with
    | ind n ih =>
      intro h1 h2
      by_cases hn : n = p + 1
      · subst hn; exact ⟨[], by rw [hp1]; simp, by simp⟩
      · obtain ⟨m, rfl⟩ : ∃ m, n = m + 1 := ⟨n - 1, by omega⟩
        obtain ⟨t, ht, hk⟩ := ih m (by omega) (by omega) (by omega)
        have hqlen := hlen hq
        obtain ⟨l, hl⟩ : ∃ l, tr[m]? = some l := ⟨_, List.getElem?_eq_getElem (by omega)⟩
        by_cases hcr : l = .crash
        · subst hcr
          have hjm : j ≤ m := by
            rcases Nat.lt_trichotomy m i with h3 | h3 | h3
            · exact absurd hl (hnc0 m (by omega) h3)
            · subst h3; rw [hi] at hl; cases hl
            · rcases Nat.lt_or_ge m j with h4 | h4
              · exact absurd hl (hnc m h3 h4)
              · exact h4
          obtain ⟨ti, hti, _⟩ := ih i (by omega) hpi (by omega)
          have hd := hdur i j id hij hi hj hnc (m + 1) (by omega) (by omega)
          obtain ⟨u, hu⟩ := hd
          obtain ⟨w, hw⟩ := hE.crash m hl
          refine ⟨ti ++ u, by rw [← hu, hti]; simp, ?_⟩
          intro x hx
          apply hk
          rw [← hu, hti, ht] at hw
          simp only [List.append_assoc, List.append_cancel_left_eq] at hw
          rw [← hw]
          rcases List.mem_append.mp hx with h3 | h3 <;> simp [h3]
        · refine ⟨t ++ putsOf l, by rw [hE.step m l hl hcr, ht]; simp, ?_⟩
          intro x hx
          rcases List.mem_append.mp hx with h3 | h3
          · exact hk x h3
          · exact others m l (by omega) (by omega) hl x h3
  obtain ⟨t, ht, hk⟩ := main q (by omega) (Nat.le_refl _)
  rw [hE.query q qreq qrep k hq hqk, ht]
  have hl : ∀ (t : List Put) (a : Value), (∀ x ∈ t, x.1 ≠ k) →
      t.foldl (fun acc p => if p.1 = k then p.2 else acc) a = a := by
    intro t
    induction t with
    | nil => intros; rfl
    | cons y t ih =>
      intro a h
      rw [List.foldl_cons, if_neg (h y (by simp)), ih _ (fun x hx => h x (by simp [hx]))]
  unfold lookup
  rw [List.foldl_append, hl _ _ hk, List.foldl_append]
  simp

/-- The hypotheses of `acked_put_is_read_back` hold in the demo execution, which crashes between
the acknowledgement and the query. -/
example : Coord.demoQueryReply.output = .query 7 := by
  obtain ⟨s, hs⟩ := Coord.demo_exec
  refine acked_put_is_read_back (p := 3) (i := 4) (j := 8) (q := 13) (k := 5) (id := 9) hs
    (req := Coord.demoPut) (qreq := Coord.demoQuery) (rep := Coord.demoPutReply)
    rfl rfl (by decide) ?_ rfl (by decide) rfl ?_ (by decide) rfl rfl ?_
  · intro m h1 h2; omega
  · intro m h1 h2 hm
    have : m = 5 ∨ m = 6 ∨ m = 7 := by omega
    rcases this with rfl | rfl | rfl <;> simp [Coord.demoTrace1] at hm
  · intro n r r' w h1 h2 hn
    have : n = 4 ∨ n = 5 ∨ n = 6 ∨ n = 7 ∨ n = 8 ∨ n = 9 ∨ n = 10 ∨ n = 11 ∨ n = 12 := by omega
    rcases this with rfl | rfl | rfl | rfl | rfl | rfl | rfl | rfl | rfl <;>
      simp [Coord.demoTrace1, Coord.demoTrace2] at hn

end Verif.C02
