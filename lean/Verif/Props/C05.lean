import Verif.Props.C01
/-
C05. A query returns the value of the last put to that key.
-/
namespace Verif.C05
open Verif ClientSpec

/-- Specification: the value of the last put to `k` in a list of operations, or 0. Written
independently of `lookup`: find the put in the reversed list. -/
def lastPut (ops : List Input) (k : Key) : Value :=
  match ops.reverse.find? (fun i => match i with | .put k' _ => k' = k | _ => false) with
  | some (.put _ v) => v
  | _ => 0

/-- The sequential machine of MapSpec_t.rs: labels are input/output pairs. -/
def mapMachine : Machine TotalKMMap (Input × Output) :=
  { Init := fun m => m = TotalKMMap.empty, Step := fun m l m' => MapSpec.Next m l.1 l.2 m' }

theorem lastPut_snoc (ops : List Input) (i : Input) (k : Key) :
    lastPut (ops ++ [i]) k =
      match i with
      | .put k' v => if k' = k then v else lastPut ops k
      | _ => lastPut ops k := by
  unfold lastPut
  rw [List.reverse_append]
  simp only [List.reverse_singleton, List.singleton_append, List.find?_cons]
  cases i with
  | query => simp
  | noop => simp
  | put k' v => by_cases h : k' = k <;> simp [h]

/-- After any sequence of operations the map holds, for every key, the last put. -/
theorem map_holds_last_put {tr : List (Input × Output)} {m} (h : mapMachine.Exec tr m) (k : Key) :
    m k = .define (lastPut (tr.map Prod.fst) k) := by
  revert k
  refine Machine.exec_invariant (M := mapMachine)
    (I := fun tr m => ∀ k, m k = .define (lastPut (tr.map Prod.fst) k)) ?_ ?_ h
  · rintro m rfl k; rfl
  · rintro tr m ⟨i, o⟩ m' ih hs k
    simp only [mapMachine] at hs
    rw [List.map_append]
    simp only [List.map_cons, List.map_nil, lastPut_snoc]
    cases hs with
    | query => exact ih k
    | noop => exact ih k
    | put =>
      rename_i k' v
      by_cases hk : k = k'
      · subst hk; simp
      · simp only [TotalKMMap.insert_other _ _ hk, if_neg (Ne.symm hk)]; exact ih k

/-- A query answers with the last put (0 if there is none) and changes nothing. -/
theorem query_returns_last_put {tr : List (Input × Output)} {m m' k out}
    (h : mapMachine.Exec tr m) (hs : MapSpec.Next m (.query k) out m') :
    out = .query (lastPut (tr.map Prod.fst) k) ∧ m' = m := by
  cases hs with
  | query hv =>
    rw [map_holds_last_put h k] at hv
    cases hv
    exact ⟨rfl, rfl⟩

/-- Every query can be answered: no reachable map is stuck on a query. -/
theorem query_enabled {tr : List (Input × Output)} {m} (h : mapMachine.Exec tr m) (k : Key) :
    MapSpec.Next m (.query k) (.query (lastPut (tr.map Prod.fst) k)) m :=
  .query (map_holds_last_put h k)

/-- The same through the asynchronous, crashing coordination layer: in an execution without
crashes, a query executed at event `i` answers with the last put executed before `i`. -/
theorem coord_query_last_put {tr : List CTAM.Label} {s} (h : Coord.fixedMachine.Exec tr s)
    (hnc : CTAM.Label.crash ∉ tr) {i : Nat} {req rep k}
    (hi : tr[i]? = some (.operate (.execute req rep))) (hk : req.input = .query k) :
    rep.output = .query (lookup ((tr.take i).flatMap putsOf) k) := by
  obtain ⟨⟨H, hE⟩, _⟩ := C01.fixed_good h
  have hH : ∀ n, n ≤ tr.length → H n = (tr.take n).flatMap putsOf := by
    intro n
    induction n with
    | zero => intro _; simp [hE.start]
    | succ n ih =>
      intro hn
      have hl : tr[n]? = some tr[n] := List.getElem?_eq_getElem (by omega)
      rw [hE.step n _ hl (fun hc => hnc (hc ▸ List.getElem_mem _)), ih (by omega),
        List.take_add_one, hl, Option.toList_some, List.flatMap_append, List.flatMap_cons,
        List.flatMap_nil, List.append_nil]
  rw [hE.query i req rep k hi hk, hH i]
  exact Nat.le_of_lt (List.getElem?_eq_some_iff.mp hi).1

/-- Hypotheses are met by a run with two puts to one key and one to another. -/
example : mapMachine.Exec [(.put 1 10, .put), (.put 2 20, .put), (.put 1 11, .put), (.query 1, .query 11)]
    (((TotalKMMap.empty.insert 1 (.define 10)).insert 2 (.define 20)).insert 1 (.define 11)) :=
  ⟨_, rfl, .cons .put (.cons .put (.cons .put (.cons (.query rfl) (.nil _))))⟩

example : lastPut [.put 1 10, .put 2 20, .put 1 11] 1 = 11 ∧ lastPut [.put 1 10] 7 = 0 := by decide

end Verif.C05
