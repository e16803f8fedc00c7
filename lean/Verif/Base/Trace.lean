/-
Labelled transition systems, runs and refinement. Verus `state_machine!` declarations
become values of `Machine`. No code in /repo is modelled here.
-/
namespace Verif

/-- A labelled state machine: initial states and labelled steps. -/
structure Machine (σ ℓ : Type) where
  Init : σ → Prop
  Step : σ → ℓ → σ → Prop

/-- Two lists of the same length related entry by entry. -/
inductive Forall2 {α β : Type} (R : α → β → Prop) : List α → List β → Prop
  | nil : Forall2 R [] []
  | cons {x y xs ys} : R x y → Forall2 R xs ys → Forall2 R (x :: xs) (y :: ys)

namespace Forall2
variable {α β : Type} {R : α → β → Prop}

theorem mem_left {xs : List α} {ys : List β} (h : Forall2 R xs ys) {x} (hx : x ∈ xs) :
    ∃ y ∈ ys, R x y := by
  induction h with
  | nil => simp at hx
  | cons hr _ ih =>
    rcases List.mem_cons.mp hx with rfl | hx
    · exact ⟨_, by simp, hr⟩
    · obtain ⟨y, hy, hr⟩ := ih hx; exact ⟨y, by simp [hy], hr⟩

theorem mem_right {xs : List α} {ys : List β} (h : Forall2 R xs ys) {y} (hy : y ∈ ys) :
    ∃ x ∈ xs, R x y := by
  induction h with
  | nil => simp at hy
  | cons hr _ ih =>
    rcases List.mem_cons.mp hy with rfl | hy
    · exact ⟨_, by simp, hr⟩
    · obtain ⟨x, hx, hr⟩ := ih hy; exact ⟨x, by simp [hx], hr⟩

theorem snoc {xs : List α} {ys : List β} (h : Forall2 R xs ys) {x y} (hr : R x y) :
    Forall2 R (xs ++ [x]) (ys ++ [y]) := by
  induction h with
  | nil => exact .cons hr .nil
  | cons ha _ ih => exact .cons ha ih

theorem mono {S : α → β → Prop} (hs : ∀ x y, R x y → S x y) {xs : List α} {ys : List β}
    (h : Forall2 R xs ys) : Forall2 S xs ys := by
  induction h with
  | nil => exact .nil
  | cons ha _ ih => exact .cons (hs _ _ ha) ih

theorem comp {γ : Type} {S : β → γ → Prop} {xs : List α} {ys : List β} {zs : List γ}
    (h : Forall2 R xs ys) (h' : Forall2 S ys zs) : Forall2 (fun x z => ∃ y, R x y ∧ S y z) xs zs := by
  induction h generalizing zs with
  | nil => cases h'; exact .nil
  | cons ha _ ih =>
    cases h' with
    | cons hb h' => exact .cons ⟨_, ha, hb⟩ (ih h')

end Forall2

namespace Machine
variable {σ ℓ τ ℓ' : Type}

/-- Finite executions from a given state, with the list of labels in order. -/
inductive Run (M : Machine σ ℓ) : σ → List ℓ → σ → Prop
  | nil (s) : Run M s [] s
  | cons {s l s' ls s''} : M.Step s l s' → Run M s' ls s'' → Run M s (l :: ls) s''

/-- `tr` is the label sequence of an execution from an initial state to `s`. -/
def Exec (M : Machine σ ℓ) (tr : List ℓ) (s : σ) : Prop :=
  ∃ s0, M.Init s0 ∧ M.Run s0 tr s

def Reachable (M : Machine σ ℓ) (s : σ) : Prop := ∃ tr, M.Exec tr s

theorem Run.append {M : Machine σ ℓ} {s tr s' tr' s''}
    (h : M.Run s tr s') (h' : M.Run s' tr' s'') : M.Run s (tr ++ tr') s'' := by
  induction h with
  | nil => simpa
  | cons hs _ ih => exact .cons hs (ih h')

theorem Run.single {M : Machine σ ℓ} {s l s'} (h : M.Step s l s') : M.Run s [l] s' :=
  .cons h (.nil _)

theorem Run.snoc {M : Machine σ ℓ} {s tr s' l s''}
    (h : M.Run s tr s') (h' : M.Step s' l s'') : M.Run s (tr ++ [l]) s'' :=
  h.append (.single h')

theorem Run.econs {M : Machine σ ℓ} {s l s' ls} (h : M.Step s l s') (h' : ∃ s'', M.Run s' ls s'') :
    ∃ s'', M.Run s (l :: ls) s'' := by
  obtain ⟨s'', h'⟩ := h'; exact ⟨s'', .cons h h'⟩

theorem Run.enil {M : Machine σ ℓ} {s} : ∃ s'', M.Run s [] s'' := ⟨s, .nil s⟩

/-- Split a run at a prefix of its trace. -/
theorem Run.split {M : Machine σ ℓ} {s s''} (tr : List ℓ) {tr'} (h : M.Run s (tr ++ tr') s'') :
    ∃ s', M.Run s tr s' ∧ M.Run s' tr' s'' := by
  induction tr generalizing s with
  | nil => exact ⟨s, .nil _, h⟩
  | cons l tr ih =>
    cases h with
    | cons hs hr =>
      obtain ⟨m, h1, h2⟩ := ih hr
      exact ⟨m, .cons hs h1, h2⟩

/-- Induction on a run from the left state, with the last step exposed. -/
theorem Run.snoc_cases {M : Machine σ ℓ} {s tr s''} (h : M.Run s tr s'') :
    (tr = [] ∧ s'' = s) ∨ ∃ tr' l s', tr = tr' ++ [l] ∧ M.Run s tr' s' ∧ M.Step s' l s'' := by
  rcases List.eq_nil_or_concat tr with rfl | ⟨tr', l, rfl⟩
  · cases h; exact .inl ⟨rfl, rfl⟩
  · obtain ⟨m, h1, h2⟩ := Run.split tr' (by simpa using h)
    cases h2 with
    | cons hs hr => cases hr; exact .inr ⟨tr', l, m, by simp, h1, hs⟩

/-- An inductive invariant holds at the end of every run that starts in it. -/
theorem Run.invariant {M : Machine σ ℓ} {I : σ → Prop}
    (hstep : ∀ s l s', I s → M.Step s l s' → I s') {s tr s'}
    (h : M.Run s tr s') (h0 : I s) : I s' := by
  induction h with
  | nil => exact h0
  | cons hs _ ih => exact ih (hstep _ _ _ h0 hs)

theorem reachable_invariant {M : Machine σ ℓ} {I : σ → Prop}
    (hinit : ∀ s, M.Init s → I s)
    (hstep : ∀ s l s', I s → M.Step s l s' → I s') {s} (h : M.Reachable s) : I s := by
  obtain ⟨tr, s0, h0, hr⟩ := h
  exact hr.invariant hstep (hinit _ h0)

/-- Invariant relating the trace so far and the state. -/
theorem exec_invariant {M : Machine σ ℓ} {I : List ℓ → σ → Prop}
    (hinit : ∀ s, M.Init s → I [] s)
    (hstep : ∀ tr s l s', I tr s → M.Step s l s' → I (tr ++ [l]) s')
    {tr s} (h : M.Exec tr s) : I tr s := by
  obtain ⟨s0, h0, hr⟩ := h
  have aux : ∀ {s tr' s'}, M.Run s tr' s' → ∀ pre, I pre s → I (pre ++ tr') s' := by
    intro s tr' s' hr
    induction hr with
    | nil => intro pre h; simpa using h
    | cons hs _ ih => intro pre h; simpa using ih _ (hstep _ _ _ _ h hs)
  simpa using aux hr [] (hinit _ h0)

theorem Exec.snoc {M : Machine σ ℓ} {tr s l s'} (h : M.Exec tr s) (h' : M.Step s l s') :
    M.Exec (tr ++ [l]) s' := by
  obtain ⟨s0, h0, hr⟩ := h; exact ⟨s0, h0, hr.snoc h'⟩

theorem Exec.append {M : Machine σ ℓ} {tr s tr' s'} (h : M.Exec tr s) (h' : M.Run s tr' s') :
    M.Exec (tr ++ tr') s' := by
  obtain ⟨s0, h0, hr⟩ := h; exact ⟨s0, h0, hr.append h'⟩

/-- The step that produced the `i`-th label, and the execution before it. -/
theorem Exec.at_index {M : Machine σ ℓ} {tr s} (h : M.Exec tr s) {i : Nat} {l : ℓ}
    (hi : tr[i]? = some l) : ∃ s1 s2, M.Exec (tr.take i) s1 ∧ M.Step s1 l s2 := by
  obtain ⟨s0, h0, hr⟩ := h
  have hl := (List.getElem?_eq_some_iff.mp hi).1
  rw [← List.take_append_drop i tr] at hr
  obtain ⟨s1, h1, h2⟩ := hr.split
  rw [List.drop_eq_getElem_cons hl] at h2
  have : tr[i] = l := (List.getElem?_eq_some_iff.mp hi).2
  rw [this] at h2
  cases h2 with
  | cons hs _ => exact ⟨s1, _, ⟨s0, h0, h1⟩, hs⟩

/-- Forward simulation with one abstract step per concrete step (labels translated by `f`)
gives trace inclusion. -/
theorem refine {M : Machine σ ℓ} {N : Machine τ ℓ'} (f : ℓ → ℓ') (R : σ → τ → Prop)
    (hinit : ∀ s, M.Init s → ∃ t, N.Init t ∧ R s t)
    (hstep : ∀ s l s' t, R s t → M.Step s l s' → ∃ t', N.Step t (f l) t' ∧ R s' t')
    {tr s} (h : M.Exec tr s) : ∃ t, N.Exec (tr.map f) t ∧ R s t := by
  apply exec_invariant (I := fun tr s => ∃ t, N.Exec (tr.map f) t ∧ R s t) _ _ h
  · intro s hs
    obtain ⟨t, ht, hR⟩ := hinit s hs
    exact ⟨t, ⟨t, ht, .nil _⟩, hR⟩
  · rintro tr s l s' ⟨t, ht, hR⟩ hs
    obtain ⟨t', ht', hR'⟩ := hstep _ _ _ _ hR hs
    exact ⟨t', by simpa using ht.snoc ht', hR'⟩

/-- Forward simulation where one concrete step may match any number of abstract steps;
`obs`/`obs'` select what the client sees. -/
theorem refine_obs {M : Machine σ ℓ} {N : Machine τ ℓ'} {ε : Type}
    (obs : ℓ → Option ε) (obs' : ℓ' → Option ε) (R : σ → τ → Prop)
    (hinit : ∀ s, M.Init s → ∃ t, N.Init t ∧ R s t)
    (hstep : ∀ s l s' t, R s t → M.Step s l s' →
      ∃ tr' t', N.Run t tr' t' ∧ tr'.filterMap obs' = (obs l).toList ∧ R s' t')
    {tr s} (h : M.Exec tr s) :
    ∃ tr' t, N.Exec tr' t ∧ tr'.filterMap obs' = tr.filterMap obs ∧ R s t := by
  apply exec_invariant
    (I := fun tr s => ∃ tr' t, N.Exec tr' t ∧ tr'.filterMap obs' = tr.filterMap obs ∧ R s t) _ _ h
  · intro s hs
    obtain ⟨t, ht, hR⟩ := hinit s hs
    exact ⟨[], t, ⟨t, ht, .nil _⟩, rfl, hR⟩
  · rintro tr s l s' ⟨tr', t, ht, ho, hR⟩ hs
    obtain ⟨tr'', t', hr, ho', hR'⟩ := hstep _ _ _ _ hR hs
    refine ⟨tr' ++ tr'', t', ht.append hr, ?_, hR'⟩
    rw [List.filterMap_append, List.filterMap_append, ho, ho']
    cases h : obs l <;> simp [h]

end Machine
end Verif
