import Verif.Kv.Betree
import Verif.Kv.SystemProof
/-
The betree acts as a map: what a key maps to is found by walking from the root, and every step of the
tree changes it as the map's step does. No code is modelled here.
-/
namespace Verif.Kv.Betree
open BlockSystem BlockCache

/-- The value of a key seen from a node: the first definition on the way down. -/
inductive Eval (g : Graph Node) : Ref → Key → Value → Prop
  | here {r k v n} : g r = some n → WFNode n → n.buffer k = some (.define v) → Eval g r k v
  | down {r k v n e} : g r = some n → WFNode n → n.buffer k = some .update →
      n.children k = some e → Eval g e.ref e.edgeKey v → Eval g r k v

theorem Eval.det {g : Graph Node} {r k v w} (h : Eval g r k v) (h' : Eval g r k w) : v = w := by
  induction h with
  | here h1 _ h3 =>
    cases h' with
    | here a1 _ a3 =>
      rw [h1] at a1; cases a1
      rw [h3] at a3; cases a3; rfl
    | down a1 _ a3 =>
      rw [h1] at a1; cases a1
      rw [h3] at a3; cases a3
  | down h1 _ h3 h4 _ ih =>
    cases h' with
    | here a1 _ a3 =>
      rw [h1] at a1; cases a1
      rw [h3] at a3; cases a3
    | down a1 _ a3 a4 a5 =>
      rw [h1] at a1; cases a1
      rw [h4] at a4; cases a4
      exact ih a5

/-- Nothing points to the root. -/
def RootFree (g : Graph Node) : Prop := ∀ r n, g r = some n → ¬ Succs n rootRef

/-- The graph stands for the map: the value of every key, seen from the root. -/
structure Abs (g : Graph Node) (m : MapSpec.View) : Prop where
  root : RootFree g
  value : ∀ k, Eval g rootRef k (m k)

/-! ### Lookups -/

theorem foldl_define (l : List Layer) (v : Value) :
    l.foldl (fun m x => m.merge ((x.node.buffer x.key).getD .update)) (Message.define v) = .define v := by
  induction l with
  | nil => rfl
  | cons x xs ih => exact ih

theorem Follows.tail {x : Layer} {xs : List Layer} (h : Follows (x :: xs)) : Follows xs := by
  intro i hi
  have := h (i + 1) (by simpa using hi)
  simpa using this

theorem lookup_eval {g : Graph Node} : ∀ (l : List Layer) (x : Layer) (v : Value), Follows (x :: l) →
    (∀ y ∈ x :: l, WFNode y.node) → (∀ y ∈ x :: l, g y.ref = some y.node) →
    interpret (x :: l) = .define v → Eval g x.ref x.key v := by
  intro l
  induction l with
  | nil =>
    intro x v _ hw hg hi
    refine .here (hg x (by simp)) (hw x (by simp)) ?_
    have hi' : Message.merge .update ((x.node.buffer x.key).getD .update) = .define v := hi
    cases hb : x.node.buffer x.key with
    | none => exact absurd hb ((hw x (by simp)).full _)
    | some m => rw [hb] at hi'; exact congrArg some hi'
  | cons y ys ih =>
    intro x v hf hw hg hi
    have hi' : (y :: ys).foldl (fun m x => m.merge ((x.node.buffer x.key).getD .update))
        ((x.node.buffer x.key).getD .update) = .define v := hi
    cases hb : x.node.buffer x.key with
    | none => exact absurd hb ((hw x (by simp)).full _)
    | some m =>
      rw [hb] at hi'
      cases m with
      | define w =>
        rw [Option.getD_some, foldl_define] at hi'
        cases hi'
        exact .here (hg x (by simp)) (hw x (by simp)) hb
      | update =>
        have he := hf 0 (by simp)
        refine .down (hg x (by simp)) (hw x (by simp)) hb he ?_
        exact ih y v hf.tail (fun z hz => hw z (List.mem_cons_of_mem _ hz))
          (fun z hz => hg z (List.mem_cons_of_mem _ hz)) hi'

theorem wflookup_eval {g : Graph Node} {l : List Layer} {k : Key} {v : Value} (h : WFLookup l k)
    (hg : ∀ x n, (x, n) ∈ lookupReads l → g x = some n) (hi : interpret l = .define v) :
    Eval g rootRef k v := by
  obtain ⟨x, xs, rfl, hr, rfl⟩ := h.head
  rw [← hr]
  exact lookup_eval xs x v h.follows h.wf
    (fun y hy => hg _ _ (List.mem_map.mpr ⟨y, hy, rfl⟩)) hi

/-- The value of a key can be looked up. -/
theorem eval_lookup {g : Graph Node} {r k v} (h : Eval g r k v) : ∃ x xs, x.ref = r ∧ x.key = k ∧
    Follows (x :: xs) ∧ (∀ y ∈ x :: xs, WFNode y.node) ∧ (∀ y ∈ x :: xs, g y.ref = some y.node) ∧
    interpret (x :: xs) = .define v := by
  induction h with
  | @here r k v n h1 h2 h3 =>
    refine ⟨⟨r, n, k⟩, [], rfl, rfl, fun i hi => ?_, ?_, ?_, ?_⟩
    · simp at hi
    · intro y hy; rw [List.mem_singleton.mp hy]; exact h2
    · intro y hy; rw [List.mem_singleton.mp hy]; exact h1
    · simp [interpret, h3, Message.merge]
  | @down r k v n e h1 h2 h3 h4 _ ih =>
    obtain ⟨x, xs, hr, hk, i1, i2, i3, i4⟩ := ih
    refine ⟨⟨r, n, k⟩, x :: xs, rfl, rfl, fun i hi => ?_, ?_, ?_, ?_⟩
    · cases i with
      | zero => simp [h4, hr, hk]
      | succ i => exact i1 i (by simpa using hi)
    · intro y hy
      rcases List.mem_cons.mp hy with rfl | hy
      · exact h2
      · exact i2 y hy
    · intro y hy
      rcases List.mem_cons.mp hy with rfl | hy
      · exact h1
      · exact i3 y hy
    · have : interpret (⟨r, n, k⟩ :: x :: xs) = interpret (x :: xs) := by
        simp [interpret, h3, Message.merge]
      rw [this]; exact i4

/-! ### Changes below the root -/

/-- What is stored for a key in one node, evaluated in a graph. -/
def EvalC (g : Graph Node) (m : Option Message) (e : Option Edge) (v : Value) : Prop :=
  m = some (.define v) ∨ (m = some .update ∧ ∃ x, e = some x ∧ Eval g x.ref x.edgeKey v)

theorem EvalC.eval {g : Graph Node} {n : Node} {r k v} (h : EvalC g (n.buffer k) (n.children k) v)
    (hg : g r = some n) (hw : WFNode n) : Eval g r k v := by
  rcases h with h | ⟨h, e, h1, h2⟩
  · exact .here hg hw h
  · exact .down hg hw h h1 h2

/-- A change of the graph that keeps, node by node, what is stored there and one step below keeps every
value seen from everywhere. -/
theorem transfer {g g' : Graph Node}
    (h : ∀ r k v n, g r = some n → WFNode n → EvalC g' (n.buffer k) (n.children k) v →
      (∀ e, n.children k = some e → n.buffer k = some .update →
        ∃ c, g e.ref = some c ∧ WFNode c ∧ EvalC g' (c.buffer e.edgeKey) (c.children e.edgeKey) v) →
      Eval g' r k v) {r k v} (he : Eval g r k v) : Eval g' r k v := by
  suffices hs : Eval g' r k v ∧
      ∃ n, g r = some n ∧ WFNode n ∧ EvalC g' (n.buffer k) (n.children k) v from hs.1
  induction he with
  | @here r k v n h1 h2 h3 =>
    have hc : EvalC g' (n.buffer k) (n.children k) v := .inl h3
    exact ⟨h r k v n h1 h2 hc (fun e _ hu => by rw [h3] at hu; cases hu), n, h1, h2, hc⟩
  | @down r k v n e h1 h2 h3 h4 _ ih =>
    have hc : EvalC g' (n.buffer k) (n.children k) v := .inr ⟨h3, e, h4, ih.1⟩
    refine ⟨h r k v n h1 h2 hc (fun e' he' _ => ?_), n, h1, h2, hc⟩
    rw [h4] at he'; cases he'
    exact ih.2

theorem flush_eval {g : Graph Node} {f : Flush} (hv : f.Valid) (hp : g f.parentref = some f.parent)
    (hc : g f.childref = some f.child) (hn : g f.newchildref = none) {r k v} (h : Eval g r k v) :
    Eval ((g.insert f.newchildref f.newchild).insert f.parentref f.newparent) r k v := by
  have hne : f.newchildref ≠ f.parentref := by rintro e; rw [e, hp] at hn; cases hn
  refine transfer (fun r k v n h1 h2 h3 h4 => ?_) h
  by_cases hr : r = f.parentref
  · subst hr
    rw [hp] at h1; cases h1
    have gp : ((g.insert f.newchildref f.newchild).insert f.parentref f.newparent) f.parentref =
        some f.newparent := PMap.insert_same _ _ _
    have gc : ((g.insert f.newchildref f.newchild).insert f.parentref f.newparent) f.newchildref =
        some f.newchild := by rw [PMap.insert_other _ _ hne]; exact PMap.insert_same _ _ _
    by_cases hm : f.moved k
    · obtain ⟨x, hx⟩ := hv.edge k hm
      have hch := hv.below k _ hm hx
      by_cases hf : f.flushed k
      · refine .down gp hv.wfNewParent (hv.emptied k hf) (hv.moved k hm) ?_
        obtain ⟨mc, hmc⟩ : ∃ mc, f.child.buffer x = some mc := by
          cases e : f.child.buffer x with
          | none => exact absurd e (hv.wfChild.full _)
          | some y => exact ⟨y, rfl⟩
        rcases h3 with hd | ⟨hu, _⟩
        · have := hv.merged k _ _ _ hf hx hd hmc
          exact .here gc hv.wfNewChild this
        · obtain ⟨c, h5, _, h6⟩ := h4 _ hx hu
          rw [hc] at h5; cases h5
          have hb := hv.merged k _ _ _ hf hx hu hmc
          have : f.newchild.buffer k = f.child.buffer x := by rw [hb, hmc]; rfl
          exact EvalC.eval (by rw [this, hch]; exact h6) gc hv.wfNewChild
      · have hb := hv.kept k hf
        rcases h3 with hd | ⟨hu, _⟩
        · exact .here gp hv.wfNewParent (hb.trans hd)
        · refine .down gp hv.wfNewParent (hb.trans hu) (hv.moved k hm) ?_
          obtain ⟨c, h5, _, h6⟩ := h4 _ hx hu
          rw [hc] at h5; cases h5
          exact EvalC.eval (by rw [hv.carried k _ hm hf hx, hch]; exact h6) gc hv.wfNewChild
    · have hf : ¬ f.flushed k := fun hf => hm (hv.sub k hf)
      exact EvalC.eval (by rw [hv.kept k hf, hv.stays k hm]; exact h3) gp hv.wfNewParent
  · have hr' : r ≠ f.newchildref := by rintro rfl; rw [hn] at h1; cases h1
    refine EvalC.eval h3 ?_ h2
    rw [PMap.insert_other _ _ hr, PMap.insert_other _ _ hr', h1]

/-! ### Graph operations -/

theorem ops_append {σ N : Type} {step : σ → GOp N → σ → Prop} {s s'' : σ} {a b : List (GOp N)}
    (h : Ops step s (a ++ b) s'') : ∃ s', Ops step s a s' ∧ Ops step s' b s'' := by
  induction a generalizing s with
  | nil => exact ⟨s, .nil, h⟩
  | cons x xs ih =>
    cases h with
    | cons h1 h2 =>
      obtain ⟨s', h3, h4⟩ := ih h2
      exact ⟨s', .cons h1 h3, h4⟩

/-- After a list of allocations: the new nodes are there, were not there before, and all else is as it
was. -/
theorem allocs {A : App Node} {c : PMap Ref Node} : ∀ {refs : List Ref} {g g' : Graph Node},
    Ops (GStep A) g (refs.filterMap (fun x => (c x).map (fun n => GOp.alloc x n))) g' →
    (∀ x n, x ∈ refs → c x = some n → g' x = some n ∧ g x = none) ∧
    (∀ x n, g x = some n → g' x = some n) ∧
    (∀ x n, g' x = some n → g x = some n ∨ (x ∈ refs ∧ c x = some n)) := by
  intro refs
  induction refs with
  | nil =>
    intro g g' h
    cases h
    exact ⟨fun _ _ h => absurd h (by simp), fun _ _ h => h, fun _ _ h => .inl h⟩
  | cons y ys ih =>
    intro g g' h
    cases hc : c y with
    | none =>
      simp only [List.filterMap_cons, hc, Option.map_none] at h
      obtain ⟨h1, h2, h3⟩ := ih h
      refine ⟨fun x n hx hn => ?_, h2, fun x n hx => ?_⟩
      · rcases List.mem_cons.mp hx with rfl | hx
        · rw [hc] at hn; cases hn
        · exact h1 x n hx hn
      · rcases h3 x n hx with h | ⟨h, h'⟩
        · exact .inl h
        · exact .inr ⟨List.mem_cons_of_mem _ h, h'⟩
    | some m =>
      simp only [List.filterMap_cons, hc, Option.map_some] at h
      cases h with
      | cons hs hr =>
        cases hs with
        | alloc hsu hno =>
          obtain ⟨h1, h2, h3⟩ := ih hr
          refine ⟨fun x n hx hn => ?_, fun x n hx => ?_, fun x n hx => ?_⟩
          · by_cases e : x = y
            · subst e
              rw [hc] at hn; cases hn
              exact ⟨h2 _ _ (PMap.insert_same _ _ _), hno⟩
            · rcases List.mem_cons.mp hx with h | h
              · exact absurd h e
              · obtain ⟨a, b⟩ := h1 x n h hn
                rw [PMap.insert_other _ _ e] at b
                exact ⟨a, b⟩
          · apply h2
            rw [PMap.insert_other _ _ (by rintro rfl; rw [hno] at hx; cases hx)]
            exact hx
          · rcases h3 x n hx with h | ⟨h, h'⟩
            · by_cases e : x = y
              · subst e
                rw [PMap.insert_same] at h
                exact .inr ⟨by simp, hc.trans h⟩
              · rw [PMap.insert_other _ _ e] at h
                exact .inl h
            · exact .inr ⟨List.mem_cons_of_mem _ h, h'⟩

theorem redirect_eval {g g1 : Graph Node} {r : Redirect} (hv : r.Valid)
    (hr : ∀ x n, (x, n) ∈ r.reads → g x = some n)
    (ha : Ops (GStep app) g
      (r.newChildrefs.filterMap (fun x => (r.newChildren x).map (fun n => GOp.alloc x n))) g1)
    {x k v} (h : Eval g x k v) : Eval (g1.insert r.parentref r.newParent) x k v := by
  obtain ⟨a1, a2, a3⟩ := allocs ha
  have hp : g r.parentref = some r.oldParent := hr _ _ (by simp [Redirect.reads])
  refine transfer (fun x k v n h1 h2 h3 h4 => ?_) h
  by_cases hx : x = r.parentref
  · subst hx
    rw [hp] at h1; cases h1
    have gp : (g1.insert r.parentref r.newParent) r.parentref = some r.newParent :=
      PMap.insert_same _ _ _
    by_cases hk : r.keys k
    · rcases h3 with hd | ⟨hu, _⟩
      · exact .here gp hv.wfNew (by rw [hv.buffer]; exact hd)
      · obtain ⟨hd1, hd2⟩ := hv.dom k hk
        obtain ⟨e, he⟩ := Option.ne_none_iff_exists'.mp hd1
        obtain ⟨e', he'⟩ := Option.ne_none_iff_exists'.mp hd2
        obtain ⟨c, hc1, _, hc3⟩ := h4 e he hu
        have hold : r.oldChildren e.ref ≠ none := (hv.olds _).mpr ⟨k, e, hk, he, rfl⟩
        obtain ⟨n, hn⟩ := Option.ne_none_iff_exists'.mp hold
        have hmem : e'.ref ∈ r.newChildrefs := hv.newRefs _ ⟨k, e', hk, he', rfl⟩
        obtain ⟨n', hn'⟩ := Option.ne_none_iff_exists'.mp ((hv.news _).mpr hmem)
        have hgn : g e.ref = some n := by
          apply hr
          have : e.ref ∈ r.oldChildrefs := (hv.oldRefs _).mp ⟨k, e, hk, he, rfl⟩
          simp only [Redirect.reads, List.mem_cons, List.mem_filterMap]
          exact .inr ⟨e.ref, this, by rw [hn]; rfl⟩
        rw [hgn] at hc1; cases hc1
        obtain ⟨s1, s2⟩ := hv.same k e e' c n' hk he he' hn hn'
        obtain ⟨b1, b2⟩ := a1 _ _ hmem hn'
        have hne : e'.ref ≠ r.parentref := by rintro q; rw [q, hp] at b2; cases b2
        refine .down gp hv.wfNew (by rw [hv.buffer]; exact hu) he' ?_
        rw [hv.edges k e' hk he']
        refine EvalC.eval (by rw [s1, s2]; exact hc3) (by rw [PMap.insert_other _ _ hne]; exact b1)
          (hv.wfNews _ _ hn')
    · exact EvalC.eval (by rw [hv.buffer, hv.stays k hk]; exact h3) gp hv.wfNew
  · refine EvalC.eval h3 ?_ h2
    rw [PMap.insert_other _ _ hx]
    exact a2 _ _ h1

/-! ### Changes of the root -/

/-- Away from the root, a change of the root is not seen. -/
theorem off_root {g : Graph Node} {n : Node} (hf : RootFree g) {r k v} (h : Eval g r k v)
    (hr : r ≠ rootRef) : Eval (g.insert rootRef n) r k v := by
  induction h with
  | here h1 h2 h3 => exact .here (by rw [PMap.insert_other _ _ hr]; exact h1) h2 h3
  | @down r k v n' e h1 h2 h3 h4 _ ih =>
    refine .down (by rw [PMap.insert_other _ _ hr]; exact h1) h2 h3 h4 (ih ?_)
    rintro q
    exact hf _ _ h1 ⟨k, e, h4, q⟩

/-- A key is seen at a new root if its entry there is one of the old root, for some key. -/
theorem at_root {g : Graph Node} {n n' : Node} (hf : RootFree g) (hg : g rootRef = some n)
    (hw : WFNode n') {k k' v} (h : Eval g rootRef k v) (hb : n'.buffer k' = n.buffer k)
    (hc : n'.children k' = n.children k) : Eval (g.insert rootRef n') rootRef k' v := by
  cases h with
  | here h1 h2 h3 =>
    rw [hg] at h1; cases h1
    exact .here (PMap.insert_same _ _ _) hw (hb.trans h3)
  | down h1 h2 h3 h4 h5 =>
    rw [hg] at h1; cases h1
    refine .down (PMap.insert_same _ _ _) hw (hb.trans h3) (hc.trans h4) (off_root hf h5 ?_)
    rintro q
    exact hf _ _ hg ⟨_, _, h4, q⟩

theorem RootFree.insert {g : Graph Node} (h : RootFree g) {r : Ref} {n : Node}
    (hn : ¬ Succs n rootRef) : RootFree (g.insert r n) := by
  intro x m hx
  by_cases e : x = r
  · subst e
    rw [PMap.insert_same] at hx; cases hx
    exact hn
  · rw [PMap.insert_other _ _ e] at hx
    exact h x m hx

/-! ### The map -/

theorem addMessage_wf {n : Node} {k v} (h : WFNode n) : WFNode (addMessage n k (.define v)) := by
  constructor
  · intro x
    by_cases e : x = k
    · subst e; simp [addMessage]
    · simp [addMessage, PMap.insert, e, h.full x]
  · intro x hx
    by_cases e : x = k
    · subst e; exact ⟨v, by simp [addMessage, Message.merge]⟩
    · obtain ⟨w, hw⟩ := h.leaf x hx
      exact ⟨w, by simp [addMessage, PMap.insert, e, hw]⟩

/-- A step of the tree is a step of the map. -/
theorem step_map {g g' : Graph Node} {m : MapSpec.View} {u reads ops} (ha : Abs g m)
    (hv : Valid u reads ops) (hr : ∀ x n, (x, n) ∈ reads → g x = some n)
    (ho : Ops (GStep app) g ops g') : ∃ m', MapSpec.Next m u m' ∧ Abs g' m' := by
  cases hv with
  | query h1 h2 =>
    cases ho
    exact ⟨m, .query ((wflookup_eval h1 hr h2).det (ha.value _)), ha⟩
  | @succ start rs stop l h =>
    cases ho
    have key : ∀ {k v l'}, SamePath l l' k v → m k = v := fun hs =>
      (ha.value _).det (wflookup_eval hs.lookup (hs.same ▸ hr) hs.value)
    refine ⟨m, .succ h.range ?_ h.full h.inRange h.sorted ?_, ha⟩
    · intro i hi
      obtain ⟨l', hl⟩ := h.found rs[i].1 rs[i].2 (List.getElem_mem hi)
      exact key hl
    · intro k hk hne
      refine Classical.byContradiction fun hno => ?_
      obtain ⟨l', hl⟩ := h.rest k hk (fun i hi e => hno ⟨i, hi, e⟩)
      exact hne (key hl)
  | @insert k v old h =>
    have hg := hr rootRef old (by simp)
    cases ho with
    | cons h1 h2 =>
      cases h2
      cases h1
      refine ⟨_, .write, ha.root.insert (fun h => ha.root _ _ hg h), fun x => ?_⟩
      by_cases e : x = k
      · subst e
        simp only [if_true]
        exact .here (PMap.insert_same _ _ _) (addMessage_wf h) (by simp [addMessage, Message.merge])
      · simp only [if_neg e]
        exact at_root ha.root hg (addMessage_wf h) (ha.value x)
          (by simp [addMessage, PMap.insert, e]) rfl
  | @flush f hf =>
    have hp := hr f.parentref f.parent (by simp)
    have hc := hr f.childref f.child (by simp)
    cases ho with
    | cons h1 h2 =>
      cases h2 with
      | cons h2 h3 =>
        cases h3
        cases h1 with
        | alloc _ hn =>
          cases h2
          refine ⟨m, .stutter, (ha.root.insert ?_).insert ?_,
            fun k => flush_eval hf hp hc hn (ha.value k)⟩
          · rintro ⟨k, e, hk, he⟩
            by_cases hm : f.moved k
            · obtain ⟨x, hx⟩ := hf.edge k hm
              rw [hf.below k _ hm hx] at hk
              exact ha.root _ _ hc ⟨_, e, hk, he⟩
            · rw [hf.only k hm] at hk; cases hk
          · rintro ⟨k, e, hk, he⟩
            by_cases hm : f.moved k
            · rw [hf.moved k hm] at hk; cases hk
              have he' : f.newchildref = rootRef := he
              cases ha.value [] with
              | here h _ _ => rw [he', h] at hn; cases hn
              | down h _ _ _ _ => rw [he', h] at hn; cases hn
            · rw [hf.stays k hm] at hk
              exact ha.root _ _ hp ⟨_, e, hk, he⟩
  | @grow old child =>
    have hg := hr rootRef old (by simp)
    cases ho with
    | cons h1 h2 =>
      cases h2 with
      | cons h2 h3 =>
        cases h3
        cases h1 with
        | alloc hs hn =>
          cases h2
          have hne : child ≠ rootRef := by rintro rfl; rw [hg] at hn; cases hn
          have hfree : RootFree (g.insert child old) := ha.root.insert (ha.root _ _ hg)
          have hwg : WFNode (grownRoot child) := ⟨fun k h => (by cases h), fun k h => (by cases h)⟩
          refine ⟨m, .stutter, hfree.insert ?_, fun k => ?_⟩
          · rintro ⟨k, e, hk, he⟩
            cases hk
            exact hne he
          · refine .down (PMap.insert_same _ _ _) hwg rfl rfl ?_
            have hw : ∀ {r k v}, Eval g r k v → Eval (g.insert child old) r k v := by
              intro r k v h
              refine transfer (fun r k v n h1 h2 h3 _ => EvalC.eval h3 ?_ h2) h
              rw [PMap.insert_other _ _ (by rintro rfl; rw [hn] at h1; cases h1)]
              exact h1
            have hx : Eval (g.insert child old) child k (m k) := by
              cases ha.value k with
              | here h1 h2 h3 =>
                rw [hg] at h1; cases h1
                exact .here (PMap.insert_same _ _ _) h2 h3
              | down h1 h2 h3 h4 h5 =>
                rw [hg] at h1; cases h1
                exact .down (PMap.insert_same _ _ _) h2 h3 h4 (hw h5)
            exact off_root hfree hx hne
  | @redirect r h =>
    obtain ⟨g1, h1, h2⟩ := ops_append ho
    have hroot : ∃ n, g rootRef = some n := by
      cases ha.value [] with
      | here h _ _ => exact ⟨_, h⟩
      | down h _ _ _ _ => exact ⟨_, h⟩
    cases h2 with
    | cons h2 h3 =>
      cases h3
      cases h2
      obtain ⟨a1, a2, a3⟩ := allocs h1
      refine ⟨m, .stutter, ?_, fun k => redirect_eval h hr h1 (ha.value k)⟩
      have hp : g r.parentref = some r.oldParent := hr _ _ (by simp [Redirect.reads])
      refine RootFree.insert ?_ ?_
      · intro x n hx
        rcases a3 x n hx with hx | ⟨_, hx⟩
        · exact ha.root _ _ hx
        · rintro ⟨k, e, hk, he⟩
          obtain ⟨key, e1, e2, k1, k2, k3, k4, k5, k6⟩ := h.grand x n k e hx hk
          obtain ⟨e0, k0⟩ := Option.ne_none_iff_exists'.mp k6
          obtain ⟨n0, hn0⟩ := Option.ne_none_iff_exists'.mp ((h.olds e0.ref).mpr ⟨key, e0, k5, k0, rfl⟩)
          obtain ⟨_, s2⟩ := h.same key e0 e1 n0 n k5 k0 k1 hn0 (k2 ▸ hx)
          have hgn : g e0.ref = some n0 := by
            apply hr
            have : e0.ref ∈ r.oldChildrefs := (h.oldRefs _).mp ⟨key, e0, k5, k0, rfl⟩
            simp only [Redirect.reads, List.mem_cons, List.mem_filterMap]
            exact .inr ⟨e0.ref, this, by rw [hn0]; rfl⟩
          exact ha.root _ _ hgn ⟨_, e2, s2 ▸ k3, k4.trans he⟩
      · rintro ⟨k, e, hk, he⟩
        by_cases hkk : r.keys k
        · have hmem : e.ref ∈ r.newChildrefs := h.newRefs _ ⟨k, e, hkk, hk, rfl⟩
          obtain ⟨n', hn'⟩ := Option.ne_none_iff_exists'.mp ((h.news _).mpr hmem)
          obtain ⟨_, b⟩ := a1 _ _ hmem hn'
          obtain ⟨n, hn⟩ := hroot
          rw [he, hn] at b; cases b
        · rw [h.stays k hkk] at hk
          exact ha.root _ _ hp ⟨k, e, hk, he⟩
  | @clone src dst old new h =>
    have hg := hr rootRef old (by simp)
    cases ho with
    | cons h1 h2 =>
      cases h2
      cases h1
      refine ⟨_, .clone, ha.root.insert ?_, fun k => ?_⟩
      · rintro ⟨k, e, hk, he⟩
        cases hc : MapSpec.cloneMap src dst k with
        | none => rw [h.sameChild k hc] at hk; exact ha.root _ _ hg ⟨_, e, hk, he⟩
        | some x => rw [h.newChild k x hc] at hk; exact ha.root _ _ hg ⟨_, e, hk, he⟩
      · cases hc : MapSpec.cloneMap src dst k with
        | none =>
          have : MapSpec.cloneView m (MapSpec.cloneMap src dst) k = m k := by
            simp [MapSpec.cloneView, hc]
          rw [this]
          exact at_root ha.root hg h.wfNew (ha.value k) (h.sameBuffer k hc) (h.sameChild k hc)
        | some x =>
          have : MapSpec.cloneView m (MapSpec.cloneMap src dst) k = m x := by
            simp [MapSpec.cloneView, hc]
          rw [this]
          exact at_root ha.root hg h.wfNew (ha.value x)
            ((h.newBuffer k x hc).trans (h.empty k x hc).symm) (h.newChild k x hc)
  | stutter =>
    cases ho
    exact ⟨m, .stutter, ha⟩

/-- Removing a node nothing points to is not seen. -/
theorem free_map {g : Graph Node} {m : MapSpec.View} {ref : Ref} (ha : Abs g m) (hr : ref ≠ rootRef)
    (hno : ∀ x n, g x = some n → ¬ Succs n ref) : Abs (g.remove ref) m := by
  refine ⟨fun x n hx => ?_, fun k => ?_⟩
  · by_cases e : x = ref
    · subst e; simp at hx
    · rw [PMap.remove_other _ e] at hx; exact ha.root x n hx
  · have key : ∀ {r k v}, Eval g r k v → r ≠ ref → Eval (g.remove ref) r k v := by
      intro r k v h
      induction h with
      | here h1 h2 h3 =>
        intro hne
        exact .here (by rw [PMap.remove_other _ hne]; exact h1) h2 h3
      | @down r k v n e h1 h2 h3 h4 _ ih =>
        intro hne
        refine .down (by rw [PMap.remove_other _ hne]; exact h1) h2 h3 h4 (ih ?_)
        rintro q
        exact hno _ _ h1 ⟨k, e, h4, q⟩
    exact key (ha.value k) hr.symm

/-- The betree is an application that acts as a map. -/
theorem isMap : Composite.IsMap (KvSystem.graphs app (fun n => n = emptyNode)) Abs := by
  constructor
  · rintro g ⟨n, rfl, rfl, _⟩
    refine ⟨?_, fun k => .here (PMap.insert_same _ _ _) ⟨fun _ h => (by cases h), fun _ _ => ⟨_, rfl⟩⟩ rfl⟩
    intro r n hr
    by_cases e : r = rootRef
    · subst e
      rw [PMap.insert_same] at hr; cases hr
      rintro ⟨k, e, hk, _⟩; cases hk
    · rw [PMap.insert_other _ _ e] at hr; cases hr
  · rintro g m u g' ha (⟨reads, ops, hv, hr, ho⟩ | ⟨rfl, ref, _, h2, h3, rfl⟩)
    · exact step_map ha hv hr ho
    · exact ⟨m, .stutter, free_map ha h2 h3⟩

end Verif.Kv.Betree
