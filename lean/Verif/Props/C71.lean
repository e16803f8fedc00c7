import Verif.Kv.QueueProof

/-!
C71.  The queues of VeriBetrKV - the nodes in the order of their last use, from which the node to be
evicted is taken, and the nodes waiting to be freed - are first in, first out, whatever is put in
them and taken out of the middle of them; no access is outside their arrays; and their arrays
stay as small as the longest queue there was asks for.  The doubly linked list below them is a
sequence: insertion next to a given node, and removal of a given node, are what they are for
sequences.

Specification: the lists of Lean.
-/

namespace Verif.C71

/-- The calls: `use` of the queue of least recently used nodes, `add` of the other one; both have
the other two. -/
inductive Op where
  | use (x : UInt64)
  | add (x : UInt64)
  | remove (x : UInt64)
  | first

/-- What the calls do to the sequence. -/
def after (s : List UInt64) : Op → List UInt64
  | .use x => s.filter (· ≠ x) ++ [x]
  | .add x => if x ∈ s then s else s ++ [x]
  | .remove x => s.filter (· ≠ x)
  | .first => s

/-- What the calls answer. -/
def answer (s : List UInt64) : Op → Option UInt64
  | .first => s.head?
  | _ => none

/-- The sequence after some calls. -/
def afterAll (s : List UInt64) (ops : List Op) : List UInt64 := ops.foldl after s

/-- The answers. -/
def answers : List UInt64 → List Op → List (Option UInt64)
  | _, [] => []
  | s, op :: ops => answer s op :: answers (after s op) ops

/-- The code; `none` if an access is outside an array or a loop does not end. -/
def call (q : Queue.Queue) : Op → Option (Queue.Queue × Option UInt64)
  | .use x => (q.use x).map (·, none)
  | .add x => (q.add x).map (·, none)
  | .remove x => (q.remove x).map (·, none)
  | .first => q.first.map (q, ·)

/-- The code run on a sequence of calls. -/
def calls : Queue.Queue → List Op → Option (Queue.Queue × List (Option UInt64))
  | q, [] => some (q, [])
  | q, op :: ops =>
    match call q op with
    | none => none
    | some (q', r) => (calls q' ops).map (fun p => (p.1, r :: p.2))

theorem call_spec {q : Queue.Queue} {s : List UInt64} (h : Queue.QRep q s)
    (hlen : s.length < 2 ^ 61) (op : Op) :
    ∃ q', call q op = some (q', answer s op) ∧ Queue.QRep q' (after s op) ∧
      (after s op).length ≤ s.length + 1 ∧
      ∀ N M, Queue.Small q N M → 2 * (s.length + 1) ≤ N → 4 * (128 + s.length) ≤ M →
        Queue.Small q' N M := by
  have hfl : ∀ x, (s.filter (· ≠ x)).length ≤ s.length := fun x => List.length_filter_le _ _
  cases op with
  | use x =>
    obtain ⟨q', h1, h2, h3⟩ := Queue.queue_use_spec h x hlen
    refine ⟨q', by simp [call, h1, answer], h2, ?_, h3⟩
    have := hfl x
    simp only [after, List.length_append, List.length_singleton]; omega
  | add x =>
    obtain ⟨q', h1, h2, h3⟩ := Queue.queue_add_spec h x hlen
    refine ⟨q', by simp [call, h1, answer], h2, ?_, h3⟩
    simp only [after]
    split
    · omega
    · simp
  | remove x =>
    obtain ⟨q', h1, h2, h3⟩ := Queue.queue_remove_spec h x
    refine ⟨q', by simp [call, h1, answer], h2, ?_, fun N M hs _ _ => h3 N M hs⟩
    have := hfl x
    simp only [after]; omega
  | first =>
    refine ⟨q, ?_, h, by simp [after], fun N M hs _ _ => hs⟩
    simp [call, Queue.queue_first_spec h, answer]

theorem calls_spec (ops : List Op) : ∀ (q : Queue.Queue) (s : List UInt64), Queue.QRep q s →
    s.length + ops.length < 2 ^ 61 →
    ∃ q', calls q ops = some (q', answers s ops) ∧ Queue.QRep q' (afterAll s ops) ∧
      ∀ N M P, Queue.Small q N M → (∀ pre, pre <+: ops → (afterAll s pre).length ≤ P) →
        2 * (P + 1) ≤ N → 4 * (128 + P) ≤ M → Queue.Small q' N M := by
  induction ops with
  | nil => intro q s h _; exact ⟨q, rfl, h, fun N M P hs _ _ _ => hs⟩
  | cons op ops ih =>
    intro q s h hlen
    rw [List.length_cons] at hlen
    obtain ⟨q1, h1, h2, h3, h4⟩ := call_spec h (by omega) op
    obtain ⟨q', g1, g2, g3⟩ := ih q1 _ h2 (by omega)
    refine ⟨q', by simp [calls, h1, g1, answers], g2, ?_⟩
    intro N M P hs hP hN hM
    have h0 := hP [] List.nil_prefix
    simp only [afterAll, List.foldl_nil] at h0
    refine g3 N M P (h4 N M hs (by omega) (by omega)) ?_ hN hM
    intro pre hpre
    exact hP (op :: pre) ((List.prefix_cons_inj op).2 hpre)

/-- Whatever the calls (fewer than 2^61), none fails, and the answers are those of the sequence. -/
theorem is_a_queue (ops : List Op) (hlen : ops.length < 2 ^ 61) :
    ∃ q, calls Queue.Queue.empty ops = some (q, answers [] ops) := by
  obtain ⟨q, h, _⟩ := calls_spec ops Queue.Queue.empty [] Queue.qrep_empty (by simpa using hlen)
  exact ⟨q, h⟩

/-- If the queue never held more than `P` values, its list never has more than `2 * (P + 1)` nodes
(or the 129 it starts with) and its map never more than `4 * (128 + P)` slots, however many values
went through. -/
theorem bounded (ops : List Op) (hlen : ops.length < 2 ^ 61) (P : Nat)
    (hP : ∀ pre, pre <+: ops → (afterAll [] pre).length ≤ P) (q : Queue.Queue)
    (rs : List (Option UInt64)) (h : calls Queue.Queue.empty ops = some (q, rs)) :
    q.dlist.nodes.length ≤ max 129 (2 * (P + 1)) ∧
    q.ptrMap.underlying.storage.length ≤ 4 * (128 + P) := by
  obtain ⟨q', h1, _, h3⟩ := calls_spec ops Queue.Queue.empty [] Queue.qrep_empty
    (by simpa using hlen)
  rw [h] at h1
  cases h1
  refine h3 (max 129 (2 * (P + 1))) (4 * (128 + P)) P ⟨?_, ?_⟩ hP (by omega) (Nat.le_refl _)
  · have : Queue.Queue.empty.dlist.nodes.length = 129 := (Queue.alloc_spec (by omega)).2
    omega
  · have : Queue.Queue.empty.ptrMap.underlying.storage.length = 128 := by
      simp [Queue.Queue.empty, Hash.new, Hash.fixedNew]
    omega

/-- Read forwards from the sentinel: the pointers and the values. -/
def forwards {A : Type} (d : Queue.DList A) : Nat → Nat → Option (List (Nat × A))
  | 0, _ => none
  | fuel + 1, p =>
    match d.next p with
    | none => none
    | some 0 => some []
    | some (q + 1) =>
      match d.get (q + 1) with
      | none => none
      | some a => (forwards d fuel (q + 1)).map ((q + 1, a) :: ·)

/-- Read backwards from the sentinel. -/
def backwards {A : Type} (d : Queue.DList A) : Nat → Nat → Option (List (Nat × A))
  | 0, _ => none
  | fuel + 1, p =>
    match d.prev p with
    | none => none
    | some 0 => some []
    | some (q + 1) =>
      match d.get (q + 1) with
      | none => none
      | some a => (backwards d fuel (q + 1)).map ((q + 1, a) :: ·)

/-- What a linked list is made by. -/
inductive Made {A : Type} : Queue.DList A → Prop
  | alloc (n : Nat) : 0 < n → Made (Queue.alloc n)
  | insertBefore {d d' : Queue.DList A} {p p' : Nat} {L : List (Nat × A)} (a : A) : Made d →
      forwards d d.nodes.length 0 = some L → p ∈ 0 :: L.map Prod.fst →
      d.insertBefore p a = some (d', p') → Made d'
  | insertAfter {d d' : Queue.DList A} {p p' : Nat} {L : List (Nat × A)} (a : A) : Made d →
      forwards d d.nodes.length 0 = some L → p ∈ 0 :: L.map Prod.fst →
      d.insertAfter p a = some (d', p') → Made d'
  | remove {d d' : Queue.DList A} {p : Nat} {L : List (Nat × A)} : Made d →
      forwards d d.nodes.length 0 = some L → p ∈ L.map Prod.fst →
      d.remove p = some d' → Made d'

theorem forwards_spec {A : Type} {d : Queue.DList A} : ∀ (L : List (Nat × A)) (fuel x : Nat),
    Queue.Seg (Queue.nx d.nodes) (Queue.pv d.nodes) x (L.map Prod.fst) 0 →
    (∀ pa, pa ∈ L → Queue.dt d.nodes pa.1 = some pa.2) → (0 : Nat) ∉ L.map Prod.fst →
    x < d.nodes.length → (∀ p, p ∈ L.map Prod.fst → p < d.nodes.length) → L.length < fuel →
    forwards d fuel x = some L := by
  intro L
  induction L with
  | nil =>
    intro fuel x hs _ _ hx _ hf
    obtain ⟨f, rfl⟩ : ∃ f, fuel = f + 1 := ⟨fuel - 1, by simp at hf; omega⟩
    obtain ⟨n, hat, hnn, _⟩ := Queue.node_at hx
    have : d.next x = some 0 := by simp only [Queue.DList.next, hat, Option.map_some, hnn, hs.1]
    rw [forwards, this]
  | cons b L ih =>
    intro fuel x hs hd h0 hx hlt hf
    obtain ⟨f, rfl⟩ : ∃ f, fuel = f + 1 := ⟨fuel - 1, by omega⟩
    obtain ⟨n, hat, hnn, _⟩ := Queue.node_at hx
    rw [List.map_cons, List.mem_cons, not_or] at h0
    obtain ⟨⟨bp, ba⟩, rfl⟩ : ∃ c, c = b := ⟨b, rfl⟩
    obtain ⟨q, rfl⟩ : ∃ q, bp = q + 1 := ⟨bp - 1, by have := h0.1; simp at this; omega⟩
    have h1 : d.next x = some (q + 1) := by
      simp only [Queue.DList.next, hat, Option.map_some, hnn, hs.1]
    have h2 : d.get (q + 1) = some ba := hd (q + 1, ba) (by simp)
    rw [forwards, h1]
    simp only
    rw [h2]
    simp only
    rw [ih f (q + 1) hs.2.2 (fun pa h => hd pa (List.mem_cons_of_mem _ h)) h0.2
      (hlt _ (by simp)) (fun p h => hlt p (List.mem_cons_of_mem _ h)) (by simpa using hf)]
    rfl

theorem seg_reverse {n p : Nat → Nat} : ∀ {l : List Nat} {x y : Nat}, Queue.Seg n p x l y →
    Queue.Seg p n y l.reverse x := by
  intro l
  induction l with
  | nil => intro x y h; exact ⟨h.2, h.1⟩
  | cons q l ih =>
    intro x y h
    rw [List.reverse_cons, Queue.seg_append]
    exact ⟨ih h.2.2, h.2.1, h.1⟩

theorem backwards_spec {A : Type} {d : Queue.DList A} : ∀ (L : List (Nat × A)) (fuel x : Nat),
    Queue.Seg (Queue.pv d.nodes) (Queue.nx d.nodes) x (L.map Prod.fst) 0 →
    (∀ pa, pa ∈ L → Queue.dt d.nodes pa.1 = some pa.2) → (0 : Nat) ∉ L.map Prod.fst →
    x < d.nodes.length → (∀ p, p ∈ L.map Prod.fst → p < d.nodes.length) → L.length < fuel →
    backwards d fuel x = some L := by
  intro L
  induction L with
  | nil =>
    intro fuel x hs _ _ hx _ hf
    obtain ⟨f, rfl⟩ : ∃ f, fuel = f + 1 := ⟨fuel - 1, by simp at hf; omega⟩
    obtain ⟨n, hat, _, hnp, _⟩ := Queue.node_at hx
    have : d.prev x = some 0 := by simp only [Queue.DList.prev, hat, Option.map_some, hnp, hs.1]
    rw [backwards, this]
  | cons b L ih =>
    intro fuel x hs hd h0 hx hlt hf
    obtain ⟨f, rfl⟩ : ∃ f, fuel = f + 1 := ⟨fuel - 1, by omega⟩
    obtain ⟨n, hat, _, hnp, _⟩ := Queue.node_at hx
    rw [List.map_cons, List.mem_cons, not_or] at h0
    obtain ⟨⟨bp, ba⟩, rfl⟩ : ∃ c, c = b := ⟨b, rfl⟩
    obtain ⟨q, rfl⟩ : ∃ q, bp = q + 1 := ⟨bp - 1, by have := h0.1; simp at this; omega⟩
    have h1 : d.prev x = some (q + 1) := by
      simp only [Queue.DList.prev, hat, Option.map_some, hnp, hs.1]
    have h2 : d.get (q + 1) = some ba := hd (q + 1, ba) (by simp)
    rw [backwards, h1]
    simp only
    rw [h2]
    simp only
    rw [ih f (q + 1) hs.2.2 (fun pa h => hd pa (List.mem_cons_of_mem _ h)) h0.2
      (hlt _ (by simp)) (fun p h => hlt p (List.mem_cons_of_mem _ h)) (by simpa using hf)]
    rfl

theorem rep_forwards {A : Type} {d : Queue.DList A} {L : List (Nat × A)} {fs : List Nat}
    (h : Queue.DRep d L fs) : forwards d d.nodes.length 0 = some L := by
  have hn := List.nodup_cons.1 h.nodup
  have := h.len
  exact forwards_spec L _ 0 h.seg h.data (fun h' => hn.1 (List.mem_append_left _ h')) h.zero_lt
    (fun p hp => h.lt p (List.mem_append_left _ hp)) (by omega)

theorem rep_backwards {A : Type} {d : Queue.DList A} {L : List (Nat × A)} {fs : List Nat}
    (h : Queue.DRep d L fs) : backwards d d.nodes.length 0 = some L.reverse := by
  have hn := List.nodup_cons.1 h.nodup
  have := h.len
  refine backwards_spec L.reverse _ 0 ?_ ?_ ?_ h.zero_lt ?_ (by rw [List.length_reverse]; omega)
  · rw [List.map_reverse]; exact seg_reverse h.seg
  · intro pa hpa; exact h.data pa (List.mem_reverse.1 hpa)
  · rw [List.map_reverse, List.mem_reverse]; exact fun h' => hn.1 (List.mem_append_left _ h')
  · intro p hp
    rw [List.map_reverse, List.mem_reverse] at hp
    exact h.lt p (List.mem_append_left _ hp)

theorem split_at {A : Type} {L : List (Nat × A)} {p : Nat} (h : p ∈ L.map Prod.fst) :
    ∃ L1 a L2, L = L1 ++ (p, a) :: L2 := by
  obtain ⟨⟨p', a⟩, hpa, rfl⟩ := List.mem_map.1 h
  obtain ⟨L1, L2, rfl⟩ := List.append_of_mem hpa
  exact ⟨L1, a, L2, rfl⟩

theorem made_rep {A : Type} {d : Queue.DList A} (h : Made d) : ∃ L fs, Queue.DRep d L fs := by
  induction h with
  | alloc n hn => exact ⟨_, _, (Queue.alloc_spec hn).1⟩
  | @insertBefore d d' p p' L a _ hf hp hi ih =>
    obtain ⟨L', fs, h⟩ := ih
    rw [rep_forwards h] at hf
    cases hf
    rcases List.mem_cons.1 hp with h' | h'
    · subst h'
      obtain ⟨d2, p2, fs', e, r, _⟩ := Queue.insertBefore_spec (L1 := L) (L2 := [])
        (p := 0) (by simpa using h) rfl a
      rw [e] at hi
      cases hi
      exact ⟨_, _, r⟩
    · obtain ⟨L1, b, L2, rfl⟩ := split_at h'
      obtain ⟨d2, p2, fs', e, r, _⟩ := Queue.insertBefore_spec (L1 := L1) (L2 := (p, b) :: L2)
        (p := p) h rfl a
      rw [e] at hi
      cases hi
      exact ⟨_, _, r⟩
  | @insertAfter d d' p p' L a _ hf hp hi ih =>
    obtain ⟨L', fs, h⟩ := ih
    rw [rep_forwards h] at hf
    cases hf
    rcases List.mem_cons.1 hp with h' | h'
    · subst h'
      obtain ⟨d2, p2, fs', e, r, _⟩ := Queue.insertAfter_spec (L1 := []) (L2 := L)
        (p := 0) h rfl a
      rw [e] at hi
      cases hi
      exact ⟨_, _, r⟩
    · obtain ⟨L1, b, L2, rfl⟩ := split_at h'
      obtain ⟨d2, p2, fs', e, r, _⟩ := Queue.insertAfter_spec (L1 := L1 ++ [(p, b)]) (L2 := L2)
        (p := p) (by simpa using h) (by simp) a
      rw [e] at hi
      cases hi
      exact ⟨_, _, r⟩
  | @remove d d' p L _ hf hp hr ih =>
    obtain ⟨L', fs, h⟩ := ih
    rw [rep_forwards h] at hf
    cases hf
    obtain ⟨L1, b, L2, rfl⟩ := split_at hp
    obtain ⟨d2, e, r, _⟩ := Queue.remove_spec h
    rw [e] at hr
    cases hr
    exact ⟨_, _, r⟩

/-- Read backwards a linked list is the reverse of what it is read forwards, and no pointer
comes twice. -/
theorem linked_both_ways {A : Type} {d : Queue.DList A} (h : Made d) :
    ∃ L, forwards d d.nodes.length 0 = some L ∧ backwards d d.nodes.length 0 = some L.reverse ∧
      (L.map Prod.fst).Nodup := by
  obtain ⟨L, fs, h⟩ := made_rep h
  have hn := (List.nodup_cons.1 h.nodup).2
  rw [List.nodup_append] at hn
  exact ⟨L, rep_forwards h, rep_backwards h, hn.1⟩

/-- Inserting before a node of the list puts the value there, and moves no other. -/
theorem insert_before {A : Type} {d : Queue.DList A} (h : Made d) {L1 L2 : List (Nat × A)}
    {p : Nat} {b a : A} (hf : forwards d d.nodes.length 0 = some (L1 ++ (p, b) :: L2)) :
    ∃ d' p', d.insertBefore p a = some (d', p') ∧
      forwards d' d'.nodes.length 0 = some (L1 ++ (p', a) :: (p, b) :: L2) := by
  obtain ⟨L, fs, h⟩ := made_rep h
  rw [rep_forwards h] at hf
  cases hf
  obtain ⟨d2, p2, fs', e, r, _⟩ := Queue.insertBefore_spec (L1 := L1) (L2 := (p, b) :: L2) h rfl a
  exact ⟨d2, p2, e, rep_forwards r⟩

/-- Inserting after a node of the list. -/
theorem insert_after {A : Type} {d : Queue.DList A} (h : Made d) {L1 L2 : List (Nat × A)}
    {p : Nat} {b a : A} (hf : forwards d d.nodes.length 0 = some (L1 ++ (p, b) :: L2)) :
    ∃ d' p', d.insertAfter p a = some (d', p') ∧
      forwards d' d'.nodes.length 0 = some (L1 ++ (p, b) :: (p', a) :: L2) := by
  obtain ⟨L, fs, h⟩ := made_rep h
  rw [rep_forwards h] at hf
  cases hf
  obtain ⟨d2, p2, fs', e, r, _⟩ := Queue.insertAfter_spec (L1 := L1 ++ [(p, b)]) (L2 := L2)
    (p := p) (by simpa using h) (by simp) a
  refine ⟨d2, p2, e, ?_⟩
  rw [rep_forwards r]; simp

/-- Inserting before the sentinel is at the end, after it at the start. -/
theorem insert_ends {A : Type} {d : Queue.DList A} (h : Made d) {L : List (Nat × A)} {a : A}
    (hf : forwards d d.nodes.length 0 = some L) :
    (∃ d' p', d.insertBefore 0 a = some (d', p') ∧
      forwards d' d'.nodes.length 0 = some (L ++ [(p', a)])) ∧
    (∃ d' p', d.insertAfter 0 a = some (d', p') ∧
      forwards d' d'.nodes.length 0 = some ((p', a) :: L)) := by
  obtain ⟨L, fs, h⟩ := made_rep h
  rw [rep_forwards h] at hf
  cases hf
  constructor
  · obtain ⟨d2, p2, fs', e, r, _⟩ := Queue.insertBefore_spec (L1 := L) (L2 := [])
      (by simpa using h) rfl a
    exact ⟨d2, p2, e, rep_forwards r⟩
  · obtain ⟨d2, p2, fs', e, r, _⟩ := Queue.insertAfter_spec (L1 := []) (L2 := L) h rfl a
    exact ⟨d2, p2, e, rep_forwards r⟩

/-- Removing a node of the list. -/
theorem removal {A : Type} {d : Queue.DList A} (h : Made d) {L1 L2 : List (Nat × A)}
    {p : Nat} {b : A} (hf : forwards d d.nodes.length 0 = some (L1 ++ (p, b) :: L2)) :
    ∃ d', d.remove p = some d' ∧ forwards d' d'.nodes.length 0 = some (L1 ++ L2) := by
  obtain ⟨L, fs, h⟩ := made_rep h
  rw [rep_forwards h] at hf
  cases hf
  obtain ⟨d2, e, r, _⟩ := Queue.remove_spec h
  exact ⟨d2, e, rep_forwards r⟩

/-- The hypotheses can be met: values used again, taken out of the middle, and added twice. -/
theorem demo :
    (calls Queue.Queue.empty [.use 5, .use 7, .use 9, .use 5, .first, .remove 7, .first, .add 9,
      .add 2, .remove 9, .first, .remove 5, .first, .remove 2, .first]).map (·.2) =
    some [none, none, none, none, some 7, none, some 9, none, none, none, some 5, none, some 2,
      none, none] := by
  decide +kernel

/-- A linked list of three nodes and the sentinel that is enlarged, with a removal in the middle. -/
theorem demo_list :
    (do
      let (d, p) ← (Queue.alloc 3 : Queue.DList Nat).insertAfter 0 100
      let (d, p) ← d.insertAfter p 200
      let (d, p3) ← d.insertAfter p 300
      let (d, p4) ← d.insertBefore p3 250
      let d ← d.remove p
      let (d, _) ← d.insertAfter p4 275
      let l ← forwards d d.nodes.length 0
      let r ← backwards d d.nodes.length 0
      return (l.map Prod.snd, r.map Prod.snd, d.nodes.length)) =
    some ([100, 250, 275, 300], [300, 275, 250, 100], 6) := by
  decide +kernel

end Verif.C71
