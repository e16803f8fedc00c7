import Verif.Kv.Btree
import Mathlib.Tactic.Order

/-!
The B-tree is a sorted association list, balanced, with nodes at least half full.  No code is modelled
here.
-/

namespace Verif.Btree

variable {K V : Type} [LinearOrder K]

/-! ### Association lists -/

/-- The value of a key. -/
def look (l : List (K × V)) (k : K) : Option V := (l.find? (fun x => x.1 = k)).map (·.2)

/-- Insertion in a sorted association list. -/
def ins (k : K) (v : V) : List (K × V) → List (K × V)
  | [] => [(k, v)]
  | x :: l => if k < x.1 then (k, v) :: x :: l else if k = x.1 then (k, v) :: l else x :: ins k v l

theorem look_cons (x : K × V) (l : List (K × V)) (k : K) :
    look (x :: l) k = if x.1 = k then some x.2 else look l k := by
  unfold look
  rw [List.find?_cons]
  by_cases h : x.1 = k <;> simp [h]

theorem look_ins (k : K) (v : V) (l : List (K × V)) (k' : K) :
    look (ins k v l) k' = if k' = k then some v else look l k' := by
  induction l with
  | nil => simp only [ins, look_cons, eq_comm]
  | cons x l ih =>
    unfold ins
    split
    · rw [look_cons]; simp only [eq_comm]
    · split
      · rename_i h1 h2
        rw [look_cons, look_cons]
        by_cases h : k' = k
        · simp [h]
        · have h3 : ¬ k = k' := fun e => h e.symm
          have h4 : ¬ x.1 = k' := fun e => h3 (h2.trans e)
          simp [h, h3, h4]
      · rename_i h1 h2
        rw [look_cons, look_cons, ih]
        by_cases h : x.1 = k'
        · have h3 : ¬ k' = k := fun e => h2 (h.trans e).symm
          simp [h, h3]
        · simp [h]

theorem look_none {l : List (K × V)} {k : K} (h : ∀ x ∈ l, x.1 ≠ k) : look l k = none := by
  unfold look
  rw [List.find?_eq_none.2]
  · rfl
  · intro x hx; simpa using h x hx

theorem look_append (a b : List (K × V)) (k : K) : look (a ++ b) k = (look a k).or (look b k) := by
  unfold look
  rw [List.find?_append]
  cases h : a.find? (fun x => decide (x.1 = k)) <;> simp

/-- Only the middle part can have the key. -/
theorem look_mid {a b c : List (K × V)} {k : K} (ha : ∀ x ∈ a, x.1 < k) (hc : ∀ x ∈ c, k < x.1) :
    look (a ++ (b ++ c)) k = look b k := by
  rw [look_append, look_append, look_none (l := a) (fun x hx e => by have := ha x hx; order),
    look_none (l := c) (fun x hx e => by have := hc x hx; order)]
  simp

theorem ins_right {a l : List (K × V)} {k : K} {v : V} (ha : ∀ x ∈ a, x.1 < k) : ins k v (a ++ l) = a ++ ins k v l := by
  induction a with
  | nil => rfl
  | cons x a ih =>
    have hx := ha x (List.mem_cons_self ..)
    rw [List.cons_append, ins, if_neg (by order), if_neg (by order), ih (fun y hy => ha y (List.mem_cons_of_mem _ hy)),
      List.cons_append]

theorem ins_left {l c : List (K × V)} {k : K} {v : V} (hc : ∀ x ∈ c, k < x.1) : ins k v (l ++ c) = ins k v l ++ c := by
  induction l with
  | nil =>
    cases c with
    | nil => rfl
    | cons x c => simp [ins, hc x (List.mem_cons_self ..)]
  | cons x l ih =>
    rw [List.cons_append, ins, ins]
    split
    · rfl
    · split
      · rfl
      · rw [ih]; rfl

theorem ins_mid {a b c : List (K × V)} {k : K} {v : V} (ha : ∀ x ∈ a, x.1 < k) (hc : ∀ x ∈ c, k < x.1) :
    ins k v (a ++ (b ++ c)) = a ++ (ins k v b ++ c) := by
  rw [ins_right ha, ins_left hc]

theorem zip_unzip (l : List (K × V)) : (l.map (·.1)).zip (l.map (·.2)) = l := by
  induction l with
  | nil => rfl
  | cons x l ih => rw [List.map_cons, List.map_cons, List.zip_cons_cons, ih]

theorem exists_pairs : ∀ {ks : List K} {vs : List V}, ks.length = vs.length →
    ∃ l : List (K × V), ks = l.map (·.1) ∧ vs = l.map (·.2)
  | [], [], _ => ⟨[], rfl, rfl⟩
  | [], _ :: _, h => by simp at h
  | _ :: _, [], h => by simp at h
  | k :: ks, v :: vs, h => by
    obtain ⟨l, h1, h2⟩ := exists_pairs (ks := ks) (vs := vs) (by simpa using h)
    exact ⟨(k, v) :: l, by simp [h1], by simp [h2]⟩

/-! ### Ranges -/

/-- At least the bound, if there is one. -/
def Ge : Option K → K → Prop
  | none, _ => True
  | some p, k => p ≤ k

/-- Above the bound, if there is one. -/
def Gt : Option K → K → Prop
  | none, _ => True
  | some p, k => p < k

/-- Below the bound, if there is one. -/
def Lt : K → Option K → Prop
  | _, none => True
  | k, some p => k < p

/-- In the range. -/
def InR (lo hi : Option K) (k : K) : Prop := Ge lo k ∧ Lt k hi

theorem Gt.ge {lo : Option K} {p k : K} (h : Gt lo p) (h' : p ≤ k) : Ge lo k := by
  cases lo with
  | none => trivial
  | some q => exact le_trans (le_of_lt h) h'

theorem Gt.gt {lo : Option K} {p k : K} (h : Gt lo p) (h' : p < k) : Gt lo k := by
  cases lo with
  | none => trivial
  | some q => exact lt_trans h h'

theorem Ge.gt {lo : Option K} {p k : K} (h : Ge lo p) (h' : p < k) : Gt lo k := by
  cases lo with
  | none => trivial
  | some q => exact lt_of_le_of_lt h h'

theorem Lt.lt {hi : Option K} {p k : K} (h : Lt p hi) (h' : k < p) : Lt k hi := by
  cases hi with
  | none => trivial
  | some q => exact lt_trans h' h

/-! ### The invariant -/

mutual
/-- What the tree holds, in order. -/
def Node.toList : Node K V → List (K × V)
  | .leaf ks vs => ks.zip vs
  | .index _ cs => toLists cs
/-- What the trees hold. -/
def toLists : List (Node K V) → List (K × V)
  | [] => []
  | c :: cs => c.toList ++ toLists cs
end

theorem toLists_append (a b : List (Node K V)) : toLists (a ++ b) = toLists a ++ toLists b := by
  induction a with
  | nil => rfl
  | cons c a ih => rw [List.cons_append, toLists, toLists, ih, List.append_assoc]

/-- The children between the pivots. -/
def Kids (P : Option K → Option K → Node K V → Prop) : Option K → List K → List (Node K V) → Option K → Prop
  | lo, [], [c], hi => P lo hi c
  | lo, p :: ps, c :: cs, hi => Gt lo p ∧ Lt p hi ∧ P lo (some p) c ∧ Kids P (some p) ps cs hi
  | _, _, _, _ => False

/-- A tree of height `h`, with keys in the range, at least `m.1` keys if it is a leaf and `m.2` children if
it is not, all others half full. -/
def WF (L : Limits) : Nat → Nat × Nat → Option K → Option K → Node K V → Prop
  | 0, m, lo, hi, .leaf ks vs => ks.length = vs.length ∧ ks.Pairwise (· < ·) ∧ (∀ k ∈ ks, InR lo hi k) ∧
      m.1 ≤ ks.length ∧ ks.length ≤ L.keys
  | h + 1, m, lo, hi, .index ps cs => Kids (WF L h (L.keys / 2, L.children / 2)) lo ps cs hi ∧
      m.2 ≤ cs.length ∧ cs.length ≤ L.children
  | _, _, _, _, _ => False

variable {L : Limits}

/-- The children, below the root. -/
abbrev Inner (L : Limits) (h : Nat) : Option K → Option K → Node K V → Prop :=
  WF L h (L.keys / 2, L.children / 2)

theorem WF.leaf {m lo hi} {n : Node K V} (h : WF L 0 m lo hi n) : ∃ l : List (K × V),
    n = .leaf (l.map (·.1)) (l.map (·.2)) ∧ l.Pairwise (fun a b => a.1 < b.1) ∧ (∀ x ∈ l, InR lo hi x.1) ∧
    m.1 ≤ l.length ∧ l.length ≤ L.keys := by
  cases n with
  | index => exact h.elim
  | leaf ks vs =>
    obtain ⟨h1, h2, h3, h4, h5⟩ := h
    obtain ⟨l, rfl, rfl⟩ := exists_pairs h1
    refine ⟨l, rfl, List.pairwise_map.1 h2, fun x hx => h3 _ (List.mem_map_of_mem hx), by simpa using h4, by simpa using h5⟩

theorem WF.mkLeaf {m lo hi} {l : List (K × V)} (h1 : l.Pairwise (fun a b => a.1 < b.1))
    (h2 : ∀ x ∈ l, InR lo hi x.1) (h3 : m.1 ≤ l.length) (h4 : l.length ≤ L.keys) :
    WF L 0 m lo hi (.leaf (l.map (·.1)) (l.map (·.2))) := by
  refine ⟨by simp, List.pairwise_map.2 h1, fun k hk => ?_, by simpa using h3, by simpa using h4⟩
  obtain ⟨x, hx, rfl⟩ := List.mem_map.1 hk
  exact h2 x hx

theorem WF.index {h m lo hi} {n : Node K V} (hn : WF L (h + 1) m lo hi n) : ∃ ps cs, n = .index ps cs ∧
    Kids (Inner L h) lo ps cs hi ∧ m.2 ≤ cs.length ∧ cs.length ≤ L.children := by
  cases n with
  | leaf => exact hn.elim
  | index ps cs => exact ⟨ps, cs, rfl, hn⟩

theorem WF.mono {h m m' lo hi} {n : Node K V} (hn : WF L h m lo hi n) (h1 : m'.1 ≤ m.1) (h2 : m'.2 ≤ m.2) :
    WF L h m' lo hi n := by
  cases h with
  | zero =>
    cases n with
    | index => exact hn.elim
    | leaf ks vs => exact ⟨hn.1, hn.2.1, hn.2.2.1, le_trans h1 hn.2.2.2.1, hn.2.2.2.2⟩
  | succ h =>
    cases n with
    | leaf => exact hn.elim
    | index ps cs => exact ⟨hn.1, le_trans h2 hn.2.1, hn.2.2⟩

theorem Kids.length {P : Option K → Option K → Node K V → Prop} : ∀ {lo ps cs hi}, Kids P lo ps cs hi →
    cs.length = ps.length + 1
  | _, [], [], _, h => h.elim
  | _, [], [_], _, _ => rfl
  | _, [], _ :: _ :: _, _, h => h.elim
  | _, _ :: _, [], _, h => h.elim
  | _, _ :: ps, _ :: cs, _, h => by rw [List.length_cons, List.length_cons, Kids.length h.2.2.2]

theorem Kids.each {P : Option K → Option K → Node K V → Prop} : ∀ {lo ps cs hi}, Kids P lo ps cs hi →
    ∀ c ∈ cs, ∃ a b, P a b c
  | _, [], [], _, h => h.elim
  | _, [], [_], _, h => fun c hc => by
    rw [List.mem_singleton] at hc
    subst hc
    exact ⟨_, _, h⟩
  | _, [], _ :: _ :: _, _, h => h.elim
  | _, _ :: _, [], _, h => h.elim
  | _, _ :: ps, _ :: cs, _, h => fun c hc => by
    rcases List.mem_cons.1 hc with rfl | hc
    · exact ⟨_, _, h.2.2.1⟩
    · exact Kids.each h.2.2.2 c hc

theorem Kids.pivots {P : Option K → Option K → Node K V → Prop} : ∀ {lo ps cs hi}, Kids P lo ps cs hi →
    ps.Pairwise (· < ·) ∧ ∀ p ∈ ps, Gt lo p ∧ Lt p hi
  | _, [], [], _, h => h.elim
  | _, [], [_], _, _ => ⟨.nil, fun p hp => nomatch hp⟩
  | _, [], _ :: _ :: _, _, h => h.elim
  | _, _ :: _, [], _, h => h.elim
  | _, p :: ps, _ :: cs, _, h => by
    obtain ⟨h1, h2⟩ := Kids.pivots h.2.2.2
    refine ⟨List.pairwise_cons.2 ⟨fun q hq => (h2 q hq).1, h1⟩, fun q hq => ?_⟩
    rcases List.mem_cons.1 hq with rfl | hq
    · exact ⟨h.1, h.2.1⟩
    · exact ⟨h.1.gt (h2 q hq).1, (h2 q hq).2⟩

theorem Kids.facts {P : Option K → Option K → Node K V → Prop}
    (hP : ∀ lo hi c, P lo hi c → (∀ x ∈ c.toList, InR lo hi x.1) ∧ c.toList.Pairwise (fun a b => a.1 < b.1)) :
    ∀ {lo ps cs hi}, Kids P lo ps cs hi →
      (∀ x ∈ toLists cs, InR lo hi x.1) ∧ (toLists cs).Pairwise (fun a b => a.1 < b.1)
  | _, [], [], _, h => h.elim
  | _, [], [c], _, h => by
    simp only [toLists, List.append_nil]
    exact hP _ _ _ h
  | _, [], _ :: _ :: _, _, h => h.elim
  | _, _ :: _, [], _, h => h.elim
  | lo, p :: ps, c :: cs, hi, h => by
    obtain ⟨h1, h2⟩ := Kids.facts hP h.2.2.2
    obtain ⟨h3, h4⟩ := hP _ _ _ h.2.2.1
    simp only [toLists]
    refine ⟨fun x hx => ?_, List.pairwise_append.2 ⟨h4, h2, fun x hx y hy => ?_⟩⟩
    · rcases List.mem_append.1 hx with hx | hx
      · exact ⟨(h3 x hx).1, h.2.1.lt (h3 x hx).2⟩
      · exact ⟨h.1.ge (h1 x hx).1, (h1 x hx).2⟩
    · exact lt_of_lt_of_le (h3 x hx).2 (h1 y hy).1

/-- The keys are in the range, and in order. -/
theorem WF.facts : ∀ {h m lo hi} {n : Node K V}, WF L h m lo hi n →
    (∀ x ∈ n.toList, InR lo hi x.1) ∧ n.toList.Pairwise (fun a b => a.1 < b.1)
  | 0, m, lo, hi, n, h => by
    obtain ⟨l, rfl, h1, h2, -⟩ := h.leaf
    simp only [Node.toList, zip_unzip]
    exact ⟨h2, h1⟩
  | h + 1, m, lo, hi, n, hn => by
    obtain ⟨ps, cs, rfl, h1, -⟩ := hn.index
    simp only [Node.toList]
    exact h1.facts (fun _ _ _ hc => WF.facts hc)

theorem Kids.height {P : Option K → Option K → Node K V → Prop} {h : Nat} (hP : ∀ lo hi c, P lo hi c → c.height = h) :
    ∀ {lo ps cs hi}, Kids P lo ps cs hi → heights cs = h
  | _, [], [], _, h => h.elim
  | _, [], [c], _, h => by
    simp only [heights, hP _ _ _ h]
    omega
  | _, [], _ :: _ :: _, _, h => h.elim
  | _, _ :: _, [], _, h => h.elim
  | lo, p :: ps, c :: cs, hi, h => by
    simp only [heights, hP _ _ _ h.2.2.1, Kids.height hP h.2.2.2]
    omega

/-- All leaves are at the same depth. -/
theorem WF.height : ∀ {h m lo hi} {n : Node K V}, WF L h m lo hi n → n.height = h
  | 0, m, lo, hi, n, h => by
    obtain ⟨l, rfl, -⟩ := h.leaf
    rfl
  | h + 1, m, lo, hi, n, hn => by
    obtain ⟨ps, cs, rfl, h1, -⟩ := hn.index
    simp only [Node.height, h1.height (fun _ _ _ hc => WF.height hc)]

theorem toLists_length {b : Nat} : ∀ {cs : List (Node K V)}, (∀ c ∈ cs, b ≤ c.toList.length) →
    cs.length * b ≤ (toLists cs).length
  | [], _ => by simp
  | c :: cs, h => by
    have h1 := h c (List.mem_cons_self ..)
    have h2 := toLists_length (fun d hd => h d (List.mem_cons_of_mem _ hd))
    rw [List.length_cons, toLists, List.length_append, Nat.add_mul]
    omega

/-- A tree that is not the root holds many keys. -/
theorem Inner.size : ∀ {h lo hi} {n : Node K V}, Inner L h lo hi n →
    (L.children / 2) ^ h * (L.keys / 2) ≤ n.toList.length
  | 0, lo, hi, n, h => by
    obtain ⟨l, rfl, h1, h2, h3, h4⟩ := WF.leaf h
    simp only [Node.toList, zip_unzip]
    simpa using h3
  | h + 1, lo, hi, n, hn => by
    obtain ⟨ps, cs, rfl, h1, h2, h3⟩ := WF.index hn
    have := toLists_length (b := (L.children / 2) ^ h * (L.keys / 2)) (cs := cs) (fun c hc => by
      obtain ⟨a, b, hab⟩ := h1.each c hc
      exact Inner.size hab)
    simp only [Node.toList]
    refine le_trans ?_ this
    have h4 : (L.children / 2) * ((L.children / 2) ^ h * (L.keys / 2)) ≤ cs.length * ((L.children / 2) ^ h * (L.keys / 2)) :=
      Nat.mul_le_mul_right _ h2
    rw [Nat.pow_succ, Nat.mul_comm ((L.children / 2) ^ h), Nat.mul_assoc]
    exact h4

theorem Inner.pos {h lo hi} {n : Node K V} (hn : Inner L h lo hi n) : n.toList ≠ [] := by
  intro he
  have h1 := Inner.size hn
  rw [he, List.length_nil] at h1
  have h2 : 0 < (L.children / 2) ^ h := Nat.pow_pos (by have := L.hchildren; omega)
  have h3 : 0 < L.keys / 2 := by have := L.hkeys; omega
  have := Nat.mul_pos h2 h3
  omega

/-! ### The search -/

theorem searchLoop_spec {run : List K} {needle : K} (hs : run.Pairwise (· < ·)) : ∀ (fuel lo hi : Nat),
    hi - lo ≤ fuel → lo ≤ hi → hi ≤ run.length → (∀ (i : Nat) (x : K), i < lo → run[i]? = some x → x ≤ needle) →
    (∀ (i : Nat) (x : K), hi ≤ i → run[i]? = some x → needle < x) →
    ∃ r, searchLoop run needle fuel lo hi = some r ∧ r ≤ run.length ∧
      (∀ (i : Nat) (x : K), i < r → run[i]? = some x → x ≤ needle) ∧
      (∀ (i : Nat) (x : K), r ≤ i → run[i]? = some x → needle < x)
  | 0, lo, hi, hf, hl, hh, h1, h2 => by
    have : lo = hi := by omega
    subst this
    exact ⟨lo, by simp [searchLoop], hh, h1, h2⟩
  | fuel + 1, lo, hi, hf, hl, hh, h1, h2 => by
    unfold searchLoop
    by_cases hlt : lo < hi
    · rw [if_pos hlt]
      have hmid : (lo + hi) / 2 < run.length := by omega
      simp only [List.getElem?_eq_getElem hmid]
      have sorted := List.pairwise_iff_getElem.1 hs
      split
      · rename_i hn
        refine searchLoop_spec hs fuel lo _ (by omega) (by omega) (by omega) h1 (fun i x hi' hx => ?_)
        obtain ⟨hil, rfl⟩ := List.getElem?_eq_some_iff.1 hx
        rcases Nat.eq_or_lt_of_le hi' with he | hlt'
        · subst he; exact hn
        · exact lt_trans hn (sorted _ _ hmid hil hlt')
      · rename_i hn
        refine searchLoop_spec hs fuel _ hi (by omega) (by omega) hh (fun i x hi' hx => ?_) h2
        obtain ⟨hil, rfl⟩ := List.getElem?_eq_some_iff.1 hx
        rcases Nat.lt_or_ge i ((lo + hi) / 2) with hlt' | hge
        · exact le_trans (le_of_lt (sorted _ _ hil hmid hlt')) (not_lt.1 hn)
        · have : i = (lo + hi) / 2 := by omega
          subst this
          exact not_lt.1 hn
    · rw [if_neg hlt]
      have : lo = hi := by omega
      subst this
      exact ⟨lo, rfl, hh, h1, h2⟩

theorem route_spec {run : List K} (hs : run.Pairwise (· < ·)) (needle : K) :
    ∃ l1 l2, run = l1 ++ l2 ∧ route run needle = some l1.length ∧ (∀ x ∈ l1, x ≤ needle) ∧ ∀ x ∈ l2, needle < x := by
  obtain ⟨r, h1, h2, h3, h4⟩ := searchLoop_spec (needle := needle) hs run.length 0 run.length (by omega) (by omega)
    (Nat.le_refl _) (fun i x hi _ => by omega) (fun i x hi hx => by
      obtain ⟨hil, _⟩ := List.getElem?_eq_some_iff.1 hx
      omega)
  refine ⟨run.take r, run.drop r, (List.take_append_drop r run).symm, ?_, fun x hx => ?_, fun x hx => ?_⟩
  · unfold route
    rw [h1, List.length_take, Nat.min_eq_left h2]
  · obtain ⟨i, hi, rfl⟩ := List.mem_iff_getElem.1 hx
    rw [List.length_take] at hi
    exact h3 i _ (by omega) (by rw [List.getElem_take]; exact List.getElem?_eq_getElem _)
  · obtain ⟨i, hi, rfl⟩ := List.mem_iff_getElem.1 hx
    rw [List.length_drop] at hi
    exact h4 (r + i) _ (by omega) (by rw [List.getElem_drop]; exact List.getElem?_eq_getElem _)

/-! ### One child among its siblings -/

/-- `c` is the child after `c1` and before `c2`, with the range from `lo'` to `hi'`; it can be replaced by one or
by two others. -/
structure Focus (P : Option K → Option K → Node K V → Prop) (lo hi : Option K) (l1 l2 : List K) (c1 c2 : List (Node K V))
    (lo' hi' : Option K) : Prop where
  len : c1.length = l1.length
  low : (lo' = lo ∧ l1 = []) ∨ ∃ p ∈ l1, lo' = some p
  high : (hi' = hi ∧ l2 = []) ∨ ∃ p ∈ l2, hi' = some p
  replace : ∀ c', P lo' hi' c' → Kids P lo (l1 ++ l2) (c1 ++ c' :: c2) hi
  replace2 : ∀ p l r, Gt lo' p → Lt p hi' → P lo' (some p) l → P (some p) hi' r →
    Kids P lo (l1 ++ p :: l2) (c1 ++ l :: r :: c2) hi
  before : ∀ d ∈ c1, ∃ a p, p ∈ l1 ∧ P a (some p) d
  after : ∀ d ∈ c2, ∃ p b, p ∈ l2 ∧ P (some p) b d

theorem Kids.focus {P : Option K → Option K → Node K V → Prop} : ∀ (l1 : List K) {l2 lo cs hi}, Kids P lo (l1 ++ l2) cs hi →
    ∃ c1 c c2 lo' hi', cs = c1 ++ c :: c2 ∧ P lo' hi' c ∧ Focus P lo hi l1 l2 c1 c2 lo' hi'
  | [], [], lo, [], hi, h => h.elim
  | [], [], lo, [c], hi, h => ⟨[], c, [], lo, hi, rfl, h, rfl, .inl ⟨rfl, rfl⟩, .inl ⟨rfl, rfl⟩, fun _ h' => h',
      fun _ _ _ h1 h2 h3 h4 => ⟨h1, h2, h3, h4⟩, (fun _ hd => nomatch hd), (fun _ hd => nomatch hd)⟩
  | [], [], lo, _ :: _ :: _, hi, h => h.elim
  | [], q :: l2, lo, [], hi, h => h.elim
  | [], q :: l2, lo, c :: cs, hi, h => by
    refine ⟨[], c, cs, lo, some q, rfl, h.2.2.1, rfl, .inl ⟨rfl, rfl⟩, .inr ⟨q, List.mem_cons_self .., rfl⟩,
      fun c' h' => ⟨h.1, h.2.1, h', h.2.2.2⟩, fun p l r h1 h2 h3 h4 => ?_, (fun _ hd => nomatch hd), fun d hd => ?_⟩
    · exact ⟨h1, h.2.1.lt h2, h3, h2, h.2.1, h4, h.2.2.2⟩
    · have : ∀ {ps : List K} {cs : List (Node K V)} {p : K}, Kids P (some p) ps cs hi → ∀ d ∈ cs,
          ∃ q b, q ∈ p :: ps ∧ P (some q) b d := by
        intro ps
        induction ps with
        | nil =>
          intro cs p hk d hd
          match cs, hk with
          | [c], hk =>
            rw [List.mem_singleton] at hd
            subst hd
            exact ⟨p, hi, List.mem_cons_self .., hk⟩
        | cons q ps ih =>
          intro cs p hk d hd
          match cs, hk with
          | c :: cs, hk =>
            rcases List.mem_cons.1 hd with rfl | hd
            · exact ⟨p, _, List.mem_cons_self .., hk.2.2.1⟩
            · obtain ⟨q', b, h1, h2⟩ := ih hk.2.2.2 d hd
              exact ⟨q', b, List.mem_cons_of_mem _ h1, h2⟩
      exact this h.2.2.2 d hd
  | q :: l1, l2, lo, [], hi, h => h.elim
  | q :: l1, l2, lo, c0 :: cs, hi, h => by
    obtain ⟨c1, c, c2, lo', hi', rfl, hc, hf⟩ := Kids.focus l1 (l2 := l2) h.2.2.2
    refine ⟨c0 :: c1, c, c2, lo', hi', rfl, hc, by simp [hf.len], .inr ?_, hf.high, fun c' h' => ?_,
      fun p l r h1 h2 h3 h4 => ?_, fun d hd => ?_, hf.after⟩
    · rcases hf.low with ⟨h1, h2⟩ | ⟨p, h1, h2⟩
      · exact ⟨q, List.mem_cons_self .., h1⟩
      · exact ⟨p, List.mem_cons_of_mem _ h1, h2⟩
    · exact ⟨h.1, h.2.1, h.2.2.1, hf.replace c' h'⟩
    · exact ⟨h.1, h.2.1, h.2.2.1, hf.replace2 p l r h1 h2 h3 h4⟩
    · rcases List.mem_cons.1 hd with rfl | hd
      · exact ⟨lo, q, List.mem_cons_self .., h.2.2.1⟩
      · obtain ⟨a, p, h1, h2⟩ := hf.before d hd
        exact ⟨a, p, List.mem_cons_of_mem _ h1, h2⟩

theorem mem_toLists {x : K × V} : ∀ {cs : List (Node K V)}, x ∈ toLists cs → ∃ c ∈ cs, x ∈ c.toList
  | [], h => nomatch h
  | c :: cs, h => by
    rw [toLists] at h
    rcases List.mem_append.1 h with h | h
    · exact ⟨c, List.mem_cons_self .., h⟩
    · obtain ⟨d, h1, h2⟩ := mem_toLists h
      exact ⟨d, List.mem_cons_of_mem _ h1, h2⟩

theorem Focus.keys_before {h lo hi l1 l2} {c1 c2 : List (Node K V)} {lo' hi' : Option K}
    (hf : Focus (Inner L h) lo hi l1 l2 c1 c2 lo' hi') {k : K} (hk : ∀ p ∈ l1, p ≤ k) : ∀ x ∈ toLists c1, x.1 < k := by
  intro x hx
  obtain ⟨d, hd, hx⟩ := mem_toLists hx
  obtain ⟨a, p, hp, hw⟩ := hf.before d hd
  exact lt_of_lt_of_le ((WF.facts hw).1 x hx).2 (hk p hp)

theorem Focus.keys_after {h lo hi l1 l2} {c1 c2 : List (Node K V)} {lo' hi' : Option K}
    (hf : Focus (Inner L h) lo hi l1 l2 c1 c2 lo' hi') {k : K} (hk : ∀ p ∈ l2, k < p) : ∀ x ∈ toLists c2, k < x.1 := by
  intro x hx
  obtain ⟨d, hd, hx⟩ := mem_toLists hx
  obtain ⟨p, b, hp, hw⟩ := hf.after d hd
  exact lt_of_lt_of_le (hk p hp) ((WF.facts hw).1 x hx).1

theorem Focus.inR {P : Option K → Option K → Node K V → Prop} {lo hi l1 l2} {c1 c2 : List (Node K V)} {lo' hi' : Option K}
    (hf : Focus P lo hi l1 l2 c1 c2 lo' hi') {k : K} (hr : InR lo hi k) (h1 : ∀ p ∈ l1, p ≤ k) (h2 : ∀ p ∈ l2, k < p) :
    InR lo' hi' k := by
  constructor
  · rcases hf.low with ⟨e, -⟩ | ⟨p, hp, e⟩
    · rw [e]; exact hr.1
    · rw [e]; exact h1 p hp
  · rcases hf.high with ⟨e, -⟩ | ⟨p, hp, e⟩
    · rw [e]; exact hr.2
    · rw [e]; exact h2 p hp

/-! ### Questions -/

theorem getElem?_mid {A : Type} (a : List A) (x : A) (b : List A) : (a ++ x :: b)[a.length]? = some x := by simp

theorem getElem?_mid' {A : Type} {a : List A} {n : Nat} (h : a.length = n) (x : A) (b : List A) :
    (a ++ x :: b)[n]? = some x := by subst h; simp

theorem map_split {A B : Type} {f : A → B} {l : List A} {b1 b2 : List B} (h : l.map f = b1 ++ b2) :
    ∃ a1 a2, l = a1 ++ a2 ∧ a1.map f = b1 ∧ a2.map f = b2 := by
  obtain ⟨a1, a2, h1, h2, h3⟩ := List.map_eq_append_iff.1 h
  exact ⟨a1, a2, h1, h2, h3⟩

/-- Where a key is in a leaf: just before where the search ends. -/
theorem leaf_route {l : List (K × V)} (hs : l.Pairwise (fun a b => a.1 < b.1)) (k : K) :
    ∃ a b, l = a ++ b ∧ route (l.map (·.1)) k = some a.length ∧ (∀ x ∈ b, k < x.1) ∧
      ((∃ a' v, a = a' ++ [(k, v)] ∧ ∀ x ∈ a', x.1 < k) ∨ ∀ x ∈ a, x.1 < k) := by
  obtain ⟨l1, l2, h1, h2, h3, h4⟩ := route_spec (List.pairwise_map.2 hs : (l.map (·.1)).Pairwise (· < ·)) k
  obtain ⟨a, b, rfl, rfl, rfl⟩ := map_split h1
  refine ⟨a, b, rfl, by rw [h2, List.length_map], fun x hx => h4 _ (List.mem_map_of_mem hx), ?_⟩
  rcases List.eq_nil_or_concat a with rfl | ⟨a', y, rfl⟩
  · exact .inr (fun x hx => nomatch hx)
  · have hs' := (List.pairwise_append.1 hs).1
    rw [List.concat_eq_append] at hs' h3 ⊢
    have hlt : ∀ x ∈ a', x.1 < y.1 := fun x hx => (List.pairwise_append.1 hs').2.2 x hx y (List.mem_singleton.2 rfl)
    have hy : y.1 ≤ k := h3 _ (by simp)
    rcases eq_or_lt_of_le hy with he | hl
    · subst he
      exact .inl ⟨a', y.2, rfl, hlt⟩
    · refine .inr (fun x hx => ?_)
      rcases List.mem_append.1 hx with hx | hx
      · exact lt_trans (hlt x hx) hl
      · rw [List.mem_singleton.1 hx]; exact hl

theorem queryLeaf_spec {l : List (K × V)} (hs : l.Pairwise (fun a b => a.1 < b.1)) (k : K) :
    queryLeaf (l.map (·.1)) (l.map (·.2)) k = some (look l k) := by
  obtain ⟨a, b, rfl, hr, hb, ha⟩ := leaf_route hs k
  unfold queryLeaf
  rw [hr]
  rcases ha with ⟨a', v, rfl, ha⟩ | ha
  · have hl : look ((a' ++ [(k, v)]) ++ b) k = some v := by
      rw [List.append_assoc, look_mid (b := [(k, v)]) ha hb, look_cons]; simp
    rw [hl]
    simp
  · have hl : look (a ++ b) k = none :=
      look_none (fun x hx e => by
        rcases List.mem_append.1 hx with hx | hx
        · have := ha x hx; order
        · have := hb x hx; order)
    rw [hl]
    rcases List.eq_nil_or_concat a with rfl | ⟨a', y, rfl⟩
    · rfl
    · rw [List.concat_eq_append] at ha ⊢
      have hy : y.1 ≠ k := fun e => by have := ha y (by simp); order
      simp [hy]

theorem queryNode_spec : ∀ {h fuel m lo hi} {n : Node K V}, h < fuel → WF L h m lo hi n → ∀ (k : K),
    queryNode fuel n k = some (look n.toList k)
  | 0, fuel + 1, m, lo, hi, n, _, hn => fun k => by
    obtain ⟨l, rfl, h1, -⟩ := hn.leaf
    simp only [queryNode, Node.toList, zip_unzip, queryLeaf_spec h1]
  | h + 1, fuel + 1, m, lo, hi, n, hlt, hn => fun k => by
    obtain ⟨ps, cs, rfl, hk, -⟩ := hn.index
    obtain ⟨l1, l2, rfl, h2, h3, h4⟩ := route_spec hk.pivots.1 k
    obtain ⟨c1, c, c2, lo', hi', rfl, hc, hf⟩ := hk.focus
    simp only [queryNode, h2, getElem?_mid' hf.len]
    rw [queryNode_spec (by omega) hc, Node.toList, toLists_append, toLists,
      look_mid (hf.keys_before h3) (hf.keys_after h4)]

theorem minKeyNode_spec : ∀ {h fuel m lo hi} {n : Node K V}, h < fuel → WF L h m lo hi n →
    minKeyNode fuel n = n.toList.head?.map (·.1)
  | 0, fuel + 1, m, lo, hi, n, _, hn => by
    obtain ⟨l, rfl, -⟩ := hn.leaf
    simp only [minKeyNode, Node.toList, zip_unzip]
    cases l <;> rfl
  | h + 1, fuel + 1, m, lo, hi, n, hlt, hn => by
    obtain ⟨ps, cs, rfl, hk, -⟩ := hn.index
    have hlen := hk.length
    cases cs with
    | nil => simp at hlen
    | cons c cs =>
      obtain ⟨a, b, hc⟩ := hk.each c (List.mem_cons_self ..)
      simp only [minKeyNode, List.getElem?_cons_zero, Node.toList, toLists]
      obtain ⟨x, xs, hx⟩ := List.exists_cons_of_ne_nil (Inner.pos hc)
      rw [minKeyNode_spec (by omega) hc, hx]
      rfl

theorem maxKeyNode_spec : ∀ {h fuel m lo hi} {n : Node K V}, h < fuel → WF L h m lo hi n →
    maxKeyNode fuel n = n.toList.getLast?.map (·.1)
  | 0, fuel + 1, m, lo, hi, n, _, hn => by
    obtain ⟨l, rfl, -⟩ := hn.leaf
    simp only [maxKeyNode, Node.toList, zip_unzip, List.getLast?_eq_getElem?, List.length_map, List.getElem?_map]
  | h + 1, fuel + 1, m, lo, hi, n, hlt, hn => by
    obtain ⟨ps, cs, rfl, hk, -⟩ := hn.index
    have hlen := hk.length
    rcases List.eq_nil_or_concat cs with rfl | ⟨cs, c, rfl⟩
    · simp at hlen
    · rw [List.concat_eq_append] at *
      obtain ⟨a, b, hc⟩ := hk.each c (by simp)
      have h1 : (cs ++ [c])[(cs ++ [c]).length - 1]? = some c := by simp
      simp only [maxKeyNode, h1, Node.toList, toLists_append, toLists, List.append_nil]
      rw [maxKeyNode_spec (by omega) hc, List.getLast?_append, List.getLast?_eq_some_getLast (Inner.pos hc)]
      rfl

theorem countAll_spec : ∀ {cs : List (Node K V)} (n : Nat), (∀ c ∈ cs, count c = c.toList.length) →
    countAll n cs = n + (toLists cs).length
  | [], n, _ => by simp [countAll, toLists]
  | c :: cs, n, h => by
    rw [countAll, countAll_spec _ (fun d hd => h d (List.mem_cons_of_mem _ hd)), h c (List.mem_cons_self ..), toLists,
      List.length_append, Nat.add_assoc]

theorem count_spec : ∀ {h m lo hi} {n : Node K V}, WF L h m lo hi n → count n = n.toList.length
  | 0, m, lo, hi, n, hn => by
    obtain ⟨l, rfl, -⟩ := hn.leaf
    simp only [count, Node.toList, zip_unzip, List.length_map]
  | h + 1, m, lo, hi, n, hn => by
    obtain ⟨ps, cs, rfl, hk, -⟩ := hn.index
    simp only [count, Node.toList]
    rw [countAll_spec 0 (fun c hc => by
      obtain ⟨a, b, hw⟩ := hk.each c hc
      exact count_spec hw), Nat.zero_add]

theorem fillAll_spec : ∀ {cs : List (Node K V)} (acc : List K × List V),
    (∀ c ∈ cs, ∀ acc : List K × List V, fill acc c = (acc.1 ++ c.toList.map (·.1), acc.2 ++ c.toList.map (·.2))) →
    fillAll acc cs = (acc.1 ++ (toLists cs).map (·.1), acc.2 ++ (toLists cs).map (·.2))
  | [], acc, _ => by simp [fillAll, toLists]
  | c :: cs, acc, h => by
    rw [fillAll, fillAll_spec _ (fun d hd => h d (List.mem_cons_of_mem _ hd)), h c (List.mem_cons_self ..), toLists]
    simp

theorem fill_spec : ∀ {h m lo hi} {n : Node K V}, WF L h m lo hi n → ∀ acc : List K × List V,
    fill acc n = (acc.1 ++ n.toList.map (·.1), acc.2 ++ n.toList.map (·.2))
  | 0, m, lo, hi, n, hn => fun acc => by
    obtain ⟨l, rfl, -⟩ := hn.leaf
    simp only [fill, Node.toList, zip_unzip]
  | h + 1, m, lo, hi, n, hn => fun acc => by
    obtain ⟨ps, cs, rfl, hk, -⟩ := hn.index
    simp only [fill, Node.toList]
    rw [fillAll_spec acc (fun c hc => by
      obtain ⟨a, b, hw⟩ := hk.each c hc
      exact fill_spec hw)]

/-! ### Splitting -/

theorem slice_eq {A : Type} {s : List A} {a b : Nat} (h1 : a ≤ b) (h2 : b ≤ s.length) :
    slice s a b = some ((s.take b).drop a) := if_pos ⟨h1, h2⟩

theorem slice_left {A : Type} {s : List A} {a : Nat} (h : a ≤ s.length) : slice s 0 a = some (s.take a) := by
  rw [slice_eq (by omega) h, List.drop_zero]

theorem slice_right {A : Type} {s : List A} {a b : Nat} (h : a ≤ s.length) (hb : b = s.length) : slice s a b = some (s.drop a) := by
  subst hb
  rw [slice_eq h (Nat.le_refl _), List.take_length]

theorem Kids.split {P : Option K → Option K → Node K V → Prop} : ∀ {i lo ps cs hi}, Kids P lo ps cs hi → i + 1 < cs.length →
    ∃ p, ps[i]? = some p ∧ Gt lo p ∧ Lt p hi ∧ Kids P lo (ps.take i) (cs.take (i + 1)) (some p) ∧
      Kids P (some p) (ps.drop (i + 1)) (cs.drop (i + 1)) hi
  | _, _, [], [], _, h, _ => h.elim
  | _, _, [], [_], _, h, hl => by simp at hl
  | _, _, [], _ :: _ :: _, _, h, _ => h.elim
  | _, _, _ :: _, [], _, h, _ => h.elim
  | 0, lo, p :: ps, c :: cs, hi, h, hl => ⟨p, rfl, h.1, h.2.1, h.2.2.1, h.2.2.2⟩
  | i + 1, lo, p :: ps, c :: cs, hi, h, hl => by
    obtain ⟨q, h1, h2, h3, h4, h5⟩ := Kids.split (i := i) h.2.2.2 (by simpa using hl)
    exact ⟨q, h1, h.1.gt h2, h3, ⟨h.1, h2, h.2.2.1, h4⟩, h5⟩

/-- Splitting a full node gives two nodes at least half full. -/
theorem splitNode_spec : ∀ {h m lo hi} {n : Node K V}, WF L h m lo hi n → full L n = true →
    ∃ l r p, splitNode n = some (l, r, p) ∧ Inner L h lo (some p) l ∧ Inner L h (some p) hi r ∧ full L l = false ∧
      full L r = false ∧ Gt lo p ∧ Lt p hi ∧ l.toList ++ r.toList = n.toList
  | 0, m, lo, hi, n, hn, hfull => by
    obtain ⟨l, rfl, h1, h2, h3, h4⟩ := hn.leaf
    have hk := L.hkeys
    have hlen : l.length = L.keys := by simpa [full] using hfull
    have hb : L.keys / 2 < l.length := by omega
    obtain ⟨a, x, b, rfl, ha⟩ : ∃ a x b, l = a ++ x :: b ∧ a.length = L.keys / 2 :=
      ⟨l.take (L.keys / 2), l[L.keys / 2], l.drop (L.keys / 2 + 1), by simp, by simp; omega⟩
    obtain ⟨p1, p2, p3⟩ := List.pairwise_append.1 h1
    have ha0 : a ≠ [] := by intro e; rw [e] at ha; simp at ha; omega
    have hlx : ∀ y ∈ x :: b, x.1 ≤ y.1 := fun y hy => by
      rcases List.mem_cons.1 hy with rfl | hy
      · exact le_refl _
      · exact le_of_lt ((List.pairwise_cons.1 p2).1 y hy)
    have hgt : Gt lo x.1 := by
      obtain ⟨y, a', rfl⟩ := List.exists_cons_of_ne_nil ha0
      exact ((h2 y (by simp)).1).gt (p3 y (List.mem_cons_self ..) x (List.mem_cons_self ..))
    have hlen' : a.length + (b.length + 1) = L.keys := by simpa using hlen
    refine ⟨.leaf (a.map (·.1)) (a.map (·.2)), .leaf ((x :: b).map (·.1)) ((x :: b).map (·.2)), x.1, ?_,
      WF.mkLeaf (lo := lo) (hi := some x.1) p1 (fun y hy => ⟨(h2 y (List.mem_append_left _ hy)).1, p3 y hy x (List.mem_cons_self ..)⟩) (by rw [ha]) (by omega),
      WF.mkLeaf (lo := some x.1) (hi := hi) p2 (fun y hy => ⟨hlx y hy, (h2 y (List.mem_append_right _ hy)).2⟩)
        (by simp only [List.length_cons]; omega) (by simp only [List.length_cons]; omega),
      ?_, ?_, hgt, (h2 x (by simp)).2, ?_⟩
    · have e1 : (List.map (·.1) (a ++ x :: b)).length = L.keys := by simpa using hlen
      have e2 : (List.map (·.2) (a ++ x :: b)).length = L.keys := by simpa using hlen
      simp only [splitNode, splitLeaf, e1]
      rw [slice_left (by omega), slice_right (by omega) (by omega), slice_left (by omega), slice_right (by omega) (by omega), ← ha]
      simp
    · simp [full]; omega
    · simp [full]; omega
    · simp only [Node.toList, zip_unzip]
  | h + 1, m, lo, hi, n, hn, hfull => by
    obtain ⟨ps, cs, rfl, hk, h2, h3⟩ := hn.index
    have hC := L.hchildren
    have hlen : cs.length = L.children := by simpa [full] using hfull
    have hpl := hk.length
    obtain ⟨i, hi'⟩ : ∃ i, L.children / 2 = i + 1 := ⟨L.children / 2 - 1, by omega⟩
    obtain ⟨p, h4, h5, h6, h7, h8⟩ := hk.split (i := i) (by omega)
    refine ⟨.index (ps.take i) (cs.take (i + 1)), .index (ps.drop (i + 1)) (cs.drop (i + 1)), p, ?_,
      ⟨h7, by simp only [List.length_take]; omega, by simp only [List.length_take]; omega⟩,
      ⟨h8, by simp only [List.length_drop]; omega, by simp only [List.length_drop]; omega⟩, ?_, ?_, h5, h6, ?_⟩
    · simp only [splitNode, splitIndex, hlen, hi', Nat.add_sub_cancel, h4]
      rw [slice_left (by omega), slice_right (by omega) (by omega), slice_left (by omega), slice_right (by omega) (by omega)]
      rfl
    · simp [full]; omega
    · simp [full]; omega
    · simp only [Node.toList]
      rw [← toLists_append, List.take_append_drop]

/-! ### Insertion -/

theorem insertAt_eq {A : Type} {a b : List A} {x : A} {i : Nat} (h : a.length = i) :
    insertAt (a ++ b) x i = some (a ++ x :: b) := by
  subst h
  unfold insertAt
  rw [if_pos (by simp)]
  simp

theorem setAt_eq {A : Type} {a b : List A} {x y : A} {i : Nat} (h : a.length = i) :
    setAt (a ++ y :: b) i x = some (a ++ x :: b) := by
  subst h
  unfold setAt
  rw [if_pos (by simp)]
  simp

theorem insertLeaf_spec {m lo hi} {l : List (K × V)} (h : WF L 0 m lo hi (.leaf (l.map (·.1)) (l.map (·.2))))
    (hfull : full L (.leaf (l.map (·.1)) (l.map (·.2))) = false) {k : K} (hk : InR lo hi k) (v : V) :
    ∃ n', insertLeaf (l.map (·.1)) (l.map (·.2)) k v = some (n', look l k) ∧ WF L 0 m lo hi n' ∧ n'.toList = ins k v l := by
  obtain ⟨l', he, h1, h2, h3, h4⟩ := h.leaf
  have : l' = l := by
    injection he with e1 e2
    rw [← zip_unzip l', ← e1, ← e2, zip_unzip]
  subst this
  obtain ⟨a, b, rfl, hr, hb, ha⟩ := leaf_route h1 k
  obtain ⟨p1, p2, p3⟩ := List.pairwise_append.1 h1
  have hlt : (a ++ b).length < L.keys := by
    simp [full] at hfull
    rw [List.length_append] at *
    omega
  unfold insertLeaf
  rw [hr]
  rcases ha with ⟨a', w, rfl, ha⟩ | ha
  · have hl : look ((a' ++ [(k, w)]) ++ b) k = some w := by
      rw [List.append_assoc, look_mid (b := [(k, w)]) ha hb, look_cons]; simp
    have hins : ins k v ((a' ++ [(k, w)]) ++ b) = a' ++ ((k, v) :: b) := by
      rw [List.append_assoc, ins_right ha]
      simp [ins]
    rw [hl, hins]
    refine ⟨.leaf ((a' ++ (k, v) :: b).map (·.1)) ((a' ++ (k, v) :: b).map (·.2)), ?_, WF.mkLeaf ?_ ?_ ?_ ?_, ?_⟩
    · have e1 : setAt (List.map (·.2) (a' ++ [(k, w)] ++ b)) a'.length v = some (List.map (·.2) (a' ++ (k, v) :: b)) := by
        have := setAt_eq (a := a'.map (·.2)) (b := b.map (·.2)) (x := v) (y := w) (List.length_map ..)
        simpa using this
      have e2 : (a' ++ [(k, w)]).length - 1 = a'.length := by simp
      simp only [Option.bind_eq_bind, Option.bind_some, e2, e1]
      simp
    · rw [List.append_assoc] at h1
      rw [List.pairwise_append] at h1 ⊢
      refine ⟨h1.1, ?_, fun x hx y hy => ?_⟩
      · exact List.pairwise_cons.2 ⟨fun y hy => hb y hy, (List.pairwise_cons.1 h1.2.1).2⟩
      · rcases List.mem_cons.1 hy with rfl | hy
        · exact ha x hx
        · exact h1.2.2 x hx y (List.mem_cons_of_mem _ hy)
    · intro x hx
      rcases List.mem_append.1 hx with hx | hx
      · exact h2 x (by simp [hx])
      · rcases List.mem_cons.1 hx with rfl | hx
        · exact hk
        · exact h2 x (by simp [hx])
    · simp at h3 ⊢; omega
    · simp at h4 ⊢; omega
    · simp only [Node.toList, zip_unzip]
  · have hl : look (a ++ b) k = none :=
      look_none (fun x hx e => by
        rcases List.mem_append.1 hx with hx | hx
        · have := ha x hx; order
        · have := hb x hx; order)
    have hins : ins k v (a ++ b) = a ++ ((k, v) :: b) := by
      have := ins_mid (a := a) (b := []) (c := b) (k := k) (v := v) ha hb
      simpa [ins] using this
    rw [hl, hins]
    have hno : ¬ (0 < a.length ∧ (List.map (·.1) (a ++ b))[a.length - 1]? = some k) := by
      rintro ⟨h5, h6⟩
      rcases List.eq_nil_or_concat a with rfl | ⟨a', y, rfl⟩
      · simp at h5
      · rw [List.concat_eq_append] at h6 ha
        have hy : y.1 = k := by simpa using h6
        have := ha y (by simp)
        order
    refine ⟨.leaf ((a ++ (k, v) :: b).map (·.1)) ((a ++ (k, v) :: b).map (·.2)), ?_, WF.mkLeaf ?_ ?_ ?_ ?_, ?_⟩
    · simp only [Option.bind_eq_bind, Option.bind_some, if_neg hno]
      rw [List.map_append, List.map_append, insertAt_eq (by simp)]
      simp only [Option.bind_some]
      rw [insertAt_eq (by simp)]
      simp
    · refine List.pairwise_append.2 ⟨p1, List.pairwise_cons.2 ⟨fun y hy => hb y hy, p2⟩, fun x hx y hy => ?_⟩
      rcases List.mem_cons.1 hy with rfl | hy
      · exact ha x hx
      · exact p3 x hx y hy
    · intro x hx
      rcases List.mem_append.1 hx with hx | hx
      · exact h2 x (by simp [hx])
      · rcases List.mem_cons.1 hx with rfl | hx
        · exact hk
        · exact h2 x (by simp [hx])
    · simp at h3 ⊢; omega
    · simp at hlt ⊢; omega
    · simp only [Node.toList, zip_unzip]

/-- The child to go down to is not full. -/
theorem prepare_spec {h lo hi ps} {cs : List (Node K V)} (hk : Kids (Inner L h) lo ps cs hi) {k : K} (hr : InR lo hi k) :
    ∃ l1 l2 c1 c c2 lo' hi', prepare L ps cs k = some (l1 ++ l2, c1 ++ c :: c2, c1.length) ∧
      Inner L h lo' hi' c ∧ full L c = false ∧ Focus (Inner L h) lo hi l1 l2 c1 c2 lo' hi' ∧
      (∀ p ∈ l1, p ≤ k) ∧ (∀ p ∈ l2, k < p) ∧ toLists (c1 ++ c :: c2) = toLists cs ∧
      ((c1 ++ c :: c2).length = cs.length ∨ (c1 ++ c :: c2).length = cs.length + 1) ∧
      ((∀ d ∈ cs, full L d = true) → (c1 ++ c :: c2).length = cs.length + 1) := by
  obtain ⟨l1, l2, rfl, h2, h3, h4⟩ := route_spec hk.pivots.1 k
  obtain ⟨c1, c, c2, lo', hi', rfl, hc, hf⟩ := hk.focus
  unfold prepare
  rw [h2]
  simp only [Option.bind_eq_bind, Option.bind_some, getElem?_mid' hf.len]
  cases hfull : full L c with
  | false =>
    refine ⟨l1, l2, c1, c, c2, lo', hi', by simp [hf.len], hc, hfull, hf, h3, h4, rfl, .inl rfl, fun hall => ?_⟩
    have := hall c (by simp)
    rw [hfull] at this
    cases this
  | true =>
    obtain ⟨l, r, p, g1, g2, g3, g4, g5, g6, g7, g8⟩ := splitNode_spec hc hfull
    have hkids := hf.replace2 p l r g6 g7 g2 g3
    have hsplit : splitChildOfIndex (l1 ++ l2) (c1 ++ c :: c2) l1.length = some (l1 ++ p :: l2, c1 ++ l :: r :: c2) := by
      unfold splitChildOfIndex
      simp only [Option.bind_eq_bind, getElem?_mid' hf.len, Option.bind_some, g1, insertAt_eq rfl, setAt_eq hf.len]
      have : c1 ++ l :: c2 = (c1 ++ [l]) ++ c2 := by simp
      rw [this, insertAt_eq (by simp [hf.len])]
      simp
    have hls : toLists (c1 ++ l :: r :: c2) = toLists (c1 ++ c :: c2) := by
      rw [toLists_append, toLists_append, toLists, toLists, toLists, ← g8, List.append_assoc]
    simp only [hsplit, if_true, Option.bind_some, getElem?_mid]
    by_cases hpk : p ≤ k
    · rw [if_pos hpk]
      have hkids' : Kids (Inner L h) lo ((l1 ++ [p]) ++ l2) (c1 ++ l :: r :: c2) hi := by simpa using hkids
      obtain ⟨d1, d, d2, lo2, hi2, e, hd, hf2⟩ := hkids'.focus
      have hlen2 := hf2.len
      have he : d1 = c1 ++ [l] ∧ d = r ∧ d2 = c2 := by
        have e' : (c1 ++ [l]) ++ r :: c2 = d1 ++ d :: d2 := by simpa using e
        have := List.append_inj e' (by simp [hlen2, hf.len])
        exact ⟨this.1.symm, by have := this.2; injection this with h1 _; exact h1.symm,
          by have := this.2; injection this with _ h2; exact h2.symm⟩
      obtain ⟨rfl, rfl, rfl⟩ := he
      refine ⟨l1 ++ [p], l2, c1 ++ [l], d, d2, lo2, hi2, ?_, hd, g5, hf2, fun q hq => ?_, h4, ?_, ?_, ?_⟩
      · simp [hf.len]
      · rcases List.mem_append.1 hq with hq | hq
        · exact h3 q hq
        · rw [List.mem_singleton.1 hq]; exact hpk
      · rw [← hls]; simp
      · right; simp; omega
      · intro _; simp; omega
    · rw [if_neg hpk]
      obtain ⟨d1, d, d2, lo2, hi2, e, hd, hf2⟩ := Kids.focus l1 (l2 := p :: l2) hkids
      have hlen2 := hf2.len
      have he : d1 = c1 ∧ d = l ∧ d2 = r :: c2 := by
        have := List.append_inj e (by rw [hlen2, hf.len])
        exact ⟨this.1.symm, by have := this.2; injection this with h1 _; exact h1.symm,
          by have := this.2; injection this with _ h2; exact h2.symm⟩
      obtain ⟨rfl, rfl, rfl⟩ := he
      refine ⟨l1, p :: l2, d1, d, r :: c2, lo2, hi2, ?_, hd, g4, hf2, h3, fun q hq => ?_, hls, ?_, ?_⟩
      · simp [hf.len]
      · rcases List.mem_cons.1 hq with rfl | hq
        · exact not_le.1 hpk
        · exact h4 q hq
      · right; simp; omega
      · intro _; simp; omega

theorem insertNode_spec : ∀ {h fuel m lo hi} {n : Node K V}, h < fuel → WF L h m lo hi n →
    (full L n = false) → ∀ {k : K}, InR lo hi k → ∀ (v : V),
    ∃ n', insertNode L fuel n k v = some (n', look n.toList k) ∧ WF L h m lo hi n' ∧ n'.toList = ins k v n.toList
  | 0, fuel + 1, m, lo, hi, n, _, hn, hfull, k, hk, v => by
    obtain ⟨l, rfl, -⟩ := hn.leaf
    obtain ⟨n', h1, h2, h3⟩ := insertLeaf_spec hn hfull hk v
    exact ⟨n', by simp only [insertNode, Node.toList, zip_unzip, h1], h2, by simp only [Node.toList, zip_unzip, h3]⟩
  | h + 1, fuel + 1, m, lo, hi, n, hlt, hn, hfull, k, hr, v => by
    obtain ⟨ps, cs, rfl, hk, hm, hM⟩ := hn.index
    have hlt' : cs.length < L.children := by
      simp [full] at hfull
      omega
    obtain ⟨l1, l2, c1, c, c2, lo', hi', h1, h2, h3, h4, h5, h6, h7, h8, -⟩ := prepare_spec hk hr
    obtain ⟨c', g1, g2, g3⟩ := insertNode_spec (fuel := fuel) (by omega) h2 h3 (h4.inR hr h5 h6) v
    refine ⟨.index (l1 ++ l2) (c1 ++ c' :: c2), ?_, ⟨h4.replace c' g2, ?_, ?_⟩, ?_⟩
    · simp only [insertNode, h1, getElem?_mid, g1, setAt_eq rfl, Node.toList]
      rw [← h7, toLists_append, toLists, look_mid (h4.keys_before h5) (h4.keys_after h6)]
    · simp at h8 ⊢; omega
    · simp at h8 ⊢; omega
    · simp only [Node.toList]
      rw [← h7, toLists_append, toLists_append, toLists, toLists, g3,
        ins_mid (h4.keys_before h5) (h4.keys_after h6)]

/-- The root: any number of keys, at least two children. -/
def Root (L : Limits) (t : Node K V) : Prop := ∃ h, WF L h (0, 2) none none t

theorem root_empty : Root L (emptyTree : Node K V) :=
  ⟨0, rfl, .nil, fun _ h => (nomatch h), Nat.le_refl _, Nat.zero_le _⟩

theorem insert_spec {t : Node K V} (ht : Root L t) (k : K) (v : V) :
    ∃ t', insert L t k v = some (t', look t.toList k) ∧ Root L t' ∧ t'.toList = ins k v t.toList := by
  obtain ⟨h, ht⟩ := ht
  have hR : InR (none : Option K) none k := ⟨trivial, trivial⟩
  unfold insert
  cases hfull : full L t with
  | false =>
    rw [if_neg (by simp)]
    obtain ⟨t', h1, h2, h3⟩ := insertNode_spec (fuel := t.height + 1) (by rw [ht.height]; omega) ht hfull hR v
    exact ⟨t', h1, ⟨h, h2⟩, h3⟩
  | true =>
    simp only [if_true]
    have hC := L.hchildren
    -- a full root is at least half full, so that it can be a child
    have hin : Inner L h none none t := by
      cases h with
      | zero =>
        cases t with
        | index => exact ht.elim
        | leaf ks vs =>
          have : ks.length = L.keys := by simpa [full] using hfull
          exact ⟨ht.1, ht.2.1, ht.2.2.1, by dsimp only; omega, ht.2.2.2.2⟩
      | succ h =>
        cases t with
        | leaf => exact ht.elim
        | index ps cs =>
          have : cs.length = L.children := by simpa [full] using hfull
          exact ⟨ht.1, by dsimp only; omega, ht.2.2⟩
    have hk : Kids (Inner L h) none [] [t] none := hin
    have hh : (grow t).height = h + 1 := by simp [grow, Node.height, heights, ht.height]
    rw [hh]
    obtain ⟨l1, l2, c1, c, c2, lo', hi', h1, h2, h3, h4, h5, h6, h7, h8, h9⟩ := prepare_spec hk hR
    have hlen := h9 (fun d hd => by rw [List.mem_singleton.1 hd, hfull])
    obtain ⟨c', g1, g2, g3⟩ := insertNode_spec (fuel := h + 1) (by omega) h2 h3 (h4.inR hR h5 h6) v
    have htl : t.toList = toLists [t] := by simp [toLists]
    refine ⟨.index (l1 ++ l2) (c1 ++ c' :: c2), ?_, ⟨h + 1, h4.replace c' g2, ?_, ?_⟩, ?_⟩
    · simp only [grow, insertNode, h1, getElem?_mid, g1, setAt_eq rfl]
      rw [htl, ← h7, toLists_append, toLists, look_mid (h4.keys_before h5) (h4.keys_after h6)]
    · simp at hlen ⊢; omega
    · simp at hlen ⊢; omega
    · simp only [Node.toList]
      rw [htl, ← h7, toLists_append, toLists_append, toLists, toLists, g3,
        ins_mid (h4.keys_before h5) (h4.keys_after h6)]

end Verif.Btree
