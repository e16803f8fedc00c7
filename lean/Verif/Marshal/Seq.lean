import Verif.Marshal.Int
/-
Model of Splinter/src/marshalling/SeqMarshalling_v.rs: the specifications of sequence formats.
-/
namespace Verif.Marshal

/-- The specification functions of the trait `SeqMarshal`, SeqMarshalling_v.rs 22-160. -/
structure SeqSpec (V : Type) where
  Lengthable : Bytes → Prop
  length : Bytes → Nat
  Gettable : Bytes → Nat → Prop
  EltParsable : Bytes → Nat → Prop
  getElt : Bytes → Nat → V

namespace SeqSpec
variable {V : Type} (q : SeqSpec V)

/-- SeqMarshalling_v.rs 222-231 -/
def PreservesEntry (data : Bytes) (i : Nat) (new : Bytes) : Prop :=
  (q.Gettable data i → q.Gettable new i) ∧
  (q.Gettable data i ∧ q.EltParsable data i →
    q.EltParsable new i ∧ q.getElt new i = q.getElt data i)

/-- SeqMarshalling_v.rs 233-249 -/
def Sets (data : Bytes) (i : Nat) (v : V) (new : Bytes) : Prop :=
  new.length = data.length ∧
  (q.Lengthable data → q.Lengthable new ∧ q.length new = q.length data) ∧
  (∀ j, j ≠ i → q.PreservesEntry data j new) ∧
  q.Gettable new i ∧ q.EltParsable new i ∧ q.getElt new i = v

/-- SeqMarshalling_v.rs 278-285 -/
def Resizes (data : Bytes) (n : Nat) (new : Bytes) : Prop :=
  new.length = data.length ∧ q.Lengthable new ∧ q.length new = n ∧
  ∀ i, q.PreservesEntry data i new

/-- SeqMarshalling_v.rs 315-337; `WF` is the format's `well_formed`. -/
def Appends (WF : Bytes → Prop) (data : Bytes) (v : V) (new : Bytes) : Prop :=
  new.length = data.length ∧ q.length new = q.length data + 1 ∧
  (∀ i, i ≠ q.length data → q.PreservesEntry data i new) ∧
  q.Gettable new (q.length data) ∧ q.EltParsable new (q.length data) ∧
  q.getElt new (q.length data) = v ∧ WF new

/-- SeqMarshalling_v.rs 370-389, `parsable_to_len` at the stored length -/
def ParsableAll (data : Bytes) : Prop :=
  ∀ i, i < q.length data → q.Gettable data i ∧ q.EltParsable data i

/-- SeqMarshalling_v.rs 391-395, `parse_to_len` at the stored length -/
def parseAll (data : Bytes) : List V := (List.range (q.length data)).map (q.getElt data)

theorem length_parseAll (data : Bytes) : (q.parseAll data).length = q.length data := by
  simp [parseAll]

theorem getElem?_parseAll (data : Bytes) (i : Nat) :
    (q.parseAll data)[i]? = if i < q.length data then some (q.getElt data i) else none := by
  unfold parseAll
  rw [List.getElem?_map]
  by_cases h : i < q.length data
  · rw [List.getElem?_range h, if_pos h]; rfl
  · rw [if_neg h, List.getElem?_eq_none (by simpa using h)]; rfl

theorem parseAll_eq {data : Bytes} {l : List V} (h1 : l.length = q.length data)
    (h2 : ∀ i (h : i < l.length), q.getElt data i = l[i]) : q.parseAll data = l := by
  apply List.ext_getElem?
  intro i
  rw [getElem?_parseAll]
  by_cases h : i < l.length
  · rw [if_pos (by omega), h2 i h, List.getElem?_eq_getElem h]
  · rw [if_neg (by omega), List.getElem?_eq_none (by omega)]

/-- `Sets` on the list of all elements. -/
theorem Sets.list {data new : Bytes} {i : Nat} {v : V} (h : q.Sets data i v new)
    (hl : q.Lengthable data) (hp : q.ParsableAll data) :
    q.parseAll new = (q.parseAll data).set i v ∧ q.ParsableAll new := by
  obtain ⟨_, h2, h3, h4, h5, h6⟩ := h
  have hlen := (h2 hl).2
  constructor
  · apply List.ext_getElem?
    intro j
    rw [getElem?_parseAll, hlen]
    by_cases hj : j = i
    · subst hj
      by_cases hb : j < q.length data
      · rw [if_pos hb, List.getElem?_set_self (by rw [length_parseAll]; exact hb), h6]
      · rw [if_neg hb, List.getElem?_eq_none]
        rw [List.length_set, length_parseAll]; omega
    · rw [List.getElem?_set_ne (fun e => hj e.symm), getElem?_parseAll]
      by_cases hb : j < q.length data
      · rw [if_pos hb, if_pos hb, ((h3 j hj).2 (hp j hb)).2]
      · rw [if_neg hb, if_neg hb]
  · intro j hj
    rw [hlen] at hj
    by_cases hji : j = i
    · subst hji; exact ⟨h4, h5⟩
    · exact ⟨(h3 j hji).1 (hp j hj).1, ((h3 j hji).2 (hp j hj)).1⟩

/-- `Appends` on the list of all elements. -/
theorem Appends.list {WF : Bytes → Prop} {data new : Bytes} {v : V}
    (h : q.Appends WF data v new) (hp : q.ParsableAll data) :
    q.parseAll new = q.parseAll data ++ [v] ∧ q.ParsableAll new := by
  obtain ⟨_, h2, h3, h4, h5, h6, _⟩ := h
  constructor
  · apply q.parseAll_eq
    · rw [List.length_append, length_parseAll, h2]; rfl
    · intro j hj
      rw [List.length_append, length_parseAll] at hj
      simp only [List.length_cons, List.length_nil] at hj
      apply Option.some.inj
      rw [← List.getElem?_eq_getElem]
      by_cases hb : j < q.length data
      · rw [List.getElem?_append_left (by rw [length_parseAll]; exact hb), getElem?_parseAll,
          if_pos hb, ((h3 j (by omega)).2 (hp j hb)).2]
      · have : j = q.length data := by omega
        subst this
        rw [List.getElem?_append_right (by rw [length_parseAll]; exact Nat.le_refl _),
          length_parseAll, Nat.sub_self, h6]
        rfl
  · intro j hj
    rw [h2] at hj
    by_cases hb : j = q.length data
    · subst hb; exact ⟨h4, h5⟩
    · exact ⟨(h3 j hb).1 (hp j (by omega)).1, ((h3 j hb).2 (hp j (by omega))).1⟩

/-- `Resizes` on the list of all elements: shrinking truncates. -/
theorem Resizes.list {data new : Bytes} {n : Nat} (h : q.Resizes data n new)
    (hp : q.ParsableAll data) (hn : n ≤ q.length data) :
    q.parseAll new = (q.parseAll data).take n ∧ q.ParsableAll new := by
  obtain ⟨_, _, h3, h4⟩ := h
  constructor
  · apply List.ext_getElem?
    intro j
    rw [getElem?_parseAll, h3, List.getElem?_take, getElem?_parseAll]
    by_cases hj : j < n
    · rw [if_pos hj, if_pos hj, if_pos (by omega), ((h4 j).2 (hp j (by omega))).2]
    · rw [if_neg hj, if_neg hj]
  · intro j hj
    exact ⟨(h4 j).1 (hp j (by omega)).1, ((h4 j).2 (hp j (by omega))).1⟩

end SeqSpec

/-- The loop of the two `try_parse` functions (UniformSizedSeq_v.rs 346-360,
ResizableUniformSizedSeq_v.rs 533-548): `n` iterations are left, `i` is next, `acc` is read. -/
def collect {V : Type} (get : Nat → Exec (Option V)) : Nat → Nat → List V → Exec (Option (List V))
  | 0, _, acc => .ok (some acc)
  | n + 1, i, acc => do
    match ← get i with
    | none => pure none
    | some v => collect get n (i + 1) (acc ++ [v])

open Classical in
theorem collect_spec {V : Type} {get : Nat → Exec (Option V)} {P : Nat → Prop} {g : Nat → V} :
    ∀ (n i : Nat) (acc : List V),
    (∀ j, i ≤ j → j < i + n → (∀ k, i ≤ k → k < j → P k) →
      get j = .ok (if P j then some (g j) else none)) →
    collect get n i acc = .ok (if ∀ j, i ≤ j → j < i + n → P j then
      some (acc ++ (List.range n).map (fun k => g (i + k))) else none)
  | 0, i, acc, _ => by
    rw [if_pos (fun j h1 h2 => by omega)]
    simp [collect]
  | n + 1, i, acc, h => by
    unfold collect
    rw [h i (Nat.le_refl _) (by omega) (fun k h1 h2 => by omega)]
    simp only [Exec.ok_bind]
    by_cases hp : P i
    · simp only [if_pos hp]
      rw [collect_spec n (i + 1) (acc ++ [g i]) (fun j h1 h2 h3 => h j (by omega) (by omega)
        (fun k h4 h5 => by
          by_cases e : k = i
          · rw [e]; exact hp
          · exact h3 k (by omega) h5))]
      by_cases hall : ∀ j, i + 1 ≤ j → j < i + 1 + n → P j
      · rw [if_pos hall, if_pos]
        · rw [List.range_succ_eq_map]
          simp only [List.map_cons, List.map_map, List.append_assoc, List.cons_append,
            List.nil_append, Nat.add_zero]
          have : (fun k => g (i + 1 + k)) = (fun k => g (i + k)) ∘ Nat.succ := by
            funext k; show _ = g (i + (k + 1)); congr 1; omega
          rw [this]
        · intro j h1 h2
          by_cases e : j = i
          · rw [e]; exact hp
          · exact hall j (by omega) (by omega)
      · rw [if_neg hall, if_neg]
        intro hc
        exact hall fun j h1 h2 => hc j (by omega) (by omega)
    · simp only [if_neg hp]
      rw [if_neg (fun hc => hp (hc i (Nat.le_refl _) (by omega)))]
      rfl

/-- The loop from the start reads all elements or refuses. -/
theorem collect_all {V : Type} {get : Nat → Exec (Option V)} {P : Nat → Prop} {g : Nat → V}
    {n : Nat}
    (h : ∀ j, j < n → (∀ k, k < j → P k) →
      (P j → get j = .ok (some (g j))) ∧ (¬ P j → get j = .ok none)) :
    ((∀ j, j < n → P j) → collect get n 0 [] = .ok (some ((List.range n).map g))) ∧
    ((¬ ∀ j, j < n → P j) → collect get n 0 [] = .ok none) := by
  classical
  have h1 := collect_spec (get := get) (P := P) (g := g) n 0 [] (fun j _ h2 h3 => by
    have := h j (by omega) (fun k hk => h3 k (Nat.zero_le _) hk)
    by_cases hp : P j
    · rw [if_pos hp]; exact this.1 hp
    · rw [if_neg hp]; exact this.2 hp)
  refine ⟨fun ha => ?_, fun ha => ?_⟩
  · rw [h1, if_pos (fun j _ h2 => ha j (by omega))]
    simp only [Nat.zero_add, List.nil_append]
  · rw [h1, if_neg (fun hc => ha fun j hj => hc j (Nat.zero_le _) (by omega))]

end Verif.Marshal
