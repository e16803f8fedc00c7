import Verif.Spec.Messages
/-
Query receipts. PagedBetree_v.rs 157-244, PivotBetree_v.rs, FilteredBetree_v.rs and
LinkedBetree_v.rs declare the same `QueryReceipt` over their own node types; the model declares it
once, over a `Shape` that each layer instantiates.
-/
namespace Verif

/-- What a receipt needs to know about a layer's nodes. -/
structure Shape (N : Type) where
  /-- `node is Node` / `has_root()` -/
  IsNode : N → Prop
  /-- `node.wf()` -/
  WF : N → Prop
  /-- `node.key_in_domain(key)` (True in the paged layer) -/
  KeyIn : N → Key → Prop
  /-- `node.child(key)` -/
  child : N → Key → N
  /-- the message the node's buffer(s) hold for the key -/
  msg : N → Key → Message

/-- PagedBetree_v.rs 157-167 -/
structure ReceiptLine (N : Type) where
  node : N
  result : Message

/-- PagedBetree_v.rs 172-176 -/
structure Receipt (N : Type) where
  key : Key
  root : N
  lines : List (ReceiptLine N)

namespace Receipt
variable {N : Type} (S : Shape N)

/-- PagedBetree_v.rs 179-186 -/
def Structure (r : Receipt N) : Prop :=
  0 < r.lines.length ∧ (∀ l, r.lines[0]? = some l → l.node = r.root) ∧
  (∀ (i : Nat) l, r.lines[i]? = some l → (S.IsNode l.node ↔ i + 1 < r.lines.length)) ∧
  (∀ l, r.lines.getLast? = some l → l.result = .empty)

/-- PagedBetree_v.rs 188-190 with 163-166; in the lower layers interior lines must also hold the
key in their domain. -/
def AllLinesWF (r : Receipt N) : Prop :=
  (∀ (i : Nat) l, r.lines[i]? = some l → S.WF l.node ∧ l.result.IsDefine) ∧
  (∀ (i : Nat) l, r.lines[i]? = some l → i + 1 < r.lines.length → S.KeyIn l.node r.key)

/-- PagedBetree_v.rs 192-208 -/
def ChildLinkedAt (r : Receipt N) (i : Nat) : Prop :=
  ∀ l l', r.lines[i]? = some l → r.lines[i + 1]? = some l' → l'.node = S.child l.node r.key

/-- PagedBetree_v.rs 216-224 -/
def ResultLinkedAt (r : Receipt N) (i : Nat) : Prop :=
  ∀ l l', r.lines[i]? = some l → r.lines[i + 1]? = some l' →
    l.result = l'.result.merge (S.msg l.node r.key)

/-- PagedBetree_v.rs 226-231 -/
def Valid (r : Receipt N) : Prop :=
  r.Structure S ∧ r.AllLinesWF S ∧
  (∀ i, i + 1 < r.lines.length → r.ChildLinkedAt S i) ∧
  (∀ i, i + 1 < r.lines.length → r.ResultLinkedAt S i)

/-- PagedBetree_v.rs 233-237 (total: `empty` for a receipt without lines) -/
def result (r : Receipt N) : Message :=
  match r.lines with
  | [] => .empty
  | l :: _ => l.result

/-- PagedBetree_v.rs 239-243 -/
def ValidFor (r : Receipt N) (root : N) (k : Key) : Prop := r.Valid S ∧ r.root = root ∧ r.key = k

end Receipt

/-- `Answers S k n m`: walking down from `n` along `k` collects the message `m`. -/
inductive Answers {N : Type} (S : Shape N) (k : Key) : N → Message → Prop
  | leaf {n} : ¬ S.IsNode n → S.WF n → Answers S k n .empty
  | node {n m} : S.IsNode n → S.WF n → S.KeyIn n k → Answers S k (S.child n k) m →
      Answers S k n (m.merge (S.msg n k))

theorem Answers.isDefine {N : Type} {S : Shape N} {k n m} (h : Answers S k n m) : m.IsDefine := by
  induction h with
  | leaf => exact ⟨_, rfl⟩
  | node _ _ _ _ ih => exact Message.isDefine_merge _ ih

theorem Answers.functional {N : Type} {S : Shape N} {k n m m'} (h : Answers S k n m)
    (h' : Answers S k n m') : m = m' := by
  induction h generalizing m' with
  | leaf hn => cases h' with
    | leaf => rfl
    | node h => exact absurd h hn
  | node hn _ _ _ ih => cases h' with
    | leaf h => exact absurd hn h
    | node _ _ _ h => rw [ih h]

namespace Receipt
variable {N : Type} {S : Shape N}

/-- Dropping the top line of a receipt with more than one line leaves a receipt for the child. -/
theorem tail_valid {k root l l' ls} (h : (⟨k, root, l :: l' :: ls⟩ : Receipt N).Valid S) :
    (⟨k, S.child root k, l' :: ls⟩ : Receipt N).Valid S := by
  obtain ⟨⟨_, s2, s3, s4⟩, ⟨w1, w2⟩, c, r⟩ := h
  have e0 := s2 l (by rfl)
  refine ⟨⟨by simp, ?_, ?_, ?_⟩, ⟨?_, ?_⟩, ?_, ?_⟩
  · intro x hx
    cases hx
    rw [c 0 (by simp) l l' rfl rfl, e0]
  · intro i x hx
    have := s3 (i + 1) x (by simpa using hx)
    simpa using this
  · intro x hx; exact s4 x (by simpa using hx)
  · intro i x hx; exact w1 (i + 1) x (by simpa using hx)
  · intro i x hx hi
    exact w2 (i + 1) x (by simpa using hx) (by simpa using hi)
  · intro i hi x y hx hy
    exact c (i + 1) (by simpa using hi) x y (by simpa using hx) (by simpa using hy)
  · intro i hi x y hx hy
    exact r (i + 1) (by simpa using hi) x y (by simpa using hx) (by simpa using hy)

theorem valid_answers : ∀ (ls : List (ReceiptLine N)) (k : Key) (root : N),
    (⟨k, root, ls⟩ : Receipt N).Valid S → Answers S k root (⟨k, root, ls⟩ : Receipt N).result
  | [], _, _, h => absurd h.1.1 (by simp)
  | [l], k, root, h => by
    obtain ⟨⟨_, s2, s3, s4⟩, ⟨w1, _⟩, _, _⟩ := h
    have e0 : l.node = root := s2 l rfl
    have e1 := s4 l rfl
    have e2 := s3 0 l rfl
    simp only [result, e1]
    refine .leaf ?_ ?_
    · intro hn; rw [← e0] at hn; simpa using e2.mp hn
    · rw [← e0]; exact (w1 0 l rfl).1
  | l :: l' :: ls, k, root, h => by
    have ih := valid_answers (l' :: ls) k _ (tail_valid h)
    obtain ⟨⟨_, s2, s3, s4⟩, ⟨w1, w2⟩, c, r⟩ := h
    have e0 : l.node = root := s2 l rfl
    have e3 := r 0 (by simp) l l' rfl rfl
    simp only [result] at ih ⊢
    rw [e3]
    rw [e0]
    refine .node ?_ ?_ ?_ ih
    · rw [← e0]; exact (s3 0 l rfl).mpr (by simp)
    · rw [← e0]; exact (w1 0 l rfl).1
    · rw [← e0]; exact w2 0 l rfl (by simp)

/-- Every walk has a receipt. -/
theorem answers_valid {k n m} (h : Answers S k n m) :
    ∃ r : Receipt N, r.ValidFor S n k ∧ r.result = m := by
  induction h with
  | @leaf n hn hw =>
    refine ⟨⟨k, n, [⟨n, .empty⟩]⟩, ⟨⟨⟨by simp, ?_, ?_, ?_⟩, ⟨?_, ?_⟩, ?_, ?_⟩, rfl, rfl⟩, rfl⟩
    · intro l h; cases h; rfl
    · intro i l hl
      cases i with
      | zero => cases hl; simpa using hn
      | succ i => simp at hl
    · intro l h; cases h; rfl
    · intro i l hl
      cases i with
      | zero => cases hl; exact ⟨hw, _, rfl⟩
      | succ i => simp at hl
    · intro i l _ hi; simp at hi
    · intro i hi; simp at hi
    · intro i hi; simp at hi
  | @node n m hn hw hk ha ih =>
    obtain ⟨⟨k', root, ls⟩, ⟨hv, hr, hkk⟩, hm⟩ := ih
    simp only at hr hkk
    subst hr; subst hkk
    obtain ⟨⟨s1, s2, s3, s4⟩, ⟨w1, w2⟩, c, r⟩ := hv
    cases ls with
    | nil => simp at s1
    | cons l ls =>
    simp only [result] at hm
    refine ⟨⟨k', n, ⟨n, m.merge (S.msg n k')⟩ :: l :: ls⟩,
      ⟨⟨⟨by simp, ?_, ?_, ?_⟩, ⟨?_, ?_⟩, ?_, ?_⟩, rfl, rfl⟩, rfl⟩
    · intro x h; cases h; rfl
    · intro i x hx
      cases i with
      | zero => cases hx; simpa using hn
      | succ i =>
        have := s3 i x (by simpa using hx)
        simpa using this
    · intro x hx; exact s4 x (by simpa using hx)
    · intro i x hx
      cases i with
      | zero => cases hx; exact ⟨hw, Message.isDefine_merge _ ha.isDefine⟩
      | succ i => exact w1 i x (by simpa using hx)
    · intro i x hx hi
      cases i with
      | zero => cases hx; exact hk
      | succ i => exact w2 i x (by simpa using hx) (by simpa using hi)
    · intro i hi x y hx hy
      cases i with
      | zero =>
        cases hx
        simp only [List.getElem?_cons_succ, List.getElem?_cons_zero, Nat.zero_add] at hy
        cases hy
        exact s2 _ rfl
      | succ i => exact c i (by simpa using hi) x y (by simpa using hx) (by simpa using hy)
    · intro i hi x y hx hy
      cases i with
      | zero =>
        cases hx
        simp only [List.getElem?_cons_succ, List.getElem?_cons_zero, Nat.zero_add] at hy
        cases hy
        simp [hm]
      | succ i => exact r i (by simpa using hi) x y (by simpa using hx) (by simpa using hy)

/-- A valid receipt reports exactly the walk's message, and every walk has one. -/
theorem valid_iff {k n m} :
    (∃ r : Receipt N, r.ValidFor S n k ∧ r.result = m) ↔ Answers S k n m := by
  constructor
  · rintro ⟨⟨k', root, ls⟩, ⟨hv, hr, hk⟩, hm⟩
    cases hr; cases hk
    rw [← hm]; exact valid_answers ls _ _ hv
  · exact answers_valid

end Receipt
end Verif
