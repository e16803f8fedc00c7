import Verif.Betree.Buffer
import Verif.Abs.Machines
import Verif.Props.C07
/-
The specification shared by the four betree layers (C14-C17): what it means for a sequence of
queries, puts and freezes to be the behaviour of a plain map. Also the label type shared by the
layers and a proof rule. No layer's own functions are used in `ActsAsMap`.
-/
namespace Verif

/-- StampedMap_v.rs 18-21 `Stamped<T>` -/
@[ext] structure Stamped (I : Type) where
  value : I
  seqEnd : LSN

/-- The `Label` of PagedBetree_v.rs 337-343, PivotBetree_v.rs, FilteredBetree_v.rs and
LinkedBetree_v.rs; the four declarations differ only in the type of frozen images. -/
inductive BLabel (I : Type) where
  | query (endLsn : LSN) (key : Key) (value : Value)
  | put (puts : MsgHistory)
  | freezeAs (image : Stamped I)
  | internal

namespace MapBehaviour

/-- All messages put by a trace, oldest first. -/
def putsOf {I : Type} (tr : List (BLabel I)) : List KeyedMessage :=
  tr.flatMap fun
    | .put p => C07.messages p
    | _ => []

/-- What a plain map holds after the puts of a trace: the messages applied one by one, starting
from `base`. -/
def expected {I : Type} (base : Key → Message) (tr : List (BLabel I)) : Key → Message :=
  (putsOf tr).foldl C07.applyOne base

/-- The trace is a behaviour of a plain map that starts with contents `base` stamped `start`:
each query answers with what the puts before it leave, at the LSN they reach; each frozen image
holds (as read by `answer`) what the puts before it leave, stamped with the LSN they reach; puts
are well-formed histories that continue the numbering. -/
structure ActsAsMap {I : Type} (answer : I → Key → Message) (base : Key → Message) (start : LSN)
    (tr : List (BLabel I)) : Prop where
  query : ∀ {i : Nat} {l : LSN} {k : Key} {v : Value}, tr[i]? = some (.query l k v) →
    expected base (tr.take i) k = .define v ∧ l = start + (putsOf (tr.take i)).length
  put : ∀ {i : Nat} {p : MsgHistory}, tr[i]? = some (.put p) →
    p.WF ∧ p.seqStart = start + (putsOf (tr.take i)).length
  freeze : ∀ {i : Nat} {im : Stamped I}, tr[i]? = some (.freezeAs im) →
    (∀ k, answer im.value k = expected base (tr.take i) k) ∧
      im.seqEnd = start + (putsOf (tr.take i)).length

theorem putsOf_snoc {I : Type} (tr : List (BLabel I)) (l : BLabel I) :
    putsOf (tr ++ [l]) = putsOf tr ++ match l with | .put p => C07.messages p | _ => [] := by
  unfold putsOf
  rw [List.flatMap_append, List.flatMap_cons, List.flatMap_nil, List.append_nil]

/-- One step of a layer against the map: what the proof of each layer has to establish. `m`, `m'`
are the interpretations of the states before and after. -/
def MapStep {I : Type} (answer : I → Key → Message) (m : StampedMap) (l : BLabel I)
    (m' : StampedMap) : Prop :=
  match l with
  | .query e k v => m' = m ∧ e = m.seqEnd ∧ m.value k = .define v
  | .put p => p.WF ∧ p.seqStart = m.seqEnd ∧ m' = MsgHistory.mapPlusHistory m p
  | .freezeAs im => m' = m ∧ (∀ k, answer im.value k = m.value k) ∧ im.seqEnd = m.seqEnd
  | .internal => m' = m

theorem mapStep_acts {I : Type} {answer : I → Key → Message} {base : Key → Message} {start : LSN}
    {tr : List (BLabel I)} {m m' : StampedMap} {l : BLabel I}
    (h : ActsAsMap answer base start tr) (hv : m.value = expected base tr)
    (he : m.seqEnd = start + (putsOf tr).length) (hs : MapStep answer m l m') :
    ActsAsMap answer base start (tr ++ [l]) ∧ m'.value = expected base (tr ++ [l]) ∧
      m'.seqEnd = start + (putsOf (tr ++ [l])).length := by
  have split : ∀ {i : Nat} {x : BLabel I}, (tr ++ [l])[i]? = some x →
      (tr[i]? = some x ∧ (tr ++ [l]).take i = tr.take i) ∨ (l = x ∧ (tr ++ [l]).take i = tr) := by
    intro i x hx
    rcases Nat.lt_trichotomy i tr.length with hi | hi | hi
    · rw [List.getElem?_append_left hi] at hx
      exact .inl ⟨hx, List.take_append_of_le_length (by omega)⟩
    · subst hi
      rw [List.getElem?_append_right (Nat.le_refl _)] at hx
      simp only [Nat.sub_self, List.getElem?_cons_zero, Option.some.injEq] at hx
      exact .inr ⟨hx, by simp⟩
    · rw [List.getElem?_eq_none (by simp; omega)] at hx; cases hx
  refine ⟨⟨?_, ?_, ?_⟩, ?_⟩
  · intro i e k v hx
    rcases split hx with ⟨h1, h2⟩ | ⟨rfl, h2⟩ <;> rw [h2]
    · exact h.query h1
    · obtain ⟨_, h4, h5⟩ := hs
      rw [← hv, ← he]; exact ⟨h5, h4⟩
  · intro i p hx
    rcases split hx with ⟨h1, h2⟩ | ⟨rfl, h2⟩ <;> rw [h2]
    · exact h.put h1
    · obtain ⟨h3, h4, _⟩ := hs
      rw [← he]; exact ⟨h3, h4⟩
  · intro i im hx
    rcases split hx with ⟨h1, h2⟩ | ⟨rfl, h2⟩ <;> rw [h2]
    · exact h.freeze h1
    · obtain ⟨_, h4, h5⟩ := hs
      rw [← he, ← hv]; exact ⟨h4, h5⟩
  · unfold expected
    rw [putsOf_snoc]
    cases l with
    | query e k v => obtain ⟨rfl, _⟩ := hs; simpa using ⟨hv, he⟩
    | freezeAs im => obtain ⟨rfl, _⟩ := hs; simpa using ⟨hv, he⟩
    | internal => cases hs; simpa using ⟨hv, he⟩
    | put p =>
      obtain ⟨hw, hst, rfl⟩ := hs
      obtain ⟨h1, h2⟩ := C07.replay_eq_fold hw hst
      have hl := C07.messages_length hw
      have := hw.1
      simp only [List.foldl_append, List.length_append]
      refine ⟨by rw [h1, hv]; rfl, by rw [h2, hl]; omega⟩

/-- Proof rule: a machine whose steps are map steps under an interpretation `interp` (on states
satisfying an invariant) acts as a map. -/
theorem of_steps {I S : Type} {M : Machine S (BLabel I)} {answer : I → Key → Message}
    {base : Key → Message} {start : LSN} (Inv : S → Prop) (interp : S → StampedMap)
    (hinit : ∀ s, M.Init s → Inv s ∧ interp s = { value := base, seqEnd := start })
    (hstep : ∀ s l s', Inv s → M.Step s l s' → Inv s' ∧ MapStep answer (interp s) l (interp s'))
    {tr : List (BLabel I)} {s : S} (h : M.Exec tr s) :
    Inv s ∧ ActsAsMap answer base start tr ∧ (interp s).value = expected base tr ∧
      (interp s).seqEnd = start + (putsOf tr).length := by
  refine Machine.exec_invariant (M := M) (I := fun tr s => Inv s ∧ ActsAsMap answer base start tr ∧
    (interp s).value = expected base tr ∧ (interp s).seqEnd = start + (putsOf tr).length) ?_ ?_ h
  · intro s hs
    obtain ⟨h1, h2⟩ := hinit s hs
    refine ⟨h1, ⟨?_, ?_, ?_⟩, by rw [h2]; rfl, by rw [h2]; rfl⟩ <;> intros <;> simp_all
  · rintro tr s l s' ⟨h1, h2, h3, h4⟩ hs
    obtain ⟨h5, h6⟩ := hstep s l s' h1 hs
    exact ⟨h5, mapStep_acts h2 h3 h4 h6⟩

/-- A map step is a step of AbstractMap (AbstractMap_v.rs 47-83) with images translated. -/
def absLabel {I : Type} (answer : I → Key → Message) : BLabel I → AbstractMap.Label
  | .query e k v => .query e k v
  | .put p => .put p
  | .freezeAs im => .freezeAs { value := answer im.value, seqEnd := im.seqEnd }
  | .internal => .internal

theorem MapStep.abstract {I : Type} {answer : I → Key → Message} {m m' : StampedMap}
    {l : BLabel I} (h : MapStep answer m l m') : AbstractMap.Next m (absLabel answer l) m' := by
  cases l with
  | query e k v => obtain ⟨rfl, rfl, h⟩ := h; exact .query h
  | put p => obtain ⟨_, h1, rfl⟩ := h; exact .put h1
  | freezeAs im =>
    obtain ⟨rfl, h1, h2⟩ := h
    have : ({ value := answer im.value, seqEnd := im.seqEnd } : StampedMap) = m' := by
      ext1
      · funext k; exact h1 k
      · exact h2
    simp only [absLabel]
    rw [this]; exact .freezeAs
  | internal => cases h; exact .internal

/-- The value of the last message put to `k`, if any put was a `Define` and none an `Update`:
used to read `expected` off for clients that only overwrite. -/
def lastPut (ms : List KeyedMessage) (k : Key) : Option Message :=
  (ms.reverse.find? (fun km => km.key = k)).map KeyedMessage.message

/-- If all puts overwrite (as all client puts do, `MapSpec_t.rs`), the expected contents of a key
are the last put to it, or the starting contents. -/
theorem expected_lastPut {I : Type} (base : Key → Message) (tr : List (BLabel I))
    (hd : ∀ km ∈ putsOf tr, km.message.IsDefine) (k : Key) :
    expected base tr k = (lastPut (putsOf tr) k).getD (base k) := by
  unfold expected lastPut
  generalize putsOf tr = ms at hd
  have : ∀ (ms : List KeyedMessage), (∀ km ∈ ms, km.message.IsDefine) →
      ms.reverse.foldl C07.applyOne base k =
        ((ms.find? (fun km => km.key = k)).map KeyedMessage.message).getD (base k) := by
    intro ms
    induction ms with
    | nil => intro _; rfl
    | cons km ms ih =>
      intro hd
      rw [List.reverse_cons, List.foldl_append]
      simp only [List.foldl_cons, List.foldl_nil, C07.applyOne, List.find?_cons]
      obtain ⟨v, hv⟩ := hd km (by simp)
      by_cases hk : km.key = k
      · simp [hk, hv]
      · simp only [hk, decide_false, if_neg (Ne.symm hk)]
        exact ih (fun x hx => hd x (by simp [hx]))
  have h2 := this ms.reverse (by simpa using hd)
  rwa [List.reverse_reverse] at h2

end MapBehaviour
end Verif
