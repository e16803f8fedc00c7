import Verif.Journal.Cached
/-
A conversion between journal records and pages that has the round trip for all well-formed
records. It models no code (the source leaves the conversion unspecified) and is used to show that
the theorems about `CachedSys` are not vacuous.
-/
namespace Verif.CachedSys
open Linked

/-- numbers as bytes: `n` ones and a zero each -/
def bytes : List Nat → RawPage
  | [] => []
  | n :: l => List.replicate n 1 ++ 0 :: bytes l

theorem bytes_cons_inj {n m : Nat} {x y : RawPage}
    (h : List.replicate n (1 : UInt8) ++ 0 :: x = List.replicate m 1 ++ 0 :: y) :
    n = m ∧ x = y := by
  induction n generalizing m with
  | zero =>
    cases m with
    | zero => simpa using h
    | succ m => simp [List.replicate_succ] at h
  | succ n ih =>
    cases m with
    | zero => simp [List.replicate_succ] at h
    | succ m =>
      simp only [List.replicate_succ, List.cons_append, List.cons.injEq, true_and] at h
      obtain ⟨h1, h2⟩ := ih h
      exact ⟨by omega, h2⟩

theorem bytes_inj : ∀ {k l : List Nat}, bytes k = bytes l → k = l
  | [], [], _ => rfl
  | [], n :: l, h => by cases n <;> simp [bytes, List.replicate_succ] at h
  | n :: l, [], h => by cases n <;> simp [bytes, List.replicate_succ] at h
  | n :: k, m :: l, h => by
    obtain ⟨h1, h2⟩ := bytes_cons_inj h
    rw [h1, bytes_inj h2]

/-- tag and number of a message -/
def msgTag : Message → Nat
  | .define _ => 0
  | .update _ => 1

def msgVal : Message → Nat
  | .define v => v.toNat
  | .update d => d.toNat

theorem msg_inj {m n : Message} (h1 : msgTag m = msgTag n) (h2 : msgVal m = msgVal n) : m = n := by
  cases m <;> cases n <;> simp only [msgTag, msgVal] at h1 h2
  · rw [UInt64.toNat_inj.mp h2]
  · omega
  · omega
  · rw [UInt64.toNat_inj.mp h2]

def kmNat (f : KeyedMessage → Nat) (m : Option KeyedMessage) : Nat := match m with
  | none => 0
  | some km => f km + 1

/-- a record as numbers -/
def recNats (r : JRec) : List Nat :=
  [r.msgs.seqStart, r.msgs.seqEnd, (match r.prior with | none => 0 | some _ => 1),
    (match r.prior with | none => 0 | some a => a.au),
    (match r.prior with | none => 0 | some a => a.page)] ++
  ((List.range (r.msgs.seqEnd - r.msgs.seqStart)).map
      (fun i => kmNat (fun km => km.key.toNat) (r.msgs.msgs (r.msgs.seqStart + i))) ++
   ((List.range (r.msgs.seqEnd - r.msgs.seqStart)).map
      (fun i => kmNat (fun km => msgTag km.message) (r.msgs.msgs (r.msgs.seqStart + i))) ++
    (List.range (r.msgs.seqEnd - r.msgs.seqStart)).map
      (fun i => kmNat (fun km => msgVal km.message) (r.msgs.msgs (r.msgs.seqStart + i)))))

theorem km_inj {m n : Option KeyedMessage}
    (h1 : kmNat (fun km => km.key.toNat) m = kmNat (fun km => km.key.toNat) n)
    (h2 : kmNat (fun km => msgTag km.message) m = kmNat (fun km => msgTag km.message) n)
    (h3 : kmNat (fun km => msgVal km.message) m = kmNat (fun km => msgVal km.message) n) :
    m = n := by
  cases m with
  | none => cases n with
    | none => rfl
    | some n => simp [kmNat] at h1
  | some m => cases n with
    | none => simp [kmNat] at h1
    | some n =>
      simp only [kmNat, Nat.add_right_cancel_iff] at h1 h2 h3
      congr 1
      ext1
      · exact UInt64.toNat_inj.mp h1
      · exact msg_inj h2 h3

theorem recNats_inj {r q : JRec} (hr : r.msgs.WF) (hq : q.msgs.WF) (h : recNats r = recNats q) :
    r = q := by
  obtain ⟨⟨rm, rs, re⟩, rp⟩ := r
  obtain ⟨⟨qm, qs, qe⟩, qp⟩ := q
  unfold recNats at h
  simp only [List.cons_append, List.nil_append, List.cons.injEq] at h
  obtain ⟨rfl, rfl, h3, h4, h5, h6⟩ := h
  obtain ⟨h7, h8⟩ := List.append_inj h6 (by simp)
  obtain ⟨h9, h10⟩ := List.append_inj h8 (by simp)
  have hp : rp = qp := by
    cases rp with
    | none => cases qp with
      | none => rfl
      | some b => simp at h3
    | some a => cases qp with
      | none => simp at h3
      | some b =>
        obtain ⟨a1, a2⟩ := a
        obtain ⟨b1, b2⟩ := b
        simp only at h4 h5
        rw [h4, h5]
  have hm : rm = qm := by
    funext k
    by_cases hk : rs ≤ k ∧ k < re
    · have hmem : k - rs ∈ List.range (re - rs) := by rw [List.mem_range]; omega
      have e1 := List.map_inj_left.mp h7 _ hmem
      have e2 := List.map_inj_left.mp h9 _ hmem
      have e3 := List.map_inj_left.mp h10 _ hmem
      have : rs + (k - rs) = k := by omega
      rw [this] at e1 e2 e3
      exact km_inj e1 e2 e3
    · have e1 : rm k = none := by
        apply Classical.byContradiction
        intro hc
        exact hk ((hr.2 k).mp hc)
      have e2 : qm k = none := by
        apply Classical.byContradiction
        intro hc
        exact hk ((hq.2 k).mp hc)
      rw [e1, e2]
  rw [hm, hp]

/-- pages as numbers -/
def pageNat : RawPage → Nat
  | [] => 0
  | b :: l => 257 * pageNat l + (b.toNat + 1)

theorem pageNat_inj : ∀ {k l : RawPage}, pageNat k = pageNat l → k = l
  | [], [], _ => rfl
  | [], b :: l, h => by simp only [pageNat] at h; omega
  | b :: l, [], h => by simp only [pageNat] at h; omega
  | b :: k, c :: l, h => by
    simp only [pageNat] at h
    have h1 := b.toNat_lt
    have h2 := c.toNat_lt
    have h3 : b.toNat = c.toNat := by omega
    rw [UInt8.toNat_inj.mp h3, pageNat_inj (k := k) (l := l) (by omega)]

open Classical in
/-- The conversion: well-formed records fit. -/
noncomputable def demoCodec : Codec where
  enc r := bytes (recNats r)
  dec d := if h : ∃ r : JRec, r.WF ∧ bytes (recNats r) = d then h.choose else ⟨.emptyAt 0, none⟩
  fits r := r.WF
  round := by
    intro r hr
    have h : ∃ q : JRec, q.WF ∧ bytes (recNats q) = bytes (recNats r) := ⟨r, hr, rfl⟩
    rw [dif_pos h]
    exact recNats_inj h.choose_spec.1.1 hr.1 (bytes_inj h.choose_spec.2)

end Verif.CachedSys
