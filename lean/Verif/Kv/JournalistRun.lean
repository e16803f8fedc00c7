import Verif.Base.Trace
import Verif.Kv.JournalistProof
/-
What callers may do with a journalist, as a machine: the methods of Impl/JournalistImpl.i.dfy with the
conditions their callers have to meet.
-/
namespace Verif.Kv.Journalist
open JournalBytes

/-- A call as its caller sees it. `out b`: a package of bytes to be written to the journal on disk;
`reset n`, `trim n`: the caller says how many blocks of the journal on disk are in use. -/
inductive Op
  | append (e : Entry)
  | freeze
  | out (bytes : List UInt8)
  | trim (n : Nat)
  | reset (n : Nat)
  | front (jr : List Block)
  | back (jr : List Block)
  | parse (ok : Bool)
  | pop (e : Entry)

/-- The methods with their `requires`, JournalistImpl.i.dfy:233-504. `journalAppend`
(Impl/CommitterImpl.i.dfy) asks `canAppend` first; the lengths of keys and values are part of their
types. -/
inductive Next (crc : List UInt8 → List UInt8) : State → Op → State → Prop
  | append {s e} : s.canAppend e = true → Ok e → Next crc s (.append e) (s.append e)
  | freeze {s} : Next crc s .freeze s.freeze
  | outFrozen {s} : s.hasFrozen = true → Next crc s (.out (s.packageFrozen crc).1) (s.packageFrozen crc).2
  | outMem {s} : s.hasFrozen = false → s.hasMem = true →
      Next crc s (.out (s.packageMem crc).1) (s.packageMem crc).2
  | trim {s n} : n ≤ s.written → Next crc s (.trim n) (s.updateWritten n)
  | reset {s n} : s.hasFrozen = false → s.hasMem = false → n ≤ numJournalBlocks →
      Next crc s (.reset n) (s.setWritten n)
  | front {s jr} : Sizes jr → Next crc s (.front jr) (s.setFront jr)
  | back {s jr} : Sizes jr → Next crc s (.back jr) (s.setBack jr)
  | parseOk {s s'} : s.parse = some s' → Next crc s (.parse true) s'
  | parseFail {s} : s.parse = none → Next crc s (.parse false) s
  | pop {s e} : s.replayEmpty = false → s.replayJournal[s.replayIdx]? = some e →
      Next crc s (.pop e) s.replayPop

/-- A journalist from its `Constructor` on -/
def machine (crc : List UInt8 → List UInt8) : Machine State Op := ⟨fun s => s = init, Next crc⟩

/-! ### Bytes and blocks -/

theorem rangeOfBytes_nil (crc) : rangeOfBytes crc [] = some [] := by rw [rangeOfBytes]; simp

theorem rangeOfBytes_append {crc : List UInt8 → List UInt8} {b : List UInt8} {y : List Block}
    (hb : rangeOfBytes crc b = some y) : ∀ (n : Nat) {a : List UInt8} {x : List Block}, a.length = n →
    rangeOfBytes crc a = some x → rangeOfBytes crc (a ++ b) = some (x ++ y) := by
  intro n
  induction n using Nat.strongRecOn with
  | ind n ih =>
    intro a x hn ha
    by_cases h0 : a = []
    · subst h0
      rw [rangeOfBytes_nil] at ha; cases ha; exact hb
    · rw [rangeOfBytes, dif_neg h0] at ha
      by_cases h1 : 4096 ≤ a.length
      · rw [dif_pos h1] at ha
        cases e1 : blockOfBytes crc (a.take 4096) with
        | none => simp [e1] at ha
        | some c =>
          cases e2 : rangeOfBytes crc (a.drop 4096) with
          | none => simp [e1, e2] at ha
          | some rest =>
            simp only [e1, e2] at ha
            cases ha
            have ih' := ih (a.drop 4096).length (by rw [List.length_drop]; omega) rfl e2
            rw [rangeOfBytes, dif_neg (by simp [h0]), dif_pos (by rw [List.length_append]; omega),
              List.take_append_of_le_length h1, List.drop_append_of_le_length h1, e1, ih']
            rfl
      · rw [dif_neg h1] at ha; cases ha

theorem rangeOfBytes_sizes {crc : List UInt8 → List UInt8} : ∀ (n : Nat) {a : List UInt8}
    {x : List Block}, a.length = n → rangeOfBytes crc a = some x → ∀ b ∈ x, b.length = 4064 := by
  intro n
  induction n using Nat.strongRecOn with
  | ind n ih =>
    intro a x hn ha
    by_cases h0 : a = []
    · subst h0
      rw [rangeOfBytes_nil] at ha; cases ha; simp
    · rw [rangeOfBytes, dif_neg h0] at ha
      by_cases h1 : 4096 ≤ a.length
      · rw [dif_pos h1] at ha
        cases e1 : blockOfBytes crc (a.take 4096) with
        | none => simp [e1] at ha
        | some c =>
          cases e2 : rangeOfBytes crc (a.drop 4096) with
          | none => simp [e1, e2] at ha
          | some rest =>
            simp only [e1, e2] at ha
            cases ha
            intro b hb
            rcases List.mem_cons.mp hb with rfl | hb
            · unfold blockOfBytes at e1
              split at e1
              · cases e1; rename_i h2; rw [List.length_drop, h2.1]
              · cases e1
            · exact ih (a.drop 4096).length (by rw [List.length_drop]; omega) rfl e2 b hb
      · rw [dif_neg h1] at ha; cases ha

/-! ### How many entries blocks can hold -/

theorem parseEntries_len {s : List UInt8} : ∀ (n idx : Nat) {es : List Entry}, idx ≤ s.length →
    parseEntries s n idx = some es → idx + 8 * es.length ≤ s.length := by
  intro n
  induction n with
  | zero => intro idx es hi h; cases h; simpa using hi
  | succ n ih =>
    intro idx es hi h
    rw [parseEntries] at h
    by_cases h1 : idx + 4 ≤ s.length
    · rw [if_pos h1] at h
      simp only at h
      generalize hk : (if decide (4096 ≤ le32 s idx) = true then le32 s idx - 4096 else le32 s idx) = kl at h
      by_cases h2 : idx + 4 + kl + 4 ≤ s.length ∧ kl ≤ maxLen
      · rw [if_pos h2] at h
        generalize hv : le32 s (idx + 4 + kl) = vl at h
        by_cases h3 : idx + 4 + kl + 4 + vl ≤ s.length ∧ vl ≤ maxLen
        · rw [if_pos h3] at h
          cases e : parseEntries s n (idx + 4 + kl + 4 + vl) with
          | none => simp [e] at h
          | some rest =>
            have := ih _ h3.1 e
            simp only [e] at h
            cases h
            rw [List.length_cons]; omega
        · rw [if_neg h3] at h; cases h
      · rw [if_neg h2] at h; cases h
    · rw [if_neg h1] at h; cases h

theorem length_flatten_blocks {bs : List Block} (h : ∀ b ∈ bs, b.length = 4064) :
    bs.flatten.length = 4064 * bs.length := by
  induction bs with
  | nil => rfl
  | cons b bs ih =>
    rw [List.flatten_cons, List.length_append, h b (by simp), ih (fun c hc => h c (by simp [hc])),
      List.length_cons]
    omega

theorem parseRange_len : ∀ (n : Nat) {jr : List Block} {es : List Entry}, jr.length = n →
    (∀ b ∈ jr, b.length = 4064) → parseRange jr = some es → 8 * es.length ≤ 4064 * jr.length := by
  intro n
  induction n using Nat.strongRecOn with
  | ind n ih =>
    intro jr es hn hs h
    cases jr with
    | nil => rw [parse_nil] at h; cases h; simp
    | cons c rest =>
      rw [parseRange] at h
      by_cases h8 : 8 ≤ c.length
      · simp only [h8, if_true] at h
        by_cases h' : 1 ≤ le32 c 4 ∧ le32 c 4 ≤ (c :: rest).length
        · rw [dif_pos h'] at h
          cases e1 : parseEntries (List.take (le32 c 4) (c :: rest)).flatten (le32 c 0) 8 with
          | none => simp [e1] at h
          | some p1 =>
            cases e2 : parseRange (List.drop (le32 c 4) (c :: rest)) with
            | none => simp [e1, e2] at h
            | some p2 =>
              simp only [e1, e2] at h
              cases h
              have l1 := length_flatten_blocks (bs := (c :: rest).take (le32 c 4))
                (fun b hb => hs b (List.mem_of_mem_take hb))
              rw [List.length_take, Nat.min_eq_left h'.2] at l1
              have a1 := parseEntries_len _ _ (by omega) e1
              have a2 := ih _ (by rw [← hn, List.length_drop]; omega) rfl
                (fun b hb => hs b (List.mem_of_mem_drop hb)) e2
              rw [List.length_drop] at a2
              rw [List.length_append]
              have := h'.2
              omega
        · rw [dif_neg h'] at h; cases h
      · simp [h8] at h

end Verif.Kv.Journalist
