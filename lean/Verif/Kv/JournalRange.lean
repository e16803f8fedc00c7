import Verif.Kv.Ops
/-
The journal of VeriBetrKV as entries and as blocks: MapSpec/Journal.i.dfy (entries),
BlockCacheSystem/JournalRange.i.dfy (how blocks parse into entries).
-/
namespace Verif.Kv

/-- `JournalEntry`, MapSpec/Journal.i.dfy:15 -/
inductive Entry
  | insert (k : Key) (v : Value)
  | clone (src dst : Key)
deriving DecidableEq

/-- `JournalEntriesForUIOp`, MapSpec/Journal.i.dfy:17-25 -/
def UIOp.entries : UIOp → List Entry
  | .put k v => [.insert k v]
  | .clone a b => [.clone a b]
  | _ => []

/-- `JournalEntryToUIOp`, MapSpec/Journal.i.dfy:66-72 -/
def Entry.ui : Entry → UIOp
  | .insert k v => .put k v
  | .clone a b => .clone a b

/-- `JournalBlock`, JournalRange.i.dfy:24: the bytes of one block -/
abbrev Block := List UInt8

/-- `unpack_LittleEndian_Uint32(s[idx..idx+4])`, lib/Lang/System/PackedInts.s.dfy:12-20 -/
def le32 (s : List UInt8) (idx : Nat) : Nat :=
  ((s.drop idx).take 4).foldr (fun b acc => b.toNat + 256 * acc) 0

/-- `s[a..b]` -/
def cut (s : List UInt8) (a b : Nat) : List UInt8 := (s.drop a).take (b - a)

/-- `KeyType.MaxLen`, `ValueType.MaxLen`, lib/Base/KeyType.s.dfy:9, 16 -/
def maxLen : Nat := 1024

/-- `parseEntries`, JournalRange.i.dfy:97-146 -/
def parseEntries (s : List UInt8) : Nat → Nat → Option (List Entry)
  | 0, _ => some []
  | len + 1, idx =>
    if idx + 4 ≤ s.length then
      let keyLen := le32 s idx
      let isClone : Bool := 4096 ≤ keyLen
      let keyLen' := if isClone then keyLen - 4096 else keyLen
      if idx + 4 + keyLen' + 4 ≤ s.length ∧ keyLen' ≤ maxLen then
        let key := cut s (idx + 4) (idx + 4 + keyLen')
        let valueLen := le32 s (idx + 4 + keyLen')
        let stop := idx + 4 + keyLen' + 4 + valueLen
        if stop ≤ s.length ∧ valueLen ≤ maxLen then
          match parseEntries s len stop with
          | some rest =>
            let v := cut s (idx + 4 + keyLen' + 4) stop
            some ((if isClone then .clone key v else .insert key v) :: rest)
          | none => none
        else none
      else none
    else none

/-- `parseJournalRange`, JournalRange.i.dfy:155-185, with `parseHeader` (:88-95) and
`parseJournalRangeOfBytes` (:147-153): chunks of blocks, each with a header that says how many blocks
and how many entries it has. -/
def parseRange (jr : List Block) : Option (List Entry) :=
  match jr with
  | [] => some []
  | b :: rest =>
    if 8 ≤ b.length then
      let nentries := le32 b 0
      let nblocks := le32 b 4
      if h : 1 ≤ nblocks ∧ nblocks ≤ (b :: rest).length then
        match parseEntries ((b :: rest).take nblocks).flatten nentries 8 with
        | some p1 =>
          match parseRange ((b :: rest).drop nblocks) with
          | some p2 => some (p1 ++ p2)
          | none => none
        | none => none
      else none
    else none
termination_by jr.length
decreasing_by simp only [List.length_drop]; omega

/-- `parseJournalRangeEmpty`, JournalRange.i.dfy:191-194 -/
theorem parse_nil : parseRange [] = some [] := by unfold parseRange; rfl

/-- `parseJournalRangeAdditive`, JournalRange.i.dfy:196-260 -/
theorem parse_append {a b : List Block} {x y : List Entry} (ha : parseRange a = some x)
    (hb : parseRange b = some y) : parseRange (a ++ b) = some (x ++ y) := by
  generalize hn : a.length = n
  induction n using Nat.strongRecOn generalizing a x with
  | ind n ih =>
    cases a with
    | nil => rw [parse_nil] at ha; cases ha; exact hb
    | cons c rest =>
      rw [parseRange] at ha
      by_cases h8 : 8 ≤ c.length
      · simp only [h8, if_true] at ha
        by_cases h' : 1 ≤ le32 c 4 ∧ le32 c 4 ≤ (c :: rest).length
        · rw [dif_pos h'] at ha
          cases e1 : parseEntries (List.take (le32 c 4) (c :: rest)).flatten (le32 c 0) 8 with
          | none => simp [e1] at ha
          | some p1 =>
            cases e2 : parseRange (List.drop (le32 c 4) (c :: rest)) with
            | none => simp [e1, e2] at ha
            | some p2 =>
              simp only [e1, e2] at ha
              cases ha
              have ih' := ih (List.drop (le32 c 4) (c :: rest)).length
                (by rw [← hn, List.length_drop]; omega) e2 rfl
              rw [List.cons_append, parseRange]
              simp only [h8, if_true]
              have h'' : 1 ≤ le32 c 4 ∧ le32 c 4 ≤ (c :: (rest ++ b)).length := by
                refine ⟨h'.1, ?_⟩
                have := h'.2
                simp only [List.length_cons, List.length_append] at this ⊢; omega
              rw [dif_pos h'']
              have t1 : List.take (le32 c 4) (c :: (rest ++ b)) = List.take (le32 c 4) (c :: rest) := by
                rw [← List.cons_append, List.take_append_of_le_length h'.2]
              have t2 : List.drop (le32 c 4) (c :: (rest ++ b)) =
                  List.drop (le32 c 4) (c :: rest) ++ b := by
                rw [← List.cons_append, List.drop_append_of_le_length h'.2]
              rw [t1, t2, e1, ih']
              simp
        · rw [dif_neg h'] at ha; cases ha
      · simp [h8] at ha

end Verif.Kv
