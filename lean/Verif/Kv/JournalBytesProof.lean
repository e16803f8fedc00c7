import Verif.Kv.JournalBytes
/-
What is written parses back: a marshalled range of the ring gives blocks with good checksums whose
entries are those of the range.
-/
namespace Verif.Kv.JournalBytes

/-- The bytes of one entry. -/
def enc : Entry → List UInt8
  | .insert k v => pack32 k.length ++ k ++ pack32 v.length ++ v
  | .clone a b => pack32 (a.length + 4096) ++ a ++ pack32 b.length ++ b

@[simp] theorem length_pack32 (n : Nat) : (pack32 n).length = 4 := rfl

theorem length_enc (e : Entry) : (enc e).length = weight e := by
  cases e <;> simp [enc, weight] <;> omega

theorem length_encs (es : List Entry) : (es.flatMap enc).length = sumWeights es := by
  induction es with
  | nil => rfl
  | cons e es ih => simp [sumWeights, List.flatMap_cons, length_enc, ih]

/-! ### Reading back -/

theorem le32_pack {pre post : List UInt8} {n : Nat} (h : n < 2 ^ 32) :
    le32 (pre ++ (pack32 n ++ post)) pre.length = n := by
  unfold le32
  rw [List.drop_left]
  simp only [pack32, List.cons_append, List.nil_append, List.take_succ_cons, List.take_zero,
    List.foldr_cons, List.foldr_nil, UInt8.toNat_ofNat']
  omega

theorem cut_mid (pre x post : List UInt8) :
    cut (pre ++ (x ++ post)) pre.length (pre.length + x.length) = x := by
  unfold cut
  rw [List.drop_left]
  simp

theorem parse_step {pre post k v : List UInt8} {m n : Nat} {isClone : Bool} {rest : List Entry}
    (hm : m = if isClone then k.length + 4096 else k.length) (hk : k.length ≤ maxLen)
    (hv : v.length ≤ maxLen)
    (hrest : parseEntries (pre ++ (pack32 m ++ (k ++ (pack32 v.length ++ (v ++ post))))) n
      (pre.length + 4 + k.length + 4 + v.length) = some rest) :
    parseEntries (pre ++ (pack32 m ++ (k ++ (pack32 v.length ++ (v ++ post))))) (n + 1) pre.length =
      some ((if isClone then .clone k v else .insert k v) :: rest) := by
  have hmax : maxLen = 1024 := rfl
  have hm' : m < 2 ^ 32 := by rw [hm]; split <;> omega
  generalize hs : pre ++ (pack32 m ++ (k ++ (pack32 v.length ++ (v ++ post)))) = s at *
  have hl : s.length = pre.length + 4 + k.length + 4 + v.length + post.length := by
    rw [← hs]; simp; omega
  have e1 : le32 s pre.length = m := by rw [← hs]; exact le32_pack hm'
  have a2 : s = (pre ++ pack32 m) ++ (k ++ (pack32 v.length ++ (v ++ post))) := by rw [← hs]; simp
  have a3 : s = (pre ++ pack32 m ++ k) ++ (pack32 v.length ++ (v ++ post)) := by rw [← hs]; simp
  have a4 : s = (pre ++ pack32 m ++ k ++ pack32 v.length) ++ (v ++ post) := by rw [← hs]; simp
  have e2 : cut s (pre.length + 4) (pre.length + 4 + k.length) = k := by
    have := cut_mid (pre ++ pack32 m) k (pack32 v.length ++ (v ++ post))
    rw [← a2] at this
    simpa using this
  have e3 : le32 s (pre.length + 4 + k.length) = v.length := by
    have := @le32_pack (pre ++ pack32 m ++ k) (v ++ post) v.length (by omega)
    rw [← a3] at this
    simpa [Nat.add_assoc] using this
  have e4 : cut s (pre.length + 4 + k.length + 4) (pre.length + 4 + k.length + 4 + v.length) = v := by
    have := cut_mid (pre ++ pack32 m ++ k ++ pack32 v.length) v post
    rw [← a4] at this
    simpa [Nat.add_assoc] using this
  rw [parseEntries]
  rw [if_pos (by omega)]
  have eb : decide (4096 ≤ m) = isClone := by
    cases isClone
    · simp only [Bool.false_eq_true, if_false] at hm; simp; omega
    · simp only [if_true] at hm; simp; omega
  have ek : (if decide (4096 ≤ m) then m - 4096 else m) = k.length := by
    rw [eb, hm]; cases isClone <;> simp
  simp only [e1, ek]
  rw [if_pos ⟨by omega, hk⟩]
  simp only [e3]
  rw [if_pos ⟨by omega, hv⟩, hrest]
  simp only [e2, e4, eb]

theorem parseEntries_encs : ∀ (es : List Entry) (pre post : List UInt8), (∀ e ∈ es, Ok e) →
    parseEntries (pre ++ (es.flatMap enc ++ post)) es.length pre.length = some es
  | [], _, _, _ => rfl
  | e :: es, pre, post, h => by
    have ih := parseEntries_encs es (pre ++ enc e) post (fun x hx => h x (List.mem_cons_of_mem _ hx))
    have he := h e List.mem_cons_self
    cases e with
    | insert k v =>
      have := @parse_step pre (es.flatMap enc ++ post) k v k.length es.length false es (by simp) he.1 he.2
        (by simpa [enc, Nat.add_assoc] using ih)
      simpa [enc] using this
    | clone a b =>
      have := @parse_step pre (es.flatMap enc ++ post) a b (a.length + 4096) es.length true es (by simp)
        he.1 he.2 (by simpa [enc, Nat.add_assoc] using ih)
      simpa [enc] using this

/-! ### The payload of a buffer -/

/-- `withoutChecksums`, Impl/JournalistMarshallingModel.i.dfy:33-38 -/
def pay : Nat → List UInt8 → List UInt8
  | 0, _ => []
  | n + 1, buf => cut buf 32 4096 ++ pay n (buf.drop 4096)

theorem length_cut (s : List UInt8) {a b : Nat} (h : b ≤ s.length) : (cut s a b).length = b - a := by
  simp only [cut, List.length_take, List.length_drop]; omega

theorem getElem?_cut (s : List UInt8) (a b i : Nat) :
    (cut s a b)[i]? = if i < b - a then s[a + i]? else none := by
  simp only [cut, List.getElem?_take, List.getElem?_drop]

theorem length_pay : ∀ (n : Nat) (buf : List UInt8), buf.length = 4096 * n →
    (pay n buf).length = 4064 * n
  | 0, _, _ => rfl
  | n + 1, buf, h => by
    have := length_pay n (buf.drop 4096) (by rw [List.length_drop]; omega)
    rw [pay, List.length_append, this, length_cut _ (by omega)]; omega

theorem getElem?_pay : ∀ (n : Nat) (buf : List UInt8) (i : Nat), buf.length = 4096 * n →
    (pay n buf)[i]? = if i < 4064 * n then buf[4096 * (i / 4064) + 32 + i % 4064]? else none
  | 0, _, i, _ => by simp [pay]
  | n + 1, buf, i, h => by
    rw [pay, List.getElem?_append, length_cut _ (by omega)]
    by_cases h1 : i < 4064
    · rw [if_pos (by omega), getElem?_cut, if_pos (by omega), if_pos (by omega)]
      congr 1; omega
    · rw [if_neg (by omega), getElem?_pay n (buf.drop 4096) _ (by rw [List.length_drop]; omega)]
      by_cases h2 : i < 4064 * (n + 1)
      · have e : 4096 + (4096 * ((i - (4096 - 32)) / 4064) + 32 + (i - (4096 - 32)) % 4064) =
            4096 * (i / 4064) + 32 + i % 4064 := by omega
        rw [if_pos (by omega), if_pos h2, List.getElem?_drop, e]
      · rw [if_neg (by omega), if_neg h2]

theorem length_splice {b ins : List UInt8} {s : Nat} (h : s + ins.length ≤ b.length) :
    (splice b s ins).length = b.length := by
  simp only [splice, List.length_append, List.length_take, List.length_drop]; omega

theorem getElem?_splice {b ins : List UInt8} {s : Nat} (h : s + ins.length ≤ b.length) (i : Nat) :
    (splice b s ins)[i]? = if i < s then b[i]? else if i < s + ins.length then ins[i - s]? else b[i]? := by
  have e : (b.take s).length = s := by rw [List.length_take]; omega
  rw [splice, List.append_assoc, List.getElem?_append, e]
  by_cases h1 : i < s
  · rw [if_pos h1, if_pos h1, List.getElem?_take, if_pos h1]
  · rw [if_neg h1, if_neg h1, List.getElem?_append]
    by_cases h2 : i < s + ins.length
    · rw [if_pos (by omega), if_pos h2]
    · rw [if_neg (by omega), if_neg h2, List.getElem?_drop]
      congr 1; omega

theorem splice_nil (b : List UInt8) (s : Nat) : splice b s [] = b := by simp [splice]

theorem splice_splice {b x y : List UInt8} {s : Nat} (h : s + x.length + y.length ≤ b.length) :
    splice (splice b s x) (s + x.length) y = splice b s (x ++ y) := by
  have e : (b.take s).length = s := by rw [List.length_take]; omega
  have e1 : (splice b s x).take (s + x.length) = b.take s ++ x := by
    rw [splice]
    have : s + x.length = (b.take s ++ x).length := by rw [List.length_append, e]
    rw [this, List.take_left]
  have e2 : (splice b s x).drop (s + x.length + y.length) = b.drop (s + x.length + y.length) := by
    rw [splice]
    rw [List.drop_append, List.drop_eq_nil_of_le (by rw [List.length_append, e]; omega),
      List.length_append, e, List.drop_drop, List.nil_append]
    congr 1; omega
  rw [splice, e1, e2, splice]
  simp [Nat.add_assoc]

theorem length_writeOnto {buf bytes : List UInt8} {n start : Nat} (hb : buf.length = 4096 * n)
    (h4 : bytes.length ≤ 4064) (hs : start + bytes.length ≤ 4064 * n) :
    (writeOnto buf start bytes).length = 4096 * n := by
  unfold writeOnto
  by_cases h0 : 0 < bytes.length
  · simp only [h0, if_true]
    by_cases h1 : start % 4064 + bytes.length ≤ 4064
    · rw [if_pos h1, length_splice (by omega), hb]
    · rw [if_neg h1, length_splice, length_splice, hb]
      · rw [List.length_take]; omega
      · rw [length_splice (by rw [List.length_take]; omega), List.length_drop]; omega
  · simp only [h0, if_false]; exact hb

/-- `writeOntoResult`, Impl/JournalistMarshallingModel.i.dfy:98-194 -/
theorem pay_writeOnto {buf bytes : List UInt8} {n start : Nat} (hb : buf.length = 4096 * n)
    (h4 : bytes.length ≤ 4064) (hs : start + bytes.length ≤ 4064 * n) :
    pay n (writeOnto buf start bytes) = splice (pay n buf) start bytes := by
  have hl := length_writeOnto hb h4 hs
  have hp := length_pay n buf hb
  apply List.ext_getElem?
  intro i
  rw [getElem?_pay _ _ _ hl, getElem?_splice (by omega), getElem?_pay _ _ _ hb]
  unfold writeOnto
  by_cases hi : ¬ i < 4064 * n
  · rw [if_neg hi, if_neg (by omega), if_neg (by omega), if_neg hi]
  rw [Decidable.not_not] at hi
  simp only [hi, if_true]
  by_cases h0 : ¬ 0 < bytes.length
  · simp only [h0, if_false]
    by_cases h1 : i < start
    · rw [if_pos h1]
    · rw [if_neg h1, if_neg (by omega)]
  rw [Decidable.not_not] at h0
  simp only [h0, if_true]
  by_cases h1 : start % 4064 + bytes.length ≤ 4064
  · rw [if_pos h1, getElem?_splice (by omega)]
    by_cases c1 : i < start
    · rw [if_pos c1, if_pos (by omega)]
    · by_cases c2 : i < start + bytes.length
      · rw [if_neg c1, if_pos c2, if_neg (by omega), if_pos (by omega)]
        have : 4096 * (i / 4064) + 32 + i % 4064 - (start / 4064 * 4096 + 32 + start % 4064) =
            i - start := by omega
        rw [this]
      · rw [if_neg c1, if_neg c2, if_neg (by omega), if_neg (by omega)]
  · have l1 : (bytes.take (4064 - start % 4064)).length = 4064 - start % 4064 := by
      rw [List.length_take]; omega
    have l2 : (bytes.drop (4064 - start % 4064)).length = bytes.length - (4064 - start % 4064) := by
      rw [List.length_drop]
    rw [if_neg h1, getElem?_splice (by rw [length_splice (by omega)]; omega),
      getElem?_splice (by omega), l1, l2, List.getElem?_take, List.getElem?_drop]
    by_cases c1 : i < start
    · rw [if_pos c1, if_pos (by omega), if_pos (by omega)]
    · rw [if_neg c1]
      by_cases c2 : i < start + bytes.length
      · rw [if_pos c2]
        by_cases c3 : i < start + (4064 - start % 4064)
        · rw [if_pos (by omega), if_neg (by omega), if_pos (by omega), if_pos (by omega)]
          have : 4096 * (i / 4064) + 32 + i % 4064 - (start / 4064 * 4096 + 32 + start % 4064) =
            i - start := by omega
          rw [this]
        · rw [if_neg (by omega), if_pos (by omega)]
          have : 4064 - start % 4064 + (4096 * (i / 4064) + 32 + i % 4064 -
            ((start / 4064 + 1) * 4096 + 32)) = i - start := by omega
          rw [this]
      · rw [if_neg c2, if_neg (by omega), if_neg (by omega), if_neg (by omega), if_neg (by omega)]

theorem length_writeInt {buf : List UInt8} {n idx val : Nat} (hb : buf.length = 4096 * n)
    (hs : idx + 4 ≤ 4064 * n) : (writeInt buf idx val).length = 4096 * n :=
  length_writeOnto hb (by rw [length_pack32]; omega) (by rw [length_pack32]; omega)

theorem pay_writeInt {buf : List UInt8} {n idx val : Nat} (hb : buf.length = 4096 * n)
    (hs : idx + 4 ≤ 4064 * n) : pay n (writeInt buf idx val) = splice (pay n buf) idx (pack32 val) :=
  pay_writeOnto hb (by rw [length_pack32]; omega) (by rw [length_pack32]; omega)

/-- Four pieces written one after the other. -/
theorem pay_four {buf k v : List UInt8} {n idx a b : Nat} (hb : buf.length = 4096 * n)
    (hk : k.length ≤ 4064) (hv : v.length ≤ 4064)
    (hs : idx + 4 + k.length + 4 + v.length ≤ 4064 * n) :
    let buf' := writeOnto (writeInt (writeOnto (writeInt buf idx a) (idx + 4) k) (idx + 4 + k.length) b)
      (idx + 4 + k.length + 4) v
    buf'.length = 4096 * n ∧ pay n buf' = splice (pay n buf) idx (pack32 a ++ k ++ pack32 b ++ v) := by
  have b1 := length_writeInt (val := a) hb (by omega : idx + 4 ≤ 4064 * n)
  have b2 := length_writeOnto b1 hk (by omega : idx + 4 + k.length ≤ 4064 * n)
  have b3 := length_writeInt (val := b) b2 (by omega : idx + 4 + k.length + 4 ≤ 4064 * n)
  have b4 := length_writeOnto b3 hv (by omega : idx + 4 + k.length + 4 + v.length ≤ 4064 * n)
  refine ⟨b4, ?_⟩
  have hp := length_pay n buf hb
  rw [pay_writeOnto b3 hv (by omega), pay_writeInt b2 (by omega), pay_writeOnto b1 hk (by omega),
    pay_writeInt hb (by omega)]
  have s1 := @splice_splice (pay n buf) (pack32 a) k idx (by rw [length_pack32]; omega)
  have s2 := @splice_splice (pay n buf) (pack32 a ++ k) (pack32 b) idx (by simp; omega)
  have s3 := @splice_splice (pay n buf) (pack32 a ++ k ++ pack32 b) v idx (by simp; omega)
  simp only [List.length_append, length_pack32, ← Nat.add_assoc] at s1 s2 s3
  rw [s1, s2, s3]

theorem writeEntry_spec {buf : List UInt8} {n idx : Nat} {e : Entry} (hb : buf.length = 4096 * n)
    (ho : Ok e) (hs : idx + weight e ≤ 4064 * n) :
    (writeEntry buf idx e).length = 4096 * n ∧
      pay n (writeEntry buf idx e) = splice (pay n buf) idx (enc e) := by
  have hmax : maxLen = 1024 := rfl
  cases e with
  | insert k v =>
    obtain ⟨h1, h2⟩ := ho
    simp only [weight] at hs
    exact pay_four hb (by omega) (by omega) (by omega)
  | clone a b =>
    obtain ⟨h1, h2⟩ := ho
    simp only [weight] at hs
    exact pay_four hb (by omega) (by omega) (by omega)

theorem cyclicSlice_zero {α : Type} (t : List α) (s : Nat) (h : s < t.length) :
    cyclicSlice t s 0 = [] := by
  unfold cyclicSlice; rw [if_pos (by omega)]; simp

/-- The slice from a place of the ring: the element there, and the slice from the next place. -/
theorem cyclicSlice_succ {α : Type} {t : List α} {s l : Nat} {e : α} (he : t[s]? = some e)
    (hl : l + 1 ≤ t.length) : cyclicSlice t s (l + 1) =
      e :: cyclicSlice t (if s + 1 = t.length then 0 else s + 1) l := by
  obtain ⟨hs, rfl⟩ := List.getElem?_eq_some_iff.mp he
  have hd : t.drop s = t[s] :: t.drop (s + 1) := List.drop_eq_getElem_cons hs
  unfold cyclicSlice
  by_cases h1 : s + 1 = t.length
  · rw [if_pos h1, if_pos (show 0 + l ≤ t.length by omega)]
    by_cases h2 : s + (l + 1) ≤ t.length
    · have : l = 0 := by omega
      subst this
      rw [if_pos h2, hd, List.take_succ_cons, List.take_zero, List.take_zero]
    · rw [if_neg h2, hd, h1]
      have : s + (l + 1) - t.length = l := by omega
      rw [this]; simp
  · rw [if_neg h1]
    by_cases h2 : s + (l + 1) ≤ t.length
    · rw [if_pos h2, if_pos (by omega), hd, List.take_succ_cons]
    · rw [if_neg h2, if_neg (by omega), hd]
      have : s + (l + 1) - t.length = s + 1 + l - t.length := by omega
      rw [this, List.cons_append]

theorem length_cyclicSlice {α : Type} {t : List α} {s l : Nat} (hs : s < t.length)
    (hl : l ≤ t.length) : (cyclicSlice t s l).length = l := by
  unfold cyclicSlice
  split <;> simp <;> omega

theorem mem_cyclicSlice {α : Type} {t : List α} {s l : Nat} {x : α} (h : x ∈ cyclicSlice t s l) :
    x ∈ t := by
  unfold cyclicSlice at h
  split at h
  · exact List.mem_of_mem_drop (List.mem_of_mem_take h)
  · rcases List.mem_append.mp h with h | h
    · exact List.mem_of_mem_drop h
    · exact List.mem_of_mem_take h

theorem writeEntries_spec {entries : List Entry} {n : Nat} :
    ∀ (len start idx : Nat) (buf : List UInt8), buf.length = 4096 * n → start < entries.length →
      len ≤ entries.length → (∀ e ∈ cyclicSlice entries start len, Ok e) →
      idx + sumWeights (cyclicSlice entries start len) ≤ 4064 * n →
      (writeEntries entries len start idx buf).length = 4096 * n ∧
      pay n (writeEntries entries len start idx buf) =
        splice (pay n buf) idx ((cyclicSlice entries start len).flatMap enc)
  | 0, start, idx, buf, hb, hst, _, _, _ => by
    rw [cyclicSlice_zero _ _ hst]
    exact ⟨hb, (splice_nil _ _).symm⟩
  | len + 1, start, idx, buf, hb, hst, hl, ho, hw => by
    have he : entries[start]? = some entries[start] := List.getElem?_eq_getElem hst
    generalize entries[start] = e at he
    rw [cyclicSlice_succ he hl] at ho hw ⊢
    have hw' : idx + weight e + sumWeights (cyclicSlice entries
        (if start + 1 = entries.length then 0 else start + 1) len) ≤ 4064 * n := by
      simp only [sumWeights, List.map_cons, List.sum_cons] at hw ⊢; omega
    obtain ⟨a1, a2⟩ := writeEntry_spec hb (ho e List.mem_cons_self) (idx := idx) (by omega)
    obtain ⟨b1, b2⟩ := writeEntries_spec len (if start + 1 = entries.length then 0 else start + 1)
      (idx + weight e) _ a1 (by split <;> omega) (by omega)
      (fun x hx => ho x (List.mem_cons_of_mem _ hx)) hw'
    simp only [writeEntries, he]
    refine ⟨b1, ?_⟩
    have hp := length_pay n buf hb
    rw [b2, a2, ← length_enc, splice_splice, List.flatMap_cons]
    rw [hp, length_enc, length_encs]; exact hw'

/-! ### Checksums -/

variable {crc : List UInt8 → List UInt8}

theorem fillChecksums_spec (hcrc : ∀ s, (crc s).length = 32) {n : Nat} :
    ∀ (m i : Nat) (buf : List UInt8), buf.length = 4096 * n → i + m = n →
      (∀ j, j < i → cut buf (4096 * j) (4096 * j + 32) = crc (cut buf (4096 * j + 32) (4096 * j + 4096))) →
      (fillChecksums crc m i buf).length = 4096 * n ∧
      pay n (fillChecksums crc m i buf) = pay n buf ∧
      ∀ j, j < n → cut (fillChecksums crc m i buf) (4096 * j) (4096 * j + 32) =
        crc (cut (fillChecksums crc m i buf) (4096 * j + 32) (4096 * j + 4096))
  | 0, i, buf, hb, hi, hc => ⟨hb, rfl, fun j hj => hc j (by omega)⟩
  | m + 1, i, buf, hb, hi, hc => by
    generalize hx : crc (cut buf (4096 * i + 32) (4096 * i + 4096)) = x
    have hxl : x.length = 32 := by rw [← hx]; exact hcrc _
    have hsp : 4096 * i + x.length ≤ buf.length := by omega
    have hl : (splice buf (4096 * i) x).length = 4096 * n := by rw [length_splice hsp, hb]
    have hcut : ∀ j, cut (splice buf (4096 * i) x) (4096 * j + 32) (4096 * j + 4096) =
        cut buf (4096 * j + 32) (4096 * j + 4096) := by
      intro j
      apply List.ext_getElem?
      intro t
      rw [getElem?_cut, getElem?_cut, getElem?_splice hsp]
      by_cases h1 : t < 4096 * j + 4096 - (4096 * j + 32)
      · rw [if_pos h1, if_pos h1]
        by_cases h2 : 4096 * j + 32 + t < 4096 * i
        · rw [if_pos h2]
        · rw [if_neg h2, if_neg (by omega)]
      · rw [if_neg h1, if_neg h1]
    have hcut' : ∀ j, cut (splice buf (4096 * i) x) (4096 * j) (4096 * j + 32) =
        if j = i then x else cut buf (4096 * j) (4096 * j + 32) := by
      intro j
      apply List.ext_getElem?
      intro t
      rw [getElem?_cut, getElem?_splice hsp]
      by_cases h1 : t < 4096 * j + 32 - 4096 * j
      · rw [if_pos h1]
        by_cases hj : j = i
        · subst hj
          rw [if_pos rfl, if_neg (by omega), if_pos (by omega)]
          have : 4096 * j + t - 4096 * j = t := by omega
          rw [this]
        · rw [if_neg hj, getElem?_cut, if_pos h1]
          by_cases h2 : 4096 * j + t < 4096 * i
          · rw [if_pos h2]
          · rw [if_neg h2, if_neg (by omega)]
      · rw [if_neg h1]
        by_cases hj : j = i
        · rw [if_pos hj, List.getElem?_eq_none (by omega)]
        · rw [if_neg hj, getElem?_cut, if_neg h1]
    have hpay : pay n (splice buf (4096 * i) x) = pay n buf := by
      apply List.ext_getElem?
      intro t
      rw [getElem?_pay _ _ _ hl, getElem?_pay _ _ _ hb, getElem?_splice hsp]
      by_cases h1 : t < 4064 * n
      · rw [if_pos h1, if_pos h1]
        by_cases h2 : 4096 * (t / 4064) + 32 + t % 4064 < 4096 * i
        · rw [if_pos h2]
        · rw [if_neg h2, if_neg (by omega)]
      · rw [if_neg h1, if_neg h1]
    rw [fillChecksums, hx]
    obtain ⟨r1, r2, r3⟩ := fillChecksums_spec hcrc m (i + 1) (splice buf (4096 * i) x) hl (by omega) (by
      intro j hj
      rw [hcut', hcut]
      by_cases e : j = i
      · subst e; rw [if_pos rfl, hx]
      · rw [if_neg e]; exact hc j (by omega))
    exact ⟨r1, r2.trans hpay, r3⟩

/-- Bytes whose checksums are right are blocks. -/
theorem rangeOfBytes_spec : ∀ (n : Nat) (buf : List UInt8), buf.length = 4096 * n →
    (∀ j, j < n → cut buf (4096 * j) (4096 * j + 32) = crc (cut buf (4096 * j + 32) (4096 * j + 4096))) →
    ∃ bs, rangeOfBytes crc buf = some bs ∧ bs.length = n ∧ bs.flatten = pay n buf ∧
      ∀ b ∈ bs, b.length = 4064
  | 0, buf, hb, _ => by
    have : buf = [] := List.eq_nil_of_length_eq_zero (by omega)
    subst this
    exact ⟨[], by rw [rangeOfBytes]; simp, rfl, rfl, by simp⟩
  | n + 1, buf, hb, hc => by
    obtain ⟨bs, h1, h2, h3, h4⟩ := rangeOfBytes_spec n (buf.drop 4096) (by rw [List.length_drop]; omega) (by
      intro j hj
      have := hc (j + 1) (by omega)
      have e : ∀ a b, cut (buf.drop 4096) a b = cut buf (4096 + a) (4096 + b) := by
        intro a b
        simp only [cut, List.drop_drop]
        have : 4096 + b - (4096 + a) = b - a := by omega
        rw [this]
      rw [e, e]
      have a1 : 4096 * (j + 1) = 4096 + 4096 * j := by omega
      rw [a1] at this
      simpa only [Nat.add_assoc] using this)
    have h0 := hc 0 (by omega)
    have e1 : cut buf (4096 * 0) (4096 * 0 + 32) = (buf.take 4096).take 32 := by
      simp [cut, List.take_take]
    have e2 : cut buf (4096 * 0 + 32) (4096 * 0 + 4096) = (buf.take 4096).drop 32 := by
      simp [cut, List.drop_take]
    have e3 : cut buf 32 4096 = (buf.take 4096).drop 32 := by simp [cut, List.drop_take]
    rw [e1, e2] at h0
    have hl : (buf.take 4096).length = 4096 := by rw [List.length_take]; omega
    have hbk : blockOfBytes crc (buf.take 4096) = some ((buf.take 4096).drop 32) := by
      rw [blockOfBytes, if_pos ⟨hl, h0⟩]
    refine ⟨(buf.take 4096).drop 32 :: bs, ?_, by simp [h2], ?_, ?_⟩
    · rw [rangeOfBytes, dif_neg (by intro e; subst e; simp at hb), dif_pos (by omega), hbk, h1]
    · rw [List.flatten_cons, h3, pay, e3]
    · intro b hb'
      rcases List.mem_cons.mp hb' with rfl | h
      · rw [List.length_drop, hl]
      · exact h4 b h

theorem le32_take {s : List UInt8} {idx m : Nat} (h : idx + 4 ≤ m) : le32 (s.take m) idx = le32 s idx := by
  unfold le32
  rw [List.drop_take, List.take_take]
  have : min 4 (m - idx) = 4 := by omega
  rw [this]

/-- **Round trip.** What is marshalled are blocks with right checksums, as many as asked for, and parses
to the entries of the slice. -/
theorem marshal_spec (hcrc : ∀ s, (crc s).length = 32) {entries : List Entry} {start len n : Nat}
    (hs : start < entries.length) (hl : len ≤ entries.length) (hl32 : len < 2 ^ 32) (hn : 1 ≤ n)
    (hn32 : n < 2 ^ 32) (ho : ∀ e ∈ cyclicSlice entries start len, Ok e)
    (hw : 8 + sumWeights (cyclicSlice entries start len) ≤ 4064 * n) :
    (marshal crc entries start len n).length = 4096 * n ∧
    ∃ bs, rangeOfBytes crc (marshal crc entries start len n) = some bs ∧ bs.length = n ∧
      (∀ b ∈ bs, b.length = 4064) ∧ parseRange bs = some (cyclicSlice entries start len) := by
  have z0 : (List.replicate (n * 4096) (0 : UInt8)).length = 4096 * n := by simp; omega
  have w1 := length_writeInt (val := len) z0 (by omega : 0 + 4 ≤ 4064 * n)
  have w2 := length_writeInt (val := n) w1 (by omega : 4 + 4 ≤ 4064 * n)
  have p0 := length_pay n _ z0
  have p2 : pay n (writeHeader (List.replicate (n * 4096) 0) n len) =
      splice (pay n (List.replicate (n * 4096) 0)) 0 (pack32 len ++ pack32 n) := by
    rw [writeHeader, pay_writeInt w1 (by omega), pay_writeInt z0 (by omega)]
    have := @splice_splice (pay n (List.replicate (n * 4096) 0)) (pack32 len) (pack32 n) 0
      (by simp only [length_pack32]; omega)
    simpa using this
  obtain ⟨e1, e2⟩ := writeEntries_spec len start 8 _ w2 hs hl ho hw
  obtain ⟨f1, f2, f3⟩ := fillChecksums_spec hcrc n 0 _ e1 (by omega) (fun j hj => absurd hj (by omega))
  change (marshal crc entries start len n).length = _ at f1
  change pay n (marshal crc entries start len n) = _ at f2
  change ∀ j, j < n → cut (marshal crc entries start len n) (4096 * j) (4096 * j + 32) =
    crc (cut (marshal crc entries start len n) (4096 * j + 32) (4096 * j + 4096)) at f3
  refine ⟨f1, ?_⟩
  obtain ⟨bs, b1, b2, b3, b4⟩ := rangeOfBytes_spec n _ f1 f3
  refine ⟨bs, b1, b2, b4, ?_⟩
  change pay n (writeEntries entries len start 8
    (writeHeader (List.replicate (n * 4096) 0) n len)) = splice (pay n (writeHeader _ n len)) 8 _ at e2
  have hlen := length_cyclicSlice hs hl
  generalize hes : cyclicSlice entries start len = es at *
  have hfl : ∃ post, bs.flatten = (pack32 len ++ pack32 n) ++ (es.flatMap enc ++ post) := by
    have s1 := @splice_splice (pay n (List.replicate (n * 4096) 0)) (pack32 len ++ pack32 n)
      (es.flatMap enc) 0 (by rw [length_encs]; simp only [List.length_append, length_pack32]; omega)
    have e8 : 0 + (pack32 len ++ pack32 n).length = 8 := rfl
    rw [e8] at s1
    refine ⟨(pay n (List.replicate (n * 4096) 0)).drop (0 + ((pack32 len ++ pack32 n) ++ es.flatMap enc).length), ?_⟩
    rw [b3, f2]
    refine e2.trans ?_
    rw [p2, s1, splice]
    simp
  obtain ⟨post, hfl⟩ := hfl
  cases bs with
  | nil => simp at b2; omega
  | cons b rest =>
    have hb : b.length = 4064 := b4 b List.mem_cons_self
    have hb' : b = (b :: rest).flatten.take 4064 := by
      rw [List.flatten_cons, ← hb, List.take_left]
    have h0 : le32 b 0 = len := by
      rw [hb', le32_take (by omega), hfl]
      have := @le32_pack [] (pack32 n ++ (es.flatMap enc ++ post)) len hl32
      simpa using this
    have h4 : le32 b 4 = n := by
      rw [hb', le32_take (by omega), hfl]
      have := @le32_pack (pack32 len) (es.flatMap enc ++ post) n hn32
      simpa using this
    rw [parseRange]
    simp only [hb, h0, h4]
    rw [if_pos (by omega), dif_pos ⟨hn, by omega⟩]
    have t1 : (b :: rest).take n = b :: rest := List.take_of_length_le (by omega)
    have t2 : (b :: rest).drop n = [] := List.drop_eq_nil_of_le (by omega)
    rw [t1, t2, hfl, parse_nil, ← hlen]
    have := parseEntries_encs es (pack32 es.length ++ pack32 n) post ho
    have e8 : (pack32 es.length ++ pack32 n).length = 8 := rfl
    rw [e8] at this
    rw [this]
    simp

end Verif.Kv.JournalBytes
