import Verif.Kv.Marshal
/-
Bytes and values: what is marshalled parses back, and every parse is of a marshalled value. No code is
modelled here.
-/
namespace Verif.Kv.Marshal
open SuperblockBytes (packLE unpackLE packLE_length unpack_pack unpack_lt)

/-! ### Words -/

theorem pack_unpack : ∀ (s : List UInt8), packLE s.length (unpackLE s) = s
  | [] => rfl
  | b :: s => by
    have hb := b.toNat_lt
    rw [List.length_cons, unpackLE, packLE]
    congr 1
    · rw [show (b.toNat + 256 * unpackLE s) % 256 = b.toNat by omega]
      exact UInt8.ofNat_toNat
    · rw [show (b.toNat + 256 * unpackLE s) / 256 = unpackLE s by omega]
      exact pack_unpack s

theorem word_pack {n x : Nat} (h : x < 256 ^ n) (rest : List UInt8) :
    word n (packLE n x ++ rest) = some (x, rest) := by
  have hl := packLE_length n x
  rw [word, if_pos (by rw [List.length_append, hl]; omega), List.take_left' hl, List.drop_left' hl,
    unpack_pack n x h]

theorem word_some {n : Nat} {s : List UInt8} {x : Nat} {r : List UInt8} (h : word n s = some (x, r)) :
    x < 256 ^ n ∧ s = packLE n x ++ r := by
  unfold word at h
  split at h
  · rename_i hn
    cases h
    have hl : (s.take n).length = n := by rw [List.length_take, Nat.min_eq_left hn]
    have h1 := unpack_lt (s.take n)
    have h2 := pack_unpack (s.take n)
    rw [hl] at h1 h2
    exact ⟨h1, by rw [h2, List.take_append_drop]⟩
  · cases h

theorem flat_length {k : Nat} : ∀ (l : List Nat), (l.flatMap (packLE k)).length = k * l.length
  | [] => rfl
  | x :: l => by rw [List.flatMap_cons, List.length_append, packLE_length, flat_length l, List.length_cons,
      Nat.mul_succ, Nat.add_comm]

theorem unpackSeq_pack {k : Nat} : ∀ (l : List Nat), (∀ x ∈ l, x < 256 ^ k) →
    unpackSeq k l.length (l.flatMap (packLE k)) = l
  | [], _ => rfl
  | x :: l, h => by
    have hl := packLE_length k x
    rw [List.length_cons, unpackSeq, List.flatMap_cons, List.take_left' hl, List.drop_left' hl,
      unpack_pack k x (h x List.mem_cons_self), unpackSeq_pack l (fun y hy => h y (List.mem_cons_of_mem _ hy))]

theorem unpackSeq_some {k : Nat} : ∀ (n : Nat) (s : List UInt8), s.length = k * n →
    (unpackSeq k n s).length = n ∧ (∀ x ∈ unpackSeq k n s, x < 256 ^ k) ∧
      (unpackSeq k n s).flatMap (packLE k) = s
  | 0, s, h => by
    have : s = [] := List.length_eq_zero_iff.mp (by simpa using h)
    subst this
    exact ⟨rfl, (fun x hx => by cases hx), rfl⟩
  | n + 1, s, h => by
    rw [Nat.mul_succ] at h
    have hl : (s.take k).length = k := by rw [List.length_take]; omega
    have h1 := unpack_lt (s.take k)
    have h2 := pack_unpack (s.take k)
    rw [hl] at h1 h2
    obtain ⟨i1, i2, i3⟩ := unpackSeq_some (k := k) n (s.drop k) (by rw [List.length_drop]; omega)
    refine ⟨by rw [unpackSeq, List.length_cons, i1], fun x hx => ?_, ?_⟩
    · rw [unpackSeq] at hx
      rcases List.mem_cons.mp hx with rfl | hx
      · exact h1
      · exact i2 x hx
    · rw [unpackSeq, List.flatMap_cons, h2, i3, List.take_append_drop]

theorem parseWords_pack {k : Nat} (hk : 0 < k) {l : List Nat} (hl : l.length < 2 ^ 64)
    (h : ∀ x ∈ l, x < 256 ^ k) (rest : List UInt8) :
    parseWords k (packLE 8 l.length ++ l.flatMap (packLE k) ++ rest) = some (l, rest) := by
  have hf := flat_length (k := k) l
  rw [List.append_assoc, parseWords, word_pack (n := 8) hl]
  dsimp only
  rw [if_pos, List.take_left' hf, List.drop_left' hf, unpackSeq_pack l h]
  rw [List.length_append, hf, Nat.le_div_iff_mul_le hk, Nat.mul_comm]
  exact Nat.le_add_right _ _

theorem parseWords_some {k : Nat} (hk : 0 < k) {s r : List UInt8} {l : List Nat}
    (h : parseWords k s = some (l, r)) :
    l.length < 2 ^ 64 ∧ (∀ x ∈ l, x < 256 ^ k) ∧ s = packLE 8 l.length ++ l.flatMap (packLE k) ++ r := by
  unfold parseWords at h
  split at h
  · cases h
  · rename_i n r' hw
    obtain ⟨h1, h2⟩ := word_some hw
    split at h
    · rename_i hn
      cases h
      rw [Nat.le_div_iff_mul_le hk, Nat.mul_comm] at hn
      obtain ⟨i1, i2, i3⟩ := unpackSeq_some (k := k) n (r'.take (k * n))
        (by rw [List.length_take, Nat.min_eq_left hn])
      rw [i1]
      refine ⟨h1, i2, ?_⟩
      rw [i3, List.append_assoc, List.take_append_drop]
      exact h2
    · cases h

/-! ### Sizes -/

mutual
theorem marshal_length : ∀ v, (marshal v).length = size v
  | .const => rfl
  | .u32 n => packLE_length 4 n
  | .u64 n => packLE_length 8 n
  | .array a => by rw [marshal, size, List.length_append, packLE_length, marshals_length a]
  | .tuple t => by rw [marshal, size, marshals_length t]
  | .bytes b => by rw [marshal, size, List.length_append, packLE_length]
  | .u32s l => by rw [marshal, size, List.length_append, packLE_length, flat_length]
  | .u64s l => by rw [marshal, size, List.length_append, packLE_length, flat_length]
  | .case c v => by rw [marshal, size, List.length_append, packLE_length, marshal_length v]
theorem marshals_length : ∀ vs, (marshals vs).length = sizes vs
  | [] => rfl
  | v :: vs => by rw [marshals, sizes, List.length_append, marshal_length v, marshals_length vs]
end

/-! ### Written, then read -/

theorem parseN_marshals {p : List UInt8 → Option (V × List UInt8)} : ∀ (a : List V),
    (∀ v ∈ a, ∀ rest, p (marshal v ++ rest) = some (v, rest)) → ∀ rest,
    parseN p a.length (marshals a ++ rest) = some (a, rest)
  | [], _, rest => rfl
  | v :: a, h, rest => by
    rw [List.length_cons, marshals, List.append_assoc, parseN, h v List.mem_cons_self]
    dsimp only
    rw [parseN_marshals a (fun w hw => h w (List.mem_cons_of_mem _ hw))]
    rfl

theorem parseTuple_marshals : ∀ (t : List V) (gs : List G), t.length = gs.length →
    (∀ (i : Nat) (v : V) (g : G), t[i]? = some v → gs[i]? = some g → ∀ rest, parse g (marshal v ++ rest) = some (v, rest)) →
    ∀ rest, parseTuple gs (marshals t ++ rest) = some (t, rest)
  | [], [], _, _, rest => by rw [parseTuple]; rfl
  | [], _ :: _, h, _, _ => by simp at h
  | _ :: _, [], h, _, _ => by simp at h
  | v :: t, g :: gs, hl, h, rest => by
    rw [marshals, List.append_assoc, parseTuple, h 0 v g rfl rfl]
    dsimp only
    rw [parseTuple_marshals t gs (by simpa using hl) (fun i w k hw hk => h (i + 1) w k
      (by rw [List.getElem?_cons_succ]; exact hw) (by rw [List.getElem?_cons_succ]; exact hk))]
    rfl

theorem parseNth_get : ∀ (gs : List G) (c : Nat) (s : List UInt8),
    parseNth gs c s = match gs[c]? with | none => none | some g => parse g s
  | [], c, s => by rw [parseNth]; rfl
  | g :: gs, 0, s => by rw [parseNth]; rfl
  | g :: gs, c + 1, s => by rw [parseNth, parseNth_get gs c s, List.getElem?_cons_succ]

/-- What is marshalled parses back, whatever comes after it. -/
theorem parse_marshal {v : V} {g : G} (h : InG v g) : Valid v → ∀ rest,
    parse g (marshal v ++ rest) = some (v, rest) := by
  induction h with
  | const => intro _ rest; rw [parse]; rfl
  | u32 =>
    intro hv rest; cases hv with
    | u32 hn => rw [parse, marshal, word_pack (n := 4) hn]; rfl
  | u64 =>
    intro hv rest; cases hv with
    | u64 hn => rw [parse, marshal, word_pack (n := 8) hn]; rfl
  | array _ ih =>
    intro hv rest; cases hv with
    | array hl hv =>
      rw [parse, marshal, List.append_assoc, parseArray, word_pack (n := 8) hl]
      dsimp only
      rw [parseN_marshals _ (fun w hw => ih w hw (hv w hw))]
      rfl
  | tuple hl _ ih =>
    intro hv rest; cases hv with
    | tuple _ hv =>
      rw [parse, marshal, parseTuple_marshals _ _ hl
        (fun i w k hw hk => ih i w k hw hk (hv w (List.mem_of_getElem? hw)))]
      rfl
  | bytes =>
    intro hv rest; cases hv with
    | bytes hl =>
      rw [parse, marshal, List.append_assoc, parseBytes, word_pack (n := 8) hl]
      dsimp only
      rw [if_pos (by rw [List.length_append]; omega), List.take_left' rfl, List.drop_left' rfl]
  | u32s =>
    intro hv rest; cases hv with
    | u32s hl hn => rw [parse, marshal, parseWords_pack (by omega) hl hn]; rfl
  | u64s =>
    intro hv rest; cases hv with
    | u64s hl hn => rw [parse, marshal, parseWords_pack (by omega) hl hn]; rfl
  | case hg _ ih =>
    intro hv rest; cases hv with
    | case hc hv =>
      rw [parse, marshal, List.append_assoc, word_pack (n := 8) hc]
      dsimp only
      rw [parseNth_get, hg]
      dsimp only
      rw [ih hv]
      rfl

/-! ### Read: it was written -/

/-- What a good parser promises. -/
def Good (p : List UInt8 → Option (V × List UInt8)) (ok : V → Prop) : Prop :=
  ∀ s v r, p s = some (v, r) → ok v ∧ Valid v ∧ s = marshal v ++ r

theorem parseN_good {p : List UInt8 → Option (V × List UInt8)} {ok : V → Prop} (hp : Good p ok) :
    ∀ n s vs r, parseN p n s = some (vs, r) →
      vs.length = n ∧ (∀ v ∈ vs, ok v ∧ Valid v) ∧ s = marshals vs ++ r
  | 0, s, vs, r, h => by
    rw [parseN] at h; cases h
    exact ⟨rfl, (fun v hv => by cases hv), rfl⟩
  | n + 1, s, vs, r, h => by
    rw [parseN] at h
    split at h
    · cases h
    · rename_i v r' hv
      obtain ⟨⟨vs', r2⟩, h1, h2⟩ := Option.map_eq_some_iff.mp h
      cases h2
      obtain ⟨k1, k2, k3⟩ := hp _ _ _ hv
      obtain ⟨i1, i2, i3⟩ := parseN_good hp n _ _ _ h1
      refine ⟨by rw [List.length_cons, i1], fun w hw => ?_, ?_⟩
      · rcases List.mem_cons.mp hw with rfl | hw
        · exact ⟨k1, k2⟩
        · exact i2 w hw
      · rw [marshals, List.append_assoc, ← i3]; exact k3

mutual
/-- Whatever parses is a valid value of the grammar, and the bytes are the marshalling of the value. -/
theorem parse_good : ∀ g, ValidG g → Good (parse g) (fun v => InG v g)
  | .const, _, s, v, r, h => by
    rw [parse] at h; cases h
    exact ⟨.const, .const, rfl⟩
  | .u32, _, s, v, r, h => by
    rw [parse] at h
    obtain ⟨⟨n, r'⟩, h1, h2⟩ := Option.map_eq_some_iff.mp h
    cases h2
    obtain ⟨k1, k2⟩ := word_some h1
    exact ⟨.u32, .u32 k1, by rw [marshal]; exact k2⟩
  | .u64, _, s, v, r, h => by
    rw [parse] at h
    obtain ⟨⟨n, r'⟩, h1, h2⟩ := Option.map_eq_some_iff.mp h
    cases h2
    obtain ⟨k1, k2⟩ := word_some h1
    exact ⟨.u64, .u64 k1, by rw [marshal]; exact k2⟩
  | .array g, hg, s, v, r, h => by
    have hg' : ValidG g := by cases hg; assumption
    rw [parse, parseArray] at h
    split at h
    · cases h
    · rename_i n r' hw
      obtain ⟨⟨vs, r2⟩, h1, h2⟩ := Option.map_eq_some_iff.mp h
      cases h2
      obtain ⟨k1, k2⟩ := word_some hw
      obtain ⟨i1, i2, i3⟩ := parseN_good (parse_good g hg') n _ _ _ h1
      refine ⟨.array fun w hw => (i2 w hw).1, .array (by rw [i1]; exact k1) fun w hw => (i2 w hw).2, ?_⟩
      rw [marshal, i1, List.append_assoc, ← i3]; exact k2
  | .tuple gs, hg, s, v, r, h => by
    have hg' : gs.length < 2 ^ 64 ∧ ∀ g ∈ gs, ValidG g := by cases hg; exact ⟨by assumption, by assumption⟩
    rw [parse] at h
    obtain ⟨⟨vs, r2⟩, h1, h2⟩ := Option.map_eq_some_iff.mp h
    cases h2
    obtain ⟨i1, i2, i3, i4⟩ := parseTuple_good gs hg'.2 _ _ _ h1
    exact ⟨.tuple i1 i2, .tuple (by rw [i1]; exact hg'.1) i3, by rw [marshal]; exact i4⟩
  | .bytes, _, s, v, r, h => by
    rw [parse, parseBytes] at h
    split at h
    · cases h
    · rename_i n r' hw
      obtain ⟨k1, k2⟩ := word_some hw
      split at h
      · rename_i hn
        cases h
        have hl : (r'.take n).length = n := by rw [List.length_take, Nat.min_eq_left hn]
        refine ⟨.bytes, .bytes (by rw [hl]; exact k1), ?_⟩
        rw [marshal, hl, List.append_assoc, List.take_append_drop]; exact k2
      · cases h
  | .u32s, _, s, v, r, h => by
    rw [parse] at h
    obtain ⟨⟨l, r'⟩, h1, h2⟩ := Option.map_eq_some_iff.mp h
    cases h2
    obtain ⟨k1, k2, k3⟩ := parseWords_some (by omega) h1
    exact ⟨.u32s, .u32s k1 k2, by rw [marshal]; exact k3⟩
  | .u64s, _, s, v, r, h => by
    rw [parse] at h
    obtain ⟨⟨l, r'⟩, h1, h2⟩ := Option.map_eq_some_iff.mp h
    cases h2
    obtain ⟨k1, k2, k3⟩ := parseWords_some (by omega) h1
    exact ⟨.u64s, .u64s k1 k2, by rw [marshal]; exact k3⟩
  | .union gs, hg, s, v, r, h => by
    have hg' : gs.length < 2 ^ 64 ∧ ∀ g ∈ gs, ValidG g := by cases hg; exact ⟨by assumption, by assumption⟩
    rw [parse] at h
    split at h
    · cases h
    · rename_i c r' hw
      obtain ⟨⟨w, r2⟩, h1, h2⟩ := Option.map_eq_some_iff.mp h
      cases h2
      obtain ⟨k1, k2⟩ := word_some hw
      obtain ⟨g, i1, i2, i3, i4⟩ := parseNth_good gs hg'.2 c _ _ _ h1
      exact ⟨.case i1 i2, .case k1 i3, by rw [marshal, List.append_assoc, ← i4]; exact k2⟩
theorem parseTuple_good : ∀ gs, (∀ g ∈ gs, ValidG g) → ∀ s vs r, parseTuple gs s = some (vs, r) →
    vs.length = gs.length ∧ (∀ (i : Nat) (v : V) (g : G), vs[i]? = some v → gs[i]? = some g → InG v g) ∧
      (∀ v ∈ vs, Valid v) ∧ s = marshals vs ++ r
  | [], _, s, vs, r, h => by
    rw [parseTuple] at h; cases h
    exact ⟨rfl, fun i v g hv => (by simp at hv), (fun v hv => by cases hv), rfl⟩
  | g :: gs, hg, s, vs, r, h => by
    rw [parseTuple] at h
    split at h
    · cases h
    · rename_i v r' hv
      obtain ⟨⟨vs', r2⟩, h1, h2⟩ := Option.map_eq_some_iff.mp h
      cases h2
      obtain ⟨k1, k2, k3⟩ := parse_good g (hg g List.mem_cons_self) _ _ _ hv
      obtain ⟨i1, i2, i3, i4⟩ := parseTuple_good gs (fun x hx => hg x (List.mem_cons_of_mem _ hx)) _ _ _ h1
      refine ⟨by rw [List.length_cons, List.length_cons, i1], fun i w k hw hk => ?_, fun w hw => ?_, ?_⟩
      · cases i with
        | zero => cases hw; cases hk; exact k1
        | succ i =>
          rw [List.getElem?_cons_succ] at hw hk
          exact i2 i w k hw hk
      · rcases List.mem_cons.mp hw with rfl | hw
        · exact k2
        · exact i3 w hw
      · rw [marshals, List.append_assoc, ← i4]; exact k3
theorem parseNth_good : ∀ gs, (∀ g ∈ gs, ValidG g) → ∀ c s v r, parseNth gs c s = some (v, r) →
    ∃ g, gs[c]? = some g ∧ InG v g ∧ Valid v ∧ s = marshal v ++ r
  | [], _, c, s, v, r, h => by rw [parseNth] at h; cases h
  | g :: gs, hg, 0, s, v, r, h => by
    rw [parseNth] at h
    exact ⟨g, rfl, parse_good g (hg g List.mem_cons_self) _ _ _ h⟩
  | g :: gs, hg, c + 1, s, v, r, h => by
    rw [parseNth] at h
    obtain ⟨k, h1, h2⟩ := parseNth_good gs (fun x hx => hg x (List.mem_cons_of_mem _ hx)) c _ _ _ h
    exact ⟨k, by rw [List.getElem?_cons_succ]; exact h1, h2⟩
end

end Verif.Kv.Marshal
