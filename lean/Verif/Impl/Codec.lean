import Verif.Impl.System
/-
A superblock codec exists: pages are byte sequences of any length, so a version number and the
values of all keys can be written out. No code is modelled here (the source's codec is
`arbitrary()`, DiskLayout_v.rs 82-90); this only shows that the hypothesis `Codec.roundTrip` of the
theorems about the system can be met.
-/
namespace Verif.Codec

/-- a number as that many zero bytes and a one -/
def unary (n : Nat) : List UInt8 := List.replicate n 0 ++ [1]

def bytesOf (l : List Nat) : List UInt8 := l.flatMap unary

theorem unary_append_inj : ∀ {m n : Nat} {a b : List UInt8},
    unary m ++ a = unary n ++ b → m = n ∧ a = b
  | 0, 0, a, b, h => by simpa [unary] using h
  | 0, n + 1, a, b, h => by simp [unary, List.replicate_succ] at h
  | m + 1, 0, a, b, h => by simp [unary, List.replicate_succ] at h
  | m + 1, n + 1, a, b, h => by
    have : unary m ++ a = unary n ++ b := by
      simpa [unary, List.replicate_succ] using h
    have := unary_append_inj this
    exact ⟨by omega, this.2⟩

theorem bytesOf_inj : ∀ {l l' : List Nat}, bytesOf l = bytesOf l' → l = l'
  | [], [], _ => rfl
  | [], _ :: _, h => by simp [bytesOf, unary] at h
  | _ :: _, [], h => by simp [bytesOf, unary] at h
  | m :: l, n :: l', h => by
    have h : unary m ++ bytesOf l = unary n ++ bytesOf l' := by simpa [bytesOf] using h
    obtain ⟨rfl, h'⟩ := unary_append_inj h
    rw [bytesOf_inj h']

def msgNat : Message → Nat
  | .define v => 2 * v.toNat
  | .update d => 2 * d.toNat + 1

theorem msgNat_inj {m m' : Message} (h : msgNat m = msgNat m') : m = m' := by
  cases m <;> cases m' <;> simp only [msgNat] at h
  · congr 1; exact UInt64.toNat_inj.mp (by omega)
  · omega
  · omega
  · congr 1; exact UInt64.toNat_inj.mp (by omega)

/-- the values of the first `n` keys -/
def table (n : Nat) (f : Version) : List Nat :=
  (List.range n).map fun i => msgNat (f (UInt64.ofNat i))

theorem table_inj {n : Nat} {f f' : Version} (hn : ∀ k : Key, k.toNat < n)
    (h : table n f = table n f') : f = f' := by
  funext k
  have hk : (table n f)[k.toNat]? = (table n f')[k.toNat]? := by rw [h]
  unfold table at hk
  simp only [List.getElem?_map, List.getElem?_range (hn k), Option.map_some, Option.some.injEq,
    UInt64.ofNat_toNat] at hk
  exact msgNat_inj hk

def encode (n : Nat) (sb : Superblock) : RawPage := bytesOf (sb.version :: table n sb.store)

theorem encode_inj {n : Nat} (hn : ∀ k : Key, k.toNat < n) {a b : Superblock}
    (h : encode n a = encode n b) : a = b := by
  have h := bytesOf_inj h
  injection h with h1 h2
  cases a; cases b
  simp only at h1 h2
  rw [h1, table_inj hn h2]

open Classical in
/-- Every injective encoding is one half of a codec. -/
noncomputable def ofInjective (e : Superblock → RawPage) (he : ∀ a b, e a = e b → a = b) : Codec :=
  { marshall := e
    unmarshall := fun p =>
      if h : ∃ sb, e sb = p then Classical.choose h else ⟨TotalKMMap.empty, 0⟩
    roundTrip := by
      intro sb
      have h : ∃ sb', e sb' = e sb := ⟨sb, rfl⟩
      simp only [dif_pos h]
      exact he _ _ (Classical.choose_spec h) }

/-- There is a codec. -/
theorem exists_codec : ∃ _ : Codec, True := by
  obtain ⟨n, hn⟩ : ∃ n, ∀ k : Key, k.toNat < n := ⟨_, fun k => k.toNat_lt⟩
  exact ⟨ofInjective (encode n) (fun _ _ h => encode_inj hn h), trivial⟩

end Verif.Codec
