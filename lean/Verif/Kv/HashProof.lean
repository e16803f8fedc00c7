import Verif.Kv.HashMap

/-! Proofs about the hash map of `Verif.Kv.HashMap`. -/

namespace Verif.Hash

variable {V : Type}

/-- The key of a slot that is not empty. -/
def Item.key? : Item V → Option UInt64
  | .empty => none
  | .entry k _ => some k
  | .tombstone k => some k

def Item.full : Item V → Bool
  | .empty => false
  | _ => true

def Item.isEntry : Item V → Bool
  | .entry _ _ => true
  | _ => false

/-- The key at slot `i`, if the slot is in use. -/
def keyAt (st : List (Item V)) (i : Nat) : Option UInt64 := st[i]?.bind Item.key?

/-- The slot `e` places after the key's own. -/
def place (n : Nat) (k : UInt64) (e : Nat) : Nat := ((hash64 k).toNat + e) % n

structure FInv (f : Fixed V) : Prop where
  pos : 0 < f.storage.length
  lt : f.storage.length < 2 ^ 64
  cnt : f.count.toNat = f.storage.countP Item.full
  uniq : ∀ i j k, keyAt f.storage i = some k → keyAt f.storage j = some k → i = j
  reach : ∀ k e, e < f.storage.length → keyAt f.storage (place f.storage.length k e) = some k →
    ∀ e', e' < e → (keyAt f.storage (place f.storage.length k e')).isSome

theorem place_lt {n : Nat} (h : 0 < n) (k : UInt64) (e : Nat) : place n k e < n :=
  Nat.mod_lt _ h

theorem place_surj {n i : Nat} (hi : i < n) (k : UInt64) :
    ∃ e, e < n ∧ place n k e = i := by
  have hn : 0 < n := by omega
  have hh : (hash64 k).toNat % n < n := Nat.mod_lt _ hn
  refine ⟨(i + n - (hash64 k).toNat % n) % n, Nat.mod_lt _ hn, ?_⟩
  unfold place
  rw [Nat.add_mod_mod, ← Nat.mod_add_mod]
  have : (hash64 k).toNat % n + (i + n - (hash64 k).toNat % n) = i + n := by omega
  rw [this, Nat.add_mod_right, Nat.mod_eq_of_lt hi]

theorem place_inj {n e d : Nat} {k : UInt64} (he : e < n) (hd : d < n)
    (h : place n k e = place n k d) : e = d := by
  have hn : 0 < n := by omega
  unfold place at h
  rw [← Nat.mod_add_mod, ← Nat.mod_add_mod _ _ d] at h
  have ha : (hash64 k).toNat % n < n := Nat.mod_lt _ hn
  generalize (hash64 k).toNat % n = a at h ha
  have key : ∀ b, b < n → (a + b) % n = if a + b < n then a + b else a + b - n := by
    intro b hb
    split
    · rename_i h; exact Nat.mod_eq_of_lt h
    · rw [Nat.mod_eq_sub_mod (by omega), Nat.mod_eq_of_lt (by omega)]
  rw [key e he, key d hd] at h
  split at h <;> split at h <;> omega

theorem succ_place {n : Nat} (h : 0 < n) (k : UInt64) (e : Nat) :
    slotSuccessor n (place n k e) = place n k (e + 1) := by
  have := place_lt h k e
  unfold slotSuccessor
  unfold place at *
  rw [← Nat.add_assoc, Nat.add_mod _ 1]
  generalize ((hash64 k).toNat + e) % n = a at *
  split
  · rename_i h1
    by_cases hn : n = 1
    · subst hn; simp [Nat.mod_one]
    · rw [Nat.mod_eq_of_lt (by omega : 1 < n)]
      rw [show a + 1 = n by omega, Nat.mod_self]
  · rename_i h1
    rw [Nat.mod_eq_of_lt (by omega : 1 < n), Nat.mod_eq_of_lt (by omega)]

theorem stops_false {it : Item V} {k : UInt64} (h : it.stops k = false) :
    ∃ k', k' ≠ k ∧ it.key? = some k' := by
  cases it with
  | empty => simp [Item.stops] at h
  | entry k' v => exact ⟨k', by simpa [Item.stops] using h, rfl⟩
  | tombstone k' => exact ⟨k', by simpa [Item.stops] using h, rfl⟩

theorem probeLoop_spec {st : List (Item V)} (hp : 0 < st.length) (k : UInt64) :
    ∀ fuel d, fuel + d = st.length →
      (∀ e, e < d → ∃ k', k' ≠ k ∧ keyAt st (place st.length k e) = some k') →
      (∃ d' it, d' < st.length ∧ probeLoop st k fuel (place st.length k d) =
          some (place st.length k d') ∧ st[place st.length k d']? = some it ∧
          it.stops k = true ∧
          ∀ e, e < d' → ∃ k', k' ≠ k ∧ keyAt st (place st.length k e) = some k') ∨
      (∀ e, e < st.length → ∃ k', k' ≠ k ∧ keyAt st (place st.length k e) = some k') := by
  intro fuel
  induction fuel with
  | zero => intro d hd h; right; rw [Nat.zero_add] at hd; subst hd; exact h
  | succ fuel ih =>
    intro d hd h
    have hlt := place_lt hp k d
    have hg : st[place st.length k d]? = some (st[place st.length k d]) := by simp [hlt]
    rw [probeLoop, hg]
    simp only
    cases hs : (st[place st.length k d]).stops k with
    | true =>
      left
      exact ⟨d, _, by omega, by simp, hg, hs, h⟩
    | false =>
      rw [if_neg (by simp), succ_place hp]
      apply ih (d + 1) (by omega)
      intro e he
      by_cases hed : e = d
      · subst hed
        obtain ⟨k', hk, hk'⟩ := stops_false hs
        exact ⟨k', hk, by simp [keyAt, hg, hk']⟩
      · exact h e (by omega)

theorem key_full {it : Item V} : it.full = it.key?.isSome := by cases it <;> rfl

/-- With room left, the probe ends at the first slot, from the key's own on, which is empty or
carries the key. -/
theorem probe_spec {f : Fixed V} (hf : FInv f) (hroom : f.count.toNat < f.storage.length)
    (k : UInt64) :
    ∃ d it, d < f.storage.length ∧ probe f k = some (place f.storage.length k d) ∧
      f.storage[place f.storage.length k d]? = some it ∧ it.stops k = true ∧
      ∀ e, e < d → ∃ k', k' ≠ k ∧ keyAt f.storage (place f.storage.length k e) = some k' := by
  have := probeLoop_spec hf.pos k f.storage.length 0 rfl (by intro e he; omega)
  rcases this with h | h
  · unfold probe slotForKey
    simpa [place] using h
  · exfalso
    have : f.storage.countP Item.full = f.storage.length := by
      rw [List.countP_eq_length]
      intro it hit
      obtain ⟨i, hi, rfl⟩ := List.getElem_of_mem hit
      obtain ⟨e, he, rfl⟩ := place_surj hi k
      obtain ⟨k', _, hk'⟩ := h e he
      rw [key_full]
      simp only [keyAt, List.getElem?_eq_getElem hi, Option.bind_some] at hk'
      rw [hk']; rfl
    have := hf.cnt
    omega

/-- The slot the probe stops at carries the key, or no slot does. -/
theorem probe_slot {f : Fixed V} (hf : FInv f) {k : UInt64} {d : Nat} {it : Item V}
    (hd : d < f.storage.length) (hit : f.storage[place f.storage.length k d]? = some it)
    (hst : it.stops k = true)
    (hbefore : ∀ e, e < d → ∃ k', k' ≠ k ∧ keyAt f.storage (place f.storage.length k e) = some k') :
    ∀ i, keyAt f.storage i = some k → i = place f.storage.length k d := by
  intro i hi
  have hil : i < f.storage.length := by
    apply Nat.lt_of_not_le
    intro hle
    simp [keyAt, List.getElem?_eq_none hle] at hi
  obtain ⟨e, he, rfl⟩ := place_surj hil k
  rcases Nat.lt_trichotomy e d with h | h | h
  · obtain ⟨k', hk', hk''⟩ := hbefore e h
    rw [hk''] at hi
    exact absurd (Option.some.inj hi) hk'
  · rw [h]
  · have hs := hf.reach k e he hi d h
    rw [keyAt, hit] at hs
    cases it with
    | empty => simp [Item.key?] at hs
    | entry k' v =>
      have : k' = k := by simpa [Item.stops] using hst
      subst this
      exact hf.uniq _ _ k' hi (by simp [keyAt, hit, Item.key?])
    | tombstone k' =>
      have : k' = k := by simpa [Item.stops] using hst
      subst this
      exact hf.uniq _ _ k' hi (by simp [keyAt, hit, Item.key?])

/-- The slots hold exactly the entries of the map `m`. -/
def Rep (st : List (Item V)) (m : UInt64 → Option V) : Prop :=
  ∀ k v, m k = some v ↔ ∃ i : Nat, st[i]? = some (Item.entry k v)

theorem keyAt_set {st : List (Item V)} {s : Nat} (hs : s < st.length) (it : Item V) (i : Nat) :
    keyAt (st.set s it) i = if i = s then it.key? else keyAt st i := by
  unfold keyAt
  rw [List.getElem?_set]
  by_cases h : i = s
  · subst h; simp [hs]
  · have : ¬ s = i := fun h' => h h'.symm
    simp [h, this]

/-- Writing an item with the key at the slot the probe found keeps the shape. -/
theorem set_inv {f : Fixed V} (hf : FInv f) {k : UInt64} {d : Nat} {it it' : Item V} {c : UInt64}
    (hd : d < f.storage.length) (hit : f.storage[place f.storage.length k d]? = some it)
    (hst : it.stops k = true)
    (hbefore : ∀ e, e < d → ∃ k', k' ≠ k ∧ keyAt f.storage (place f.storage.length k e) = some k')
    (hk : it'.key? = some k)
    (hc : c.toNat = f.count.toNat + (if it.full then 0 else 1)) :
    FInv { storage := f.storage.set (place f.storage.length k d) it', count := c } := by
  have hslot := probe_slot hf hd hit hst hbefore
  have hs := place_lt hf.pos k d
  refine ⟨by simpa using hf.pos, by simpa using hf.lt, ?_, ?_, ?_⟩
  · show c.toNat = List.countP _ (f.storage.set _ it')
    rw [hc, List.countP_set hs, hf.cnt]
    rw [List.getElem?_eq_getElem hs] at hit
    have hit := Option.some.inj hit
    rw [hit]
    have hfull : it'.full = true := by rw [key_full, hk]; rfl
    rw [hfull]
    have hle : it.full = true → 0 < f.storage.countP Item.full := by
      intro h
      rw [List.countP_pos_iff]
      exact ⟨it, hit ▸ List.getElem_mem hs, h⟩
    cases h : it.full with
    | true => have := hle h; simp; omega
    | false => simp
  · intro i j k' hi hj
    simp only [keyAt_set hs] at hi hj
    split at hi
    · split at hj
      · omega
      · rw [hk] at hi
        rw [← hi] at hj
        exact absurd (hslot j hj) (by assumption)
    · split at hj
      · rw [hk] at hj
        rw [← hj] at hi
        exact absurd (hslot i hi) (by assumption)
      · exact hf.uniq i j k' hi hj
  · intro k' e he hke e' he'
    simp only [List.length_set] at *
    rw [keyAt_set hs] at hke ⊢
    split
    · rw [hk]; rfl
    · split at hke
      · rename_i hne heq
        rw [hk] at hke
        have := Option.some.inj hke
        subst this
        -- the same place is the same distance
        have hed : e = d := place_inj he hd heq
        subst hed
        obtain ⟨k'', _, hk''⟩ := hbefore e' he'
        rw [hk'']; rfl
      · exact hf.reach k' e he hke e' he'

theorem mem_key {st : List (Item V)} {i : Nat} {k : UInt64} {v : V}
    (h : st[i]? = some (Item.entry k v)) : keyAt st i = some k := by
  simp [keyAt, h, Item.key?]

theorem entry_set {st : List (Item V)} {s : Nat} (hs : s < st.length) (it it2 : Item V) (i : Nat) :
    (st.set s it)[i]? = some it2 ↔ (i = s ∧ it = it2) ∨ (i ≠ s ∧ st[i]? = some it2) := by
  rw [List.getElem?_set]
  by_cases h : i = s
  · subst h; simp [hs]
  · have : ¬ s = i := fun h' => h h'.symm
    simp [h, this]

/-- `m` with `k` bound to `v`. -/
def upd (m : UInt64 → Option V) (k : UInt64) (v : Option V) : UInt64 → Option V :=
  fun k' => if k' = k then v else m k'

theorem rep_set {f : Fixed V} {m : UInt64 → Option V} (hr : Rep f.storage m) {k : UInt64} {s : Nat}
    (hs : s < f.storage.length) (hslot : ∀ i, keyAt f.storage i = some k → i = s)
    (hkey : ∀ k', keyAt f.storage s = some k' → k' = k) {it' : Item V} {v : Option V}
    (hit : it' = match v with
      | some v => Item.entry k v
      | none => Item.tombstone k) :
    Rep (f.storage.set s it') (upd m k v) := by
  intro k' v'
  unfold upd
  split
  · rename_i hk
    subst hk
    constructor
    · intro hv
      subst hv
      exact ⟨s, by rw [entry_set hs]; exact Or.inl ⟨rfl, hit⟩⟩
    · rintro ⟨i, hi⟩
      rw [entry_set hs] at hi
      rcases hi with ⟨_, h2⟩ | ⟨hne, h2⟩
      · rw [hit] at h2
        cases v with
        | none => cases h2
        | some v => cases h2; rfl
      · exact absurd (hslot i (mem_key h2)) hne
  · rename_i hk
    rw [hr]
    constructor
    · rintro ⟨i, hi⟩
      refine ⟨i, ?_⟩
      rw [entry_set hs]
      right
      refine ⟨?_, hi⟩
      intro his
      subst his
      exact hk (hkey _ (mem_key hi))
    · rintro ⟨i, hi⟩
      rw [entry_set hs] at hi
      rcases hi with ⟨_, h2⟩ | ⟨_, h2⟩
      · rw [hit] at h2
        cases v with
        | none => cases h2
        | some v => cases h2; exact absurd rfl hk
      · exact ⟨i, h2⟩

theorem stops_key {it : Item V} {k k' : UInt64} (h : it.stops k = true) (hk : it.key? = some k') :
    k' = k := by
  cases it with
  | empty => cases hk
  | entry a v => simp [Item.stops] at h; simp [Item.key?] at hk; rw [← hk, h]
  | tombstone a => simp [Item.stops] at h; simp [Item.key?] at hk; rw [← hk, h]

/-- What the item at the slot found says about the map. -/
theorem rep_at {f : Fixed V} {m : UInt64 → Option V} (hr : Rep f.storage m) {k : UInt64}
    {s : Nat} {it : Item V} (hit : f.storage[s]? = some it) (hst : it.stops k = true)
    (hslot : ∀ i, keyAt f.storage i = some k → i = s) :
    m k = match it with
      | .entry _ v => some v
      | _ => none := by
  cases it with
  | entry k' v =>
    have := stops_key hst (rfl : _ = some k')
    subst this
    exact (hr k' v).2 ⟨s, hit⟩
  | empty =>
    cases hm : m k with
    | none => rfl
    | some v =>
      obtain ⟨i, hi⟩ := (hr k v).1 hm
      have := hslot i (mem_key hi)
      subst this
      rw [hit] at hi; cases hi
  | tombstone k' =>
    cases hm : m k with
    | none => rfl
    | some v =>
      obtain ⟨i, hi⟩ := (hr k v).1 hm
      have := hslot i (mem_key hi)
      subst this
      rw [hit] at hi; cases hi

theorem add_one_toNat {c : UInt64} (h : c.toNat + 1 < 2 ^ 64) : (c + 1).toNat = c.toNat + 1 := by
  rw [UInt64.toNat_add]
  exact Nat.mod_eq_of_lt h

theorem countP_set' {st : List (Item V)} {s : Nat} {it it' : Item V} (p : Item V → Bool)
    (hit : st[s]? = some it) :
    (st.set s it').countP p + (if p it then 1 else 0) = st.countP p + (if p it' then 1 else 0) := by
  have hs : s < st.length := by
    apply Nat.lt_of_not_le
    intro h
    rw [List.getElem?_eq_none h] at hit; cases hit
  rw [List.countP_set hs]
  rw [List.getElem?_eq_getElem hs] at hit
  have hit := Option.some.inj hit
  rw [hit]
  have hle : p it = true → 0 < st.countP p := by
    intro h
    rw [List.countP_pos_iff]
    exact ⟨it, hit ▸ List.getElem_mem hs, h⟩
  by_cases h : p it = true
  · have := hle h; simp [h]; omega
  · simp [h]

/-- Inserting with room left. -/
theorem fixedInsert_spec {f : Fixed V} (hf : FInv f) (hroom : f.count.toNat < f.storage.length)
    {m : UInt64 → Option V} (hr : Rep f.storage m) (k : UInt64) (v : V) :
    ∃ f', fixedInsert f k v = some (f', m k) ∧ FInv f' ∧ Rep f'.storage (upd m k (some v)) ∧
      f'.storage.length = f.storage.length ∧
      f.count.toNat ≤ f'.count.toNat ∧ f'.count.toNat ≤ f.count.toNat + 1 ∧
      f'.storage.countP Item.isEntry =
        f.storage.countP Item.isEntry + (if (m k).isSome then 0 else 1) := by
  obtain ⟨d, it, hd, hp, hit, hst, hb⟩ := probe_spec hf hroom k
  have hslot := probe_slot hf hd hit hst hb
  have hs := place_lt hf.pos k d
  have hlt := hf.lt
  have hkey : ∀ k', keyAt f.storage (place f.storage.length k d) = some k' → k' = k := by
    intro k' h
    rw [keyAt, hit] at h
    exact stops_key hst h
  have hat := rep_at hr hit hst hslot
  have hrep := rep_set hr hs hslot hkey (it' := .entry k v) (v := some v) rfl
  have hcnt := countP_set' (it' := Item.entry k v) Item.isEntry hit
  unfold fixedInsert
  rw [hp]
  simp only
  rw [hit, hat]
  cases it with
  | empty =>
    have h1 := add_one_toNat (c := f.count) (by omega)
    refine ⟨_, rfl, ?_, hrep, by simp, by simp only [h1]; omega, by simp only [h1]; omega, ?_⟩
    · exact set_inv hf hd hit hst hb rfl (by rw [h1]; simp [Item.full])
    · simpa [Item.isEntry] using hcnt
  | tombstone k' =>
    refine ⟨_, rfl, ?_, hrep, by simp, Nat.le_refl _, Nat.le_succ _, ?_⟩
    · exact set_inv hf hd hit hst hb rfl (by simp [Item.full])
    · simpa [Item.isEntry] using hcnt
  | entry k' v' =>
    refine ⟨_, rfl, ?_, hrep, by simp, Nat.le_refl _, Nat.le_succ _, ?_⟩
    · exact set_inv hf hd hit hst hb rfl (by simp [Item.full])
    · simpa [Item.isEntry] using hcnt

theorem fixedGet_spec {f : Fixed V} (hf : FInv f) (hroom : f.count.toNat < f.storage.length)
    {m : UInt64 → Option V} (hr : Rep f.storage m) (k : UInt64) :
    fixedGet f k = some (m k) := by
  obtain ⟨d, it, hd, hp, hit, hst, hb⟩ := probe_spec hf hroom k
  have hslot := probe_slot hf hd hit hst hb
  have hat := rep_at hr hit hst hslot
  unfold fixedGet
  rw [hp]
  simp only
  rw [hit, hat]
  cases it <;> rfl

theorem fixedRemove_spec {f : Fixed V} (hf : FInv f) (hroom : f.count.toNat < f.storage.length)
    {m : UInt64 → Option V} (hr : Rep f.storage m) (k : UInt64) :
    ∃ f', fixedRemove f k = some (f', m k) ∧ FInv f' ∧ Rep f'.storage (upd m k none) ∧
      f'.storage.length = f.storage.length ∧ f'.count = f.count ∧
      f'.storage.countP Item.isEntry + (if (m k).isSome then 1 else 0) =
        f.storage.countP Item.isEntry := by
  obtain ⟨d, it, hd, hp, hit, hst, hb⟩ := probe_spec hf hroom k
  have hslot := probe_slot hf hd hit hst hb
  have hs := place_lt hf.pos k d
  have hkey : ∀ k', keyAt f.storage (place f.storage.length k d) = some k' → k' = k := by
    intro k' h
    rw [keyAt, hit] at h
    exact stops_key hst h
  have hat := rep_at hr hit hst hslot
  have hrep := rep_set hr hs hslot hkey (it' := .tombstone k) (v := none) rfl
  have hcnt := countP_set' (it' := (Item.tombstone k : Item V)) Item.isEntry hit
  have hsame : m k = none → upd m k none = m := by
    intro h
    funext k'
    unfold upd
    split
    · rename_i h'; rw [h', h]
    · rfl
  unfold fixedRemove
  rw [hp]
  simp only
  rw [hit, hat]
  cases it with
  | empty =>
    refine ⟨f, rfl, hf, ?_, rfl, rfl, by simp⟩
    rw [hsame hat]; exact hr
  | tombstone k' =>
    refine ⟨f, rfl, hf, ?_, rfl, rfl, by simp⟩
    rw [hsame hat]; exact hr
  | entry k' v' =>
    refine ⟨_, rfl, ?_, hrep, by simp, rfl, ?_⟩
    · exact set_inv hf hd hit hst hb rfl (by simp [Item.full])
    · simpa [Item.isEntry] using hcnt

theorem uniq_tail {a : Item V} {l : List (Item V)}
    (h : ∀ i j k, keyAt (a :: l) i = some k → keyAt (a :: l) j = some k → i = j) :
    (∀ i j k, keyAt l i = some k → keyAt l j = some k → i = j) ∧
    ∀ k j, a.key? = some k → keyAt l j ≠ some k := by
  have hs : ∀ i, keyAt (a :: l) (i + 1) = keyAt l i := by intro i; simp [keyAt]
  refine ⟨?_, ?_⟩
  · intro i j k hi hj
    have := h (i + 1) (j + 1) k (by rw [hs]; exact hi) (by rw [hs]; exact hj)
    omega
  · intro k j ha hj
    have := h 0 (j + 1) k (by simpa [keyAt] using ha) (by rw [hs]; exact hj)
    omega

theorem mem_keyAt {l : List (Item V)} {k : UInt64} {v : V} (h : Item.entry k v ∈ l) :
    ∃ j, keyAt l j = some k := by
  obtain ⟨j, hj⟩ := List.getElem?_of_mem h
  exact ⟨j, mem_key hj⟩

/-- Moving the entries of `l` into a map with room for them. -/
theorem transfer_spec : ∀ (l : List (Item V)) (g : Fixed V) (m : UInt64 → Option V),
    FInv g → Rep g.storage m →
    (∀ i j k, keyAt l i = some k → keyAt l j = some k → i = j) →
    (∀ k v, Item.entry k v ∈ l → m k = none) →
    g.count.toNat + l.countP Item.isEntry < g.storage.length →
    ∃ g' m', transfer l g = some g' ∧ FInv g' ∧ Rep g'.storage m' ∧
      g'.storage.length = g.storage.length ∧
      g'.count.toNat ≤ g.count.toNat + l.countP Item.isEntry ∧
      g'.storage.countP Item.isEntry = g.storage.countP Item.isEntry + l.countP Item.isEntry ∧
      ∀ k v, m' k = some v ↔ (m k = some v ∨ Item.entry k v ∈ l) := by
  intro l
  induction l with
  | nil =>
    intro g m hg hr _ _ _
    exact ⟨g, m, rfl, hg, hr, rfl, by simp, by simp, by simp⟩
  | cons a l ih =>
    intro g m hg hr hu hn hroom
    obtain ⟨hu1, hu2⟩ := uniq_tail hu
    cases a with
    | empty =>
      obtain ⟨g', m', h1, h2, h3, h4, h5, h6, h7⟩ := ih g m hg hr hu1
        (fun k v h => hn k v (List.mem_cons_of_mem _ h)) (by simpa [Item.isEntry] using hroom)
      exact ⟨g', m', h1, h2, h3, h4, by simpa [Item.isEntry] using h5,
        by simpa [Item.isEntry] using h6, by simpa using h7⟩
    | tombstone t =>
      obtain ⟨g', m', h1, h2, h3, h4, h5, h6, h7⟩ := ih g m hg hr hu1
        (fun k v h => hn k v (List.mem_cons_of_mem _ h)) (by simpa [Item.isEntry] using hroom)
      exact ⟨g', m', h1, h2, h3, h4, by simpa [Item.isEntry] using h5,
        by simpa [Item.isEntry] using h6, by simpa using h7⟩
    | entry k v =>
      have hc : (Item.entry k v :: l).countP Item.isEntry = l.countP Item.isEntry + 1 :=
        List.countP_cons_of_pos rfl
      rw [hc] at hroom
      obtain ⟨g1, hi, hg1, hr1, hl1, _, hle, hcnt⟩ := fixedInsert_spec hg (by omega) hr k v
      have hmk := hn k v (List.mem_cons_self ..)
      rw [hmk] at hcnt hi
      obtain ⟨g', m', h1, h2, h3, h4, h5, h6, h7⟩ := ih g1 (upd m k (some v)) hg1 hr1 hu1
        (by
          intro k' v' h
          unfold upd
          split
          · rename_i hk
            subst hk
            obtain ⟨j, hj⟩ := mem_keyAt h
            exact absurd hj (hu2 k' j rfl)
          · exact hn k' v' (List.mem_cons_of_mem _ h))
        (by rw [hl1]; omega)
      refine ⟨g', m', ?_, h2, h3, by omega, by rw [hc]; omega, ?_, ?_⟩
      · rw [transfer, hi]; exact h1
      · rw [h6, hcnt, hc]; simp; omega
      · intro k' v'
        rw [h7, List.mem_cons]
        unfold upd
        split
        · rename_i hk
          subst hk
          rw [hmk]
          simp only [Option.some.injEq, reduceCtorEq, Item.entry.injEq, true_and, false_or]
          constructor
          · rintro (h | h)
            · exact Or.inl h.symm
            · exact Or.inr h
          · rintro (h | h)
            · exact Or.inl h.symm
            · exact Or.inr h
        · rename_i hk
          constructor
          · rintro (h | h)
            · exact Or.inl h
            · exact Or.inr (Or.inr h)
          · rintro (h | h | h)
            · exact Or.inl h
            · cases h; exact absurd rfl hk
            · exact Or.inr h

structure MInv (m : Map V) : Prop where
  f : FInv m.underlying
  big : 128 ≤ m.underlying.storage.length
  half : m.underlying.count.toNat ≤ m.underlying.storage.length / 2
  cnt : m.count.toNat = m.underlying.storage.countP Item.isEntry

theorem MInv.room {m : Map V} (h : MInv m) :
    m.underlying.count.toNat < m.underlying.storage.length := by
  have := h.big; have := h.half; omega

theorem rep_new (n : Nat) : Rep (List.replicate n (Item.empty : Item V)) (fun _ => none) := by
  intro k v
  constructor
  · intro h; cases h
  · rintro ⟨i, hi⟩
    rw [List.getElem?_replicate] at hi
    split at hi <;> cases hi

theorem finv_new {size : UInt64} (h : 0 < size.toNat) : FInv (fixedNew (V := V) size) := by
  have hk : ∀ i, keyAt (fixedNew (V := V) size).storage i = none := by
    intro i
    unfold keyAt fixedNew
    simp only [List.getElem?_replicate]
    split <;> rfl
  refine ⟨by simpa [fixedNew] using h, ?_, ?_, ?_, ?_⟩
  · simpa [fixedNew] using size.toNat_lt
  · simp [fixedNew, List.countP_replicate, Item.full]
  · intro i j k hi; rw [hk] at hi; cases hi
  · intro k e _ hi; rw [hk] at hi; cases hi

theorem minv_new {size : UInt64} (h : 128 ≤ size.toNat) : MInv (new (V := V) size) := by
  refine ⟨finv_new (by omega), by simpa [new, fixedNew] using h, by simp [new, fixedNew], ?_⟩
  simp [new, fixedNew, List.countP_replicate, Item.isEntry]

theorem newSize_toNat {c : UInt64} (h : c.toNat < 2 ^ 61) :
    ((128 + c) * 4).toNat = (128 + c.toNat) * 4 := by
  rw [UInt64.toNat_mul, UInt64.toNat_add]
  have h128 : (128 : UInt64).toNat = 128 := rfl
  have h4 : (4 : UInt64).toNat = 4 := rfl
  rw [h128, h4, Nat.mod_eq_of_lt (a := 128 + c.toNat) (by omega), Nat.mod_eq_of_lt (by omega)]

theorem rep_ext {m m' : UInt64 → Option V}
    (h : ∀ k v, m k = some v ↔ m' k = some v) : m = m' := by
  funext k
  cases hm : m k with
  | some v => rw [(h k v).1 hm]
  | none =>
    cases hm' : m' k with
    | none => rfl
    | some v => rw [(h k v).2 hm'] at hm; cases hm

theorem makeRoom_spec {m : Map V} (hm : MInv m) {M : UInt64 → Option V}
    (hr : Rep m.underlying.storage M) (hc : m.count.toNat < 2 ^ 61) :
    ∃ m', makeRoom m = some m' ∧ FInv m'.underlying ∧ Rep m'.underlying.storage M ∧
      128 ≤ m'.underlying.storage.length ∧
      m'.underlying.count.toNat < m'.underlying.storage.length / 2 ∧
      m'.count = m.count ∧ m'.count.toNat = m'.underlying.storage.countP Item.isEntry ∧
      m'.underlying.storage.length ≤
        max m.underlying.storage.length (4 * (128 + m.count.toNat)) := by
  unfold makeRoom
  split
  · have hn := newSize_toNat hc
    have hlen : (fixedNew (V := V) ((128 + m.count) * 4)).storage.length =
        (128 + m.count.toNat) * 4 := by simp [fixedNew, hn]
    have hcnt0 : (fixedNew (V := V) ((128 + m.count) * 4)).count.toNat = 0 := rfl
    obtain ⟨g', m', h1, h2, h3, h4, h5, h6, h7⟩ := transfer_spec m.underlying.storage
      (fixedNew ((128 + m.count) * 4)) (fun _ => none) (finv_new (by omega))
      (rep_new _) hm.f.uniq (fun _ _ _ => rfl)
      (by rw [hlen, hcnt0, ← hm.cnt]; omega)
    have hM : m' = M := by
      apply rep_ext
      intro k v
      rw [h7, hr]
      simp [List.mem_iff_getElem?]
    subst hM
    unfold realloc
    rw [h1]
    rw [hcnt0, ← hm.cnt] at h5
    rw [hlen] at h4
    refine ⟨_, rfl, h2, h3, ?_, ?_, rfl, ?_, ?_⟩
    · show 128 ≤ g'.storage.length
      omega
    · show g'.count.toNat < g'.storage.length / 2
      omega
    · show m.count.toNat = _
      rw [h6, hm.cnt]
      simp [fixedNew, List.countP_replicate, Item.isEntry]
    · show g'.storage.length ≤ _
      omega
  · exact ⟨m, rfl, hm.f, hr, hm.big, by omega, rfl, hm.cnt, by omega⟩

theorem insert_spec {m : Map V} (hm : MInv m) {M : UInt64 → Option V}
    (hr : Rep m.underlying.storage M) (hc : m.count.toNat < 2 ^ 61) (k : UInt64) (v : V) :
    ∃ m', insert m k v = some (m', M k) ∧ MInv m' ∧
      Rep m'.underlying.storage (upd M k (some v)) ∧ m'.count.toNat ≤ m.count.toNat + 1 ∧
      m'.underlying.storage.length ≤
        max m.underlying.storage.length (4 * (128 + m.count.toNat)) := by
  obtain ⟨m1, h1, hf1, hr1, hb1, hh1, hcc, hcnt, hlen⟩ := makeRoom_spec hm hr hc
  obtain ⟨f', hi, hf', hr', hl', _, hle, hcnt'⟩ := fixedInsert_spec hf1 (by omega) hr1 k v
  unfold insert
  rw [h1]
  simp only
  rw [hi]
  cases hmk : M k with
  | none =>
    rw [hmk] at hcnt'
    have ha := add_one_toNat (c := m1.count) (by rw [hcc]; omega)
    refine ⟨_, rfl, ⟨hf', by simp only; omega, by simp only; omega, ?_⟩, hr', ?_, ?_⟩
    · simp only [ha]; rw [hcnt', hcnt]; simp
    · simp only [ha]; rw [hcc]; omega
    · simp only; omega
  | some old =>
    rw [hmk] at hcnt'
    refine ⟨_, rfl, ⟨hf', by simp only; omega, by simp only; omega, ?_⟩, hr', ?_, ?_⟩
    · simp only; rw [hcnt', hcnt]; simp
    · simp only; rw [hcc]; omega
    · simp only; omega

theorem remove_spec {m : Map V} (hm : MInv m) {M : UInt64 → Option V}
    (hr : Rep m.underlying.storage M) (k : UInt64) :
    ∃ m', remove m k = some (m', M k) ∧ MInv m' ∧ Rep m'.underlying.storage (upd M k none) ∧
      m'.count.toNat ≤ m.count.toNat ∧
      m'.underlying.storage.length = m.underlying.storage.length := by
  obtain ⟨f', hi, hf', hr', hl', hc', hcnt⟩ := fixedRemove_spec hm.f hm.room hr k
  have := hm.cnt
  have := hm.big
  have := hm.half
  unfold remove
  rw [hi]
  cases hmk : M k with
  | none =>
    rw [hmk] at hcnt
    simp only [Option.isSome_none, Bool.false_eq_true, if_false] at hcnt
    exact ⟨_, rfl, ⟨hf', by simp only; omega, by simp only [hc']; omega, by simp only; omega⟩,
      hr', Nat.le_refl _, hl'⟩
  | some v =>
    rw [hmk] at hcnt
    simp only [Option.isSome_some, if_true] at hcnt
    have hs : (m.count - 1).toNat = m.count.toNat - 1 := by
      rw [UInt64.toNat_sub_of_le]
      · rfl
      · rw [UInt64.le_iff_toNat_le]
        show 1 ≤ m.count.toNat
        omega
    exact ⟨_, rfl, ⟨hf', by simp only; omega, by simp only [hc']; omega,
      by simp only [hs]; omega⟩, hr', by simp only [hs]; omega, hl'⟩

theorem get_spec {m : Map V} (hm : MInv m) {M : UInt64 → Option V}
    (hr : Rep m.underlying.storage M) (k : UInt64) : get m k = some (M k) :=
  fixedGet_spec hm.f hm.room hr k

/-- Rewriting the value of an entry in place. -/
theorem updateByIter_spec {m : Map V} (hm : MInv m) {M : UInt64 → Option V}
    (hr : Rep m.underlying.storage M) {i : Nat} {k : UInt64} {v0 : V}
    (hi : m.underlying.storage[i]? = some (.entry k v0)) (v : V) :
    MInv (updateByIter m i v) ∧ Rep (updateByIter m i v).underlying.storage (upd M k (some v)) ∧
      (updateByIter m i v).count = m.count ∧
      (updateByIter m i v).underlying.storage = m.underlying.storage.set i (.entry k v) := by
  have hil : i < m.underlying.storage.length := by
    apply Nat.lt_of_not_le
    intro h
    rw [List.getElem?_eq_none h] at hi; cases hi
  have hka : ∀ j, keyAt (m.underlying.storage.set i (Item.entry k v)) j =
      keyAt m.underlying.storage j := by
    intro j
    rw [keyAt_set hil]
    split
    · rename_i h; subst h; rw [mem_key hi]; rfl
    · rfl
  unfold updateByIter
  rw [hi]
  simp only
  have hc1 := countP_set' (it' := Item.entry k v) Item.full hi
  have hc2 := countP_set' (it' := Item.entry k v) Item.isEntry hi
  simp [Item.full] at hc1
  simp [Item.isEntry] at hc2
  refine ⟨⟨⟨?_, ?_, ?_, ?_, ?_⟩, ?_, ?_, ?_⟩, ?_, trivial, trivial⟩
  · simpa using hm.f.pos
  · simpa using hm.f.lt
  · simp only [hc1]; exact hm.f.cnt
  · simp only [hka]; exact hm.f.uniq
  · simp only [hka, List.length_set]; exact hm.f.reach
  · simpa using hm.big
  · simpa using hm.half
  · simp only [hc2]; exact hm.cnt
  · exact rep_set hr hil (fun j hj => hm.f.uniq _ _ k hj (mem_key hi))
      (fun k' h => by rw [mem_key hi] at h; exact (Option.some.inj h).symm) rfl

theorem update_spec {m : Map V} (hm : MInv m) {M : UInt64 → Option V}
    (hr : Rep m.underlying.storage M) (k : UInt64) (v : V) :
    ∃ m', update m k v = some m' ∧ MInv m' ∧
      Rep m'.underlying.storage (if (M k).isSome then upd M k (some v) else M) ∧
      m'.count = m.count ∧ m'.underlying.storage.length = m.underlying.storage.length := by
  obtain ⟨d, it, hd, hp, hit, hst, hb⟩ := probe_spec hm.f hm.room k
  have hslot := probe_slot hm.f hd hit hst hb
  have hat := rep_at hr hit hst hslot
  have hnone : updateByIter m m.underlying.storage.length v = m := by
    unfold updateByIter
    rw [List.getElem?_eq_none (Nat.le_refl _)]
  unfold update findIter
  rw [hp]
  simp only
  rw [hit, hat]
  cases it with
  | empty => exact ⟨m, by simp [hnone], hm, by simpa using hr, rfl, rfl⟩
  | tombstone _ => exact ⟨m, by simp [hnone], hm, by simpa using hr, rfl, rfl⟩
  | entry k' v' =>
    have := stops_key hst (rfl : _ = some k')
    subst this
    obtain ⟨h1, h2, h3, h4⟩ := updateByIter_spec hm hr hit v
    exact ⟨_, rfl, h1, by simpa using h2, h3, by rw [h4]; simp⟩

/-- The entries, in the order of the slots. -/
def entries (st : List (Item V)) : List (UInt64 × V) :=
  st.filterMap (fun it => match it with
    | .entry k v => some (k, v)
    | _ => none)

theorem mem_entries {st : List (Item V)} {k : UInt64} {v : V} :
    (k, v) ∈ entries st ↔ Item.entry k v ∈ st := by
  unfold entries
  rw [List.mem_filterMap]
  constructor
  · rintro ⟨it, hit, h⟩
    cases it with
    | entry k' v' => simp at h; obtain ⟨rfl, rfl⟩ := h; exact hit
    | empty => cases h
    | tombstone _ => cases h
  · intro h; exact ⟨_, h, rfl⟩

theorem entries_nodup : ∀ {st : List (Item V)},
    (∀ i j k, keyAt st i = some k → keyAt st j = some k → i = j) →
    ((entries st).map Prod.fst).Nodup := by
  intro st
  induction st with
  | nil => intro _; simp [entries]
  | cons a l ih =>
    intro h
    obtain ⟨h1, h2⟩ := uniq_tail h
    have := ih h1
    cases a with
    | empty => simpa [entries] using this
    | tombstone _ => simpa [entries] using this
    | entry k v =>
      have he : entries (Item.entry k v :: l) = (k, v) :: entries l := rfl
      rw [he, List.map_cons, List.nodup_cons]
      refine ⟨?_, this⟩
      intro hk
      obtain ⟨⟨k', v'⟩, hm, hk'⟩ := List.mem_map.1 hk
      have hk'' : k' = k := hk'
      subst hk''
      obtain ⟨j, hj⟩ := mem_keyAt (mem_entries.1 hm)
      exact h2 k' j rfl hj

theorem entries_length (st : List (Item V)) :
    (entries st).length = st.countP Item.isEntry := by
  induction st with
  | nil => rfl
  | cons a l ih =>
    cases a with
    | empty => simpa [entries, Item.isEntry] using ih
    | tombstone _ => simpa [entries, Item.isEntry] using ih
    | entry k v =>
      have he : entries (Item.entry k v :: l) = (k, v) :: entries l := rfl
      rw [he, List.length_cons, ih, List.countP_cons_of_pos rfl]

theorem rep_entries {st : List (Item V)} {M : UInt64 → Option V} (hr : Rep st M) (k : UInt64)
    (v : V) : (k, v) ∈ entries st ↔ M k = some v := by
  rw [mem_entries, hr, List.mem_iff_getElem?]

theorem iterToNext_spec : ∀ (l : List (Item V)) (i : Nat),
    (∃ pre k v suf, l = pre ++ Item.entry k v :: suf ∧ entries pre = [] ∧
      iterToNext l i = (i + pre.length, some (k, v))) ∨
    (entries l = [] ∧ iterToNext l i = (i + l.length, none)) := by
  intro l
  induction l with
  | nil => intro i; right; exact ⟨rfl, rfl⟩
  | cons a l ih =>
    intro i
    cases a with
    | entry k v => left; exact ⟨[], k, v, l, rfl, rfl, rfl⟩
    | empty =>
      rcases ih (i + 1) with ⟨pre, k, v, suf, h1, h2, h3⟩ | ⟨h1, h2⟩
      · left
        refine ⟨.empty :: pre, k, v, suf, by rw [h1]; rfl, h2, ?_⟩
        rw [iterToNext, h3, List.length_cons]; congr 1; omega
      · right
        refine ⟨h1, ?_⟩
        rw [iterToNext, h2, List.length_cons]; congr 1; omega
    | tombstone t =>
      rcases ih (i + 1) with ⟨pre, k, v, suf, h1, h2, h3⟩ | ⟨h1, h2⟩
      · left
        refine ⟨.tombstone t :: pre, k, v, suf, by rw [h1]; rfl, h2, ?_⟩
        rw [iterToNext, h3, List.length_cons]; congr 1; omega
      · right
        refine ⟨h1, ?_⟩
        rw [iterToNext, h2, List.length_cons]; congr 1; omega

theorem entries_append (a b : List (Item V)) : entries (a ++ b) = entries a ++ entries b := by
  unfold entries; rw [List.filterMap_append]

theorem drop_split {st pre suf : List (Item V)} {a : Item V} {j : Nat}
    (h : st.drop j = pre ++ a :: suf) :
    st.drop (j + pre.length + 1) = suf ∧ j + pre.length + 1 ≤ st.length ∧
      st[j + pre.length]? = some a := by
  refine ⟨?_, ?_, ?_⟩
  · rw [Nat.add_assoc, ← List.drop_drop, h]
    rw [List.drop_append]
    simp
  · have := congrArg List.length h
    rw [List.length_drop, List.length_append, List.length_cons] at this
    omega
  · have : (st.drop j)[pre.length]? = some a := by rw [h]; simp
    rw [List.getElem?_drop] at this
    exact this

theorem iterLoop_spec (m : Map V) : ∀ fuel j, m.underlying.storage.length < fuel + j →
    iterLoop m fuel ⟨(iterToNext (m.underlying.storage.drop j) j).1,
      (iterToNext (m.underlying.storage.drop j) j).2⟩ =
    some (entries (m.underlying.storage.drop j)) ∨ m.underlying.storage.length < j := by
  intro fuel
  induction fuel with
  | zero => intro j hj; right; omega
  | succ fuel ih =>
    intro j hj
    left
    rcases iterToNext_spec (m.underlying.storage.drop j) j with
      ⟨pre, k, v, suf, h1, h2, h3⟩ | ⟨h1, h2⟩
    · obtain ⟨d1, d2, _⟩ := drop_split h1
      rw [h3, iterLoop]
      simp only
      have := ih (j + pre.length + 1) (by omega)
      rcases this with h | h
      · unfold iterInc
        simp only
        rw [h, d1, h1, entries_append, h2]
        rfl
      · omega
    · rw [h2, h1]; rfl

theorem iterate_spec (m : Map V) : iterate m = some (entries m.underlying.storage) := by
  have := iterLoop_spec m (m.underlying.storage.length + 1) 0 (by omega)
  rcases this with h | h
  · simpa [iterate, iterStart] using h
  · omega

theorem foldl_max (l : List (UInt64 × V)) : ∀ a : UInt64,
    let r := l.foldl (fun mx kv => if mx < kv.1 then kv.1 else mx) a
    a ≤ r ∧ (∀ kv, kv ∈ l → kv.1 ≤ r) ∧ (r = a ∨ ∃ kv, kv ∈ l ∧ kv.1 = r) := by
  induction l with
  | nil => intro a; exact ⟨UInt64.le_refl _, by simp, Or.inl rfl⟩
  | cons b l ih =>
    intro a
    obtain ⟨h1, h2, h3⟩ := ih (if a < b.1 then b.1 else a)
    simp only [List.foldl_cons]
    have hab : a ≤ (if a < b.1 then b.1 else a) ∧ b.1 ≤ (if a < b.1 then b.1 else a) := by
      split
      · rename_i h; exact ⟨UInt64.le_of_lt h, UInt64.le_refl _⟩
      · rename_i h; exact ⟨UInt64.le_refl _, UInt64.not_lt.1 h⟩
    refine ⟨UInt64.le_trans hab.1 h1, ?_, ?_⟩
    · intro kv hkv
      rcases List.mem_cons.1 hkv with h | h
      · subst h; exact UInt64.le_trans hab.2 h1
      · exact h2 kv h
    · rcases h3 with h | ⟨kv, h, h'⟩
      · by_cases hlt : a < b.1
        · right
          refine ⟨b, List.mem_cons_self .., ?_⟩
          rw [h, if_pos hlt]
        · left; rw [h, if_neg hlt]
      · right; exact ⟨kv, List.mem_cons_of_mem _ h, h'⟩

/-- The item with its value rewritten. -/
def Item.mapVal (g : V → V) : Item V → Item V
  | .empty => .empty
  | .entry k v => .entry k (g v)
  | .tombstone k => .tombstone k

theorem mapVal_none {g : V → V} {l : List (Item V)} (h : entries l = []) :
    l.map (Item.mapVal g) = l := by
  induction l with
  | nil => rfl
  | cons a l ih =>
    cases a with
    | entry k v => exact absurd h (by simp [entries])
    | empty => rw [List.map_cons, ih (by simpa [entries] using h)]; rfl
    | tombstone _ => rw [List.map_cons, ih (by simpa [entries] using h)]; rfl

theorem mapLoop_spec (g : V → V) : ∀ fuel (m : Map V) (done rest : List (Item V)),
    m.underlying.storage = done ++ rest → rest.length < fuel →
    ∃ m', mapLoop g fuel m (iterToNext rest done.length).1 = some m' ∧
      m'.underlying.storage = done ++ rest.map (Item.mapVal g) ∧
      m'.underlying.count = m.underlying.count ∧ m'.count = m.count := by
  intro fuel
  induction fuel with
  | zero => intro m done rest _ h; omega
  | succ fuel ih =>
    intro m done rest hst hf
    rcases iterToNext_spec rest done.length with ⟨pre, k, v, suf, h1, h2, h3⟩ | ⟨h1, h2⟩
    · rw [h3, mapLoop]
      simp only
      have hat : m.underlying.storage[done.length + pre.length]? = some (.entry k v) := by
        rw [hst, h1]
        simp
      rw [hat]
      simp only
      have hst' : (updateByIter m (done.length + pre.length) (g v)).underlying.storage =
          (done ++ pre ++ [.entry k (g v)]) ++ suf := by
        unfold updateByIter
        rw [hat]
        simp only
        rw [hst, h1]
        simp
      have hlen : (done ++ pre ++ [Item.entry k (g v)]).length = done.length + pre.length + 1 := by
        simp; omega
      have hdrop : (updateByIter m (done.length + pre.length) (g v)).underlying.storage.drop
          (done.length + pre.length + 1) = suf := by
        rw [hst', ← hlen, List.drop_left]
      have hc : (updateByIter m (done.length + pre.length) (g v)).underlying.count =
          m.underlying.count ∧
          (updateByIter m (done.length + pre.length) (g v)).count = m.count := by
        unfold updateByIter; rw [hat]; exact ⟨rfl, rfl⟩
      obtain ⟨m', e1, e2, e3, e4⟩ := ih _ _ suf hst' (by
        have := congrArg List.length h1
        simp at this
        omega)
      rw [hdrop]
      rw [hlen] at e1
      refine ⟨m', e1, ?_, e3.trans hc.1, e4.trans hc.2⟩
      rw [e2, h1, List.map_append, List.map_cons, mapVal_none h2]
      simp [Item.mapVal]
    · rw [h2, mapLoop]
      have : m.underlying.storage[done.length + rest.length]? = none := by
        rw [hst]
        apply List.getElem?_eq_none
        simp
      simp only [this]
      exact ⟨m, rfl, by rw [mapVal_none h1]; exact hst, rfl, rfl⟩

theorem mapValues_spec (g : V → V) {m : Map V} (hm : MInv m) {M : UInt64 → Option V}
    (hr : Rep m.underlying.storage M) :
    ∃ m', mapValues g m = some m' ∧ MInv m' ∧
      Rep m'.underlying.storage (fun k => (M k).map g) ∧ m'.count = m.count ∧
      m'.underlying.storage.length = m.underlying.storage.length := by
  obtain ⟨m', h1, h2, h3, h4⟩ := mapLoop_spec g (m.underlying.storage.length + 1) m []
    m.underlying.storage rfl (by omega)
  rw [List.nil_append] at h2
  have hk : ∀ i, keyAt m'.underlying.storage i = keyAt m.underlying.storage i := by
    intro i
    rw [h2]
    unfold keyAt
    rw [List.getElem?_map]
    cases m.underlying.storage[i]? with
    | none => rfl
    | some it => cases it <;> rfl
  have hl : m'.underlying.storage.length = m.underlying.storage.length := by rw [h2]; simp
  refine ⟨m', h1, ⟨⟨?_, ?_, ?_, ?_, ?_⟩, ?_, ?_, ?_⟩, ?_, h4, hl⟩
  · rw [hl]; exact hm.f.pos
  · rw [hl]; exact hm.f.lt
  · rw [h3, h2, List.countP_map, hm.f.cnt]
    congr 1
    funext it; cases it <;> rfl
  · simp only [hk]; exact hm.f.uniq
  · simp only [hk, hl]; exact hm.f.reach
  · rw [hl]; exact hm.big
  · rw [hl, h3]; exact hm.half
  · rw [h4, h2, List.countP_map, hm.cnt]
    congr 1
    funext it; cases it <;> rfl
  · intro k v
    rw [h2]
    constructor
    · intro h
      obtain ⟨v0, hv0, rfl⟩ := Option.map_eq_some_iff.1 h
      obtain ⟨i, hi⟩ := (hr k v0).1 hv0
      exact ⟨i, by rw [List.getElem?_map, hi]; rfl⟩
    · rintro ⟨i, hi⟩
      rw [List.getElem?_map] at hi
      obtain ⟨it, hit, h⟩ := Option.map_eq_some_iff.1 hi
      cases it with
      | empty => cases h
      | tombstone _ => cases h
      | entry k' v' =>
        cases h
        show (M k).map g = some (g v')
        rw [(hr k v').2 ⟨i, hit⟩]; rfl

end Verif.Hash
