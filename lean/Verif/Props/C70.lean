import Verif.Kv.HashProof

/-!
C70.  The hash map that VeriBetrKV's tables, queues and request lists are made of (linear probing,
tombstones, growth by copying) is a map: whatever is inserted, removed and rewritten, in whatever
order, every call ends and answers as a mathematical map would; the number it gives is the number
of keys; an iteration shows every binding once and no other; and the memory it uses is bounded by
the number of keys it held at a time, however often keys come and go.

Specification: `Spec`, what a call may answer on a function from keys to optional values.
-/

namespace Verif.C70

/-- The calls. -/
inductive Op (V : Type) where
  | insert (key : UInt64) (value : V)
  | remove (key : UInt64)
  | get (key : UInt64)
  | update (key : UInt64) (value : V)
  | mapValues (g : V → V)
  | count
  | iterate
  | maxKey

/-- The answers. -/
inductive Resp (V : Type) where
  | done
  | value (v : Option V)
  | number (n : UInt64)
  | list (l : List (UInt64 × V))

variable {V : Type}

/-- `M` with `k` bound to `v`, or not bound. -/
def bind (M : UInt64 → Option V) (k : UInt64) (v : Option V) : UInt64 → Option V :=
  fun k' => if k' = k then v else M k'

/-- The list holds every binding of `M` once and no other. -/
def Lists (M : UInt64 → Option V) (l : List (UInt64 × V)) : Prop :=
  (l.map Prod.fst).Nodup ∧ ∀ k v, (k, v) ∈ l ↔ M k = some v

/-- What a call on the map `M` may answer, and the map afterwards. -/
def Spec (M : UInt64 → Option V) : Op V → Resp V → (UInt64 → Option V) → Prop
  | .insert k v, r, M' => r = .value (M k) ∧ M' = bind M k (some v)
  | .remove k, r, M' => r = .value (M k) ∧ M' = bind M k none
  | .get k, r, M' => r = .value (M k) ∧ M' = M
  | .update k v, r, M' => r = .done ∧ M' = if (M k).isSome then bind M k (some v) else M
  | .mapValues g, r, M' => r = .done ∧ M' = fun k => (M k).map g
  | .count, r, M' => M' = M ∧ ∃ n l, r = .number n ∧ Lists M l ∧ n.toNat = l.length
  | .iterate, r, M' => M' = M ∧ ∃ l, r = .list l ∧ Lists M l
  | .maxKey, r, M' => M' = M ∧ ∃ n, r = .number n ∧ (∀ k v, M k = some v → k ≤ n) ∧
      ((∃ v, M n = some v) ∨ n = 0 ∧ ∀ k, M k = none)

/-- A sequence of calls and answers. -/
inductive Specs : (UInt64 → Option V) → List (Op V) → List (Resp V) → (UInt64 → Option V) → Prop
  | nil (M) : Specs M [] [] M
  | cons {M M' M'' op r ops rs} : Spec M op r M' → Specs M' ops rs M'' →
      Specs M (op :: ops) (r :: rs) M''

/-- The code's answer; `none` if a loop does not end. -/
def call (m : Hash.Map V) : Op V → Option (Hash.Map V × Resp V)
  | .insert k v => (Hash.insert m k v).map (fun p => (p.1, .value p.2))
  | .remove k => (Hash.remove m k).map (fun p => (p.1, .value p.2))
  | .get k => (Hash.get m k).map (fun v => (m, .value v))
  | .update k v => (Hash.update m k v).map (fun m' => (m', .done))
  | .mapValues g => (Hash.mapValues g m).map (fun m' => (m', .done))
  | .count => some (m, .number m.count)
  | .iterate => (Hash.iterate m).map (fun l => (m, .list l))
  | .maxKey => (Hash.maxKey m).map (fun n => (m, .number n))

/-- The code's answers to a sequence of calls. -/
def calls : Hash.Map V → List (Op V) → Option (Hash.Map V × List (Resp V))
  | m, [] => some (m, [])
  | m, op :: ops =>
    match call m op with
    | none => none
    | some (m', r) => (calls m' ops).map (fun p => (p.1, r :: p.2))

theorem call_spec {m : Hash.Map V} (hm : Hash.MInv m) {M : UInt64 → Option V}
    (hr : Hash.Rep m.underlying.storage M) (hc : m.count.toNat < 2 ^ 61) (op : Op V) :
    ∃ m' r M', call m op = some (m', r) ∧ Spec M op r M' ∧ Hash.MInv m' ∧
      Hash.Rep m'.underlying.storage M' ∧ m'.count.toNat ≤ m.count.toNat + 1 ∧
      m'.underlying.storage.length ≤
        max m.underlying.storage.length (4 * (128 + m.count.toNat)) := by
  have hl : Lists M (Hash.entries m.underlying.storage) :=
    ⟨Hash.entries_nodup hm.f.uniq, Hash.rep_entries hr⟩
  cases op with
  | insert k v =>
    obtain ⟨m', h1, h2, h3, h4, h5⟩ := Hash.insert_spec hm hr hc k v
    exact ⟨m', _, _, by simp [call, h1], ⟨rfl, rfl⟩, h2, h3, h4, h5⟩
  | remove k =>
    obtain ⟨m', h1, h2, h3, h4, h5⟩ := Hash.remove_spec hm hr k
    exact ⟨m', _, _, by simp [call, h1], ⟨rfl, rfl⟩, h2, h3, by omega, by omega⟩
  | get k =>
    exact ⟨m, _, _, by simp [call, Hash.get_spec hm hr k], ⟨rfl, rfl⟩, hm, hr, by omega, by omega⟩
  | update k v =>
    obtain ⟨m', h1, h2, h3, h4, h5⟩ := Hash.update_spec hm hr k v
    exact ⟨m', _, _, by simp [call, h1], ⟨rfl, rfl⟩, h2, h3, by rw [h4]; omega, by omega⟩
  | mapValues g =>
    obtain ⟨m', h1, h2, h3, h4, h5⟩ := Hash.mapValues_spec g hm hr
    exact ⟨m', _, _, by simp [call, h1], ⟨rfl, rfl⟩, h2, h3, by rw [h4]; omega, by omega⟩
  | count =>
    exact ⟨m, _, M, rfl, ⟨rfl, _, _, rfl, hl, by rw [hm.cnt, Hash.entries_length]⟩, hm, hr,
      by omega, by omega⟩
  | iterate =>
    exact ⟨m, _, M, by simp [call, Hash.iterate_spec], ⟨rfl, _, rfl, hl⟩, hm, hr, by omega,
      by omega⟩
  | maxKey =>
    obtain ⟨_, h2, h3⟩ := Hash.foldl_max (Hash.entries m.underlying.storage) 0
    refine ⟨m, _, M, by rw [call, Hash.maxKey, Hash.iterate_spec]; rfl, ⟨rfl, _, rfl, ?_, ?_⟩, hm, hr,
      by omega, by omega⟩
    · intro k v hk
      exact h2 (k, v) ((hl.2 k v).2 hk)
    · rcases h3 with h | ⟨⟨k, v⟩, h, h'⟩
      · cases he : Hash.entries m.underlying.storage with
        | nil =>
          right
          refine ⟨rfl, fun k => ?_⟩
          cases hk : M k with
          | none => rfl
          | some v =>
            have := (hl.2 k v).2 hk
            rw [he] at this; cases this
        | cons kv l =>
          left
          obtain ⟨k, v⟩ := kv
          have hin : (k, v) ∈ Hash.entries m.underlying.storage := by rw [he]; simp
          have hk := (hl.2 k v).1 hin
          have hle := h2 (k, v) hin
          rw [h] at hle
          have h0 : k = 0 := by
            apply UInt64.toNat_inj.1
            have := UInt64.le_iff_toNat_le.1 hle
            simp at this
            simpa using this
          rw [he] at h
          dsimp only
          rw [h]
          exact ⟨v, h0 ▸ hk⟩
      · left
        have h' : k = _ := h'
        dsimp only
        rw [← h']
        exact ⟨v, (hl.2 k v).1 h⟩

theorem calls_spec (ops : List (Op V)) : ∀ (m : Hash.Map V) (M : UInt64 → Option V),
    Hash.MInv m → Hash.Rep m.underlying.storage M → m.count.toNat + ops.length < 2 ^ 61 →
    ∃ m' rs M', calls m ops = some (m', rs) ∧ Specs M ops rs M' ∧ Hash.MInv m' ∧
      Hash.Rep m'.underlying.storage M' := by
  induction ops with
  | nil => intro m M hm hr _; exact ⟨m, [], M, rfl, .nil M, hm, hr⟩
  | cons op ops ih =>
    intro m M hm hr hc
    rw [List.length_cons] at hc
    obtain ⟨m1, r, M1, h1, h2, h3, h4, h5, _⟩ := call_spec hm hr (by omega) op
    obtain ⟨m', rs, M', g1, g2, g3, g4⟩ := ih m1 M1 h3 h4 (by omega)
    exact ⟨m', r :: rs, M', by simp [calls, h1, g1], .cons h2 g2, g3, g4⟩

/-- Whatever the calls and however many (short of 2^61), every one of them ends and answers as
the map does. -/
theorem is_a_map (size : UInt64) (hsize : 128 ≤ size.toNat) (ops : List (Op V))
    (hlen : ops.length < 2 ^ 61) :
    ∃ m rs M, calls (Hash.new size) ops = some (m, rs) ∧ Specs (fun _ => none) ops rs M := by
  obtain ⟨m, rs, M, h1, h2, _, _⟩ := calls_spec ops (Hash.new size) (fun _ => none)
    (Hash.minv_new hsize) (Hash.rep_new _) (by simpa [Hash.new] using hlen)
  exact ⟨m, rs, M, h1, h2⟩

theorem calls_bound (P N : Nat) (hP : P < 2 ^ 61) (hN : 4 * (128 + P) ≤ N) (ops : List (Op V)) :
    ∀ (m : Hash.Map V) (M : UInt64 → Option V) m' rs, Hash.MInv m →
      Hash.Rep m.underlying.storage M → m.underlying.storage.length ≤ N →
      (∀ pre m1 rs1, pre <+: ops → calls m pre = some (m1, rs1) → m1.count.toNat ≤ P) →
      calls m ops = some (m', rs) → m'.underlying.storage.length ≤ N := by
  induction ops with
  | nil => intro m M m' rs _ _ hl _ h; cases h; exact hl
  | cons op ops ih =>
    intro m M m' rs hm hr hl hb h
    have hc := hb [] m [] (List.nil_prefix) rfl
    obtain ⟨m1, r, M1, h1, _, h3, h4, _, h6⟩ := call_spec hm hr (by omega) op
    rw [calls, h1] at h
    simp only at h
    cases hs : calls m1 ops with
    | none => rw [hs] at h; cases h
    | some p =>
      rw [hs] at h
      cases h
      refine ih m1 M1 p.1 p.2 h3 h4 (by omega) ?_ hs
      intro pre m2 rs2 hpre hpc
      refine hb (op :: pre) m2 (r :: rs2) ((List.prefix_cons_inj op).2 hpre) ?_
      simp [calls, h1, hpc]

/-- If the map never held more than `P` keys at a time, then it has no more than `4 * (128 + P)`
slots (or the number it was made with), however many keys went through it. -/
theorem bounded (size : UInt64) (hsize : 128 ≤ size.toNat) (P : Nat) (hP : P < 2 ^ 61)
    (ops : List (Op V)) (m : Hash.Map V) (rs : List (Resp V))
    (hkeys : ∀ pre m1 rs1, pre <+: ops → calls (Hash.new size) pre = some (m1, rs1) →
      m1.count.toNat ≤ P)
    (h : calls (Hash.new size) ops = some (m, rs)) :
    m.underlying.storage.length ≤ max size.toNat (4 * (128 + P)) :=
  calls_bound P _ hP (Nat.le_max_right _ _) ops (Hash.new size) (fun _ => none) m rs
    (Hash.minv_new hsize) (Hash.rep_new _) (by simp [Hash.new, Hash.fixedNew]; omega) hkeys h

/-- The room for probing: at most half of the slots are ever in use, tombstones counted. -/
theorem half_empty (size : UInt64) (hsize : 128 ≤ size.toNat) (ops : List (Op V))
    (hlen : ops.length < 2 ^ 61) (m : Hash.Map V) (rs : List (Resp V))
    (h : calls (Hash.new size) ops = some (m, rs)) :
    2 * m.underlying.storage.countP (fun it => match it with
      | .empty => false
      | _ => true) ≤ m.underlying.storage.length := by
  obtain ⟨m', rs', M, h1, _, h3, _⟩ := calls_spec ops (Hash.new size) (fun _ => none)
    (Hash.minv_new hsize) (Hash.rep_new _) (by simpa [Hash.new] using hlen)
  rw [h] at h1
  cases h1
  have := h3.half
  rw [h3.f.cnt] at this
  have e : (fun it : Hash.Item V => match it with
      | .empty => false
      | _ => true) = Hash.Item.full := by
    funext it; cases it <;> rfl
  rw [e]
  omega

/-- The calls and the answers of the demonstration. -/
def demoOps : List (Op Nat) :=
  [.insert 5 50, .insert 7 70, .insert 5 51, .get 5, .remove 7, .get 7, .count, .insert 9 90,
    .update 9 91, .update 8 80, .mapValues (· + 1), .get 9, .maxKey]

/-- Seen from outside. -/
def show' : Resp Nat → Option Nat × Nat
  | .done => (none, 0)
  | .value v => (v, 1)
  | .number n => (some n.toNat, 2)
  | .list l => (some l.length, 3)

/-- The hypotheses can be met: calls on a map of 128 slots, with an overwriting, a removal that
leaves a tombstone, an update of a key that is there and of one that is not. -/
theorem demo : demoOps.length < 2 ^ 61 ∧
    (calls (Hash.new 128) demoOps).map (fun p => p.2.map show') =
      some [(none, 1), (none, 1), (some 50, 1), (some 51, 1), (some 70, 1), (none, 1), (some 1, 2),
        (none, 1), (none, 0), (none, 0), (none, 0), (some 92, 1), (some 9, 2)] := by
  decide +kernel

/-- A map that grows: 70 keys, 60 of them removed, and 70 more. -/
theorem demo_grows :
    (calls (Hash.new 128) (((List.range 70).map (fun i => Op.insert (UInt64.ofNat i) i)) ++
      ((List.range 60).map (fun i => Op.remove (UInt64.ofNat i))) ++
      ((List.range 70).map (fun i => Op.insert (UInt64.ofNat (i + 100)) i)) ++ [Op.count])).map
        (fun p => (p.1.underlying.storage.length, (p.2.drop 200).map show')) =
      some (768, [(some 80, 2)]) := by
  decide +kernel

end Verif.C70
