import Verif.Spec.ClientSpec
/-
Every execution of the CrashTolerantAsyncMap specification satisfies the client contract.
-/
namespace Verif.ClientSpec
open CTAM

/-- The map holding exactly the puts in `h`. -/
def mapOf (h : List Put) : Version := fun k => .define (lookup h k)

theorem mapOf_nil : mapOf [] = TotalKMMap.empty := rfl

theorem lookup_snoc (h : List Put) (p : Put) (k : Key) :
    lookup (h ++ [p]) k = if p.1 = k then p.2 else lookup h k := by
  simp [lookup, List.foldl_append]

theorem mapOf_snoc (h : List Put) (k : Key) (v : Value) :
    mapOf (h ++ [(k, v)]) = (mapOf h).insert k (.define v) := by
  funext x
  simp only [mapOf, lookup_snoc, TotalKMMap.insert]
  by_cases hx : x = k
  · simp [hx]
  · simp [hx, Ne.symm hx]

theorem getElem?_snoc_of_lt {α} {l : List α} {x : α} {i : Nat} (h : i < l.length) :
    (l ++ [x])[i]? = l[i]? := List.getElem?_append_left h

theorem getElem?_snoc_cases {α} {l : List α} {x y : α} {i : Nat} (h : (l ++ [x])[i]? = some y) :
    (i < l.length ∧ l[i]? = some y) ∨ (i = l.length ∧ x = y) := by
  by_cases hi : i < l.length
  · exact .inl ⟨hi, by rwa [getElem?_snoc_of_lt hi] at h⟩
  · have : i < l.length + 1 := by
      have := (List.getElem?_eq_some_iff.mp h).1; simpa using this
    have hi : i = l.length := by omega
    subst hi
    exact .inr ⟨rfl, by simpa using h⟩

theorem noCrash_mono {tr : List Label} {l : Label} {i j : Nat} (hj : j ≤ tr.length) :
    NoCrashBetween (tr ++ [l]) i j ↔ NoCrashBetween tr i j := by
  unfold NoCrashBetween
  constructor <;> intro h m h1 h2 <;> have := h m h1 h2
  · rwa [getElem?_snoc_of_lt (by omega)] at this
  · rwa [getElem?_snoc_of_lt (by omega)]

theorem noCrash_snoc {tr : List Label} {l : Label} {i : Nat} (hl : l ≠ .crash)
    (h : NoCrashBetween tr i tr.length) : NoCrashBetween (tr ++ [l]) i (tr.length + 1) := by
  intro m h1 h2 hm
  rcases getElem?_snoc_cases hm with ⟨h3, h4⟩ | ⟨_, h4⟩
  · exact h m h1 h3 h4
  · exact hl h4

theorem noCrash_of_snoc {tr : List Label} {l : Label} {i : Nat} (hi : i < tr.length)
    (h : NoCrashBetween (tr ++ [l]) i (tr.length + 1)) :
    l ≠ .crash ∧ NoCrashBetween tr i tr.length := by
  constructor
  · rintro rfl
    exact h tr.length hi (by omega) (by simp)
  · rw [← noCrash_mono (l := l) (Nat.le_refl _)]
    intro m h1 h2; exact h m h1 (by omega)

/-- Ghost state: `hs` is the history behind every kept version. -/
structure Ghost (tr : List Label) (s : State) (H : Nat → List Put) (hs : List (List Put)) :
    Prop where
  versions : s.versions.entries = hs.map mapOf
  mono : hs.Pairwise (· <+: ·)
  last : hs.getLast? = some (H tr.length)
  pending : ∀ (i : Nat) (id : SyncReqId), tr[i]? = some (.reqSync id) → NoCrashBetween tr i tr.length →
    ∃ v, v < s.versions.len ∧ (∀ h ∈ hs.drop (v - s.versions.start), H i <+: h) ∧
      (s.syncRequests id = some v ∨ v ≤ s.versions.start)
  acked : ∀ (i j : Nat) (id : SyncReqId), i < j → tr[i]? = some (.reqSync id) → tr[j]? = some (.replySync id) →
    NoCrashBetween tr i j → ∀ h ∈ hs, H i <+: h

/-- Extend the explanation by one event. -/
def extH (n : Nat) (H : Nat → List Put) (h' : List Put) : Nat → List Put :=
  fun i => if i ≤ n then H i else h'

theorem extH_le {n H h' i} (h : i ≤ n) : extH n H h' i = H i := by simp [extH, h]
theorem extH_succ {n H h'} : extH n H h' (n + 1) = h' := by
  unfold extH; rw [if_neg (by omega)]

theorem Explains.extend {tr : List Label} {H : Nat → List Put} (hE : Explains tr H) {l : Label} {h' : List Put}
    (hstep : l ≠ .crash → h' = H tr.length ++ putsOf l)
    (hcrash : l = .crash → h' <+: H tr.length)
    (hquery : ∀ (req : Request) (reply : Reply) (k : Key), l = .operate (.execute req reply) → req.input = .query k →
      reply.output = .query (lookup (H tr.length) k))
    (hput : ∀ (req : Request) (reply : Reply) (k : Key) (v : Value), l = .operate (.execute req reply) → req.input = .put k v →
      reply.output = .put)
    (hdur1 : ∀ (i j : Nat) (id : SyncReqId), i < j → tr[i]? = some (.reqSync id) → tr[j]? = some (.replySync id) →
      NoCrashBetween tr i j → H i <+: h')
    (hdur2 : ∀ (i : Nat) (id : SyncReqId), tr[i]? = some (.reqSync id) → l = .replySync id →
      NoCrashBetween tr i tr.length → H i <+: H tr.length) :
    Explains (tr ++ [l]) (extH tr.length H h') := by
  have hle : ∀ {i : Nat} {y : Label}, tr[i]? = some y → i < tr.length := fun h =>
    (List.getElem?_eq_some_iff.mp h).1
  constructor
  · rw [extH_le (Nat.zero_le _)]; exact hE.start
  · intro i y hi hy
    rcases getElem?_snoc_cases hi with ⟨h1, h2⟩ | ⟨rfl, rfl⟩
    · rw [extH_le (by omega), extH_le (by omega)]; exact hE.step i y h2 hy
    · rw [extH_succ, extH_le (Nat.le_refl _)]; exact hstep hy
  · intro i hi
    rcases getElem?_snoc_cases hi with ⟨h1, h2⟩ | ⟨rfl, h2⟩
    · rw [extH_le (by omega), extH_le (by omega)]; exact hE.crash i h2
    · rw [extH_succ, extH_le (Nat.le_refl _)]; exact hcrash h2
  · intro i req reply k hi hk
    rcases getElem?_snoc_cases hi with ⟨h1, h2⟩ | ⟨rfl, h2⟩
    · rw [extH_le (by omega)]; exact hE.query i req reply k h2 hk
    · rw [extH_le (Nat.le_refl _)]; exact hquery _ _ _ h2 hk
  · intro i req reply k v hi hk
    rcases getElem?_snoc_cases hi with ⟨h1, h2⟩ | ⟨rfl, h2⟩
    · exact hE.put i req reply k v h2 hk
    · exact hput _ _ _ _ h2 hk
  · intro i j id hij hi hj hnc n hn1 hn2
    have hn2 : n ≤ tr.length + 1 := by simpa using hn2
    rcases getElem?_snoc_cases hj with ⟨h1, h2⟩ | ⟨rfl, h2⟩
    · have hi' : tr[i]? = some (.reqSync id) := by
        rcases getElem?_snoc_cases hi with ⟨_, h⟩ | ⟨h, _⟩
        · exact h
        · omega
      have hnc' := (noCrash_mono (l := l) (by omega : j ≤ tr.length)).mp hnc
      rw [extH_le (by omega)]
      by_cases hnn : n ≤ tr.length
      · rw [extH_le hnn]; exact hE.durable i j id hij hi' h2 hnc' n hn1 hnn
      · obtain rfl : n = tr.length + 1 := by omega
        rw [extH_succ]; exact hdur1 i j id hij hi' h2 hnc'
    · have hi' : tr[i]? = some (.reqSync id) := by
        rcases getElem?_snoc_cases hi with ⟨_, h⟩ | ⟨h, _⟩
        · exact h
        · omega
      have hnc' := (noCrash_mono (l := l) (Nat.le_refl _)).mp hnc
      have key := hdur2 i id hi' h2 hnc'
      rw [extH_le (by omega)]
      by_cases hnn : n ≤ tr.length
      · obtain rfl : n = tr.length := by omega
        rw [extH_le hnn]; exact key
      · obtain rfl : n = tr.length + 1 := by omega
        rw [extH_succ, hstep (by rw [h2]; simp)]
        exact key.trans (List.prefix_append _ _)

theorem prefix_of_mem_getLast {hs : List (List Put)} {h0 l : List Put}
    (h : ∀ h ∈ hs, h0 <+: h) (hl : hs.getLast? = some l) : h0 <+: l :=
  h _ (List.mem_of_getLast? hl)

theorem pairwise_prefix_last {hs : List (List Put)} {l : List Put}
    (hp : hs.Pairwise (· <+: ·)) (hl : hs.getLast? = some l) : ∀ h ∈ hs, h <+: l := by
  obtain ⟨ys, rfl⟩ := List.getLast?_eq_some_iff.mp hl
  intro h hh
  rw [List.pairwise_append] at hp
  rcases List.mem_append.mp hh with h1 | h1
  · exact hp.2.2 h h1 l (by simp)
  · rw [List.mem_singleton.mp h1]; exact List.prefix_refl _

/-- What a `MapSpec` step does, in terms of histories. -/
theorem mapSpec_step {h : List Put} {i o p'} (hn : MapSpec.Next (mapOf h) i o p') (req : Request)
    (reply : Reply) (hi : req.input = i) (ho : reply.output = o) :
    p' = mapOf (h ++ putsOf (.operate (.execute req reply))) ∧
    (∀ k, i = .query k → o = .query (lookup h k)) ∧
    (∀ k v, i = .put k v → o = .put) := by
  cases hn with
  | query hk =>
    refine ⟨by simp [putsOf, hi], ?_, by simp⟩
    intro k hk'
    cases hk'
    simp only [mapOf, Message.define.injEq] at hk
    rw [hk]
  | put => exact ⟨by simp [putsOf, hi, mapOf_snoc], by simp, by simp⟩
  | noop => exact ⟨by simp [putsOf, hi], by simp, by simp⟩

theorem putsOf_request (r) : putsOf (.operate (.request r)) = [] := rfl
theorem putsOf_reply (r) : putsOf (.operate (.reply r)) = [] := rfl

/-- Generic one-step extension when the step is not a crash, sync, reqSync or replySync:
the ghost list is extended or its last element replaced. -/
theorem ghost_operate {tr s H hs op versions' eph' p'} {h' : List Put}
    (hG : Ghost tr s H hs) (hpre : H tr.length <+: h')
    (hopt : OptionallyAppendVersion s.versions versions')
    (hl' : versions'.last? = some p') (hp' : p' = mapOf h') :
    ∃ hs', Ghost (tr ++ [.operate op]) { s with versions := versions', ephemeral := eph' }
      (extH tr.length H h') hs' := by
  have hne : s.versions.entries ≠ [] := by
    intro he
    have := hG.versions
    rw [he] at this
    have : hs = [] := by simpa using this.symm
    have hl := hG.last
    simp [this] at hl
  obtain ⟨ys, hys⟩ := List.getLast?_eq_some_iff.mp hG.last
  -- shape of the new entries
  have hshape : (versions'.start = s.versions.start) ∧
      (versions'.entries = s.versions.entries ++ [p'] ∨ versions'.entries = s.versions.entries ∧ s.versions.entries.getLast? = some p') := by
    rcases hopt with ⟨hpos, hd⟩ | rfl
    · -- dropLast
      have hd0 := hd
      unfold FloatingSeq.dropLast FloatingSeq.getPrefix at hd
      split at hd
      · exfalso; apply hne; rw [← hd]
      · rename_i hlt
        unfold FloatingSeq.len at hd hlt
        have hst : versions'.start = s.versions.start := by rw [← hd]
        refine ⟨hst, .inl ?_⟩
        have he : s.versions.entries = versions'.entries.take (versions'.entries.length - 1) := by
          rw [← hd]; simp only
          congr 1; omega
        unfold FloatingSeq.last? FloatingSeq.get? FloatingSeq.len at hl'
        rw [if_pos (by omega)] at hl'
        have hidx : versions'.start + versions'.entries.length - 1 - versions'.start
          = versions'.entries.length - 1 := by omega
        rw [hidx, ← List.getLast?_eq_getElem?] at hl'
        obtain ⟨zs, hzs⟩ := List.getLast?_eq_some_iff.mp hl'
        rw [he, hzs]; simp
    · refine ⟨rfl, .inr ⟨rfl, ?_⟩⟩
      unfold FloatingSeq.last? FloatingSeq.get? FloatingSeq.len at hl'
      have : 0 < s.versions.entries.length := List.length_pos_iff.mpr hne
      rw [if_pos (by omega)] at hl'
      have hidx : s.versions.start + s.versions.entries.length - 1 - s.versions.start
          = s.versions.entries.length - 1 := by omega
      rw [hidx, ← List.getLast?_eq_getElem?] at hl'
      exact hl'
  obtain ⟨hst, hent⟩ := hshape
  have hH : ∀ {i : Nat} {y}, tr[i]? = some y → extH tr.length H h' i = H i := fun h =>
    extH_le (Nat.le_of_lt (List.getElem?_eq_some_iff.mp h).1)
  have hback : ∀ {i : Nat} {y : Label}, (tr ++ [Label.operate op])[i]? = some y →
      (∀ op, y ≠ .operate op) → tr[i]? = some y := by
    intro i y h hy
    rcases getElem?_snoc_cases h with ⟨_, h⟩ | ⟨_, h⟩
    · exact h
    · exact absurd h.symm (hy _)
  have hlt : ∀ {i : Nat} {y : Label}, tr[i]? = some y → i < tr.length := fun h =>
    (List.getElem?_eq_some_iff.mp h).1
  rcases hent with hent | ⟨hent, hlast⟩
  · refine ⟨hs ++ [h'], ?_, ?_, ?_, ?_, ?_⟩
    · simp [hent, hG.versions, hp']
    · rw [List.pairwise_append]
      refine ⟨hG.mono, by simp, ?_⟩
      intro a ha b hb
      rw [List.mem_singleton.mp hb]
      exact (pairwise_prefix_last hG.mono hG.last a ha).trans hpre
    · simp [extH_succ]
    · intro i id hi hnc
      have hi' := hback hi (by simp)
      simp only [List.length_append, List.length_singleton] at hnc
      obtain ⟨_, hnc'⟩ := noCrash_of_snoc (hlt hi') hnc
      obtain ⟨v, hv, hall, hor⟩ := hG.pending i id hi' hnc'
      refine ⟨v, ?_, ?_, ?_⟩
      · simp only [FloatingSeq.len, hst, hent] at hv ⊢; simp; omega
      · rw [hH hi']
        simp only [hst]
        intro h hh
        by_cases hvl : v - s.versions.start ≤ hs.length
        · rw [List.drop_append_of_le_length hvl] at hh
          rcases List.mem_append.mp hh with h1 | h1
          · exact hall h h1
          · rw [List.mem_singleton.mp h1]
            refine List.IsPrefix.trans ?_ hpre
            have hlen : s.versions.entries.length = hs.length := by rw [hG.versions]; simp
            have : v - s.versions.start < hs.length := by
              unfold FloatingSeq.len at hv
              have : 0 < hs.length := by rw [hys]; simp
              omega
            apply hall
            apply List.mem_of_getLast?
            rw [List.getLast?_drop, if_neg (by omega)]; exact hG.last
        · exfalso
          have hlen : s.versions.entries.length = hs.length := by rw [hG.versions]; simp
          unfold FloatingSeq.len at hv; omega
      · simpa [hst] using hor
    · intro i j id hij hi hj hnc h hh
      have hi' := hback hi (by simp)
      have hj' := hback hj (by simp)
      have hnc' := (noCrash_mono (l := .operate op) (Nat.le_of_lt (hlt hj'))).mp hnc
      have := hG.acked i j id hij hi' hj' hnc'
      rw [hH hi']
      rcases List.mem_append.mp hh with h1 | h1
      · exact this h h1
      · rw [List.mem_singleton.mp h1]
        exact (prefix_of_mem_getLast this hG.last).trans hpre
  · refine ⟨ys ++ [h'], ?_, ?_, ?_, ?_, ?_⟩
    · have h1 := hG.versions
      rw [hent, h1, hys]
      rw [h1, hys] at hlast
      simp only [List.map_append, List.map_cons, List.map_nil, List.getLast?_append, List.getLast?_singleton,
        Option.some_or, Option.some.injEq] at hlast
      simp [hlast, hp']
    · have hm := hG.mono
      rw [hys, List.pairwise_append] at hm
      rw [List.pairwise_append]
      refine ⟨hm.1, by simp, ?_⟩
      intro a ha b hb
      rw [List.mem_singleton.mp hb]
      exact (hm.2.2 a ha _ (by simp)).trans hpre
    · simp [extH_succ]
    · intro i id hi hnc
      have hi' := hback hi (by simp)
      simp only [List.length_append, List.length_singleton] at hnc
      obtain ⟨_, hnc'⟩ := noCrash_of_snoc (hlt hi') hnc
      obtain ⟨v, hv, hall, hor⟩ := hG.pending i id hi' hnc'
      refine ⟨v, ?_, ?_, ?_⟩
      · simpa only [FloatingSeq.len, hst, hent] using hv
      · rw [hH hi']
        simp only [hst]
        have hlen : s.versions.entries.length = ys.length + 1 := by rw [hG.versions, hys]; simp
        have hvl : v - s.versions.start ≤ ys.length := by
          unfold FloatingSeq.len at hv
          omega
        rw [hys, List.drop_append_of_le_length hvl] at hall
        intro h hh
        rw [List.drop_append_of_le_length hvl] at hh
        rcases List.mem_append.mp hh with h1 | h1
        · exact hall h (List.mem_append_left _ h1)
        · rw [List.mem_singleton.mp h1]
          exact (hall _ (by simp)).trans hpre
      · simpa [hst] using hor
    · intro i j id hij hi hj hnc h hh
      have hi' := hback hi (by simp)
      have hj' := hback hj (by simp)
      have hnc' := (noCrash_mono (l := .operate op) (Nat.le_of_lt (hlt hj'))).mp hnc
      have := hG.acked i j id hij hi' hj' hnc'
      rw [hH hi']
      rw [hys] at this
      rcases List.mem_append.mp hh with h1 | h1
      · exact this h (List.mem_append_left _ h1)
      · rw [List.mem_singleton.mp h1]
        exact (this _ (by simp)).trans hpre

theorem ctam_explains {tr s} (h : machine.Exec tr s) :
    ∃ H hs, Explains tr H ∧ Ghost tr s H hs := by
  apply Machine.exec_invariant
    (I := fun tr s => ∃ H hs, Explains tr H ∧ Ghost tr s H hs) _ _ h
  · intro s hs
    simp only [machine, Init] at hs
    subst hs
    refine ⟨fun _ => [], [[]], ?_, ?_⟩
    · constructor <;> simp
    · refine ⟨?_, ?_, ?_, ?_, ?_⟩ <;> simp [FloatingSeq.new, mapOf_nil]
  · rintro tr s l s' ⟨H, hs, hE, hG⟩ hstep
    have hlt : ∀ {i : Nat} {y : Label}, tr[i]? = some y → i < tr.length := fun h =>
      (List.getElem?_eq_some_iff.mp h).1
    have hlen : s.versions.entries.length = hs.length := by rw [hG.versions]; simp
    have hpos : 0 < hs.length := by
      obtain ⟨ys, hys⟩ := List.getLast?_eq_some_iff.mp hG.last
      rw [hys]; simp
    have hlastmap : s.versions.last? = some (mapOf (H tr.length)) := by
      unfold FloatingSeq.last? FloatingSeq.get? FloatingSeq.len
      rw [if_pos (by omega)]
      have hidx : s.versions.start + s.versions.entries.length - 1 - s.versions.start
          = s.versions.entries.length - 1 := by omega
      rw [hidx, ← List.getLast?_eq_getElem?, hG.versions, List.getLast?_map, hG.last]; rfl
    cases hstep with
    | @operate op versions' eph' p p' hopt hp hp' hn =>
      rw [hlastmap] at hp
      cases hp
      -- new history
      have hfacts : p' = mapOf (H tr.length ++ putsOf (.operate op)) ∧
          (∀ req reply k, op = .execute req reply → req.input = .query k →
            reply.output = .query (lookup (H tr.length) k)) ∧
          (∀ req reply k v, op = .execute req reply → req.input = .put k v →
            reply.output = .put) := by
        cases hn with
        | request => exact ⟨by simp [putsOf_request], by simp, by simp⟩
        | reply => exact ⟨by simp [putsOf_reply], by simp, by simp⟩
        | execute h1 h2 h3 h4 =>
          obtain ⟨g1, g2, g3⟩ := mapSpec_step h4 _ _ rfl rfl
          refine ⟨g1, ?_, ?_⟩
          · rintro _ _ k ⟨⟩ hk; exact g2 k hk
          · rintro _ _ k v ⟨⟩ hk; exact g3 k v hk
      obtain ⟨hs', hG'⟩ := ghost_operate (op := op) (eph' := eph') hG
        (List.prefix_append _ (putsOf (.operate op))) hopt hp' hfacts.1
      refine ⟨_, hs', ?_, hG'⟩
      apply hE.extend
      · intro _; rfl
      · simp
      · intro req reply k h1 h2
        cases h1
        exact hfacts.2.1 _ _ _ rfl h2
      · intro req reply k v h1 h2
        cases h1
        exact hfacts.2.2 _ _ _ _ rfl h2
      · intro i j id hij hi hj hnc
        exact (prefix_of_mem_getLast (hG.acked i j id hij hi hj hnc) hG.last).trans
          (List.prefix_append _ _)
      · simp
    | crash =>
      -- keep the first ghost
      obtain ⟨h0, ys, rfl⟩ : ∃ h0 ys, hs = h0 :: ys := by
        cases hs with
        | nil => simp at hpos
        | cons a b => exact ⟨a, b, rfl⟩
      have h0last : h0 <+: H tr.length := pairwise_prefix_last hG.mono hG.last h0 (by simp)
      refine ⟨extH tr.length H h0, [h0], ?_, ?_⟩
      · apply hE.extend
        · simp
        · intro _; exact h0last
        · simp
        · simp
        · intro i j id hij hi hj hnc
          exact hG.acked i j id hij hi hj hnc h0 (by simp)
        · simp
      · refine ⟨?_, by simp, by simp [extH_succ], ?_, ?_⟩
        · have : (s.versions.getPrefix (s.versions.start + 1)).entries = s.versions.entries.take 1 := by
            unfold FloatingSeq.getPrefix
            rw [if_neg (by omega)]
            simp
          exact this.trans (by rw [hG.versions]; simp)
        · intro i id hi hnc
          exfalso
          rcases getElem?_snoc_cases hi with ⟨hi, _⟩ | ⟨_, hi⟩
          · simp only [List.length_append, List.length_singleton] at hnc
            exact (noCrash_of_snoc hi hnc).1 rfl
          · cases hi
        · intro i j id hij hi hj hnc h hh
          have hj' : tr[j]? = some (.replySync id) := by
            rcases getElem?_snoc_cases hj with ⟨_, h⟩ | ⟨_, h⟩
            · exact h
            · cases h
          have hi' : tr[i]? = some (.reqSync id) := by
            rcases getElem?_snoc_cases hi with ⟨_, h⟩ | ⟨_, h⟩
            · exact h
            · cases h
          have hnc' := (noCrash_mono (l := .crash) (Nat.le_of_lt (hlt hj'))).mp hnc
          rw [extH_le (Nat.le_of_lt (hlt hi'))]
          exact hG.acked i j id hij hi' hj' hnc' h (by simp at hh ⊢; exact .inl hh)
    | @sync newStable h1 h2 =>
      simp only [State.stableIndex, FloatingSeq.firstActiveIndex] at h1
      have hn : newStable - s.versions.start < hs.length := by
        unfold FloatingSeq.len at h2; omega
      refine ⟨extH tr.length H (H tr.length), hs.drop (newStable - s.versions.start), ?_, ?_⟩
      · apply hE.extend
        · simp [putsOf]
        · simp
        · simp
        · simp
        · intro i j id hij hi hj hnc
          exact prefix_of_mem_getLast (hG.acked i j id hij hi hj hnc) hG.last
        · simp
      · refine ⟨?_, ?_, ?_, ?_, ?_⟩
        · simp [FloatingSeq.getSuffix, hG.versions, List.map_drop]
        · exact hG.mono.sublist (List.drop_sublist _ _)
        · rw [List.getLast?_drop, if_neg (by omega), hG.last]
          simp [extH_succ]
        · intro i id hi hnc
          have hi' : tr[i]? = some (.reqSync id) := by
            rcases getElem?_snoc_cases hi with ⟨_, h⟩ | ⟨_, h⟩
            · exact h
            · cases h
          simp only [List.length_append, List.length_singleton] at hnc
          obtain ⟨_, hnc'⟩ := noCrash_of_snoc (hlt hi') hnc
          obtain ⟨v, hv, hall, hor⟩ := hG.pending i id hi' hnc'
          rw [extH_le (Nat.le_of_lt (hlt hi'))]
          refine ⟨v, ?_, ?_, ?_⟩
          · simp only [FloatingSeq.len, FloatingSeq.getSuffix, List.length_drop] at hv h2 ⊢; omega
          · simp only [FloatingSeq.getSuffix, List.drop_drop]
            intro h hh
            apply hall
            refine List.mem_of_mem_drop (i := newStable - s.versions.start + (v - newStable) - (v - s.versions.start)) ?_
            rw [List.drop_drop]
            have : v - s.versions.start + (newStable - s.versions.start + (v - newStable) - (v - s.versions.start))
              = newStable - s.versions.start + (v - newStable) := by omega
            rwa [this]
          · simp only [FloatingSeq.getSuffix]
            rcases hor with h | h
            · exact .inl h
            · exact .inr (by omega)
        · intro i j id hij hi hj hnc h hh
          have hj' : tr[j]? = some (.replySync id) := by
            rcases getElem?_snoc_cases hj with ⟨_, h⟩ | ⟨_, h⟩
            · exact h
            · cases h
          have hi' : tr[i]? = some (.reqSync id) := by
            rcases getElem?_snoc_cases hi with ⟨_, h⟩ | ⟨_, h⟩
            · exact h
            · cases h
          have hnc' := (noCrash_mono (l := .sync) (Nat.le_of_lt (hlt hj'))).mp hnc
          rw [extH_le (Nat.le_of_lt (hlt hi'))]
          exact hG.acked i j id hij hi' hj' hnc' h (List.mem_of_mem_drop hh)
    | @reqSync id0 h1 =>
      refine ⟨extH tr.length H (H tr.length), hs, ?_, ?_⟩
      · apply hE.extend
        · simp [putsOf]
        · simp
        · simp
        · simp
        · intro i j id hij hi hj hnc
          exact prefix_of_mem_getLast (hG.acked i j id hij hi hj hnc) hG.last
        · simp
      · refine ⟨hG.versions, hG.mono, by simp [extH_succ, hG.last], ?_, ?_⟩
        · intro i id hi hnc
          rcases getElem?_snoc_cases hi with ⟨_, hi'⟩ | ⟨rfl, hi'⟩
          · simp only [List.length_append, List.length_singleton] at hnc
            obtain ⟨_, hnc'⟩ := noCrash_of_snoc (hlt hi') hnc
            obtain ⟨v, hv, hall, hor⟩ := hG.pending i id hi' hnc'
            rw [extH_le (Nat.le_of_lt (hlt hi'))]
            refine ⟨v, hv, hall, ?_⟩
            rcases hor with h | h
            · left
              have : id ≠ id0 := by
                rintro rfl; exact h1 (by simp [PMap.Has, h])
              simpa [PMap.insert_other _ _ this] using h
            · exact .inr h
          · cases hi'
            rw [extH_le (Nat.le_refl _)]
            refine ⟨s.versions.len - 1, ?_, ?_, .inl (by simp)⟩
            · simp only [FloatingSeq.len]; omega
            · intro h hh
              have : s.versions.len - 1 - s.versions.start = hs.length - 1 := by
                simp only [FloatingSeq.len]; omega
              rw [this] at hh
              obtain ⟨ys, hys⟩ := List.getLast?_eq_some_iff.mp hG.last
              rw [hys] at hh
              simp at hh
              rw [hh]; exact List.prefix_refl _
        · intro i j id hij hi hj hnc h hh
          have hj' : tr[j]? = some (.replySync id) := by
            rcases getElem?_snoc_cases hj with ⟨_, h⟩ | ⟨_, h⟩
            · exact h
            · cases h
          have hi' : tr[i]? = some (.reqSync id) := by
            rcases getElem?_snoc_cases hi with ⟨_, h⟩ | ⟨hx, h⟩
            · exact h
            · have := hlt hj'; omega
          have hnc' := (noCrash_mono (l := .reqSync id0) (Nat.le_of_lt (hlt hj'))).mp hnc
          rw [extH_le (Nat.le_of_lt (hlt hi'))]
          exact hG.acked i j id hij hi' hj' hnc' h hh
    | @replySync id0 v0 h1 h2 =>
      simp only [State.stableIndex, FloatingSeq.firstActiveIndex] at h2
      -- everything pending under this id is now covered by every kept version
      have hcov : ∀ i : Nat, tr[i]? = some (.reqSync id0) → NoCrashBetween tr i tr.length →
          ∀ h ∈ hs, H i <+: h := by
        intro i hi hnc
        obtain ⟨v, hv, hall, hor⟩ := hG.pending i id0 hi hnc
        have : v ≤ s.versions.start := by
          rcases hor with h | h
          · rw [h1] at h; cases h; exact h2
          · exact h
        have : v - s.versions.start = 0 := by omega
        rw [this] at hall
        simpa using hall
      refine ⟨extH tr.length H (H tr.length), hs, ?_, ?_⟩
      · apply hE.extend
        · simp [putsOf]
        · simp
        · simp
        · simp
        · intro i j id hij hi hj hnc
          exact prefix_of_mem_getLast (hG.acked i j id hij hi hj hnc) hG.last
        · intro i id hi hl hnc
          cases hl
          exact prefix_of_mem_getLast (hcov i hi hnc) hG.last
      · refine ⟨hG.versions, hG.mono, by simp [extH_succ, hG.last], ?_, ?_⟩
        · intro i id hi hnc
          have hi' : tr[i]? = some (.reqSync id) := by
            rcases getElem?_snoc_cases hi with ⟨_, h⟩ | ⟨_, h⟩
            · exact h
            · cases h
          simp only [List.length_append, List.length_singleton] at hnc
          obtain ⟨_, hnc'⟩ := noCrash_of_snoc (hlt hi') hnc
          obtain ⟨v, hv, hall, hor⟩ := hG.pending i id hi' hnc'
          rw [extH_le (Nat.le_of_lt (hlt hi'))]
          refine ⟨v, hv, hall, ?_⟩
          rcases hor with h | h
          · by_cases hid : id = id0
            · subst hid
              rw [h1] at h; cases h
              exact .inr h2
            · left
              simpa [PMap.remove_other _ hid] using h
          · exact .inr h
        · intro i j id hij hi hj hnc h hh
          have hi' : tr[i]? = some (.reqSync id) := by
            rcases getElem?_snoc_cases hi with ⟨_, h⟩ | ⟨_, h⟩
            · exact h
            · cases h
          rw [extH_le (Nat.le_of_lt (hlt hi'))]
          rcases getElem?_snoc_cases hj with ⟨hjl, hj'⟩ | ⟨rfl, hj'⟩
          · have hnc' := (noCrash_mono (l := .replySync id0) (Nat.le_of_lt hjl)).mp hnc
            exact hG.acked i j id hij hi' hj' hnc' h hh
          · cases hj'
            exact hcov i hi' ((noCrash_mono (Nat.le_refl _)).mp hnc) h hh
    | noop =>
      refine ⟨extH tr.length H (H tr.length), hs, ?_, ?_⟩
      · apply hE.extend
        · simp [putsOf]
        · simp
        · simp
        · simp
        · intro i j id hij hi hj hnc
          exact prefix_of_mem_getLast (hG.acked i j id hij hi hj hnc) hG.last
        · simp
      · refine ⟨hG.versions, hG.mono, by simp [extH_succ, hG.last], ?_, ?_⟩
        · intro i id hi hnc
          have hi' : tr[i]? = some (.reqSync id) := by
            rcases getElem?_snoc_cases hi with ⟨_, h⟩ | ⟨_, h⟩
            · exact h
            · cases h
          simp only [List.length_append, List.length_singleton] at hnc
          obtain ⟨_, hnc'⟩ := noCrash_of_snoc (hlt hi') hnc
          rw [extH_le (Nat.le_of_lt (hlt hi'))]
          exact hG.pending i id hi' hnc'
        · intro i j id hij hi hj hnc h hh
          have hj' : tr[j]? = some (.replySync id) := by
            rcases getElem?_snoc_cases hj with ⟨_, h⟩ | ⟨_, h⟩
            · exact h
            · cases h
          have hi' : tr[i]? = some (.reqSync id) := by
            rcases getElem?_snoc_cases hi with ⟨_, h⟩ | ⟨_, h⟩
            · exact h
            · cases h
          have hnc' := (noCrash_mono (l := .noop) (Nat.le_of_lt (hlt hj'))).mp hnc
          rw [extH_le (Nat.le_of_lt (hlt hi'))]
          exact hG.acked i j id hij hi' hj' hnc' h hh

/-- Some event satisfying `P` occurred, and since then neither a crash nor an event
satisfying `Q`. -/
def Since (tr : List Label) (P Q : Label → Prop) : Prop :=
  ∃ (i : Nat) (y : Label), tr[i]? = some y ∧ P y ∧
    ∀ (m : Nat) (z : Label), i < m → tr[m]? = some z → z ≠ .crash ∧ ¬ Q z

theorem Since.snoc {tr l P Q} (h : Since tr P Q) (h1 : l ≠ .crash) (h2 : ¬ Q l) :
    Since (tr ++ [l]) P Q := by
  obtain ⟨i, y, hi, hP, hall⟩ := h
  refine ⟨i, y, ?_, hP, ?_⟩
  · rw [getElem?_snoc_of_lt (List.getElem?_eq_some_iff.mp hi).1]; exact hi
  · intro m z hm hz
    rcases getElem?_snoc_cases hz with ⟨_, h⟩ | ⟨_, rfl⟩
    · exact hall m z hm h
    · exact ⟨h1, h2⟩

theorem Since.here {tr l P Q} (h : P l) : Since (tr ++ [l]) P Q := by
  refine ⟨tr.length, l, by simp, h, ?_⟩
  intro m z hm hz
  have := (List.getElem?_eq_some_iff.mp hz).1
  simp at this; omega

theorem matched_snoc {tr l} (hM : Matched tr)
    (h1 : ∀ req reply, l = .operate (.execute req reply) → req.id = reply.id ∧
      Since tr (· = .operate (.request req)) (fun z => ∃ r, z = .operate (.execute req r)))
    (h2 : ∀ reply, l = .operate (.reply reply) →
      Since tr (fun z => ∃ req, z = .operate (.execute req reply)) (· = .operate (.reply reply)))
    (h3 : ∀ id, l = .replySync id → Since tr (· = .reqSync id) (· = .replySync id)) :
    Matched (tr ++ [l]) := by
  have up : ∀ {i : Nat}, i < tr.length → (tr ++ [l])[i]? = tr[i]? := fun h =>
    getElem?_snoc_of_lt h
  have lt : ∀ {i : Nat} {y : Label}, tr[i]? = some y → i < tr.length := fun h =>
    (List.getElem?_eq_some_iff.mp h).1
  constructor
  · intro j req reply hj
    rcases getElem?_snoc_cases hj with ⟨hjl, hj⟩ | ⟨rfl, hj'⟩
    · obtain ⟨hid, i, hij, hi, hnc, hno⟩ := hM.executed j req reply hj
      refine ⟨hid, i, hij, by rw [up (by omega)]; exact hi, (noCrash_mono (by omega)).mpr hnc, ?_⟩
      intro m hm1 hm2; rw [up (by omega)]; exact hno m hm1 hm2
    · obtain ⟨hid, i, y, hi, rfl, hall⟩ := h1 req reply hj'
      refine ⟨hid, i, lt hi, by rw [up (lt hi)]; exact hi, ?_, ?_⟩
      · intro m hm1 hm2 hm; rw [up hm2] at hm; exact (hall m _ hm1 hm).1 rfl
      · intro m hm1 hm2 r hm; rw [up hm2] at hm; exact (hall m _ hm1 hm).2 ⟨r, rfl⟩
  · intro j reply hj
    rcases getElem?_snoc_cases hj with ⟨hjl, hj⟩ | ⟨rfl, hj'⟩
    · obtain ⟨i, req, hij, hi, hnc, hno⟩ := hM.replied j reply hj
      refine ⟨i, req, hij, by rw [up (by omega)]; exact hi, (noCrash_mono (by omega)).mpr hnc, ?_⟩
      intro m hm1 hm2; rw [up (by omega)]; exact hno m hm1 hm2
    · obtain ⟨i, y, hi, ⟨req, rfl⟩, hall⟩ := h2 reply hj'
      refine ⟨i, req, lt hi, by rw [up (lt hi)]; exact hi, ?_, ?_⟩
      · intro m hm1 hm2 hm; rw [up hm2] at hm; exact (hall m _ hm1 hm).1 rfl
      · intro m hm1 hm2 hm; rw [up hm2] at hm; exact (hall m _ hm1 hm).2 rfl
  · intro j id hj
    rcases getElem?_snoc_cases hj with ⟨hjl, hj⟩ | ⟨rfl, hj'⟩
    · obtain ⟨i, hij, hi, hnc, hno⟩ := hM.synced j id hj
      refine ⟨i, hij, by rw [up (by omega)]; exact hi, (noCrash_mono (by omega)).mpr hnc, ?_⟩
      intro m hm1 hm2; rw [up (by omega)]; exact hno m hm1 hm2
    · obtain ⟨i, y, hi, rfl, hall⟩ := h3 id hj'
      refine ⟨i, lt hi, by rw [up (lt hi)]; exact hi, ?_, ?_⟩
      · intro m hm1 hm2 hm; rw [up hm2] at hm; exact (hall m _ hm1 hm).1 rfl
      · intro m hm1 hm2 hm; rw [up hm2] at hm; exact (hall m _ hm1 hm).2 rfl

theorem ctam_matched {tr s} (h : machine.Exec tr s) : Matched tr := by
  have := Machine.exec_invariant (M := machine)
    (I := fun tr s => Matched tr ∧
      (∀ req, s.ephemeral.requests req →
        Since tr (· = .operate (.request req)) (fun z => ∃ r, z = .operate (.execute req r))) ∧
      (∀ reply, s.ephemeral.replies reply →
        Since tr (fun z => ∃ req, z = .operate (.execute req reply))
          (· = .operate (.reply reply))) ∧
      (∀ id v, s.syncRequests id = some v → Since tr (· = .reqSync id) (· = .replySync id)))
    ?_ ?_ h
  · exact this.1
  · intro s hs
    simp only [machine, Init] at hs
    subst hs
    refine ⟨by constructor <;> simp, by simp [EphemeralState.init], by simp [EphemeralState.init],
      by simp⟩
  · rintro tr s l s' ⟨hM, hq, hr, hsy⟩ hstep
    cases hstep with
    | operate hopt hp hp' hn =>
      cases hn with
      | request hnew =>
        refine ⟨matched_snoc hM (by simp) (by simp) (by simp), ?_, ?_, ?_⟩
        · rintro req (rfl | hreq)
          · exact .here rfl
          · exact (hq req hreq).snoc (by simp) (by simp)
        · intro r hr'; exact (hr r hr').snoc (by simp) (by simp)
        · intro id v hv; exact (hsy id v hv).snoc (by simp) (by simp)
      | @execute req reply h1 h2 h3 h4 h5 =>
        refine ⟨matched_snoc hM ?_ (by simp) (by simp), ?_, ?_, ?_⟩
        · rintro _ _ ⟨⟩; exact ⟨by assumption, hq _ (by assumption)⟩
        · rintro r ⟨hreq, hne⟩
          refine (hq r hreq).snoc (by simp) ?_
          rintro ⟨_, ⟨⟩⟩; exact hne rfl
        · rintro r (rfl | hr')
          · exact .here ⟨_, rfl⟩
          · exact (hr r hr').snoc (by simp) (by simp)
        · intro id v hv; exact (hsy id v hv).snoc (by simp) (by simp)
      | reply hin =>
        refine ⟨matched_snoc hM (by simp) ?_ (by simp), ?_, ?_, ?_⟩
        · rintro _ ⟨⟩; exact hr _ hin
        · intro r hr'; exact (hq r hr').snoc (by simp) (by simp)
        · rintro r ⟨hr', hne⟩
          exact (hr r hr').snoc (by simp) (by simpa using Ne.symm hne)
        · intro id v hv; exact (hsy id v hv).snoc (by simp) (by simp)
    | crash =>
      refine ⟨matched_snoc hM (by simp) (by simp) (by simp), by simp [EphemeralState.init],
        by simp [EphemeralState.init], by simp⟩
    | sync =>
      refine ⟨matched_snoc hM (by simp) (by simp) (by simp), ?_, ?_, ?_⟩
      · intro r hr'; exact (hq r hr').snoc (by simp) (by simp)
      · intro r hr'; exact (hr r hr').snoc (by simp) (by simp)
      · intro id v hv; exact (hsy id v hv).snoc (by simp) (by simp)
    | @reqSync id0 hnew =>
      refine ⟨matched_snoc hM (by simp) (by simp) (by simp), ?_, ?_, ?_⟩
      · intro r hr'; exact (hq r hr').snoc (by simp) (by simp)
      · intro r hr'; exact (hr r hr').snoc (by simp) (by simp)
      · intro id v hv
        by_cases hid : id = id0
        · subst hid; exact .here rfl
        · simp only [PMap.insert_other _ _ hid] at hv
          exact (hsy id v hv).snoc (by simp) (by simp)
    | @replySync id0 v0 h1 h2 =>
      refine ⟨matched_snoc hM (by simp) (by simp) ?_, ?_, ?_, ?_⟩
      · rintro _ ⟨⟩; exact hsy _ _ h1
      · intro r hr'; exact (hq r hr').snoc (by simp) (by simp)
      · intro r hr'; exact (hr r hr').snoc (by simp) (by simp)
      · intro id v hv
        by_cases hid : id = id0
        · subst hid; simp at hv
        · simp only [PMap.remove_other _ hid] at hv
          exact (hsy id v hv).snoc (by simp) (by simpa using Ne.symm hid)
    | noop =>
      refine ⟨matched_snoc hM (by simp) (by simp) (by simp), ?_, ?_, ?_⟩
      · intro r hr'; exact (hq r hr').snoc (by simp) (by simp)
      · intro r hr'; exact (hr r hr').snoc (by simp) (by simp)
      · intro id v hv; exact (hsy id v hv).snoc (by simp) (by simp)

/-- Every execution of the crash-tolerant map specification keeps the client contract. -/
theorem ctam_good {tr s} (h : machine.Exec tr s) : Good tr := by
  obtain ⟨H, hs, hE, _⟩ := ctam_explains h
  exact ⟨⟨H, hE⟩, ctam_matched h⟩

end Verif.ClientSpec
