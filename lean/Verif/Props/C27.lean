import Verif.Disk.CacheSystem
import Verif.Disk.CacheDemo
/-
C27. Run the page cache on top of the disk with any schedule of loads, writes, write-backs,
evictions and disk processing. A read through the cache returns the data of the last write to that
page (or the initial disk content), a clean cached page equals the disk page, and eviction never
loses a write.

Specification: `latest c0 t a` is the data last written to page `a` through the cache by the steps
`t` (the initial disk content `c0 a` if there was none). `Mem` (in Disk/CacheSystem.lean) is the
memory of pages a client should see, including what may be lost in a crash.

As the code stands the claim is false: `lost_update` is an execution in which a read returns an
older value. The cause is that one batch of write-backs may contain the same page twice. For every
execution whose batches name each page at most once the claim is proved; the theorems carry the
suffix `_partial` because of that hypothesis (`Label.distinct`).
-/
namespace Verif.C27
open Verif.CacheSystem
open AsyncDisk (ID Req Resp)

variable {g : Geometry} {c0 : PMap Address RawPage}

/-- the data last written to `a` through the cache -/
def latest (c0 : PMap Address RawPage) : List Label → Address → Option RawPage
  | [], a => c0 a
  | .access _ wr :: t, a => latest (fun b => (wr b).orElse fun _ => c0 b) t a
  | _ :: t, a => latest c0 t a

def NoCrash (t : List Label) : Prop := ∀ l ∈ t, l ≠ .crash

/-- Cache and disk together behave as a crash-tolerant memory of pages: same accesses, same
durability checks, same crashes. -/
theorem cache_is_memory_partial {tr s} (h : (machine g c0).Exec tr s) (hd : ∀ l ∈ tr, l.distinct) :
    ∃ m, (Mem.machine c0).Exec (tr.map Label.obs) m := by
  obtain ⟨m, he, _⟩ := coh_exec h hd; exact ⟨m, he⟩

/-- memory content after a crash-free run -/
theorem mem_latest {t : List Label} {m0 m : Mem} (h : Machine.Run ⟨fun _ => True, Mem.Next⟩ m0
    (t.map Label.obs) m) (hc : NoCrash t) (a : Address) : m.mem a = latest m0.mem t a := by
  induction t generalizing m0 with
  | nil => cases h; rfl
  | cons l t ih =>
    cases h with
    | @cons _ _ m1 _ _ hs hr =>
      rw [ih hr (fun x hx => hc x (by simp [hx]))]
      have hl := hc l (by simp)
      cases l with
      | access rd wr =>
        cases hs with
        | access _ =>
          simp only [latest]
          congr 1
          funext b
          simp only [PMap.unionRight]
          cases wr b <;> rfl
      | evictable A => cases hs; rfl
      | crash => exact absurd rfl hl
      | ops => cases hs; rfl
      | cacheInternal => cases hs; rfl
      | diskInternal => cases hs; rfl

/-- the memory just before a label -/
theorem split_mem {t l t' s} (h : (machine g c0).Exec (t ++ l :: t') s)
    (hd : ∀ x ∈ t ++ l :: t', x.distinct) :
    ∃ m m' m'', Machine.Run ⟨fun _ => True, Mem.Next⟩ ⟨c0, fun a v => v = c0 a⟩ (t.map Label.obs) m ∧
      Mem.Next m l.obs m' ∧
      Machine.Run ⟨fun _ => True, Mem.Next⟩ m' (t'.map Label.obs) m'' := by
  obtain ⟨m, m0, h0, hr⟩ := cache_is_memory_partial h hd
  have h0 : m0 = ⟨c0, fun a v => v = c0 a⟩ := h0
  subst h0
  have conv : ∀ {x tr y}, (Mem.machine c0).Run x tr y →
      Machine.Run ⟨fun _ => True, Mem.Next⟩ x tr y := by
    intro x tr y hr
    induction hr with
    | nil => exact .nil _
    | cons hs _ ih => exact .cons hs ih
  have hr := conv hr
  rw [List.map_append] at hr
  obtain ⟨m1, h1, h2⟩ := hr.split
  cases h2 with
  | cons hs h3 => exact ⟨m1, _, m, h1, hs, h3⟩

/-- A read through the cache returns the last write to that page or the initial disk content. -/
theorem read_latest_partial {t rd wr t' s a d} (h : (machine g c0).Exec (t ++ .access rd wr :: t') s)
    (hd : ∀ l ∈ t ++ .access rd wr :: t', l.distinct) (hc : NoCrash t) (hr : rd a = some d) :
    ∀ x, latest c0 t a = some x → d = x := by
  intro x hx
  obtain ⟨m, m', m'', h1, h2, _⟩ := split_mem h hd
  cases h2 with
  | access hrd => exact hrd a d hr x (by rw [mem_latest h1 hc]; exact hx)

/-- A clean cached page equals the disk page (if the disk has one). -/
theorem clean_is_disk_partial {tr s} (h : (machine g c0).Exec tr s) (hd : ∀ l ∈ tr, l.distinct) {sl a d}
    (he : s.cache.entries sl = some (.filled a d)) (hcl : s.cache.status sl = some .clean) :
    ∀ x, s.disk.content a = some x → d = x := by
  obtain ⟨m, _, hcoh⟩ := coh_exec h hd
  intro x hx
  refine (hcoh.filled sl a d he).1 x ?_
  rw [← hcoh.disk a, hx]
  intro sl' d' he' hn
  have h1 := (hcoh.wf.look a sl').mpr ⟨_, he', rfl⟩
  have h2 := (hcoh.wf.look a sl).mpr ⟨_, he, rfl⟩
  rw [h1] at h2; cases h2
  rcases hn with hn | hn <;> rw [hcl] at hn <;> cases hn

/-- A page that is not in the cache, or is there clean, is on the disk in its latest version: so
evicting it loses nothing. -/
theorem evicted_is_latest_partial {tr s} (h : (machine g c0).Exec tr s) (hd : ∀ l ∈ tr, l.distinct)
    (hc : NoCrash tr) {a}
    (ha : ∀ sl, s.cache.lookup a = some sl → s.cache.status sl = some .clean) :
    s.disk.content a = latest c0 tr a := by
  obtain ⟨m, ⟨m0, h0, hr⟩, hcoh⟩ := coh_exec h hd
  have h0 : m0 = ⟨c0, fun a v => v = c0 a⟩ := h0
  subst h0
  have conv : ∀ {x tr y}, (Mem.machine c0).Run x tr y →
      Machine.Run ⟨fun _ => True, Mem.Next⟩ x tr y := by
    intro x tr y hr
    induction hr with
    | nil => exact .nil _
    | cons hs _ ih => exact .cons hs ih
  rw [← mem_latest (conv hr) hc a]
  refine hcoh.disk a ?_
  intro sl d he hn
  have := ha sl ((hcoh.wf.look a sl).mpr ⟨_, he, rfl⟩)
  rcases hn with hn | hn <;> rw [this] at hn <;> cases hn

/-- Durability: once the cache has confirmed that the page needs no write-back, its value survives
any number of crashes until it is written again. -/
theorem checked_survives_partial {t A u rd wr v s a d}
    (h : (machine g c0).Exec (t ++ .evictable A :: (u ++ .access rd wr :: v)) s)
    (hd : ∀ l ∈ t ++ .evictable A :: (u ++ .access rd wr :: v), l.distinct)
    (hc : NoCrash t) (hA : A a)
    (hu : ∀ rd' wr', .access rd' wr' ∈ u → wr' a = none) (hr : rd a = some d) :
    ∀ x, latest c0 t a = some x → d = x := by
  intro x hx
  obtain ⟨m, m', m'', h1, h2, h3⟩ := split_mem h hd
  have hm : m.mem a = some x := by rw [mem_latest h1 hc]; exact hx
  have hm' : m'.mem a = some x ∧ ∀ v, m'.cand a v → v = some x := by
    cases h2 with
    | durable => exact ⟨hm, fun v hv => by rw [hv.1 hA, hm]⟩
  rw [List.map_append] at h3
  obtain ⟨m2, h4, h5⟩ := h3.split
  have key : ∀ {p : Mem} {q : Mem} (w : List Label),
      (∀ rd' wr', .access rd' wr' ∈ w → wr' a = none) →
      Machine.Run ⟨fun _ => True, Mem.Next⟩ p (w.map Label.obs) q →
      (p.mem a = some x ∧ ∀ v, p.cand a v → v = some x) → q.mem a = some x := by
    intro p q w hw hrun hp
    induction w generalizing p with
    | nil => cases hrun; exact hp.1
    | cons l w ih =>
      cases hrun with
      | @cons _ _ p' _ _ hs hr =>
        refine ih (fun rd' wr' hm => hw rd' wr' (by simp [hm])) hr ?_
        cases l with
        | access rd' wr' =>
          have hn := hw rd' wr' (by simp)
          cases hs with
          | access _ =>
            refine ⟨by simp [PMap.unionRight, hn, hp.1], ?_⟩
            rintro v (hv | hv)
            · exact hp.2 v hv
            · rw [hv]; simp [PMap.unionRight, hn, hp.1]
        | evictable B =>
          cases hs with
          | durable => exact ⟨hp.1, fun v hv => hp.2 v hv.2⟩
        | crash =>
          cases hs with
          | crash hcr =>
            have := hp.2 _ (hcr a)
            exact ⟨this, fun v hv => by rw [hv]; exact this⟩
        | ops => cases hs; exact hp
        | cacheInternal => cases hs; exact hp
        | diskInternal => cases hs; exact hp
  have hm2 := key u hu h4 hm'
  cases h5 with
  | cons hs _ =>
    cases hs with
    | access hrd => exact hrd a d hr x hm2

/-! ### The code as written loses an update -/

/-- There is an execution without a crash in which the last write to a page was `[2]` and a later
read through the cache returns `[1]`. -/
theorem lost_update : ∃ g t rd wr s a d x, (machine g PMap.empty).Exec (t ++ [.access rd wr]) s ∧
    NoCrash t ∧ rd a = some d ∧ latest PMap.empty t a = some x ∧ d ≠ x := by
  obtain ⟨s, hs⟩ := CacheDemo.lost_exec
  refine ⟨CacheDemo.demoG, CacheDemo.lostTrace.dropLast, CacheDemo.at1 [1], PMap.empty, s,
    CacheDemo.pg, [1], [2], hs, ?_, CacheDemo.at1_some.mpr ⟨rfl, rfl⟩, ?_, by simp⟩
  · intro l hl
    simp only [CacheDemo.lostTrace, List.dropLast, List.mem_cons, List.not_mem_nil, or_false] at hl
    rcases hl with rfl | rfl | rfl | rfl | rfl | rfl | rfl | rfl | rfl | rfl | rfl | rfl | rfl |
      rfl <;> simp
  · rfl

/-! ### A concrete execution meeting the hypotheses: two different values for the initial disk -/

example : ∃ s, (machine CacheDemo.demoG (CacheDemo.at1 [9])).Exec CacheDemo.goodTrace s ∧
    (∀ l ∈ CacheDemo.goodTrace, l.distinct) ∧ NoCrash CacheDemo.goodHead ∧
    latest (CacheDemo.at1 [9]) CacheDemo.goodHead CacheDemo.pg = some [1] := by
  obtain ⟨s, hs⟩ := CacheDemo.good_exec (CacheDemo.at1 [9])
  refine ⟨s, hs, CacheDemo.good_distinct, ?_, rfl⟩
  intro l hl
  simp only [CacheDemo.goodHead, List.mem_cons, List.not_mem_nil, or_false] at hl
  rcases hl with rfl | rfl | rfl | rfl | rfl <;> simp

end Verif.C27
