import Verif.Marshal.KV
import Verif.Marshal.Variable
/-
C40. Decoders ask for no more memory than the input justifies.

In the model every decoder takes a bound `mem` on the number of elements it may reserve with one
`Vec::with_capacity`; asking for more is a panic. The claim: a bound equal to the length of the
input is always enough. It holds for integers, arrays and pairs. It does not hold for tables: their
`try_parse` reserves what the length field says before it looks whether that can be true
(ResizableUniformSizedSeq_v.rs 531). With that check moved before the reservation it holds.
-/
namespace Verif.C40
open Verif.Marshal

/-- A decoder for which memory proportional to its input is enough, whatever the input. -/
def Frugal {V : Type} (tryParse : Nat → Slice → Bytes → Exec (Option V)) : Prop :=
  ∀ s d, s.Valid d → d.length ≤ usizeMax → ∀ mem, s.end_ - s.start ≤ mem →
    ∃ o, tryParse mem s d = .ok o

theorem frugal_of_modest {V : Type} {f : Fmt V} (h : f.Lawful) (hm : f.Modest) :
    Frugal f.tryParse := by
  intro s d hv hd mem hmem
  have hs := hm mem (s.i d) (by rw [hv.len_i]; exact hmem)
  by_cases hp : f.Parsable (s.i d)
  · exact ⟨_, h.parses hv hd hp hs⟩
  · exact ⟨_, h.refuses hv hd hp hs⟩

theorem int_frugal (t : IntTy) : Frugal (intTryParse t) :=
  frugal_of_modest (f := intFmt t) (int_lawful t) (int_modest t)

theorem array_frugal {V : Type} {f : UFmt V} (h : f.Lawful) (hm : f.toFmt.Modest) :
    Frugal (Uniform.tryParse f) :=
  frugal_of_modest (f := Uniform.fmt f) (Uniform.lawful h) (Uniform.modest h.pos hm)

theorem pair_frugal {K D : Type} {w : KV K D} (h : w.Valid) (hk : w.keyf.Modest)
    (hd : w.dataf.Modest) : Frugal w.tryParse :=
  frugal_of_modest (f := w.fmt) (KV.lawful h) (KV.modest hk hd)

/-- The claim for the formats of which it is true. Missing: tables, and with them the
well-formedness check of pages, of which it is false (`table_not_frugal`, `page_not_frugal`). -/
theorem frugal_partial : (∀ t, Frugal (intTryParse t)) ∧
    (∀ {V : Type} {f : UFmt V}, f.Lawful → f.toFmt.Modest → Frugal (Uniform.tryParse f)) ∧
    (∀ {K D : Type} {w : KV K D}, w.Valid → w.keyf.Modest → w.dataf.Modest → Frugal w.tryParse) :=
  ⟨int_frugal, array_frugal, pair_frugal⟩

/-- Pairs of byte strings, for one. -/
example : Frugal (KV.tryParse ⟨Uniform.fmt (intU .u8), Uniform.fmt (intU .u8), .u32⟩) :=
  pair_frugal ⟨Uniform.lawful (intU_lawful _), Uniform.lawful (intU_lawful _), by decide⟩
    (Uniform.modest (intU_lawful .u8).pos (int_modest .u8))
    (Uniform.modest (intU_lawful .u8).pos (int_modest .u8))

/-! Tables -/

/-- One-byte elements behind a u32 count, in eight bytes. -/
def small : Rsz Nat := ⟨intU .u8, .u32, 8, 4⟩
theorem small_valid : small.Valid := ⟨intU_lawful _, by decide, by decide, by decide⟩
def hostile : Bytes := [255, 255, 255, 255, 0, 0, 0, 0]

/-- Eight bytes make the decoder ask for 2^32 - 1 elements; with less it panics. -/
theorem table_not_frugal : ∀ mem, mem < 2 ^ 32 - 1 → small.tryParse mem ⟨0, 8⟩ hostile = .panic := by
  intro mem hm
  unfold Rsz.tryParse
  rw [show small.tryLength ⟨0, 8⟩ hostile = .ok (some (2 ^ 32 - 1)) by decide]
  simp only [Exec.ok_bind]
  unfold withCapacity
  rw [if_neg (by omega)]
  rfl

/-- So does asking whether a page of variable-sized elements is well formed. -/
def smallPage : Var (List Nat) := ⟨Uniform.fmt (intU .u8), .u32, .u32, 8⟩
theorem smallPage_valid : smallPage.Valid :=
  ⟨Uniform.lawful (intU_lawful _), by decide, by decide, by decide, by decide⟩
theorem page_not_frugal : ∀ mem, mem < 2 ^ 32 - 1 →
    smallPage.execWellFormed mem ⟨0, 8⟩ hostile = .panic := by
  intro mem hm
  unfold Var.execWellFormed Rsz.tryParse
  rw [show smallPage.bdyf.tryLength ⟨0, 8⟩ hostile = .ok (some (2 ^ 32 - 1)) by decide]
  simp only [Exec.ok_bind]
  unfold withCapacity
  rw [if_neg (by omega)]
  rfl

/-- The repaired decoder: the length is compared with the capacity first. -/
def checked {V : Type} (r : Rsz V) (mem : Nat) (s : Slice) (d : Bytes) : Exec (Option (List V)) := do
  match ← r.tryLength s d with
  | none => pure none
  | some len =>
    if r.maxLength < len then pure none
    else
      withCapacity mem len
      collect (r.tryGetElt mem s d) len 0 []

/-- It gives the answer of the original whenever that gives one. -/
theorem checked_agrees {V : Type} {r : Rsz V} (h : r.Valid) {mem : Nat} {s : Slice} {d : Bytes}
    {o : Option (List V)} (hv : s.Valid d) (hd : d.length ≤ usizeMax)
    (hm : r.fmt.Suffices mem (s.i d)) (ho : r.tryParse mem s d = .ok o) :
    checked r mem s d = .ok o := by
  have hl := Rsz.tryLength_ok h hv hd
  have ht := Rsz.tryParse_ok h hv hd hm
  by_cases hc : r.total ≤ (s.i d).length ∧ r.maxLength < r.length (s.i d)
  · have hn : ¬ r.fmt.Parsable (s.i d) := by
      intro hp
      have := (hp.2 r.maxLength hc.2).1.2
      omega
    rw [ht.2 hn] at ho
    rw [← Exec.ok.inj ho]
    unfold checked
    rw [hl, if_pos hc.1]
    simp only [Exec.ok_bind]
    rw [if_pos hc.2]
    rfl
  · rw [← ho]
    unfold checked Rsz.tryParse
    rw [hl]
    by_cases h1 : r.total ≤ (s.i d).length
    · rw [if_pos h1]
      simp only [Exec.ok_bind]
      rw [if_neg (fun h2 => hc ⟨h1, h2⟩)]
    · rw [if_neg h1]
      rfl

/-- And it needs no more memory than the input is long. -/
theorem checked_frugal {V : Type} {r : Rsz V} (h : r.Valid) (hmo : r.eltf.toFmt.Modest) :
    Frugal (checked r) := by
  intro s d hv hd mem hmem
  have hl := Rsz.tryLength_ok h hv hd
  by_cases h1 : r.total ≤ (s.i d).length
  · by_cases h2 : r.maxLength < r.length (s.i d)
    · refine ⟨none, ?_⟩
      unfold checked
      rw [hl, if_pos h1]
      simp only [Exec.ok_bind]
      rw [if_pos h2]
      rfl
    · have h3 : r.maxLength ≤ r.total := by
        rw [h.max]
        exact Nat.le_trans (Nat.div_le_self _ _) (Nat.sub_le _ _)
      have hs : r.fmt.Suffices mem (s.i d) := by
        intro _
        rw [hv.len_i] at h1
        refine ⟨by omega, fun i _ _ => hmo _ _ ?_⟩
        unfold Rsz.getData
        rw [length_sub, hv.len_i]
        omega
      have ht := Rsz.tryParse_ok h hv hd hs
      by_cases hp : r.fmt.Parsable (s.i d)
      · exact ⟨_, checked_agrees h hv hd hs (ht.1 hp)⟩
      · exact ⟨_, checked_agrees h hv hd hs (ht.2 hp)⟩
  · refine ⟨none, ?_⟩
    unfold checked
    rw [hl, if_neg h1]
    rfl

example : ∃ o, checked small 8 ⟨0, 8⟩ hostile = .ok o :=
  checked_frugal small_valid (int_modest .u8) _ _ (by decide) (by decide) 8 (by decide)
example : checked small 8 ⟨0, 8⟩ hostile = .ok none := by decide
example : checked small 8 ⟨0, 8⟩ [2, 0, 0, 0, 7, 9, 1, 1] = .ok (some [7, 9]) :=
  checked_agrees small_valid (by decide) (by decide) (fun _ => ⟨by decide, fun _ _ _ => trivial⟩)
    (by decide)

end Verif.C40
