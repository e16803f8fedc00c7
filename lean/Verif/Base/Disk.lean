import Verif.Base.PMap
/-
Disk addresses. Models Splinter/src/spec/AsyncDisk_t.rs 24-53 and disk/GenericDisk_v.rs.
-/
namespace Verif

/-- AsyncDisk_t.rs 31-36 `Address` (`AU` and `Page` are `nat`, 24-27) -/
@[ext] structure Address where
  au : Nat
  page : Nat
  deriving DecidableEq, Repr

/-- GenericDisk_v.rs 235 -/
abbrev Pointer := Option Address

/-- GenericDisk_v.rs 236: `Ranking = Map<Address, nat>`. Only ever required to be defined on a
superset of the addresses in use, so modelled as a total function. -/
abbrev Ranking := Address → Nat

end Verif
