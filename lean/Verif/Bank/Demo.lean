import Verif.Bank.History
/-
Concrete executions of the bank program, for the examples beside the theorems.
-/
namespace Verif.Bank.Demo
open Verif Bank Simple

/-- Thread 0 moves 4 from account 0 to account 1, thread 1 wants to move 20 from account 1 to account 0. -/
def r0 : Request := ⟨⟨0, 1, 4⟩, 0⟩
def r1 : Request := ⟨⟨1, 0, 20⟩, 1⟩

/-- Both requests have arrived; thread 0 has the lower account, thread 1 waits for it. -/
def half : List Event := [.accept 0 r0, .accept 1 r1, .tau 0]

def halfState : State :=
  { accts := [.taken, .free 10 0, .free 10 0], nextId := 2, pcs := [.one r0 10, .got r1] }

theorem half_exec : (machine 3 10 2).Exec half halfState := by
  refine ⟨_, rfl, ?_⟩
  refine .cons (.accept (t := 0) (inp := ⟨0, 1, 4⟩) rfl) ?_
  refine .cons (.accept (t := 1) (inp := ⟨1, 0, 20⟩) rfl) ?_
  refine .cons (.lockFirst (t := 0) (v := 10) (r := r0) rfl ⟨by decide, by decide, by decide⟩ rfl) ?_
  exact .nil _

/-- Thread 0 is served; thread 1 is refused. -/
def rest : List Event :=
  [.tau 0, .execute 0 r0 ⟨true, 0⟩, .tau 0, .tau 1, .tau 0, .tau 1, .tau 1, .deliver 0 ⟨true, 0⟩,
   .tau 1, .tau 1, .execute 1 r1 ⟨false, 1⟩, .deliver 1 ⟨false, 1⟩]

def endState : State :=
  { accts := [.free 6 0, .free 14 0, .free 10 0], nextId := 2, pcs := [.idle, .idle] }

theorem rest_run : (machine 3 10 2).Run halfState rest endState := by
  refine .cons (.lockSecond (t := 0) (v := 10) (w := 10) (r := r0) rfl rfl) ?_
  refine .cons (.pay (t := 0) (r := r0) (vs := 10) (vd := 10) rfl (by decide)) ?_
  refine .cons (.storeSrc (t := 0) (r := r0) (vs := 6) (vd := 14) rfl) ?_
  refine .cons (.lockFirst (t := 1) (r := r1) (v := 6) rfl ⟨by decide, by decide, by decide⟩ rfl) ?_
  refine .cons (.storeDst (t := 0) (r := r0) (vd := 14) rfl) ?_
  refine .cons (.lockSecond (t := 1) (r := r1) (v := 6) (w := 14) rfl rfl) ?_
  refine .cons (.refuse (t := 1) (r := r1) (vs := 14) (vd := 6) rfl (by decide)) ?_
  refine .cons (.deliver (t := 0) rfl) ?_
  refine .cons (.backSrc (t := 1) (r := r1) (vs := 14) (vd := 6) rfl) ?_
  refine .cons (.backDst (t := 1) (r := r1) (vd := 6) rfl) ?_
  refine .cons (.fail (t := 1) (r := r1) rfl) ?_
  refine .cons (.deliver (t := 1) rfl) ?_
  exact .nil _

theorem end_exec : (machine 3 10 2).Exec (half ++ rest) endState := half_exec.append rest_run

/-- Thread 1 adds up the accounts while thread 0 moves 5 from account 1 to account 0. -/
def r2 : Request := ⟨⟨1, 0, 5⟩, 0⟩

def torn : List Event :=
  [.accept 0 r2, .startTotal 1, .tau 1, .tau 1, .tau 0, .tau 0, .execute 0 r2 ⟨true, 0⟩, .tau 0, .tau 0,
   .deliver 0 ⟨true, 0⟩, .tau 1, .tau 1, .totalled 1 15]

def tornState : State := { accts := [.free 15 0, .free 5 0], nextId := 1, pcs := [.idle, .idle] }

theorem torn_exec : (machine 2 10 2).Exec torn tornState := by
  refine ⟨_, rfl, ?_⟩
  refine .cons (.accept (t := 0) (inp := ⟨1, 0, 5⟩) rfl) ?_
  refine .cons (.startTotal (t := 1) rfl) ?_
  refine .cons (.lockTotal (t := 1) (i := 0) (v := 10) (k := 0) rfl (by decide) rfl) ?_
  refine .cons (.add (t := 1) (i := 0) (sum := 0) (v := 10) (k := 1) rfl rfl (by decide)) ?_
  refine .cons (.lockFirst (t := 0) (v := 10) (r := r2) rfl ⟨by decide, by decide, by decide⟩ rfl) ?_
  refine .cons (.lockSecond (t := 0) (v := 10) (w := 10) (r := r2) rfl rfl) ?_
  refine .cons (.pay (t := 0) (r := r2) (vs := 10) (vd := 10) rfl (by decide)) ?_
  refine .cons (.storeSrc (t := 0) (r := r2) (vs := 5) (vd := 15) rfl) ?_
  refine .cons (.storeDst (t := 0) (r := r2) (vd := 15) rfl) ?_
  refine .cons (.deliver (t := 0) rfl) ?_
  refine .cons (.lockTotal (t := 1) (i := 1) (v := 5) (k := 0) (sum := 10) rfl (by decide) rfl) ?_
  refine .cons (.add (t := 1) (i := 1) (sum := 10) (v := 5) (k := 1) rfl rfl (by decide)) ?_
  refine .cons (.totalled (t := 1) (i := 2) (sum := 15) rfl (by decide)) ?_
  exact .nil _

/-- After all that of `end_exec`, thread 0 looks at account 1 and thread 1 adds up. -/
def looked : List Event :=
  [.startCheck 0 1, .startTotal 1, .tau 1, .tau 0, .tau 1, .tau 1, .checked 0 1 14, .tau 1, .tau 1, .tau 1,
   .totalled 1 30]

theorem looked_exec : (machine 3 10 2).Exec (half ++ rest ++ looked) endState := by
  refine end_exec.append ?_
  refine .cons (.startCheck (t := 0) (i := 1) rfl (by decide)) ?_
  refine .cons (.startTotal (t := 1) rfl) ?_
  refine .cons (.lockTotal (t := 1) (i := 0) (v := 6) (k := 0) (sum := 0) rfl (by decide) rfl) ?_
  refine .cons (.lockCheck (t := 0) (i := 1) (v := 14) (k := 0) rfl rfl) ?_
  refine .cons (.add (t := 1) (i := 0) (sum := 0) (v := 6) (k := 1) rfl rfl (by decide)) ?_
  refine .cons (.lockTotal (t := 1) (i := 1) (v := 14) (k := 1) (sum := 6) rfl (by decide) rfl) ?_
  refine .cons (.checked (t := 0) (i := 1) (v := 14) (k := 2) rfl rfl) ?_
  refine .cons (.add (t := 1) (i := 1) (sum := 6) (v := 14) (k := 1) rfl rfl (by decide)) ?_
  refine .cons (.lockTotal (t := 1) (i := 2) (v := 10) (k := 0) (sum := 20) rfl (by decide) rfl) ?_
  refine .cons (.add (t := 1) (i := 2) (sum := 20) (v := 10) (k := 1) rfl rfl (by decide)) ?_
  refine .cons (.totalled (t := 1) (i := 3) (sum := 30) rfl (by decide)) ?_
  exact .nil _

end Verif.Bank.Demo
