/-
Specification vocabulary for runs of parfu 0.6 in which memory, reads or writes fail.
-/
import Verif.Faults
import Mathlib.Data.List.Forall2
set_option autoImplicit false

namespace Parfu

/-- The system with other contents of the archive. -/
def Sys.withFile (s : Sys) (f : Option Bytes) : Sys := { s with file := f }

end Parfu

namespace Parfu.FaultsSpec
open Parfu

/-- The same happens in a run with failures and in one without: the same event, or the same bundle is
carried out by the same worker with the same previous contents of its memory; what reaches the archive
in spite of the failures, if anything, is put where it belongs and is no longer than it should be. -/
def SameEv : FEv → Ev → Prop
  | .ev e, e' => e = e'
  | .did r t m _ o, .wrote r' t' _ _ m' w =>
    r = r' ∧ t = t' ∧ m = m' ∧ ∀ v, o = some v → v.1 = w.1 ∧ v.2.length ≤ w.2.length
  | .did .., _ => False

/-- The failures of a run are these: while worker `r` carries out the bundle `t`, `P r t`. -/
def Follows (P : Nat → Bytes → Faults) (trF : List FEv) : Prop :=
  (∀ r t m F w, FEv.did r t m F w ∈ trF → F = P r t) ∧ (∀ r t b a m w, FEv.ev (.wrote r t b a m w) ∉ trF)

/-- What reached the archive, oldest first. -/
def writesF (tr : List FEv) : List WriteReq :=
  tr.filterMap fun e => match e with
    | .ev (.wrote _ _ _ _ _ w) => some w
    | .did _ _ _ _ o => o
    | _ => none

/-- Memory is there, every read brings all it can, every write of a buffer of this size is complete. -/
def NothingFails (F : Faults) (memory : Bytes) : Prop :=
  F.memory = true ∧ (∀ i, 2 ^ 31 ≤ F.reads i) ∧ F.write ≠ 0 ∧ memory.length ≤ F.write

/-- Every write fails. -/
def writesFail : Faults := ⟨true, fun _ => 2 ^ 31, 0⟩

end Parfu.FaultsSpec
