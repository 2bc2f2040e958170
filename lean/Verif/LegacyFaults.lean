/-
Model of parfu 0.5.1 when the file system refuses to write (or read): what a rank does then.
-/
import Verif.LegacyProgram
set_option autoImplicit false

namespace Parfu

/-- A failure: `MPI_File_write_at` returns an error for the rank's write number `num` (from 0, the
catalog's included), having stored the first `stored` bytes.  With `stored = 0` this is also what an
error while that write's bucket is being made looks like: a file of it cannot be opened or read, memory
runs out. -/
structure LFault where
  num : Nat
  stored : Nat
  deriving DecidableEq, Repr

/-- What is done before the write number `k`, and that write. -/
def upToWrite : Nat → List LAct → Option (List LAct × WriteReq)
  | _, [] => none
  | 0, .write w :: _ => some ([], w)
  | k + 1, .write w :: rest => (upToWrite k rest).map fun (as, v) => (.write w :: as, v)
  | k, a :: rest => (upToWrite k rest).map fun (as, v) => (a :: as, v)

/-- parfu_data_transfer.cc:208-215, 225-233, 274-281, 892-901, 917-925 (a message, `MPI_Finalize`, return 169 or
160), 651-659, 776-786 (138, 159, without `MPI_Finalize`), 520-550 (return 12), 429-441 (return 88),
parfu_0_5_1_main_versA.c:263-273 (`main` returns 243): a rank with a failure does nothing more.  A failure at
a write the rank does not come to is none.
Simplification: the failing rank does not wait in its own `MPI_Finalize`; as the other ranks are in, or on
their way to, `MPI_Barrier` or `MPI_Bcast`, it takes part in none of their operations. -/
def RankProg.withFault (p : RankProg) : Option LFault → RankProg
  | none => p
  | some f =>
    match upToWrite f.num p.acts with
    | none => p
    | some (as, w) => ⟨as ++ [.write (w.1, w.2.take f.stored)], .exited 243⟩

/-- The program of every rank, each with its failure if it has one. -/
def faultyMain (fault : Nat → Option LFault) (L : LegEnv) (Q : QSort Frag) (nul : Bytes) (tree : Bytes → Option FNode × FNode)
    (args : List Bytes) (n : Nat) (openOk : Bool) (r : Nat) : RankProg :=
  (rankMain L Q nul tree args n openOk r).withFault (fault r)

end Parfu
