/-
Model of the broadcasts of parfu 0.5.1 that name MPI_LONG_INT (parfu_data_transfer.cc): the type is the
pair of a `long` and an `int`, and what is passed is the address of a `long`.
-/
import Verif.LegacyMove
set_option autoImplicit false

namespace Parfu

/-- The bytes one element of MPI_LONG_INT moves: a `long` (8) and the `int` behind it (4). -/
def longIntBytes : Nat := 12

/-- parfu_data_transfer.cc:287, 352: `MPI_Bcast(&v, 1, MPI_LONG_INT, 0, ..)` on one rank: `root` is the memory
of rank 0's function with `v` at `src`, `mem` that of this rank with `v` at `dst`; the new memory of this rank.
An access outside the memory is undefined. -/
def bcastLongInt (root : Bytes) (src : Nat) (mem : Bytes) (dst : Nat) : Res Bytes :=
  if src + longIntBytes ≤ root.length then blit mem dst ((root.drop src).take longIntBytes) else .error .ub

/-- An `int` in memory, lowest byte first. -/
def intAt (mem : Bytes) (p : Nat) : Option Nat :=
  match (mem.drop p).take 4 with
  | [a, b, c, d] => some (a.toNat + 256 * (b.toNat + 256 * (c.toNat + 256 * d.toNat)))
  | _ => none

/-- parfu_data_transfer.cc:287, 428-436: this rank's part of the data, when the `int` at `dst + 8` is the
function's `my_rank`: what it then holds is what `parfu_wtar_archive_allbuckets_singFP` is called with. -/
def bucketsAfterBcast (root : Bytes) (src : Nat) (mem : Bytes) (dst n total : Nat) : Res (List Nat) :=
  match bcastLongInt root src mem dst with
  | .error e => .error e
  | .ok m => match intAt m (dst + 8) with
    | none => .error .ub
    | some r => .ok (rankBuckets n total r)

end Parfu
