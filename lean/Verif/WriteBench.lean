/-
Model of the write benchmark (parfu_write_test.c), an MPI program of its own: each rank writes its
buffer again and again to one of several files.
-/
import Verif.Move
set_option autoImplicit false

namespace Parfu

/-- parfu_write_test.c:84-88: the numbers on the command line (after `atoi`). -/
structure BenchArgs where
  /-- `data_bytes` -/
  data : Int
  /-- `buffer_size` -/
  buf : Int
  /-- `n_iterations` -/
  iters : Int
  /-- `n_archive_files` -/
  files : Int
  deriving DecidableEq, Repr

/-- parfu_write_test.c:116-120: first and last rank of the group of file `i`. -/
def benchRange (n f i : Int) : Int × Int :=
  (i, if (n / f) * f + i ≥ n then (n / f) * f + i - f else (n / f) * f + i)

/-- parfu_write_test.c:126: `n_ranks_in_archive_file[i]`. -/
def benchInFile (n f i : Int) : Int := ((benchRange n f i).2 - (benchRange n f i).1) / f + 1

/-- parfu_write_test.c:170: element `i` of the buffer, a little-endian `int`. -/
def benchElem (i : Nat) : Bytes :=
  let v := i * 22 + 7
  [UInt8.ofNat (v % 256), UInt8.ofNat (v / 256 % 256), UInt8.ofNat (v / 65536 % 256), UInt8.ofNat (v / 16777216 % 256)]

/-- parfu_write_test.c:162-171: the buffer after filling, from what `malloc` gave.  The number of
elements is a `size_t` division; leaving the buffer and overflowing `int` are undefined. -/
def benchFill (a : BenchArgs) (mem : Bytes) : Res Bytes :=
  let cnt := u64 a.data / 4
  if mem.length < 4 * cnt ∨ (0 < cnt ∧ 2 ^ 31 ≤ (cnt - 1) * 22 + 7) then .error .ub
  else .ok (((List.range cnt).map benchElem).flatten ++ mem.drop (4 * cnt))

/-- parfu_write_test.c:249-251: `stage_archive_file_offset`; the second product is made in `int`. -/
def benchOffset (a : BenchArgs) (n r i : Nat) : Res Nat :=
  if 2 ^ 31 ≤ (r / a.files.toNat) * a.buf.toNat then .error .ub
  else .ok (i * (n / a.files.toNat * a.buf.toNat) + (r / a.files.toNat) * a.buf.toNat)

/-- parfu_write_test.c:248-268: the writes of the iterations; `data_bytes` bytes of the buffer. -/
def benchLoop (a : BenchArgs) (n r : Nat) (buf : Bytes) : List Nat → Res (List WriteReq)
  | [] => .ok []
  | i :: is =>
    match benchOffset a n r i with
    | .error e => .error e
    | .ok off =>
      if buf.length < a.data.toNat then .error .ub
      else match benchLoop a n r buf is with
        | .error e => .error e
        | .ok ws => .ok ((off, buf.take a.data.toNat) :: ws)

/-- What one rank does to the files: which file, the size it is given first, and the writes. -/
structure BenchRank where
  file : Nat
  size : Nat
  writes : List WriteReq
  deriving DecidableEq, Repr

/-- parfu_write_test.c:84-289 as rank `r` of `n` runs it; `mem` is what `malloc(buffer_size)` gives.
With no files the remainder of a division by zero is taken; with a negative number or more than ten,
arrays are used outside or unset (the check in line 89 only prints).  With fewer ranks than files the
group of a file without ranks is refused by MPI, which aborts.  A negative buffer size cannot be
allocated (status -3); a negative number of iterations is a negative file size (status 4).
Simplifications: the files can be opened; sizes stay below 2^63; `malloc(0)` is not NULL. -/
def benchRank (a : BenchArgs) (n r : Nat) (mem : Bytes) : Res BenchRank :=
  if a.files < 1 ∨ 10 < a.files then .error .ub
  else if (n : Int) < a.files then .error (.exit 1)
  else if a.buf < 0 then .error (.exit 253)
  else
    match benchFill a mem with
    | .error e => .error e
    | .ok buf =>
      if a.iters < 0 then .error (.exit 4)
      else
        match benchLoop a n r buf (List.range a.iters.toNat) with
        | .error e => .error e
        | .ok ws =>
          .ok { file := r % a.files.toNat
                size := (benchInFile n a.files (r % a.files.toNat : Nat) * a.iters * a.buf).toNat
                writes := ws }

end Parfu
