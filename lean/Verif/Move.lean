/-
Model of the data mover of parfu 0.6: Parfu_rank_order_set::move_data_Create and
parfu_make_tar_header_at (parfu_rank_move_data.cc:100-262), and of the archive file.
-/
import Verif.March
set_option autoImplicit false

namespace Parfu

/-- The file system as the worker sees it: the object at a path. -/
abbrev FS := Bytes → Option FNode

/-- `lstat` of an object, and its link target.  Simplification: `st_size` of a directory or special
file is some fixed number (nothing is done with it). -/
def lstatNode : FNode → Stat × Bytes
  | .reg m c => (⟨.reg, m.perm, m.uid, m.gid, (c.length : Int), m.mtime⟩, [])
  | .lnk m t => (⟨.lnk, m.perm, m.uid, m.gid, (t.length : Int), m.mtime⟩, t)
  | .dir m _ _ => (⟨.dir, m.perm, m.uid, m.gid, 4096, m.mtime⟩, [])
  | .other m => (⟨.other, m.perm, m.uid, m.gid, 0, m.mtime⟩, [])

/-- `lstat`/`readlink` of a path. -/
def FS.lstat (fs : FS) (p : Bytes) : Option (Stat × Bytes) := (fs p).map lstatNode

/-- What opening a path for reading gives.  Simplification: links are not followed (the code only
opens paths that were regular files when scanned). -/
def FS.read (fs : FS) (p : Bytes) : Option Bytes :=
  match fs p with
  | some (.reg _ c) => some c
  | _ => none

/-- Copy `data` into a heap buffer at `off`; leaving the buffer is undefined behaviour. -/
def blit (buf : Bytes) (off : Nat) (data : Bytes) : Res Bytes :=
  if off + data.length ≤ buf.length then
    .ok (buf.take off ++ data ++ buf.drop (off + data.length))
  else .error .ub

/-- parfu_rank_move_data.cc:229-242 `parfu_make_tar_header_at`: the whole header is copied, whatever
length was planned. -/
def makeHeaderAt (env : Env) (fs : FS) (full : Bytes) (buf : Bytes) (loc : Nat) : Res Bytes := do
  let e ← tarentryCtor fs.lstat full 0
  let h ← makeTarHeader env e
  blit buf loc h

/-- parfu_rank_move_data.cc:170-175 `full_filename`. -/
def fullName (base rel : Bytes) : Bytes := if base.length ≠ 0 then base ++ [47] ++ rel else rel

/-- parfu_rank_move_data.cc:186-203: open and `MPI_File_read_at`: what is there of the requested range
is copied (a short read leaves the rest of the buffer as it was).  A failed open is only reported,
and then the unset handle is used.  A count of 2^31 or more is a negative `int`.
Simplification: other failures of the read are in Verif/Faults.lean. -/
def readInto (fs : FS) (full : Bytes) (off size : Nat) (buf : Bytes) (loc : Nat) : Res Bytes :=
  match fs.read full with
  | none => .error .ub
  | some c => if 2 ^ 31 ≤ size then .error .ub else blit buf loc ((c.drop off).take size)

/-- parfu_rank_move_data.cc:169-204: one iteration of the loop over the orders. -/
def moveOne (env : Env) (fs : FS) (base : Bytes) (start : Nat) (buf : Bytes) (w : WOrder) : Res Bytes :=
  match (if w.hdr ≠ 0 then makeHeaderAt env fs (fullName base w.rel) buf (usub64 w.pos start)
         else .ok buf) with
  | .error e => .error e
  | .ok buf1 =>
    if w.size ≠ 0 then
      readInto fs (fullName base w.rel) w.off w.size buf1 (usub64 w.pos start + w.hdr)
    else .ok buf1

/-- The loop over the orders. -/
def moveLoop (env : Env) (fs : FS) (base : Bytes) (start : Nat) : List WOrder → Bytes → Res Bytes
  | [], buf => .ok buf
  | w :: ws, buf =>
    match moveOne env fs base start buf w with
    | .error e => .error e
    | .ok buf' => moveLoop env fs base start ws buf'

/-- parfu_rank_move_data.cc:135-139 `total_bucket_length`, in `unsigned long` arithmetic. -/
def totalLen (first last : WOrder) : Nat :=
  usub64 ((last.pos + last.hdr + last.size) % 2 ^ 64) first.pos

/-- A write to the archive file: offset and bytes. -/
abbrev WriteReq := Nat × Bytes

/-- parfu_rank_move_data.cc:100-227 `move_data_Create`: `garbage` is what `malloc` returned (its
length is the bucket size).  Gives the write that is made to the archive.  `front()` of an empty
vector is undefined.  The "won't fit" messages (117-121, 146-158) have no effect.
Simplification: `malloc` succeeds and the write is complete (Verif/Faults.lean is without it). -/
def moveData (env : Env) (fs : FS) (base : Bytes) (garbage : Bytes) (ws : List WOrder) : Res WriteReq :=
  match ws.head?, ws.getLast? with
  | some first, some last =>
    match moveLoop env fs base first.pos ws garbage with
    | .error e => .error e
    | .ok buf =>
      let total := totalLen first last
      let blocked := nextBlock total
      match (if blocked - total ≠ 0 then blit buf total (zeros (blocked - total)) else .ok buf) with
      | .error e => .error e
      | .ok buf' =>
        if blocked ≤ buf'.length then .ok (first.pos, buf'.take blocked) else .error .ub
  | _, _ => .error .ub

/-- parfu_rank_move_data.cc:248-262 `total_size` (called by the worker before moving data). -/
def totalSize (ws : List WOrder) : Res Nat :=
  match ws.head?, ws.getLast? with
  | some first, some last => .ok (nextBlock (totalLen first last))
  | _, _ => .error .ub

/-- parfu_rank_move_data.cc:264-271 `order_n_filename`: the check is `>`, so an index equal to the
number of orders reaches `.at`, which throws. -/
def orderNFilename (ws : List WOrder) (i : Nat) : Res Bytes :=
  if i > ws.length then .ok []
  else match ws[i]? with
    | some w => .ok w.rel
    | none => .error .thrown

/-- parfu_worker_node.cc:203-228: what a worker does with the text of a 'C' message. -/
def workerDo (env : Env) (fs : FS) (base garbage : Bytes) (text : Bytes) : Res WriteReq := do
  let ws ← parseOrders text
  let _ ← totalSize ws
  let _ ← orderNFilename ws 0
  moveData env fs base garbage ws

/-- `MPI_File_write_at` on a file: bytes beyond the end that are not written are zero. -/
def writeAt (f : Bytes) (w : WriteReq) : Bytes :=
  (f ++ zeros (w.1 - f.length)).take w.1 ++ w.2 ++ f.drop (w.1 + w.2.length)

/-- A sequence of writes to a new file. -/
def writeAll (ws : List WriteReq) : Bytes := ws.foldl writeAt []

end Parfu
