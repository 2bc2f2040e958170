/-
Failing memory, reads and writes in the workers of parfu 0.6 (parfu_rank_move_data.cc:100-227,
parfu_worker_node.cc:203-234): every such failure is only printed, or not even that, and the worker
reports the bundle as done.
-/
import Verif.ProtocolSpec
set_option autoImplicit false

namespace Parfu

/-- What goes wrong while one bundle is carried out: whether `malloc` succeeds
(parfu_rank_move_data.cc:122-125), how many bytes of the read for the `i`-th order reach memory (191-200,
a failing `MPI_File_read_at` is only printed), and how many bytes of the write reach the archive
(213-220, a failing `MPI_File_write_at` is only printed). -/
structure Faults where
  memory : Bool
  reads : Nat → Nat
  write : Nat

/-- parfu_rank_move_data.cc:186-203 as `readInto` (Verif/Move.lean), of which only `lim` bytes arrive. -/
def readIntoF (lim : Nat) (fs : FS) (full : Bytes) (off size : Nat) (buf : Bytes) (loc : Nat) : Res Bytes :=
  match fs.read full with
  | none => .error .ub
  | some c => if 2 ^ 31 ≤ size then .error .ub else blit buf loc (((c.drop off).take size).take lim)

/-- parfu_rank_move_data.cc:169-204: one iteration of the loop over the orders. -/
def moveOneF (lim : Nat) (env : Env) (fs : FS) (base : Bytes) (start : Nat) (buf : Bytes) (w : WOrder) :
    Res Bytes :=
  match (if w.hdr ≠ 0 then makeHeaderAt env fs (fullName base w.rel) buf (usub64 w.pos start)
         else .ok buf) with
  | .error e => .error e
  | .ok buf1 =>
    if w.size ≠ 0 then
      readIntoF lim fs (fullName base w.rel) w.off w.size buf1 (usub64 w.pos start + w.hdr)
    else .ok buf1

/-- The loop over the orders, from the `i`-th on. -/
def moveLoopF (reads : Nat → Nat) (env : Env) (fs : FS) (base : Bytes) (start : Nat) :
    Nat → List WOrder → Bytes → Res Bytes
  | _, [], buf => .ok buf
  | i, w :: ws, buf =>
    match moveOneF (reads i) env fs base start buf w with
    | .error e => .error e
    | .ok buf' => moveLoopF reads env fs base start (i + 1) ws buf'

/-- parfu_rank_move_data.cc:100-227 `move_data_Create` with failures; `none`: nothing is written. -/
def moveDataF (F : Faults) (env : Env) (fs : FS) (base : Bytes) (garbage : Bytes) (ws : List WOrder) :
    Res (Option WriteReq) :=
  if F.memory then
    match ws.head?, ws.getLast? with
    | some first, some last =>
      match moveLoopF F.reads env fs base first.pos 0 ws garbage with
      | .error e => .error e
      | .ok buf =>
        let total := totalLen first last
        let blocked := nextBlock total
        match (if blocked - total ≠ 0 then blit buf total (zeros (blocked - total)) else .ok buf) with
        | .error e => .error e
        | .ok buf' =>
          if blocked ≤ buf'.length then
            .ok (if F.write = 0 then none else some (first.pos, (buf'.take blocked).take F.write))
          else .error .ub
    | _, _ => .error .ub
  else .ok none

/-- parfu_worker_node.cc:203-228 with failures.  The value of `move_data_Create` is not looked at. -/
def workerDoF (F : Faults) (env : Env) (fs : FS) (base garbage : Bytes) (text : Bytes) :
    Res (Option WriteReq) := do
  let ws ← parseOrders text
  let _ ← totalSize ws
  let _ ← orderNFilename ws 0
  moveDataF F env fs base garbage ws

/-- The archive after what a worker wrote, if it wrote anything. -/
def writeSome (f : Bytes) : Option WriteReq → Bytes
  | none => f
  | some w => writeAt f w

/-- What happens in a step with failures. -/
inductive FEv where
  | ev (e : Ev)
  /-- A worker has carried out a bundle with these failures, and this is what reached the archive. -/
  | did (rank : Nat) (text : Bytes) (memory : Bytes) (F : Faults) (write : Option WriteReq)

/-- One step: as `Step` (Verif/Protocol.lean), but a bundle may be carried out with failures; then the
worker goes on all the same (parfu_worker_node.cc:226-234). -/
inductive FStep (c : Cfg) (eager : Bool) : Sys → FEv → Sys → Prop
  | same {s s' : Sys} {e : Ev} (st : Step c eager s e s') : FStep c eager s (.ev e) s'
  | work (s : Sys) (r : Nat) (text name memory old : Bytes) (F : Faults) (write : Option WriteReq)
      (hr : c.worker r)
      (hs : (s.w r).stat = .working text) (hf : (s.w r).file = some (some name))
      (hm : memory.length = (s.w r).bucket) (ho : s.file = some old)
      (hd : workerDoF F c.env c.fs (s.w r).base memory text = .ok write) :
      FStep c eager s (.did r text memory F write)
        { s with w := Function.update s.w r { s.w r with stat := .acking },
                 acks := s.acks ++ [(r, ackMsg r)], file := some (writeSome old write) }
  | workFails (s : Sys) (r : Nat) (text memory : Bytes) (F : Faults) (e : Err) (hr : c.worker r)
      (hs : (s.w r).stat = .working text) (hm : memory.length = (s.w r).bucket)
      (hd : workerDoF F c.env c.fs (s.w r).base memory text = .error e) :
      FStep c eager s (.ev (.failed r))
        { s with w := Function.update s.w r { s.w r with stat := .dead e } }

/-- A run in which things may fail. -/
inductive FRun (c : Cfg) (eager : Bool) (s0 : Sys) : List FEv → Sys → Prop
  | nil : FRun c eager s0 [] s0
  | snoc {tr : List FEv} {s s' : Sys} {e : FEv} (h : FRun c eager s0 tr s) (st : FStep c eager s e s') :
      FRun c eager s0 (tr ++ [e]) s'

end Parfu
