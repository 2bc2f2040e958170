/-
Specification vocabulary for the protocol: what an observer of a run counts.
-/
import Verif.Protocol
set_option autoImplicit false

namespace Parfu.ProtocolSpec
open Parfu

/-- The bundles rank 0 has sent, oldest first, with the worker each went to: messages that begin with
'C', without that letter and the terminating NUL. -/
def dispatched (tr : List Ev) : List (Nat × Bytes) :=
  tr.filterMap fun e => match e with
    | .sent r m => if m.head? = some 67 then some (r, (m.drop 1).dropLast) else none
    | _ => none

/-- The bundles that have been carried out, with the worker that did it. -/
def executed (tr : List Ev) : List (Nat × Bytes) :=
  tr.filterMap fun e => match e with
    | .wrote r t _ _ _ _ => some (r, t)
    | _ => none

/-- The writes made to the archive, oldest first. -/
def writes (tr : List Ev) : List WriteReq :=
  tr.filterMap fun e => match e with
    | .wrote _ _ _ _ _ w => some w
    | _ => none

/-- The workers whose completion reports rank 0 has received. -/
def acknowledged (tr : List Ev) : List Nat :=
  tr.filterMap fun e => match e with
    | .acked r => some r
    | _ => none

/-- The workers that have been sent a shutdown ('X') individually. -/
def shutdowns (tr : List Ev) : List Nat :=
  tr.filterMap fun e => match e with
    | .sent r m => if m.head? = some 88 then some r else none
    | _ => none

/-- What was sent to, or done by, worker `r`. -/
def ofRank (r : Nat) (l : List (Nat × Bytes)) : List Bytes :=
  l.filterMap fun x => if x.1 = r then some x.2 else none

/-- Every process has ended: rank 0 with this status, every worker by returning 0. -/
def Finished (c : Cfg) (code : Nat) (s : Sys) : Prop :=
  s.boss = .exit code ∧ ∀ r, c.worker r → (s.w r).stat = .ended 0

/-- Nothing can happen any more, even if no send ever waits for its receiver. -/
def Stuck (c : Cfg) (s : Sys) : Prop := ∀ e s', ¬ Step c true s e s'

/-- The parameters of a launch are texts and numbers the program's messages can carry: C strings
without NUL, a bucket size that is not 0 and fits an `int`, at least one process. -/
structure Launch (c : Cfg) (b : Nat) (archive base : Bytes) (orders : List Bytes) : Prop where
  ranks : 1 ≤ c.ranks
  ranksInt : c.ranks < 2 ^ 31
  bucket : 0 < b
  bucketInt : b < 2 ^ 31
  archiveText : (0 : UInt8) ∉ archive
  baseText : (0 : UInt8) ∉ base
  orderText : ∀ t ∈ orders, (0 : UInt8) ∉ t

/-- Every bundle can be carried out, whatever is in the worker's buffer of `b` bytes. -/
def Workable (c : Cfg) (b : Nat) (base : Bytes) (orders : List Bytes) : Prop :=
  ∀ t ∈ orders, ∀ memory : Bytes, memory.length = b → ∃ w, workerDo c.env c.fs base memory t = .ok w

end Parfu.ProtocolSpec
