/-
Model of the boss/worker protocol of parfu 0.6: the message-passing program of rank 0
(parfu_boss_functions.cc, parfu_main_0_6_test.cc), the worker's receive loop (parfu_worker_node.cc),
and the MPI operations they use, as a labelled transition system.
-/
import Verif.Move
import Mathlib.Logic.Function.Basic
set_option autoImplicit false

namespace Parfu

/-! ### rank 0 -/

/-- A program of rank 0: the MPI operations it performs, in order, with what follows each. -/
inductive Boss where
  /-- parfu_boss_functions.cc:28-55 `parfu_broadcast_order`. -/
  | bcast (msg : Bytes) (k : Boss)
  /-- parfu_boss_functions.cc:58-87 `parfu_send_order_to_rank`. -/
  | send (rank : Nat) (msg : Bytes) (k : Boss)
  /-- `MPI_Recv(..., MPI_ANY_SOURCE, MPI_ANY_TAG, ...)`. -/
  | recv (k : Bytes → Boss)
  /-- The collective `MPI_File_open` with `WRONLY|CREATE|EXCL`. -/
  | openFile (name : Bytes) (k : Bool → Boss)
  /-- The process has ended with this status. -/
  | exit (code : Nat)
  /-- The process has failed. -/
  | fail (e : Err)

/-- parfu_boss_functions.cc:111-122: the first loop of `push_out_all_orders`, from `next_rank = nr`,
`next_order = no`; `k` is what follows, given the final `next_order`. -/
def phase1 (orders : List Bytes) (ranks nr no : Nat) (k : Nat → Boss) : Boss :=
  if _h : nr < ranks ∧ no < orders.length then
    .send nr (sendMsg [67] (orders.getD no [])) (phase1 orders ranks (nr + 1) (no + 1) k)
  else k no
termination_by ranks - nr

/-- parfu_boss_functions.cc:140-148 and 188-196: `n` receives whose contents are ignored. -/
def recvN : Nat → Boss → Boss
  | 0, k => k
  | n + 1, k => .recv fun _ => recvN n k

/-- parfu_boss_functions.cc:158-178: `while(next_order < total_orders)`: receive the rank of a worker
that has finished, send it the next order.  A negative rank is refused by MPI. -/
def phase2 (orders : List Bytes) (no : Nat) (k : Boss) : Boss :=
  if _h : no < orders.length then
    .recv fun a =>
      match stoi (recvMsg a) with
      | .error e => .fail e
      | .ok v =>
        if v < 0 then .fail .ub
        else .send v.toNat (sendMsg [67] (orders.getD no [])) (phase2 orders (no + 1) k)
  else k
termination_by orders.length - no

/-- parfu_boss_functions.cc:91-202 `push_out_all_orders`. -/
def pushOutAllOrders (orders : List Bytes) (ranks : Nat) (k : Boss) : Boss :=
  phase1 orders ranks 1 0 fun no =>
    if no ≥ orders.length then recvN orders.length k
    else phase2 orders no (recvN (ranks - 1) k)

/-- The loops `for(int i=1; i<total_ranks; i++)` of parfu_main_0_6_test.cc:247-249 and 265-267. -/
def sendAll (msg : Bytes) (ranks i : Nat) (k : Boss) : Boss :=
  if _h : i < ranks then .send i msg (sendAll msg ranks (i + 1) k) else k
termination_by ranks - i

/-- parfu_main_0_6_test.cc:201-282, rank 0 from the first broadcast on. -/
def bossRun (ranks b : Nat) (archive base : Bytes) (orders : List Bytes) : Boss :=
  .bcast (sendMsg [85] (digits 10 b)) <|
  .bcast (sendMsg [65] archive) <|
  .openFile archive fun ok =>
    if ok then
      .bcast (sendMsg [78] [105, 110, 100, 105, 118, 105, 100, 117, 97, 108]) <|
      sendAll (sendMsg [80] base) ranks 1 <|
      pushOutAllOrders orders ranks <|
      sendAll (sendMsg [88] [115, 104, 117, 116, 100, 111, 119, 110]) ranks 1 <|
      .exit 0
    else .bcast (sendMsg [88] [98, 121, 101]) (.exit 1)

/-! ### workers -/

/-- parfu_worker_node.cc: `receive_mode`. -/
inductive Mode where
  | bcast
  | indiv
  deriving DecidableEq, Repr

/-- What a worker process is doing. -/
inductive WStat where
  /-- Waiting for a message. -/
  | wait
  /-- In the collective open. -/
  | opening (name : Bytes)
  /-- Carrying out the text of a 'C' message. -/
  | working (text : Bytes)
  /-- In the `MPI_Send` that reports completion. -/
  | acking
  /-- `parfu_worker_node` has returned this value. -/
  | ended (code : Nat)
  /-- The process has failed. -/
  | dead (e : Err)
  deriving DecidableEq, Repr

/-- parfu_worker_node.cc:70-87: the local variables of `parfu_worker_node`.  `file` is `none` for the
null pointer, `some none` for a handle whose open failed, `some (some name)` for an open file. -/
structure WSt where
  mode : Mode
  bucket : Nat
  file : Option (Option Bytes)
  base : Bytes
  stat : WStat
  deriving DecidableEq, Repr

/-- parfu_worker_node.cc:79-87: the initial state. -/
def WSt.init : WSt := ⟨.bcast, 0, none, [], .wait⟩

/-- parfu_worker_node.cc:123-189: what a worker does with a message received in broadcast mode. -/
def onBcast (w : WSt) (m : Bytes) : WSt :=
  match recvMsg m with
  | [] => w
  | c :: rest =>
    if c = 65 then { w with stat := .opening rest }
    else if c = 85 then
      match stoi rest with
      | .error e => { w with stat := .dead e }
      | .ok v => { w with bucket := u64 v }
    else if c = 78 then { w with mode := .indiv }
    else if c = 88 then { w with stat := .ended 0 }
    else w

/-- parfu_worker_node.cc:192-259: what a worker does with a message received in individual mode. -/
def onSend (w : WSt) (m : Bytes) : WSt :=
  match recvMsg m with
  | [] => w
  | c :: rest =>
    if c = 67 then
      if w.bucket = 0 then { w with stat := .ended 7 } else { w with stat := .working rest }
    else if c = 80 then { w with base := rest }
    else if c = 66 then { w with mode := .bcast }
    else if c = 88 then { w with stat := .ended 0 }
    else w

/-- parfu_worker_node.cc:230-234: the completion report, `to_string(my_rank)` with its NUL. -/
def ackMsg (rank : Nat) : Bytes := digits 10 rank ++ [0]

/-! ### the system -/

/-- The run's fixed surroundings: number of ranks, what the workers see of the system, and whether
the archive can be created where the user wants it. -/
structure Cfg where
  ranks : Nat
  env : Env
  fs : FS
  creatable : Bool

/-- Which send rank 0 is in. -/
inductive Pend where
  | one (rank : Nat)
  | all
  deriving DecidableEq, Repr

/-- A state of the whole system. -/
structure Sys where
  boss : Boss
  /-- The blocking send or broadcast rank 0 has not returned from. -/
  pend : Option Pend
  /-- Broadcasts each worker has not taken part in yet. -/
  bq : Nat → List Bytes
  /-- Messages from rank 0 to each worker not yet received. -/
  pq : Nat → List Bytes
  /-- Messages to rank 0 not yet received, with their source. -/
  acks : List (Nat × Bytes)
  w : Nat → WSt
  /-- The archive file; `none` if there is none. -/
  file : Option Bytes

/-- What happens in a step. -/
inductive Ev where
  | bcasted (msg : Bytes)
  | sent (rank : Nat) (msg : Bytes)
  | acked (rank : Nat)
  | opened (ok : Bool)
  | got (rank : Nat) (msg : Bytes)
  /-- A worker carries out a message text: with this base path, archive, previous contents of its
  buffer, and this write. -/
  | wrote (rank : Nat) (text base archive memory : Bytes) (write : WriteReq)
  | failed (rank : Nat)
  | sendDone

/-- The workers of a run. -/
def Cfg.worker (c : Cfg) (r : Nat) : Prop := 1 ≤ r ∧ r < c.ranks

/-- The archive after the collective open: `EXCL` makes it fail if there already is a file. -/
def openResult (c : Cfg) (file : Option Bytes) : Option Bytes :=
  match file with
  | some _ => none
  | none => if c.creatable then some [] else none

/-- One step.  Messages between two processes arrive in the order sent; which of several messages
rank 0 receives is open (any order at all is allowed here).  With `eager` a blocking send may
return before the message is received; without, only after.  An implementation of MPI may mix the
two.  Simplifications: the length message and the message proper are one (Verif/Wire.lean has them
apart, and C70_refines shows that nothing is lost by this); the outcome of the open
is the same on all ranks; a failing process does not take the others down; a message longer than
`INT_STRING_BUFFER_SIZE` makes rank 0 fail. -/
inductive Step (c : Cfg) (eager : Bool) : Sys → Ev → Sys → Prop
  | bcast (s : Sys) (m : Bytes) (k : Boss) (hp : s.pend = none) (hb : s.boss = .bcast m k) :
      Step c eager s (.bcasted m)
        { s with boss := k, pend := some .all, bq := fun r => s.bq r ++ [m] }
  | bcastDone (s : Sys) (hp : s.pend = some .all)
      (hq : eager = true ∨ ∀ r, c.worker r → s.bq r = []) :
      Step c eager s .sendDone { s with pend := none }
  | send (s : Sys) (r : Nat) (m : Bytes) (k : Boss) (hp : s.pend = none) (hb : s.boss = .send r m k)
      (hr : c.worker r) :
      Step c eager s (.sent r m)
        { s with boss := k, pend := some (.one r), pq := Function.update s.pq r (s.pq r ++ [m]) }
  | sendBad (s : Sys) (r : Nat) (m : Bytes) (k : Boss) (hp : s.pend = none) (hb : s.boss = .send r m k)
      (hr : ¬ c.worker r) :
      Step c eager s (.failed 0) { s with boss := .fail .ub }
  | sendDone (s : Sys) (r : Nat) (hp : s.pend = some (.one r)) (hq : eager = true ∨ s.pq r = []) :
      Step c eager s .sendDone { s with pend := none }
  | recv (s : Sys) (k : Bytes → Boss) (l1 l2 : List (Nat × Bytes)) (r : Nat) (a : Bytes)
      (hp : s.pend = none) (hb : s.boss = .recv k) (ha : s.acks = l1 ++ (r, a) :: l2) :
      Step c eager s (.acked r)
        { s with boss := if a.length ≤ 20 then k a else .fail .ub, acks := l1 ++ l2 }
  | openFile (s : Sys) (name : Bytes) (k : Bool → Boss) (hp : s.pend = none)
      (hb : s.boss = .openFile name k) (hw : ∀ r, c.worker r → (s.w r).stat = .opening name) :
      Step c eager s (.opened (openResult c s.file).isSome)
        { s with boss := k (openResult c s.file).isSome,
                 file := if (openResult c s.file).isSome then openResult c s.file else s.file,
                 w := fun r => { s.w r with
                        stat := .wait,
                        file := if (openResult c s.file).isSome then some (some name) else some none } }
  | getBcast (s : Sys) (r : Nat) (m : Bytes) (rest : List Bytes) (hr : c.worker r)
      (hs : (s.w r).stat = .wait) (hm : (s.w r).mode = .bcast) (hq : s.bq r = m :: rest) :
      Step c eager s (.got r m)
        { s with w := Function.update s.w r (onBcast (s.w r) m), bq := Function.update s.bq r rest }
  | getSend (s : Sys) (r : Nat) (m : Bytes) (rest : List Bytes) (hr : c.worker r)
      (hs : (s.w r).stat = .wait) (hm : (s.w r).mode = .indiv) (hq : s.pq r = m :: rest) :
      Step c eager s (.got r m)
        { s with w := Function.update s.w r (onSend (s.w r) m), pq := Function.update s.pq r rest }
  | work (s : Sys) (r : Nat) (text name memory old : Bytes) (write : WriteReq) (hr : c.worker r)
      (hs : (s.w r).stat = .working text) (hf : (s.w r).file = some (some name))
      (hm : memory.length = (s.w r).bucket) (ho : s.file = some old)
      (hd : workerDo c.env c.fs (s.w r).base memory text = .ok write) :
      Step c eager s (.wrote r text (s.w r).base name memory write)
        { s with w := Function.update s.w r { s.w r with stat := .acking },
                 acks := s.acks ++ [(r, ackMsg r)], file := some (writeAt old write) }
  | workFails (s : Sys) (r : Nat) (text memory : Bytes) (e : Err) (hr : c.worker r)
      (hs : (s.w r).stat = .working text) (hm : memory.length = (s.w r).bucket)
      (hd : workerDo c.env c.fs (s.w r).base memory text = .error e ∨
            (e = .ub ∧ ∀ name, (s.w r).file ≠ some (some name))) :
      Step c eager s (.failed r)
        { s with w := Function.update s.w r { s.w r with stat := .dead e } }
  | ackDone (s : Sys) (r : Nat) (hr : c.worker r) (hs : (s.w r).stat = .acking)
      (hq : eager = true ∨ ∀ a ∈ s.acks, a.1 ≠ r) :
      Step c eager s .sendDone
        { s with w := Function.update s.w r { s.w r with stat := .wait } }

/-- The state when all processes have started. -/
def Sys.start (p : Boss) (file : Option Bytes) : Sys :=
  { boss := p, pend := none, bq := fun _ => [], pq := fun _ => [], acks := [],
    w := fun _ => WSt.init, file := file }

/-- A run: the events up to some moment and the state then. -/
inductive Run (c : Cfg) (eager : Bool) (s0 : Sys) : List Ev → Sys → Prop
  | nil : Run c eager s0 [] s0
  | snoc {tr : List Ev} {s s' : Sys} {e : Ev} (h : Run c eager s0 tr s) (st : Step c eager s e s') :
      Run c eager s0 (tr ++ [e]) s'

end Parfu
