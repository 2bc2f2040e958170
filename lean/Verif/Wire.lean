/-
The boss/worker protocol of parfu 0.6 one level below `Verif.Protocol`: every order of rank 0 is two
MPI messages (or two broadcasts), first its length as an `int`, then its bytes, and a worker receives
them with two calls (parfu_boss_functions.cc:41-52, 72-83; parfu_worker_node.cc:126-134, 193-203).
-/
import Verif.Protocol
set_option autoImplicit false

namespace Parfu

/-- What rank 0 sends to a worker: one `MPI_INT`, or a number of `MPI_CHAR`s. -/
inductive Packet where
  | len (n : Int)
  | body (m : Bytes)
  deriving DecidableEq, Repr

/-- Assignment of a `size_t` to an `int` (parfu_boss_functions.cc:47, 78). -/
def intOfSize (n : Nat) : Int := Int.bmod (n : Int) (2 ^ 32)

/-- Which blocking call rank 0 is in: the one for the length (then `m` is still to be sent) or the one
for the bytes, to one worker or to all. -/
inductive WPend where
  | lenOne (rank : Nat) (m : Bytes)
  | bodyOne (rank : Nat)
  | lenAll (m : Bytes)
  | bodyAll
  deriving DecidableEq, Repr

/-- A state of the whole system, as `Sys` (Verif/Protocol.lean) with packets in the queues, and with
`got r` the length worker `r` has received when it waits for the bytes
(`*my_length`, parfu_worker_node.cc:131, 197). -/
structure WSys where
  boss : Boss
  pend : Option WPend
  bq : Nat → List Packet
  pq : Nat → List Packet
  acks : List (Nat × Bytes)
  w : Nat → WSt
  file : Option Bytes
  got : Nat → Option Int

/-- What happens in a step: something `Verif.Protocol` knows, the end of the call for a length, the
receipt of a length, or a receive call that meets something else than it expects. -/
inductive WEv where
  | ev (e : Ev)
  | lenDone
  | lenGot (rank : Nat) (n : Int)
  | misread (rank : Nat)

/-- Does the receive call for the bytes (a buffer of `n` bytes) take message `m`?  A broadcast must have
the same count on all ranks (parfu_worker_node.cc:132); a receive takes at most `n` bytes
(parfu_worker_node.cc:198). -/
def bodyFits (mode : Mode) (n : Int) (m : Bytes) : Bool :=
  match mode with
  | .bcast => (m.length : Int) = n
  | .indiv => (m.length : Int) ≤ n

/-- What a worker's next receive call for the bytes makes of the packet `p`: `none` if MPI refuses
(wrong type, or it does not fit), which ends the process (MPI_ERRORS_ARE_FATAL). -/
def takeBody (w : WSt) (n : Int) (p : Packet) : Option WSt :=
  match p with
  | .len _ => none
  | .body m =>
    if bodyFits w.mode n m then
      match w.mode with
      | .bcast => some (onBcast w m)
      | .indiv => some (onSend w m)
    else none

/-- One step, as `Step` (Verif/Protocol.lean) with the two calls of every order apart: rank 0
parfu_boss_functions.cc:47-51 and 78-82, the worker parfu_worker_node.cc:126-134 and 193-203.
A packet of the wrong kind, or too long, ends the worker. -/
inductive WStep (c : Cfg) (eager : Bool) : WSys → WEv → WSys → Prop
  | bcastLen (s : WSys) (m : Bytes) (k : Boss) (hp : s.pend = none) (hb : s.boss = .bcast m k) :
      WStep c eager s (.ev (.bcasted m))
        { s with boss := k, pend := some (.lenAll m),
                 bq := fun r => s.bq r ++ [.len (intOfSize m.length)] }
  | bcastLenDone (s : WSys) (m : Bytes) (hp : s.pend = some (.lenAll m))
      (hq : eager = true ∨ ∀ r, c.worker r → s.bq r = []) :
      WStep c eager s .lenDone
        { s with pend := some .bodyAll, bq := fun r => s.bq r ++ [.body m] }
  | bcastDone (s : WSys) (hp : s.pend = some .bodyAll)
      (hq : eager = true ∨ ∀ r, c.worker r → s.bq r = []) :
      WStep c eager s (.ev .sendDone) { s with pend := none }
  | sendLen (s : WSys) (r : Nat) (m : Bytes) (k : Boss) (hp : s.pend = none) (hb : s.boss = .send r m k)
      (hr : c.worker r) :
      WStep c eager s (.ev (.sent r m))
        { s with boss := k, pend := some (.lenOne r m),
                 pq := Function.update s.pq r (s.pq r ++ [.len (intOfSize m.length)]) }
  | sendBad (s : WSys) (r : Nat) (m : Bytes) (k : Boss) (hp : s.pend = none) (hb : s.boss = .send r m k)
      (hr : ¬ c.worker r) :
      WStep c eager s (.ev (.failed 0)) { s with boss := .fail .ub }
  | sendLenDone (s : WSys) (r : Nat) (m : Bytes) (hp : s.pend = some (.lenOne r m))
      (hq : eager = true ∨ s.pq r = []) :
      WStep c eager s .lenDone
        { s with pend := some (.bodyOne r), pq := Function.update s.pq r (s.pq r ++ [.body m]) }
  | sendDone (s : WSys) (r : Nat) (hp : s.pend = some (.bodyOne r)) (hq : eager = true ∨ s.pq r = []) :
      WStep c eager s (.ev .sendDone) { s with pend := none }
  | recv (s : WSys) (k : Bytes → Boss) (l1 l2 : List (Nat × Bytes)) (r : Nat) (a : Bytes)
      (hp : s.pend = none) (hb : s.boss = .recv k) (ha : s.acks = l1 ++ (r, a) :: l2) :
      WStep c eager s (.ev (.acked r))
        { s with boss := if a.length ≤ 20 then k a else .fail .ub, acks := l1 ++ l2 }
  | openFile (s : WSys) (name : Bytes) (k : Bool → Boss) (hp : s.pend = none)
      (hb : s.boss = .openFile name k) (hw : ∀ r, c.worker r → (s.w r).stat = .opening name) :
      WStep c eager s (.ev (.opened (openResult c s.file).isSome))
        { s with boss := k (openResult c s.file).isSome,
                 file := if (openResult c s.file).isSome then openResult c s.file else s.file,
                 w := fun r => { s.w r with
                        stat := .wait,
                        file := if (openResult c s.file).isSome then some (some name) else some none } }
  | getLen (s : WSys) (r : Nat) (n : Int) (rest : List Packet) (hr : c.worker r)
      (hs : (s.w r).stat = .wait) (hg : s.got r = none)
      (hq : (s.w r).mode = .bcast ∧ s.bq r = .len n :: rest) :
      WStep c eager s (.lenGot r n)
        { s with got := Function.update s.got r (some n), bq := Function.update s.bq r rest }
  | getLenSent (s : WSys) (r : Nat) (n : Int) (rest : List Packet) (hr : c.worker r)
      (hs : (s.w r).stat = .wait) (hg : s.got r = none)
      (hq : (s.w r).mode = .indiv ∧ s.pq r = .len n :: rest) :
      WStep c eager s (.lenGot r n)
        { s with got := Function.update s.got r (some n), pq := Function.update s.pq r rest }
  | noLen (s : WSys) (r : Nat) (m : Bytes) (rest : List Packet) (hr : c.worker r)
      (hs : (s.w r).stat = .wait) (hg : s.got r = none)
      (hq : ((s.w r).mode = .bcast ∧ s.bq r = .body m :: rest) ∨
            ((s.w r).mode = .indiv ∧ s.pq r = .body m :: rest)) :
      WStep c eager s (.misread r)
        { s with w := Function.update s.w r { s.w r with stat := .dead .ub } }
  | getBody (s : WSys) (r : Nat) (n : Int) (m : Bytes) (rest : List Packet) (w' : WSt) (hr : c.worker r)
      (hs : (s.w r).stat = .wait) (hg : s.got r = some n)
      (hq : (s.w r).mode = .bcast ∧ s.bq r = .body m :: rest)
      (ht : takeBody (s.w r) n (.body m) = some w') :
      WStep c eager s (.ev (.got r m))
        { s with w := Function.update s.w r w', got := Function.update s.got r none,
                 bq := Function.update s.bq r rest }
  | getBodySent (s : WSys) (r : Nat) (n : Int) (m : Bytes) (rest : List Packet) (w' : WSt)
      (hr : c.worker r)
      (hs : (s.w r).stat = .wait) (hg : s.got r = some n)
      (hq : (s.w r).mode = .indiv ∧ s.pq r = .body m :: rest)
      (ht : takeBody (s.w r) n (.body m) = some w') :
      WStep c eager s (.ev (.got r m))
        { s with w := Function.update s.w r w', got := Function.update s.got r none,
                 pq := Function.update s.pq r rest }
  | noBody (s : WSys) (r : Nat) (n : Int) (p : Packet) (rest : List Packet) (hr : c.worker r)
      (hs : (s.w r).stat = .wait) (hg : s.got r = some n)
      (hq : ((s.w r).mode = .bcast ∧ s.bq r = p :: rest) ∨ ((s.w r).mode = .indiv ∧ s.pq r = p :: rest))
      (ht : takeBody (s.w r) n p = none) :
      WStep c eager s (.misread r)
        { s with w := Function.update s.w r { s.w r with stat := .dead .ub } }
  | work (s : WSys) (r : Nat) (text name memory old : Bytes) (write : WriteReq) (hr : c.worker r)
      (hs : (s.w r).stat = .working text) (hf : (s.w r).file = some (some name))
      (hm : memory.length = (s.w r).bucket) (ho : s.file = some old)
      (hd : workerDo c.env c.fs (s.w r).base memory text = .ok write) :
      WStep c eager s (.ev (.wrote r text (s.w r).base name memory write))
        { s with w := Function.update s.w r { s.w r with stat := .acking },
                 acks := s.acks ++ [(r, ackMsg r)], file := some (writeAt old write) }
  | workFails (s : WSys) (r : Nat) (text memory : Bytes) (e : Err) (hr : c.worker r)
      (hs : (s.w r).stat = .working text) (hm : memory.length = (s.w r).bucket)
      (hd : workerDo c.env c.fs (s.w r).base memory text = .error e ∨
            (e = .ub ∧ ∀ name, (s.w r).file ≠ some (some name))) :
      WStep c eager s (.ev (.failed r))
        { s with w := Function.update s.w r { s.w r with stat := .dead e } }
  | ackDone (s : WSys) (r : Nat) (hr : c.worker r) (hs : (s.w r).stat = .acking)
      (hq : eager = true ∨ ∀ a ∈ s.acks, a.1 ≠ r) :
      WStep c eager s (.ev .sendDone)
        { s with w := Function.update s.w r { s.w r with stat := .wait } }

/-- The state in which nothing has been sent yet, from the same state of `Verif.Protocol`. -/
def WSys.begin (s : Sys) : WSys :=
  { boss := s.boss, pend := none, bq := fun _ => [], pq := fun _ => [], acks := s.acks, w := s.w,
    file := s.file, got := fun _ => none }

/-- A run on the level of single MPI calls. -/
inductive WRun (c : Cfg) (eager : Bool) (s0 : WSys) : List WEv → WSys → Prop
  | nil : WRun c eager s0 [] s0
  | snoc {tr : List WEv} {s s' : WSys} {e : WEv} (h : WRun c eager s0 tr s) (st : WStep c eager s e s') :
      WRun c eager s0 (tr ++ [e]) s'

end Parfu
