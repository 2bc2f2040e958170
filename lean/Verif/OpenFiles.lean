/-
The files a worker of parfu 0.6 has open (parfu_rank_move_data.cc:141, 186-203): for every order with data
the file is opened, and none is ever closed (no source file of this program contains `MPI_File_close`).
-/
import Verif.Faults
set_option autoImplicit false

namespace Parfu

/-- parfu_rank_move_data.cc:186-189: the orders for which a file is opened. -/
def opens (ws : List WOrder) : Nat := ws.countP fun w => w.size != 0

/-- The orders in the text of a bundle (none if it cannot be read, then the worker has ended). -/
def ordersOf (text : Bytes) : List WOrder :=
  match parseOrders text with
  | .ok ws => ws
  | .error _ => []

/-- parfu_rank_move_data.cc:186-200: the bundle is carried out by a process that can open `left` more
files.  When it cannot open one, `MPI_File_open` fails, which is only printed, and the handle is
`MPI_FILE_NULL`; reading from that fails, which is only printed, and nothing is put into memory.
Simplifications: an open file takes one descriptor; with an MPI library that leaves the handle unset the
read is undefined (MPI does not say what the handle is after a failed open). -/
def openFaults (left : Nat) (ws : List WOrder) : Faults :=
  ⟨true, fun i => if opens (ws.take (i + 1)) ≤ left then 2 ^ 31 else 0, 2 ^ 31⟩

/-- One step, with the number of files each process can still open (after the archive was opened): as
`FStep` (Verif/Faults.lean), nothing else failing; a worker that carries out a bundle opens its files. -/
inductive DStep (c : Cfg) (eager : Bool) : Sys → (Nat → Nat) → FEv → Sys → (Nat → Nat) → Prop
  | other {s s' : Sys} {left : Nat → Nat} {e : Ev} (he : ∀ r t b a m w, e ≠ .wrote r t b a m w)
      (st : Step c eager s e s') : DStep c eager s left (.ev e) s' left
  | work {s s' : Sys} {left : Nat → Nat} {r : Nat} {t m : Bytes} {w : Option WriteReq}
      (st : FStep c eager s (.did r t m (openFaults (left r) (ordersOf t)) w) s') :
      DStep c eager s left (.did r t m (openFaults (left r) (ordersOf t)) w) s'
        (Function.update left r (left r - opens (ordersOf t)))

/-- A run of processes that can open `left0` files each, and what is left of that. -/
inductive DRun (c : Cfg) (eager : Bool) (s0 : Sys) (left0 : Nat → Nat) : List FEv → Sys → (Nat → Nat) → Prop
  | nil : DRun c eager s0 left0 [] s0 left0
  | snoc {tr : List FEv} {s s' : Sys} {left left' : Nat → Nat} {e : FEv} (h : DRun c eager s0 left0 tr s left)
      (st : DStep c eager s left e s' left') : DRun c eager s0 left0 (tr ++ [e]) s' left'

end Parfu
