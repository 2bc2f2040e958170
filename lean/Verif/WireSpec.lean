/-
Specification vocabulary for runs on the level of single MPI calls.
-/
import Verif.Wire
import Verif.ProtocolSpec
set_option autoImplicit false

namespace Parfu.WireSpec
open Parfu

/-- What an observer who does not look at the lengths sees of a run. -/
def seen (tr : List WEv) : List Ev :=
  tr.filterMap fun e => match e with
    | .ev e => some e
    | _ => none

/-- Every order this program of rank 0 can send is shorter than 2 GiB. -/
inductive ShortOrders : Boss → Prop
  | bcast (m : Bytes) (k : Boss) (h : m.length < 2 ^ 31) (hk : ShortOrders k) : ShortOrders (.bcast m k)
  | send (r : Nat) (m : Bytes) (k : Boss) (h : m.length < 2 ^ 31) (hk : ShortOrders k) :
      ShortOrders (.send r m k)
  | recv (k : Bytes → Boss) (hk : ∀ a, ShortOrders (k a)) : ShortOrders (.recv k)
  | openFile (n : Bytes) (k : Bool → Boss) (hk : ∀ ok, ShortOrders (k ok)) : ShortOrders (.openFile n k)
  | exit (n : Nat) : ShortOrders (.exit n)
  | fail (e : Err) : ShortOrders (.fail e)

/-- The packets of a sequence of orders: for each its length, then its bytes. -/
def framed (ms : List Bytes) : List Packet :=
  ms.flatMap fun m => [.len m.length, .body m]

/-- Every process has ended: rank 0 with this status, every worker by returning 0. -/
def Ended (c : Cfg) (code : Nat) (s : WSys) : Prop :=
  s.boss = .exit code ∧ ∀ r, c.worker r → (s.w r).stat = .ended 0

end Parfu.WireSpec
