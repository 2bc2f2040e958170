/-
Specification for the planner: what it means that a list of transfer orders carries a list of
entries, in terms of bytes of files and bytes of the archive.
-/
import Verif.Plan
set_option autoImplicit false

namespace Parfu.PlanSpec
open Parfu

/-- Round up to whole 512-byte blocks. -/
def up512 (n : Nat) : Nat := (n + 511) / 512 * 512

/-- One past the last archive byte of an order. -/
def Order.stop (o : Order) : Nat := o.pos + o.hdr + o.size

/-- The order moves byte `i` of the file `rel`. -/
def Moves (o : Order) (rel : Bytes) (i : Nat) : Bool :=
  decide (o.rel = rel ∧ o.off ≤ i ∧ i < o.off + o.size)

/-- The order writes the header of `rel`. -/
def Heads (o : Order) (rel : Bytes) : Bool := decide (o.rel = rel ∧ o.hdr ≠ 0)

/-- The archive offset at which bundle `l` starts. -/
def startOf (l : List Order) : Nat := match l.head? with
  | none => 0
  | some o => o.pos

/-- One past the last archive byte of bundle `l` before padding. -/
def endOf (l : List Order) : Nat := match l.getLast? with
  | none => 0
  | some o => Order.stop o

/-- A list of placed entries starting at archive offset `w`, with no gap but block padding. -/
def Contiguous : Nat → List Placed → Prop
  | _, [] => True
  | w, p :: ps => p.slice.offArch = w ∧ Contiguous (up512 (w + p.ref.hdr + p.ref.ent.size)) ps

/-- Sizes an entry can have: directories and links carry no data. -/
def EntOk (r : Ref) : Prop := (r.ent.kind ≠ .reg → r.ent.size = 0) ∧ 0 < r.hdr

end Parfu.PlanSpec
