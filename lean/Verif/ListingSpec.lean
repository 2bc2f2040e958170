/-
Specification for C81: when two file systems hold the same objects, whatever order the directories
list them in.
-/
import Verif.ScanSpec
import Verif.Move
set_option autoImplicit false

namespace Parfu.ListingSpec
open Parfu ScanSpec

/-- An object without what is inside it. -/
def ownPart : FNode → FNode
  | .dir m o _ => .dir m o .nil
  | n => n

/-- What can be reached in one tree can be reached in the other under the same path, with the same
attributes and contents. -/
def SameObjects (t t' : FNode) : Prop :=
  ∀ p x, (∃ n, Seen t p n ∧ ownPart n = x) ↔ ∃ n, Seen t' p n ∧ ownPart n = x

/-- Under every path is the same object, or on both sides nothing. -/
def SameFiles (fs fs' : FS) : Prop := ∀ path, (fs path).map ownPart = (fs' path).map ownPart

end Parfu.ListingSpec
