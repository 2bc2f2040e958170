/-
Specification of what parfu 0.5.1's scan must list.  Only the data types of file system trees and list
entries are taken from the model; `At` and `pathText` are those of ScanSpec.
-/
import Verif.ScanSpec
import Verif.LegacyList
set_option autoImplicit false

namespace Parfu.LegacyScanSpec
open Parfu ScanSpec

/-- What a list entry says about an object: where to find it, under which name it is archived, its
type, the target of a link, and its size (with the program's marks for directories and links). -/
structure LegEnt where
  rel : Bytes
  arc : Bytes
  kind : LKind
  target : Bytes
  size : Int
  deriving DecidableEq, Repr

/-- What a list entry says. -/
def entryOf (f : Frag) : LegEnt := ⟨f.rel, f.arc, f.kind, f.target, f.size⟩

/-- The object `p` below the directory called `top`, as a path: `top` itself for the empty path,
otherwise `top/a/b/..` (without doubling a slash at the end of `top`). -/
def fullPath (top : Bytes) (p : List Bytes) : Bytes :=
  if p = [] then top
  else if top.getLast? = some 47 then top ++ pathText p
  else top ++ [47] ++ pathText p

/-- How a supported object must be listed; `none` for sockets, devices, ... -/
def listed (top : Bytes) (p : List Bytes) : FNode → Option LegEnt
  | .reg _ c => some ⟨fullPath top p, pathText p, .reg, [], c.length⟩
  | .lnk _ t => some ⟨fullPath top p, pathText p, .lnk, t, -2⟩
  | .dir _ _ _ => some ⟨fullPath top p, pathText p, .dir, [], -3⟩
  | .other _ => none

/-- No name on the path begins with a dot. -/
def NoHidden (p : List Bytes) : Prop := ∀ n ∈ p, n.head? ≠ some 46

end Parfu.LegacyScanSpec
