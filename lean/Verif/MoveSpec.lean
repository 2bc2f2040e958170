/-
Specification for data movement: what a file holds where, and what the archive must contain for an
object of the tree.
-/
import Verif.Move
import Verif.ScanSpec
import Verif.TarSpec
set_option autoImplicit false

namespace Parfu.MoveSpec
open Parfu TarSpec

/-- The bytes of `f` from offset `pos` on begin with `s`. -/
def Holds (f : Bytes) (pos : Nat) (s : Bytes) : Prop := (f.drop pos).take s.length = s

/-- Byte ranges `[a, a+m)` and `[c, c+n)` do not meet. -/
def Apart (a m c n : Nat) : Prop := a + m ≤ c ∨ c + n ≤ a

/-- The path under which an object is archived; directories get a trailing slash. -/
def archivedPath (base : Bytes) (p : List Bytes) : FNode → Bytes
  | .dir _ _ _ => if p = [] then base ++ [47] else base ++ [47] ++ ScanSpec.pathText p ++ [47]
  | _ => base ++ [47] ++ ScanSpec.pathText p

/-- The tar member an object must become; `none` if it is of an unsupported type or its owner is
unknown. -/
def memberOf (env : Env) (base : Bytes) (p : List Bytes) (n : FNode) : Option Member :=
  let mk := fun (m : Meta) (flag : UInt8) (link data : Bytes) =>
    match env.pwName m.uid, env.grName m.gid with
    | some u, some g => some
      { path := archivedPath base p n, flag := flag, linkpath := link, mode := m.perm % 4096, uid := m.uid,
        gid := m.gid, mtime := m.mtime.toNat, uname := u, gname := g, size := data.length, data := data : Member }
    | _, _ => none
  match n with
  | .reg m c => mk m 48 [] c
  | .lnk m t => mk m 50 t []
  | .dir m _ _ => mk m 53 [] []
  | .other _ => none

/-- Owner, group and time of an object are in the range a ustar header of parfu can hold, and the
owner's and group's names are known, NUL-free and at most 31 bytes long. -/
def MetaOk (env : Env) (m : Meta) : Prop :=
  m.uid < 2 ^ 21 ∧ m.gid < 2 ^ 21 ∧ 0 ≤ m.mtime ∧ m.mtime < 2 ^ 33 ∧
  (∃ u, env.pwName m.uid = some u ∧ (0:UInt8) ∉ u ∧ u.length ≤ 31) ∧
  (∃ g, env.grName m.gid = some g ∧ (0:UInt8) ∉ g ∧ g.length ≤ 31)

/-- Inode data of an object. -/
def metaOf : FNode → Meta
  | .reg m _ => m
  | .lnk m _ => m
  | .dir m _ _ => m
  | .other m => m

/-- One bundle carried out by some worker: the bundle, what was in the worker's (fresh) buffer, and
the write it made to the archive. -/
structure Task where
  bundle : List Order
  memory : Bytes
  write : WriteReq

/-- The text a worker gets for a bundle: sent by the boss as a 'C' message, received, without the
instruction letter. -/
def received (l : List Order) : Bytes := (recvMsg (sendMsg [67] (printBundle l))).drop 1

/-- Every bundle has been carried out exactly once, by workers whose buffers have `b` bytes with
arbitrary contents. -/
def Carried (env : Env) (fs : FS) (base : Bytes) (b : Nat) (bundles : List (List Order))
    (xs : List Task) : Prop :=
  xs.map Task.bundle = bundles ∧
  ∀ x ∈ xs, x.memory.length = b ∧ workerDo env fs base x.memory (received x.bundle) = .ok x.write

end Parfu.MoveSpec
