/-
Specification: extracting an archive with a tar program, one member after the other, into a place where
nothing is in the way.  Nothing here models code of /repo (parfu itself cannot extract).
-/
import Verif.MoveSpec
set_option autoImplicit false

namespace Parfu.ExtractSpec
open Parfu TarSpec ScanSpec

inductive ObjKind where
  | file
  | link
  | dir
  deriving DecidableEq, Repr

/-- An object as extraction creates it; `text` is a file's contents or a link's target. -/
structure Obj where
  kind : ObjKind
  mode : Nat
  uid : Nat
  gid : Nat
  mtime : Nat
  text : Bytes
  deriving DecidableEq, Repr

/-- The object an object of the tree must be extracted as; `none` for sockets, devices, ... -/
def objOf : FNode → Option Obj
  | .reg m c => some ⟨.file, m.perm % 4096, m.uid, m.gid, m.mtime.toNat, c⟩
  | .lnk m t => some ⟨.link, m.perm % 4096, m.uid, m.gid, m.mtime.toNat, t⟩
  | .dir m _ _ => some ⟨.dir, m.perm % 4096, m.uid, m.gid, m.mtime.toNat, []⟩
  | .other _ => none

/-- What a tar program makes of a member, by its type flag (numeric owners). -/
def memberObj (m : Member) : Option Obj :=
  if m.flag = 48 then some ⟨.file, m.mode, m.uid, m.gid, m.mtime, m.data⟩
  else if m.flag = 50 then some ⟨.link, m.mode, m.uid, m.gid, m.mtime, m.linkpath⟩
  else if m.flag = 53 then some ⟨.dir, m.mode, m.uid, m.gid, m.mtime, []⟩
  else none

/-- The path without a slash at its end. -/
def bare (path : Bytes) : Bytes := if path.getLast? = some 47 then path.dropLast else path

/-- The path up to the last slash; empty if there is none (the directory one is in). -/
def dirPart (path : Bytes) : Bytes := ((path.reverse.dropWhile (· ≠ 47)).drop 1).reverse

/-- What extraction has created so far, by path. -/
abbrev World := Bytes → Option Obj

/-- Extract one member: its directory must be there (`here`: already before the extraction), and its
own name must be free, or that of a file which a file replaces. -/
def extractOne (here : Bytes → Bool) (w : World) (m : Member) : Option World :=
  let name := bare m.path
  if here (dirPart name) = true ∨ (w (dirPart name)).any (fun o => o.kind = .dir) then
    match memberObj m with
    | none => none
    | some o =>
      match w name with
      | none => some (fun x => if x = name then some o else w x)
      | some old =>
        if old.kind = .file ∧ o.kind = .file then some (fun x => if x = name then some o else w x) else none
  else none

/-- Extract all members in order; `none` if one cannot be extracted. -/
def extract (here : Bytes → Bool) (w : World) : List Member → Option World
  | [] => some w
  | m :: ms => match extractOne here w m with
    | none => none
    | some w' => extract here w' ms

/-- Where the object at path `p` of the tree archived as `base` ends up. -/
def placeOf (base : Bytes) (p : List Bytes) : Bytes := if p = [] then base else base ++ [47] ++ pathText p

end Parfu.ExtractSpec
