/-
Specification for whole runs of parfu 0.5.1: what a tree must be like to be archived.
`memberOf` (MoveSpec) is the tar member an object must become.
-/
import Verif.LegacyScanSpec
import Verif.LegacyMove
import Verif.MoveSpec
set_option autoImplicit false

namespace Parfu.LegacyRunSpec
open Parfu ScanSpec LegacyScanSpec MoveSpec TarSpec

/-- The name of the directory that is archived, without a slash at its end. -/
def baseOf (top : Bytes) : Bytes := if top.getLast? = some 47 then top.dropLast else top

/-- An object of the tree that the scan gets to see: no name on the way to it begins with a dot. -/
def Visible (root : FNode) (p : List Bytes) (n : FNode) : Prop := At root p n ∧ NoHidden p

/-- Everything about the tree, its place in the file system and its owners that a run relies on.
`fs` does not change during the run. -/
structure LegArchivable (env : Env) (fs : FS) (top : Bytes) (root : FNode) : Prop where
  isDir : IsDir root
  treeOk : TreeOk root
  opened : ∀ p m o k, Visible root p (.dir m o k) → o = true
  /-- the tree is what is found below the directory -/
  fs : ∀ p n, Visible root p n → fs (baseOf top ++ [47] ++ pathText p) = some n
  top_ne : top ≠ []
  top_chars : (0:UInt8) ∉ top ∧ (9:UInt8) ∉ top
  /-- PATH_MAX -/
  paths : ∀ p n, Visible root p n → (archivedPath (baseOf top) p n).length ≤ 4096
  /-- no directory has one of the nine lengths for which too short a header is planned (C05, C63) -/
  dirs : ∀ p m o k, Visible root p (.dir m o k) → (fullPath top p).getLast? ≠ some 47 →
    (fullPath top p).length ∉ badDirLengths
  links : ∀ p m t, Visible root p (.lnk m t) → t.length < 4096 ∧ (0:UInt8) ∉ t ∧ (9:UInt8) ∉ t
  /-- no TAB in a name -/
  noTab : ∀ p n, Visible root p n → (9:UInt8) ∉ pathText p
  owners : ∀ p n, Visible root p n → describe p n ≠ none → MetaOk env (metaOf n)
  sizes : ∀ p m c, Visible root p (.reg m c) → c.length < 2 ^ 33 - 1
  /-- the directory is not empty -/
  nonempty : ∃ p n, p ≠ [] ∧ Visible root p n ∧ describe p n ≠ none

/-- Members parfu puts in an archive for itself: regular files ".parfu_catalog" and ".parfu_spacer ". -/
def ownMember (m : TarSpec.Member) : Bool :=
  m.flag = 48 ∧ (m.path = [46, 112, 97, 114, 102, 117, 95, 99, 97, 116, 97, 108, 111, 103] ∨
    m.path = [46, 112, 97, 114, 102, 117, 95, 115, 112, 97, 99, 101, 114, 32])

/-- What `lstat` finds at the directory's name: a directory, or a link (to one). -/
def DirOrLink : Option FNode → Prop
  | some (.dir _ _ _) => True
  | some (.lnk _ _) => True
  | _ => False

/-- The number of bytes of a regular file, 0 for anything else. -/
def fileLength : FNode → Nat
  | .reg _ c => c.length
  | _ => 0

/-- What a run relies on besides the tree: closing an unset handle is harmless, times are below 2^64,
and the text `printf` gives for a NULL string has neither NUL nor TAB in it. -/
structure Platform (L : LegEnv) (nul : Bytes) : Prop where
  lax : L.strict = false
  clock : ∀ i, L.now i < 2 ^ 64
  clockCat : L.nowCat < 2 ^ 64
  clockGap : L.nowGap < 2 ^ 64
  nul : (0:UInt8) ∉ nul ∧ (9:UInt8) ∉ nul

/-- `ms` are the members the visible objects of the tree must become, each exactly once. -/
def MembersOf (env : Env) (top : Bytes) (root : FNode) (ms : List TarSpec.Member) : Prop :=
  (∀ m, m ∈ ms ↔ ∃ p n, Visible root p n ∧ memberOf env (baseOf top) p n = some m) ∧
  (ms.map TarSpec.Member.path).Nodup

end Parfu.LegacyRunSpec
