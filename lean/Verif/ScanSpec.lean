/-
Specification of what a scan must find: which objects a tree contains, and at which paths.
Only the data types of the file system and of entries are taken from the model.
-/
import Verif.Scan
set_option autoImplicit false

namespace Parfu.ScanSpec
open Parfu

/-- `name` is a real child name in a listing (not `.` or `..`) and `c` the object there. -/
inductive Child : Kids → Bytes → FNode → Prop where
  | here {name node rest} (h1 : name ≠ [46]) (h2 : name ≠ [46, 46]) :
      Child (.cons name node rest) name node
  | there {name node rest n c} (h : Child rest n c) : Child (.cons name node rest) n c

/-- Object `n` is found in tree `t` by following the list of names. -/
inductive At : FNode → List Bytes → FNode → Prop where
  | self (t : FNode) : At t [] t
  | step {m o kids name c p n} (h : Child kids name c) (h' : At c p n) :
      At (.dir m o kids) (name :: p) n

/-- The path as text: the names separated by `/`. -/
def pathText : List Bytes → Bytes
  | [] => []
  | [a] => a
  | a :: b :: r => a ++ [47] ++ pathText (b :: r)

/-- How a supported object must be listed; `none` for sockets, devices, ... -/
def describe (p : List Bytes) : FNode → Option Ent
  | .reg _ c => some { rel := pathText p, kind := .reg, target := [], size := c.length }
  | .lnk _ t => some { rel := pathText p, kind := .lnk, target := t, size := 0 }
  | .dir _ _ _ => some { rel := pathText p, kind := .dir, target := [], size := 0 }
  | .other _ => none

/-- The real names of a listing. -/
def names : Kids → List Bytes
  | .nil => []
  | .cons n _ r => if n = [46] ∨ n = [46, 46] then names r else n :: names r

/-- A legal file name. -/
def NameOk (n : Bytes) : Prop := n ≠ [] ∧ (47:UInt8) ∉ n ∧ (0:UInt8) ∉ n

mutual
/-- A legal file system tree: in each directory real names are legal and distinct. -/
def TreeOk : FNode → Prop
  | .dir _ _ kids => (names kids).Nodup ∧ KidsOk kids
  | _ => True
def KidsOk : Kids → Prop
  | .nil => True
  | .cons n c r => ((n ≠ [46] ∧ n ≠ [46, 46]) → NameOk n ∧ TreeOk c) ∧ KidsOk r
end

mutual
/-- Every directory below can be opened. -/
def Openable : FNode → Prop
  | .dir _ o kids => o = true ∧ OpenableK kids
  | _ => True
def OpenableK : Kids → Prop
  | .nil => True
  | .cons n c r => ((n ≠ [46] ∧ n ≠ [46, 46]) → Openable c) ∧ OpenableK r
end

/-- Object `n` is found in tree `t` by following the list of names through directories that can be
opened (what `find` would visit). -/
inductive Seen : FNode → List Bytes → FNode → Prop where
  | self (t : FNode) : Seen t [] t
  | step {m kids name c p n} (h : Child kids name c) (h' : Seen c p n) :
      Seen (.dir m true kids) (name :: p) n

/-- Path `b` names something directly inside the directory with path `a` (the empty path is the
target directory itself). -/
def ParentOf (a b : Bytes) : Prop :=
  ∃ n, NameOk n ∧ ((a = [] ∧ b = n) ∨ (a ≠ [] ∧ b = a ++ [47] ++ n))

/-- The root of a scan is a directory. -/
def IsDir : FNode → Prop
  | .dir _ _ _ => True
  | _ => False

end Parfu.ScanSpec
