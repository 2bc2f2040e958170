/-
Model of parfu 0.5.1's scan: parfu_build_file_list_from_directory (parfu_file_list_utils.cc) with
`follow_symlinks` zero, as the program calls it (parfu_0_5_1_main_versA.c:136-139).
-/
import Verif.LegacyList
import Verif.Scan
set_option autoImplicit false

namespace Parfu

/-- One entry of `my_dir_list`: its `relative_filename`, `archive_filename` and the object the file
system has there. -/
structure QDir where
  rel : Bytes
  arc : Bytes
  node : FNode

/-- parfu_file_list_utils.cc:1335-1342: `!strncmp(d_name,".",1)`. -/
def isHidden (name : Bytes) : Bool := name.head? == some 46

/-- parfu_file_list_utils.cc:1353-1363 `next_relative_name`. -/
def legJoin (dir name : Bytes) : Bytes :=
  if dir.getLast? = some 47 then dir ++ name else dir ++ [47] ++ name

/-- parfu_primary.h:89-90. -/
def legSizeDir : Int := -3
def legSizeLink : Int := -2

/-- parfu_file_list_utils.cc:1388-1435, what one entry adds to the list of all files.
parfu_what_is_path (lines 418-475) reads a link's target into a buffer with room for the terminator
and writes the terminator, so the target is exact. -/
def addFound (l : FList) (r a : Bytes) : FNode → Res FList
  | .reg _ c => addName l .reg r a [] c.length
  | .lnk _ t => addName l .lnk r a t legSizeLink
  | .dir _ _ _ => addName l .dir r a [] legSizeDir
  | .other _ => .ok l

/-- parfu_file_list_utils.cc:1327-1439, the loop over the entries of directory `d`: what it adds to
the list of all files.  Simplification: what the same loop adds to `my_dir_list` is `subDirs`. -/
def addListing (d : QDir) (l : FList) : Kids → Res FList
  | .nil => .ok l
  | .cons name node rest =>
    if isHidden name then addListing d l rest
    else
      match addFound l (legJoin d.rel name) (joinRel d.arc name) node with
      | .error e => .error e
      | .ok l' => addListing d l' rest

/-- parfu_file_list_utils.cc:1407-1423: the sub-directories the loop appends to `my_dir_list`.
Simplification: `my_dir_list` is a plain list (adding to it never fails, C38). -/
def subDirs (d : QDir) : Kids → List QDir
  | .nil => []
  | .cons name node rest =>
    if isHidden name then subDirs d rest
    else
      match node with
      | .dir m o k => ⟨legJoin d.rel name, joinRel d.arc name, .dir m o k⟩ :: subDirs d rest
      | _ => subDirs d rest

mutual
/-- Number of directories in a tree (termination measure). -/
def FNode.dirs : FNode → Nat
  | .dir _ _ k => 1 + k.dirs
  | _ => 0
def Kids.dirs : Kids → Nat
  | .nil => 0
  | .cons _ n r => n.dirs + r.dirs
end

/-- Directories below a list of directories (termination measure). -/
def queueDirs (q : List QDir) : Nat := (q.map fun d => d.node.dirs).sum

theorem queueDirs_subDirs (d : QDir) : ∀ k : Kids, queueDirs (subDirs d k) ≤ k.dirs
  | .nil => by simp [subDirs, queueDirs, Kids.dirs]
  | .cons name node rest => by
    have ih := queueDirs_subDirs d rest
    unfold subDirs
    simp only [Kids.dirs]
    split
    · omega
    · cases node with
      | dir m o k => simp only [queueDirs, List.map_cons, List.sum_cons] at ih ⊢; omega
      | _ => simp only []; omega

/-- parfu_file_list_utils.cc:1318-1446, the loop over the growing `my_dir_list`; the argument is the
part not visited yet.  `none` is the NULL return for a directory that cannot be opened. -/
def scanQueue (l : FList) : List QDir → Res (Option FList)
  | [] => .ok (some l)
  | ⟨rel, arc, .dir m true kids⟩ :: rest =>
    match addListing ⟨rel, arc, .dir m true kids⟩ l kids with
    | .error e => .error e
    | .ok l' => scanQueue l' (rest ++ subDirs ⟨rel, arc, .dir m true kids⟩ kids)
  | _ :: _ => .ok none
termination_by q => queueDirs q
decreasing_by
  have h := queueDirs_subDirs ⟨rel, arc, .dir m true kids⟩ kids
  simp only [queueDirs, List.map_append, List.sum_append, List.map_cons, List.sum_cons, FNode.dirs] at h ⊢
  omega

/-- parfu_file_list_utils.cc:1244-1279: may this object be the top of a scan? -/
def topAllowed : Option FNode → Bool
  | some (.dir _ _ _) => true
  | some (.lnk _ _) => true
  | _ => false

/-- parfu_file_list_utils.cc:1186-1448 `parfu_build_file_list_from_directory(top, 0, ..)`.  `seen` is
what `lstat` finds at `top` (nothing, if it fails) and `opened` what `opendir(top)` would open, the
same object unless `top` is a link.  `none` is a NULL return. -/
def legacyScan (top : Bytes) (seen : Option FNode) (opened : FNode) : Res (Option FList) :=
  match createList 100 with
  | .error e => .error e
  | .ok none => .ok none
  | .ok (some l0) =>
    if topAllowed seen then
      match addName l0 .dir top [] [] legSizeDir with
      | .error e => .error e
      | .ok l1 => scanQueue l1 [⟨top, [], opened⟩]
    else .ok none

end Parfu
