/-
Model of the 0.6 scan: a file system tree, Parfu_directory::spider_directory and the constructor of
Parfu_target_collection (parfu_file_system_classes.cc), with parfu_what_is_path
(parfu_2021_legacy.cc).
-/
import Verif.Tar
set_option autoImplicit false

namespace Parfu

/-- Inode data other than type and size. -/
structure Meta where
  perm : Nat
  uid : Nat
  gid : Nat
  mtime : Int
  deriving DecidableEq, Repr

mutual
/-- A file system object.  A directory has the listing `readdir` returns (which may contain `.` and
`..`, in any order) and says whether `opendir` succeeds. -/
inductive FNode where
  | reg (m : Meta) (content : Bytes)
  | lnk (m : Meta) (target : Bytes)
  | dir (m : Meta) (openable : Bool) (kids : Kids)
  | other (m : Meta)
/-- A directory listing. -/
inductive Kids where
  | nil
  | cons (name : Bytes) (node : FNode) (rest : Kids)
end

/-- parfu_file_system_classes.hh:98-177, the members of `Parfu_storage_entry` that matter here:
`relative_path`, `entry_type_value`, `symlink_target`, `file_size` (`base_path` is the same
everywhere and kept separately). -/
structure Ent where
  rel : Bytes
  kind : Kind
  target : Bytes
  size : Nat
  deriving DecidableEq, Repr

/-- parfu_file_system_classes.hh:376-451 `Parfu_directory`: its entry, `subdirectories`,
`subfiles`. -/
inductive PDir where
  | mk (ent : Ent) (subs : List PDir) (files : List Ent)

namespace PDir
def ent : PDir → Ent
  | mk e _ _ => e
/-- `subdirectories`, accessed by `N_subdirs`/`nth_subdir`. -/
def subs : PDir → List PDir
  | mk _ s _ => s
/-- `subfiles`, accessed by `N_subfiles`/`nth_subfile`. -/
def files : PDir → List Ent
  | mk _ _ f => f
end PDir

/-- parfu_file_system_classes.cc:329-336: is the name "." or ".."? -/
def isDots (name : Bytes) : Bool := name == [46] || name == [46, 46]

/-- parfu_file_system_classes.cc:341-350 `entry_relative_name`. -/
def joinRel (rel name : Bytes) : Bytes :=
  if rel.length = 0 then name else rel ++ [47] ++ name

/-- parfu_2021_legacy.cc:65-83: `readlink` fills all but the last byte of a fresh heap buffer and no
terminator is written; `g` is the byte that happens to be there.  If it is not NUL, constructing
the string reads past the buffer. -/
def readTarget (g : UInt8) (target : Bytes) : Res Bytes :=
  if g = 0 then .ok target else .error .ub

/-- parfu_file_system_classes.cc:367-411, the switch on the type of one entry: what it adds to
`subdirectories` and `subfiles`.  `dres` is the scan of the entry if it is a directory, `kres` what
the rest of the listing gives. -/
def addKid (g : Bytes → UInt8) (r : Bytes) (node : FNode) (dres : Res PDir)
    (kres : Res (List PDir × List Ent)) : Res (List PDir × List Ent) :=
  match kres with
  | .error e => .error e
  | .ok (ds, fs) =>
    match node with
    | .reg _ content => .ok (ds, ⟨r, .reg, [], content.length⟩ :: fs)
    | .lnk _ target =>
      match readTarget (g r) target with
      | .error e => .error e
      | .ok t => .ok (ds, ⟨r, .lnk, t, 0⟩ :: fs)
    | .dir _ _ _ =>
      match dres with
      | .error e => .error e
      | .ok d => .ok (d :: ds, fs)
    | .other _ => .ok (ds, fs)

mutual
/-- parfu_file_system_classes.cc:268-441 `spider_directory` of the directory with relative path
`rel`.  `g` gives the uninitialised heap byte met when the link at a path is read.
`opendir` failing leaves the directory empty and the error is ignored by the caller (line 436).
Simplification: a sub-directory is scanned when it is met rather than after the loop (lines
432-437); the result is the same (`spiderFd_eq` in DescriptorsLemmas.lean: the two loops in the order of
the code give this scan). -/
def spiderDir (g : Bytes → UInt8) (rel : Bytes) : FNode → Res PDir
  | .dir _ openable kids =>
    if openable then
      match spiderKids g rel kids with
      | .error e => .error e
      | .ok (ds, fs) => .ok (.mk ⟨rel, .dir, [], 0⟩ ds fs)
    else .ok (.mk ⟨rel, .dir, [], 0⟩ [] [])
  | _ => .ok (.mk ⟨rel, .dir, [], 0⟩ [] [])   -- opendir of a non-directory fails

/-- parfu_file_system_classes.cc:321-437, the loop over the directory's entries; gives the
sub-directories (scanned) and the sub-files, in listing order. -/
def spiderKids (g : Bytes → UInt8) (rel : Bytes) : Kids → Res (List PDir × List Ent)
  | .nil => .ok ([], [])
  | .cons name node rest =>
    if isDots name then spiderKids g rel rest
    else addKid g (joinRel rel name) node (spiderDir g (joinRel rel name) node)
      (spiderKids g rel rest)
end

mutual
/-- Number of directories in a scanned tree (termination measure). -/
def PDir.count : PDir → Nat
  | .mk _ subs _ => 1 + PDir.countL subs
def PDir.countL : List PDir → Nat
  | [] => 0
  | d :: ds => d.count + PDir.countL ds
end

theorem PDir.countL_append (xs ys : List PDir) :
    PDir.countL (xs ++ ys) = PDir.countL xs + PDir.countL ys := by
  induction xs with
  | nil => simp [PDir.countL]
  | cons x xs ih => simp [PDir.countL, ih]; omega

theorem PDir.count_eq (d : PDir) : d.count = 1 + PDir.countL d.subs := by
  cases d; simp [PDir.count, PDir.subs]

/-- parfu_file_system_classes.cc:507-522: the loop `for(myiter=0; myiter < directories.size(); ...)`
that appends the sub-directories of `directories[myiter]` to the growing vector. -/
def bfsLoop (dirs : List PDir) (i : Nat) : List PDir :=
  if h : i < dirs.length then bfsLoop (dirs ++ dirs[i].subs) (i + 1) else dirs
termination_by PDir.countL (dirs.drop i)
decreasing_by
  rw [List.drop_append_of_le_length (by omega), PDir.countL_append,
    List.drop_eq_getElem_cons h]
  simp only [PDir.countL]
  rw [PDir.count_eq]; omega

/-- parfu_file_system_classes.hh:457-467 `Parfu_storage_reference` as the constructor leaves it:
`order_size` and the entry, with the cached `tar_header_size` of the entry. -/
structure Ref where
  orderSize : Int
  ent : Ent
  hdr : Nat
  deriving DecidableEq, Repr

/-- parfu_file_system_classes.hh:101-103 `absolute_path`. -/
def absolutePath (base : Bytes) (e : Ent) : Bytes := base ++ [47] ++ e.rel

/-- parfu_file_system_classes.cc:214-222 `header_size`. -/
def headerSize (base : Bytes) (e : Ent) : Res Nat :=
  computeHdrSize (absolutePath base e) e.target (e.size : Int)

/-- parfu_main.hh:88-89. -/
def orderSizeSymlink : Int := -11
def orderSizeDir : Int := -12

/-- parfu_file_system_classes.cc:534-547 (files) and 495-498, 515-521 (directories): make a
reference; `is_symlink()` means the link target is not empty (hh:232-237). -/
def mkRef (base : Bytes) (e : Ent) : Res Ref := do
  let h ← headerSize base e
  let os := if e.kind = .dir then orderSizeDir
            else if e.target.length > 0 then orderSizeSymlink else (e.size : Int)
  return { orderSize := os, ent := e, hdr := h }

/-- `mapM` for results, by recursion. -/
def mapRes {α β : Type} (f : α → Res β) : List α → Res (List β)
  | [] => .ok []
  | a :: as =>
    match f a with
    | .error e => .error e
    | .ok b =>
      match mapRes f as with
      | .error e => .error e
      | .ok bs => .ok (b :: bs)

/-- parfu_file_system_classes.hh:553-554 the two vectors of `Parfu_target_collection`. -/
structure Coll where
  dirs : List Ref
  files : List Ref
  deriving DecidableEq, Repr

/-- parfu_file_system_classes.cc:443-550, the constructor of `Parfu_target_collection` from a
scanned directory: directories breadth first, then the files of each directory in that order. -/
def collect (base : Bytes) (root : PDir) : Res Coll :=
  match mapRes (mkRef base) ((bfsLoop [root] 0).map PDir.ent) with
  | .error e => .error e
  | .ok ds =>
    match mapRes (mkRef base) ((bfsLoop [root] 0).flatMap PDir.files) with
    | .error e => .error e
    | .ok fs => .ok { dirs := ds, files := fs }

/-- parfu_main_0_6_test.cc:119, 145-149: scan the target directory and build the collection. -/
def scan (g : Bytes → UInt8) (base : Bytes) (root : FNode) : Res Coll :=
  match spiderDir g [] root with
  | .error e => .error e
  | .ok d => collect base d

end Parfu
