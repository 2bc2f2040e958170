/-
File descriptors of rank 0 in parfu 0.6: `spider_directory` opens every directory and closes none
(parfu_file_system_classes.cc:268-441; there is no `closedir` in the program), and the archive is
opened after that (parfu_main_0_6_test.cc:217-233).
-/
import Verif.Main
set_option autoImplicit false

namespace Parfu

/-- parfu_file_system_classes.cc:321-411, the loop over the entries of a directory: the sub-files.
(`subdirectories` gets those entries that are directories; they are scanned after the loop.) -/
def loopFiles (g : Bytes → UInt8) (rel : Bytes) : Kids → Res (List Ent)
  | .nil => .ok []
  | .cons name node rest =>
    if isDots name then loopFiles g rel rest
    else match node with
      | .reg _ content =>
        match loopFiles g rel rest with
        | .error e => .error e
        | .ok fs => .ok (⟨joinRel rel name, .reg, [], content.length⟩ :: fs)
      | .lnk _ target =>
        match readTarget (g (joinRel rel name)) target with
        | .error e => .error e
        | .ok t =>
          match loopFiles g rel rest with
          | .error e => .error e
          | .ok fs => .ok (⟨joinRel rel name, .lnk, t, 0⟩ :: fs)
      | .dir _ _ _ => loopFiles g rel rest
      | .other _ => loopFiles g rel rest

/-- parfu_file_system_classes.cc:390-397: `PARFU_WHAT_IS_PATH_DIR`. -/
def isDirNode : FNode → Bool
  | .dir _ _ _ => true
  | .reg _ _ => false
  | .lnk _ _ => false
  | .other _ => false

mutual
/-- parfu_file_system_classes.cc:268-441 `spider_directory` in a process that can open `free` more
files: `opendir` (304) fails if the directory cannot be opened or no descriptor is left, and what it
opens stays open.  First the loop over all entries, then the sub-directories in turn (432-437).  Gives
the directory and how many files can still be opened. -/
def spiderFd (g : Bytes → UInt8) (rel : Bytes) : FNode → Nat → Res (PDir × Nat)
  | .dir _ openable kids, free =>
    if openable = true ∧ 0 < free then
      match loopFiles g rel kids with
      | .error e => .error e
      | .ok fs =>
        match spiderSubsFd g rel kids (free - 1) with
        | .error e => .error e
        | .ok (ds, left) => .ok (.mk ⟨rel, .dir, [], 0⟩ ds fs, left)
    else .ok (.mk ⟨rel, .dir, [], 0⟩ [] [], free)
  | .reg _ _, free => .ok (.mk ⟨rel, .dir, [], 0⟩ [] [], free)
  | .lnk _ _, free => .ok (.mk ⟨rel, .dir, [], 0⟩ [] [], free)
  | .other _, free => .ok (.mk ⟨rel, .dir, [], 0⟩ [] [], free)

/-- parfu_file_system_classes.cc:432-437: the loop over `subdirectories`, which are the entries of the
listing that are directories. -/
def spiderSubsFd (g : Bytes → UInt8) (rel : Bytes) : Kids → Nat → Res (List PDir × Nat)
  | .nil, free => .ok ([], free)
  | .cons name node rest, free =>
    if isDots name then spiderSubsFd g rel rest free
    else if isDirNode node then
      match spiderFd g (joinRel rel name) node free with
      | .error e => .error e
      | .ok (d, free') =>
        match spiderSubsFd g rel rest free' with
        | .error e => .error e
        | .ok (ds, left) => .ok (d :: ds, left)
    else spiderSubsFd g rel rest free
end

/-- parfu_main_0_6_test.cc:131-135: `spider_directory` and the target collection; as `scan`
(Verif/Scan.lean), with the descriptors that are left. -/
def scanFd (g : Bytes → UInt8) (base : Bytes) (root : FNode) (free : Nat) : Res (Coll × Nat) :=
  match spiderFd g [] root free with
  | .error e => .error e
  | .ok (d, left) =>
    match collect base d with
    | .error e => .error e
    | .ok c => .ok (c, left)

/-- parfu_main_0_6_test.cc:77-282, as `bossMain` (Verif/Main.lean), in a process that can open `free`
files at the start of the scan; with the number it can still open when it comes to the collective open
of the archive. -/
def bossMainFd (S : StdSort Ref) (g : Bytes → UInt8) (look : Bytes → FNode) (mx0 ranks free : Nat)
    (args : List Bytes) : Boss × Nat :=
  match parseArgs [] (defaultOpts mx0) args with
  | .error e => (.fail e, free)
  | .ok none => (.bcast (sendMsg [88] [97, 98, 111, 114, 116]) (.exit 1), free)
  | .ok (some (ts, o)) =>
    if o.archive.length < 1 then (.exit 5, free)
    else match ts with
      | [] => (.exit 3, free)
      | [t] =>
        match scanFd g t (look t) free with
        | .error e => (.fail e, free)
        | .ok (c, left) =>
          match createOrders 0 o.bucket o.mx (setOffsets (orderFiles S c)) with
          | none => (.fail .ub, left)
          | some bundles => (bossRun ranks o.bucket o.archive t (bundles.map printBundle), left)
      | _ :: _ :: _ => (.exit 4, free)

/-- As `mainStart` (Verif/Main.lean). -/
def mainStartFd (S : StdSort Ref) (g : Bytes → UInt8) (look : Bytes → FNode) (mx0 ranks free : Nat)
    (args : List Bytes) (file : Option Bytes) : Sys :=
  if args = [] then
    { Sys.start (.exit 214) file with w := fun _ => { WSt.init with stat := .ended 214 } }
  else Sys.start (bossMainFd S g look mx0 ranks free args).1 file

/-- parfu_main_0_6_test.cc:219-221: the collective open needs a descriptor in rank 0. -/
def Cfg.withLeft (c : Cfg) (left : Nat) : Cfg := { c with creatable := c.creatable && decide (0 < left) }

end Parfu
