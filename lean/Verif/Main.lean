/-
Model of the command line of parfu 0.6 (parfu_parse_args.cc) and of rank 0's main program
(parfu_main_0_6_test.cc).
-/
import Verif.Protocol
set_option autoImplicit false

namespace Parfu

/-- The variables `parfu_parse_args` sets through its pointers.  `archive_file_multiplier` is never
touched. -/
structure Opts where
  bucket : Nat
  mx : Nat
  archive : Bytes
  deriving DecidableEq, Repr

/-- The flag texts of parfu_parse_args.cc:61, 67, 76. -/
def flagMax : Bytes := [109, 97, 120, 111, 114, 100, 101, 114, 115]
def flagBucket : Bytes := [98, 117, 99, 107, 101, 116, 115, 105, 122, 101]
def flagArchive : Bytes := [97, 114, 99, 104, 105, 118, 101, 102, 105, 108, 101]

/-- parfu_parse_args.cc:58-87: the three comparisons of the flag.  `none` is the `nullptr` return for
an invalid flag.  The rounding is in `unsigned long` arithmetic. -/
def setFlag (o : Opts) (flag value : Bytes) : Res (Option Opts) :=
  if flag = flagMax then
    match stoi value with
    | .error e => .error e
    | .ok v => .ok (some { o with mx := (v % 2 ^ 32).toNat })
  else if flag = flagBucket then
    match stoi value with
    | .error e => .error e
    | .ok v => .ok (some { o with bucket := nextBlock (u64 v) % 2 ^ 64 })
  else if flag = flagArchive then .ok (some { o with archive := value })
  else .ok none

/-- parfu_parse_args.cc:42-92: the loop over the arguments; `ts` is `target_list` so far.
`equals_position` is a 32-bit `unsigned`. -/
def parseArgs (ts : List Bytes) (o : Opts) : List Bytes → Res (Option (List Bytes × Opts))
  | [] => .ok (some (ts, o))
  | a :: rest =>
    if find32 a 61 0 > a.length then parseArgs (ts ++ [a]) o rest
    else
      match setFlag o (a.take (find32 a 61 0)) (a.drop ((find32 a 61 0 + 1) % 2 ^ 32)) with
      | .error e => .error e
      | .ok none => .ok none
      | .ok (some o') => parseArgs ts o' rest

/-- parfu_main_0_6_test.cc:29, 43-44: the defaults.  `max_orders_per_bucket` is not initialised: `mx0` is
whatever it holds. -/
def defaultOpts (mx0 : Nat) : Opts := ⟨4992000, mx0, []⟩

/-- parfu_main_0_6_test.cc:77-282: the program of rank 0 after `MPI_Init`, given the arguments
(without the program name), what is found at a path when it is scanned (`look`; a path at which
nothing can be opened is any object that is not a directory), and the stray bytes of C07.
A null plan is dereferenced (line 160).  Simplification: as everywhere in the model, a process that
ends or fails leaves the others running (an MPI launcher may kill them). -/
def bossMain (S : StdSort Ref) (g : Bytes → UInt8) (look : Bytes → FNode) (mx0 ranks : Nat)
    (args : List Bytes) : Boss :=
  match parseArgs [] (defaultOpts mx0) args with
  | .error e => .fail e
  | .ok none => .bcast (sendMsg [88] [97, 98, 111, 114, 116]) (.exit 1)
  | .ok (some (ts, o)) =>
    if o.archive.length < 1 then .exit 5
    else match ts with
      | [] => .exit 3
      | [t] =>
        match scan g t (look t) with
        | .error e => .fail e
        | .ok c =>
          match createOrders 0 o.bucket o.mx (setOffsets (orderFiles S c)) with
          | none => .fail .ub
          | some bundles => bossRun ranks o.bucket o.archive t (bundles.map printBundle)
      | _ :: _ :: _ => .exit 4

/-- parfu_main_0_6_test.cc:50-54: without arguments every process prints the usage and exits, before
`MPI_Init`, with status -42 (214). -/
def mainStart (S : StdSort Ref) (g : Bytes → UInt8) (look : Bytes → FNode) (mx0 ranks : Nat)
    (args : List Bytes) (file : Option Bytes) : Sys :=
  if args = [] then
    { Sys.start (.exit 214) file with w := fun _ => { WSt.init with stat := .ended 214 } }
  else Sys.start (bossMain S g look mx0 ranks args) file

end Parfu
