/-
Model of parfu_behavior_control.c: the option structure of the benchmark programs and its parser.
The file is declared in parfu_primary.h (400-411) but linked into neither program, and four of its
constants are commented out in parfu_primary.h at this commit; the model uses the values in those
comments.  `malloc` and `realloc` succeed.
-/
import Verif.March
set_option autoImplicit false

namespace Parfu

/-- parfu_primary.h:381-398 `parfu_behavior_control_t`.  Each of the three arrays is its allocation's
size in bytes and the values stored in it; each string is the contents of its allocation. -/
structure Behav where
  trial : Bool
  /-- `'\0'` is `none`. -/
  mode : Option UInt8
  iterGiven : Bool
  iters : Int
  overwrite : Bool
  targetDir : Option Bytes
  dataOut : Option Bytes
  toStdout : Bool
  arrayLen : Nat
  arcBytes : Nat
  arcs : List Bytes
  expBytes : Nat
  exps : List Int
  bpfBytes : Nat
  bpfs : List Int
  deriving DecidableEq, Repr

/-- parfu_behavior_control.c:95-153 `parfu_init_behavior_control_raw`. -/
def behavNew (n : Int) : Option Behav :=
  if n < 1 then none
  else some { trial := false, mode := none, iterGiven := false, iters := -1, overwrite := false,
              targetDir := none, dataOut := none, toStdout := false, arrayLen := n.toNat,
              arcBytes := 8 * n.toNat, arcs := [], expBytes := 4 * n.toNat, exps := [],
              bpfBytes := 4 * n.toNat, bpfs := [] }

/-- parfu_behavior_control.c:68-70: the pointers `i` up to `new_length` are set to NULL in an
allocation of `bytes` bytes; `k` is how many remain. -/
def nullPointers (bytes : Nat) : Nat → Nat → Res Unit
  | _, 0 => .ok ()
  | i, k + 1 => if 8 * (i + 1) ≤ bytes then nullPointers bytes (i + 1) k else .error .ub

/-- parfu_behavior_control.c:37-93 `parfu_behav_extend_array`: `none` is the return value 1.  The array
of pointers is given `sizeof(char)` times its new length.  Signed overflow is undefined. -/
def behavExtend (b : Behav) : Res (Option Behav) :=
  let new := b.arrayLen * 2
  if 2 ^ 31 ≤ new then .error .ub
  else if new < 1 ∨ new ≤ b.arrayLen then .ok none
  else
    match nullPointers new b.arrayLen (new - b.arrayLen) with
    | .error e => .error e
    | .ok _ => .ok (some { b with arrayLen := new, arcBytes := new, expBytes := 4 * new,
                                  bpfBytes := 4 * new })

/-- parfu_behavior_control.c:173-180, 204-211, 231-238: make room if the array is full. -/
def behavRoom (b : Behav) (used : Nat) : Res (Option Behav) :=
  if used = b.arrayLen then behavExtend b else .ok (some b)

/-- parfu_behavior_control.c:155-184 `parfu_behav_add_min_expon`. -/
def addMinExpon (b : Behav) (v : Int) : Res (Option Behav) :=
  if v < 8 ∨ v > 26 then .ok none
  else
    match behavRoom b b.exps.length with
    | .error e => .error e
    | .ok none => .ok none
    | .ok (some b) =>
      if 4 * (b.exps.length + 1) ≤ b.expBytes then .ok (some { b with exps := b.exps ++ [v] })
      else .error .ub

/-- parfu_behavior_control.c:186-215 `parfu_behav_add_bl_per_frag`. -/
def addBlPerFrag (b : Behav) (v : Int) : Res (Option Behav) :=
  if v < 1 ∨ v > 2000 then .ok none
  else
    match behavRoom b b.bpfs.length with
    | .error e => .error e
    | .ok none => .ok none
    | .ok (some b) =>
      if 4 * (b.bpfs.length + 1) ≤ b.bpfBytes then .ok (some { b with bpfs := b.bpfs ++ [v] })
      else .error .ub

/-- parfu_behavior_control.c:217-248 `parfu_behav_add_arc_file`: `name` is the text without its NUL,
and only that is allocated and copied. -/
def addArcFile (b : Behav) (name : Bytes) : Res (Option Behav) :=
  match behavRoom b b.arcs.length with
  | .error e => .error e
  | .ok none => .ok none
  | .ok (some b) =>
    if 8 * (b.arcs.length + 1) ≤ b.arcBytes then .ok (some { b with arcs := b.arcs ++ [name] })
    else .error .ub

/-- parfu_behavior_control.c:296-303, 313-320: `malloc(strlen(s))`, then `strlen(s)+1` bytes are
copied. -/
def copyOption (s : Bytes) : Res Bytes :=
  if s.length + 1 ≤ s.length then .ok (s ++ [0]) else .error .ub

/-- `atoi`: white space, sign, digits; 0 without digits; undefined outside `int`. -/
def atoi (s : Bytes) : Res Int :=
  let t := s.dropWhile isSpace
  let neg := t.head? == some 45
  let u := if t.head? = some 45 ∨ t.head? = some 43 then t.drop 1 else t
  match readNum 10 u with
  | none => .ok 0
  | some (n, _) =>
    let v : Int := if neg then -(n : Int) else (n : Int)
    if -(2 ^ 31) ≤ v ∧ v < 2 ^ 31 then .ok v else .error .ub

/-- What `getopt` with "CXd:f:F:N:e:B:TSL:" delivers, one after the other. -/
inductive BOpt where
  | create | extract | trial | stdout
  | dataOut (a : Bytes) | targetDir (a : Bytes) | arc (a : Bytes) | arcOver (a : Bytes)
  | expon (a : Bytes) | blocks (a : Bytes) | iters (a : Bytes)
  /-- `'?'`: unknown option or missing argument. -/
  | bad
  deriving DecidableEq, Repr

/-- parfu_behavior_control.c:268-417: one option; `none` is `return NULL`. -/
def behavOpt (b : Behav) : BOpt → Res (Option Behav)
  | .create => .ok (if b.mode = none then some { b with mode := some 67 } else none)
  | .extract => .ok (if b.mode = none then some { b with mode := some 88 } else none)
  | .trial => .ok (some { b with trial := true })
  | .stdout => .ok (some { b with toStdout := true })
  | .dataOut a =>
    if b.dataOut = none then
      match copyOption a with
      | .error e => .error e
      | .ok s => .ok (some { b with dataOut := some s })
    else .ok none
  | .targetDir a =>
    if b.targetDir = none then
      match copyOption a with
      | .error e => .error e
      | .ok s => .ok (some { b with targetDir := some s })
    else .ok none
  | .arcOver a => addArcFile { b with overwrite := true } a
  | .arc a => addArcFile b a
  | .expon a =>
    match atoi a with
    | .error e => .error e
    | .ok v => if v < 8 ∨ v > 26 then .ok none else addMinExpon b v
  | .blocks a =>
    match atoi a with
    | .error e => .error e
    | .ok v => if v < 1 ∨ v > 2000 then .ok none else addBlPerFrag b v
  | .iters a =>
    if b.iterGiven then .ok none
    else
      match atoi a with
      | .error e => .error e
      | .ok v => if v < 1 ∨ v > 1000 then .ok none else .ok (some { b with iters := v, iterGiven := true })
  | .bad => .ok none

/-- parfu_behavior_control.c:268-417: the `while` loop. -/
def behavLoop : List BOpt → Behav → Res (Option Behav)
  | [], b => .ok (some b)
  | o :: os, b =>
    match behavOpt b o with
    | .error e => .error e
    | .ok none => .ok none
    | .ok (some b') => behavLoop os b'

/-- parfu_behavior_control.c:250-432 `parfu_parse_arguments` (the non-option arguments at the end only
cause messages).  The array length is parfu_primary.h:374. -/
def behavParse (os : List BOpt) : Res (Option Behav) :=
  match behavNew 10 with
  | none => .ok none
  | some b => behavLoop os b

/-- Reading an allocation as a C string: undefined if it has no NUL. -/
def readCStr (alloc : Bytes) : Res Bytes :=
  if 0 ∈ alloc then .ok (alloc.takeWhile (· ≠ 0)) else .error .ub

end Parfu
