/-
Model of parfu 0.5.1 as a program of several MPI ranks: what each rank does, collective operation
after collective operation (parfu_0_5_1_main_versA.c:66-287, parfu_data_transfer.cc:65-556), and how
ranks proceed together.
-/
import Verif.LegacyMove
import Mathlib.Logic.Function.Basic
set_option autoImplicit false

namespace Parfu

/-- What a rank does that others can notice. -/
inductive LAct where
  /-- `MPI_Bcast` from rank 0. -/
  | bcast
  /-- `MPI_Barrier`, the collective `MPI_File_open`, `MPI_Finalize`: nobody leaves before all are in. -/
  | sync
  /-- `MPI_File_write_at` on the archive. -/
  | write (w : WriteReq)
  deriving DecidableEq, Repr

/-- How a rank ends. -/
inductive LStop where
  /-- `main` returns. -/
  | exited (code : Int)
  /-- The process dies. -/
  | crashed (e : Err)
  /-- It would go on with what rank 0 sends, but rank 0 sends nothing. -/
  | noData
  deriving DecidableEq, Repr

/-- A rank's actions, in order, and its end. -/
structure RankProg where
  acts : List LAct
  stop : LStop
  deriving DecidableEq, Repr

/-- First these actions, then the rest. -/
def RankProg.after (as : List LAct) (p : RankProg) : RankProg := ⟨as ++ p.acts, p.stop⟩

/-- parfu_0_5_1_main_versA.c:131-173: rank 0's list: scan, fill in the names, sort. -/
def rank0List (Q : QSort Frag) (top : Bytes) (seen : Option FNode) (opened : FNode) : Except LStop (List Frag) :=
  match legacyScan top seen opened with
  | .error e => .error (.crashed e)
  | .ok none => .error (.exited 333)
  | .ok (some l) =>
    match fillRel top l.frags with
    | .error e => .error (.crashed e)
    | .ok es => .ok (qsortEntries Q es)

/-- parfu_data_transfer.cc:119-139: rank 0 makes the catalog and looks at the archive's name; an error
return makes `main` return 243 (main 264-273). -/
def rank0Catalog (nul : Bytes) (acc : Int) (arc : Bytes) (es : List Frag) : Except LStop Bytes :=
  match listToBuffer nul true acc es with
  | .error e => .error (.crashed e)
  | .ok none => .error (.exited 243)
  | .ok (some cat) => if arc = [] then .error (.exited 243) else .ok cat

/-- parfu_data_transfer.cc:293-350: rank 0 makes the layout, its catalog and the rank call list. -/
def rank0Plan (nul : Bytes) (bl acc : Int) (pad : Bytes) (es : List Frag) : Except LStop (Bytes × List Nat) :=
  match (splitList bl acc pad es >>? fun (gs, _) =>
    listToBuffer nul false acc (outFrags gs) >>? fun text =>
    rankCallList (outFrags gs) >>? fun call =>
    if checkCalls (outFrags gs) call = false then .ok none else .ok (some (text, call))) with
  | .error e => .error (.crashed e)
  | .ok none => .error (.exited 243)
  | .ok (some p) => .ok p

/-- parfu_data_transfer.cc:506-552 (`bucketsLoop`) with the writes that are made before an error. -/
def bucketsRun (L : LegEnv) (bl acc : Int) (dstart : Nat) (fr : List Frag) (call : List Nat) :
    List Nat → Bytes → List WriteReq × Option LStop
  | [], _ => ([], none)
  | i :: is, buf =>
    match oneBucket L bl acc dstart fr call i buf with
    | .error e => ([], some (.crashed e))
    | .ok none => ([], some (.exited 243))
    | .ok (some (buf', ws)) =>
      (ws ++ (bucketsRun L bl acc dstart fr call is buf').1, (bucketsRun L bl acc dstart fr call is buf').2)

/-- parfu_data_transfer.cc:352-442 and main 274-286: what every rank does from the broadcast of the
layout's catalog on. -/
def rankEnd (L : LegEnv) (bl acc : Int) (dstart : Nat) (text : Bytes) (call : List Nat) (n r : Nat) : RankProg :=
  .after [.bcast, .bcast] <|
  match readFullCatalog text with
  | .error e => ⟨[], .crashed e⟩
  | .ok none => ⟨[], .exited 243⟩
  | .ok (some (_, fr)) =>
    .after [.bcast, .bcast] <|
    if checkCalls fr call = false then ⟨[], .exited 243⟩
    else
      .after [.sync] <|
      .after ((bucketsRun L bl acc dstart fr call (rankBuckets n call.length r) (zeros acc.toNat)).1.map .write) <|
      match (bucketsRun L bl acc dstart fr call (rankBuckets n call.length r) (zeros acc.toNat)).2 with
      | some st => ⟨[], st⟩
      | none => ⟨[.sync, .sync], .exited 0⟩

/-- A rank that waits for a broadcast rank 0 never comes to. -/
def waits (r : Nat) (st : LStop) : RankProg := if r = 0 then ⟨[], st⟩ else ⟨[.bcast], .noData⟩

/-- parfu_data_transfer.cc:65-443 as rank `r` of `n` runs it; `openOk`: the archive can be opened (on
all ranks or none).
Simplification: a rank's later actions are written with the values rank 0 broadcasts. -/
def rankTransfer (L : LegEnv) (nul : Bytes) (bl acc : Int) (pad arc : Bytes) (es : List Frag) (n : Nat) (openOk : Bool)
    (r : Nat) : RankProg :=
  match rank0Catalog nul acc arc es with
  | .error st => waits r st
  | .ok cat =>
    .after [.bcast, .bcast, .sync] <|
    if openOk = false then ⟨[], .exited 243⟩
    else
      match frontWrites L bl.toNat acc.toNat cat with
      | .error e => waits r (.crashed e)
      | .ok front =>
        .after ((if r = 0 then front.map .write else []) ++ [.bcast]) <|
        match rank0Plan nul bl acc pad es with
        | .error st => waits r st
        | .ok (text, call) => rankEnd L bl acc (dataOffset acc.toNat (512 + cat.length)) text call n r

/-- parfu_0_5_1_main_versA.c:131-278: mode 'C' as rank `r` of `n` runs it. -/
def rankCreate (L : LegEnv) (Q : QSort Frag) (nul arc top : Bytes) (seen : Option FNode) (opened : FNode) (n : Nat)
    (openOk : Bool) (r : Nat) : RankProg :=
  match rank0List Q top seen opened with
  | .error st => waits r st
  | .ok es =>
    .after [.bcast, .bcast, .sync] <|
    rankTransfer L nul legBlock legBucket blockingName arc es n openOk r

/-- parfu_0_5_1_main_versA.c:66-287, `args` with the program's name first.  `tree` is what the
file system has at a path: what `lstat` and `opendir` find. -/
def rankMain (L : LegEnv) (Q : QSort Frag) (nul : Bytes) (tree : Bytes → Option FNode × FNode) (args : List Bytes)
    (n : Nat) (openOk : Bool) (r : Nat) : RankProg :=
  let mode : UInt8 := ((args[1]?.getD []).head?).getD 0
  if args.length < 3 ∨ (args.length = 3 ∧ mode ≠ 84) then ⟨[], .exited (-1)⟩
  else if mode = 67 then
    rankCreate L Q nul (args[2]?.getD []) (args[3]?.getD []) (tree (args[3]?.getD [])).1
      (tree (args[3]?.getD [])).2 n openOk r
  else if mode = 88 ∨ mode = 84 then ⟨[.sync], .exited 0⟩
  else if r = 0 then ⟨[], .exited (-2)⟩ else ⟨[.sync], .exited 0⟩

/-! ### ranks together -/

/-- Is it a collective operation? -/
def LAct.coll : LAct → Bool
  | .write _ => false
  | _ => true

/-- All ranks: what each has still to do, how many collective operations it has left behind, the
writes made so far (with the rank that made them), and the archive file. -/
structure LSys where
  todo : Nat → List LAct
  cnt : Nat → Nat
  log : List (Nat × WriteReq)
  file : Bytes

/-- Rank `r` has come to its collective operation number `c`. -/
def entered (s : LSys) (r c : Nat) : Prop :=
  c < s.cnt r ∨ (s.cnt r = c ∧ (s.todo r).head?.map LAct.coll = some true)

/-- May rank `r` leave the collective operation it is in?  The root of a broadcast may go on at once
(`eager`) or has to wait for all; others need the root; everything else waits for all. -/
def mayLeave (n : Nat) (eager : Bool) (s : LSys) (r : Nat) (a : LAct) : Prop :=
  match a with
  | .bcast => if r = 0 then eager = true ∨ ∀ q < n, entered s q (s.cnt r) else entered s 0 (s.cnt r)
  | _ => ∀ q < n, entered s q (s.cnt r)

/-- One step of one of the `n` ranks. -/
inductive LStep (n : Nat) (eager : Bool) : LSys → LSys → Prop
  | write {s : LSys} {r : Nat} {w : WriteReq} {k : List LAct} (hr : r < n) (h : s.todo r = .write w :: k) :
      LStep n eager s ⟨Function.update s.todo r k, s.cnt, s.log ++ [(r, w)], writeAt s.file w⟩
  | leave {s : LSys} {r : Nat} {a : LAct} {k : List LAct} (hr : r < n) (h : s.todo r = a :: k)
      (hc : a.coll = true) (hl : mayLeave n eager s r a) :
      LStep n eager s ⟨Function.update s.todo r k, Function.update s.cnt r (s.cnt r + 1), s.log, s.file⟩

/-- The beginning: nobody has done anything, the file holds `old` (nothing, if it is new). -/
def LSys.start (P : Nat → RankProg) (old : Bytes) : LSys := ⟨fun r => (P r).acts, fun _ => 0, [], old⟩

/-- The states a run of the programs `P` on `n` ranks can get to. -/
inductive LReach (P : Nat → RankProg) (n : Nat) (eager : Bool) (old : Bytes) : LSys → Prop
  | start : LReach P n eager old (.start P old)
  | step {s t : LSys} : LReach P n eager old s → LStep n eager s t → LReach P n eager old t

/-- Rank `r` has come to its end. -/
def LSys.ended (s : LSys) (r : Nat) : Prop := s.todo r = []

end Parfu
